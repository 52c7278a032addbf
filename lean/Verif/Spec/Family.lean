import Verif.Spec.Smooth
import Verif.Spec.Pkf

/-!
# Specification: dynamics along a family of states

The fields take the values `E[f] + ε e_f`; every quantity is a function of `ε` and of the coordinates, with the meaning of ordinary
calculus: pointwise operations and partial derivatives.
-/

set_option autoImplicit false

namespace Sympkf.Spec.Smooth

open Text Rand PKF

variable {V : Type} [NormedAddCommGroup V] [NormedSpace ℝ V] {Ω : Type} [Fintype Ω]

/-- Powers of real numbers. -/
noncomputable def realPow (y : ℝ) (q : ℚ) : ℝ := if q.den = 1 ∧ 0 ≤ q.num then y ^ q.num.toNat else y ^ (q : ℝ)

/-- Random functions of `(ε, p)`, where `p` is the position. -/
noncomputable def family (w : Ω → F V) (d : Str → V) (S : Interp (Ω → F V)) (fields : List Field) : Interp (Ω → ℝ × V → ℝ) where
  sym s := fun ω z => (S.sym s ω : V → ℝ) z.2
  fn u args := fun ω z =>
    if (⟨u, args⟩ : Field) ∈ fields then
      (S.E (den S (Field.random ⟨u, args⟩)) ω : V → ℝ) z.2 + z.1 * (den S (Field.error ⟨u, args⟩) ω : V → ℝ) z.2
    else (S.fn u args ω : V → ℝ) z.2
  func g r := fun ω z => realFunc g (r ω z)
  pw r q := fun ω z => realPow (r ω z) q
  D x r := fun ω z => fderiv ℝ (r ω) z (0, d x)
  I _ _ := 0
  E r := fun _ z => ∑ ω, (w ω : V → ℝ) z.2 * r ω z
  other _ := 0

end Sympkf.Spec.Smooth
