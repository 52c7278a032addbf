import Verif.Spec.Observe
import Verif.Spec.FullyDiscrete

/-!
# Specification: the statistics of a random state, followed in time
-/

set_option autoImplicit false

namespace Sympkf.Spec

open Text Rand PKF

variable {R : Type} [CommRing R] [Algebra ℚ R]

/-- A random state observed at all the times: `obs τ r` is the field `r` at the time `τ`, as a function on space (`Observed`).  The
derivative with respect to the time is the derivative of the observations; the statistics and the other functions are smooth in time
and space together. -/
structure Filmed (S : Interp R) (P : Set R) (C : Set Str) (K : Pkf) (user : Dict Ex Ex) (T : Field → ℕ → ℕ → Ex) (space : List Str)
    (σ : Str → ℝ) (obs : ℝ → R →+* ((Fin space.length → ℝ) → ℝ)) (ℓ : Fin space.length → ℝ) : Prop where
  observed : ∀ τ, Observed S P C K user T space (Function.update σ time τ) (obs τ) ℓ
  evolves : ∀ r τ p, HasDerivAt (fun s => obs s r p) (obs τ (S.D time r) p) τ
  smooth : ∀ u args, .fn u args ∈ K.fields.map Field.value ++ K.fields.map Field.variance ++ crossCovariances (time :: space) K.fields ++
      tensorComponents K.fields T ∨ Given K user u args → PDE.SmoothFamily (fun τ => obs τ (S.fn u args))

/-- The true values of the quantities `us` on the grid, at the time `τ`. -/
noncomputable def truth {d : ℕ} (obs : ℝ → R →+* ((Fin d → ℝ) → ℝ)) (ℓ : Fin d → ℝ) (us : List R) (n : Fin d → ℕ) (τ : ℝ) :
    Fin us.length → Sympkf.PDE.Arr d ℝ := fun k => PDE.sample ℓ n (obs τ us[k])

end Sympkf.Spec
