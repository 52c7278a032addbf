import Mathlib.Analysis.Calculus.ContDiff.Basic
import Mathlib.Analysis.Calculus.Deriv.Basic
import Mathlib.Analysis.InnerProductSpace.Basic
import Verif.Spec.Closure

/-!
# Specification: the expectations that a closure replaces

A random field is a function from points to the Hilbert space of square-integrable random variables: the scalar product `⟪a, b⟫` is the
expectation `E[a b]`, and the derivatives of the field are derivatives in mean square.
-/

set_option autoImplicit false

namespace Sympkf.Spec.Truth

open scoped RealInnerProductSpace
open Sympkf.Clo

variable {d : ℕ} {G : Type} [NormedAddCommGroup G] [NormedSpace ℝ G] {H : Type} [NormedAddCommGroup H] [InnerProductSpace ℝ H]

/-- The partial derivative along the coordinate `i`, of a function with values in a normed space. -/
noncomputable def part (i : Fin d) (e : (Fin d → ℝ) → G) : (Fin d → ℝ) → G := fun p => deriv (fun s : ℝ => e (p + Pi.single i s)) 0

/-- The partial derivative of orders `a`. -/
noncomputable def partials (a : List ℕ) (e : (Fin d → ℝ) → G) : (Fin d → ℝ) → G :=
  (List.finRange d).foldr (fun i h => (part i)^[a.getD i 0] h) e

/-- The coefficients `C` are those of the Taylor expansion at zero of `rho(x, x + dx)`: the coefficient of `dx^a` is the derivative of
orders `a` divided by `a!`. -/
def TaylorOf (rho : (Fin d → ℝ) → (Fin d → ℝ) → ℝ) (C : Series ((Fin d → ℝ) → ℝ)) : Prop :=
  ∀ a : List ℕ, a.length = d → ∀ x, (a.map Nat.factorial).prod * C a x = partials a (fun dx => rho x (x + dx)) 0

/-- The random field `e` has the correlations `rho`. -/
def Correlated (e : (Fin d → ℝ) → H) (rho : (Fin d → ℝ) → (Fin d → ℝ) → ℝ) : Prop := ∀ x y, ⟪e x, e y⟫ = rho x y

/-- The expectation `E[eps D^a eps]`. -/
noncomputable def moment (e : (Fin d → ℝ) → H) (a : List ℕ) : (Fin d → ℝ) → ℝ := fun x => ⟪e x, partials a e x⟫

end Sympkf.Spec.Truth
