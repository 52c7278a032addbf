import Mathlib.Analysis.Calculus.Deriv.Basic
import Mathlib.Data.Matrix.Basic
import Mathlib.Algebra.BigOperators.Group.Finset.Basic

/-! # Specification of correlation functions -/

set_option autoImplicit false

namespace Sympkf.Spec.Cor

variable {d : ℕ}

/-- The value is one at zero separation. -/
def Unit (rho : (Fin d → ℝ) → (Fin d → ℝ) → ℝ) : Prop := ∀ x, rho x x = 1

/-- Symmetric. -/
def Symmetric (rho : (Fin d → ℝ) → (Fin d → ℝ) → ℝ) : Prop := ∀ x y, rho x y = rho y x

/-- Positive and at most one. -/
def Bounded (rho : (Fin d → ℝ) → (Fin d → ℝ) → ℝ) : Prop := ∀ x y, 0 < rho x y ∧ rho x y ≤ 1

/-- Positive semidefinite: the variances of all linear combinations are nonnegative. -/
def Semidefinite (rho : (Fin d → ℝ) → (Fin d → ℝ) → ℝ) : Prop :=
  ∀ (n : ℕ) (x : Fin n → Fin d → ℝ) (c : Fin n → ℝ), 0 ≤ ∑ i, ∑ j, c i * c j * rho (x i) (x j)

/-- The second derivatives with respect to the second point, at zero separation, are minus the components of `g`. -/
def HasMetric (rho : (Fin d → ℝ) → (Fin d → ℝ) → ℝ) (g : Matrix (Fin d) (Fin d) ℝ) : Prop :=
  ∀ x i j, deriv (fun a : ℝ => deriv (fun b : ℝ => rho x (x + (Pi.single i a + Pi.single j b))) 0) 0 = -g i j

end Sympkf.Spec.Cor
