import Mathlib.Analysis.SpecialFunctions.Pow.Real
import Verif.Spec.PDE
import Verif.Lemmas.FiniteDiffOrder

/-!
# Specification: the right-hand sides of a system, for smooth functions
-/

set_option autoImplicit false

namespace Sympkf.Spec.PDE

open Text Sympkf.PDE FinDiff

variable {d : ℕ}

/-- The point of index `idx` of the regular grid with `n i` points along the axis `i`, on a domain of lengths `ℓ`. -/
noncomputable def point (ℓ : Fin d → ℝ) (n : Fin d → ℕ) (idx : Fin d → ℕ) : Fin d → ℝ := fun i => idx i * (ℓ i / n i)

/-- The values of a function on the grid. -/
noncomputable def sample (ℓ : Fin d → ℝ) (n : Fin d → ℕ) (f : (Fin d → ℝ) → ℝ) (idx : Fin d → ℕ) : ℝ := f (point ℓ n idx)

/-- Periodic functions on the domain. -/
def Periodic (ℓ : Fin d → ℝ) (f : (Fin d → ℝ) → ℝ) : Prop := ∀ i p, f (p + Pi.single i (ℓ i)) = f p

/-- The axes of the variables of a derivative. -/
def axesOf (coords : List Str) (vars : List (Str × ℕ)) : List (Fin coords.length × ℕ) :=
  vars.filterMap (fun v => if hx : coords.idxOf v.1 < coords.length then some (⟨coords.idxOf v.1, hx⟩, v.2) else none)

variable (coords : List Str)

/-- The value of an expression: the functions have the values `φ` (at the current time), the symbols `σ`; derivatives are partial
derivatives (`pdMixed`). -/
noncomputable def exact (φ : Sy → (Fin coords.length → ℝ) → ℝ) (σ : Str → ℝ) : Sy → (Fin coords.length → ℝ) → ℝ
  | .num q => fun _ => q
  | .sym _ s => fun _ => σ s
  | .fn u args => φ (.fn u args)
  | .func g a => φ (.func g a)
  | .add a b => fun p => exact φ σ a p + exact φ σ b p
  | .mul a b => fun p => exact φ σ a p * exact φ σ b p
  | .pow a b => fun p => exact φ σ a p ^ exact φ σ b p
  | .deriv a vars => pdMixed (axesOf coords vars) (exact φ σ a)

/-- The expression makes sense: exponents are natural numbers, or numbers if the base is positive; a function that is differentiated
depends on all the spatial coordinates, in their order, and is differentiated with respect to them. -/
def Regular (φ : Sy → (Fin coords.length → ℝ) → ℝ) (σ : Str → ℝ) : Sy → Prop
  | .num _ => True
  | .sym _ _ => True
  | .fn _ _ => True
  | .func _ _ => True
  | .add a b => Regular φ σ a ∧ Regular φ σ b
  | .mul a b => Regular φ σ a ∧ Regular φ σ b
  | .pow a b => Regular φ σ a ∧ ∃ q : ℚ, b = .num q ∧ ((∃ k : ℕ, q = k) ∨ ∀ p, 0 < exact coords φ σ a p)
  | .deriv a vars => (∃ u args, a = .fn u args ∧ args.filter (· ≠ "t".toList) = coords) ∧ ∀ v ∈ vars, v.1 ∈ coords

end Sympkf.Spec.PDE
