import Verif.Model.Builder
import Verif.Model.FDBuilder
import Verif.Spec.Relation
import Verif.Spec.PDE

/-!
# Specification: translations of a periodic grid
-/

set_option autoImplicit false

namespace Sympkf.Spec.PDE

open Text Sympkf.PDE FinDiff

variable {d N : ℕ}

/-- The point of the periodic grid that is `z i` steps further along the axis `i`. -/
def translate (n : Fin d → ℕ) (z : Fin d → ℤ) (idx : Fin d → ℕ) : Fin d → ℕ := fun i => (((idx i : ℤ) + z i) % (n i : ℤ)).toNat

/-- The array `b` is the array `a` translated by `z`. -/
def Translated (n : Fin d → ℕ) (z : Fin d → ℤ) (a b : Arr d ℝ) : Prop :=
  ∀ idx, (∀ i, idx i < n i) → b idx = a (translate n z idx)

/-- The states whose rows are translated by `z`. -/
def translation (n : Fin d → ℕ) (z : Fin d → ℤ) : Submodule ℝ ((Fin N → Arr d ℝ) × (Fin N → Arr d ℝ)) where
  carrier := {p | ∀ k, Translated n z (p.1 k) (p.2 k)}
  add_mem' := by
    intro p q hp hq k idx hidx
    show p.2 k idx + q.2 k idx = p.1 k _ + q.1 k _
    rw [hp k idx hidx, hq k idx hidx]
  zero_mem' := fun _ _ _ => rfl
  smul_mem' := by
    intro c p hp k idx hidx
    show c * p.2 k idx = c * p.1 k _
    rw [hp k idx hidx]

/-- The derivatives are derivatives, along the axes of the grid, of functions of all the coordinates. -/
def FullDerivatives (coords : List Str) : Sy → Prop
  | .num _ | .sym _ _ | .fn _ _ | .func _ _ => True
  | .add a b => FullDerivatives coords a ∧ FullDerivatives coords b
  | .mul a b => FullDerivatives coords a ∧ FullDerivatives coords b
  | .pow a b => FullDerivatives coords a ∧ FullDerivatives coords b
  | .deriv a vars => (∃ u args, a = .fn u args ∧ args.filter (· ≠ "t".toList) = coords) ∧ ∀ v ∈ vars, v.1 ∈ coords

/-- The attributes of the second object are those of the first one, translated: the stationary functions, the constants (no change
for scalars) and the exogenous functions. -/
structure TranslatedObj (s : System) (n : Fin d → ℕ) (z : Fin d → ℤ) (O O' : Obj (Arr d ℝ)) : Prop where
  functions : ∀ f ∈ s.constantFunctions, Translated n z (O.attr f.keyvar) (O'.attr f.keyvar)
  constants : ∀ c, Sy.sym .plain c ∈ s.constants → Translated n z (O.attr (cleanLatexName c)) (O'.attr (cleanLatexName c))
  exogenous : s.exogenous = [] ∨ ∃ l l', O.exogenous = some l ∧ O'.exogenous = some l' ∧ l.length = s.exogenous.length ∧
    List.Forall₂ (Translated n z) l l'

end Sympkf.Spec.PDE
