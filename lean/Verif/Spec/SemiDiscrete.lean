import Mathlib.Analysis.Calculus.ContDiff.Defs
import Verif.Model.Builder
import Verif.Model.FDBuilder
import Verif.Spec.PDE

/-!
# Specification of the differential system in time that remains once the space is a fixed grid
-/

set_option autoImplicit false

namespace Sympkf.Spec.PDE

open Text Sympkf.PDE FinDiff

variable {d N : ℕ}

open Classical in
/-- What the names of the system stand for at the time `t`, in the state `U`: the unknowns are the rows of the state, the stationary
functions and the constants are attributes of the object, the exogenous functions are read in their list, `t` is the time. -/
noncomputable def reading (s : System) (O : Obj (Arr d ℝ)) (t : ℝ) (U : Fin s.prognostic.length → Arr d ℝ) : Valuation (Arr d ℝ) where
  fn f :=
    if h : f ∈ s.prognostic then U ⟨s.prognostic.idxOf f, List.idxOf_lt_length_of_mem h⟩
    else if f ∈ s.constantFunctions then O.attr f.keyvar
    else if f ∈ s.exogenous then ((O.exogenous.getD [])[s.exogenous.idxOf f]?).getD (fun _ => 0)
    else fun _ => 0
  sym c := if c = "t".toList then fun _ => t else if Sy.sym .plain c ∈ s.constants then O.attr (cleanLatexName c) else fun _ => 0

/-- The powers of the expression are defined and smooth at all the points of the grid: the exponents are natural numbers, or integers and
the bases do not vanish, or rational numbers and the bases are positive. -/
def PowersDefined (A : Arith (Arr d ℝ)) (n : Fin d → ℕ) (ρ : Valuation (Arr d ℝ)) : Sy → Prop
  | .num _ | .sym _ _ | .fn _ _ | .func _ _ | .deriv _ _ => True
  | .add a b => PowersDefined A n ρ a ∧ PowersDefined A n ρ b
  | .mul a b => PowersDefined A n ρ a ∧ PowersDefined A n ρ b
  | .pow a b => PowersDefined A n ρ a ∧ ∃ q : ℚ, b = .num q ∧ ((∃ k : ℕ, q = k) ∨
      ((∃ k : ℤ, q = k) ∧ ∀ idx, (∀ i, idx i < n i) → rhsValue A ρ a idx ≠ 0) ∨
      ∀ idx, (∀ i, idx i < n i) → 0 < rhsValue A ρ a idx)

/-- The attributes of the object are smooth functions of time (for instance constant) at the points of the grid. -/
structure SmoothInTime (s : System) (n : Fin d → ℕ) (O : ℝ → Obj (Arr d ℝ)) : Prop where
  functions : ∀ f ∈ s.constantFunctions, ∀ idx, (∀ i, idx i < n i) → ContDiff ℝ (⊤ : ℕ∞) (fun t => (O t).attr f.keyvar idx)
  constants : ∀ c, Sy.sym .plain c ∈ s.constants → ∀ idx, (∀ i, idx i < n i) →
    ContDiff ℝ (⊤ : ℕ∞) (fun t => (O t).attr (cleanLatexName c) idx)
  exogenous : s.exogenous = [] ∨ ∃ ψ : Fin s.exogenous.length → ℝ → Arr d ℝ,
    (∀ t, (O t).exogenous = some (List.ofFn (fun j => ψ j t))) ∧
    ∀ j idx, (∀ i, idx i < n i) → ContDiff ℝ (⊤ : ℕ∞) (fun t => ψ j t idx)

/-- At the time `t`, at every point of the grid, `y` has for time derivative the value of the vector field. -/
def SolvesOnGrid (n : Fin d → ℕ) (F : ℝ → (Fin N → Arr d ℝ) → Fin N → Arr d ℝ) (y : ℝ → Fin N → Arr d ℝ) (t : ℝ) : Prop :=
  ∀ k idx, (∀ i, idx i < n i) → HasDerivAt (fun τ => y τ k idx) (F t (y t) k idx) t

end Sympkf.Spec.PDE
