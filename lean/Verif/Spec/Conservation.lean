import Verif.Model.Builder
import Verif.Model.FDBuilder
import Verif.Model.Integrator
import Verif.Spec.PDE

/-!
# Specification: conservation of the total
-/

set_option autoImplicit false

namespace Sympkf.Spec.PDE

open Text Sympkf.PDE FinDiff

/-- Right-hand sides in conservation form: linear combinations, with numbers and scalar constants, of derivatives of functions and of
products of a function by one of its derivatives of odd order. -/
inductive Conservative (coords : List Str) : Sy → Prop
  | deriv (u : Str) (args : List Str) (vars : List (Str × ℕ)) : args.filter (· ≠ "t".toList) = coords → (∀ v ∈ vars, v.1 ∈ coords) →
      (∃ v ∈ vars, 0 < v.2) → Conservative coords (.deriv (.fn u args) vars)
  | product (u : Str) (args : List Str) (vars : List (Str × ℕ)) : args.filter (· ≠ "t".toList) = coords → (∀ v ∈ vars, v.1 ∈ coords) →
      Odd (vars.map Prod.snd).sum → Conservative coords (.mul (.fn u args) (.deriv (.fn u args) vars))
  | num (q : ℚ) {e : Sy} : Conservative coords e → Conservative coords (.mul (.num q) e)
  | sym (c : Str) {e : Sy} : Conservative coords e → Conservative coords (.mul (.sym .plain c) e)
  | add {a b : Sy} : Conservative coords a → Conservative coords b → Conservative coords (.add a b)

/-- The points of the grid. -/
def gridPoints {d : ℕ} (n : Fin d → ℕ) : Finset (Fin d → ℕ) := Fintype.piFinset (fun i => Finset.range (n i))

/-- The sum of the values of an array on the grid. -/
def gridTotal {d : ℕ} (n : Fin d → ℕ) (a : Arr d ℝ) : ℝ := ∑ idx ∈ gridPoints n, a idx

/-- Every array of the state (one, or two with the scheme leapfrog) has the total `T` in its row `k`. -/
def HasTotal {d N : ℕ} (n : Fin d → ℕ) (k : Fin N) (T : ℝ) : Integrator.StateObj (Fin N → Arr d ℝ) → Prop
  | .single U => gridTotal n (U k) = T
  | .pair U V => gridTotal n (U k) = T ∧ gridTotal n (V k) = T

end Sympkf.Spec.PDE
