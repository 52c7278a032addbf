import Mathlib.Data.List.Basic
import Mathlib.Data.Int.Basic

/-!
# Specification of a periodic grid

Written without the model.
-/

set_option autoImplicit false

namespace Sympkf.FD.Spec

/-- The neighbour at distance `step` of each point of a periodic line of `n` points. -/
def periodicShift (n : ℕ) (step : ℤ) : List ℤ := (List.range n).map (fun i : ℕ => ((i : ℤ) + step) % (n : ℤ))

/-- numpy fancy indexing `u[idx]` along one axis, for indices `0 ≤ i < n`. -/
def gather {α : Type} [Inhabited α] (u : List α) (idx : List ℤ) : List α := idx.map (fun i => u.getD i.toNat default)

end Sympkf.FD.Spec
