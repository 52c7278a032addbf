import Mathlib.Data.Real.Basic
import Mathlib.Analysis.Normed.Group.Basic

/-!
# Specification of the convergence of a time-stepping forecast

Independent of the code: time windows that cover a piece of an interval with small steps.
-/

set_option autoImplicit false

namespace Sympkf.Spec

/-- A window of times that starts at `a`, never goes backwards, stays before `b` and advances by at most `η`. -/
structure Partition (a b η : ℝ) (window : List ℝ) : Prop where
  start : window[0]? = some a
  bounded : ∀ (i : ℕ) t, window[i]? = some t → t ≤ b
  step : ∀ (i : ℕ) t t', window[i]? = some t → window[i + 1]? = some t' → t ≤ t' ∧ t' - t ≤ η

/-- A window of times that starts at `a`, stays before `b` and advances by exactly `dt`. -/
structure Uniform (a b dt : ℝ) (window : List ℝ) : Prop where
  start : window[0]? = some a
  bounded : ∀ (i : ℕ) t, window[i]? = some t → t ≤ b
  step : ∀ (i : ℕ) t t', window[i]? = some t → window[i + 1]? = some t' → t' = t + dt

end Sympkf.Spec
