import Mathlib.Analysis.Normed.Module.Basic
import Verif.Model.Rounding

/-!
# Specification of accurate arithmetic

Independent of the code: what the rounding functions and an approximate trend have to satisfy.
-/

set_option autoImplicit false

namespace Sympkf.Spec

open Sympkf.Integrator

variable {E : Type} [NormedAddCommGroup E] [NormedSpace ℝ E]

/-- Rounding a number or an array of size at most `R` changes it by at most `ε (1 + size)`: the relative error of
floating point numbers, with some room for the absolute error of underflows. Nothing is asked of larger results. -/
structure Accurate (rd : Rounding ℝ E) (ε R : ℝ) : Prop where
  num : ∀ x : ℝ, |x| ≤ R → |rd.num x - x| ≤ ε * (1 + |x|)
  arr : ∀ v : E, ‖v‖ ≤ R → ‖rd.arr v - v‖ ≤ ε * (1 + ‖v‖)

/-- The computed trend `f'` differs from `f` by at most `κ` at less than `r` of the piece `[a, b]` of the curve `y`. -/
def TrendNear (f' f : ℝ → E → E) (y : ℝ → E) (a b r κ : ℝ) : Prop :=
  ∀ t ∈ Set.Icc a b, ∀ s v, |s - t| < r → ‖v - y t‖ < r → ‖f' s v - f s v‖ ≤ κ

end Sympkf.Spec
