import Verif.Spec.Energy
import Verif.Spec.SkewSystem
import Mathlib.Analysis.SpecialFunctions.Pow.Real

/-!
# Specification: functions that nearly solve a differential equation, measured by the energy
-/

set_option autoImplicit false

namespace Sympkf.Spec

variable {S : Type} [AddCommGroup S] [Module ℝ S]

/-- The root of the energy. -/
noncomputable def size (B : LinearMap.BilinForm ℝ S) (u : S) : ℝ := √(energy B u)

/-- On `[a, b]` the trend of each of the functions `w 0, .., w 3` is the next one up to `ρ`, and the polynomial of degree four with the
coefficients `w j / j!` is close to `w 0`, up to `M` times the fifth power of the step. -/
structure NearlySolves (B : LinearMap.BilinForm ℝ S) (f : ℝ → S → S) (w : ℕ → ℝ → S) (a b ρ M : ℝ) : Prop where
  trend : ∀ j < 4, ∀ t ∈ Set.Icc a b, size B (f t (w j t) - w (j + 1) t) ≤ ρ
  taylor : ∀ t t', a ≤ t → t ≤ t' → t' ≤ b →
    size B (w 0 t' - ∑ j ∈ Finset.range 5, ((t' - t) ^ j / (Nat.factorial j : ℝ)) • w j t) ≤ M * (t' - t) ^ 5

/-- The mean, over the points of the grid, of the sum of the squares of the differences of the rows is at most `e²`. -/
def PDE.MeanSquare {d N : ℕ} (n : Fin d → ℕ) (e : ℝ) (U V : Fin N → Sympkf.PDE.Arr d ℝ) : Prop :=
  ∑ k, PDE.gridTotal n (fun idx => (U k idx - V k idx) ^ 2) ≤ (∏ i, (n i : ℝ)) * e ^ 2

end Sympkf.Spec
