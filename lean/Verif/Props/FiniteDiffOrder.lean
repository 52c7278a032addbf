import Mathlib.Analysis.Asymptotics.Defs
import Mathlib.Analysis.SpecialFunctions.Trigonometric.Deriv
import Verif.Lemmas.FiniteDiffOrder

/-!
# C29, C30: second-order consistency of the finite differences
-/

set_option autoImplicit false

namespace Sympkf.FinDiff

open Filter Topology Asymptotics

/-- C29: for `u` of class `C^{o+2}` the finite difference of the derivative of order `o` differs from the derivative by
`O(dx²)`. -/
theorem C29_second_order (o : ℕ) (u : ℝ → ℝ) (hu : ContDiff ℝ ((o + 2 : ℕ) : ℕ∞) u) (x : ℝ) :
    (fun h => fd o h u x - iteratedDeriv o u x) =O[𝓝[≠] (0 : ℝ)] (fun h => h ^ 2) := by
  have hc : Continuous (iteratedDeriv (o + 2) u) := hu.continuous_iteratedDeriv (o + 2) (by exact_mod_cast le_rfl)
  obtain ⟨B, hB⟩ := (isCompact_closedBall x (o : ℝ)).exists_bound_of_continuousOn hc.continuousOn
  refine IsBigO.of_bound (fdConst o * B) ?_
  have h1 : ∀ᶠ h in 𝓝[≠] (0 : ℝ), |h| ≤ 1 := by
    refine nhdsWithin_le_nhds ?_
    have : Metric.closedBall (0 : ℝ) 1 ∈ 𝓝 (0 : ℝ) := Metric.closedBall_mem_nhds _ one_pos
    filter_upwards [this] with h hh
    simpa using hh
  filter_upwards [h1, self_mem_nhdsWithin] with h hh hne
  have hle : (o : ℝ) * |h| ≤ o := by
    have : (0 : ℝ) ≤ o := by positivity
    nlinarith
  have := fd_bound o u hu x h B hne (by
    intro y hy
    refine hB y ?_
    rw [Metric.mem_closedBall, Real.dist_eq]
    exact le_trans hy hle)
  rw [Real.norm_eq_abs, Real.norm_eq_abs, abs_of_nonneg (sq_nonneg h)]
  exact this

example (x : ℝ) : (fun h => fd 3 h Real.sin x - iteratedDeriv 3 Real.sin x) =O[𝓝[≠] (0 : ℝ)] (fun h => h ^ 2) :=
  C29_second_order 3 Real.sin (Real.contDiff_sin.of_le (by exact_mod_cast le_top)) x

section multi

variable {ι : Type} [DecidableEq ι]

/-- C30: the finite difference of a mixed derivative does not depend on the order in which the variables are treated. -/
theorem C30_order_independent {K V : Type} [Field K] [AddCommGroup V] [Module K V] (h : ι → K) (hh : ∀ i, h i ≠ 0)
    (L L' : List (ι × ℕ)) (hp : L.Perm L') (u : (ι → K) → V) : fdMixed h L u = fdMixed h L' u :=
  fdMixed_perm h hh L L' hp u

variable [Fintype ι]

/-- C30: for smooth `u` the error of the mixed finite difference is bounded, uniformly on every ball, by a constant times
the sum of the squares of the grid steps of the variables involved. -/
theorem C30_mixed_second_order (L : List (ι × ℕ)) (u : (ι → ℝ) → ℝ) (hu : ContDiff ℝ (⊤ : ℕ∞) u) (R : ℝ) :
    ∃ C, ∀ h : ι → ℝ, (∀ i, h i ≠ 0) → (∀ i, |h i| ≤ 1) → ∀ x, ‖x‖ ≤ R →
      |fdMixed h L u x - pdMixed L u x| ≤ C * (L.map (fun p => h p.1 ^ 2)).sum := by
  obtain ⟨C, -, h⟩ := fdMixed_bound L u hu R
  exact ⟨C, h⟩

/-- Iterated partial derivatives of a smooth function commute. -/
theorem pd_iter_comm (i j : ι) (m n : ℕ) (u : (ι → ℝ) → ℝ) (hu : ContDiff ℝ (⊤ : ℕ∞) u) :
    (pd i)^[m] ((pd j)^[n] u) = (pd j)^[n] ((pd i)^[m] u) := by
  have h1 : ∀ (n : ℕ) (u : (ι → ℝ) → ℝ), ContDiff ℝ (⊤ : ℕ∞) u → pd i ((pd j)^[n] u) = (pd j)^[n] (pd i u) := by
    intro n
    induction n with
    | zero => intro u _; rfl
    | succ n ih =>
      intro u hu
      rw [Function.iterate_succ_apply, ih _ (pd_smooth j u hu), pd_comm i j u hu, Function.iterate_succ_apply]
  induction m generalizing u with
  | zero => rfl
  | succ m ih =>
    rw [Function.iterate_succ_apply, h1 n u hu, ih _ (pd_smooth i u hu), Function.iterate_succ_apply]

/-- C30: the exact mixed derivative to which `C30_mixed_second_order` compares does not depend on the order of the
variables either. -/
theorem C30_exact_order_independent (L L' : List (ι × ℕ)) (hp : L.Perm L') (u : (ι → ℝ) → ℝ)
    (hu : ContDiff ℝ (⊤ : ℕ∞) u) : pdMixed L u = pdMixed L' u := by
  induction hp generalizing u with
  | nil => rfl
  | cons p _ ih => obtain ⟨i, o⟩ := p; exact ih _ (pd_iter_smooth i o u hu)
  | swap p q L =>
    obtain ⟨i, o⟩ := p; obtain ⟨j, p⟩ := q
    show pdMixed L _ = pdMixed L _
    rw [pd_iter_comm i j o p u hu]
  | trans _ _ ih1 ih2 => rw [ih1 u hu, ih2 u hu]

/-- Non-vacuity: a function of two variables and the derivative `∂x²∂y`. -/
example : ∃ C, ∀ h : Fin 2 → ℝ, (∀ i, h i ≠ 0) → (∀ i, |h i| ≤ 1) → ∀ x : Fin 2 → ℝ, ‖x‖ ≤ 1 →
    |fdMixed h [(0, 2), (1, 1)] (fun x => Real.sin (x 0 * x 1)) x - pdMixed [(0, 2), (1, 1)] (fun x => Real.sin (x 0 * x 1)) x|
      ≤ C * (h 0 ^ 2 + (h 1 ^ 2 + 0)) :=
  C30_mixed_second_order [((0 : Fin 2), 2), (1, 1)] (fun x => Real.sin (x 0 * x 1))
    (Real.contDiff_sin.comp ((contDiff_apply ℝ ℝ (0 : Fin 2)).mul (contDiff_apply ℝ ℝ (1 : Fin 2)))) 1

end multi

end Sympkf.FinDiff
