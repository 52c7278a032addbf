import Mathlib.Analysis.Calculus.Taylor
import Mathlib.Analysis.Calculus.MeanValue
import Mathlib.Analysis.Calculus.ContDiff.Operations
import Mathlib.Analysis.Calculus.ContDiff.RCLike
import Mathlib.Analysis.Calculus.IteratedDeriv.Lemmas
import Mathlib.Analysis.Asymptotics.Lemmas
import Mathlib.Tactic.Module

/-!
Asymptotic calculus used for the orders of the time schemes.
-/

set_option autoImplicit false

namespace Sympkf.Order

open Asymptotics Filter Topology

set_option linter.unusedSectionVars false

variable {E F : Type} [NormedAddCommGroup E] [NormedSpace ℝ E] [NormedAddCommGroup F] [NormedSpace ℝ F]

/-- `u(h) = O(h^n)` as `h → 0`. -/
def O (n : ℕ) (u : ℝ → E) : Prop := u =O[𝓝 (0 : ℝ)] (fun h => h ^ n)

theorem O.congr {n : ℕ} {u v : ℝ → E} (hu : O n u) (h : ∀ x, u x = v x) : O n v := by
  have : u = v := funext h
  rwa [this] at hu

theorem O.add {n : ℕ} {u v : ℝ → E} (hu : O n u) (hv : O n v) : O n (fun h => u h + v h) := IsBigO.add hu hv
theorem O.sub {n : ℕ} {u v : ℝ → E} (hu : O n u) (hv : O n v) : O n (fun h => u h - v h) := IsBigO.sub hu hv
theorem O.neg {n : ℕ} {u : ℝ → E} (hu : O n u) : O n (fun h => - u h) := IsBigO.neg_left hu
theorem O.const_smul {n : ℕ} {u : ℝ → E} (c : ℝ) (hu : O n u) : O n (fun h => c • u h) := IsBigO.const_smul_left hu c
theorem O.zero (n : ℕ) : O n (fun _ => (0 : E)) := isBigO_zero _ _

theorem O.mono {n m : ℕ} (hmn : m ≤ n) {u : ℝ → E} (hu : O n u) : O m u := by
  refine IsBigO.trans hu (IsBigO.of_bound 1 ?_)
  filter_upwards [Metric.ball_mem_nhds (0 : ℝ) one_pos] with h hh
  simp only [Metric.mem_ball, dist_zero_right] at hh
  rw [norm_pow, norm_pow, one_mul]
  exact pow_le_pow_of_le_one (norm_nonneg _) hh.le hmn

theorem O.pow_smul {n : ℕ} {u : ℝ → E} (k : ℕ) (hu : O n u) : O (n + k) (fun h => h ^ k • u h) := by
  have := (isBigO_refl (fun h : ℝ => h ^ k) (𝓝 0)).smul hu
  refine this.congr_right (fun h => ?_)
  simp [pow_add, mul_comm]

theorem O.h_smul {n : ℕ} {u : ℝ → E} (hu : O n u) : O (n + 1) (fun h => h • u h) := by
  simpa using O.pow_smul 1 hu

theorem O.monomial (n : ℕ) (c : ℝ) (v : E) : O n (fun h => (c * h ^ n) • v) := by
  have h1 : O n (fun h : ℝ => (h ^ n) • v) := by
    have := (isBigO_refl (fun h : ℝ => h ^ n) (𝓝 0)).smul (isBigO_refl (fun _ : ℝ => v) (𝓝 0))
    refine this.trans ?_
    have h2 : (fun _ : ℝ => v) =O[𝓝 0] (fun _ : ℝ => (1 : ℝ)) := isBigO_const_const v one_ne_zero _
    have := (isBigO_refl (fun h : ℝ => h ^ n) (𝓝 0)).smul h2
    simpa using this
  exact (h1.const_smul c).congr (fun h => by rw [smul_smul])

theorem O.tendsto_zero {n : ℕ} (hn : 0 < n) {u : ℝ → E} (hu : O n u) : Tendsto u (𝓝 0) (𝓝 0) := by
  refine hu.trans_tendsto ?_
  have : Tendsto (fun h : ℝ => h ^ n) (𝓝 0) (𝓝 (0 ^ n)) := (continuous_pow n).tendsto 0
  simpa [hn.ne'] using this

/-- Composition with a scaling of `h`. -/
theorem O.scale {n : ℕ} {u : ℝ → E} (c : ℝ) (hu : O n u) : O n (fun h => u (c * h)) := by
  have ht : Tendsto (fun h : ℝ => c * h) (𝓝 0) (𝓝 0) := by
    have : Tendsto (fun h : ℝ => c * h) (𝓝 0) (𝓝 (c * 0)) := (continuous_const.mul continuous_id).tendsto 0
    simpa using this
  have := hu.comp_tendsto ht
  refine this.trans ?_
  have h2 : (fun h : ℝ => (c ^ n) * h ^ n) =O[𝓝 0] (fun h : ℝ => h ^ n) := isBigO_const_mul_self _ _ _
  exact h2.congr_left (fun h => by simp [mul_pow])

/-- Taylor expansion of a function of class `C^n` near `t`, with `O(h^n)` remainder. -/
theorem taylor_O {n : ℕ} {y : ℝ → E} {t : ℝ} (hy : ContDiffAt ℝ n y t) :
    O n (fun h => y (t + h) - ∑ k ∈ Finset.range n, ((k.factorial : ℝ)⁻¹ * h ^ k) • iteratedDeriv k y t) := by
  obtain ⟨u, hu, hcd⟩ := hy.contDiffOn (m := n) le_rfl (by simp)
  obtain ⟨ε, hε, hball⟩ := Metric.mem_nhds_iff.1 hu
  set s := Metric.ball t ε
  have hts : t ∈ s := Metric.mem_ball_self hε
  have h1 := taylor_isLittleO (convex_ball t ε) hts (hcd.mono hball)
  rw [IsOpen.nhdsWithin_eq Metric.isOpen_ball hts] at h1
  have ht : Tendsto (fun h : ℝ => t + h) (𝓝 0) (𝓝 t) := by
    have : Tendsto (fun h : ℝ => t + h) (𝓝 0) (𝓝 (t + 0)) := (continuous_const.add continuous_id).tendsto 0
    simpa using this
  have h2 : O n (fun h => y (t + h) - taylorWithinEval y n s t (t + h)) := by
    have := h1.isBigO.comp_tendsto ht
    exact this.congr_right (fun h => by simp)
  have h3 := h2.add (O.monomial n ((n.factorial : ℝ)⁻¹) (iteratedDerivWithin n y s t))
  refine h3.congr (fun h => ?_)
  rw [taylor_within_apply, Finset.sum_range_succ]
  have : ∀ k, iteratedDerivWithin k y s t = iteratedDeriv k y t := fun k =>
    iteratedDerivWithin_of_isOpen Metric.isOpen_ball hts
  simp only [this, add_sub_cancel_left]
  abel

/-- Second-order expansion of a `C²` map around a moving base point. -/
theorem fderiv_expand {G : E → F} {p0 : E} (hG : ContDiffAt ℝ 2 G p0) {p v : ℝ → E} (hp : Tendsto p (𝓝 0) (𝓝 p0))
    {n : ℕ} (hn : 0 < n) (hv : O n v) : O (2 * n) (fun h => G (p h + v h) - G (p h) - fderiv ℝ G (p h) (v h)) := by
  -- the derivative is Lipschitz near `p0`
  have hfd : ContDiffAt ℝ 1 (fderiv ℝ G) p0 := hG.fderiv_right (m := 1) (by norm_num)
  obtain ⟨L, s, hs, hL⟩ := hfd.exists_lipschitzOnWith
  have hdiff : ∀ᶠ q in 𝓝 p0, DifferentiableAt ℝ G q := by
    have := hG.eventually (by simp)
    filter_upwards [this] with q hq
    exact hq.differentiableAt (by simp)
  obtain ⟨ε, hε, hball⟩ := Metric.mem_nhds_iff.1 (Filter.inter_mem hs hdiff)
  have hv0 := hv.tendsto_zero hn
  have hpv : Tendsto (fun h => p h + v h) (𝓝 0) (𝓝 p0) := by simpa using hp.add hv0
  have e1 := hp (Metric.ball_mem_nhds p0 hε)
  have e2 := hpv (Metric.ball_mem_nhds p0 hε)
  have hbound : ∀ᶠ h in 𝓝 (0 : ℝ), ‖G (p h + v h) - G (p h) - fderiv ℝ G (p h) (v h)‖ ≤ L * (‖v h‖ * ‖v h‖) := by
    filter_upwards [e1, e2] with h h1 h2
    have hseg : segment ℝ (p h) (p h + v h) ⊆ Metric.ball p0 ε := (convex_ball p0 ε).segment_subset h1 h2
    have := (convex_segment (𝕜 := ℝ) (p h) (p h + v h)).norm_image_sub_le_of_norm_fderiv_le'
      (f := G) (φ := fderiv ℝ G (p h)) (C := L * ‖v h‖)
      (fun x hx => (hball (hseg hx)).2)
      (fun x hx => by
        have h3 := hL.norm_sub_le (hball (hseg hx)).1 (hball h1).1
        refine h3.trans ?_
        refine mul_le_mul_of_nonneg_left ?_ L.2
        obtain ⟨a, b, ha, hb, hab, rfl⟩ := hx
        have : a • p h + b • (p h + v h) - p h = b • v h := by
          have : a = 1 - b := by linarith
          rw [this]; module
        rw [this, norm_smul, Real.norm_of_nonneg hb]
        have : b ≤ 1 := by linarith
        exact mul_le_of_le_one_left (norm_nonneg _) this)
      (left_mem_segment ℝ _ _) (right_mem_segment ℝ _ _)
    simpa [mul_assoc] using this
  have hvv : (fun h => ‖v h‖ * ‖v h‖) =O[𝓝 (0 : ℝ)] (fun h => h ^ (2 * n)) := by
    have := hv.norm_left.mul hv.norm_left
    exact this.congr_right (fun h => by ring)
  refine IsBigO.trans ?_ hvv
  refine IsBigO.of_bound L ?_
  filter_upwards [hbound] with h hh
  refine hh.trans (le_of_eq ?_)
  rw [norm_mul, norm_norm]

/-- A `C¹` map along a path at distance `O(h)`. -/
theorem lip_along {G : E → F} {p0 : E} (hG : ContDiffAt ℝ 1 G p0) {p q : ℝ → E} {n : ℕ} (hn : 0 < n)
    (hp : O n (fun h => p h - p0)) (hq : O n (fun h => q h - p0)) : O n (fun h => G (p h) - G (q h)) := by
  have hp0 : Tendsto p (𝓝 0) (𝓝 p0) := by
    have := (hp.tendsto_zero hn).add_const p0; simpa using this
  have hq0 : Tendsto q (𝓝 0) (𝓝 p0) := by
    have := (hq.tendsto_zero hn).add_const p0; simpa using this
  obtain ⟨L, s, hs, hL⟩ := hG.exists_lipschitzOnWith
  have hd : O n (fun h => p h - q h) := (hp.sub hq).congr (fun h => by abel)
  refine IsBigO.trans ?_ hd
  refine IsBigO.of_bound L ?_
  filter_upwards [hp0 hs, hq0 hs] with h h1 h2
  exact hL.norm_sub_le h1 h2

/-- A bounded family of operators applied to `O(h^n)`. -/
theorem O.clm {n : ℕ} {A : ℝ → E →L[ℝ] F} {A0 : E →L[ℝ] F} (hA : Tendsto A (𝓝 0) (𝓝 A0)) {u : ℝ → E} (hu : O n u) :
    O n (fun h => A h (u h)) := by
  have h1 : A =O[𝓝 0] (fun _ => (1 : ℝ)) := hA.isBigO_one ℝ
  have h2 : (fun h => A h (u h)) =O[𝓝 0] (fun h => ‖A h‖ * ‖u h‖) :=
    IsBigO.of_bound 1 (Eventually.of_forall (fun h => by
      rw [norm_mul, norm_norm, norm_norm, one_mul]; exact (A h).le_opNorm _))
  refine h2.trans ?_
  have := h1.norm_left.mul hu.norm_left
  exact this.congr_right (fun h => by simp)

/-- The difference of two operators at distance `O(h)`. -/
theorem O.clm_sub {n m : ℕ} {A : ℝ → E →L[ℝ] F} (hA : O m A) {u : ℝ → E} (hu : O n u) : O (m + n) (fun h => A h (u h)) := by
  have h2 : (fun h => A h (u h)) =O[𝓝 0] (fun h => ‖A h‖ * ‖u h‖) :=
    IsBigO.of_bound 1 (Eventually.of_forall (fun h => by
      rw [norm_mul, norm_norm, norm_norm, one_mul]; exact (A h).le_opNorm _))
  refine h2.trans ?_
  have := hA.norm_left.mul hu.norm_left
  exact this.congr_right (fun h => by rw [pow_add])

/-- A solution of `y' = f(s, y)` near `t`, with `f` of class `C^n`, is of class `C^(n+1)` at `t`. -/
theorem solution_contDiffAt {n : ℕ} {f : ℝ × E → E} {y : ℝ → E} {t : ℝ} (hf : ContDiffAt ℝ n f (t, y t))
    (hy : ∀ᶠ s in 𝓝 t, HasDerivAt y (f (s, y s)) s) : ContDiffAt ℝ (n + 1) y t := by
  have key : ∀ k : ℕ, k ≤ n → ContDiffAt ℝ (k : ℕ) y t → ContDiffAt ℝ ((k : ℕ) + 1) y t := by
    intro k hk hyk
    rw [contDiffAt_succ_iff_hasFDerivAt]
    refine ⟨fun s => ContinuousLinearMap.toSpanSingleton ℝ (f (s, y s)), ⟨_, hy, fun s hs => hs.hasFDerivAt⟩, ?_⟩
    have h1 : ContDiffAt ℝ k (fun s => f (s, y s)) t := by
      have h2 : ContDiffAt ℝ k f (t, y t) := hf.of_le (by exact_mod_cast hk)
      exact h2.comp t (contDiffAt_id.prodMk hyk)
    exact (ContinuousLinearMap.toSpanSingletonCLE (𝕜 := ℝ) (E := E)).contDiff.contDiffAt.comp t h1
  have h0 : ∀ k : ℕ, k ≤ n + 1 → ContDiffAt ℝ (k : ℕ) y t := by
    intro k
    induction k with
    | zero =>
      intro _
      rw [Nat.cast_zero]
      refine contDiffAt_zero.2 ⟨_, hy, fun s hs => ?_⟩
      exact (HasDerivAt.continuousAt hs).continuousWithinAt
    | succ k ih => intro hk; exact_mod_cast key k (by omega) (ih (by omega))
  exact_mod_cast h0 (n + 1) le_rfl

end Sympkf.Order
