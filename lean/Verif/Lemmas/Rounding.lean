import Verif.Lemmas.OneStep
import Verif.Spec.Rounding
import Verif.Props.Order

/-!
Rounding errors of the one-step schemes. A family of computations, with rounding error `ε`, error of the trend `κ` and
step `h`, is compared with the exact computations along a filter on which `ε`, `κ`, `h` tend to zero.
-/

set_option autoImplicit false

namespace Sympkf.Order

open Asymptotics Filter Topology Sympkf.Spec Sympkf.Integrator

variable {E F : Type} [NormedAddCommGroup E] [NormedSpace ℝ E] [NormedAddCommGroup F]

/-! ## Propagation of errors, with an arbitrary local error -/

/-- Errors that grow at most by the factor `1 + hL` and by the local error `d i` at the step `i`, as long as they stay
below `r`, stay below `exp (L (b - a)) (e 0 + D)` when the local errors add up to at most `D` and this is below `r`. -/
theorem error_accumulation {L r a b D : ℝ} (hL : 0 ≤ L) {n : ℕ} {e t d : ℕ → ℝ} (h0 : t 0 = a)
    (htb : ∀ i, i ≤ n → t i ≤ b) (hstep : ∀ i, i < n → t i ≤ t (i + 1)) (he : ∀ i, 0 ≤ e i) (hd : ∀ i, 0 ≤ d i)
    (hD : ∑ i ∈ Finset.range n, d i ≤ D) (hr : Real.exp (L * (b - a)) * (e 0 + D) < r)
    (hrec : ∀ i, i < n → e i < r → e (i + 1) ≤ (1 + (t (i + 1) - t i) * L) * e i + d i) :
    ∀ i, i ≤ n → e i ≤ Real.exp (L * (b - a)) * (e 0 + D) := by
  have hta : ∀ i, i ≤ n → a ≤ t i := by
    intro i
    induction i with
    | zero => intro _; rw [h0]
    | succ i ih => intro hi; linarith [ih (by omega), hstep i (by omega)]
  have hsum : ∀ i, i ≤ n → ∑ j ∈ Finset.range i, d j ≤ D := fun i hi =>
    (Finset.sum_le_sum_of_subset_of_nonneg (Finset.range_subset_range.2 hi) (fun j _ _ => hd j)).trans hD
  have hsum0 : ∀ i, 0 ≤ ∑ j ∈ Finset.range i, d j := fun i => Finset.sum_nonneg (fun j _ => hd j)
  have hfin : ∀ i, i ≤ n → e i ≤ Real.exp (L * (t i - a)) * (e 0 + ∑ j ∈ Finset.range i, d j) →
      e i ≤ Real.exp (L * (b - a)) * (e 0 + D) := fun i hi hb =>
    hb.trans (mul_le_mul (Real.exp_le_exp.2 (mul_le_mul_of_nonneg_left (by linarith [htb i hi]) hL))
      (by linarith [hsum i hi]) (add_nonneg (he 0) (hsum0 i)) (Real.exp_pos _).le)
  have key : ∀ i, i ≤ n → e i ≤ Real.exp (L * (t i - a)) * (e 0 + ∑ j ∈ Finset.range i, d j) := by
    intro i
    induction i with
    | zero => intro _; rw [h0]; simp
    | succ i ih =>
      intro hi
      have hb := ih (by omega)
      have hlt := lt_of_le_of_lt (hfin i (by omega) hb) hr
      have hs := hstep i (by omega)
      set h := t (i + 1) - t i with hh
      have h1 := hrec i (by omega) hlt
      have h2 : 1 + h * L ≤ Real.exp (L * h) := by
        have := Real.add_one_le_exp (L * h); linarith [mul_comm L h]
      have h4 : Real.exp (L * (t (i + 1) - a)) = Real.exp (L * h) * Real.exp (L * (t i - a)) := by
        rw [← Real.exp_add]; congr 1; rw [hh]; ring
      have h5 : 1 ≤ Real.exp (L * (t (i + 1) - a)) := Real.one_le_exp (mul_nonneg hL (by linarith [hta (i + 1) hi]))
      have h6 : (1 + h * L) * e i ≤
          Real.exp (L * h) * (Real.exp (L * (t i - a)) * (e 0 + ∑ j ∈ Finset.range i, d j)) :=
        mul_le_mul h2 hb (he i) (Real.exp_pos _).le
      have h7 : d i ≤ Real.exp (L * (t (i + 1) - a)) * d i := le_mul_of_one_le_left (hd i) h5
      rw [Finset.sum_range_succ, ← add_assoc, mul_add, h4, mul_assoc, ← h4]
      linarith
  exact fun i hi => hfin i hi (key i hi)

/-! ## The vector field around the trajectory -/

theorem joint_lipschitz {a b : ℝ} {y : ℝ → E} {f : ℝ → E → E} (hy : ContinuousOn y (Set.Icc a b))
    (hf : ∀ t ∈ Set.Icc a b, ContDiffAt ℝ 1 (joint f) (t, y t)) :
    ∃ L r : ℝ, 0 ≤ L ∧ 0 < r ∧ ∀ t ∈ Set.Icc a b, ∀ s v s' v', |s - t| < r → ‖v - y t‖ < r → |s' - t| < r →
      ‖v' - y t‖ < r → ‖f s v‖ ≤ L ∧ ‖f s v - f s' v'‖ ≤ L * (|s - s'| + ‖v - v'‖) := by
  set K : Set (ℝ × E) := (fun t => (t, y t)) '' Set.Icc a b with hKd
  have hK : IsCompact K := isCompact_Icc.image_of_continuousOn (continuousOn_id.prodMk hy)
  obtain ⟨L, hL0, hL⟩ := bounded_near hK (g := fderiv ℝ (joint f)) (by
    rintro _ ⟨t, ht, rfl⟩
    exact ((hf t ht).fderiv_right (m := 0) (by norm_num)).continuousAt)
  obtain ⟨B, hB0, hB⟩ := bounded_near hK (g := joint f) (by
    rintro _ ⟨t, ht, rfl⟩
    exact (hf t ht).continuousAt)
  have hdiff : ∀ x ∈ K, ∀ᶠ q in 𝓝 x, ‖fderiv ℝ (joint f) q‖ ≤ L ∧ DifferentiableAt ℝ (joint f) q ∧ ‖joint f q‖ ≤ B := by
    rintro _ ⟨t, ht, rfl⟩
    filter_upwards [(hf t ht).eventually (by simp), hL _ ⟨t, ht, rfl⟩, hB _ ⟨t, ht, rfl⟩] with q hq hq' hq2
    exact ⟨hq', hq.differentiableAt (by simp), hq2⟩
  obtain ⟨r, hr, hb⟩ := uniform_near hK hdiff
  refine ⟨max L B, r, le_max_of_le_left hL0, hr, fun t ht s v s' v' hs hv hs' hv' => ?_⟩
  have hin : ∀ s w, |s - t| < r → ‖w - y t‖ < r → (s, w) ∈ Metric.ball (t, y t) r := fun s w hs hw => by
    rw [Metric.mem_ball, Prod.dist_eq]
    rw [dist_eq_norm, dist_eq_norm, Real.norm_eq_abs]
    exact max_lt hs hw
  have hmv := (convex_ball (t, y t) r).norm_image_sub_le_of_norm_fderiv_le (f := joint f) (C := L)
    (fun x hx => (hb _ ⟨t, ht, rfl⟩ x hx).2.1) (fun x hx => (hb _ ⟨t, ht, rfl⟩ x hx).1) (hin s' v' hs' hv') (hin s v hs hv)
  refine ⟨((hb _ ⟨t, ht, rfl⟩ (s, v) (hin s v hs hv)).2.2).trans (le_max_right _ _), ?_⟩
  refine hmv.trans (mul_le_mul (le_max_left _ _) ?_ (norm_nonneg _) (le_max_of_le_left hL0))
  rw [Prod.norm_def]
  exact max_le (le_add_of_nonneg_right (norm_nonneg _)) (le_add_of_nonneg_left (abs_nonneg _))

/-! ## Families of computations -/

section Families
variable {ι : Type} {l : Filter ι} {s ε κ h R t : ι → ℝ}

/-- The family stays bounded along the filter. -/
def Bd (l : Filter ι) (x : ι → F) : Prop := x =O[l] (fun _ => (1 : ℝ))

/-- The families differ by `O(s)`. -/
def Close (l : Filter ι) (s : ι → ℝ) (x' x : ι → F) : Prop := (fun i => x' i - x i) =O[l] s

theorem Close.refl (x : ι → F) : Close l s x x := by
  unfold Close; simpa using isBigO_zero s l

theorem Close.mono {s' : ι → ℝ} {x' x : ι → F} (hc : Close l s x' x) (hs : s =O[l] s') : Close l s' x' x :=
  IsBigO.trans hc hs

theorem Bd.add {x x' : ι → F} (h1 : Bd l x) (h2 : Bd l x') : Bd l (fun i => x i + x' i) := IsBigO.add h1 h2

theorem Bd.smul [NormedSpace ℝ F] {c : ι → ℝ} {x : ι → F} (h1 : Bd l c) (h2 : Bd l x) : Bd l (fun i => c i • x i) := by
  have := IsBigO.smul h1 h2
  unfold Bd
  simpa using this

theorem Bd.const (c : F) : Bd l (fun _ => c) := isBigO_const_const c one_ne_zero l

theorem Close.bd {x' x : ι → F} (hc : Close l s x' x) (hx : Bd l x) (hs : Bd l s) : Bd l x' := by
  have := (IsBigO.trans hc hs).add hx
  unfold Bd
  simpa using this

theorem Close.add {x' x z' z : ι → F} (h1 : Close l s x' x) (h2 : Close l s z' z) :
    Close l s (fun i => x' i + z' i) (fun i => x i + z i) := by
  exact (IsBigO.add h1 h2).congr_left (fun i => (add_sub_add_comm _ _ _ _).symm)

theorem Close.smul [NormedSpace ℝ F] {c' c : ι → ℝ} {x' x : ι → F} (h1 : Close l s c' c) (h2 : Close l s x' x) (hc : Bd l c)
    (hx : Bd l x) (hs : Bd l s) : Close l s (fun i => c' i • x' i) (fun i => c i • x i) := by
  have e1 : (fun i => (c' i - c i) • x' i) =O[l] s := by
    have := IsBigO.smul h1 (h2.bd hx hs)
    simpa using this
  have e2 : (fun i => c i • (x' i - x i)) =O[l] s := by
    have := IsBigO.smul hc h2
    simpa using this
  refine (e1.add e2).congr_left (fun i => ?_)
  rw [sub_smul, smul_sub]; abel

/-- The increments: an error `κ` of the trend counts with the factor `h`. -/
theorem Close.smul_step [NormedSpace ℝ F] {c' c : ι → ℝ} {x' x : ι → F} (hε : ∀ᶠ i in l, 0 ≤ ε i) (hκ : ∀ᶠ i in l, 0 ≤ κ i)
    (hεb : Bd l ε) (hκb : Bd l κ) (hhb : Bd l h)
    (h1 : Close l ε c' c) (h2 : Close l (fun i => ε i + κ i) x' x) (hc : c =O[l] h) (hx : Bd l x) :
    Close l (fun i => ε i + |h i| * κ i) (fun i => c' i • x' i) (fun i => c i • x i) := by
  have hle : ε =O[l] (fun i => ε i + |h i| * κ i) := by
    refine IsBigO.of_bound 1 ?_
    filter_upwards [hε, hκ] with i he hk
    have : 0 ≤ |h i| * κ i := by positivity
    rw [Real.norm_of_nonneg he, Real.norm_of_nonneg (by positivity)]; linarith
  have e1 : (fun i => (c' i - c i) • x' i) =O[l] ε := by
    have := IsBigO.smul h1 (h2.bd hx (hεb.add hκb))
    simpa using this
  have e2 : (fun i => c i • (x' i - x i)) =O[l] (fun i => ε i + |h i| * κ i) := by
    refine (IsBigO.smul hc h2).trans ?_
    have a1 : (fun i => h i • ε i) =O[l] ε := by simpa using IsBigO.smul hhb (isBigO_refl ε l)
    have a2 : (fun i => h i • κ i) =O[l] (fun i => ε i + |h i| * κ i) := by
      refine IsBigO.of_bound 1 ?_
      filter_upwards [hε, hκ] with i he hk
      rw [norm_smul, Real.norm_eq_abs, Real.norm_of_nonneg hk, Real.norm_of_nonneg (by positivity)]; linarith
    refine ((a1.trans hle).add a2).congr_left (fun i => ?_)
    simp only [smul_eq_mul]; ring
  refine ((e1.trans hle).add e2).congr_left (fun i => ?_)
  rw [sub_smul, smul_sub]; abel

/-- The data of a family of computations. -/
structure Setting (l : Filter ι) (rd : ι → Rounding ℝ E) (f : ℝ → E → E) (f' : ι → ℝ → E → E) (y : ℝ → E) (a b r : ℝ)
    (ε κ h R t : ι → ℝ) (u : ι → E) : Prop where
  eps_nonneg : ∀ᶠ i in l, 0 ≤ ε i
  kappa_nonneg : ∀ᶠ i in l, 0 ≤ κ i
  eps : Tendsto ε l (𝓝 0)
  kappa : Tendsto κ l (𝓝 0)
  step : Tendsto h l (𝓝 0)
  range : Tendsto R l atTop
  time : ∀ᶠ i in l, t i ∈ Set.Icc a b
  state : Tendsto (fun i => u i - y (t i)) l (𝓝 0)
  accurate : ∀ᶠ i in l, Accurate (rd i) (ε i) (R i)
  trend : ∀ᶠ i in l, TrendNear (f' i) f y a b r (κ i)
  pos : 0 < r
  continuous : ContinuousOn y (Set.Icc a b)
  smooth : ∀ t ∈ Set.Icc a b, ContDiffAt ℝ 1 (joint f) (t, y t)

variable {rd : ι → Rounding ℝ E} {f : ℝ → E → E} {f' : ι → ℝ → E → E} {y : ℝ → E} {a b r : ℝ} {u : ι → E}

theorem Bd.eventually {x : ι → F} (hx : Bd l x) (hR : Tendsto R l atTop) : ∀ᶠ i in l, ‖x i‖ ≤ R i := by
  obtain ⟨C, hC⟩ := hx.bound
  filter_upwards [hC, hR.eventually_ge_atTop C] with i h1 h2
  simp at h1
  linarith

theorem half : (fun i => h i * (1 / 2)) =O[l] h := by
  simpa [mul_comm] using (isBigO_refl h l).const_mul_left (1 / 2)

namespace Setting
variable (H : Setting l rd f f' y a b r ε κ h R t u)
include H

theorem eps_bd : Bd l ε := H.eps.isBigO_one ℝ
theorem kappa_bd : Bd l κ := H.kappa.isBigO_one ℝ
theorem step_bd : Bd l h := H.step.isBigO_one ℝ

theorem time_bd : Bd l t := by
  refine IsBigO.of_bound (|a| + |b|) ?_
  filter_upwards [H.time] with i hi
  have : |t i| ≤ max |a| |b| := abs_le_max_abs_abs hi.1 hi.2
  have h2 : max |a| |b| ≤ |a| + |b| := max_le (by linarith [abs_nonneg b]) (by linarith [abs_nonneg a])
  simpa using this.trans h2

theorem state_bd : Bd l u := by
  obtain ⟨M, hM⟩ := isCompact_Icc.exists_bound_of_continuousOn H.continuous
  have h1 : Bd l (fun i => y (t i)) := by
    refine IsBigO.of_bound M ?_
    filter_upwards [H.time] with i hi
    simpa using hM _ hi
  have := (H.state.isBigO_one ℝ).add h1
  unfold Bd
  simpa using this

/-- Rounding a number. -/
theorem num {s : ι → ℝ} {x' x : ι → ℝ} (hc : Close l s x' x) (hx : Bd l x) (hs : Bd l s) (he : ε =O[l] s) :
    Close l s (fun i => (rd i).num (x' i)) x := by
  have hb := hc.bd hx hs
  obtain ⟨C, hC⟩ := hb.bound
  have e1 : (fun i => (rd i).num (x' i) - x' i) =O[l] ε := by
    refine IsBigO.of_bound (1 + C) ?_
    filter_upwards [H.eps_nonneg, H.accurate, hb.eventually H.range, hC] with i h0 h1 h2 h3
    have := h1.num _ (by simpa using h2)
    simp only [norm_one, mul_one, Real.norm_eq_abs] at h3
    rw [Real.norm_eq_abs, Real.norm_of_nonneg h0]
    refine this.trans ?_
    rw [mul_comm]
    exact mul_le_mul_of_nonneg_right (by linarith) h0
  refine ((e1.trans he).add hc).congr_left (fun i => ?_)
  ring

/-- Rounding an array. -/
theorem arr {s : ι → ℝ} {x' x : ι → E} (hc : Close l s x' x) (hx : Bd l x) (hs : Bd l s) (he : ε =O[l] s) :
    Close l s (fun i => (rd i).arr (x' i)) x := by
  have hb := hc.bd hx hs
  obtain ⟨C, hC⟩ := hb.bound
  have e1 : (fun i => (rd i).arr (x' i) - x' i) =O[l] ε := by
    refine IsBigO.of_bound (1 + C) ?_
    filter_upwards [H.eps_nonneg, H.accurate, hb.eventually H.range, hC] with i h0 h1 h2 h3
    have := h1.arr _ h2
    simp only [norm_one, mul_one] at h3
    rw [Real.norm_of_nonneg h0]
    refine this.trans ?_
    rw [mul_comm]
    exact mul_le_mul_of_nonneg_right (by linarith) h0
  refine ((e1.trans he).add hc).congr_left (fun i => ?_)
  abel

theorem eps_le_sum : ε =O[l] (fun i => ε i + κ i) := by
  refine IsBigO.of_bound 1 ?_
  filter_upwards [H.eps_nonneg, H.kappa_nonneg] with i h1 h2
  rw [Real.norm_of_nonneg h1, Real.norm_of_nonneg (by positivity)]; linarith

theorem eps_le_local : ε =O[l] (fun i => ε i + |h i| * κ i) := by
  refine IsBigO.of_bound 1 ?_
  filter_upwards [H.eps_nonneg, H.kappa_nonneg] with i he hk
  have : 0 ≤ |h i| * κ i := by positivity
  rw [Real.norm_of_nonneg he, Real.norm_of_nonneg (by positivity)]; linarith

theorem sum_bd : Bd l (fun i => ε i + κ i) := H.eps_bd.add H.kappa_bd

theorem local_le_sum : (fun i => ε i + |h i| * κ i) =O[l] (fun i => ε i + κ i) := by
  have h1 : ∀ᶠ i in l, |h i| < 1 := by
    have := H.step.abs
    rw [abs_zero] at this
    exact this.eventually (gt_mem_nhds one_pos)
  refine IsBigO.of_bound 1 ?_
  filter_upwards [H.eps_nonneg, H.kappa_nonneg, h1] with i he hk hh
  have h2 : |h i| * κ i ≤ 1 * κ i := mul_le_mul_of_nonneg_right hh.le hk
  rw [Real.norm_of_nonneg (by positivity), Real.norm_of_nonneg (by positivity)]; linarith

theorem local_bd : Bd l (fun i => ε i + |h i| * κ i) := IsBigO.trans H.local_le_sum H.sum_bd

/-- Evaluating the trend at close times and states, both close to the trajectory. -/
theorem eval {τ' τ : ι → ℝ} {v' v : ι → E} (h1 : Close l (fun i => ε i + κ i) τ' τ)
    (h2 : Close l (fun i => ε i + κ i) v' v) (h3 : Tendsto (fun i => τ i - t i) l (𝓝 0))
    (h4 : Tendsto (fun i => v i - y (t i)) l (𝓝 0)) :
    Close l (fun i => ε i + κ i) (fun i => f' i (τ' i) (v' i)) (fun i => f (τ i) (v i)) ∧
      Bd l (fun i => f (τ i) (v i)) := by
  obtain ⟨L, ρ, hL0, hρ, hL⟩ := joint_lipschitz H.continuous H.smooth
  have hs0 : Tendsto (fun i => ε i + κ i) l (𝓝 0) := by simpa using H.eps.add H.kappa
  have h3' : Tendsto (fun i => τ' i - t i) l (𝓝 0) := by
    have := (h1.trans_tendsto hs0).add h3
    simpa using this
  have h4' : Tendsto (fun i => v' i - y (t i)) l (𝓝 0) := by
    have := (h2.trans_tendsto hs0).add h4
    simpa using this
  have hm : 0 < min r ρ := lt_min H.pos hρ
  have ev : ∀ {G : Type} [NormedAddCommGroup G] {x : ι → G}, Tendsto x l (𝓝 0) → ∀ᶠ i in l, ‖x i‖ < min r ρ := by
    intro G _ x hx
    have := hx.norm
    rw [norm_zero] at this
    exact this.eventually (gt_mem_nhds hm)
  have hev := (((ev h3).and (ev h4)).and ((ev h3').and (ev h4'))).and (H.time.and H.trend)
  constructor
  · have b1 : (fun i => f' i (τ' i) (v' i) - f (τ' i) (v' i)) =O[l] (fun i => ε i + κ i) := by
      refine IsBigO.of_bound 1 ?_
      filter_upwards [hev, H.eps_nonneg, H.kappa_nonneg] with i hi he hk
      obtain ⟨⟨_, c3, c4⟩, ht, htr⟩ := hi
      have := htr _ ht (τ' i) (v' i) (lt_of_lt_of_le c3 (min_le_left _ _)) (lt_of_lt_of_le c4 (min_le_left _ _))
      rw [Real.norm_of_nonneg (by positivity)]; linarith
    have b2 : (fun i => f (τ' i) (v' i) - f (τ i) (v i)) =O[l] (fun i => ε i + κ i) := by
      have b3 : (fun i => |τ' i - τ i| + ‖v' i - v i‖) =O[l] (fun i => ε i + κ i) :=
        (IsBigO.norm_left h1).add (IsBigO.norm_left h2)
      refine IsBigO.trans (IsBigO.of_bound L ?_) b3
      filter_upwards [hev] with i hi
      obtain ⟨⟨⟨c1, c2⟩, c3, c4⟩, ht, _⟩ := hi
      have lt : ∀ {x : ℝ}, x < min r ρ → x < ρ := fun hx => lt_of_lt_of_le hx (min_le_right _ _)
      have := (hL _ ht _ _ _ _ (lt c3) (lt c4) (lt c1) (lt c2)).2
      rw [Real.norm_of_nonneg (by positivity)]; exact this
    refine (b1.add b2).congr_left (fun i => ?_)
    abel
  · refine IsBigO.of_bound L ?_
    filter_upwards [hev] with i hi
    obtain ⟨⟨⟨c1, c2⟩, _⟩, ht, _⟩ := hi
    have lt : ∀ {x : ℝ}, x < min r ρ → x < ρ := fun hx => lt_of_lt_of_le hx (min_le_right _ _)
    have := (hL _ ht _ _ _ _ (lt c1) (lt c2) (lt c1) (lt c2)).1
    simpa using this

/-- An increment of a bounded state. -/
theorem incr_from {w : ι → E} (hw : Bd l w) {c' c : ι → ℝ} {x' x : ι → E} (h1 : Close l ε c' c)
    (h2 : Close l (fun i => ε i + κ i) x' x) (hc : c =O[l] h) (hx : Bd l x) :
    Close l (fun i => ε i + |h i| * κ i) (fun i => (rd i).arr (w i + (rd i).arr (c' i • x' i)))
      (fun i => w i + c i • x i) := by
  have hcx : Bd l (fun i => c i • x i) := Bd.smul (IsBigO.trans hc H.step_bd) hx
  have s1 := Close.smul_step H.eps_nonneg H.kappa_nonneg H.eps_bd H.kappa_bd H.step_bd h1 h2 hc hx
  have s2 := H.arr s1 hcx H.local_bd H.eps_le_local
  exact H.arr ((Close.refl w).add s2) (hw.add hcx) H.local_bd H.eps_le_local

/-- An increment of the state. -/
theorem incr {c' c : ι → ℝ} {x' x : ι → E} (h1 : Close l ε c' c) (h2 : Close l (fun i => ε i + κ i) x' x)
    (hc : c =O[l] h) (hx : Bd l x) :
    Close l (fun i => ε i + |h i| * κ i) (fun i => (rd i).arr (u i + (rd i).arr (c' i • x' i)))
      (fun i => u i + c i • x i) := H.incr_from H.state_bd h1 h2 hc hx

theorem near {c : ι → ℝ} {x : ι → E} (hc : c =O[l] h) (hx : Bd l x) :
    Tendsto (fun i => u i + c i • x i - y (t i)) l (𝓝 0) := by
  have h1 : Tendsto (fun i => c i • x i) l (𝓝 0) := by
    have : (fun i => c i • x i) =O[l] h := by simpa using IsBigO.smul hc hx
    exact this.trans_tendsto H.step
  have := H.state.add h1
  rw [add_zero] at this
  refine this.congr (fun i => ?_)
  abel

theorem dt_close : Close l ε (fun i => (rd i).num (h i)) h := H.num (Close.refl h) H.step_bd H.eps_bd (isBigO_refl _ _)

theorem half_close : Close l ε (fun i => (rd i).num ((rd i).num (h i) * (1 / 2))) (fun i => h i * (1 / 2)) := by
  have h1 : Close l ε (fun i => (rd i).num (h i) * (1 / 2)) (fun i => h i * (1 / 2)) := by
    have := IsBigO.const_mul_left H.dt_close (1 / 2)
    refine this.congr_left (fun i => ?_)
    ring
  exact H.num h1 (IsBigO.trans half H.step_bd) H.eps_bd (isBigO_refl _ _)

/-- Rounded times. -/
theorem time_close {c' c : ι → ℝ} (h1 : Close l ε c' c) (hc : c =O[l] h) :
    Close l (fun i => ε i + κ i) (fun i => (rd i).num (t i + c' i)) (fun i => t i + c i) ∧
      Tendsto (fun i => t i + c i - t i) l (𝓝 0) := by
  refine ⟨(H.num ((Close.refl t).add h1) (H.time_bd.add (IsBigO.trans hc H.step_bd)) H.eps_bd
    (isBigO_refl _ _)).mono H.eps_le_sum, ?_⟩
  simpa using hc.trans_tendsto H.step

theorem first : Close l (fun i => ε i + κ i) (fun i => f' i (t i) (u i)) (fun i => f (t i) (u i)) ∧
    Bd l (fun i => f (t i) (u i)) :=
  H.eval (Close.refl t) (Close.refl u) (by simpa using tendsto_const_nhds) H.state

/-- The step of `euler`. -/
theorem euler_close : Close l (fun i => ε i + |h i| * κ i)
    (fun i => eulerR (rd i) (f' i) (t i) (u i) ((rd i).num (h i))) (fun i => euler f (t i) (u i) (h i)) :=
  H.incr H.dt_close H.first.1 (isBigO_refl h l) H.first.2

/-- The new state of `leapfrog`. -/
theorem leapfrog_close {w : ι → E} (hw : Bd l w) : Close l (fun i => ε i + |h i| * κ i)
    (fun i => (leapfrogR (rd i) (f' i) (t i) (w i, u i) ((rd i).num (h i))).2)
    (fun i => (leapfrog f (t i) (w i, u i) (h i)).2) := by
  have h2 : (fun i => 2 * h i) =O[l] h := (isBigO_refl h l).const_mul_left 2
  have h1 : Close l ε (fun i => 2 * (rd i).num (h i)) (fun i => 2 * h i) := by
    refine (IsBigO.const_mul_left H.dt_close 2).congr_left (fun i => ?_)
    ring
  exact H.incr_from hw (H.num h1 (IsBigO.trans h2 H.step_bd) H.eps_bd (isBigO_refl _ _)) H.first.1 h2 H.first.2

/-- The step of `rk2`. -/
theorem rk2_close : Close l (fun i => ε i + |h i| * κ i)
    (fun i => rk2R (rd i) (f' i) (t i) (u i) ((rd i).num (h i))) (fun i => rk2 f (t i) (u i) (h i)) := by
  have k1 := H.first
  have hd := H.incr H.half_close k1.1 half k1.2
  have hc : Close l ε (fun i => (rd i).num ((1 / 2) * (rd i).num (h i))) (fun i => (1 / 2) * h i) := by
    simpa only [mul_comm] using H.half_close
  have hh : (fun i => (1 / 2) * h i) =O[l] h := by simpa only [mul_comm] using half (l := l) (h := h)
  have ht := H.time_close hc hh
  have k2 := H.eval ht.1 (hd.mono H.local_le_sum) ht.2 (H.near half k1.2)
  exact H.incr H.dt_close k2.1 (isBigO_refl h l) k2.2

/-- The step of `rk4`. -/
theorem rk4_close : Close l (fun i => ε i + |h i| * κ i)
    (fun i => rk4R (rd i) (f' i) (t i) (u i) ((rd i).num (h i))) (fun i => rk4 f (t i) (u i) (h i)) := by
  have k1 := H.first
  have ht := H.time_close H.half_close half
  have k2 := H.eval ht.1 ((H.incr H.half_close k1.1 half k1.2).mono H.local_le_sum) ht.2 (H.near half k1.2)
  have k3 := H.eval ht.1 ((H.incr H.half_close k2.1 half k2.2).mono H.local_le_sum) ht.2 (H.near half k2.2)
  have ht' := H.time_close H.dt_close (isBigO_refl h l)
  have k4 := H.eval ht'.1 ((H.incr H.dt_close k3.1 (isBigO_refl h l) k3.2).mono H.local_le_sum) ht'.2
    (H.near (isBigO_refl h l) k3.2)
  have hsix : (fun i => h i / 6) =O[l] h := by
    simpa [div_eq_inv_mul] using (isBigO_refl h l).const_mul_left (6 : ℝ)⁻¹
  have hsix' : Close l ε (fun i => (rd i).num ((rd i).num (h i) / 6)) (fun i => h i / 6) := by
    have h1 : Close l ε (fun i => (rd i).num (h i) / 6) (fun i => h i / 6) := by
      refine (IsBigO.const_mul_left H.dt_close (6 : ℝ)⁻¹).congr_left (fun i => ?_)
      ring
    exact H.num h1 (IsBigO.trans hsix H.step_bd) H.eps_bd (isBigO_refl _ _)
  have rnd : ∀ {x' x : ι → E}, Close l (fun i => ε i + κ i) x' x → Bd l x →
      Close l (fun i => ε i + κ i) (fun i => (rd i).arr (x' i)) x := fun h1 h2 => H.arr h1 h2 H.sum_bd H.eps_le_sum
  have two : ∀ {x' x : ι → E}, Close l (fun i => ε i + κ i) x' x → Bd l x →
      Close l (fun i => ε i + κ i) (fun i => (rd i).arr ((2 : ℝ) • x' i)) (fun i => (2 : ℝ) • x i) ∧
        Bd l (fun i => (2 : ℝ) • x i) := fun {x' x} h1 h2 =>
    have hb : Bd l (fun i => (2 : ℝ) • x i) := Bd.smul (Bd.const (2 : ℝ)) h2
    ⟨rnd (Close.smul (Close.refl _) h1 (Bd.const (2 : ℝ)) h2 H.sum_bd) hb, hb⟩
  have m2 := two k2.1 k2.2
  have m3 := two k3.1 k3.2
  have s1b := k1.2.add m2.2
  have s1 := rnd (k1.1.add m2.1) s1b
  have s2b := s1b.add m3.2
  have s2 := rnd (s1.add m3.1) s2b
  have s3b := s2b.add k4.2
  have s3 := rnd (s2.add k4.1) s3b
  exact H.incr hsix' s3 hsix s3b

end Setting

end Families

/-! ## From families to constants -/

/-- A rounded computation of a step. -/
structure Run (E : Type) where
  rd : Rounding ℝ E
  f' : ℝ → E → E
  ε : ℝ
  κ : ℝ
  h : ℝ
  R : ℝ
  t : ℝ
  u : E

/-- A bound along every family of computations is a bound with constants, uniform in a parameter. -/
theorem constants_of_families {P : Type} {f : ℝ → E → E} {y : ℝ → E} {a b r : ℝ} (hr : 0 < r) (hy : ContinuousOn y (Set.Icc a b))
    (hf : ∀ t ∈ Set.Icc a b, ContDiffAt ℝ 1 (joint f) (t, y t)) {g : P → ℝ → E → ℝ → E}
    {gR : P → Rounding ℝ E → (ℝ → E → E) → ℝ → E → ℝ → E}
    (H : ∀ {ι : Type} {l : Filter ι} {ε κ h R t : ι → ℝ} {rd : ι → Rounding ℝ E} {f' : ι → ℝ → E → E} {u : ι → E}
      (w : ι → P), Setting l rd f f' y a b r ε κ h R t u →
        Close l (fun i => ε i + |h i| * κ i) (fun i => gR (w i) (rd i) (f' i) (t i) (u i) (h i)) (fun i => g (w i) (t i) (u i) (h i))) :
    ∃ D ρ R : ℝ, 0 ≤ D ∧ 0 < ρ ∧ ∀ rd f' ε κ, 0 ≤ ε → 0 ≤ κ → Accurate rd ε R → TrendNear f' f y a b r κ →
      ∀ w, ∀ t ∈ Set.Icc a b, ∀ u h, ε + κ + |h| + ‖u - y t‖ < ρ → ‖gR w rd f' t u h - g w t u h‖ ≤ D * (ε + |h| * κ) := by
  let ok : Run E → Prop := fun q => 0 ≤ q.ε ∧ 0 ≤ q.κ ∧ q.t ∈ Set.Icc a b ∧ Accurate q.rd q.ε q.R ∧
    TrendNear q.f' f y a b r q.κ
  let ι := {q : Run E × P // ok q.1}
  let size : ι → ℝ := fun q => q.1.1.ε + q.1.1.κ + |q.1.1.h| + ‖q.1.1.u - y q.1.1.t‖
  let l : Filter ι := comap size (𝓝 0) ⊓ comap (fun q : ι => q.1.1.R) atTop
  have hsize : Tendsto size l (𝓝 0) := tendsto_comap.mono_left inf_le_left
  have small : ∀ {G : Type} [NormedAddCommGroup G] (x : ι → G), (∀ q, ‖x q‖ ≤ size q) → Tendsto x l (𝓝 0) :=
    fun x hx => squeeze_zero_norm hx hsize
  have hs : Setting l (fun q : ι => q.1.1.rd) f (fun q => q.1.1.f') y a b r (fun q => q.1.1.ε) (fun q => q.1.1.κ)
      (fun q => q.1.1.h) (fun q => q.1.1.R) (fun q => q.1.1.t) (fun q => q.1.1.u) := by
    have nn : ∀ q : ι, 0 ≤ q.1.1.ε ∧ 0 ≤ q.1.1.κ ∧ 0 ≤ |q.1.1.h| ∧ 0 ≤ ‖q.1.1.u - y q.1.1.t‖ := fun q =>
      ⟨q.2.1, q.2.2.1, abs_nonneg _, norm_nonneg _⟩
    refine ⟨Eventually.of_forall (fun q => q.2.1), Eventually.of_forall (fun q => q.2.2.1), small _ (fun q => ?_),
      small _ (fun q => ?_), small _ (fun q => ?_), tendsto_comap.mono_left inf_le_right,
      Eventually.of_forall (fun q => q.2.2.2.1), small _ (fun q => ?_), Eventually.of_forall (fun q => q.2.2.2.2.1),
      Eventually.of_forall (fun q => q.2.2.2.2.2), hr, hy, hf⟩ <;>
    obtain ⟨n1, n2, n3, n4⟩ := nn q <;> simp only [size]
    · rw [Real.norm_of_nonneg n1]; linarith
    · rw [Real.norm_of_nonneg n2]; linarith
    · rw [Real.norm_eq_abs]; linarith
    · linarith
  obtain ⟨C, hC0, hC⟩ := (H (fun q : ι => q.1.2) hs).exists_nonneg
  have hb := ((Metric.nhds_basis_ball (x := (0 : ℝ))).comap size).inf
    (atTop_basis.comap (fun q : ι => q.1.1.R))
  obtain ⟨⟨ρ, R⟩, ⟨hρ, _⟩, hP⟩ := hb.eventually_iff.1 hC.bound
  refine ⟨C, ρ, R, hC0, hρ, fun rd f' ε κ hε hκ hacc htr w t ht u h hsz => ?_⟩
  have := @hP ⟨(⟨rd, f', ε, κ, h, R, t, u⟩, w), hε, hκ, ht, hacc, htr⟩ (by
    refine ⟨?_, ?_⟩
    · simp only [Set.mem_preimage, Metric.mem_ball, dist_zero_right, size]
      rw [Real.norm_of_nonneg (by positivity)]
      exact hsz
    · simp)
  rwa [Real.norm_of_nonneg (by positivity)] at this

/-- The same without parameter. -/
theorem constants_of_scheme {f : ℝ → E → E} {y : ℝ → E} {a b r : ℝ} (hr : 0 < r) (hy : ContinuousOn y (Set.Icc a b))
    (hf : ∀ t ∈ Set.Icc a b, ContDiffAt ℝ 1 (joint f) (t, y t)) {g : ℝ → E → ℝ → E}
    {gR : Rounding ℝ E → (ℝ → E → E) → ℝ → E → ℝ → E}
    (H : ∀ {ι : Type} {l : Filter ι} {ε κ h R t : ι → ℝ} {rd : ι → Rounding ℝ E} {f' : ι → ℝ → E → E} {u : ι → E},
      Setting l rd f f' y a b r ε κ h R t u →
        Close l (fun i => ε i + |h i| * κ i) (fun i => gR (rd i) (f' i) (t i) (u i) (h i)) (fun i => g (t i) (u i) (h i))) :
    ∃ D ρ R : ℝ, 0 ≤ D ∧ 0 < ρ ∧ ∀ rd f' ε κ, 0 ≤ ε → 0 ≤ κ → Accurate rd ε R → TrendNear f' f y a b r κ →
      ∀ t ∈ Set.Icc a b, ∀ u h, ε + κ + |h| + ‖u - y t‖ < ρ → ‖gR rd f' t u h - g t u h‖ ≤ D * (ε + |h| * κ) := by
  obtain ⟨D, ρ, R, h1, h2, h3⟩ := constants_of_families (P := Unit) hr hy hf (g := fun _ => g) (gR := fun _ => gR)
    (fun _ hs => H hs)
  exact ⟨D, ρ, R, h1, h2, fun rd f' ε κ q1 q2 q3 q4 => h3 rd f' ε κ q1 q2 q3 q4 ()⟩

/-- A one-step method computed with rounding errors and an approximate trend, or some other approximate data. -/
theorem rounded_convergence {a b : ℝ} (hab : a ≤ b) {Q : Type} {near : Q → ℝ → Prop} {y : ℝ → E} {g : ℝ → E → ℝ → E}
    {gR : Rounding ℝ E → Q → ℝ → E → ℝ → E} {inc : ℝ × E × ℝ → E} {p : ℕ}
    (hp : 1 ≤ p) (hg : ∀ t u h, g t u h = u + h • inc (t, u, h))
    (hy : ∀ t ∈ Set.Icc a b, ContDiffAt ℝ (p + 1 : ℕ) y t)
    (hinc : ∀ t ∈ Set.Icc a b, ContDiffAt ℝ (p + 1 : ℕ) inc (t, y t, 0))
    (hloc : ∀ t ∈ Set.Icc a b, O (p + 1) (fun h => y (t + h) - g t (y t) h))
    (hrnd : ∃ D ρ R : ℝ, 0 ≤ D ∧ 0 < ρ ∧ ∀ rd f' ε κ, 0 ≤ ε → 0 ≤ κ → Accurate rd ε R → near f' κ →
      ∀ t ∈ Set.Icc a b, ∀ u h, ε + κ + |h| + ‖u - y t‖ < ρ → ‖gR rd f' t u h - g t u h‖ ≤ D * (ε + |h| * κ)) :
    ∃ R C δ : ℝ, 0 ≤ C ∧ 0 < δ ∧ ∀ rd f' ε κ, 0 ≤ ε → 0 ≤ κ → κ ≤ δ → Accurate rd ε R → near f' κ →
      ∀ η, 0 ≤ η → η ≤ δ → ∀ window, Partition a b η window → window.length * ε ≤ δ → ∀ u0 xs,
      IsTrajectory (fun t u dt => .ok (gR rd f' t u dt)) window u0 xs → ‖u0 - y a‖ ≤ δ →
      ∀ (i : ℕ) t x, window[i]? = some t → xs[i]? = some x →
        ‖x - y t‖ ≤ C * (η ^ p + ‖u0 - y a‖ + κ + i * ε) := by
  obtain ⟨D, ρ, R, hD0, hρ, hD⟩ := hrnd
  have hyc : ContinuousOn y (Set.Icc a b) := fun t ht => (hy t ht).continuousAt.continuousWithinAt
  obtain ⟨L, r, hL0, hr0, hL⟩ := uniform_lipschitz hyc (inc := inc)
    (fun t ht => (hinc t ht).of_le (by exact_mod_cast (by omega : 1 ≤ p + 1)))
  obtain ⟨M, δ₁, hM0, hδ₁, hM⟩ := uniform_local_error (a := a) (b := b) (p + 1)
    (fun q : ℝ × ℝ => y (q.1 + q.2) - g q.1 (y q.1) q.2)
    (fun t ht => by
      have h1 : ContDiffAt ℝ (p + 1 : ℕ) (fun q : ℝ × ℝ => y q.1) (t, 0) :=
        ContDiffAt.comp (g := y) (f := Prod.fst) (t, (0 : ℝ)) (hy t ht) contDiffAt_fst
      have h2 : ContDiffAt ℝ (p + 1 : ℕ) (fun q : ℝ × ℝ => y (q.1 + q.2)) (t, 0) :=
        ContDiffAt.comp (g := y) (f := fun q : ℝ × ℝ => q.1 + q.2) (t, (0 : ℝ))
          (by simpa using hy t ht) (contDiffAt_fst.add contDiffAt_snd)
      have h3 : ContDiffAt ℝ (p + 1 : ℕ) (fun q : ℝ × ℝ => inc (q.1, y q.1, q.2)) (t, 0) :=
        ContDiffAt.comp (g := inc) (f := fun q : ℝ × ℝ => (q.1, y q.1, q.2)) (t, (0 : ℝ)) (hinc t ht)
          (contDiffAt_fst.prodMk (h1.prodMk contDiffAt_snd))
      simp only [hg]
      exact h2.sub (h1.add (contDiffAt_snd.smul h3)))
    hloc
  have hba : 0 ≤ b - a := by linarith
  set A := Real.exp (L * (b - a)) with hA
  have hA0 : 0 < A := Real.exp_pos _
  set C := A * (1 + M * (b - a) + D * (b - a) + D) with hC
  have hMb : 0 ≤ M * (b - a) := by positivity
  have hDb : 0 ≤ D * (b - a) := by positivity
  have hC0 : 0 ≤ C := by positivity
  set r' := min r (ρ / 2) with hr'
  have hr'0 : 0 < r' := by positivity
  set δ := min (min 1 (r' / (8 * (C + 1)))) (min (ρ / 8) (min (r / 2) (δ₁ / 2))) with hδ
  refine ⟨R, C, δ, hC0, by positivity, ?_⟩
  intro rd f' ε κ hε hκ hκδ hacc htr η hη0 hη window hw hN u0 xs hxs hu0 i t x ht hx
  have d1 : δ ≤ 1 := (min_le_left _ _).trans (min_le_left _ _)
  have d2 : δ ≤ r' / (8 * (C + 1)) := (min_le_left _ _).trans (min_le_right _ _)
  have d3 : δ ≤ ρ / 8 := (min_le_right _ _).trans (min_le_left _ _)
  have d4 : δ ≤ r / 2 := (min_le_right _ _).trans ((min_le_right _ _).trans (min_le_left _ _))
  have d5 : δ ≤ δ₁ / 2 := (min_le_right _ _).trans ((min_le_right _ _).trans (min_le_right _ _))
  have hlen : i < window.length := lt_of_getElem? ht
  have hiN : (i : ℝ) * ε ≤ δ := (mul_le_mul_of_nonneg_right (by exact_mod_cast hlen.le) hε).trans hN
  have hεδ : ε ≤ δ := by
    refine le_trans ?_ hN
    have : (1 : ℝ) ≤ window.length := by exact_mod_cast (by omega : 1 ≤ window.length)
    exact le_mul_of_one_le_left hε this
  set T : ℕ → ℝ := fun i => window[i]?.getD 0 with hT
  set e : ℕ → ℝ := fun i => ‖xs[i]?.getD 0 - y (T i)‖ with he
  set d : ℕ → ℝ := fun j => M * |T (j + 1) - T j| ^ (p + 1) + D * (ε + |T (j + 1) - T j| * κ) with hd
  have hT0 : T 0 = a := getD_of hw.start
  have he0 : e 0 = ‖u0 - y a‖ := by simp only [he, hT0, hxs.start, Option.getD_some]
  have hwin : ∀ j, j ≤ i → window[j]? = some (T j) := fun j hj => by
    obtain ⟨s, hs⟩ := exists_getElem? window j (by omega)
    rw [hs]; simp only [hT, hs, Option.getD_some]
  have hst : ∀ j, j ≤ i → xs[j]? = some (xs[j]?.getD 0) := fun j hj => by
    obtain ⟨s, hs⟩ := exists_getElem? xs j (by rw [hxs.length_eq]; omega)
    rw [hs]; rfl
  have hstep : ∀ j, j < i → T j ≤ T (j + 1) ∧ T (j + 1) - T j ≤ η := fun j hj =>
    hw.step j _ _ (hwin j (by omega)) (hwin (j + 1) (by omega))
  have hηp0 : 0 ≤ η ^ p := by positivity
  have hηp : η ^ p ≤ δ := by
    calc η ^ p ≤ η ^ 1 := pow_le_pow_of_le_one hη0 (hη.trans d1) hp
      _ ≤ δ := by rw [pow_one]; exact hη
  -- the local errors add up
  have hsum : ∑ j ∈ Finset.range i, d j ≤ (M * η ^ p + D * κ) * (b - a) + D * (i * ε) := by
    have h1 : ∑ j ∈ Finset.range i, d j ≤
        ∑ j ∈ Finset.range i, ((M * η ^ p + D * κ) * (T (j + 1) - T j) + D * ε) := by
      refine Finset.sum_le_sum (fun j hj => ?_)
      obtain ⟨hs0, hs1⟩ := hstep j (Finset.mem_range.1 hj)
      simp only [hd]
      set h := T (j + 1) - T j with hh
      have hh0 : 0 ≤ h := by linarith
      rw [abs_of_nonneg hh0]
      have h3 : M * h ^ (p + 1) ≤ M * η ^ p * h := by
        rw [pow_succ, ← mul_assoc]
        exact mul_le_mul_of_nonneg_right (mul_le_mul_of_nonneg_left (pow_le_pow_left₀ hh0 hs1 p) hM0) hh0
      nlinarith
    refine h1.trans ?_
    rw [Finset.sum_add_distrib, ← Finset.mul_sum, Finset.sum_range_sub, Finset.sum_const, Finset.card_range, hT0,
      nsmul_eq_mul]
    have h4 : T i - a ≤ b - a := by linarith [hw.bounded i _ (hwin i le_rfl)]
    have h5 := mul_le_mul_of_nonneg_left h4 (by positivity : 0 ≤ M * η ^ p + D * κ)
    linarith
  have hbound : A * (e 0 + ((M * η ^ p + D * κ) * (b - a) + D * (i * ε))) ≤
      C * (η ^ p + e 0 + κ + i * ε) := by
    rw [hC, mul_assoc]
    refine mul_le_mul_of_nonneg_left ?_ hA0.le
    have q0 : 0 ≤ e 0 := norm_nonneg _
    have q1 : 0 ≤ (i : ℝ) * ε := by positivity
    have q2 := mul_nonneg hMb q0
    have q3 := mul_nonneg hMb q1
    have q4 := mul_nonneg hMb hκ
    have q5 := mul_nonneg hDb q0
    have q6 := mul_nonneg hDb q1
    have q7 := mul_nonneg hDb hηp0
    have q8 := mul_nonneg hD0 q0
    have q9 := mul_nonneg hD0 hηp0
    have q10 := mul_nonneg hD0 hκ
    nlinarith
  have hsmall : A * (e 0 + ((M * η ^ p + D * κ) * (b - a) + D * (i * ε))) < r' := by
    refine lt_of_le_of_lt hbound ?_
    have h1 : η ^ p + e 0 + κ + i * ε ≤ 4 * (r' / (8 * (C + 1))) := by
      rw [he0]; linarith
    have h2 := mul_le_mul_of_nonneg_left h1 hC0
    have h3 : C * (4 * (r' / (8 * (C + 1)))) = (r' / 2) * (C / (C + 1)) := by field_simp; ring
    have h4 : C / (C + 1) ≤ 1 := by rw [div_le_one (by linarith)]; linarith
    have h5 : (r' / 2) * (C / (C + 1)) ≤ (r' / 2) * 1 := mul_le_mul_of_nonneg_left h4 (by linarith)
    linarith
  have hfin := error_accumulation (r := r') hL0 (n := i) (e := e) (t := T) (d := d) hT0
    (fun j hj => hw.bounded j _ (hwin j hj)) (fun j hj => (hstep j hj).1) (fun j => norm_nonneg _)
    (fun j => by simp only [hd]; positivity) hsum hsmall
    (fun j hj hlt => by
      have hmem := partition_mem hw j _ (hwin j (by omega))
      obtain ⟨hs0, hs1⟩ := hstep j hj
      simp only [hd]
      set h := T (j + 1) - T j with hh
      have hh0 : 0 ≤ h := by linarith
      have habs : |h| = h := abs_of_nonneg hh0
      obtain ⟨x', hx1, hx2⟩ := hxs.next j _ _ _ (hwin j (by omega)) (hwin (j + 1) (by omega)) (hst j (by omega))
      simp only [Except.ok.injEq] at hx2
      have hT1 : T (j + 1) = T j + h := by rw [hh]; ring
      have e1 : e (j + 1) = ‖x' - y (T j + h)‖ := by
        simp only [he, hx1, Option.getD_some, hT1]
      have hlt1 : e j < r := hlt.trans_le (min_le_left _ _)
      have hlt2 : e j < ρ / 2 := hlt.trans_le (min_le_right _ _)
      set v := xs[j]?.getD 0 with hv
      have l1 := hL (T j) hmem v (y (T j)) h hlt1 (by simpa using hr0) (by rw [habs]; linarith)
      have l2 := hM (T j) hmem h (by rw [habs]; linarith)
      have l0 := hD rd f' ε κ hε hκ hacc htr (T j) hmem v h (by
        have : ‖v - y (T j)‖ < ρ / 2 := hlt2
        rw [habs]; linarith)
      have l3 : x' - y (T j + h) = (v - y (T j)) + h • (inc (T j, v, h) - inc (T j, y (T j), h)) -
          (y (T j + h) - g (T j) (y (T j)) h) + (gR rd f' (T j) v h - g (T j) v h) := by
        rw [← hx2, hg, hg, smul_sub]; abel
      have l4 : ‖x' - y (T j + h)‖ ≤ ‖v - y (T j)‖ + h * (L * ‖v - y (T j)‖) + M * |h| ^ (p + 1) +
          D * (ε + |h| * κ) := by
        rw [l3]
        refine (norm_add_le _ _).trans (add_le_add ?_ l0)
        refine (norm_sub_le _ _).trans (add_le_add ((norm_add_le _ _).trans (add_le_add le_rfl ?_)) l2)
        rw [norm_smul, Real.norm_of_nonneg hh0]
        exact mul_le_mul_of_nonneg_left l1 hh0
      rw [e1]
      refine l4.trans (le_of_eq ?_)
      simp only [he, ← hv]; ring)
    i le_rfl
  have := hfin.trans hbound
  rw [he0] at this
  simpa only [he, hT, ht, hx, Option.getD_some] using this

end Sympkf.Order
