import Verif.Props.Rounding

/-!
# C113: the leapfrog scheme in rounded arithmetic
-/

set_option autoImplicit false

namespace Sympkf.Integrator

open Asymptotics Filter Topology Sympkf.Order Sympkf.Spec

variable {E : Type} [NormedAddCommGroup E] [NormedSpace ℝ E]

/-- The rounded step of `leapfrog`, for bounded older states. -/
theorem leapfrog_constants {f : ℝ → E → E} {y : ℝ → E} {a b r : ℝ} (hr : 0 < r) (hy : ContinuousOn y (Set.Icc a b))
    (hf : ∀ t ∈ Set.Icc a b, ContDiffAt ℝ 1 (joint f) (t, y t)) (B : ℝ) :
    ∃ D ρ R : ℝ, 0 ≤ D ∧ 0 < ρ ∧ ∀ rd f' ε κ, 0 ≤ ε → 0 ≤ κ → Accurate rd ε R → TrendNear f' f y a b r κ →
      ∀ w : E, ‖w‖ ≤ B → ∀ t ∈ Set.Icc a b, ∀ u h, ε + κ + |h| + ‖u - y t‖ < ρ →
        ‖(leapfrogR rd f' t (w, u) (rd.num h)).2 - (w + (2 * h) • f t u)‖ ≤ D * (ε + |h| * κ) := by
  obtain ⟨D, ρ, R, h1, h2, h3⟩ := constants_of_families (P := {w : E // ‖w‖ ≤ B}) hr hy hf
    (g := fun w t u h => (leapfrog f t (w.1, u) h).2)
    (gR := fun w rd f' t u h => (leapfrogR rd f' t (w.1, u) (rd.num h)).2)
    (fun {ι l ε κ h R t rd f' u} w hs => hs.leapfrog_close (w := fun i => (w i).1)
      (IsBigO.of_bound B (Eventually.of_forall (fun i => by simpa using (w i).2))))
  exact ⟨D, ρ, R, h1, h2, fun rd f' ε κ q1 q2 q3 q4 w hw t ht u h hs => h3 rd f' ε κ q1 q2 q3 q4 ⟨w, hw⟩ t ht u h hs⟩

set_option maxHeartbeats 1000000 in
/-- The trajectories of `leapfrog` in rounded arithmetic. -/
theorem rounded_leapfrog (f : ℝ → E → E) (y : ℝ → E) {a b r₀ : ℝ} (hab : a ≤ b) (hr₀ : 0 < r₀)
    (hy : ∀ t ∈ Set.Icc a b, SolvesNear f y t) (hf : ∀ t ∈ Set.Icc a b, ContDiffAt ℝ 3 (joint f) (t, y t)) :
    ∃ R C δ : ℝ, 0 ≤ C ∧ 0 < δ ∧ ∀ rd f' ε κ, 0 ≤ ε → 0 ≤ κ → κ ≤ δ → Accurate rd ε R → TrendNear f' f y a b r₀ κ →
      ∀ dt, 0 ≤ dt → dt ≤ δ → ∀ window, Uniform a b dt window → window.length * ε ≤ δ → ∀ (p0 : E × E) xs,
      IsTrajectory (fun t q dt => .ok (leapfrogR rd f' t q (rd.num dt))) window p0 xs →
      max ‖p0.1 - y (a - dt)‖ ‖p0.2 - y a‖ ≤ δ →
      ∀ (i : ℕ) t x, window[i]? = some t → xs[i]? = some x → max ‖x.1 - y (t - dt)‖ ‖x.2 - y t‖ ≤
        C * (dt ^ 2 + max ‖p0.1 - y (a - dt)‖ ‖p0.2 - y a‖ + κ + i * ε) := by
  have hf' : ∀ t ∈ Set.Icc a b, ContDiffAt ℝ (2 + 1 : ℕ) (joint f) (t, y t) := fun t ht => by exact_mod_cast hf t ht
  have hyd : ∀ t ∈ Set.Icc a b, ContDiffAt ℝ (2 + 1 : ℕ) y t := fun t ht =>
    ((hy t ht).contDiffAt (hf' t ht)).of_le (by norm_num)
  have hyc : ContinuousOn y (Set.Icc a b) := fun t ht => (hyd t ht).continuousAt.continuousWithinAt
  have hf1 : ∀ t ∈ Set.Icc a b, ContDiffAt ℝ 1 (joint f) (t, y t) := fun t ht => (hf t ht).of_le (by norm_num)
  -- the solution is bounded around the interval
  obtain ⟨Y, _, hY⟩ := bounded_near (isCompact_Icc (a := a) (b := b)) (g := y) (fun t ht => (hyd t ht).continuousAt)
  obtain ⟨ρ₁, hρ₁, hY'⟩ := uniform_near isCompact_Icc hY
  obtain ⟨D, ρ, R, hD0, hρ, hD⟩ := leapfrog_constants hr₀ hyc hf1 (Y + 1)
  obtain ⟨L, r, hL0, hr0, hL⟩ := uniform_lipschitz hyc (inc := eulerInc f)
    (fun t ht => (euler_method f).smooth 1 _ _ (by exact_mod_cast hf1 t ht))
  obtain ⟨M, δ₁, hM0, hδ₁, hM⟩ := uniform_local_error (a := a) (b := b) 3
    (fun q : ℝ × ℝ => y (q.1 + q.2) - (y (q.1 - q.2) + (2 * q.2) • f q.1 (y q.1)))
    (fun t ht => by
      have h1 : ContDiffAt ℝ (2 + 1 : ℕ) (fun q : ℝ × ℝ => y q.1) (t, 0) :=
        ContDiffAt.comp (g := y) (f := Prod.fst) (t, (0 : ℝ)) (hyd t ht) contDiffAt_fst
      have h2 : ContDiffAt ℝ (2 + 1 : ℕ) (fun q : ℝ × ℝ => y (q.1 + q.2)) (t, 0) :=
        ContDiffAt.comp (g := y) (f := fun q : ℝ × ℝ => q.1 + q.2) (t, (0 : ℝ))
          (by simpa using hyd t ht) (contDiffAt_fst.add contDiffAt_snd)
      have h2' : ContDiffAt ℝ (2 + 1 : ℕ) (fun q : ℝ × ℝ => y (q.1 - q.2)) (t, 0) :=
        ContDiffAt.comp (g := y) (f := fun q : ℝ × ℝ => q.1 - q.2) (t, (0 : ℝ))
          (by simpa using hyd t ht) (contDiffAt_fst.sub contDiffAt_snd)
      have h3 : ContDiffAt ℝ (2 + 1 : ℕ) (fun q : ℝ × ℝ => f q.1 (y q.1)) (t, 0) :=
        joint_comp (hf' t ht) contDiffAt_fst h1 rfl rfl
      exact h2.sub (h2'.add ((contDiffAt_const.mul contDiffAt_snd).smul h3)))
    (fun t ht => C15_leapfrog_order f y t (hy t ht) ((hf t ht).of_le (by norm_num)))
  have hba : 0 ≤ b - a := by linarith
  set A := Real.exp (2 * L * (b - a)) with hA
  have hA0 : 0 < A := Real.exp_pos _
  set C := A * (1 + M * (b - a) + D * (b - a) + D) with hC
  have hMb : 0 ≤ M * (b - a) := by positivity
  have hDb : 0 ≤ D * (b - a) := by positivity
  have hC0 : 0 ≤ C := by positivity
  set r' := min (min r 1) (ρ / 2) with hr'
  have hr'0 : 0 < r' := by positivity
  set δ := min (min (min 1 (ρ₁ / 2)) (r' / (8 * (C + 1)))) (min (ρ / 8) (min (r / 2) (δ₁ / 2))) with hδ
  refine ⟨R, C, δ, hC0, by positivity, ?_⟩
  intro rd f' ε κ hε hκ hκδ hacc htr dt hη0 hη window hw hN p0 xs hxs hu0 i t x ht hx
  have d1 : δ ≤ 1 := (min_le_left _ _).trans ((min_le_left _ _).trans (min_le_left _ _))
  have d6 : δ ≤ ρ₁ / 2 := (min_le_left _ _).trans ((min_le_left _ _).trans (min_le_right _ _))
  have d2 : δ ≤ r' / (8 * (C + 1)) := (min_le_left _ _).trans (min_le_right _ _)
  have d3 : δ ≤ ρ / 8 := (min_le_right _ _).trans (min_le_left _ _)
  have d4 : δ ≤ r / 2 := (min_le_right _ _).trans ((min_le_right _ _).trans (min_le_left _ _))
  have d5 : δ ≤ δ₁ / 2 := (min_le_right _ _).trans ((min_le_right _ _).trans (min_le_right _ _))
  have hwp : Partition a b dt window := ⟨hw.start, hw.bounded, fun i t t' h1 h2 => by
    have := hw.step i t t' h1 h2
    constructor <;> linarith⟩
  have hlen : i < window.length := lt_of_getElem? ht
  have hiN : (i : ℝ) * ε ≤ δ := (mul_le_mul_of_nonneg_right (by exact_mod_cast hlen.le) hε).trans hN
  have hεδ : ε ≤ δ := by
    refine le_trans ?_ hN
    have : (1 : ℝ) ≤ window.length := by exact_mod_cast (by omega : 1 ≤ window.length)
    exact le_mul_of_one_le_left hε this
  set T : ℕ → ℝ := fun i => window[i]?.getD 0 with hT
  set e : ℕ → ℝ := fun i => max ‖(xs[i]?.getD 0).1 - y (T i - dt)‖ ‖(xs[i]?.getD 0).2 - y (T i)‖ with he
  have hT0 : T 0 = a := getD_of hw.start
  have he0 : e 0 = max ‖p0.1 - y (a - dt)‖ ‖p0.2 - y a‖ := by simp only [he, hT0, hxs.start, Option.getD_some]
  have hwin : ∀ j, j ≤ i → window[j]? = some (T j) := fun j hj => by
    obtain ⟨s, hs⟩ := exists_getElem? window j (by omega)
    rw [hs]; simp only [hT, hs, Option.getD_some]
  have hst : ∀ j, j ≤ i → xs[j]? = some (xs[j]?.getD 0) := fun j hj => by
    obtain ⟨s, hs⟩ := exists_getElem? xs j (by rw [hxs.length_eq]; omega)
    rw [hs]; rfl
  have hstep : ∀ j, j < i → T (j + 1) = T j + dt := fun j hj =>
    hw.step j _ _ (hwin j (by omega)) (hwin (j + 1) (by omega))
  have hηp0 : 0 ≤ dt ^ 2 := by positivity
  have hηp : dt ^ 2 ≤ δ := by
    calc dt ^ 2 ≤ dt ^ 1 := pow_le_pow_of_le_one hη0 (hη.trans d1) (by norm_num)
      _ ≤ δ := by rw [pow_one]; exact hη
  have hTi : (i : ℝ) * dt ≤ b - a := by
    have : ∀ j, j ≤ i → T j = a + j * dt := by
      intro j
      induction j with
      | zero => intro _; simp [hT0]
      | succ j ih => intro hj; rw [hstep j (by omega), ih (by omega)]; push_cast; ring
    have h1 := this i le_rfl
    have h2 := hw.bounded i _ (hwin i le_rfl)
    linarith
  -- the local errors add up
  have hsum : ∑ _j ∈ Finset.range i, (M * dt ^ 3 + D * (ε + dt * κ)) ≤
      (M * dt ^ 2 + D * κ) * (b - a) + D * (i * ε) := by
    rw [Finset.sum_const, Finset.card_range, nsmul_eq_mul]
    have h5 := mul_le_mul_of_nonneg_left hTi (by positivity : 0 ≤ M * dt ^ 2 + D * κ)
    nlinarith
  have hbound : A * (e 0 + ((M * dt ^ 2 + D * κ) * (b - a) + D * (i * ε))) ≤
      C * (dt ^ 2 + e 0 + κ + i * ε) := by
    rw [hC, mul_assoc]
    refine mul_le_mul_of_nonneg_left ?_ hA0.le
    have q0 : 0 ≤ e 0 := le_max_of_le_left (norm_nonneg _)
    have q1 : 0 ≤ (i : ℝ) * ε := by positivity
    have q2 := mul_nonneg hMb q0
    have q3 := mul_nonneg hMb q1
    have q4 := mul_nonneg hMb hκ
    have q5 := mul_nonneg hDb q0
    have q6 := mul_nonneg hDb q1
    have q7 := mul_nonneg hDb hηp0
    have q8 := mul_nonneg hD0 q0
    have q9 := mul_nonneg hD0 hηp0
    have q10 := mul_nonneg hD0 hκ
    nlinarith
  have hsmall : A * (e 0 + ((M * dt ^ 2 + D * κ) * (b - a) + D * (i * ε))) < r' := by
    refine lt_of_le_of_lt hbound ?_
    have h1 : dt ^ 2 + e 0 + κ + i * ε ≤ 4 * (r' / (8 * (C + 1))) := by
      rw [he0]; linarith
    have h2 := mul_le_mul_of_nonneg_left h1 hC0
    have h3 : C * (4 * (r' / (8 * (C + 1)))) = (r' / 2) * (C / (C + 1)) := by field_simp; ring
    have h4 : C / (C + 1) ≤ 1 := by rw [div_le_one (by linarith)]; linarith
    have h5 : (r' / 2) * (C / (C + 1)) ≤ (r' / 2) * 1 := mul_le_mul_of_nonneg_left h4 (by linarith)
    linarith
  have hfin := error_accumulation (r := r') (by positivity : 0 ≤ 2 * L) (n := i) (e := e) (t := T)
    (d := fun _ => M * dt ^ 3 + D * (ε + dt * κ)) hT0
    (fun j hj => hw.bounded j _ (hwin j hj)) (fun j hj => by rw [hstep j hj]; linarith)
    (fun j => le_max_of_le_left (norm_nonneg _))
    (fun j => by positivity) hsum hsmall
    (fun j hj hlt => by
      have hmem := partition_mem hwp j _ (hwin j (by omega))
      have hT1 := hstep j hj
      have hsub : T (j + 1) - T j = dt := by linarith
      have habs : |dt| = dt := abs_of_nonneg hη0
      obtain ⟨x', hx1, hx2⟩ := hxs.next j _ _ _ (hwin j (by omega)) (hwin (j + 1) (by omega)) (hst j (by omega))
      rw [hsub] at hx2 ⊢
      simp only [Except.ok.injEq] at hx2
      have hlt1 : e j < r := hlt.trans_le ((min_le_left _ _).trans (min_le_left _ _))
      have hlt3 : e j < 1 := hlt.trans_le ((min_le_left _ _).trans (min_le_right _ _))
      have hlt2 : e j < ρ / 2 := hlt.trans_le (min_le_right _ _)
      set v := xs[j]?.getD 0 with hv
      have ej : e j = max ‖v.1 - y (T j - dt)‖ ‖v.2 - y (T j)‖ := rfl
      have e1 : e (j + 1) = max ‖v.2 - y (T j)‖ ‖(leapfrogR rd f' (T j) v (rd.num dt)).2 - y (T j + dt)‖ := by
        simp only [he, hx1, Option.getD_some, hT1, ← hx2, add_sub_cancel_right]
        rfl
      have m1 : ‖v.1 - y (T j - dt)‖ ≤ e j := le_max_left _ _
      have m2 : ‖v.2 - y (T j)‖ ≤ e j := le_max_right _ _
      have hold : ‖v.1‖ ≤ Y + 1 := by
        have h1 := hY' (T j) hmem (T j - dt) (by
          rw [dist_eq_norm, Real.norm_eq_abs, sub_sub_cancel_left, abs_neg, habs]
          linarith)
        have h2 : ‖v.1‖ ≤ ‖v.1 - y (T j - dt)‖ + ‖y (T j - dt)‖ := by
          simpa using norm_add_le (v.1 - y (T j - dt)) (y (T j - dt))
        linarith
      have l0 := hD rd f' ε κ hε hκ hacc htr v.1 hold (T j) hmem v.2 dt (by rw [habs]; linarith)
      have l1 := hL (T j) hmem v.2 (y (T j)) dt (lt_of_le_of_lt m2 hlt1) (by simpa using hr0) (by rw [habs]; linarith)
      simp only [eulerInc] at l1
      have l2 := hM (T j) hmem dt (by rw [habs]; linarith)
      rw [habs] at l0 l2
      have l3 : (leapfrogR rd f' (T j) v (rd.num dt)).2 - y (T j + dt) =
          (v.1 - y (T j - dt)) + (2 * dt) • (f (T j) v.2 - f (T j) (y (T j))) -
          (y (T j + dt) - (y (T j - dt) + (2 * dt) • f (T j) (y (T j)))) +
          ((leapfrogR rd f' (T j) (v.1, v.2) (rd.num dt)).2 - (v.1 + (2 * dt) • f (T j) v.2)) := by
        rw [smul_sub]; abel
      have l4 : ‖(leapfrogR rd f' (T j) v (rd.num dt)).2 - y (T j + dt)‖ ≤
          e j + (2 * dt) * (L * e j) + M * dt ^ 3 + D * (ε + dt * κ) := by
        rw [l3]
        refine (norm_add_le _ _).trans (add_le_add ?_ l0)
        refine (norm_sub_le _ _).trans (add_le_add ((norm_add_le _ _).trans (add_le_add m1 ?_)) l2)
        rw [norm_smul, Real.norm_of_nonneg (by positivity)]
        exact mul_le_mul_of_nonneg_left (l1.trans (mul_le_mul_of_nonneg_left m2 hL0)) (by positivity)
      have hej : 0 ≤ e j := le_max_of_le_left (norm_nonneg _)
      rw [e1]
      refine max_le ?_ (l4.trans (le_of_eq (by ring)))
      have n1 : 0 ≤ dt * (2 * L) * e j := by positivity
      have n2 : 0 ≤ M * dt ^ 3 := by positivity
      have n3 : 0 ≤ D * (ε + dt * κ) := by positivity
      nlinarith)
    i le_rfl
  have := hfin.trans hbound
  rw [he0] at this
  simpa only [he, hT, ht, hx, Option.getD_some] using this

/-- **C113**, leapfrog. On windows of constant step `dt`, from a pair near `(y (a - dt), y a)`, both members of the pair
saved after `i` steps stay within `C (dt^2 + initial error + κ + i ε)` of the solution, the first one a step behind. -/
theorem C113_leapfrog_rounded (f : ℝ → E → E) (y : ℝ → E) {a b r : ℝ} (hab : a ≤ b) (hr : 0 < r)
    (hy : ∀ t ∈ Set.Icc a b, SolvesNear f y t) (hf : ∀ t ∈ Set.Icc a b, ContDiffAt ℝ 3 (joint f) (t, y t)) :
    ∃ R C δ : ℝ, 0 < δ ∧ ∀ (rd : Rounding ℝ E) (f' : ℝ → E → E) ε κ, 0 ≤ ε → 0 ≤ κ → κ ≤ δ → Accurate rd ε R →
      TrendNear f' f y a b r κ → ∀ dt, 0 ≤ dt → dt ≤ δ → ∀ window, Uniform a b dt window → window.length * ε ≤ δ →
      ∀ v u, ‖v - y (a - dt)‖ ≤ δ → ‖u - y a‖ ≤ δ → ∀ saved,
      ∃ fc, forecast (stepR rd .leapfrog (.fn f')) window (.pair v u) (.list saved) = .ok fc ∧
        ∀ (i : ℕ) τ, LastAt window τ i → τ ∈ saved → ∃ v' u', fc.get? τ = some (.pair v' u') ∧
          ‖v' - y (τ - dt)‖ ≤ C * (dt ^ 2 + max ‖v - y (a - dt)‖ ‖u - y a‖ + κ + i * ε) ∧
          ‖u' - y τ‖ ≤ C * (dt ^ 2 + max ‖v - y (a - dt)‖ ‖u - y a‖ + κ + i * ε) := by
  obtain ⟨R, C, δ, _, hδ, h⟩ := rounded_leapfrog f y hab hr hy hf
  refine ⟨R, C, δ, hδ, fun rd f' ε κ hε hκ hκδ hacc htr dt h0 h1 window hw hN v u hv hu saved => ?_⟩
  have hne : window ≠ [] := by
    rintro rfl; simpa using hw.start
  obtain ⟨xs, hx⟩ := C01_trajectory_exists (fun t q dt => .ok (leapfrogR rd f' t q (rd.num dt))) window (v, u) hne
    (fun t u dt => ⟨_, rfl⟩)
  set P : E × E → StateObj E := fun q => .pair q.1 q.2 with hP
  have hX : IsTrajectory (stepR rd .leapfrog (.fn f')) window (.pair v u) (xs.map P) := by
    refine ⟨by simp [hx.length_eq], by simp [hx.start, hP], ?_⟩
    intro i t t' x h1 h2 h3
    rw [List.getElem?_map, Option.map_eq_some_iff] at h3
    obtain ⟨y, hy, rfl⟩ := h3
    obtain ⟨x', h4, h5⟩ := hx.next i t t' y h1 h2 hy
    simp only [Except.ok.injEq] at h5
    exact ⟨P x', by simp [h4], by simp [hP, stepR, ← h5]⟩
  obtain ⟨fc, hfc⟩ := (C01_forecast_complete (stepR rd .leapfrog (.fn f')) window (.pair v u) saved hne).2 ⟨_, hX⟩
  obtain ⟨ys, hy', _, _, hval⟩ := C01_forecast_sound _ _ _ _ _ hfc
  have hyx := C01_trajectory_unique _ _ _ _ _ hne hy' hX
  subst hyx
  refine ⟨fc, hfc, fun i τ hi hτ => ?_⟩
  obtain ⟨q, hq⟩ := exists_getElem? xs i (by rw [hx.length_eq]; exact lt_of_getElem? hi.1)
  refine ⟨q.1, q.2, (hval τ _).2 ⟨hτ, i, hi.1, by simp [hq, hP], hi.2⟩, ?_⟩
  have := h rd f' ε κ hε hκ hκδ hacc htr dt h0 h1 window hw hN (v, u) xs hx (max_le hv hu) i τ q hi.1 hq
  exact ⟨(le_max_left _ _).trans this, (le_max_right _ _).trans this⟩

/-- The case of `Props/Rounding.lean` with `leapfrog`, in fixed-point arithmetic with quantum `q`. -/
example : ∃ C δ : ℝ, 0 < δ ∧ ∀ q, 0 < q → ∀ dt, 0 ≤ dt → dt ≤ δ → ∀ window, Uniform 0 (1 / 2) dt window →
    window.length * q ≤ δ → ∀ saved,
    ∃ fc, forecast (stepR ⟨fixedPoint q, fixedPoint q⟩ .leapfrog (.fn (fun _ (u : ℝ) => fixedPoint q (u ^ 2)))) window
        (.pair (1 + dt)⁻¹ 1) (.list saved) = .ok fc ∧
      ∀ (i : ℕ) τ, LastAt window τ i → τ ∈ saved →
        ∃ v u, fc.get? τ = some (.pair v u) ∧ ‖u - (1 - τ)⁻¹‖ ≤ C * (dt ^ 2 + q + i * q) := by
  obtain ⟨R, C, δ, hδ, h⟩ := C113_leapfrog_rounded (fun _ (u : ℝ) => u ^ 2) (fun s => (1 - s)⁻¹) (a := 0)
    (b := 1 / 2) (by norm_num) one_pos (fun t ht => blowup_solves t (by linarith [ht.2]))
    (fun t _ => (contDiff_snd.pow 2).contDiffAt)
  refine ⟨C, δ, hδ, fun q hq dt h0 h1 window hw hN saved => ?_⟩
  have hqδ : q ≤ δ := by
    refine le_trans ?_ hN
    have : (1 : ℝ) ≤ window.length := by exact_mod_cast lt_of_getElem? hw.start
    exact le_mul_of_one_le_left hq.le this
  have hz : ‖(1 + dt)⁻¹ - (1 - (0 - dt))⁻¹‖ = 0 := by simp
  obtain ⟨fc, hfc, hval⟩ := h _ (fun _ u => fixedPoint q (u ^ 2)) q q hq.le hq.le hqδ (fixedPoint_accurate hq R)
    (fun t _ s v _ _ => fixedPoint_near hq _) dt h0 h1 window hw hN (1 + dt)⁻¹ 1 (by rw [hz]; exact hδ.le)
    (by simpa using hδ.le) saved
  refine ⟨fc, hfc, fun i τ hi hτ => ?_⟩
  obtain ⟨v, u, e1, _, e2⟩ := hval i τ hi hτ
  exact ⟨v, u, e1, by simpa using e2⟩

end Sympkf.Integrator
