import Verif.Lemmas.Rounding
import Verif.Props.Convergence

/-!
# C113: forecasts in rounded arithmetic with an approximate trend
-/

set_option autoImplicit false

namespace Sympkf.Integrator

open Asymptotics Filter Topology Sympkf.Order Sympkf.Spec

variable {E : Type} [NormedAddCommGroup E] [NormedSpace ℝ E]

/-- The rounding that changes nothing. -/
def exact (K S : Type) : Rounding K S := ⟨id, id⟩

/-- **C113**, sanity. Without rounding, the rounded step is the step of C01–C19, for every scheme. -/
theorem C113_exact {K S : Type} [Field K] [AddCommGroup S] [Module K S] (s : Scheme) (trend : TrendObj K S) (t : K)
    (u : StateObj S) (dt : K) : stepR (exact K S) s trend t u dt = step s trend t u dt := by
  cases s <;> cases trend <;> cases u <;> rfl

/-- The rounded step of each scheme that works on a single state with a trend function, by name; `dt` is the exact
difference of the times. -/
noncomputable def singleStepR (rd : Rounding ℝ E) : Scheme → Option ((ℝ → E → E) → ℝ → E → ℝ → E)
  | .euler => some (fun f t u dt => eulerR rd f t u (rd.num dt))
  | .rk2 => some (fun f t u dt => rk2R rd f t u (rd.num dt))
  | .rk4 => some (fun f t u dt => rk4R rd f t u (rd.num dt))
  | _ => none

omit [NormedAddCommGroup E] [NormedSpace ℝ E] in
/-- The values of a forecast whose steps work on single states. -/
theorem single_forecast {st : ℝ → StateObj E → ℝ → Except PyErr (StateObj E)} {g : ℝ → E → ℝ → E}
    (hstep : ∀ t (u : E) dt, st t (.single u) dt = .ok (.single (g t u dt))) (window : List ℝ) (hw : window ≠ [])
    (u0 : E) (saved : List ℝ) :
    ∃ traj xs, forecast st window (.single u0) (.list saved) = .ok traj ∧
      IsTrajectory (fun t u dt => .ok (g t u dt)) window u0 xs ∧
      ∀ τ x, traj.get? τ = some (.single x) ↔ τ ∈ saved ∧ StateAt window xs τ x := by
  obtain ⟨xs, hx⟩ := C01_trajectory_exists (fun t u dt => .ok (g t u dt)) window u0 hw (fun t u dt => ⟨_, rfl⟩)
  have hX : IsTrajectory st window (.single u0) (xs.map StateObj.single) := by
    refine ⟨by simp [hx.length_eq], by simp [hx.start], ?_⟩
    intro i t t' x h1 h2 h3
    rw [List.getElem?_map, Option.map_eq_some_iff] at h3
    obtain ⟨y, hy, rfl⟩ := h3
    obtain ⟨x', h4, h5⟩ := hx.next i t t' y h1 h2 hy
    simp only [Except.ok.injEq] at h5
    exact ⟨.single x', by simp [h4], by rw [hstep, h5]⟩
  obtain ⟨traj, ht⟩ := (C01_forecast_complete st window (.single u0) saved hw).2 ⟨_, hX⟩
  obtain ⟨ys, hy, _, _, h4⟩ := C01_forecast_sound _ _ _ _ _ ht
  have hyx := C01_trajectory_unique _ _ _ _ _ hw hy hX
  subst hyx
  refine ⟨traj, xs, ht, hx, ?_⟩
  intro τ x
  rw [h4]
  constructor
  · rintro ⟨h1, i, h2, h3, h5⟩
    refine ⟨h1, i, h2, ?_, h5⟩
    rw [List.getElem?_map, Option.map_eq_some_iff] at h3
    obtain ⟨y, hy, hyx⟩ := h3
    cases hyx; exact hy
  · rintro ⟨h1, i, h2, h3, h5⟩
    exact ⟨h1, i, h2, by simp [h3], h5⟩

/-- The trajectories of the one-step schemes in rounded arithmetic. -/
theorem rounded_scheme {s : Scheme} {p : ℕ} (hs : Nominal s p) (f : ℝ → E → E) (y : ℝ → E) {a b r : ℝ} (hab : a ≤ b)
    (hr : 0 < r) (hy : ∀ t ∈ Set.Icc a b, SolvesNear f y t)
    (hf : ∀ t ∈ Set.Icc a b, ContDiffAt ℝ (p + 1 : ℕ) (joint f) (t, y t)) :
    ∃ gR : Rounding ℝ E → (ℝ → E → E) → ℝ → E → ℝ → E, (∀ rd, singleStepR rd s = some (gR rd)) ∧
      ∃ R C δ : ℝ, 0 ≤ C ∧ 0 < δ ∧ ∀ rd f' ε κ, 0 ≤ ε → 0 ≤ κ → κ ≤ δ → Accurate rd ε R → TrendNear f' f y a b r κ →
        ∀ η, 0 ≤ η → η ≤ δ → ∀ window, Partition a b η window → window.length * ε ≤ δ → ∀ u0 xs,
        IsTrajectory (fun t u dt => .ok (gR rd f' t u dt)) window u0 xs → ‖u0 - y a‖ ≤ δ →
        ∀ (i : ℕ) t x, window[i]? = some t → xs[i]? = some x →
          ‖x - y t‖ ≤ C * (η ^ p + ‖u0 - y a‖ + κ + i * ε) := by
  have hyc : ∀ t ∈ Set.Icc a b, ContDiffAt ℝ (p + 1 : ℕ) y t := fun t ht =>
    ((hy t ht).contDiffAt (hf t ht)).of_le (by exact_mod_cast Nat.le_succ (p + 1))
  have hyc' : ContinuousOn y (Set.Icc a b) := fun t ht => (hyc t ht).continuousAt.continuousWithinAt
  have hf1 : ∀ t ∈ Set.Icc a b, ContDiffAt ℝ 1 (joint f) (t, y t) := fun t ht =>
    (hf t ht).of_le (by exact_mod_cast (by omega : 1 ≤ p + 1))
  cases hs with
  | euler =>
    exact ⟨_, fun _ => rfl, rounded_convergence hab le_rfl (euler_method f).form hyc
      (fun t ht => (euler_method f).smooth _ _ _ (hf t ht))
      (fun t ht => C15_euler_order f y t (hy t ht) ((hf t ht).of_le (by norm_num)))
      (constants_of_scheme hr hyc' hf1 (fun H => H.euler_close))⟩
  | rk2 =>
    exact ⟨_, fun _ => rfl, rounded_convergence hab (by norm_num) (rk2_method f).form hyc
      (fun t ht => (rk2_method f).smooth _ _ _ (hf t ht))
      (fun t ht => C15_rk2_order f y t (hy t ht) ((hf t ht).of_le (by norm_num)))
      (constants_of_scheme hr hyc' hf1 (fun H => H.rk2_close))⟩
  | rk4 =>
    exact ⟨_, fun _ => rfl, rounded_convergence hab (by norm_num) (rk4_method f).form hyc
      (fun t ht => (rk4_method f).smooth _ _ _ (hf t ht))
      (fun t ht => C15_rk4_order f y t (hy t ht) ((hf t ht).of_le (by norm_num)))
      (constants_of_scheme hr hyc' hf1 (fun H => H.rk4_close))⟩

/-- **C113**. Let `y` solve `y' = f(t, y)` around `[a, b]`, with `f` of class `C^(p+1)` around the trajectory, where `p`
is the nominal order of the scheme. The forecast is computed with a trend `f'` that differs from `f` by at most `κ` near
the trajectory, and with arithmetic whose results are wrong by at most `ε (1 + size)`, for results of size at most `R`.
If the steps, the initial error, `κ` and `ε` times the number of times are small, then the forecast exists and the state
saved after `i` steps differs from the solution by at most `C (η^p + initial error + κ + i ε)`. The constants depend
neither on the arithmetic nor on the trend `f'` nor on the window nor on the initial state. -/
theorem C113_forecast_rounded {s : Scheme} {p : ℕ} (hs : Nominal s p) (f : ℝ → E → E) (y : ℝ → E) {a b r : ℝ}
    (hab : a ≤ b) (hr : 0 < r) (hy : ∀ t ∈ Set.Icc a b, SolvesNear f y t)
    (hf : ∀ t ∈ Set.Icc a b, ContDiffAt ℝ (p + 1 : ℕ) (joint f) (t, y t)) :
    ∃ R C δ : ℝ, 0 < δ ∧ ∀ (rd : Rounding ℝ E) (f' : ℝ → E → E) ε κ, 0 ≤ ε → 0 ≤ κ → κ ≤ δ → Accurate rd ε R →
      TrendNear f' f y a b r κ → ∀ η, 0 ≤ η → η ≤ δ → ∀ window, Partition a b η window → window.length * ε ≤ δ →
      ∀ u0, ‖u0 - y a‖ ≤ δ → ∀ saved,
      ∃ fc, forecast (stepR rd s (.fn f')) window (.single u0) (.list saved) = .ok fc ∧
        ∀ (i : ℕ) τ, LastAt window τ i → τ ∈ saved →
          ∃ x, fc.get? τ = some (.single x) ∧ ‖x - y τ‖ ≤ C * (η ^ p + ‖u0 - y a‖ + κ + i * ε) := by
  obtain ⟨gR, hgR, R, C, δ, _, hδ, h⟩ := rounded_scheme hs f y hab hr hy hf
  refine ⟨R, C, δ, hδ, fun rd f' ε κ hε hκ hκδ hacc htr η h0 h1 window hw hN u0 hu saved => ?_⟩
  have hstep : ∀ t (u : E) dt, stepR rd s (.fn f') t (.single u) dt = .ok (.single (gR rd f' t u dt)) := by
    intro t u dt
    have := hgR rd
    cases hs <;> simp only [singleStepR, Option.some.injEq] at this <;> rw [← this] <;> rfl
  obtain ⟨fc, xs, hfc, hxs, hval⟩ := single_forecast hstep window (partition_ne_nil hw) u0 saved
  refine ⟨fc, hfc, fun i τ hi hτ => ?_⟩
  obtain ⟨x, hx⟩ := exists_getElem? xs i (by rw [hxs.length_eq]; exact lt_of_getElem? hi.1)
  exact ⟨x, (hval τ x).2 ⟨hτ, i, hi.1, hx, hi.2⟩, h rd f' ε κ hε hκ hκδ hacc htr η h0 h1 window hw hN u0 xs hxs hu i τ x hi.1 hx⟩

/-- The times of `Model.window`. -/
theorem window_getElem {dt stop start : ℝ} (hdt : 0 < dt) (i : ℕ) :
    start + i * dt < stop + dt / 3 ↔ (window dt stop start)[i]? = some (start + i * dt) := by
  simp only [window, arange, List.getElem?_map, Option.map_eq_some_iff]
  constructor
  · intro hi
    refine ⟨i, ?_, rfl⟩
    rw [List.getElem?_range]
    have : (i : ℝ) < (stop + dt / 3 - start) / dt := by rw [lt_div_iff₀ hdt]; linarith
    have : (i : ℤ) < ⌈(stop + dt / 3 - start) / dt⌉ := Int.lt_ceil.2 (by exact_mod_cast this)
    omega
  · rintro ⟨j, hj, _⟩
    have hlt := lt_of_getElem? hj
    rw [List.length_range] at hlt
    have : (i : ℤ) < ⌈(stop + dt / 3 - start) / dt⌉ := by omega
    have := Int.lt_ceil.1 this
    rw [lt_div_iff₀ hdt] at this
    push_cast at this
    linarith

theorem window_partition {dt stop start b : ℝ} (hdt : 0 < dt) (h1 : start ≤ stop) (hb : dt ≤ 3 * (b - stop)) :
    Partition start b dt (window dt stop start) := by
  refine ⟨(C10_window_last dt stop start hdt (by linarith)).1, fun i t ht => ?_, fun i t t' ht ht' => ?_⟩
  · have e := C10_window_progression dt stop start i t ht
    rw [e] at ht ⊢
    have := (window_getElem hdt i).2 ht
    linarith
  · have e := C10_window_progression dt stop start i t ht
    have e' := C10_window_progression dt stop start (i + 1) t' ht'
    push_cast at e'
    constructor <;> nlinarith

/-- **C113** on the windows of `Model.window`, from the exact initial state: the error at all the saved times is at most
`C (dt^p + κ + ε / dt)`. Refining the step beyond `ε^(1/(p+1))` makes this bound worse. -/
theorem C113_window_rounded {s : Scheme} {p : ℕ} (hs : Nominal s p) (f : ℝ → E → E) (y : ℝ → E) {start stop b r : ℝ}
    (h1 : start ≤ stop) (h2 : stop < b) (hr : 0 < r) (hy : ∀ t ∈ Set.Icc start b, SolvesNear f y t)
    (hf : ∀ t ∈ Set.Icc start b, ContDiffAt ℝ (p + 1 : ℕ) (joint f) (t, y t)) :
    ∃ R C δ : ℝ, 0 < δ ∧ ∀ (rd : Rounding ℝ E) (f' : ℝ → E → E) ε κ, 0 ≤ ε → 0 ≤ κ → κ ≤ δ → Accurate rd ε R →
      TrendNear f' f y start b r κ → ∀ dt, 0 < dt → dt ≤ δ → ε / dt ≤ δ →
      ∃ fc, forecast (stepR rd s (.fn f')) (window dt stop start) (.single (y start)) .none = .ok fc ∧
        ∀ i : ℕ, start + i * dt < stop + dt / 3 →
          ∃ x, fc.get? (start + i * dt) = some (.single x) ∧
            ‖x - y (start + i * dt)‖ ≤ C * (dt ^ p + κ + ε / dt) := by
  obtain ⟨R, C, δ, hδ, h⟩ := C113_forecast_rounded hs f y (h1.trans h2.le) hr hy hf
  set ℓ := stop - start + 2 with hℓ
  have hℓ0 : 0 < ℓ := by linarith
  refine ⟨R, |C| * (1 + ℓ), min (min δ 1) (min (3 * (b - stop)) (δ / ℓ)),
    lt_min (lt_min hδ one_pos) (lt_min (by linarith) (by positivity)),
    fun rd f' ε κ hε hκ hκδ hacc htr dt hdt hle hεdt => ?_⟩
  have hd1 : dt ≤ δ := hle.trans ((min_le_left _ _).trans (min_le_left _ _))
  have hd0 : dt ≤ 1 := hle.trans ((min_le_left _ _).trans (min_le_right _ _))
  have hd2 : dt ≤ 3 * (b - stop) := hle.trans ((min_le_right _ _).trans (min_le_left _ _))
  have hk : κ ≤ δ := hκδ.trans ((min_le_left _ _).trans (min_le_left _ _))
  have he1 : ε / dt ≤ δ / ℓ := hεdt.trans ((min_le_right _ _).trans (min_le_right _ _))
  have hmem := window_getElem (stop := stop) (start := start) hdt
  have hpart := window_partition hdt h1 hd2
  have hεd : ε = dt * (ε / dt) := by field_simp
  have hεd0 : 0 ≤ ε / dt := by positivity
  have hcount : ∀ i : ℕ, start + i * dt < stop + dt / 3 → (i + 1 : ℝ) * ε ≤ ℓ * (ε / dt) := by
    intro i hi
    have : (i + 1 : ℝ) * dt ≤ ℓ := by rw [hℓ]; linarith
    calc (i + 1 : ℝ) * ε = ((i + 1 : ℝ) * dt) * (ε / dt) := by rw [mul_assoc, ← hεd]
      _ ≤ ℓ * (ε / dt) := mul_le_mul_of_nonneg_right this hεd0
  have hN : (window dt stop start).length * ε ≤ δ := by
    have hpos : 0 < (window dt stop start).length := lt_of_getElem? hpart.start
    obtain ⟨t, ht⟩ := exists_getElem? (window dt stop start) ((window dt stop start).length - 1) (by omega)
    have e := C10_window_progression dt stop start _ t ht
    rw [e] at ht
    have h3 := hcount _ ((hmem _).2 ht)
    have h4 : (((window dt stop start).length - 1 : ℕ) : ℝ) + 1 = (window dt stop start).length := by
      have : ((window dt stop start).length - 1) + 1 = (window dt stop start).length := by omega
      exact_mod_cast this
    rw [h4] at h3
    refine h3.trans ((mul_le_mul_of_nonneg_left he1 hℓ0.le).trans (le_of_eq ?_))
    field_simp
  obtain ⟨fc, hfc, hval⟩ := h rd f' ε κ hε hκ hk hacc htr dt hdt.le hd1 _ hpart hN (y start) (by simpa using hδ.le)
    (window dt stop start)
  refine ⟨fc, by
    rw [(C04_saved_times_forms (stepR rd s (.fn f')) (window dt stop start) (.single (y start)) 0).1]; exact hfc,
    fun i hi => ?_⟩
  have hw := (hmem i).1 hi
  have hlast : LastAt (window dt stop start) (start + i * dt) i := by
    refine ⟨hw, fun j hj hc => ?_⟩
    have e := C10_window_progression dt stop start j _ hc
    have : (i : ℝ) * dt < j * dt := mul_lt_mul_of_pos_right (by exact_mod_cast hj) hdt
    linarith
  obtain ⟨x, hx1, hx2⟩ := hval i _ hlast (List.mem_of_getElem? hw)
  refine ⟨x, hx1, ?_⟩
  have h5 : (i : ℝ) * ε ≤ ℓ * (ε / dt) := le_trans (by nlinarith) (hcount i hi)
  simp only [sub_self, norm_zero, add_zero] at hx2
  have h6 : 0 ≤ dt ^ p := by positivity
  have h7 : 0 ≤ (i : ℝ) * ε := by positivity
  calc ‖x - y (start + i * dt)‖ ≤ C * (dt ^ p + κ + i * ε) := hx2
    _ ≤ |C| * (dt ^ p + κ + i * ε) := mul_le_mul_of_nonneg_right (le_abs_self C) (by positivity)
    _ ≤ |C| * ((1 + ℓ) * (dt ^ p + κ + ε / dt)) := mul_le_mul_of_nonneg_left (by nlinarith) (abs_nonneg C)
    _ = |C| * (1 + ℓ) * (dt ^ p + κ + ε / dt) := by ring

/-- **C113**, the rounding errors do add up: in an arithmetic that rounds every array upwards by `ε`, the forecasts of
the constant solutions of `y' = 0` with the scheme `euler` are wrong by `2 i ε` after `i` steps, however small the
steps. -/
theorem C113_accumulates (ε : ℝ) (hε : 0 ≤ ε) :
    (∀ R, Accurate (⟨id, fun v => v + ε⟩ : Rounding ℝ ℝ) ε R) ∧
      ∀ window : List ℝ, window ≠ [] → ∀ u0 saved,
        ∃ fc, forecast (stepR (⟨id, fun v => v + ε⟩ : Rounding ℝ ℝ) .euler (.fn (fun _ _ => 0))) window (.single u0)
            (.list saved) = .ok fc ∧
          ∀ (i : ℕ) τ, LastAt window τ i → τ ∈ saved → fc.get? τ = some (.single (u0 + 2 * i * ε)) := by
  refine ⟨fun R => ⟨fun x _ => ?_, fun v _ => ?_⟩, fun window hw u0 saved => ?_⟩
  · simp; positivity
  · simp [abs_of_nonneg hε]
    nlinarith [abs_nonneg v]
  · have hstep : ∀ t (u : ℝ) dt, stepR (⟨id, fun v => v + ε⟩ : Rounding ℝ ℝ) .euler (.fn (fun _ _ => 0)) t (.single u) dt
        = .ok (.single ((fun _ u _ => u + 2 * ε : ℝ → ℝ → ℝ → ℝ) t u dt)) := by
      intro t u dt
      simp only [stepR, eulerR, smul_zero]
      congr 2; ring
    obtain ⟨fc, xs, hfc, hxs, hval⟩ := single_forecast hstep window hw u0 saved
    refine ⟨fc, hfc, fun i τ hi hτ => (hval τ _).2 ⟨hτ, i, hi.1, ?_, hi.2⟩⟩
    have key : ∀ j : ℕ, j < window.length → xs[j]? = some (u0 + 2 * j * ε) := by
      intro j
      induction j with
      | zero => intro _; rw [hxs.start]; simp
      | succ j ih =>
        intro hj
        obtain ⟨t, ht⟩ := exists_getElem? window j (by omega)
        obtain ⟨t', ht'⟩ := exists_getElem? window (j + 1) hj
        obtain ⟨x', h1, h2⟩ := hxs.next j t t' _ ht ht' (ih (by omega))
        rw [h1, ← (Except.ok.inj h2)]
        push_cast
        congr 1; ring
    exact key i (lt_of_getElem? hi.1)

/-! Non-vacuity: the solution `1 / (1 - t)` of `u' = u^2` on `[0, 1/2]`, in fixed-point arithmetic with quantum `q` and
with a trend that is itself computed in this arithmetic. -/

/-- Rounding downwards to a multiple of `q`. -/
noncomputable def fixedPoint (q x : ℝ) : ℝ := ⌊x / q⌋ * q

theorem fixedPoint_near {q : ℝ} (hq : 0 < q) (x : ℝ) : |fixedPoint q x - x| ≤ q := by
  have h1 := Int.floor_le (x / q)
  have h2 := Int.lt_floor_add_one (x / q)
  rw [le_div_iff₀ hq] at h1
  rw [div_lt_iff₀ hq] at h2
  rw [fixedPoint, abs_le]
  constructor <;> nlinarith

theorem fixedPoint_accurate {q : ℝ} (hq : 0 < q) (R : ℝ) :
    Accurate (⟨fixedPoint q, fixedPoint q⟩ : Rounding ℝ ℝ) q R := by
  have h : ∀ x : ℝ, |fixedPoint q x - x| ≤ q * (1 + |x|) := fun x =>
    (fixedPoint_near hq x).trans (by nlinarith [abs_nonneg x])
  exact ⟨fun x _ => h x, fun x _ => h x⟩

example : ∃ C δ : ℝ, 0 < δ ∧ ∀ q, 0 < q → ∀ η, 0 ≤ η → η ≤ δ → ∀ window, Partition 0 (1 / 2) η window →
    window.length * q ≤ δ → ∀ saved,
    ∃ fc, forecast (stepR ⟨fixedPoint q, fixedPoint q⟩ .rk4 (.fn (fun _ (u : ℝ) => fixedPoint q (u ^ 2)))) window
        (.single 1) (.list saved) = .ok fc ∧
      ∀ (i : ℕ) τ, LastAt window τ i → τ ∈ saved →
        ∃ x, fc.get? τ = some (.single x) ∧ |x - (1 - τ)⁻¹| ≤ C * (η ^ 4 + q + i * q) := by
  obtain ⟨R, C, δ, hδ, h⟩ := C113_forecast_rounded .rk4 (fun _ (u : ℝ) => u ^ 2) (fun s => (1 - s)⁻¹) (a := 0)
    (b := 1 / 2) (by norm_num) one_pos (fun t ht => blowup_solves t (by linarith [ht.2]))
    (fun t _ => (contDiff_snd.pow 2).contDiffAt)
  refine ⟨C, δ, hδ, fun q hq η h0 h1 window hw hN saved => ?_⟩
  have hqδ : q ≤ δ := by
    refine le_trans ?_ hN
    have : (1 : ℝ) ≤ window.length := by exact_mod_cast lt_of_getElem? hw.start
    exact le_mul_of_one_le_left hq.le this
  obtain ⟨fc, hfc, hval⟩ := h _ (fun _ u => fixedPoint q (u ^ 2)) q q hq.le hq.le hqδ (fixedPoint_accurate hq R)
    (fun t _ s v _ _ => fixedPoint_near hq _) η h0 h1 window hw hN 1 (by simpa using hδ.le) saved
  refine ⟨fc, hfc, fun i τ hi hτ => ?_⟩
  obtain ⟨x, hx, hb⟩ := hval i τ hi hτ
  exact ⟨x, hx, by simpa using hb⟩

/-- A step of `rk2` for `u' = u` in integer arithmetic: the half step `1/2` is rounded to zero. -/
example : rk2 (fun (_ : ℝ) (u : ℝ) => u) 0 1 1 = 5 / 2 ∧
    rk2R (⟨fixedPoint 1, fixedPoint 1⟩ : Rounding ℝ ℝ) (fun _ (u : ℝ) => u) 0 1 1 = 2 := by
  constructor
  · norm_num [rk2]
  · have e1 : ⌊(1 : ℝ) / 2⌋ = 0 := by rw [Int.floor_eq_iff]; norm_num
    have e2 : ⌊(2 : ℝ)⌋ = 2 := by rw [Int.floor_eq_iff]; norm_num
    norm_num [rk2R, fixedPoint, e1, e2]

end Sympkf.Integrator
