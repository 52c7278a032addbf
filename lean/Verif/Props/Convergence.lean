import Verif.Lemmas.OneStep
import Verif.Props.Order
import Verif.Props.Forecast
import Verif.Props.Schemes
import Mathlib.Analysis.SpecialFunctions.ExpDeriv

/-!
# C86, C87: forecasts converge to the solutions, with the nominal order of the time scheme
-/

set_option autoImplicit false

namespace Sympkf.Integrator

open Asymptotics Filter Topology Sympkf.Order Sympkf.Spec

variable {E : Type} [NormedAddCommGroup E] [NormedSpace ℝ E]

/-- The textbook orders of the one-step schemes. -/
inductive Nominal : Scheme → ℕ → Prop
  | euler : Nominal .euler 1
  | rk2 : Nominal .rk2 2
  | rk4 : Nominal .rk4 4

/-- The vector field composed with smooth times and states. -/
theorem joint_comp {X : Type} [NormedAddCommGroup X] [NormedSpace ℝ X] {f : ℝ → E → E} {n : ℕ} {q : X} {τ : X → ℝ}
    {v : X → E} {t : ℝ} {u : E} (hf : ContDiffAt ℝ n (joint f) (t, u)) (hτ : ContDiffAt ℝ n τ q)
    (hv : ContDiffAt ℝ n v q) (h1 : τ q = t) (h2 : v q = u) : ContDiffAt ℝ n (fun x => f (τ x) (v x)) q := by
  subst h1 h2
  exact ContDiffAt.comp (g := joint f) (f := fun x => (τ x, v x)) q hf (hτ.prodMk hv)

/-- The increment of `euler`: the new state is `u + dt • inc`. -/
def eulerInc (f : ℝ → E → E) : ℝ × E × ℝ → E := fun q => f q.1 q.2.1

/-- The increment of `rk2`. -/
noncomputable def rk2Inc (f : ℝ → E → E) : ℝ × E × ℝ → E := fun q =>
  f (q.1 + (1/2) * q.2.2) (q.2.1 + (q.2.2 * (1/2)) • f q.1 q.2.1)

/-- The stages and the increment of `rk4`. -/
noncomputable def rk4k2 (f : ℝ → E → E) : ℝ × E × ℝ → E := fun q =>
  f (q.1 + q.2.2 * (1/2)) (q.2.1 + (q.2.2 * (1/2)) • f q.1 q.2.1)
noncomputable def rk4k3 (f : ℝ → E → E) : ℝ × E × ℝ → E := fun q =>
  f (q.1 + q.2.2 * (1/2)) (q.2.1 + (q.2.2 * (1/2)) • rk4k2 f q)
noncomputable def rk4k4 (f : ℝ → E → E) : ℝ × E × ℝ → E := fun q =>
  f (q.1 + q.2.2) (q.2.1 + q.2.2 • rk4k3 f q)
noncomputable def rk4Inc (f : ℝ → E → E) : ℝ × E × ℝ → E := fun q =>
  (1 / 6 : ℝ) • (f q.1 q.2.1 + (2 : ℝ) • rk4k2 f q + (2 : ℝ) • rk4k3 f q + rk4k4 f q)

/-- A method `u + dt • inc(t, u, dt)` for the vector field `f`, as smooth as `f`. -/
structure Method (f : ℝ → E → E) (g : ℝ → E → ℝ → E) (inc : ℝ × E × ℝ → E) : Prop where
  form : ∀ t u h, g t u h = u + h • inc (t, u, h)
  consistent : ∀ t u, inc (t, u, 0) = f t u
  smooth : ∀ (n : ℕ) t u, ContDiffAt ℝ n (joint f) (t, u) → ContDiffAt ℝ n inc (t, u, 0)

theorem euler_method (f : ℝ → E → E) : Method f (euler f) (eulerInc f) := by
  refine ⟨fun t u h => rfl, fun t u => rfl, fun n t u hf => ?_⟩
  exact joint_comp hf contDiffAt_fst (contDiffAt_fst.comp _ contDiffAt_snd) rfl rfl

theorem rk2_method (f : ℝ → E → E) : Method f (rk2 f) (rk2Inc f) := by
  refine ⟨fun t u h => rfl, fun t u => by simp [rk2Inc], fun n t u hf => ?_⟩
  have ht : ContDiffAt ℝ n (fun q : ℝ × E × ℝ => q.1) (t, u, (0 : ℝ)) := contDiffAt_fst
  have hu : ContDiffAt ℝ n (fun q : ℝ × E × ℝ => q.2.1) (t, u, (0 : ℝ)) := contDiffAt_fst.comp _ contDiffAt_snd
  have hh : ContDiffAt ℝ n (fun q : ℝ × E × ℝ => q.2.2) (t, u, (0 : ℝ)) := contDiffAt_snd.comp _ contDiffAt_snd
  have k1 := joint_comp hf ht hu rfl rfl
  exact joint_comp hf (ht.add (contDiffAt_const.mul hh)) (hu.add ((hh.mul contDiffAt_const).smul k1))
    (by simp) (by simp)

theorem rk4_method (f : ℝ → E → E) : Method f (rk4 f) (rk4Inc f) := by
  refine ⟨fun t u h => ?_, fun t u => ?_, fun n t u hf => ?_⟩
  · simp only [rk4, rk4Inc, rk4k2, rk4k3, rk4k4, smul_smul]
    congr 2; ring
  · simp only [rk4Inc, rk4k2, rk4k3, rk4k4, zero_mul, zero_smul, add_zero]
    module
  · have ht : ContDiffAt ℝ n (fun q : ℝ × E × ℝ => q.1) (t, u, (0 : ℝ)) := contDiffAt_fst
    have hu : ContDiffAt ℝ n (fun q : ℝ × E × ℝ => q.2.1) (t, u, (0 : ℝ)) := contDiffAt_fst.comp _ contDiffAt_snd
    have hh : ContDiffAt ℝ n (fun q : ℝ × E × ℝ => q.2.2) (t, u, (0 : ℝ)) := contDiffAt_snd.comp _ contDiffAt_snd
    have k1 := joint_comp hf ht hu rfl rfl
    have k2 : ContDiffAt ℝ n (rk4k2 f) (t, u, (0 : ℝ)) :=
      joint_comp hf (ht.add (hh.mul contDiffAt_const)) (hu.add ((hh.mul contDiffAt_const).smul k1)) (by simp) (by simp)
    have k3 : ContDiffAt ℝ n (rk4k3 f) (t, u, (0 : ℝ)) :=
      joint_comp hf (ht.add (hh.mul contDiffAt_const)) (hu.add ((hh.mul contDiffAt_const).smul k2)) (by simp) (by simp)
    have k4 : ContDiffAt ℝ n (rk4k4 f) (t, u, (0 : ℝ)) :=
      joint_comp hf (ht.add hh) (hu.add (hh.smul k3)) (by simp) (by simp)
    exact contDiffAt_const.smul (((k1.add (contDiffAt_const.smul k2)).add (contDiffAt_const.smul k3)).add k4)

/-- The trajectories of the one-step schemes converge with their nominal order. -/
theorem scheme_convergence {s : Scheme} {p : ℕ} (hs : Nominal s p) (f : ℝ → E → E) (y : ℝ → E) {a b : ℝ} (hab : a ≤ b)
    (hy : ∀ t ∈ Set.Icc a b, SolvesNear f y t)
    (hf : ∀ t ∈ Set.Icc a b, ContDiffAt ℝ (p + 1 : ℕ) (joint f) (t, y t)) :
    ∃ g, singleStep s = some g ∧ ∃ C δ : ℝ, 0 ≤ C ∧ 0 < δ ∧ ∀ η, 0 ≤ η → η ≤ δ → ∀ window, Partition a b η window →
      ∀ u0 xs, IsTrajectory (fun t u dt => .ok (g f t u dt)) window u0 xs → ‖u0 - y a‖ ≤ δ →
      ∀ (i : ℕ) t x, window[i]? = some t → xs[i]? = some x → ‖x - y t‖ ≤ C * (η ^ p + ‖u0 - y a‖) := by
  have hyc : ∀ t ∈ Set.Icc a b, ContDiffAt ℝ (p + 1 : ℕ) y t := fun t ht =>
    ((hy t ht).contDiffAt (hf t ht)).of_le (by exact_mod_cast Nat.le_succ (p + 1))
  cases hs with
  | euler =>
    exact ⟨euler, rfl, one_step_convergence hab le_rfl (euler_method f).form hyc
      (fun t ht => (euler_method f).smooth _ _ _ (hf t ht))
      (fun t ht => C15_euler_order f y t (hy t ht) ((hf t ht).of_le (by norm_num)))⟩
  | rk2 =>
    exact ⟨rk2, rfl, one_step_convergence hab (by norm_num) (rk2_method f).form hyc
      (fun t ht => (rk2_method f).smooth _ _ _ (hf t ht))
      (fun t ht => C15_rk2_order f y t (hy t ht) ((hf t ht).of_le (by norm_num)))⟩
  | rk4 =>
    exact ⟨rk4, rfl, one_step_convergence hab (by norm_num) (rk4_method f).form hyc
      (fun t ht => (rk4_method f).smooth _ _ _ (hf t ht))
      (fun t ht => C15_rk4_order f y t (hy t ht) ((hf t ht).of_le (by norm_num)))⟩

theorem partition_ne_nil {a b η : ℝ} {window : List ℝ} (hw : Partition a b η window) : window ≠ [] := by
  rintro rfl; simpa using hw.start

/-- **C86**, one-step schemes. Let `y` solve `y' = f(t, y)` around `[a, b]`, with `f` of class `C^(p+1)` around the
trajectory, where `p` is the nominal order of the scheme. Then the forecasts started near `y a` exist and differ from
`y`, at every saved time, by at most `C (η^p + initial error)`, for all windows of `[a, b]` with steps at most `η`,
regular or not. The constants depend neither on the window nor on the initial state. -/
theorem C86_forecast_converges {s : Scheme} {p : ℕ} (hs : Nominal s p) (f : ℝ → E → E) (y : ℝ → E) {a b : ℝ}
    (hab : a ≤ b) (hy : ∀ t ∈ Set.Icc a b, SolvesNear f y t)
    (hf : ∀ t ∈ Set.Icc a b, ContDiffAt ℝ (p + 1 : ℕ) (joint f) (t, y t)) :
    ∃ C δ : ℝ, 0 < δ ∧ ∀ η, 0 ≤ η → η ≤ δ → ∀ window, Partition a b η window → ∀ u0, ‖u0 - y a‖ ≤ δ → ∀ saved,
      ∃ fc, forecast (step s (.fn f)) window (.single u0) (.list saved) = .ok fc ∧
        ∀ τ ∈ window, τ ∈ saved → ∃ x, fc.get? τ = some (.single x) ∧ ‖x - y τ‖ ≤ C * (η ^ p + ‖u0 - y a‖) := by
  obtain ⟨g, hg, C, δ, _, hδ, h⟩ := scheme_convergence hs f y hab hy hf
  refine ⟨C, δ, hδ, fun η h0 h1 window hw u0 hu saved => ?_⟩
  obtain ⟨fc, xs, hfc, hxs, hval⟩ := C01_forecast_scheme s g hg f window (partition_ne_nil hw) u0 saved
  refine ⟨fc, hfc, fun τ hτ hs => ?_⟩
  obtain ⟨x, hx⟩ := exists_stateAt window xs hxs.length_eq τ hτ
  refine ⟨x, (hval τ x).2 ⟨hs, hx⟩, ?_⟩
  obtain ⟨i, hi1, hi2, _⟩ := hx
  exact h η h0 h1 window hw u0 xs hxs hu i τ x hi1 hi2

/-- **C86** on the windows of `Model.window`: with a fixed solution and the exact initial state, the error at all the
saved times is at most `C dt^p`. -/
theorem C86_window_converges {s : Scheme} {p : ℕ} (hs : Nominal s p) (f : ℝ → E → E) (y : ℝ → E) {start stop b : ℝ}
    (h1 : start ≤ stop) (h2 : stop < b) (hy : ∀ t ∈ Set.Icc start b, SolvesNear f y t)
    (hf : ∀ t ∈ Set.Icc start b, ContDiffAt ℝ (p + 1 : ℕ) (joint f) (t, y t)) :
    ∃ C δ : ℝ, 0 < δ ∧ ∀ dt, 0 < dt → dt ≤ δ →
      ∃ fc, forecast (step s (.fn f)) (window dt stop start) (.single (y start)) .none = .ok fc ∧
        ∀ i : ℕ, start + i * dt < stop + dt / 3 →
          ∃ x, fc.get? (start + i * dt) = some (.single x) ∧ ‖x - y (start + i * dt)‖ ≤ C * dt ^ p := by
  obtain ⟨C, δ, hδ, h⟩ := C86_forecast_converges hs f y (h1.trans h2.le) hy hf
  refine ⟨C, min δ (3 * (b - stop)), lt_min hδ (by linarith), fun dt hdt hle => ?_⟩
  have hd1 : dt ≤ δ := hle.trans (min_le_left _ _)
  have hd2 : dt ≤ 3 * (b - stop) := hle.trans (min_le_right _ _)
  have hmem : ∀ (i : ℕ), start + i * dt < stop + dt / 3 ↔ (window dt stop start)[i]? = some (start + i * dt) := by
    intro i
    simp only [window, arange, List.getElem?_map, Option.map_eq_some_iff]
    constructor
    · intro hi
      refine ⟨i, ?_, rfl⟩
      rw [List.getElem?_range]
      have : (i : ℝ) < (stop + dt / 3 - start) / dt := by rw [lt_div_iff₀ hdt]; linarith
      have : (i : ℤ) < ⌈(stop + dt / 3 - start) / dt⌉ := Int.lt_ceil.2 (by exact_mod_cast this)
      omega
    · rintro ⟨j, hj, _⟩
      have hlt := lt_of_getElem? hj
      rw [List.length_range] at hlt
      have : (i : ℤ) < ⌈(stop + dt / 3 - start) / dt⌉ := by omega
      have := Int.lt_ceil.1 this
      rw [lt_div_iff₀ hdt] at this
      push_cast at this
      linarith
  have hpart : Partition start b dt (window dt stop start) := by
    refine ⟨(C10_window_last dt stop start hdt (by linarith)).1, fun i t ht => ?_, fun i t t' ht ht' => ?_⟩
    · have e := C10_window_progression dt stop start i t ht
      rw [e] at ht ⊢
      have := (hmem i).2 ht
      linarith
    · have e := C10_window_progression dt stop start i t ht
      have e' := C10_window_progression dt stop start (i + 1) t' ht'
      push_cast at e'
      constructor <;> nlinarith
  obtain ⟨fc, hfc, hval⟩ := h dt hdt.le hd1 _ hpart (y start) (by simpa using hδ.le) (window dt stop start)
  refine ⟨fc, by rw [(C04_saved_times_forms (step s (.fn f)) (window dt stop start) (.single (y start)) 0).1]; exact hfc,
    fun i hi => ?_⟩
  have hm := List.mem_of_getElem? ((hmem i).1 hi)
  obtain ⟨x, hx1, hx2⟩ := hval _ hm hm
  exact ⟨x, hx1, by simpa using hx2⟩

/-- The forecast of a `Model` with the scheme `leapfrog` is the trajectory of the pairs of states. -/
theorem leapfrog_forecast (f : ℝ → E → E) (window : List ℝ) (hw : window ≠ []) (p : E × E) (saved : List ℝ) :
    ∃ fc xs, forecast (step .leapfrog (.fn f)) window (.pair p.1 p.2) (.list saved) = .ok fc ∧
      IsTrajectory (fun t q dt => .ok (leapfrog f t q dt)) window p xs ∧
      ∀ τ (q : E × E), fc.get? τ = some (.pair q.1 q.2) ↔ τ ∈ saved ∧ StateAt window xs τ q := by
  obtain ⟨xs, hx⟩ := C01_trajectory_exists (fun t q dt => .ok (leapfrog f t q dt)) window p hw (fun t u dt => ⟨_, rfl⟩)
  set P : E × E → StateObj E := fun q => .pair q.1 q.2 with hP
  have hX : IsTrajectory (step .leapfrog (.fn f)) window (.pair p.1 p.2) (xs.map P) := by
    refine ⟨by simp [hx.length_eq], by simp [hx.start, hP], ?_⟩
    intro i t t' x h1 h2 h3
    rw [List.getElem?_map, Option.map_eq_some_iff] at h3
    obtain ⟨y, hy, rfl⟩ := h3
    obtain ⟨x', h4, h5⟩ := hx.next i t t' y h1 h2 hy
    simp only [Except.ok.injEq] at h5
    exact ⟨P x', by simp [h4], by simp [hP, step, ← h5]⟩
  obtain ⟨fc, ht⟩ := (C01_forecast_complete (step .leapfrog (.fn f)) window (.pair p.1 p.2) saved hw).2 ⟨_, hX⟩
  obtain ⟨ys, hy, _, _, h4⟩ := C01_forecast_sound _ _ _ _ _ ht
  have hyx := C01_trajectory_unique _ _ _ _ _ hw hy hX
  subst hyx
  refine ⟨fc, xs, ht, hx, ?_⟩
  intro τ q
  rw [h4]
  constructor
  · rintro ⟨h1, i, h2, h3, h5⟩
    refine ⟨h1, i, h2, ?_, h5⟩
    rw [List.getElem?_map, Option.map_eq_some_iff] at h3
    obtain ⟨z, hz, hzq⟩ := h3
    have : z = q := by
      simp only [hP, StateObj.pair.injEq] at hzq
      exact Prod.ext hzq.1 hzq.2
    rwa [this] at hz
  · rintro ⟨h1, i, h2, h3, h5⟩
    exact ⟨h1, i, h2, by simp [h3, hP], h5⟩

/-- **C86**, leapfrog. On windows of constant step `dt`, from a pair near `(y (a - dt), y a)`, both members of the pairs
of the forecast stay within `C (dt^2 + initial error)` of the solution, the first one a step behind. -/
theorem C86_leapfrog_converges (f : ℝ → E → E) (y : ℝ → E) {a b : ℝ} (hab : a ≤ b)
    (hy : ∀ t ∈ Set.Icc a b, SolvesNear f y t) (hf : ∀ t ∈ Set.Icc a b, ContDiffAt ℝ 3 (joint f) (t, y t)) :
    ∃ C δ : ℝ, 0 < δ ∧ ∀ dt, 0 ≤ dt → dt ≤ δ → ∀ window, Uniform a b dt window → ∀ v u,
      ‖v - y (a - dt)‖ ≤ δ → ‖u - y a‖ ≤ δ → ∀ saved,
      ∃ fc, forecast (step .leapfrog (.fn f)) window (.pair v u) (.list saved) = .ok fc ∧
        ∀ τ ∈ window, τ ∈ saved → ∃ v' u', fc.get? τ = some (.pair v' u') ∧
          ‖v' - y (τ - dt)‖ ≤ C * (dt ^ 2 + max ‖v - y (a - dt)‖ ‖u - y a‖) ∧
          ‖u' - y τ‖ ≤ C * (dt ^ 2 + max ‖v - y (a - dt)‖ ‖u - y a‖) := by
  have hf' : ∀ t ∈ Set.Icc a b, ContDiffAt ℝ (2 + 1 : ℕ) (joint f) (t, y t) := fun t ht => by exact_mod_cast hf t ht
  obtain ⟨C, δ, _, hδ, h⟩ := two_step_convergence hab (p := 2) (f := f) (y := y) (by norm_num)
    (fun t ht => ((hy t ht).contDiffAt (hf' t ht)).of_le (by norm_num)) hf'
    (fun t ht => C15_leapfrog_order f y t (hy t ht) ((hf t ht).of_le (by norm_num)))
  refine ⟨C, δ, hδ, fun dt h0 h1 window hw v u hv hu saved => ?_⟩
  have hne : window ≠ [] := by
    rintro rfl; simpa using hw.start
  obtain ⟨fc, xs, hfc, hxs, hval⟩ := leapfrog_forecast f window hne (v, u) saved
  refine ⟨fc, hfc, fun τ hτ hs => ?_⟩
  obtain ⟨q, hq⟩ := exists_stateAt window xs hxs.length_eq τ hτ
  refine ⟨q.1, q.2, (hval τ q).2 ⟨hs, hq⟩, ?_⟩
  obtain ⟨i, hi1, hi2, _⟩ := hq
  have := h dt h0 h1 window hw (v, u) xs hxs (max_le hv hu) i τ q hi1 hi2
  exact ⟨(le_max_left _ _).trans this, (le_max_right _ _).trans this⟩

/-! ## C87: time splitting -/

/-- One fraction step for the vector field `f` along the trajectory `y`: the dictionary names `f` as its trend, and one
of the one-step schemes, or it gives an update `u + dt • w(t, u, dt)` with `w` smooth around the trajectory and equal to
`f` for `dt = 0`. -/
inductive FractionOf (y : ℝ → E) (a b : ℝ) (f : ℝ → E → E) : FractionStep ℝ E → Prop
  | euler : FractionOf y a b f ⟨none, some f, some euler⟩
  | rk2 : FractionOf y a b f ⟨none, some f, some rk2⟩
  | rk4 : FractionOf y a b f ⟨none, some f, some rk4⟩
  | update (w : ℝ × E × ℝ → E) (tr : Option (ℝ → E → E)) (sc : Option ((ℝ → E → E) → ℝ → E → ℝ → E))
      (hw : ∀ t ∈ Set.Icc a b, ContDiffAt ℝ 2 w (t, y t, 0)) (h0 : ∀ t u, w (t, u, 0) = f t u) :
      FractionOf y a b f ⟨some (fun t u dt => u + dt • w (t, u, dt)), tr, sc⟩

/-- The sum of the vector fields of the fraction steps. -/
def totalTrend (fs : List (ℝ → E → E)) : ℝ → E → E := fun t u => (fs.map (fun f => f t u)).sum

theorem splitting_method {y : ℝ → E} {a b : ℝ} : ∀ (l : List (FractionStep ℝ E)) (fs : List (ℝ → E → E)),
    List.Forall₂ (FractionOf y a b) fs l →
    (∀ f ∈ fs, ∀ t ∈ Set.Icc a b, ContDiffAt ℝ 2 (joint f) (t, y t)) →
    ∃ inc : ℝ × E × ℝ → E, (∀ t u h, timeSplitting l t u h = .ok (u + h • inc (t, u, h))) ∧
      (∀ t u, inc (t, u, 0) = totalTrend fs t u) ∧ ∀ t ∈ Set.Icc a b, ContDiffAt ℝ 2 inc (t, y t, 0) := by
  intro l fs h
  induction h with
  | nil =>
    intro _
    exact ⟨fun _ => 0, fun t u h => by simp [timeSplitting]; rfl, fun t u => by simp [totalTrend],
      fun t _ => contDiffAt_const⟩
  | @cons f F fs l hF _ ih =>
    intro hf
    obtain ⟨i1, h1, h2, h3⟩ : ∃ inc : ℝ × E × ℝ → E, (∀ t u h, F.apply t u h = .ok (u + h • inc (t, u, h))) ∧
        (∀ t u, inc (t, u, 0) = f t u) ∧ ∀ t ∈ Set.Icc a b, ContDiffAt ℝ 2 inc (t, y t, 0) := by
      have hf1 : ∀ t ∈ Set.Icc a b, ContDiffAt ℝ (2 : ℕ) (joint f) (t, y t) := fun t ht => by
        exact_mod_cast hf f (by simp) t ht
      cases hF with
      | euler =>
        exact ⟨eulerInc f, fun t u h => congrArg Except.ok ((euler_method f).form t u h), (euler_method f).consistent,
          fun t ht => by exact_mod_cast (euler_method f).smooth 2 _ _ (hf1 t ht)⟩
      | rk2 =>
        exact ⟨rk2Inc f, fun t u h => congrArg Except.ok ((rk2_method f).form t u h), (rk2_method f).consistent,
          fun t ht => by exact_mod_cast (rk2_method f).smooth 2 _ _ (hf1 t ht)⟩
      | rk4 =>
        exact ⟨rk4Inc f, fun t u h => congrArg Except.ok ((rk4_method f).form t u h), (rk4_method f).consistent,
          fun t ht => by exact_mod_cast (rk4_method f).smooth 2 _ _ (hf1 t ht)⟩
      | update w tr sc hw h0 => exact ⟨w, fun t u h => rfl, h0, hw⟩
    obtain ⟨i2, g1, g2, g3⟩ := ih (fun f hf' => hf f (by simp [hf']))
    refine ⟨fun q => i1 q + i2 (q.1, q.2.1 + q.2.2 • i1 q, q.2.2), fun t u h => ?_, fun t u => ?_, fun t ht => ?_⟩
    · rw [(C17_splitting t u h l [] F).2.1, h1]
      simp only [Except.bind, g1]
      congr 1
      rw [smul_add, add_assoc]
    · simp only [zero_smul, add_zero, h2, g2, totalTrend, List.map_cons, List.sum_cons]
    · refine (h3 t ht).add ?_
      have hu : ContDiffAt ℝ 2 (fun q : ℝ × E × ℝ => q.2.1) (t, y t, (0 : ℝ)) := contDiffAt_fst.comp _ contDiffAt_snd
      have hh : ContDiffAt ℝ 2 (fun q : ℝ × E × ℝ => q.2.2) (t, y t, (0 : ℝ)) := contDiffAt_snd.comp _ contDiffAt_snd
      exact ContDiffAt.comp (g := i2) (f := fun q : ℝ × E × ℝ => (q.1, q.2.1 + q.2.2 • i1 q, q.2.2))
        (t, y t, (0 : ℝ)) (by simpa using g3 t ht) (contDiffAt_fst.prodMk ((hu.add (hh.smul (h3 t ht))).prodMk hh))

theorem totalTrend_smooth (fs : List (ℝ → E → E)) (q : ℝ × E) (h : ∀ f ∈ fs, ContDiffAt ℝ 2 (joint f) q) :
    ContDiffAt ℝ 2 (joint (totalTrend fs)) q := by
  induction fs with
  | nil => exact contDiffAt_const
  | cons f fs ih =>
    have e : joint (totalTrend (f :: fs)) = fun q => joint f q + joint (totalTrend fs) q := by
      funext q; simp [joint, totalTrend]
    rw [e]
    exact (h f (by simp)).add (ih (fun g hg => h g (by simp [hg])))

/-- A step whose increment tends to the vector field has order one. -/
theorem increment_order_one {F : ℝ → E → E} {y : ℝ → E} {t : ℝ} {inc : ℝ × E × ℝ → E} (hy : SolvesNear F y t)
    (hF : ContDiffAt ℝ (2 : ℕ) (joint F) (t, y t)) (h2 : ∀ t u, inc (t, u, 0) = F t u)
    (h3 : ContDiffAt ℝ 2 inc (t, y t, 0)) : O (1 + 1) (fun h => y (t + h) - (y t + h • inc (t, y t, h))) := by
  have T := (hy.taylor (hF.of_le (by norm_num : ((1 : ℕ) : WithTop ℕ∞) ≤ (2 : ℕ))) 1).1
  have d1 := hy.deriv_eq
  have hi : O 1 (fun h => inc (t, y t, h) - inc (t, y t, 0)) := by
    have hd : DifferentiableAt ℝ (fun h : ℝ => inc (t, y t, h)) 0 := by
      have : ContDiffAt ℝ 2 (fun h : ℝ => inc (t, y t, h)) 0 :=
        ContDiffAt.comp (g := inc) (f := fun h : ℝ => (t, y t, h)) 0 h3
          (contDiffAt_const.prodMk (contDiffAt_const.prodMk contDiffAt_id))
      exact this.differentiableAt (by norm_num)
    have := hd.isBigO_sub
    unfold O
    simpa using this
  refine (T.sub hi.h_smul).congr (fun h => ?_)
  simp only [Finset.sum_range_succ, Finset.sum_range_zero, Nat.factorial, iteratedDeriv_zero, d1, h2, one_mul]
  simp only [Nat.cast_one, inv_one, pow_zero, pow_one, one_mul, mul_one, one_smul, zero_add, smul_sub]
  abel

/-- **C87**. With a list of fraction steps, for the vector fields `fs`, the forecasts of the scheme `splitting` converge
to the solution of `y' = Σ fⱼ(t, y)` with order one, whatever the order of the list. -/
theorem C87_splitting_converges (fs : List (ℝ → E → E)) (l : List (FractionStep ℝ E)) (y : ℝ → E) {a b : ℝ}
    (hab : a ≤ b) (hl : List.Forall₂ (FractionOf y a b) fs l) (hy : ∀ t ∈ Set.Icc a b, SolvesNear (totalTrend fs) y t)
    (hf : ∀ f ∈ fs, ∀ t ∈ Set.Icc a b, ContDiffAt ℝ 2 (joint f) (t, y t)) :
    ∃ C δ : ℝ, 0 < δ ∧ ∀ η, 0 ≤ η → η ≤ δ → ∀ window, Partition a b η window → ∀ u0, ‖u0 - y a‖ ≤ δ → ∀ saved,
      ∃ fc, forecast (step .splitting (.steps l)) window (.single u0) (.list saved) = .ok fc ∧
        ∀ τ ∈ window, τ ∈ saved → ∃ x, fc.get? τ = some (.single x) ∧ ‖x - y τ‖ ≤ C * (η + ‖u0 - y a‖) := by
  obtain ⟨inc, h1, h2, h3⟩ := splitting_method l fs hl hf
  have hF : ∀ t ∈ Set.Icc a b, ContDiffAt ℝ (2 : ℕ) (joint (totalTrend fs)) (t, y t) := fun t ht => by
    exact_mod_cast totalTrend_smooth fs _ (fun f hf' => hf f hf' t ht)
  have hyc : ∀ t ∈ Set.Icc a b, ContDiffAt ℝ (1 + 1 : ℕ) y t := fun t ht =>
    ((hy t ht).contDiffAt (hF t ht)).of_le (by norm_num)
  have hinc : ∀ t ∈ Set.Icc a b, ContDiffAt ℝ (1 + 1 : ℕ) inc (t, y t, 0) := fun t ht => by exact_mod_cast h3 t ht
  have hloc : ∀ t ∈ Set.Icc a b, O (1 + 1) (fun h => y (t + h) - (y t + h • inc (t, y t, h))) := fun t ht =>
    increment_order_one (hy t ht) (hF t ht) h2 (h3 t ht)
  obtain ⟨C, δ, _, hδ, h⟩ := one_step_convergence hab (g := fun t u h => u + h • inc (t, u, h)) le_rfl
    (fun _ _ _ => rfl) hyc hinc hloc
  refine ⟨C, δ, hδ, fun η h0 h1' window hw u0 hu saved => ?_⟩
  have hne := partition_ne_nil hw
  obtain ⟨xs, hx⟩ := C01_trajectory_exists (fun t u h => .ok (u + h • inc (t, u, h))) window u0 hne
    (fun t u dt => ⟨_, rfl⟩)
  have hX : IsTrajectory (step .splitting (.steps l)) window (.single u0) (xs.map StateObj.single) := by
    refine ⟨by simp [hx.length_eq], by simp [hx.start], ?_⟩
    intro i t t' x q1 q2 q3
    rw [List.getElem?_map, Option.map_eq_some_iff] at q3
    obtain ⟨z, hz, rfl⟩ := q3
    obtain ⟨x', h4, h5⟩ := hx.next i t t' z q1 q2 hz
    simp only [Except.ok.injEq] at h5
    exact ⟨.single x', by simp [h4], by simp only [step, h1, Except.map, ← h5]⟩
  obtain ⟨fc, hfc⟩ := (C01_forecast_complete (step .splitting (.steps l)) window (.single u0) saved hne).2 ⟨_, hX⟩
  obtain ⟨ys, hys, _, _, h4⟩ := C01_forecast_sound _ _ _ _ _ hfc
  have hyx := C01_trajectory_unique _ _ _ _ _ hne hys hX
  subst hyx
  refine ⟨fc, hfc, fun τ hτ hs => ?_⟩
  obtain ⟨x, i, hi1, hi2, hi3⟩ := exists_stateAt window xs hx.length_eq τ hτ
  refine ⟨x, (h4 τ _).2 ⟨hs, i, hi1, by simp [hi2], hi3⟩, ?_⟩
  simpa using h η h0 h1' window hw u0 xs hx hu i τ x hi1 hi2

/-- **C87**, the order is not two in general, even with `rk4` for both fraction steps and although the steps are
solved exactly: for `y' = y + 1` from `0`, one step of the splitting into `y` and `1` is not within `O(dt³)` of the
solution `e^t - 1`. -/
theorem C87_splitting_not_second_order :
    (∀ t, HasDerivAt (fun t => Real.exp t - 1) (totalTrend [fun _ u => u, fun _ _ => (1 : ℝ)] t (Real.exp t - 1)) t) ∧
    (∀ dt, timeSplitting [⟨none, some (fun _ u => u), some rk4⟩, ⟨none, some (fun _ _ => (1 : ℝ)), some rk4⟩] 0 0 dt =
      .ok dt) ∧
    ¬ (fun dt : ℝ => (Real.exp (0 + dt) - 1) - dt) =O[𝓝 0] (fun dt => dt ^ 3) := by
  refine ⟨fun t => ?_, fun dt => ?_, fun h => ?_⟩
  · have := (Real.hasDerivAt_exp t).sub_const 1
    simpa [totalTrend] using this
  · simp only [timeSplitting, FractionStep.apply, List.foldlM_cons, List.foldlM_nil, Bind.bind, Except.bind, Pure.pure,
      Except.pure, rk4, smul_eq_mul]
    congr 1; ring
  · have h1 : O 3 (fun dt : ℝ => (Real.exp (0 + dt) - 1) - dt) := h
    have h2 := taylor_O (n := 3) (y := Real.exp) (t := 0) Real.contDiff_exp.contDiffAt
    have h3 := (h1.sub h2)
    have h4 := coeff_zero (n := 3) (fun k => if k = 2 then (1 / 2 : ℝ) else 0) (h3.congr (fun h => by
      simp only [Finset.sum_range_succ, Finset.sum_range_zero, Nat.factorial, iteratedDeriv_succ, iteratedDeriv_zero,
        Real.deriv_exp, Real.exp_zero, smul_eq_mul]
      norm_num
      ring)) 2 (by norm_num)
    norm_num at h4

/-! Concrete cases: `y' = y²` from `y(0) = 1`, whose solution `1/(1-s)` blows up at time 1, on `[0, 1/2]`. The field is
not globally Lipschitz. The field is split into `2y²` and `-y²`. -/

theorem blowup_solves (t : ℝ) (ht : t < 1) : SolvesNear (fun _ (u : ℝ) => u ^ 2) (fun s => (1 - s)⁻¹) t := by
  filter_upwards [eventually_lt_nhds ht] with s hs
  have h1 : HasDerivAt (fun s : ℝ => 1 - s) (-1) s := by
    simpa using (hasDerivAt_id s).const_sub 1
  have h2 := h1.inv (by linarith : (1 : ℝ) - s ≠ 0)
  have e : - -1 / (1 - s) ^ 2 = (1 - s)⁻¹ ^ 2 := by
    rw [neg_neg, inv_pow, one_div]
  rw [e] at h2
  exact h2

example : ∃ C δ : ℝ, 0 < δ ∧ ∀ dt, 0 < dt → dt ≤ δ →
    ∃ fc, forecast (step .rk4 (.fn (fun _ (u : ℝ) => u ^ 2))) (window dt (1 / 2) 0) (.single 1) .none = .ok fc ∧
      ∀ i : ℕ, 0 + i * dt < 1 / 2 + dt / 3 →
        ∃ x, fc.get? (0 + i * dt) = some (.single x) ∧ ‖x - (1 - (0 + i * dt))⁻¹‖ ≤ C * dt ^ 4 := by
  have := C86_window_converges .rk4 (fun _ (u : ℝ) => u ^ 2) (fun s => (1 - s)⁻¹) (start := 0) (stop := 1 / 2)
    (b := 3 / 4) (by norm_num) (by norm_num) (fun t ht => blowup_solves t (by linarith [ht.2]))
    (fun t _ => (contDiff_snd.pow 2).contDiffAt)
  simpa using this

example : ∃ C δ : ℝ, 0 < δ ∧ ∀ η, 0 ≤ η → η ≤ δ → ∀ window, Partition 0 (1 / 2) η window → ∀ u0 : ℝ,
    ‖u0 - 1‖ ≤ δ → ∀ saved, ∃ fc, forecast (step .splitting (.steps
      [⟨none, some (fun _ u => 2 * u ^ 2), some rk2⟩, ⟨some (fun _ u dt => u + dt • (- u ^ 2)), none, none⟩]))
        window (.single u0) (.list saved) = .ok fc ∧
        ∀ τ ∈ window, τ ∈ saved → ∃ x, fc.get? τ = some (.single x) ∧ ‖x - (1 - τ)⁻¹‖ ≤ C * (η + ‖u0 - 1‖) := by
  have := C87_splitting_converges [fun _ (u : ℝ) => 2 * u ^ 2, fun _ u => - u ^ 2] _ (fun s => (1 - s)⁻¹) (a := 0)
    (b := 1 / 2) (by norm_num)
    (.cons .rk2 (.cons (.update (fun q : ℝ × ℝ × ℝ => - q.2.1 ^ 2) none none
      (fun t _ => ((contDiff_fst.comp contDiff_snd).pow 2).neg.contDiffAt) (fun _ _ => rfl)) .nil))
    (fun t ht => by
      have h := blowup_solves t (by linarith [ht.2])
      have e : totalTrend [fun _ (u : ℝ) => 2 * u ^ 2, fun _ u => - u ^ 2] = fun _ (u : ℝ) => u ^ 2 := by
        funext t u; simp [totalTrend]; ring
      rwa [e])
    (fun f hf t _ => by
      simp only [List.mem_cons, List.not_mem_nil, or_false] at hf
      rcases hf with rfl | rfl
      · exact (contDiff_const.mul (contDiff_snd.pow 2)).contDiffAt
      · exact (contDiff_snd.pow 2).neg.contDiffAt)
  simpa using this

example : ∃ C δ : ℝ, 0 < δ ∧ ∀ dt, 0 ≤ dt → dt ≤ δ → ∀ window, Uniform 0 (1 / 2) dt window → ∀ saved,
    ∃ fc, forecast (step .leapfrog (.fn (fun _ (u : ℝ) => u ^ 2))) window (.pair (1 + dt)⁻¹ 1) (.list saved) = .ok fc ∧
      ∀ τ ∈ window, τ ∈ saved → ∃ v u, fc.get? τ = some (.pair v u) ∧ ‖u - (1 - τ)⁻¹‖ ≤ C * dt ^ 2 := by
  obtain ⟨C, δ, hδ, h⟩ := C86_leapfrog_converges (fun _ (u : ℝ) => u ^ 2) (fun s => (1 - s)⁻¹) (a := 0) (b := 1 / 2)
    (by norm_num) (fun t ht => blowup_solves t (by linarith [ht.2])) (fun t _ => (contDiff_snd.pow 2).contDiffAt)
  refine ⟨C, δ, hδ, fun dt h0 h1 window hw saved => ?_⟩
  have hz : ‖(1 + dt)⁻¹ - (1 - (0 - dt))⁻¹‖ = 0 := by simp
  obtain ⟨fc, hfc, hval⟩ := h dt h0 h1 window hw (1 + dt)⁻¹ 1 (by rw [hz]; exact hδ.le) (by simpa using hδ.le) saved
  refine ⟨fc, hfc, fun τ hτ hs => ?_⟩
  obtain ⟨v, u, e1, _, e2⟩ := hval τ hτ hs
  exact ⟨v, u, e1, by simpa using e2⟩

/-- A window with uneven steps of the kind considered. -/
example : Partition 0 (1 / 2) (1 / 4) [0, 1 / 8, 3 / 8, 3 / 8, 1 / 2] := by
  refine ⟨rfl, fun i t h => ?_, fun i t t' h h' => ?_⟩
  · have : i < 5 := lt_of_getElem? h
    interval_cases i <;> simp at h <;> subst h <;> norm_num
  · have : i + 1 < 5 := lt_of_getElem? h'
    have : i < 4 := by omega
    interval_cases i <;> simp at h h' <;> subst h h' <;> norm_num

end Sympkf.Integrator
