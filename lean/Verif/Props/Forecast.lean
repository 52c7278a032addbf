import Verif.Lemmas.Forecast
import Mathlib.Algebra.Module.Rat
import Mathlib.Tactic.NormNum

/-!
# Properties C01–C04: `forecast` and `predict`
-/

set_option autoImplicit false

namespace Sympkf.Integrator

open Sympkf Sympkf.Spec

variable {K X : Type} [DecidableEq K] [Sub K]

/-! ## C01 -/

/-- **C01** (soundness). Whatever `forecast` returns is the saved part of the trajectory of the scheme. -/
theorem C01_forecast_sound (step : K → X → K → Except PyErr X) (window : List K) (u0 : X) (saved : List K)
    (traj : Dict K X) (h : forecast step window u0 (.list saved) = .ok traj) :
    ∃ xs, IsTrajectory step window u0 xs ∧
      traj.keys.Nodup ∧
      (∀ τ, τ ∈ traj.keys ↔ τ ∈ window ∧ τ ∈ saved) ∧
      (∀ τ x, traj.get? τ = some x ↔ τ ∈ saved ∧ StateAt window xs τ x) := by
  cases window with
  | nil => simp [forecast, forecastLoop, bind, Except.bind] at h
  | cons t w =>
    rw [forecast_list] at h
    cases hs : states step t w u0 with
    | error e => simp [hs, Except.map] at h
    | ok xs =>
      simp only [hs, Except.map, Except.ok.injEq] at h
      subst h
      have hT := (states_iff step t w u0 xs).1 hs
      have hg := get?_fill saved [] (t :: w) xs hT.length_eq
      refine ⟨xs, hT, nodup_fill _ _ _ (by simp [Dict.keys]), ?_, ?_⟩
      · intro τ
        rw [Dict.mem_keys_iff]
        constructor
        · rintro ⟨v, hv⟩
          rw [hg] at hv
          rcases hv with ⟨h1, i, h2, _⟩ | ⟨_, h2⟩
          · exact ⟨List.mem_iff_getElem?.2 ⟨i, h2⟩, h1⟩
          · simp at h2
        · rintro ⟨h1, h2⟩
          obtain ⟨x, hx⟩ := exists_stateAt (t :: w) xs hT.length_eq τ h1
          exact ⟨x, (hg τ x).2 (Or.inl ⟨h2, hx⟩)⟩
      · intro τ x
        rw [hg]
        simp

/-- **C01** (completeness). `forecast` returns as soon as the trajectory exists: the only failures are those of the
one-step scheme. -/
theorem C01_forecast_complete (step : K → X → K → Except PyErr X) (window : List K) (u0 : X) (saved : List K)
    (hw : window ≠ []) :
    (∃ traj, forecast step window u0 (.list saved) = .ok traj) ↔ ∃ xs, IsTrajectory step window u0 xs := by
  constructor
  · rintro ⟨traj, h⟩
    obtain ⟨xs, hx, _⟩ := C01_forecast_sound step window u0 saved traj h
    exact ⟨xs, hx⟩
  · rintro ⟨xs, hx⟩
    cases window with
    | nil => exact absurd rfl hw
    | cons t w =>
      rw [forecast_list, (states_iff step t w u0 xs).2 hx]
      exact ⟨_, rfl⟩

omit [DecidableEq K] in
/-- The trajectory of a scheme is unique, so C01 determines the dictionary completely. -/
theorem C01_trajectory_unique (step : K → X → K → Except PyErr X) (window : List K) (u0 : X) (xs ys : List X)
    (hw : window ≠ []) (hx : IsTrajectory step window u0 xs) (hy : IsTrajectory step window u0 ys) : xs = ys := by
  cases window with
  | nil => exact absurd rfl hw
  | cons t w =>
    have h1 := (states_iff step t w u0 xs).2 hx
    have h2 := (states_iff step t w u0 ys).2 hy
    rw [h1] at h2
    simpa using h2

omit [DecidableEq K] in
/-- A scheme that never raises has a trajectory over every non-empty window. -/
theorem C01_trajectory_exists (step : K → X → K → Except PyErr X) (window : List K) (u0 : X)
    (hw : window ≠ []) (ht : ∀ t u dt, ∃ u', step t u dt = .ok u') : ∃ xs, IsTrajectory step window u0 xs := by
  cases window with
  | nil => exact absurd rfl hw
  | cons t w =>
    have : ∀ (w : List K) (t : K) (u : X), ∃ xs, states step t w u = .ok xs := by
      intro w
      induction w with
      | nil => intro t u; exact ⟨[u], rfl⟩
      | cons t' w ih =>
        intro t u
        obtain ⟨u1, h1⟩ := ht t u (t' - t)
        obtain ⟨ys, h2⟩ := ih t' u1
        exact ⟨u :: ys, (states_cons ..).2 ⟨u1, ys, h1, h2, rfl⟩⟩
    obtain ⟨xs, hx⟩ := this w t u0
    exact ⟨xs, (states_iff step t w u0 xs).1 hx⟩

/-- The dictionary is ordered as the window when the window has no repeated time. -/
theorem C01_forecast_order (step : K → X → K → Except PyErr X) (window : List K) (u0 : X) (saved : List K)
    (hn : window.Nodup) (traj : Dict K X) (h : forecast step window u0 (.list saved) = .ok traj) :
    traj.keys = window.filter (fun τ => τ ∈ saved) := by
  cases window with
  | nil => simp [forecast, forecastLoop, bind, Except.bind] at h
  | cons t w =>
    rw [forecast_list] at h
    cases hs : states step t w u0 with
    | error e => simp [hs, Except.map] at h
    | ok xs =>
      simp only [hs, Except.map, Except.ok.injEq] at h
      have hT := (states_iff step t w u0 xs).1 hs
      rw [← h, fill_nodup saved [] (t :: w) xs hT.length_eq hn (by simp [Dict.keys])]
      have key : ∀ (w : List K) (xs : List X), xs.length = w.length →
          ((w.zip xs).filter (fun p => decide (p.1 ∈ saved))).map Prod.fst = w.filter (fun τ => τ ∈ saved) := by
        intro w
        induction w with
        | nil => simp
        | cons t w ih =>
          intro xs hl
          match xs, hl with
          | y :: ys, hl =>
            have := ih ys (by simpa using hl)
            by_cases h : t ∈ saved <;> simp [h, this]
      simpa [Dict.keys] using key (t :: w) xs hT.length_eq

section Scheme
variable {F S : Type} [Field F] [DecidableEq F] [AddCommGroup S] [Module F S]

/-- One step of each scheme that works on a single state with a trend function, by name. -/
def singleStep : Scheme → Option ((F → S → S) → F → S → F → S)
  | .euler => some euler
  | .rk2 => some rk2
  | .rk4 => some rk4
  | _ => none

/-- **C01** for the actual dispatch of a `Model` object: for `euler`, `rk2`, `rk4` and a trend function the forecast
never fails on a non-empty window and its values are the iterates of the scheme formula. -/
theorem C01_forecast_scheme (s : Scheme) (g : (F → S → S) → F → S → F → S) (hs : singleStep s = some g)
    (f : F → S → S) (window : List F) (hw : window ≠ []) (u0 : S) (saved : List F) :
    ∃ traj xs, forecast (step s (.fn f)) window (.single u0) (.list saved) = .ok traj ∧
      IsTrajectory (fun t u dt => .ok (g f t u dt)) window u0 xs ∧
      ∀ τ x, traj.get? τ = some (.single x) ↔ τ ∈ saved ∧ StateAt window xs τ x := by
  have hstep : ∀ t (u : S) dt, step s (.fn f) t (.single u) dt = .ok (.single (g f t u dt)) := by
    intro t u dt
    cases s <;> simp [singleStep] at hs <;> subst hs <;> rfl
  obtain ⟨xs, hx⟩ := C01_trajectory_exists (fun t u dt => .ok (g f t u dt)) window u0 hw (fun t u dt => ⟨_, rfl⟩)
  have hX : IsTrajectory (step s (.fn f)) window (.single u0) (xs.map StateObj.single) := by
    refine ⟨by simp [hx.length_eq], by simp [hx.start], ?_⟩
    intro i t t' x h1 h2 h3
    rw [List.getElem?_map, Option.map_eq_some_iff] at h3
    obtain ⟨y, hy, rfl⟩ := h3
    obtain ⟨x', h4, h5⟩ := hx.next i t t' y h1 h2 hy
    simp only [Except.ok.injEq] at h5
    exact ⟨.single x', by simp [h4], by rw [hstep, h5]⟩
  obtain ⟨traj, ht⟩ := (C01_forecast_complete (step s (.fn f)) window (.single u0) saved hw).2 ⟨_, hX⟩
  obtain ⟨ys, hy, _, _, h4⟩ := C01_forecast_sound _ _ _ _ _ ht
  have hyx := C01_trajectory_unique _ _ _ _ _ hw hy hX
  subst hyx
  refine ⟨traj, xs, ht, hx, ?_⟩
  intro τ x
  rw [h4]
  constructor
  · rintro ⟨h1, i, h2, h3, h5⟩
    refine ⟨h1, i, h2, ?_, h5⟩
    rw [List.getElem?_map, Option.map_eq_some_iff] at h3
    obtain ⟨y, hy, hyx⟩ := h3
    cases hyx; exact hy
  · rintro ⟨h1, i, h2, h3, h5⟩
    exact ⟨h1, i, h2, by simp [h3], h5⟩

end Scheme

/-! Non-vacuity: a window with a repeated time and an uneven step, a saved time outside the window. -/

/-- A nonlinear rational test trend. -/
def exTrend : ℚ → ℚ → ℚ := fun t u => t + u ^ 2

example : forecast (fun t u dt => .ok (euler exTrend t u dt)) [0, 1, 3, 1] (2 : ℚ) (.list [1, 7])
    = .ok [(1, -12726)] := by
  norm_num [forecast, checkSavedTimes, forecastLoop, isIn, euler, exTrend, bind, Except.bind, pure, Except.pure,
    Dict.set]

example : forecast (step .euler (.fn exTrend)) [0, 1, 3] (.single (2 : ℚ)) (.list [3, 0])
    = .ok [(0, .single 2), (3, .single 80)] := by
  norm_num [forecast, checkSavedTimes, forecastLoop, isIn, step, euler, exTrend, bind, Except.bind, pure,
    Except.pure, Dict.set]

/-! ## C02 -/

/-- **C02**. Cut the window `a ++ [τ] ++ b` at `τ`: forecast the first part, restart from the state saved at `τ` over
the second part. The two dictionaries together are the forecast over the whole window (the second one wins). -/
theorem C02_restart (step : K → X → K → Except PyErr X) (a b : List K) (τ : K) (u0 : X) (saved : List K)
    (hτ : τ ∈ saved) (A : Dict K X) (hA : forecast step (a ++ [τ]) u0 (.list saved) = .ok A) :
    ∃ u, A.get? τ = some u ∧
      ∀ C, forecast step (a ++ τ :: b) u0 (.list saved) = .ok C ↔
        ∃ B, forecast step (τ :: b) u (.list saved) = .ok B ∧ C.keys.Nodup ∧ C.keys = A.keys ++
          B.keys.filter (fun k => k ∉ A.keys) ∧ ∀ k, C.get? k = (B.get? k).or (A.get? k) := by
  obtain ⟨t, w, hw⟩ : ∃ t w, a ++ [τ] = t :: w := by
    cases a with
    | nil => exact ⟨τ, [], rfl⟩
    | cons t w => exact ⟨t, w ++ [τ], rfl⟩
  have hwb : a ++ τ :: b = t :: (w ++ b) := by
    rw [← List.cons_append, ← hw]; simp
  have hlast : (t :: w).getLast (by simp) = τ := by
    have : (a ++ [τ]).getLast (by simp) = τ := by simp
    simpa [hw] using this
  rw [hw] at hA
  rw [hwb]
  rw [forecast_list] at hA
  cases hs : states step t w u0 with
  | error e => simp [hs, Except.map] at hA
  | ok xs =>
    simp only [hs, Except.map, Except.ok.injEq] at hA
    have hT := (states_iff step t w u0 xs).1 hs
    have hne : xs ≠ [] := by
      obtain ⟨ys, rfl⟩ := states_ne_nil _ _ _ _ _ hs; simp
    have hAτ : A.get? τ = some (xs.getLast hne) := by
      rw [← hA, get?_fill saved [] (t :: w) xs hT.length_eq]
      left
      refine ⟨hτ, w.length, ?_, ?_, ?_⟩
      · rw [← hlast, List.getLast_eq_getElem]; simp
      · rw [List.getLast_eq_getElem]
        have := hT.length_eq
        simp only [List.length_cons] at this
        simp [this]
      · intro j hj
        rw [List.getElem?_eq_none (by simp; omega)]; simp
    refine ⟨xs.getLast hne, hAτ, ?_⟩
    intro C
    rw [forecast_list, forecast_list]
    have hap := fun zs => states_append step w t u0 b zs
    rw [hlast] at hap
    have hbase : ∀ ys, fill saved [] ((t :: (w ++ b)).zip (xs ++ ys)) = fill saved A (((τ :: b)).zip (xs.getLast hne :: ys)) := by
      intro ys
      have hl := hT.length_eq
      rw [← List.cons_append, List.zip_append hl.symm, fill_append, hA, List.zip_cons_cons, fill_cons]
      simp only [hτ, if_true]
      rw [Dict.set_eq_self _ _ _ hAτ]
    have hAn : A.keys.Nodup := by rw [← hA]; exact nodup_fill _ _ _ (by simp [Dict.keys])
    constructor
    · intro hC
      cases hz : states step t (w ++ b) u0 with
      | error e => simp [hz, Except.map] at hC
      | ok zs =>
        simp only [hz, Except.map, Except.ok.injEq] at hC
        obtain ⟨xs', ys, hne', h1, h2, rfl⟩ := (hap zs).1 hz
        rw [hs] at h1
        simp only [Except.ok.injEq] at h1
        subst h1
        refine ⟨fill saved [] ((τ :: b).zip (xs.getLast hne' :: ys)), by rw [h2]; rfl, ?_, ?_, ?_⟩
        · rw [← hC]; exact nodup_fill _ _ _ (by simp [Dict.keys])
        · rw [← hC, hbase, keys_fill]
        · intro k; rw [← hC, hbase, get?_fill_or]
    · rintro ⟨B, hB, h1, h2, h3⟩
      cases hz : states step τ b (xs.getLast hne) with
      | error e => simp [hz, Except.map] at hB
      | ok zs =>
        simp only [hz, Except.map, Except.ok.injEq] at hB
        obtain ⟨ys, rfl⟩ := states_ne_nil _ _ _ _ _ hz
        have := (hap (xs ++ ys)).2 ⟨xs, ys, hne, hs, hz, rfl⟩
        rw [this]
        simp only [Except.map, Except.ok.injEq]
        rw [hbase]
        symm
        apply Dict.ext_of_keys
        · rw [h2, keys_fill, hB]
        · exact h1
        · intro k; rw [h3, get?_fill_or, hB]

/-- Restarting over the last point only: the final state of a forecast is a fixed point of the restart. Also the
concrete case below cuts a window in the middle. -/
example : forecast (fun t u dt => .ok (euler exTrend t u dt)) [0, 1] (2 : ℚ) (.list [0, 1, 3])
      = .ok [(0, 2), (1, 6)] ∧
    forecast (fun t u dt => .ok (euler exTrend t u dt)) [1, 3] (6 : ℚ) (.list [0, 1, 3]) = .ok [(1, 6), (3, 80)] ∧
    forecast (fun t u dt => .ok (euler exTrend t u dt)) [0, 1, 3] (2 : ℚ) (.list [0, 1, 3])
      = .ok [(0, 2), (1, 6), (3, 80)] := by
  norm_num [forecast, checkSavedTimes, forecastLoop, isIn, euler, exTrend, bind, Except.bind, pure, Except.pure,
    Dict.set]

/-! ## C03 -/

/-- **C03** (part 1). `predict` returns, in window order, the states of the trajectory at the positions of the window
whose time is saved. -/
theorem C03_predict (step : K → X → K → Except PyErr X) (window : List K) (u0 : X) (saved : List K) (hw : window ≠ [])
    (l : List X) :
    predict step window u0 (.list saved) = .ok l ↔
      ∃ xs, IsTrajectory step window u0 xs ∧
        l = ((window.zip xs).filter (fun p => p.1 ∈ saved)).map Prod.snd := by
  cases window with
  | nil => exact absurd rfl hw
  | cons t w =>
    rw [predict_list]
    constructor
    · intro h
      cases hs : states step t w u0 with
      | error e => simp [hs, Except.map] at h
      | ok xs =>
        simp only [hs, Except.map, Except.ok.injEq] at h
        exact ⟨xs, (states_iff step t w u0 xs).1 hs, h.symm⟩
    · rintro ⟨xs, hx, rfl⟩
      rw [(states_iff step t w u0 xs).2 hx]; rfl

/-- **C03** (part 2). On a window without repeated time `predict` is `forecast(...).values()`, failures included. -/
theorem C03_predict_eq_forecast (step : K → X → K → Except PyErr X) (window : List K) (u0 : X) (saved : SavedTimes K)
    (hn : window.Nodup) :
    predict step window u0 saved = (forecast step window u0 saved).map Dict.values := by
  have hlist : ∀ saved : List K,
      predict step window u0 (.list saved) = (forecast step window u0 (.list saved)).map Dict.values := by
    intro saved
    cases window with
    | nil => rfl
    | cons t w =>
      rw [predict_list, forecast_list]
      cases hs : states step t w u0 with
      | error e => rfl
      | ok xs =>
        have hT := (states_iff step t w u0 xs).1 hs
        simp only [Except.map, Except.ok.injEq]
        rw [fill_nodup saved [] (t :: w) xs hT.length_eq hn (by simp [Dict.keys])]
        simp [Dict.values]
  cases saved with
  | none => exact hlist window
  | float τ => exact hlist [τ]
  | list l => exact hlist l
  | scalar n =>
    cases window with
    | nil => rfl
    | cons t w =>
      cases w with
      | nil => rfl
      | cons t' w => rfl

example : predict (fun t u dt => .ok (euler exTrend t u dt)) [0, 1, 3] (2 : ℚ) (.list [3, 0]) = .ok [2, 80] := by
  norm_num [predict, checkSavedTimes, predictLoop, isIn, euler, exTrend, bind, Except.bind, pure, Except.pure]

/-- With a repeated time the two differ: `predict` keeps one state per position. -/
example : predict (fun t u dt => .ok (euler exTrend t u dt)) [0, 1, 1] (2 : ℚ) (.list [1]) = .ok [6, 6] ∧
    forecast (fun t u dt => .ok (euler exTrend t u dt)) [0, 1, 1] (2 : ℚ) (.list [1]) = .ok [(1, 6)] := by
  norm_num [predict, checkSavedTimes, predictLoop, isIn, euler, exTrend, bind, Except.bind, pure, Except.pure,
    forecast, forecastLoop, Dict.set]

/-! ## C04 -/

/-- **C04** (conventions). `None` is the window itself, a float the one-element list. -/
theorem C04_saved_times_forms (step : K → X → K → Except PyErr X) (window : List K) (u0 : X) (τ : K) :
    forecast step window u0 .none = forecast step window u0 (.list window) ∧
    forecast step window u0 (.float τ) = forecast step window u0 (.list [τ]) ∧
    predict step window u0 .none = predict step window u0 (.list window) ∧
    predict step window u0 (.float τ) = predict step window u0 (.list [τ]) :=
  ⟨rfl, rfl, rfl, rfl⟩

/-- **C04** (`None` saves everything). -/
theorem C04_none_saves_all (step : K → X → K → Except PyErr X) (window : List K) (u0 : X) (traj : Dict K X)
    (h : forecast step window u0 .none = .ok traj) (τ : K) : τ ∈ traj.keys ↔ τ ∈ window := by
  obtain ⟨xs, _, _, hk, _⟩ := C01_forecast_sound step window u0 window traj h
  simp [hk]

/-- **C04** (selection only). Two lists of saved times give the same outcome (success or exception), and the same
state at every time they share; a saved time outside the window has no effect. -/
theorem C04_selection_only (step : K → X → K → Except PyErr X) (window : List K) (u0 : X) (s1 s2 : List K) :
    (∀ e, forecast step window u0 (.list s1) = .error e ↔ forecast step window u0 (.list s2) = .error e) ∧
    (∀ t1 t2, forecast step window u0 (.list s1) = .ok t1 → forecast step window u0 (.list s2) = .ok t2 →
      ∀ τ, τ ∈ s1 → τ ∈ s2 → t1.get? τ = t2.get? τ) ∧
    ((∀ τ ∈ window, τ ∈ s1 ↔ τ ∈ s2) →
      forecast step window u0 (.list s1) = forecast step window u0 (.list s2)) := by
  cases window with
  | nil => simp [forecast, forecastLoop, bind, Except.bind]
  | cons t w =>
    simp only [forecast_list]
    cases hs : states step t w u0 with
    | error e => simp [Except.map]
    | ok xs =>
      have hT := (states_iff step t w u0 xs).1 hs
      simp only [Except.map, reduceCtorEq, implies_true, Except.ok.injEq, true_and]
      refine ⟨?_, ?_⟩
      · rintro t1 t2 rfl rfl τ h1 h2
        have e1 := get?_fill s1 [] (t :: w) xs hT.length_eq τ
        have e2 := get?_fill s2 [] (t :: w) xs hT.length_eq τ
        ext x
        rw [e1, e2]
        simp [h1, h2]
      · intro h
        have key : ∀ (ps : List (K × X)) (d : Dict K X), (∀ p ∈ ps, p.1 ∈ s1 ↔ p.1 ∈ s2) →
            fill s1 d ps = fill s2 d ps := by
          intro ps
          induction ps with
          | nil => intros; rfl
          | cons p ps ih =>
            intro d hp
            rw [fill_cons, fill_cons, ih _ (fun q hq => hp q (by simp [hq]))]
            simp only [hp p (by simp)]
        exact key _ _ (fun p hp => h p.1 (List.of_mem_zip hp).1)

/-- **C04** (rejections). -/
theorem C04_rejections (step : K → X → K → Except PyErr X) (u0 : X) (saved : SavedTimes K) (t : K) (w : List K) (n : Int) :
    forecast step [] u0 saved = .error .indexError ∧ predict step [] u0 saved = .error .indexError ∧
    forecast step (t :: w) u0 (.scalar n) = .error .typeError ∧
    predict step (t :: w) u0 (.scalar n) = .error .typeError := by
  refine ⟨rfl, rfl, ?_, ?_⟩ <;> cases w <;> rfl

example : forecast (fun t u dt => .ok (euler exTrend t u dt)) [0, 1, 3] (2 : ℚ) .none
    = .ok [(0, 2), (1, 6), (3, 80)] := by
  norm_num [forecast, checkSavedTimes, forecastLoop, isIn, euler, exTrend, bind, Except.bind, pure, Except.pure,
    Dict.set]

end Sympkf.Integrator
