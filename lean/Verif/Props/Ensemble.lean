import Verif.Lemmas.Ensemble
import Verif.Props.Forecast

/-!
# Properties C05, C06: `ensemble_forecast`, sequential and parallel
-/

set_option autoImplicit false

namespace Sympkf.Integrator

open Sympkf Sympkf.Spec

variable {K X : Type} [DecidableEq K] [Sub K]

/-- A way of running an ensemble of `n` members: sequentially, or with at least one worker, every chunk completing
exactly once in some order. -/
def ExecMode.Valid (n : Nat) : ExecMode → Prop
  | .sequential => True
  | .pool nbPool completion => 1 ≤ nbPool ∧ completion.Perm (List.range (numChunks n (chunkSize n nbPool)))

theorem forecast_list_keys (step : K → X → K → Except PyErr X) (window saved : List K) (fc : Dict K X) (m : X)
    (h : forecast step window m (.list saved) = .ok fc) : (∀ k ∈ fc.keys, k ∈ saved) ∧ fc.keys.Nodup := by
  obtain ⟨xs, _, h2, h3, _⟩ := C01_forecast_sound step window m saved fc h
  exact ⟨fun k hk => ((h3 k).1 hk).2, h2⟩

theorem ensemble_ok_iff (step : K → X → K → Except PyErr X) (window saved : List K) (members : List X) (mode : ExecMode)
    (hm : mode.Valid members.length) (D : Dict K (List X)) :
    ensembleForecast step window members (.list saved) mode = .ok D ↔
      ∃ fcs, members.mapM (fun m => forecast step window m (.list saved)) = .ok fcs ∧
        fcs.foldlM appendForecast (emptyForecasts saved) = .ok D := by
  have hE := emptyForecasts_spec (X := X) saved
  cases mode with
  | sequential =>
    simp only [ensembleForecast, checkSavedTimes, iterSaved, bind, Except.bind]
    rw [sequentialLoop_eq step window saved members (emptyForecasts saved) (fun τ h => (hE.2.1 τ).2 h)
      (fun fc m h => forecast_list_keys step window saved fc m h)]
    cases members.mapM (fun m => forecast step window m (.list saved)) with
    | error e => simp [Except.bind]
    | ok fcs => simp [Except.bind]
  | pool nb comp =>
    obtain ⟨h1, h2⟩ := hm
    have hp := fun ys => parallelRun_ok (fun m => forecast step window m (.list saved)) nb h1 members comp
      (fun i hi => h2.mem_iff.2 (List.mem_range.2 hi)) ys
    simp only [ensembleForecast, checkSavedTimes, iterSaved, bind, Except.bind]
    cases hr : parallelRun (fun m => forecast step window m (.list saved)) nb comp members with
    | error e =>
      simp only [reduceCtorEq, false_iff, not_exists, not_and]
      intro fcs hf
      rw [(hp fcs).2 hf] at hr; simp at hr
    | ok fcs =>
      simp [(hp fcs).1 hr]

theorem members_fold (step : K → X → K → Except PyErr X) (window saved : List K) (members : List X)
    (fcs : List (Dict K X)) (hf : members.mapM (fun m => forecast step window m (.list saved)) = .ok fcs) :
    ∃ D, fcs.foldlM appendForecast (emptyForecasts saved) = .ok D ∧ D.keys.Nodup ∧ (∀ τ, τ ∈ D.keys ↔ τ ∈ saved) ∧
      ∀ τ ∈ saved, D.get? τ = some (fcs.filterMap (fun fc => fc.get? τ)) := by
  have hE := emptyForecasts_spec (X := X) saved
  have hF := (mapM_ok_iff _ _ _).1 hf
  have hall : ∀ fc ∈ fcs, ∃ m, forecast step window m (.list saved) = .ok fc := by
    intro fc hfc
    clear hf
    induction hF with
    | nil => simp at hfc
    | cons h1 h2 ih =>
      rename_i x y l' ys'
      rcases List.mem_cons.1 hfc with rfl | hfc
      · exact ⟨x, h1⟩
      · exact ih hfc
  obtain ⟨D, hD, h2, h3⟩ := foldl_append_spec fcs (emptyForecasts saved)
    (fun fc hfc k hk => by
      obtain ⟨m, hm⟩ := hall fc hfc
      exact (hE.2.1 k).2 ((forecast_list_keys step window saved fc m hm).1 k hk))
    (fun fc hfc => by
      obtain ⟨m, hm⟩ := hall fc hfc
      exact (forecast_list_keys step window saved fc m hm).2)
  refine ⟨D, hD, by rw [h2]; exact hE.1, fun τ => by rw [h2]; exact hE.2.1 τ, fun τ hτ => ?_⟩
  rw [h3, hE.2.2 τ hτ]; simp

/-! ## C05 -/

/-- **C05** (content). The entries of `ensemble_forecast`, for every way of running it. -/
theorem C05_ensemble_sound (step : K → X → K → Except PyErr X) (window saved : List K) (members : List X)
    (mode : ExecMode) (hm : mode.Valid members.length) (D : Dict K (List X))
    (h : ensembleForecast step window members (.list saved) mode = .ok D) :
    D.keys.Nodup ∧ (∀ τ, τ ∈ D.keys ↔ τ ∈ saved) ∧
    (∀ τ ∈ saved, τ ∉ window → D.get? τ = some []) ∧
    (∀ τ ∈ saved, τ ∈ window → ∃ l, D.get? τ = some l ∧
      List.Forall₂ (fun m x => ∃ fc, forecast step window m (.list saved) = .ok fc ∧ fc.get? τ = some x) members l) := by
  obtain ⟨fcs, hf, hD⟩ := (ensemble_ok_iff step window saved members mode hm D).1 h
  obtain ⟨D', hD', h1, h2, h3⟩ := members_fold step window saved members fcs hf
  rw [hD] at hD'
  simp only [Except.ok.injEq] at hD'
  subst hD'
  have hF := (mapM_ok_iff _ _ _).1 hf
  refine ⟨h1, h2, fun τ hτ hw => ?_, fun τ hτ hw => ⟨_, h3 τ hτ, ?_⟩⟩
  · rw [h3 τ hτ]
    congr 1
    clear hf hD h3 h h1 h2 hm
    induction hF with
    | nil => rfl
    | cons h1 h2 ih =>
      rename_i m fc _ _
      obtain ⟨_, _, _, hk, _⟩ := C01_forecast_sound step window _ saved _ h1
      have : fc.get? τ = none := (Dict.get?_eq_none_iff _ _).2 (fun hc => hw ((hk τ).1 hc).1)
      simp [this, ih]
  · clear hf hD h3 h h1 h2 hm
    induction hF with
    | nil => simp
    | cons h1 h2 ih =>
      rename_i m fc _ _
      obtain ⟨_, _, _, hk, _⟩ := C01_forecast_sound step window _ saved _ h1
      obtain ⟨x, hx⟩ := (Dict.mem_keys_iff _ _).1 ((hk τ).2 ⟨hw, hτ⟩)
      rw [List.filterMap_cons, hx]
      exact List.Forall₂.cons ⟨fc, h1, hx⟩ ih

/-- **C05** (success). `ensemble_forecast` returns exactly when the forecast of every member returns; otherwise it
raises the exception of one of the members (so it adds no `KeyError` of its own). -/
theorem C05_ensemble_succeeds_iff (step : K → X → K → Except PyErr X) (window saved : List K) (members : List X)
    (mode : ExecMode) (hm : mode.Valid members.length) :
    ((∃ D, ensembleForecast step window members (.list saved) mode = .ok D) ↔
      ∀ m ∈ members, ∃ fc, forecast step window m (.list saved) = .ok fc) ∧
    (∀ e, ensembleForecast step window members (.list saved) mode = .error e →
      ∃ m ∈ members, forecast step window m (.list saved) = .error e) := by
  refine ⟨⟨?_, ?_⟩, ?_⟩
  · rintro ⟨D, h⟩ m hmem
    obtain ⟨fcs, hf, _⟩ := (ensemble_ok_iff step window saved members mode hm D).1 h
    cases hc : forecast step window m (.list saved) with
    | ok fc => exact ⟨fc, rfl⟩
    | error e =>
      obtain ⟨e', he'⟩ := mapM_error_of_mem (fun m => forecast step window m (.list saved)) members m hmem e hc
      rw [hf] at he'; simp at he'
  · intro hall
    cases hf : members.mapM (fun m => forecast step window m (.list saved)) with
    | error e =>
      obtain ⟨m, hmem, he⟩ := mapM_error _ _ _ hf
      obtain ⟨fc, hfc⟩ := hall m hmem
      rw [hfc] at he; simp at he
    | ok fcs =>
      obtain ⟨D, hD, _⟩ := members_fold step window saved members fcs hf
      exact ⟨D, (ensemble_ok_iff step window saved members mode hm D).2 ⟨fcs, hf, hD⟩⟩
  · intro e h
    cases hf : members.mapM (fun m => forecast step window m (.list saved)) with
    | ok fcs =>
      obtain ⟨D, hD, _⟩ := members_fold step window saved members fcs hf
      rw [(ensemble_ok_iff step window saved members mode hm D).2 ⟨fcs, hf, hD⟩] at h
      simp at h
    | error e' =>
      cases mode with
      | sequential =>
        simp only [ensembleForecast, checkSavedTimes, iterSaved, bind, Except.bind] at h
        rw [sequentialLoop_eq step window saved members (emptyForecasts saved)
          (fun τ h => ((emptyForecasts_spec saved).2.1 τ).2 h)
          (fun fc m h => forecast_list_keys step window saved fc m h), hf] at h
        simp only [Except.bind, Except.error.injEq] at h
        subst h
        exact mapM_error _ _ _ hf
      | pool nb comp =>
        obtain ⟨h1, h2⟩ := hm
        have hc : ∀ i < numChunks members.length (chunkSize members.length nb), i ∈ comp :=
          fun i hi => h2.mem_iff.2 (List.mem_range.2 hi)
        simp only [ensembleForecast, checkSavedTimes, iterSaved, bind, Except.bind] at h
        cases hr : parallelRun (fun m => forecast step window m (.list saved)) nb comp members with
        | ok fcs =>
          rw [parallelRun_ok _ nb h1 members comp hc] at hr
          rw [hf] at hr; simp at hr
        | error e2 =>
          simp only [hr, Except.error.injEq] at h
          subst h
          exact parallelRun_error _ nb h1 members comp hc _ hr

/-- **C05** (other forms of `saved_times`). -/
theorem C05_ensemble_saved_forms (step : K → X → K → Except PyErr X) (window : List K) (members : List X)
    (mode : ExecMode) (τ : K) (n : Int) :
    ensembleForecast step window members .none mode = ensembleForecast step window members (.list window) mode ∧
    ensembleForecast step window members (.float τ) mode = ensembleForecast step window members (.list [τ]) mode ∧
    ensembleForecast step window members (.scalar n) mode = .error .typeError :=
  ⟨rfl, rfl, rfl⟩

/-- Three members, one saved time outside the window. -/
example : ensembleForecast (fun t u dt => .ok (euler exTrend t u dt)) [0, 1, 3] [(2 : ℚ), 0, 1] (.list [3, 5]) .sequential
    = .ok [(3, [80, 2, 12]), (5, [])] := by
  norm_num [ensembleForecast, iterSaved, emptyForecasts, sequentialLoop, appendForecast, Dict.getItem, Dict.get?,
    forecast, checkSavedTimes, forecastLoop, isIn, euler, exTrend, bind, Except.bind, pure, Except.pure, Dict.set]

/-! ## C06 -/

/-- **C06**. Any two ways of running an ensemble give the same dictionary, and fail on the same ensembles. -/
theorem C06_parallel_eq (step : K → X → K → Except PyErr X) (window : List K) (members : List X) (saved : SavedTimes K)
    (m1 m2 : ExecMode) (h1 : m1.Valid members.length) (h2 : m2.Valid members.length) :
    (∀ D, ensembleForecast step window members saved m1 = .ok D ↔ ensembleForecast step window members saved m2 = .ok D) := by
  have key : ∀ l : List K, ∀ D, ensembleForecast step window members (.list l) m1 = .ok D ↔
      ensembleForecast step window members (.list l) m2 = .ok D := by
    intro l D
    rw [ensemble_ok_iff step window l members m1 h1, ensemble_ok_iff step window l members m2 h2]
  cases saved with
  | none => exact key window
  | float τ => exact key [τ]
  | list l => exact key l
  | scalar n => intro D; simp [ensembleForecast, checkSavedTimes, iterSaved, bind, Except.bind]

/-- `Parallel.run` keeps the order of its arguments, for any function and any completion order. -/
theorem C06_parallel_run_order {A Y : Type} (f : A → Y) (nbPool : Nat) (hn : 1 ≤ nbPool) (args : List A)
    (completion : List Nat) (hc : completion.Perm (List.range (numChunks args.length (chunkSize args.length nbPool)))) :
    parallelRun (fun a => .ok (f a)) nbPool completion args = .ok (args.map f) := by
  rw [parallelRun_ok _ nbPool hn args completion (fun i hi => hc.mem_iff.2 (List.mem_range.2 hi)), mapM_ok_iff,
    List.forall₂_map_right_iff]
  simp

/-- A pool without worker is refused. -/
theorem C06_no_worker {A Y : Type} (f : A → Except PyErr Y) (completion : List Nat) (args : List A) :
    parallelRun f 0 completion args = .error .valueError := rfl

/-- Ten members with two workers: five chunks of two; they may complete in the order 3,0,4,1,2. -/
example : numChunks 10 (chunkSize 10 2) = 5 ∧ (ExecMode.pool 2 [3, 0, 4, 1, 2]).Valid 10 := by
  refine ⟨by decide, by decide, ?_⟩
  have : numChunks 10 (chunkSize 10 2) = 5 := by decide
  rw [this]; decide

example : parallelRun (fun a => .ok (a * a)) 2 [3, 0, 4, 1, 2] [0, 1, 2, 3, 4, 5, 6, 7, 8, 9] =
    .ok [0, 1, 4, 9, 16, 25, 36, 49, 64, 81] := by decide

end Sympkf.Integrator
