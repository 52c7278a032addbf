import Verif.Props.Ensemble

set_option autoImplicit false

namespace Sympkf.Integrator

open Sympkf Sympkf.Spec

section Total
variable {K X : Type} [DecidableEq K] [Sub K]

/-- A scheme that never raises. -/
def total (g : K → X → K → X) : K → X → K → Except PyErr X := fun t u dt => .ok (g t u dt)

omit [DecidableEq K] in
theorem isTrajectory_total (g : K → X → K → X) (window : List K) (u0 : X) (xs : List X)
    (h : IsTrajectory (total g) window u0 xs) (i : Nat) (hi : i < window.length) :
    xs[i]? = some (advance g window u0 i) := by
  induction i with
  | zero => exact h.start
  | succ i ih =>
    have h1 := ih (by omega)
    obtain ⟨x', h2, h3⟩ := h.next i window[i] window[i+1] _ (List.getElem?_eq_getElem (by omega))
      (List.getElem?_eq_getElem hi) h1
    rw [h2]
    simp only [total, Except.ok.injEq] at h3
    rw [← h3]
    simp only [advance, List.getElem?_eq_getElem (show i < window.length by omega), List.getElem?_eq_getElem hi]

omit [DecidableEq K] [Sub K] in
theorem exists_lastAt (window : List K) (τ : K) (h : τ ∈ window) : ∃ i, LastAt window τ i := by
  obtain ⟨x, i, h1, _, h3⟩ := exists_stateAt window window rfl τ h
  exact ⟨i, h1, h3⟩

omit [DecidableEq K] [Sub K] in
theorem lastAt_unique {window : List K} {τ : K} {i j : Nat} (hi : LastAt window τ i) (hj : LastAt window τ j) : i = j := by
  rcases Nat.lt_trichotomy i j with h | h | h
  · exact absurd hj.1 (hi.2 j h)
  · exact h
  · exact absurd hi.1 (hj.2 i h)

theorem forecast_total (g : K → X → K → X) (window : List K) (hw : window ≠ []) (u0 : X) (saved : List K) :
    ∃ fc, forecast (total g) window u0 (.list saved) = .ok fc ∧
      (∀ τ, τ ∈ fc.keys ↔ τ ∈ window ∧ τ ∈ saved) ∧
      ∀ τ i, τ ∈ saved → LastAt window τ i → fc.get? τ = some (advance g window u0 i) := by
  obtain ⟨xs, hx⟩ := C01_trajectory_exists (total g) window u0 hw (fun t u dt => ⟨_, rfl⟩)
  obtain ⟨fc, hfc⟩ := (C01_forecast_complete (total g) window u0 saved hw).2 ⟨xs, hx⟩
  obtain ⟨ys, hy, _, hk, h4⟩ := C01_forecast_sound _ _ _ _ _ hfc
  refine ⟨fc, hfc, hk, fun τ i hτ hi => ?_⟩
  rw [h4]
  refine ⟨hτ, i, hi.1, ?_, hi.2⟩
  apply isTrajectory_total g window u0 ys hy
  by_contra hlt
  have := hi.1
  rw [List.getElem?_eq_none (by omega)] at this
  simp at this

theorem ensemble_total (g : K → X → K → X) (window : List K) (hw : window ≠ []) (members : List X) (saved : List K)
    (mode : ExecMode) (hm : mode.Valid members.length) :
    ∃ D, ensembleForecast (total g) window members (.list saved) mode = .ok D ∧
      (∀ τ, τ ∈ D.keys ↔ τ ∈ saved) ∧
      (∀ τ ∈ saved, τ ∉ window → D.get? τ = some []) ∧
      ∀ τ i, τ ∈ saved → LastAt window τ i → D.get? τ = some (members.map (fun u => advance g window u i)) := by
  obtain ⟨D, hD⟩ := (C05_ensemble_succeeds_iff (total g) window saved members mode hm).1.2
    (fun m _ => by obtain ⟨fc, h, _⟩ := forecast_total g window hw m saved; exact ⟨fc, h⟩)
  obtain ⟨_, h2, h3, h4⟩ := C05_ensemble_sound _ _ _ _ _ hm _ hD
  refine ⟨D, hD, h2, h3, fun τ i hτ hi => ?_⟩
  obtain ⟨l, hl, hF⟩ := h4 τ hτ (List.mem_iff_getElem?.2 ⟨i, hi.1⟩)
  rw [hl]
  congr 1
  symm
  rw [← List.forall₂_eq_eq_eq, List.forall₂_map_left_iff]
  refine hF.imp ?_
  rintro m x ⟨fc, hfc, hx⟩
  obtain ⟨fc', hfc', _, hx'⟩ := forecast_total g window hw m saved
  rw [hfc] at hfc'
  simp only [Except.ok.injEq] at hfc'
  subst hfc'
  rw [hx' τ i hτ hi] at hx
  simpa using hx

end Total

section Tl
variable {K S : Type} [Field K] [DecidableEq K] [AddCommGroup S] [Module K S]

/-- The quotient is applied once per occurrence of the saved time. -/
theorem tlLoop_count (fc : Dict K S) (h : K) (qs : List K) (tl : Dict K (List S))
    (hk : ∀ q ∈ qs, ∃ l, tl.get? q = some l ∧ (l = [] ∨ q ∈ fc.keys)) :
    ∃ tl', tlLoop fc h qs tl = .ok tl' ∧ tl'.keys = tl.keys ∧
      (∀ q, q ∉ qs → tl'.get? q = tl.get? q) ∧
      (∀ q, tl.get? q = some [] → tl'.get? q = some []) ∧
      (∀ q l x, tl.get? q = some l → fc.get? q = some x →
        tl'.get? q = some (l.map (fun s => (fun y => h⁻¹ • (y - x))^[qs.count q] s))) := by
  induction qs generalizing tl with
  | nil => exact ⟨tl, rfl, rfl, fun _ _ => rfl, fun _ h => h, fun q l x hl _ => by simpa using hl⟩
  | cons q qs ih =>
    obtain ⟨l, hl, hlk⟩ := hk q (by simp)
    -- the value of the inner comprehension
    obtain ⟨l', hl', hl1, hl2⟩ : ∃ l', l.mapM (fun state => do
        let ref ← Dict.getItem fc q
        return h⁻¹ • (state - ref)) = (.ok l' : Except PyErr (List S)) ∧ (l = [] → l' = []) ∧
          (∀ x, fc.get? q = some x → l' = l.map (fun s => h⁻¹ • (s - x))) := by
      rcases hlk with rfl | hq
      · exact ⟨[], rfl, fun _ => rfl, fun _ _ => rfl⟩
      · obtain ⟨x, hx⟩ := (Dict.mem_keys_iff fc q).1 hq
        refine ⟨l.map (fun s => h⁻¹ • (s - x)), ?_, by rintro rfl; rfl, ?_⟩
        · rw [mapM_ok_iff, List.forall₂_map_right_iff]
          simp [Dict.getItem, hx, bind, Except.bind, pure, Except.pure]
        · intro x' hx'; rw [hx] at hx'; simp at hx'; rw [hx']
    have hqk : q ∈ tl.keys := (Dict.mem_keys_iff tl q).2 ⟨l, hl⟩
    obtain ⟨tl', h1, h2, h3, h4, h5⟩ := ih (tl.set q l') (fun q' hq' => by
      by_cases hne : q = q'
      · subst hne
        exact ⟨l', Dict.get?_set_self .., hlk.imp hl1 id⟩
      · obtain ⟨l2, a, b⟩ := hk q' (by simp [hq'])
        exact ⟨l2, by rw [Dict.get?_set, if_neg hne]; exact a, b⟩)
    have hset : ∀ q', q ≠ q' → (tl.set q l').get? q' = tl.get? q' := fun q' hne => by rw [Dict.get?_set, if_neg hne]
    refine ⟨tl', ?_, ?_, ?_, ?_, ?_⟩
    · simp only [tlLoop, Dict.getItem, hl, bind, Except.bind] at hl' ⊢
      rw [hl']; exact h1
    · rw [h2, Dict.keys_set, if_pos hqk]
    · intro q' hq'
      simp only [List.mem_cons, not_or] at hq'
      rw [h3 q' hq'.2, hset q' (fun e => hq'.1 e.symm)]
    · intro q' he
      by_cases hne : q = q'
      · subst hne
        rw [hl] at he; simp only [Option.some.injEq] at he
        exact h4 q (by rw [Dict.get?_set_self, hl1 he])
      · exact h4 q' (by rw [hset q' hne]; exact he)
    · intro q' l2 x he hx
      by_cases hne : q = q'
      · subst hne
        rw [hl] at he; simp only [Option.some.injEq] at he
        rw [h5 q l' x (Dict.get?_set_self ..) hx, hl2 x hx, ← he, List.count_cons_self]
        simp [Function.comp_def]
      · rw [h5 q' l2 x (by rw [hset q' hne]; exact he) hx, List.count_cons_of_ne hne]

/-- What `forecast_tl` computes, for a scheme that never raises: the difference quotient is taken once per occurrence of the saved
time. -/
theorem forecastTl_count (g : K → S → K → S) (window : List K) (hw : window ≠ []) (u : S) (perts : List S)
    (saved : List K) (h : K) (mode : ExecMode) (hm : mode.Valid perts.length) :
    ∃ fc tl, forecastTl (total g) window u perts (.list saved) h mode = .ok (fc, tl) ∧
      forecast (total g) window u (.list saved) = .ok fc ∧
      (∀ τ, τ ∈ tl.keys ↔ τ ∈ saved) ∧
      (∀ τ ∈ saved, τ ∉ window → tl.get? τ = some []) ∧
      ∀ τ i, τ ∈ saved → LastAt window τ i →
        tl.get? τ = some (perts.map (fun p => (fun y => h⁻¹ • (y - advance g window u i))^[saved.count τ]
          (advance g window (u + h • p) i))) := by
  obtain ⟨fc, hfc, hk, hv⟩ := forecast_total g window hw u saved
  obtain ⟨D, hD, hDk, hD0, hDv⟩ := ensemble_total g window hw (perts.map (fun p => u + h • p)) saved mode
    (by simpa using hm)
  obtain ⟨tl, h1, h2, _, h4, h5⟩ := tlLoop_count fc h saved D (fun q hq => by
    by_cases hqw : q ∈ window
    · obtain ⟨i, hi⟩ := exists_lastAt window q hqw
      exact ⟨_, hDv q i hq hi, Or.inr ((hk q).2 ⟨hqw, hq⟩)⟩
    · exact ⟨[], hD0 q hq hqw, Or.inl rfl⟩)
  refine ⟨fc, tl, ?_, hfc, ?_, ?_, ?_⟩
  · simp only [forecastTl, checkSavedTimes, bind, Except.bind, hfc, hD, iterSaved, h1, pure, Except.pure]
  · intro τ; rw [h2]; exact hDk τ
  · intro τ hτ hτw; exact h4 τ (hD0 τ hτ hτw)
  · intro τ i hτ hi
    rw [h5 τ _ _ (hDv τ i hτ hi) (hv τ i hτ hi)]
    simp [Function.comp_def]

/-- What `forecast_tl` computes, for a scheme that never raises and saved times without repetition. -/
theorem forecastTl_total (g : K → S → K → S) (window : List K) (hw : window ≠ []) (u : S) (perts : List S)
    (saved : List K) (hn : saved.Nodup) (h : K) (mode : ExecMode) (hm : mode.Valid perts.length) :
    ∃ fc tl, forecastTl (total g) window u perts (.list saved) h mode = .ok (fc, tl) ∧
      forecast (total g) window u (.list saved) = .ok fc ∧
      (∀ τ, τ ∈ tl.keys ↔ τ ∈ saved) ∧
      (∀ τ ∈ saved, τ ∉ window → tl.get? τ = some []) ∧
      ∀ τ i, τ ∈ saved → LastAt window τ i →
        tl.get? τ = some (perts.map (fun p => h⁻¹ • (advance g window (u + h • p) i - advance g window u i))) := by
  obtain ⟨fc, tl, h1, h2, h3, h4, h5⟩ := forecastTl_count g window hw u perts saved h mode hm
  refine ⟨fc, tl, h1, h2, h3, h4, fun τ i hτ hi => ?_⟩
  rw [h5 τ i hτ hi, List.count_eq_one_of_mem hn hτ]
  rfl

end Tl

end Sympkf.Integrator
