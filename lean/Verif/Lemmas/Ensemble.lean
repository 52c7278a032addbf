import Mathlib.Tactic.Ring
import Mathlib.Data.List.Forall2
import Verif.Lemmas.Forecast

set_option autoImplicit false

namespace Sympkf

/-- `mapM` in `Except` succeeds exactly when every call does. -/
theorem mapM_ok_iff {A Y : Type} (f : A → Except PyErr Y) (l : List A) (ys : List Y) :
    l.mapM f = .ok ys ↔ List.Forall₂ (fun a y => f a = .ok y) l ys := by
  induction l generalizing ys with
  | nil => simp [pure, Except.pure, eq_comm]
  | cons a l ih =>
    rw [List.mapM_cons]
    simp only [bind, Except.bind, pure, Except.pure]
    cases h : f a with
    | error e => simp [h, List.forall₂_cons_left_iff]
    | ok y =>
      cases h2 : l.mapM f with
      | error e =>
        simp only [List.forall₂_cons_left_iff, h, Except.ok.injEq, reduceCtorEq, false_iff, not_exists, not_and]
        intro y' zs _ hz _
        have := (ih zs).2 hz
        simp [h2] at this
      | ok zs =>
        simp only [List.forall₂_cons_left_iff, h, Except.ok.injEq]
        constructor
        · rintro rfl; exact ⟨y, zs, rfl, (ih zs).1 h2, rfl⟩
        · rintro ⟨y', zs', rfl, hz, rfl⟩
          have := (ih zs').2 hz
          rw [h2] at this
          simp only [Except.ok.injEq] at this
          rw [this]

/-- An exception of `mapM` is an exception of one of the calls. -/
theorem mapM_error {A Y : Type} (f : A → Except PyErr Y) (l : List A) (e : PyErr) (h : l.mapM f = .error e) :
    ∃ a ∈ l, f a = .error e := by
  induction l with
  | nil => simp [pure, Except.pure] at h
  | cons a l ih =>
    rw [List.mapM_cons] at h
    simp only [bind, Except.bind, pure, Except.pure] at h
    cases ha : f a with
    | error e' => simp only [ha, Except.error.injEq] at h; exact ⟨a, by simp, by rw [ha, h]⟩
    | ok y =>
      cases h2 : l.mapM f with
      | error e' =>
        simp only [ha, h2, Except.error.injEq] at h
        subst h
        obtain ⟨b, hb, hb'⟩ := ih h2
        exact ⟨b, by simp [hb], hb'⟩
      | ok zs => simp [ha, h2] at h

theorem mapM_error_of_mem {A Y : Type} (f : A → Except PyErr Y) (l : List A) (a : A) (ha : a ∈ l) (e : PyErr)
    (h : f a = .error e) : ∃ e', l.mapM f = .error e' := by
  cases hm : l.mapM f with
  | error e' => exact ⟨e', rfl⟩
  | ok ys =>
    have := (mapM_ok_iff f l ys).1 hm
    exfalso
    induction this with
    | nil => simp at ha
    | cons h1 h2 ih =>
      rename_i x y l' ys'
      rcases List.mem_cons.1 ha with rfl | ha
      · rw [h] at h1; simp at h1
      · exact ih ha ((mapM_ok_iff f _ _).2 h2)

theorem mapM_append' {A Y : Type} (f : A → Except PyErr Y) (l : List A) (ys : List Y) (h : l.mapM f = .ok ys)
    (a n : Nat) : ((l.drop a).take n).mapM f = .ok ((ys.drop a).take n) := by
  rw [mapM_ok_iff] at *
  exact List.forall₂_take n (List.forall₂_drop a h)

end Sympkf

namespace Sympkf.Integrator

open Sympkf Sympkf.Spec

section Parallel
variable {A Y : Type}

theorem completeChunk_get (cs i : Nat) (ys : List Y) (R : List (Option Y)) (hl : R.length = ys.length) (j : Nat) :
    (R.take (i * cs) ++ ((ys.drop (i * cs)).take cs).map some ++ R.drop ((i + 1) * cs))[j]? =
      if i * cs ≤ j ∧ j < (i + 1) * cs then (ys[j]?).map some else R[j]? := by
  have e : (i + 1) * cs = i * cs + cs := by ring
  rw [e]
  generalize i * cs = a
  simp only [List.getElem?_append, List.length_append, List.length_take, List.length_map, List.length_drop,
    List.getElem?_take, List.getElem?_map, List.getElem?_drop]
  split_ifs <;> (try omega) <;> (try rfl)
  all_goals first
    | (congr 1; congr 1; omega)
    | (congr 1; omega)
    | (rw [List.getElem?_eq_none (by omega), List.getElem?_eq_none (by omega)]; rfl)
    | (by_cases hj : j < R.length
       · congr 1; omega
       · rw [List.getElem?_eq_none (by omega), List.getElem?_eq_none (by omega)])

theorem chunk_index {len cs j : Nat} (hcs : 0 < cs) (hj : j < len) : j / cs < numChunks len cs := by
  have : cs ≠ 0 := by omega
  simp only [numChunks, this, if_false]
  rw [Nat.div_lt_iff_lt_mul hcs]
  have h1 := Nat.div_add_mod (len + cs - 1) cs
  have h2 := Nat.mod_lt (len + cs - 1) hcs
  rw [Nat.mul_comm] at h1
  omega

theorem chunkSize_pos {len nbPool : Nat} (hn : 1 ≤ nbPool) (hl : 0 < len) : 0 < chunkSize len nbPool := by
  unfold chunkSize
  by_cases h : len % (4 * nbPool) = 0
  · have : 4 * nbPool ∣ len := Nat.dvd_of_mod_eq_zero h
    have := Nat.le_of_dvd hl this
    have := Nat.div_pos this (by omega)
    omega
  · simp [h]

/-- The result list while the chunks of `done` have completed without exception. -/
theorem fold_ok (f : A → Except PyErr Y) (cs : Nat) (args : List A) (ys : List Y) (h : args.mapM f = .ok ys)
    (hcs : 0 < cs) (done : List Nat) (R : List (Option Y)) (hR : R.length = ys.length) :
    (done.foldl (completeChunk f cs args) (R, none)).2 = none ∧
    (done.foldl (completeChunk f cs args) (R, none)).1.length = ys.length ∧
    ∀ j, (done.foldl (completeChunk f cs args) (R, none)).1[j]? =
      if j / cs ∈ done then (ys[j]?).map some else R[j]? := by
  induction done generalizing R with
  | nil => simp [hR]
  | cons i done ih =>
    have hc : completeChunk f cs args (R, none) i =
        (R.take (i * cs) ++ ((ys.drop (i * cs)).take cs).map some ++ R.drop ((i + 1) * cs), none) := by
      simp only [completeChunk, mapM_append' f args ys h]
    rw [List.foldl_cons, hc]
    have hg := completeChunk_get cs i ys R hR
    set R' := R.take (i * cs) ++ ((ys.drop (i * cs)).take cs).map some ++ R.drop ((i + 1) * cs) with hR'
    have hl : R'.length = ys.length := by
      apply le_antisymm
      · by_contra hlt
        have := hg ys.length
        rw [List.getElem?_eq_getElem (by omega)] at this
        split_ifs at this <;> simp [hR] at this
      · by_contra hlt
        have h1 : R'[R'.length]? = none := by simp
        rw [hg] at h1
        split_ifs at h1
        · simp at h1; omega
        · simp at h1; omega
    obtain ⟨h1, h2, h3⟩ := ih R' hl
    refine ⟨h1, h2, fun j => ?_⟩
    rw [h3, hg]
    have hdiv : (i * cs ≤ j ∧ j < (i + 1) * cs) ↔ j / cs = i := by
      rw [Nat.div_eq_iff hcs]
      have : (i + 1) * cs = i * cs + cs := by ring
      omega
    simp only [hdiv, List.mem_cons]
    by_cases h4 : j / cs ∈ done <;> by_cases h5 : j / cs = i <;> simp [h4, h5]

theorem fold_error_mem (f : A → Except PyErr Y) (cs : Nat) (args : List A) (done : List Nat) (st : List (Option Y) × Option PyErr)
    (e : PyErr) (h : (done.foldl (completeChunk f cs args) st).2 = some e) :
    st.2 = some e ∨ ∃ a ∈ args, f a = .error e := by
  induction done generalizing st with
  | nil => exact Or.inl h
  | cons i done ih =>
    rw [List.foldl_cons] at h
    rcases ih _ h with h1 | h1
    · unfold completeChunk at h1
      cases hm : ((args.drop (i * cs)).take cs).mapM f with
      | ok ys => simp only [hm] at h1; exact Or.inl h1
      | error e' =>
        simp only [hm] at h1
        cases hs : st.2 with
        | some e2 => simp [hs] at h1; subst h1; exact Or.inl rfl
        | none =>
          simp [hs] at h1
          subst h1
          obtain ⟨a, ha, ha'⟩ := mapM_error _ _ _ hm
          exact Or.inr ⟨a, List.mem_of_mem_drop (List.mem_of_mem_take ha), ha'⟩
    · exact Or.inr h1

theorem fold_error_keep (f : A → Except PyErr Y) (cs : Nat) (args : List A) (done : List Nat) (st : List (Option Y) × Option PyErr)
    (e : PyErr) (h : st.2 = some e) : (done.foldl (completeChunk f cs args) st).2 = some e := by
  induction done generalizing st with
  | nil => exact h
  | cons i done ih =>
    rw [List.foldl_cons]
    apply ih
    unfold completeChunk
    cases ((args.drop (i * cs)).take cs).mapM f <;> simp [h]

theorem fold_error_exists (f : A → Except PyErr Y) (cs : Nat) (hcs : 0 < cs) (args : List A) (done : List Nat)
    (st : List (Option Y) × Option PyErr) (j : Nat) (hj : j / cs ∈ done) (a : A) (ha : args[j]? = some a) (e : PyErr)
    (he : f a = .error e) : ∃ e', (done.foldl (completeChunk f cs args) st).2 = some e' := by
  induction done generalizing st with
  | nil => simp at hj
  | cons i done ih =>
    rw [List.foldl_cons]
    by_cases hji : j / cs = i
    · have hmem : a ∈ (args.drop (i * cs)).take cs := by
        rw [List.mem_iff_getElem?]
        refine ⟨j - i * cs, ?_⟩
        have h1 := (Nat.div_eq_iff hcs).1 hji
        rw [List.getElem?_take, if_pos (by omega), List.getElem?_drop]
        rw [← ha]; congr 1; omega
      obtain ⟨e', he'⟩ := mapM_error_of_mem f _ a hmem e he
      have : ∃ e2, (completeChunk f cs args st i).2 = some e2 := by
        unfold completeChunk
        simp only [he']
        cases st.2 <;> simp
      obtain ⟨e2, h2⟩ := this
      exact ⟨e2, fold_error_keep f cs args done _ e2 h2⟩
    · exact ih _ (by simpa [hji] using hj)

theorem mapM_some_ok (ys : List Y) :
    (ys.map some).mapM slotValue = .ok ys := by
  rw [mapM_ok_iff, List.forall₂_map_left_iff]
  simp [slotValue]

theorem parallelRun_ok (f : A → Except PyErr Y) (nbPool : Nat) (hn : 1 ≤ nbPool) (args : List A) (completion : List Nat)
    (hc : ∀ i < numChunks args.length (chunkSize args.length nbPool), i ∈ completion) (ys : List Y) :
    parallelRun f nbPool completion args = .ok ys ↔ args.mapM f = .ok ys := by
  unfold parallelRun
  rw [if_neg (by omega)]
  by_cases hl : args.length = 0
  · have : args = [] := List.length_eq_zero_iff.1 hl
    subst this
    have hf : ∀ (done : List Nat), done.foldl (completeChunk f (chunkSize 0 nbPool) ([] : List A)) (([] : List (Option Y)), none) = ([], none) := by
      intro done
      induction done with
      | nil => rfl
      | cons i done ih =>
        rw [List.foldl_cons]
        have : completeChunk f (chunkSize 0 nbPool) ([] : List A) (([] : List (Option Y)), none) i = ([], none) := by
          simp [completeChunk, pure, Except.pure]
        rw [this, ih]
    simp [hf]
  · have hcs := chunkSize_pos (len := args.length) hn (by omega)
    set cs := chunkSize args.length nbPool
    cases hm : args.mapM f with
    | ok zs =>
      have hlen : zs.length = args.length := ((mapM_ok_iff f args zs).1 hm).length_eq.symm
      obtain ⟨h1, h2, h3⟩ := fold_ok f cs args zs hm hcs completion (List.replicate args.length none) (by simp [hlen])
      simp only [h1]
      have : (completion.foldl (completeChunk f cs args) (List.replicate args.length none, none)).1 = zs.map some := by
        apply List.ext_getElem?
        intro j
        rw [h3, List.getElem?_map]
        by_cases hj : j < args.length
        · rw [if_pos (hc _ (chunk_index hcs hj))]
        · rw [List.getElem?_eq_none (by omega : zs.length ≤ j), List.getElem?_eq_none (by simp; omega)]
          simp
      rw [this, mapM_some_ok]
    | error e =>
      obtain ⟨a, ha, hae⟩ := mapM_error f args e hm
      obtain ⟨j, hj⟩ := List.mem_iff_getElem?.1 ha
      have hjl : j < args.length := by
        by_contra hlt
        rw [List.getElem?_eq_none (by omega)] at hj; simp at hj
      obtain ⟨e', he'⟩ := fold_error_exists f cs hcs args completion (List.replicate args.length none, none) j
        (hc _ (chunk_index hcs hjl)) a hj e hae
      simp [he']

theorem parallelRun_error (f : A → Except PyErr Y) (nbPool : Nat) (hn : 1 ≤ nbPool) (args : List A) (completion : List Nat)
    (hc : ∀ i < numChunks args.length (chunkSize args.length nbPool), i ∈ completion) (e : PyErr)
    (h : parallelRun f nbPool completion args = .error e) : ∃ a ∈ args, f a = .error e := by
  have hm : ∃ e', args.mapM f = .error e' := by
    cases hm : args.mapM f with
    | ok ys => rw [(parallelRun_ok f nbPool hn args completion hc ys).2 hm] at h; simp at h
    | error e' => exact ⟨e', rfl⟩
  obtain ⟨e', hm⟩ := hm
  obtain ⟨a, ha, hae⟩ := mapM_error f args e' hm
  obtain ⟨j, hj⟩ := List.mem_iff_getElem?.1 ha
  have hjl : j < args.length := by
    by_contra hlt
    rw [List.getElem?_eq_none (by omega)] at hj; simp at hj
  have hcs := chunkSize_pos (len := args.length) hn (by omega)
  obtain ⟨e2, he2⟩ := fold_error_exists f _ hcs args completion (List.replicate args.length none, none) j
    (hc _ (chunk_index hcs hjl)) a hj e' hae
  unfold parallelRun at h
  rw [if_neg (by omega)] at h
  simp only [he2, Except.error.injEq] at h
  subst h
  rcases fold_error_mem f _ args completion _ _ he2 with h | h
  · simp at h
  · exact h
end Parallel

section Ensemble
variable {K X : Type} [DecidableEq K]

theorem appendForecast_spec (fc : Dict K X) (fs : Dict K (List X)) (hk : ∀ k ∈ fc.keys, k ∈ fs.keys)
    (hn : fc.keys.Nodup) :
    ∃ fs', appendForecast fs fc = .ok fs' ∧ fs'.keys = fs.keys ∧
      ∀ τ, fs'.get? τ = (fs.get? τ).map (· ++ (fc.get? τ).toList) := by
  induction fc generalizing fs with
  | nil =>
    refine ⟨fs, rfl, rfl, fun τ => ?_⟩
    simp
  | cons kv fc ih =>
    obtain ⟨k, v⟩ := kv
    have hkm : k ∈ fs.keys := hk k (by simp [Dict.keys])
    obtain ⟨l, hl⟩ := (Dict.mem_keys_iff fs k).1 hkm
    have hkeys : (fs.set k (l ++ [v])).keys = fs.keys := by rw [Dict.keys_set, if_pos hkm]
    have hn' : k ∉ Dict.keys fc ∧ (Dict.keys fc).Nodup := by simpa [Dict.keys] using hn
    obtain ⟨fs', h1, h2, h3⟩ := ih (fs.set k (l ++ [v]))
      (fun k' hk' => by rw [hkeys]; exact hk k' (by simp [Dict.keys] at hk' ⊢; exact Or.inr hk')) hn'.2
    refine ⟨fs', ?_, by rw [h2, hkeys], fun τ => ?_⟩
    · unfold appendForecast at h1 ⊢
      rw [List.foldlM_cons]
      simp only [Dict.getItem, hl, bind, Except.bind, pure, Except.pure] at h1 ⊢
      exact h1
    · rw [h3, Dict.get?_set, Dict.get?_cons]
      by_cases hkτ : k = τ
      · subst hkτ
        have : Dict.get? fc k = none := (Dict.get?_eq_none_iff _ _).2 hn'.1
        simp [hl, this]
      · simp [hkτ]

theorem emptyForecasts_spec (saved : List K) :
    (emptyForecasts saved : Dict K (List X)).keys.Nodup ∧
    (∀ τ, τ ∈ (emptyForecasts saved : Dict K (List X)).keys ↔ τ ∈ saved) ∧
    ∀ τ ∈ saved, (emptyForecasts saved : Dict K (List X)).get? τ = some [] := by
  have key : ∀ (saved : List K) (d : Dict K (List X)), d.keys.Nodup →
      (saved.foldl (fun d t => Dict.set d t []) d).keys.Nodup ∧
      (∀ τ, τ ∈ (saved.foldl (fun d t => Dict.set d t []) d).keys ↔ τ ∈ d.keys ∨ τ ∈ saved) ∧
      (∀ τ, (saved.foldl (fun d t => Dict.set d t []) d).get? τ = if τ ∈ saved then some [] else d.get? τ) := by
    intro saved
    induction saved with
    | nil => intro d hd; simp [hd]
    | cons t saved ih =>
      intro d hd
      obtain ⟨h1, h2, h3⟩ := ih (d.set t []) (Dict.nodup_keys_set _ _ _ hd)
      refine ⟨h1, fun τ => ?_, fun τ => ?_⟩
      · rw [List.foldl_cons, h2, Dict.keys_set]
        by_cases h : t ∈ d.keys
        · simp only [h, if_true, List.mem_cons]; grind
        · simp only [h, if_false, List.mem_append, List.mem_cons, List.not_mem_nil, or_false]; grind
      · rw [List.foldl_cons, h3, Dict.get?_set]
        simp only [List.mem_cons]
        by_cases h : τ ∈ saved
        · simp [h]
        · simp only [h, if_false, or_false, eq_comm]
  obtain ⟨h1, h2, h3⟩ := key saved [] (by simp [Dict.keys])
  refine ⟨h1, fun τ => ?_, fun τ hτ => ?_⟩
  · rw [emptyForecasts, h2]; simp [Dict.keys]
  · rw [emptyForecasts, h3, if_pos hτ]

/-- Folding `appendForecast` over the forecasts of the members. -/
theorem foldl_append_spec (fcs : List (Dict K X)) (fs : Dict K (List X))
    (hk : ∀ fc ∈ fcs, ∀ k ∈ fc.keys, k ∈ fs.keys) (hn : ∀ fc ∈ fcs, fc.keys.Nodup) :
    ∃ fs', fcs.foldlM appendForecast fs = .ok fs' ∧ fs'.keys = fs.keys ∧
      ∀ τ, fs'.get? τ = (fs.get? τ).map (· ++ fcs.filterMap (fun fc => fc.get? τ)) := by
  induction fcs generalizing fs with
  | nil =>
    refine ⟨fs, rfl, rfl, fun τ => ?_⟩
    simp
  | cons fc fcs ih =>
    obtain ⟨fs1, h1, h2, h3⟩ := appendForecast_spec fc fs (hk fc (by simp)) (hn fc (by simp))
    obtain ⟨fs2, h4, h5, h6⟩ := ih fs1 (fun c hc k hkc => by rw [h2]; exact hk c (by simp [hc]) k hkc)
      (fun c hc => hn c (by simp [hc]))
    refine ⟨fs2, ?_, by rw [h5, h2], fun τ => ?_⟩
    · rw [List.foldlM_cons, h1]; exact h4
    · rw [h6, h3]
      cases hf : fs.get? τ with
      | none => simp
      | some l =>
        cases hc : fc.get? τ with
        | none => simp [hc]
        | some x => simp [hc]

variable [Sub K]

theorem sequentialLoop_eq (step : K → X → K → Except PyErr X) (window : List K) (saved : List K) (members : List X)
    (fs : Dict K (List X)) (hfs : ∀ τ ∈ saved, τ ∈ fs.keys) (hok : ∀ fc m, forecast step window m (.list saved) = .ok fc →
      (∀ k ∈ fc.keys, k ∈ saved) ∧ fc.keys.Nodup) :
    sequentialLoop step window (.list saved) members fs =
      (members.mapM (fun m => forecast step window m (.list saved))).bind (fun fcs => fcs.foldlM appendForecast fs) := by
  induction members generalizing fs with
  | nil => rfl
  | cons m members ih =>
    rw [List.mapM_cons]
    simp only [sequentialLoop, bind, Except.bind, pure, Except.pure]
    cases hf : forecast step window m (.list saved) with
    | error e => rfl
    | ok fc =>
      obtain ⟨hk, hn⟩ := hok fc m hf
      obtain ⟨fs1, h1, h2, _⟩ := appendForecast_spec fc fs (fun k hkc => hfs k (hk k hkc)) hn
      simp only [h1]
      rw [ih fs1 (fun τ hτ => by rw [h2]; exact hfs τ hτ)]
      cases hm : members.mapM (fun m => forecast step window m (.list saved)) with
      | error e => rfl
      | ok fcs =>
        simp only [Except.bind, List.foldlM_cons, bind, h1]

end Ensemble

end Sympkf.Integrator
