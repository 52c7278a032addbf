import Mathlib.Data.List.Induction
import Verif.Lemmas.Dict
import Verif.Model.Integrator
import Verif.Spec.Trajectory

set_option autoImplicit false

namespace Sympkf.Integrator

open Sympkf Sympkf.Spec

variable {K X : Type} [DecidableEq K] [Sub K]

/-- The states computed from time `t` along `w`. -/
def states (step : K → X → K → Except PyErr X) : K → List K → X → Except PyErr (List X)
  | _, [], u => .ok [u]
  | t, t' :: w, u => do
      let u1 ← step t u (t' - t)
      let xs ← states step t' w u1
      return u :: xs

omit [DecidableEq K] in
theorem states_cons (step : K → X → K → Except PyErr X) (t t' : K) (w : List K) (u : X) (xs : List X) :
    states step t (t' :: w) u = .ok xs ↔
      ∃ u1 ys, step t u (t' - t) = .ok u1 ∧ states step t' w u1 = .ok ys ∧ xs = u :: ys := by
  simp only [states, bind, Except.bind, pure, Except.pure]
  cases step t u (t' - t) with
  | error e => simp
  | ok u1 =>
    cases h : states step t' w u1 with
    | error e => simp [h]
    | ok ys => simp [h, eq_comm]

omit [DecidableEq K] in
theorem states_ne_nil (step : K → X → K → Except PyErr X) (t : K) (w : List K) (u : X) (xs : List X)
    (h : states step t w u = .ok xs) : ∃ ys, xs = u :: ys := by
  cases w with
  | nil => simp [states] at h; exact ⟨[], h.symm⟩
  | cons t' w =>
    obtain ⟨u1, ys, _, _, rfl⟩ := (states_cons ..).1 h
    exact ⟨ys, rfl⟩

omit [DecidableEq K] in
theorem states_iff (step : K → X → K → Except PyErr X) (t : K) (w : List K) (u : X) (xs : List X) :
    states step t w u = .ok xs ↔ IsTrajectory step (t :: w) u xs := by
  induction w generalizing t u xs with
  | nil =>
    constructor
    · intro h
      simp only [states, Except.ok.injEq] at h
      subst h
      refine ⟨rfl, rfl, ?_⟩
      intro i a b x h1 h2
      simp at h2
    · intro h
      have h1 := h.length_eq
      have h2 := h.start
      match xs, h1 with
      | [x], _ => simp at h2; simp [states, h2]
  | cons t' w ih =>
    rw [states_cons]
    constructor
    · rintro ⟨u1, ys, hs, hy, rfl⟩
      have hT := (ih _ _ _).1 hy
      refine ⟨by simp [hT.length_eq], rfl, ?_⟩
      intro i a b x h1 h2 h3
      cases i with
      | zero =>
        simp only [List.getElem?_cons_zero, Option.some.injEq, List.getElem?_cons_succ, zero_add] at h1 h2 h3
        subst h1 h2 h3
        exact ⟨u1, by simpa using hT.start, hs⟩
      | succ i =>
        simp only [List.getElem?_cons_succ] at h1 h2 h3 ⊢
        exact hT.next i a b x h1 h2 h3
    · intro h
      have hlen := h.length_eq
      have hst := h.start
      match xs, hlen with
      | x :: ys, hlen =>
        simp only [List.getElem?_cons_zero, Option.some.injEq] at hst
        subst hst
        obtain ⟨u1, hu1, hs⟩ := h.next 0 t t' x rfl rfl rfl
        refine ⟨u1, ys, hs, (ih _ _ _).2 ⟨by simpa using hlen, by simpa using hu1, ?_⟩, rfl⟩
        intro i a b y h1 h2 h3
        have := h.next (i + 1) a b y (by simpa using h1) (by simpa using h2) (by simpa using h3)
        simpa using this

/-- The dictionary filled from the pairs (time, state). -/
def fill (saved : List K) (d : Dict K X) (ps : List (K × X)) : Dict K X :=
  ps.foldl (fun d p => if p.1 ∈ saved then d.set p.1 p.2 else d) d

omit [Sub K] in
theorem fill_cons (saved : List K) (d : Dict K X) (p : K × X) (ps : List (K × X)) :
    fill saved d (p :: ps) = fill saved (if p.1 ∈ saved then d.set p.1 p.2 else d) ps := rfl

theorem forecast_list (step : K → X → K → Except PyErr X) (t : K) (w : List K) (u0 : X) (saved : List K) :
    forecast step (t :: w) u0 (.list saved) =
      (states step t w u0).map (fun xs => fill saved [] ((t :: w).zip xs)) := by
  have key : ∀ (w : List K) (t : K) (u : X) (d : Dict K X),
      (do
        let (traj, u) ← forecastLoop step (.list saved) ((t :: w).dropLast.zip (t :: w).tail) d u
        match (t :: w).getLast? with
        | none => .error .indexError
        | some time => do
            let b ← isIn time (.list saved)
            return if b then traj.set time u else traj)
      = (states step t w u).map (fun xs => fill saved d ((t :: w).zip xs)) := by
    intro w
    induction w with
    | nil =>
      intro t u d
      simp [forecastLoop, states, isIn, fill, bind, Except.bind, pure, Except.pure, Except.map]
    | cons t' w ih =>
      intro t u d
      have ih' := ih t'
      simp only [List.dropLast_cons_cons, List.tail_cons, List.zip_cons_cons, forecastLoop, isIn, states,
        List.getLast?_cons_cons, bind, Except.bind, pure, Except.pure, decide_eq_true_eq] at ih' ⊢
      cases hstep : step t u (t' - t) with
      | error e => simp [Except.map]
      | ok u1 =>
        simp only []
        rw [ih' u1]
        cases states step t' w u1 with
        | error e => simp [Except.map]
        | ok ys => simp [Except.map, fill_cons]
  exact key w t u0 []

theorem predict_list (step : K → X → K → Except PyErr X) (t : K) (w : List K) (u0 : X) (saved : List K) :
    predict step (t :: w) u0 (.list saved) =
      (states step t w u0).map (fun xs => (((t :: w).zip xs).filter (fun p => p.1 ∈ saved)).map Prod.snd) := by
  have key : ∀ (w : List K) (t : K) (u : X) (d : List X),
      (do
        let (traj, u) ← predictLoop step (.list saved) ((t :: w).dropLast.zip (t :: w).tail) d u
        match (t :: w).getLast? with
        | none => .error .indexError
        | some time => do
            let b ← isIn time (.list saved)
            return if b then traj ++ [u] else traj)
      = (states step t w u).map
          (fun xs => d ++ (((t :: w).zip xs).filter (fun p => p.1 ∈ saved)).map Prod.snd) := by
    intro w
    induction w with
    | nil =>
      intro t u d
      by_cases h : t ∈ saved <;>
      simp [predictLoop, states, isIn, bind, Except.bind, pure, Except.pure, Except.map, h]
    | cons t' w ih =>
      intro t u d
      have ih' := ih t'
      simp only [List.dropLast_cons_cons, List.tail_cons, List.zip_cons_cons, predictLoop, isIn, states,
        List.getLast?_cons_cons, bind, Except.bind, pure, Except.pure, decide_eq_true_eq] at ih' ⊢
      cases hstep : step t u (t' - t) with
      | error e => simp [Except.map]
      | ok u1 =>
        simp only []
        rw [ih' u1]
        cases states step t' w u1 with
        | error e => simp [Except.map]
        | ok ys => by_cases h : t ∈ saved <;> simp [Except.map, h]
  exact key w t u0 []

omit [Sub K] in
theorem nodup_fill (saved : List K) (d : Dict K X) (ps : List (K × X)) (h : d.keys.Nodup) :
    (fill saved d ps).keys.Nodup := by
  induction ps generalizing d with
  | nil => exact h
  | cons p ps ih =>
    rw [fill_cons]; apply ih; split
    · exact Dict.nodup_keys_set _ _ _ h
    · exact h

omit [Sub K] in
theorem get?_fill (saved : List K) (d : Dict K X) (w : List K) (xs : List X) (hl : xs.length = w.length) (τ : K)
    (x : X) :
    (fill saved d (w.zip xs)).get? τ = some x ↔
      (τ ∈ saved ∧ StateAt w xs τ x) ∨ ((τ ∉ saved ∨ τ ∉ w) ∧ d.get? τ = some x) := by
  induction w generalizing d xs with
  | nil => simp [fill, StateAt]
  | cons t w ih =>
    match xs, hl with
    | y :: ys, hl =>
      have hl' : ys.length = w.length := by simpa using hl
      rw [List.zip_cons_cons, fill_cons, ih _ _ hl']
      have hSA : StateAt (t :: w) (y :: ys) τ x ↔ StateAt w ys τ x ∨ (τ ∉ w ∧ t = τ ∧ y = x) := by
        constructor
        · rintro ⟨i, h1, h2, h3⟩
          cases i with
          | zero =>
            right
            refine ⟨?_, by simpa using h1, by simpa using h2⟩
            intro hm
            obtain ⟨j, hj⟩ := List.mem_iff_getElem?.1 hm
            exact h3 (j + 1) (by omega) (by simpa using hj)
          | succ i =>
            left
            exact ⟨i, by simpa using h1, by simpa using h2, fun j hj => by
              simpa using h3 (j + 1) (by omega)⟩
        · rintro (⟨i, h1, h2, h3⟩ | ⟨h1, rfl, rfl⟩)
          · refine ⟨i + 1, by simpa using h1, by simpa using h2, fun j hj => ?_⟩
            cases j with
            | zero => omega
            | succ j => simpa using h3 j (by omega)
          · refine ⟨0, rfl, rfl, fun j hj => ?_⟩
            cases j with
            | zero => omega
            | succ j =>
              simp only [List.getElem?_cons_succ]
              intro hc; exact h1 (List.mem_iff_getElem?.2 ⟨j, hc⟩)
      have hno : StateAt w ys τ x → τ ∈ w := fun ⟨i, h1, _, _⟩ => List.mem_iff_getElem?.2 ⟨i, h1⟩
      rw [hSA]
      by_cases hts : t ∈ saved
      · simp only [hts, if_true, Dict.get?_set, List.mem_cons]
        by_cases htt : t = τ
        · subst htt; simp only [hts]; grind
        · have : ¬ τ = t := fun e => htt e.symm
          simp only [htt, if_false, this]; grind
      · simp only [hts, if_false, List.mem_cons]
        by_cases htt : t = τ
        · subst htt; simp only [hts]; grind
        · have : ¬ τ = t := fun e => htt e.symm
          simp only [htt, this]; grind

omit [DecidableEq K] [Sub K] in
theorem exists_stateAt (w : List K) (xs : List X) (hl : xs.length = w.length) (τ : K) (h : τ ∈ w) :
    ∃ x, StateAt w xs τ x := by
  induction w generalizing xs with
  | nil => simp at h
  | cons t w ih =>
    match xs, hl with
    | y :: ys, hl =>
      by_cases hw : τ ∈ w
      · obtain ⟨x, i, h1, h2, h3⟩ := ih ys (by simpa using hl) hw
        refine ⟨x, i + 1, by simpa using h1, by simpa using h2, fun j hj => ?_⟩
        cases j with
        | zero => omega
        | succ j => simpa using h3 j (by omega)
      · have : t = τ := by simp_all
        subst this
        refine ⟨y, 0, rfl, rfl, fun j hj => ?_⟩
        cases j with
        | zero => omega
        | succ j =>
          simp only [List.getElem?_cons_succ]
          intro hc; exact hw (List.mem_iff_getElem?.2 ⟨j, hc⟩)

omit [Sub K] in
theorem fill_nodup (saved : List K) (d : Dict K X) (w : List K) (xs : List X) (hl : xs.length = w.length)
    (hn : w.Nodup) (hd : ∀ τ ∈ w, τ ∉ d.keys) :
    fill saved d (w.zip xs) = d ++ (w.zip xs).filter (fun p => p.1 ∈ saved) := by
  induction w generalizing d xs with
  | nil => simp [fill]
  | cons t w ih =>
    match xs, hl with
    | y :: ys, hl =>
      rw [List.zip_cons_cons, fill_cons]
      obtain ⟨hn1, hn2⟩ := List.nodup_cons.1 hn
      by_cases h : t ∈ saved
      · simp only [h, if_true, List.filter_cons, decide_true]
        rw [ih _ _ (by simpa using hl) hn2, Dict.set_append_of_notMem _ _ _ (hd t (by simp))]
        · simp
        · intro τ hτ
          rw [Dict.keys_set, if_neg (hd t (by simp))]
          simp only [List.mem_append, List.mem_singleton, not_or]
          exact ⟨hd τ (by simp [hτ]), fun e => hn1 (e ▸ hτ)⟩
      · simp only [h, if_false, List.filter_cons, decide_false]
        rw [ih _ _ (by simpa using hl) hn2 (fun τ hτ => hd τ (by simp [hτ]))]
        simp

omit [Sub K] in
theorem fill_append (saved : List K) (d : Dict K X) (ps qs : List (K × X)) :
    fill saved d (ps ++ qs) = fill saved (fill saved d ps) qs := by
  simp [fill, List.foldl_append]

omit [Sub K] in
theorem get?_fill_or (saved : List K) (d : Dict K X) (ps : List (K × X)) (k : K) :
    (fill saved d ps).get? k = ((fill saved [] ps).get? k).or (d.get? k) := by
  induction ps using List.reverseRecOn with
  | nil => simp [fill]
  | append_singleton ps p ih =>
    rw [fill_append, fill_append, fill_cons, fill_cons]
    by_cases h : p.1 ∈ saved
    · simp only [h, if_true]
      simp only [fill, List.foldl_nil] at ih ⊢
      rw [Dict.get?_set, Dict.get?_set, ih]
      split <;> simp
    · simp only [h, if_false]; exact ih

omit [Sub K] in
theorem keys_fill (saved : List K) (d : Dict K X) (ps : List (K × X)) :
    (fill saved d ps).keys = d.keys ++ (fill saved [] ps).keys.filter (fun k => k ∉ d.keys) := by
  induction ps using List.reverseRecOn with
  | nil => simp [fill, Dict.keys]
  | append_singleton ps p ih =>
    rw [fill_append, fill_append, fill_cons, fill_cons]
    by_cases h : p.1 ∈ saved
    · simp only [h, if_true]
      simp only [fill, List.foldl_nil] at ih ⊢
      rw [Dict.keys_set, Dict.keys_set, ih]
      set l := Dict.keys (List.foldl (fun (d : Dict K X) p => if p.1 ∈ saved then d.set p.1 p.2 else d) [] ps)
      by_cases h1 : p.1 ∈ d.keys
      · simp only [List.mem_append, h1, true_or, if_true]
        split <;> simp [h1]
      · by_cases h2 : p.1 ∈ l <;> simp [h1, h2]
    · simp only [h, if_false]; exact ih

omit [DecidableEq K] in
theorem states_append (step : K → X → K → Except PyErr X) (w : List K) (t : K) (u : X) (b : List K) (zs : List X) :
    states step t (w ++ b) u = .ok zs ↔
      ∃ (xs ys : List X) (hne : xs ≠ []), states step t w u = .ok xs ∧
        states step ((t :: w).getLast (by simp)) b (xs.getLast hne) = .ok (xs.getLast hne :: ys) ∧ zs = xs ++ ys := by
  induction w generalizing t u zs with
  | nil =>
    simp only [List.nil_append, states, Except.ok.injEq, List.getLast_singleton]
    constructor
    · intro h
      obtain ⟨ys, rfl⟩ := states_ne_nil _ _ _ _ _ h
      exact ⟨[u], ys, by simp, rfl, by simpa using h, rfl⟩
    · rintro ⟨xs, ys, hne, rfl, h, rfl⟩
      simpa using h
  | cons t' w ih =>
    rw [List.cons_append, states_cons]
    simp only [List.getLast_cons_cons]
    constructor
    · rintro ⟨u1, ys, h1, h2, rfl⟩
      obtain ⟨xs, zs, hne, h3, h4, rfl⟩ := (ih t' u1 ys).1 h2
      refine ⟨u :: xs, zs, by simp, (states_cons ..).2 ⟨u1, xs, h1, h3, rfl⟩, ?_, rfl⟩
      rw [List.getLast_cons hne]; exact h4
    · rintro ⟨xs, ys, hne, h1, h2, rfl⟩
      obtain ⟨u1, xs', h3, h4, rfl⟩ := (states_cons ..).1 h1
      have hne' : xs' ≠ [] := by
        obtain ⟨r, rfl⟩ := states_ne_nil _ _ _ _ _ h4; simp
      rw [List.getLast_cons hne'] at h2
      exact ⟨u1, xs' ++ ys, h3, (ih t' u1 _).2 ⟨xs', ys, hne', h4, h2, rfl⟩, rfl⟩

end Sympkf.Integrator
