import Mathlib.Data.List.Basic
import Mathlib.Data.List.Nodup
import Mathlib.Tactic.Linarith
import Verif.Model.Py

set_option autoImplicit false

namespace Sympkf.Dict

variable {κ α : Type} [DecidableEq κ]

@[simp] theorem get?_nil (k : κ) : get? ([] : Dict κ α) k = none := rfl

theorem get?_cons (kv : κ × α) (d : Dict κ α) (k : κ) :
    get? (kv :: d) k = if kv.1 = k then some kv.2 else get? d k := by
  cases kv; rfl

theorem get?_set (d : Dict κ α) (k k' : κ) (v : α) :
    (d.set k v).get? k' = if k = k' then some v else d.get? k' := by
  induction d with
  | nil => simp [set, get?]
  | cons kv d ih =>
    obtain ⟨a, b⟩ := kv
    by_cases h : a = k
    · subst h; simp only [set, if_true, get?]; split <;> simp_all
    · simp only [set, h, if_false, get?, ih]; grind

@[simp] theorem get?_set_self (d : Dict κ α) (k : κ) (v : α) : (d.set k v).get? k = some v := by
  simp [get?_set]

theorem mem_keys_iff (d : Dict κ α) (k : κ) : k ∈ d.keys ↔ ∃ v, d.get? k = some v := by
  induction d with
  | nil => simp [keys]
  | cons kv d ih =>
    obtain ⟨a, b⟩ := kv
    simp only [keys, List.map_cons, List.mem_cons, get?] at *
    by_cases h : a = k <;> simp_all [eq_comm]

theorem get?_eq_none_iff (d : Dict κ α) (k : κ) : d.get? k = none ↔ k ∉ d.keys := by
  rw [mem_keys_iff]
  cases d.get? k <;> simp

theorem keys_set (d : Dict κ α) (k : κ) (v : α) :
    (d.set k v).keys = if k ∈ d.keys then d.keys else d.keys ++ [k] := by
  induction d with
  | nil => simp [set, keys]
  | cons kv d ih =>
    obtain ⟨a, b⟩ := kv
    by_cases h : a = k
    · simp [set, keys, h]
    · have h' : ¬ k = a := fun e => h e.symm
      simp only [set, h, if_false, keys, List.map_cons, List.mem_cons, h', false_or] at *
      rw [ih]; split <;> simp_all

theorem nodup_keys_set (d : Dict κ α) (k : κ) (v : α) (h : d.keys.Nodup) : (d.set k v).keys.Nodup := by
  rw [keys_set]
  split
  · exact h
  · rw [List.nodup_append]
    refine ⟨h, by simp, ?_⟩
    rintro a ha b hb rfl
    simp_all

theorem set_append_of_notMem (d : Dict κ α) (k : κ) (v : α) (h : k ∉ d.keys) : d.set k v = d ++ [(k, v)] := by
  induction d with
  | nil => rfl
  | cons kv d ih =>
    obtain ⟨a, b⟩ := kv
    simp only [keys, List.map_cons, List.mem_cons, not_or] at h
    have : ¬ a = k := fun e => h.1 e.symm
    simp only [set, this, if_false, List.cons_append]
    rw [ih h.2]

theorem get?_append (d d' : Dict κ α) (k : κ) : get? (d ++ d') k = (get? d k).or (get? d' k) := by
  induction d with
  | nil => simp
  | cons kv d ih =>
    obtain ⟨a, b⟩ := kv
    simp only [List.cons_append, get?]
    split <;> simp_all

theorem getItem_eq_ok (d : Dict κ α) (k : κ) (v : α) : d.getItem k = .ok v ↔ d.get? k = some v := by
  unfold getItem; cases d.get? k <;> simp

/-- Two dictionaries with the same duplicate-free keys in the same order and the same lookups are equal. -/
theorem ext_of_keys (d d' : Dict κ α) (hk : d.keys = d'.keys) (hn : d.keys.Nodup)
    (hg : ∀ k, d.get? k = d'.get? k) : d = d' := by
  induction d generalizing d' with
  | nil =>
    cases d' with
    | nil => rfl
    | cons _ _ => simp [keys] at hk
  | cons kv d ih =>
    cases d' with
    | nil => simp [keys] at hk
    | cons kv' d' =>
      obtain ⟨a, b⟩ := kv; obtain ⟨a', b'⟩ := kv'
      simp only [keys, List.map_cons, List.cons.injEq, List.nodup_cons] at hk hn
      obtain ⟨rfl, hk⟩ := hk
      have h0 := hg a
      simp only [get?, if_true, Option.some.injEq] at h0
      subst h0
      congr 1
      refine ih d' hk hn.2 (fun k => ?_)
      have := hg k
      simp only [get?] at this
      by_cases h : a = k
      · subst h
        have h1 : get? d a = none := (get?_eq_none_iff _ _).2 hn.1
        have h2 : get? d' a = none := (get?_eq_none_iff _ _).2 (by unfold keys; rw [← hk]; exact hn.1)
        rw [h1, h2]
      · simpa [h] using this

theorem set_eq_self (d : Dict κ α) (k : κ) (v : α) (h : d.get? k = some v) : d.set k v = d := by
  induction d with
  | nil => simp at h
  | cons kv d ih =>
    obtain ⟨a, b⟩ := kv
    simp only [get?] at h
    by_cases hk : a = k
    · subst hk; simp at h; subst h; simp [set]
    · simp only [hk, if_false] at h
      simp only [set, hk, if_false]; rw [ih h]

theorem get?_of_mem {d : Dict κ α} (hn : d.keys.Nodup) {k : κ} {v : α} (h : (k, v) ∈ d) : d.get? k = some v := by
  induction d with
  | nil => simp at h
  | cons kv d ih =>
    obtain ⟨a, b⟩ := kv
    simp only [keys, List.map_cons, List.nodup_cons] at hn
    simp only [get?]
    rcases List.mem_cons.1 h with h | h
    · cases h; simp
    · have : a ≠ k := by
        rintro rfl
        exact hn.1 (List.mem_map.2 ⟨_, h, rfl⟩)
      simp [this, ih hn.2 h]

end Sympkf.Dict
