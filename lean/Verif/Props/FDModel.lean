import Mathlib.Data.List.Perm.Lattice
import Mathlib.Algebra.Order.Group.Int
import Mathlib.Data.List.NodupEquivFin
import Mathlib.Tactic.FieldSimp
import Mathlib.Tactic.NormNum
import Verif.Model.FDModel
import Verif.Spec.Grid
import Verif.Lemmas.Dict

/-!
# C24–C26: the generated finite-difference class
-/

set_option autoImplicit false

namespace Sympkf.FD

open Text Spec

/-! ## C24 -/

theorem arange_eq (n : ℕ) : arange n = periodicShift n 0 := by
  unfold arange periodicShift
  refine List.map_congr_left (fun i hi => ?_)
  rw [List.mem_range] at hi
  rw [add_zero, Int.emod_eq_of_lt (by omega) (by omega)]

theorem shift_shift (n : ℕ) (k l : ℤ) : (periodicShift n k).map (fun i => (i + l) % (n : ℤ)) = periodicShift n (k + l) := by
  unfold periodicShift
  rw [List.map_map]
  refine List.map_congr_left (fun i _ => ?_)
  simp only [Function.comp]
  rw [Int.emod_add_emod, add_assoc]

/-- Invariant of the memo table: every entry is the periodic shift of its key, and the zero shifts are present. -/
structure TableOK (cs : List Str) (ns : List ℕ) (t : Dict (Str × ℤ) (List ℤ)) : Prop where
  entry : ∀ c step a, t.get? (c, step) = some a →
    ∃ k n, cs.idxOf? c = some k ∧ ns[k]? = some n ∧ a = periodicShift n step
  base : ∀ c k n, cs.idxOf? c = some k → ns[k]? = some n → t.get? (c, 0) = some (periodicShift n 0)

theorem initTable_aux (cs : List Str) (ns : List ℕ) (d : Dict (Str × ℤ) (List ℤ)) (c : Str) (step : ℤ) (hn : cs.Nodup) :
    ((cs.zip ns).foldl (fun d p => d.set (p.1, 0) (arange p.2)) d).get? (c, step)
      = match (cs.idxOf? c).bind (fun k => ns[k]?) with
        | some n => if step = 0 then some (periodicShift n 0) else d.get? (c, step)
        | none => d.get? (c, step) := by
  induction cs generalizing ns d with
  | nil => simp
  | cons x cs ih =>
    obtain ⟨hx, hn⟩ := List.nodup_cons.1 hn
    cases ns with
    | nil => cases h : List.idxOf? c (x :: cs) <;> simp
    | cons n ns =>
      rw [List.zip_cons_cons, List.foldl_cons, ih ns _ hn]
      by_cases hc : x = c
      · subst hc
        have h1 : List.idxOf? x cs = none := by simpa [List.idxOf?_eq_none_iff] using hx
        have h2 : List.idxOf? x (x :: cs) = some 0 := by simp [List.idxOf?_cons]
        rw [h1, h2]
        simp only [Option.bind_none, Option.bind_some, List.getElem?_cons_zero]
        rw [Dict.get?_set]
        by_cases hs : step = 0
        · subst hs; simp [arange_eq]
        · rw [if_neg (by simpa using fun h => hs h.symm), if_neg hs]
      · have h2 : List.idxOf? c (x :: cs) = (List.idxOf? c cs).map (· + 1) := by
          simp [List.idxOf?_cons, hc]
        have h3 : ((List.idxOf? c cs).map (· + 1)).bind (fun k => (n :: ns)[k]?) = (List.idxOf? c cs).bind (fun k => ns[k]?) := by
          cases List.idxOf? c cs <;> simp
        rw [h2, h3, Dict.get?_set, if_neg (by simp [hc])]

theorem initTable_ok (cs : List Str) (ns : List ℕ) (hn : cs.Nodup) : TableOK cs ns (initTable cs ns) := by
  constructor
  · intro c step a h
    unfold initTable at h
    rw [initTable_aux cs ns [] c step hn] at h
    cases hk : cs.idxOf? c with
    | none => rw [hk] at h; simp at h
    | some k =>
      rw [hk] at h
      cases hk' : ns[k]? with
      | none => simp [hk'] at h
      | some n =>
        simp only [Option.bind_some, hk', Dict.get?_nil] at h
        split_ifs at h with hs
        exact ⟨k, n, rfl, hk', by rw [hs]; exact (Option.some.inj h).symm⟩
  · intro c k n hk hk'
    unfold initTable
    rw [initTable_aux cs ns [] c 0 hn, hk]
    simp [hk']

theorem index_ok {st : IndexState} (h : TableOK st.coordinates st.shape st.table) {c : Str} {k n : ℕ}
    (hk : st.coordinates.idxOf? c = some k) (hn : st.shape[k]? = some n) (step : ℤ) :
    ∃ st', index st c step = .ok (periodicShift n step, st') ∧ st'.coordinates = st.coordinates ∧ st'.shape = st.shape
      ∧ TableOK st'.coordinates st'.shape st'.table := by
  unfold index
  cases ht : st.table.get? (c, step) with
  | some a =>
    obtain ⟨k', n', hk', hn', rfl⟩ := h.entry c step a ht
    rw [hk] at hk'; obtain rfl := Option.some.inj hk'
    rw [hn] at hn'; obtain rfl := Option.some.inj hn'
    exact ⟨st, rfl, rfl, rfl, h⟩
  | none =>
    simp only [h.base c k n hk hn, hk, hn, shift_shift, zero_add]
    refine ⟨_, rfl, rfl, rfl, ?_⟩
    constructor
    · intro c' step' a' ha'
      simp only [Dict.get?_set] at ha'
      split_ifs at ha' with he
      · obtain ⟨rfl, rfl⟩ := Prod.ext_iff.1 he
        exact ⟨k, n, hk, hn, (Option.some.inj ha').symm⟩
      · exact h.entry c' step' a' ha'
    · intro c' k' n' hk' hn'
      simp only [Dict.get?_set]
      split_ifs with he
      · rw [he, h.base c' k' n' hk' hn'] at ht; simp at ht
      · exact h.base c' k' n' hk' hn'

theorem index_unknown {st : IndexState} (h : TableOK st.coordinates st.shape st.table) {c : Str}
    (hc : c ∉ st.coordinates) (step : ℤ) : index st c step = .error .keyError := by
  have hnone : ∀ s, st.table.get? (c, s) = none := by
    intro s
    cases ht : st.table.get? (c, s) with
    | none => rfl
    | some a =>
      obtain ⟨k, n, hk, -, -⟩ := h.entry c s a ht
      rw [List.idxOf?_eq_none_iff.2 hc] at hk; simp at hk
  unfold index
  simp [hnone]

theorem indexHistory_ok (calls : List (Str × ℤ)) (st : IndexState) (h : TableOK st.coordinates st.shape st.table)
    (hl : st.coordinates.length = st.shape.length) :
    TableOK st.coordinates st.shape (indexHistory st calls).table
    ∧ (indexHistory st calls).coordinates = st.coordinates ∧ (indexHistory st calls).shape = st.shape := by
  induction calls generalizing st with
  | nil => exact ⟨h, rfl, rfl⟩
  | cons ck calls ih =>
    obtain ⟨c, step⟩ := ck
    unfold indexHistory
    by_cases hc : c ∈ st.coordinates
    · obtain ⟨k, hk⟩ : ∃ k, st.coordinates.idxOf? c = some k := by
        cases hk : st.coordinates.idxOf? c with
        | none => exact absurd hc (List.idxOf?_eq_none_iff.1 hk)
        | some k => exact ⟨k, rfl⟩
      have hlt : k < st.shape.length := by
        rw [← hl]
        have := List.idxOf?_eq_some_iff.1 hk
        exact this.1
      obtain ⟨st', he, h1, h2, h3⟩ := index_ok h hk (List.getElem?_eq_getElem hlt) step
      rw [he]
      have := ih st' h3 (by rw [h1, h2, hl])
      rw [h1, h2] at this
      exact this
    · rw [index_unknown h hc]
      exact ih st h hl

/-- The state of a freshly constructed model. -/
def freshIndex (cs : List Str) (ns : List ℕ) : IndexState := ⟨cs, ns, initTable cs ns⟩

/-- C24: after any history of calls (with any coordinates and steps, failing ones included) `index(coord, step)` is the
periodic shift along the coordinate. -/
theorem C24_index (cs : List Str) (ns : List ℕ) (hl : cs.length = ns.length) (hn : cs.Nodup)
    (calls : List (Str × ℤ)) (k : ℕ) (hk : k < cs.length) (step : ℤ) :
    (index (indexHistory (freshIndex cs ns) calls) cs[k] step).map Prod.fst
      = .ok (periodicShift (ns[k]'(hl ▸ hk)) step) := by
  obtain ⟨h1, h2, h3⟩ := indexHistory_ok calls (freshIndex cs ns) (initTable_ok cs ns hn) hl
  have hidx : cs.idxOf? cs[k] = some k := by
    rw [List.idxOf?_eq_some_iff]
    refine ⟨hk, ?_, ?_⟩
    · simp
    · intro j hj he
      have := (List.Nodup.getElem_inj_iff hn).1 he
      omega
  have h1' : TableOK (indexHistory (freshIndex cs ns) calls).coordinates (indexHistory (freshIndex cs ns) calls).shape
      (indexHistory (freshIndex cs ns) calls).table := by rw [h2, h3]; exact h1
  obtain ⟨st', he, -⟩ := index_ok h1' (c := cs[k]) (k := k) (n := ns[k]'(hl ▸ hk)) (by rw [h2]; exact hidx)
    (by rw [h3]; exact List.getElem?_eq_getElem _) step
  rw [he]; rfl

/-- C24: a name that is not a coordinate raises `KeyError`, after any history. -/
theorem C24_index_unknown (cs : List Str) (ns : List ℕ) (hl : cs.length = ns.length) (hn : cs.Nodup)
    (calls : List (Str × ℤ)) (c : Str) (hc : c ∉ cs) (step : ℤ) :
    index (indexHistory (freshIndex cs ns) calls) c step = .error .keyError := by
  obtain ⟨h1, h2, h3⟩ := indexHistory_ok calls (freshIndex cs ns) (initTable_ok cs ns hn) hl
  refine index_unknown (by rw [h2, h3]; exact h1) ?_ step
  rw [h2]; exact hc

theorem gather_shift {α : Type} [Inhabited α] (n : ℕ) (step : ℤ) (u : List α) (i : ℕ) (hi : i < n) :
    (gather u (periodicShift n step)).getD i default = u.getD (((i : ℤ) + step) % (n : ℤ)).toNat default := by
  have hl : i < ((periodicShift n step).map (fun j => u.getD j.toNat default)).length := by
    simp [periodicShift]; exact hi
  unfold gather
  rw [List.getD_eq_getElem?_getD, List.getElem?_eq_getElem hl]
  simp [periodicShift]

/-- C24: shifts compose additively. -/
theorem C24_shift_compose {α : Type} [Inhabited α] (n : ℕ) (k l : ℤ) (u : List α) :
    gather (gather u (periodicShift n k)) (periodicShift n l) = gather u (periodicShift n (k + l)) := by
  conv_lhs => unfold gather
  have e : ∀ i ∈ periodicShift n l,
      (gather u (periodicShift n k)).getD i.toNat default = u.getD ((i + k) % (n : ℤ)).toNat default := by
    intro i hi
    simp only [periodicShift, List.mem_map, List.mem_range] at hi
    obtain ⟨j, hj, rfl⟩ := hi
    have hn : (0 : ℤ) < n := by omega
    have h1 := Int.emod_nonneg ((j : ℤ) + l) hn.ne'
    have h2 := Int.emod_lt_of_pos ((j : ℤ) + l) hn
    rw [gather_shift n k u _ (by omega)]
    rw [Int.toNat_of_nonneg h1]
  have : (periodicShift n l).map (fun i => (gather u (periodicShift n k)).getD i.toNat default)
      = gather u (periodicShift n (k + l)) := by
    rw [List.map_congr_left e, add_comm k l, ← shift_shift n l k]
    unfold gather
    rw [List.map_map]; rfl
  exact this

/-- C24: a shift by the number of points is the identity. -/
theorem C24_shift_period (n : ℕ) (step m : ℤ) : periodicShift n (step + m * n) = periodicShift n step := by
  unfold periodicShift
  refine List.map_congr_left (fun i _ => ?_)
  rw [← add_assoc, Int.add_mul_emod_self_right]

/-- C24: a shift by zero leaves an array unchanged. -/
theorem C24_shift_zero {α : Type} [Inhabited α] (u : List α) : gather u (periodicShift u.length 0) = u := by
  rw [← arange_eq]
  unfold gather arange
  rw [List.map_map]
  refine List.ext_getElem (by simp) (fun i h1 h2 => ?_)
  simp [h2]

/-- C24: each shift is a permutation of the grid. -/
theorem C24_shift_perm (n : ℕ) (step : ℤ) : (periodicShift n step).Perm (periodicShift n 0) := by
  rcases Nat.eq_zero_or_pos n with rfl | hn
  · simp [periodicShift]
  have hn' : (0 : ℤ) < n := by exact_mod_cast hn
  have nd : ∀ s, (periodicShift n s).Nodup := by
    intro s
    unfold periodicShift
    refine List.Nodup.map_on ?_ List.nodup_range
    intro i hi j hj he
    rw [List.mem_range] at hi hj
    have h1 : ((i : ℤ) - j) % n = 0 := by
      have := Int.emod_emod_of_dvd ((i : ℤ) + s) (dvd_refl (n : ℤ))
      have h := Int.emod_emod_of_dvd ((j : ℤ) + s) (dvd_refl (n : ℤ))
      have h2 : (((i : ℤ) + s) - (j + s)) % n = 0 := Int.emod_eq_emod_iff_emod_sub_eq_zero.1 he
      simpa using h2
    have h2 := Int.dvd_of_emod_eq_zero h1
    have h3 : (i : ℤ) - j = 0 := Int.eq_zero_of_abs_lt_dvd h2 (by rw [abs_lt]; omega)
    omega
  rw [List.perm_ext_iff_of_nodup (nd step) (nd 0)]
  have mem : ∀ s a, a ∈ periodicShift n s ↔ 0 ≤ a ∧ a < n := by
    intro s a
    unfold periodicShift
    rw [List.mem_map]
    constructor
    · rintro ⟨i, -, rfl⟩
      exact ⟨Int.emod_nonneg _ hn'.ne', Int.emod_lt_of_pos _ hn'⟩
    · rintro ⟨h1, h2⟩
      have h3 := Int.emod_nonneg (a - s) hn'.ne'
      have h4 := Int.emod_lt_of_pos (a - s) hn'
      refine ⟨((a - s) % n).toNat, List.mem_range.2 (by omega), ?_⟩
      rw [Int.toNat_of_nonneg h3, Int.emod_add_emod, sub_add_cancel, Int.emod_eq_of_lt h1 h2]
  intro a; rw [mem, mem]

example : (index (indexHistory (freshIndex ["x".toList, "y".toList] [4, 3])
    [("y".toList, 5), ("z".toList, 1), ("x".toList, -1), ("x".toList, 0)]) "x".toList (-6)).map Prod.fst
    = .ok [2, 3, 0, 1] := by
  exact (C24_index ["x".toList, "y".toList] [4, 3] rfl (by decide) _ 0 (by decide) (-6)).trans (by decide)

/-! ## C25 -/

variable {K V : Type} [Field K] [DecidableEq V]

/-- Lookup of the grid attributes. -/
theorem gridObj_get? {α : Type} (a0 a1 a2 a3 a4 a5 : α) :
    Dict.get? [("shape".toList, a0), ("lengths".toList, a1), ("_index".toList, a2), ("dx".toList, a3), ("x".toList, a4), ("X".toList, a5)] "shape".toList = some a0
    ∧ Dict.get? [("shape".toList, a0), ("lengths".toList, a1), ("_index".toList, a2), ("dx".toList, a3), ("x".toList, a4), ("X".toList, a5)] "lengths".toList = some a1
    ∧ Dict.get? [("shape".toList, a0), ("lengths".toList, a1), ("_index".toList, a2), ("dx".toList, a3), ("x".toList, a4), ("X".toList, a5)] "_index".toList = some a2
    ∧ Dict.get? [("shape".toList, a0), ("lengths".toList, a1), ("_index".toList, a2), ("dx".toList, a3), ("x".toList, a4), ("X".toList, a5)] "dx".toList = some a3
    ∧ Dict.get? [("shape".toList, a0), ("lengths".toList, a1), ("_index".toList, a2), ("dx".toList, a3), ("x".toList, a4), ("X".toList, a5)] "x".toList = some a4
    ∧ Dict.get? [("shape".toList, a0), ("lengths".toList, a1), ("_index".toList, a2), ("dx".toList, a3), ("x".toList, a4), ("X".toList, a5)] "X".toList = some a5 := by
  refine ⟨?_, ?_, ?_, ?_, ?_, ?_⟩
  · rw [Dict.get?_cons, if_pos rfl]
  · rw [Dict.get?_cons, if_neg (show ¬ ("shape".toList = "lengths".toList) by decide), Dict.get?_cons, if_pos rfl]
  · rw [Dict.get?_cons, if_neg (show ¬ ("shape".toList = "_index".toList) by decide), Dict.get?_cons, if_neg (show ¬ ("lengths".toList = "_index".toList) by decide), Dict.get?_cons, if_pos rfl]
  · rw [Dict.get?_cons, if_neg (show ¬ ("shape".toList = "dx".toList) by decide), Dict.get?_cons, if_neg (show ¬ ("lengths".toList = "dx".toList) by decide), Dict.get?_cons, if_neg (show ¬ ("_index".toList = "dx".toList) by decide), Dict.get?_cons, if_pos rfl]
  · rw [Dict.get?_cons, if_neg (show ¬ ("shape".toList = "x".toList) by decide), Dict.get?_cons, if_neg (show ¬ ("lengths".toList = "x".toList) by decide), Dict.get?_cons, if_neg (show ¬ ("_index".toList = "x".toList) by decide), Dict.get?_cons, if_neg (show ¬ ("dx".toList = "x".toList) by decide), Dict.get?_cons, if_pos rfl]
  · rw [Dict.get?_cons, if_neg (show ¬ ("shape".toList = "X".toList) by decide), Dict.get?_cons, if_neg (show ¬ ("lengths".toList = "X".toList) by decide), Dict.get?_cons, if_neg (show ¬ ("_index".toList = "X".toList) by decide), Dict.get?_cons, if_neg (show ¬ ("dx".toList = "X".toList) by decide), Dict.get?_cons, if_neg (show ¬ ("x".toList = "X".toList) by decide), Dict.get?_cons, if_pos rfl]

/-- Names of the attributes that the constructor sets for the grid. -/
def gridNames : List Str :=
  ["shape".toList, "lengths".toList, "_index".toList, "dx".toList, "x".toList, "X".toList]

/-- What a declared name should hold: the keyword value, `nan` when there is none. -/
def expected (kwargs : Dict Str (Val V)) (name : Str) : Val V := (kwargs.get? name).getD .nan

omit [Field K] [DecidableEq V] in
theorem foldl_nan_get? (declared : List Str) (obj : Dict Str (Attr K V)) (name : Str) :
    (declared.foldl (fun o n => o.set n (.val .nan)) obj).get? name
      = if name ∈ declared then some (.val .nan) else obj.get? name := by
  induction declared generalizing obj with
  | nil => simp
  | cons d ds ih =>
    rw [List.foldl_cons, ih]
    by_cases h : name ∈ ds
    · simp [h]
    · by_cases h2 : d = name
      · subst h2; simp [h]
      · have h3 : ¬ name = d := fun e => h2 e.symm
        simp [h, Dict.get?_set, h2, h3]

omit [Field K] [DecidableEq V] in
theorem foldl_kwargs_get? (declared : List Str) (kwargs : Dict Str (Val V)) (obj : Dict Str (Attr K V)) (name : Str)
    (hk : kwargs.keys.Nodup) :
    (kwargs.foldl (fun o kv => if kv.1 ∈ declared then o.set kv.1 (.val kv.2) else o) obj).get? name
      = if name ∈ declared then ((kwargs.get? name).map Attr.val).or (obj.get? name) else obj.get? name := by
  induction kwargs generalizing obj with
  | nil => simp
  | cons kv kwargs ih =>
    obtain ⟨a, b⟩ := kv
    simp only [Dict.keys, List.map_cons, List.nodup_cons] at hk
    rw [List.foldl_cons, ih _ hk.2, Dict.get?_cons]
    by_cases hd : a ∈ declared
    · simp only [hd, if_true, Dict.get?_set]
      by_cases hn : a = name
      · subst hn
        have : Dict.get? kwargs a = none := (Dict.get?_eq_none_iff _ _).2 hk.1
        simp [hd, this]
      · simp [hn]
    · simp only [hd, if_false]
      by_cases hn : a = name
      · subst hn; simp [hd]
      · simp [hn]

omit [Field K] [DecidableEq V] in
theorem setDeclared_get? (declared : List Str) (kwargs : Dict Str (Val V)) (obj : Dict Str (Attr K V)) (name : Str)
    (hk : kwargs.keys.Nodup) :
    (setDeclared declared kwargs obj).get? name
      = if name ∈ declared then some (.val (expected kwargs name)) else obj.get? name := by
  unfold setDeclared expected
  rw [foldl_kwargs_get? declared kwargs _ name hk, foldl_nan_get?]
  by_cases h : name ∈ declared
  · simp only [h, if_true]
    cases kwargs.get? name <;> simp
  · simp [h]

omit [Field K] in
theorem warnings_setDeclared (declared : List Str) (kwargs : Dict Str (Val V)) (obj : Dict Str (Attr K V))
    (hk : kwargs.keys.Nodup) :
    warnings declared (setDeclared declared kwargs obj) = declared.filter (fun n => expected kwargs n = .nan) := by
  unfold warnings
  refine List.filter_congr (fun n hn => ?_)
  rw [setDeclared_get? declared kwargs obj n hk, if_pos hn]
  cases expected kwargs n <;> simp

theorem gridSteps_ok (ls : List K) (ns : List ℕ) (h0 : 0 ∉ ns) :
    gridSteps ls ns = .ok (List.zipWith (fun l (n : ℕ) => l / (n : K)) ls ns) := by
  induction ls generalizing ns with
  | nil => rfl
  | cons l ls ih =>
    cases ns with
    | nil => rfl
    | cons n ns =>
      simp only [List.mem_cons, not_or] at h0
      unfold gridSteps
      rw [if_neg (fun e => h0.1 e.symm), ih ns h0.2]
      rfl

theorem gridSteps_zero (ls : List K) (ns : List ℕ) (hl : ls.length = ns.length) (h0 : 0 ∈ ns) :
    gridSteps ls ns = .error .zeroDivisionError := by
  induction ls generalizing ns with
  | nil => cases ns <;> simp_all
  | cons l ls ih =>
    cases ns with
    | nil => simp at hl
    | cons n ns =>
      unfold gridSteps
      by_cases hn : n = 0
      · simp [hn]
      · rw [if_neg hn, ih ns (by simpa using hl) (by simpa [eq_comm, hn] using h0)]
        rfl

theorem gridPoints_ok (cs : List Str) (ns : List ℕ) (st : IndexState) (hs : List K)
    (h : TableOK st.coordinates st.shape st.table)
    (hpos : ∀ i (hi : i < cs.length), ∃ k, st.coordinates.idxOf? cs[i] = some k ∧ st.shape[k]? = ns[i]?)
    (hl : cs.length = ns.length) (hl2 : hs.length = ns.length) :
    gridPoints st cs hs = .ok (List.zipWith (fun (n : ℕ) (h : K) => (List.range n).map (fun i : ℕ => (i : K) * h)) ns hs) := by
  induction cs generalizing ns st hs with
  | nil => cases ns <;> simp_all [gridPoints]
  | cons c cs ih =>
    cases ns with
    | nil => simp at hl
    | cons n ns =>
      cases hs with
      | nil => simp at hl2
      | cons d hs =>
        obtain ⟨k, hk, hk'⟩ := hpos 0 (by simp)
        simp only [List.getElem_cons_zero, List.getElem?_cons_zero] at hk hk'
        obtain ⟨st', he, h1, h2, h3⟩ := index_ok h hk hk' 0
        unfold gridPoints
        rw [he]
        simp only [bind, Except.bind]
        rw [ih ns st' hs h3 ?_ (by simpa using hl) (by simpa using hl2)]
        · simp only [List.zipWith_cons_cons, pure, Except.pure]
          rw [← arange_eq]
          unfold arange
          rw [List.map_map]
          congr 2
          refine List.map_congr_left (fun i _ => ?_)
          simp
        · intro i hi
          obtain ⟨k, hk, hk'⟩ := hpos (i + 1) (by simpa using hi)
          exact ⟨k, by rw [h1]; simpa using hk, by rw [h2]; simpa using hk'⟩

/-- The points of the grid: `i * dx` for `i < n`. -/
def linePoints (n : ℕ) (h : K) : List K := (List.range n).map (fun i : ℕ => (i : K) * h)

/-- The grid attributes before constants are set. -/
theorem gridPoints_init (cs : List Str) (ns : List ℕ) (hs : List K) (hn : cs.Nodup) (hl : cs.length = ns.length)
    (hl2 : hs.length = ns.length) :
    gridPoints ⟨cs, ns, initTable cs ns⟩ cs hs = .ok (List.zipWith linePoints ns hs) := by
  refine gridPoints_ok cs ns ⟨cs, ns, initTable cs ns⟩ hs (initTable_ok cs ns hn) ?_ hl hl2
  intro i hi
  refine ⟨i, ?_, rfl⟩
  rw [List.idxOf?_eq_some_iff]
  refine ⟨hi, by simp, ?_⟩
  intro j hj he
  have := (List.Nodup.getElem_inj_iff hn).1 he
  omega

/-- Arguments after the defaults of the constructor are filled in. -/
def fullShape (cls : FDClass) (shape : Option (List ℕ)) : List ℕ :=
  shape.getD (List.replicate cls.coordinates.length 100)
/-- Arguments after the defaults of the constructor are filled in. -/
def fullLengths (cls : FDClass) (lengths : Option (List K)) : List K :=
  lengths.getD (List.replicate cls.coordinates.length 1)

/-- C25: `ValueError` is raised exactly when `shape` or `lengths` does not have one entry per coordinate
(`super().__init__` being successful). -/
theorem C25_valueError_iff (cls : FDClass) (shape : Option (List ℕ)) (lengths : Option (List K))
    (kwargs : Dict Str (Val V)) (hn : cls.coordinates.Nodup) :
    construct cls (.ok ()) shape lengths kwargs = .error .valueError ↔
      ((fullShape cls shape).length ≠ cls.coordinates.length ∨ (fullLengths cls lengths).length ≠ cls.coordinates.length) := by
  unfold construct fullShape fullLengths
  simp only [bind, Except.bind]
  generalize Option.getD shape _ = ns
  generalize Option.getD lengths _ = ls
  by_cases h1 : ns.length = cls.coordinates.length
  · by_cases h2 : ls.length = cls.coordinates.length
    · simp only [h1, h2, ne_eq, not_true_eq_false, if_false, or_self, iff_false]
      by_cases h0 : 0 ∈ ns
      · rw [gridSteps_zero ls ns (by rw [h1, h2]) h0]; simp
      · rw [gridSteps_ok ls ns h0]
        simp only
        rw [gridPoints_init cls.coordinates ns _ hn h1.symm (by simp [h1, h2])]
        simp [pure, Except.pure]
    · simp [h1, h2]
  · simp [h1]

/-- C25: a zero in the shape (of the right length) is the only other failure. -/
theorem C25_zero_shape (cls : FDClass) (shape : Option (List ℕ)) (lengths : Option (List K)) (kwargs : Dict Str (Val V))
    (h1 : (fullShape cls shape).length = cls.coordinates.length)
    (h2 : (fullLengths cls lengths).length = cls.coordinates.length) (h0 : 0 ∈ fullShape cls shape) :
    construct cls (.ok ()) shape lengths kwargs = .error .zeroDivisionError := by
  unfold construct
  unfold fullShape at h1 h0; unfold fullLengths at h2
  simp only [bind, Except.bind, h1, h2, ne_eq, not_true_eq_false, if_false]
  rw [gridSteps_zero _ _ (by rw [h1, h2]) h0]

/-- C25 (grid), partial: in every other case the constructor succeeds; `dx[k]*shape[k] = lengths[k]`, and `x[k]` has `shape[k]`
points, the i-th being `i*dx[k]`.  The declared names must not be those of the grid attributes (see
`C25_counterexample_reserved`). -/
theorem C25_grid_partial [CharZero K] (cls : FDClass) (shape : Option (List ℕ)) (lengths : Option (List K))
    (kwargs : Dict Str (Val V)) (hn : cls.coordinates.Nodup) (hk : kwargs.keys.Nodup)
    (h1 : (fullShape cls shape).length = cls.coordinates.length)
    (h2 : (fullLengths cls lengths).length = cls.coordinates.length) (h0 : 0 ∉ fullShape cls shape)
    (hf : ∀ a ∈ gridNames, a ∉ cls.constantFunctions) (hc : ∀ a ∈ gridNames, a ∉ cls.constants) :
    ∃ obj warn dx x, construct cls (.ok ()) shape lengths kwargs = .ok (obj, warn)
      ∧ obj.get? "shape".toList = some (.shape (fullShape cls shape))
      ∧ obj.get? "lengths".toList = some (.lengths (fullLengths cls lengths))
      ∧ obj.get? "dx".toList = some (.dx dx) ∧ obj.get? "x".toList = some (.x x)
      ∧ dx.length = cls.coordinates.length ∧ x.length = cls.coordinates.length
      ∧ ∀ k, k < cls.coordinates.length → ∃ n l h p, (fullShape cls shape)[k]? = some n ∧ (fullLengths cls lengths)[k]? = some l
          ∧ dx[k]? = some h ∧ x[k]? = some p
          ∧ h * (n : K) = l ∧ p.length = n ∧ ∀ i, i < n → p[i]? = some ((i : K) * h) := by
  unfold construct
  have e1 : shape.getD (List.replicate cls.coordinates.length 100) = fullShape cls shape := rfl
  have e2 : lengths.getD (List.replicate cls.coordinates.length 1) = fullLengths cls lengths := rfl
  rw [e1, e2]
  generalize fullShape cls shape = ns at *
  generalize fullLengths cls lengths = ls at *
  simp only [bind, Except.bind, h1, h2, ne_eq, not_true_eq_false, if_false]
  rw [gridSteps_ok ls ns h0]
  dsimp only
  rw [gridPoints_init cls.coordinates ns _ hn h1.symm (by simp [h1, h2])]
  simp only [pure, Except.pure]
  refine ⟨_, _, List.zipWith (fun l (n : ℕ) => l / (n : K)) ls ns,
    List.zipWith linePoints ns (List.zipWith (fun l (n : ℕ) => l / (n : K)) ls ns), rfl, ?_, ?_, ?_, ?_, by simp [h1, h2],
    by simp [h1, h2], ?_⟩
  · rw [setDeclared_get? _ _ _ _ hk, if_neg (hc _ (by decide)), setDeclared_get? _ _ _ _ hk, if_neg (hf _ (by decide))]
    exact (gridObj_get? _ _ _ _ _ _).1
  · rw [setDeclared_get? _ _ _ _ hk, if_neg (hc _ (by decide)), setDeclared_get? _ _ _ _ hk, if_neg (hf _ (by decide))]
    exact (gridObj_get? _ _ _ _ _ _).2.1
  · rw [setDeclared_get? _ _ _ _ hk, if_neg (hc _ (by decide)), setDeclared_get? _ _ _ _ hk, if_neg (hf _ (by decide))]
    exact (gridObj_get? _ _ _ _ _ _).2.2.2.1
  · rw [setDeclared_get? _ _ _ _ hk, if_neg (hc _ (by decide)), setDeclared_get? _ _ _ _ hk, if_neg (hf _ (by decide))]
    exact (gridObj_get? _ _ _ _ _ _).2.2.2.2.1
  · intro k hk
    have hkn : k < ns.length := by omega
    have hkl : k < ls.length := by omega
    have hne : (ns[k] : K) ≠ 0 := by
      rw [Nat.cast_ne_zero]
      intro h; exact h0 (h ▸ List.getElem_mem hkn)
    refine ⟨ns[k], ls[k], ls[k] / (ns[k] : K), linePoints ns[k] (ls[k] / (ns[k] : K)), List.getElem?_eq_getElem hkn, List.getElem?_eq_getElem hkl, ?_, ?_,
      ?_, by simp [linePoints], ?_⟩
    · rw [List.getElem?_eq_getElem (by simp; omega)]; simp
    · rw [List.getElem?_eq_getElem (by simp; omega)]; simp
    · field_simp
    · intro i hi
      simp [linePoints, hi]

/-- C25 (constants): every declared constant or constant function holds the keyword value when one is given and `nan`
otherwise; the warnings are the declared names left at `nan`. -/
theorem C25_constants (cls : FDClass) (shape : Option (List ℕ)) (lengths : Option (List K)) (kwargs : Dict Str (Val V))
    (hk : kwargs.keys.Nodup) (obj : Dict Str (Attr K V)) (warn : List Str)
    (he : construct cls (.ok ()) shape lengths kwargs = .ok (obj, warn)) :
    (∀ name, name ∈ cls.constantFunctions ∨ name ∈ cls.constants →
      obj.get? name = some (.val ((kwargs.get? name).getD .nan)))
    ∧ (∀ name, name ∉ cls.constantFunctions → name ∉ cls.constants → name ∉ gridNames → obj.get? name = none)
    ∧ (∀ name, name ∈ warn ↔ (name ∈ cls.constantFunctions ∨ name ∈ cls.constants)
        ∧ (kwargs.get? name = none ∨ kwargs.get? name = some .nan)) := by
  unfold construct at he
  simp only [bind, Except.bind] at he
  split_ifs at he
  revert he
  cases gridSteps (Option.getD lengths _) (Option.getD shape _) with
  | error e => intro he; simp at he
  | ok dx =>
    simp only
    cases gridPoints _ _ dx with
    | error e => intro he; simp at he
    | ok x =>
      intro he
      simp only [pure, Except.pure, Except.ok.injEq, Prod.mk.injEq] at he
      obtain ⟨rfl, rfl⟩ := he
      refine ⟨?_, ?_, ?_⟩
      · intro name hm
        rw [setDeclared_get? _ _ _ _ hk, setDeclared_get? _ _ _ _ hk]
        by_cases h : name ∈ cls.constants
        · rw [if_pos h]; rfl
        · rw [if_neg h, if_pos (hm.resolve_right h)]; rfl
      · intro name h1 h2 h3
        rw [setDeclared_get? _ _ _ _ hk, setDeclared_get? _ _ _ _ hk, if_neg h2, if_neg h1, Dict.get?_eq_none_iff]
        exact h3
      · intro name
        rw [List.mem_append, warnings_setDeclared _ _ _ hk, warnings_setDeclared _ _ _ hk]
        simp only [List.mem_filter, decide_eq_true_eq]
        have : expected kwargs name = .nan ↔ (kwargs.get? name = none ∨ kwargs.get? name = some .nan) := by
          unfold expected
          cases kwargs.get? name <;> simp
        rw [this]; tauto

/-- A two-dimensional class with a constant function and two constants. -/
def demoClass : FDClass := ⟨["x".toList, "y".toList], ["c".toList], ["kappa".toList, "nu".toList]⟩

/-- Non-vacuity: the hypotheses of `C25_grid_partial` and `C25_constants` hold for a 2D class and the outcome is as expected. -/
example : ∃ obj : Dict Str (Attr ℚ ℕ), construct demoClass (.ok ()) (some [4, 2]) (some [1, 3])
      [("nu".toList, Val.obj 7), ("other".toList, Val.obj 8)] = .ok (obj, ["c".toList, "kappa".toList])
    ∧ obj.get? "nu".toList = some (.val (.obj 7)) ∧ obj.get? "kappa".toList = some (.val .nan)
    ∧ obj.get? "other".toList = none := by
  obtain ⟨obj, warn, dx, x, he, -⟩ := C25_grid_partial (K := ℚ) (V := ℕ) demoClass (some [4, 2]) (some [1, 3])
      [("nu".toList, Val.obj 7), ("other".toList, Val.obj 8)] (by decide) (by decide) rfl rfl (by decide) (by decide) (by decide)
  have hw : warn = ["c".toList, "kappa".toList] := by
    have h2 := he
    unfold construct at h2
    simp only [bind, Except.bind] at h2
    split_ifs at h2
    revert h2
    cases gridSteps (K := ℚ) _ _ with
    | error e => intro h2; simp at h2
    | ok dx =>
      simp only
      cases gridPoints _ _ dx with
      | error e => intro h2; simp at h2
      | ok x =>
        intro h2
        simp only [pure, Except.pure, Except.ok.injEq, Prod.mk.injEq] at h2
        rw [← h2.2, warnings_setDeclared _ _ _ (by decide), warnings_setDeclared _ _ _ (by decide)]
        decide
  subst hw
  obtain ⟨h1, h2, -⟩ := C25_constants demoClass _ _ _ (by decide) obj _ he
  exact ⟨obj, he, h1 "nu".toList (by decide), h1 "kappa".toList (by decide), h2 "other".toList (by decide) (by decide) (by decide)⟩

/-- C25, limitation: a constant named `dx` replaces the grid step. -/
theorem C25_counterexample_reserved (cls : FDClass) (shape : Option (List ℕ)) (lengths : Option (List K))
    (kwargs : Dict Str (Val V)) (hk : kwargs.keys.Nodup) (hc : "dx".toList ∈ cls.constants)
    (obj : Dict Str (Attr K V)) (warn : List Str)
    (he : construct cls (.ok ()) shape lengths kwargs = .ok (obj, warn)) (l : List K) :
    obj.get? "dx".toList ≠ some (.dx l) := by
  rw [(C25_constants cls shape lengths kwargs hk obj warn he).1 _ (Or.inr hc)]
  simp

/-! ## C26 -/

/-- `idx` is an index of an array of shape `shape`. -/
def InShape (idx shape : List ℕ) : Prop := List.Forall₂ (· < ·) idx shape

/-- What a mesh should be: one array per coordinate, of the shape of the grid, whose entry at `(i₀,i₁,…)` is the
coordinate `i_k * dx_k`. -/
def IsMesh (shape : List ℕ) (dx : List K) (X : List (NdArray K)) : Prop :=
  X.length = shape.length ∧ ∀ k (hk : k < X.length) (hd : k < dx.length),
    X[k].shape = shape ∧ ∀ idx, InShape idx shape → ∃ i, idx[k]? = some i ∧ X[k].entry idx = (i : K) * dx[k]

/-- The same with the first two axes exchanged: what the constructor really builds. -/
def IsMeshXY (shape : List ℕ) (dx : List K) (X : List (NdArray K)) : Prop :=
  X.length = shape.length ∧ ∀ k (hk : k < X.length) (hd : k < dx.length),
    X[k].shape = swap01 shape
    ∧ ∀ idx, InShape idx shape → ∃ i, idx[k]? = some i ∧ X[k].entry (swap01 idx) = (i : K) * dx[k]

theorem swap01_swap01 {α : Type} (l : List α) : swap01 (swap01 l) = l := by
  rcases l with _ | ⟨a, _ | ⟨b, l⟩⟩ <;> rfl

/-- The attributes set by a successful construction. -/
theorem construct_X [CharZero K] (cls : FDClass) (shape : Option (List ℕ)) (lengths : Option (List K))
    (kwargs : Dict Str (Val V)) (hn : cls.coordinates.Nodup) (hk : kwargs.keys.Nodup)
    (h1 : (fullShape cls shape).length = cls.coordinates.length)
    (h2 : (fullLengths cls lengths).length = cls.coordinates.length) (h0 : 0 ∉ fullShape cls shape)
    (hf : ∀ a ∈ gridNames, a ∉ cls.constantFunctions) (hc : ∀ a ∈ gridNames, a ∉ cls.constants) :
    ∃ obj warn dx X, construct cls (.ok ()) shape lengths kwargs = .ok (obj, warn)
      ∧ obj.get? "dx".toList = some (.dx dx) ∧ obj.get? "X".toList = some (.mesh X)
      ∧ dx.length = (fullShape cls shape).length ∧ IsMeshXY (fullShape cls shape) dx X := by
  unfold construct
  have e1 : shape.getD (List.replicate cls.coordinates.length 100) = fullShape cls shape := rfl
  have e2 : lengths.getD (List.replicate cls.coordinates.length 1) = fullLengths cls lengths := rfl
  rw [e1, e2]
  generalize fullShape cls shape = ns at *
  generalize fullLengths cls lengths = ls at *
  simp only [bind, Except.bind, h1, h2, ne_eq, not_true_eq_false, if_false]
  rw [gridSteps_ok ls ns h0]
  dsimp only
  rw [gridPoints_init cls.coordinates ns _ hn h1.symm (by simp [h1, h2])]
  simp only [pure, Except.pure]
  have hdl : (List.zipWith (fun l (n : ℕ) => l / (n : K)) ls ns).length = ns.length := by simp [h1, h2]
  generalize List.zipWith (fun l (n : ℕ) => l / (n : K)) ls ns = dx at *
  refine ⟨_, _, dx, (letI : Inhabited K := ⟨0⟩; meshgrid (List.zipWith linePoints ns dx)), rfl, ?_, ?_, by omega, ?_⟩
  · rw [setDeclared_get? _ _ _ _ hk, if_neg (hc _ (by decide)), setDeclared_get? _ _ _ _ hk, if_neg (hf _ (by decide))]
    exact (gridObj_get? _ _ _ _ _ _).2.2.2.1
  · rw [setDeclared_get? _ _ _ _ hk, if_neg (hc _ (by decide)), setDeclared_get? _ _ _ _ hk, if_neg (hf _ (by decide))]
    exact (gridObj_get? _ _ _ _ _ _).2.2.2.2.2
  · refine ⟨by simp [meshgrid, hdl], ?_⟩
    intro k hk hd
    have hkn : k < ns.length := by omega
    have hlen : (List.zipWith linePoints ns dx).map List.length = ns := by
      refine List.ext_getElem (by simp [hdl]) (fun i h h' => ?_)
      simp [linePoints]
    refine ⟨by simp only [meshgrid, List.getElem_map, hlen], ?_⟩
    intro idx hidx
    have hil : idx.length = ns.length := hidx.length_eq
    refine ⟨idx[k]'(by omega), List.getElem?_eq_getElem _, ?_⟩
    simp only [meshgrid, List.getElem_map, List.getElem_range, swap01_swap01]
    have hlt : idx[k]'(by omega) < ns[k] := List.Forall₂.get hidx (by omega) hkn
    have e3 : (List.zipWith linePoints ns dx).getD k [] = linePoints ns[k] dx[k] := by
      rw [List.getD_eq_getElem?_getD, List.getElem?_eq_getElem (by simp; omega)]; simp
    have e4 : idx.getD k 0 = idx[k]'(by omega) := by
      rw [List.getD_eq_getElem?_getD, List.getElem?_eq_getElem (by omega)]; rfl
    rw [e3, e4, List.getD_eq_getElem?_getD]
    simp [linePoints, hlt]

/-- C26, partial: proved for models with one coordinate.  For two or more coordinates the property is false:
`np.meshgrid` uses `indexing='xy'`, and `C26_mesh_transposed` says what holds. -/
theorem C26_mesh_partial [CharZero K] (cls : FDClass) (shape : Option (List ℕ)) (lengths : Option (List K))
    (kwargs : Dict Str (Val V)) (hn : cls.coordinates.Nodup) (hk : kwargs.keys.Nodup)
    (h1 : (fullShape cls shape).length = cls.coordinates.length)
    (h2 : (fullLengths cls lengths).length = cls.coordinates.length) (h0 : 0 ∉ fullShape cls shape)
    (hf : ∀ a ∈ gridNames, a ∉ cls.constantFunctions) (hc : ∀ a ∈ gridNames, a ∉ cls.constants)
    (hone : cls.coordinates.length ≤ 1) :
    ∃ obj warn dx X, construct cls (.ok ()) shape lengths kwargs = .ok (obj, warn)
      ∧ obj.get? "dx".toList = some (.dx dx) ∧ obj.get? "X".toList = some (.mesh X)
      ∧ dx.length = (fullShape cls shape).length ∧ IsMesh (fullShape cls shape) dx X := by
  obtain ⟨obj, warn, dx, X, he, h3, h4, h5, h6⟩ := construct_X cls shape lengths kwargs hn hk h1 h2 h0 hf hc
  refine ⟨obj, warn, dx, X, he, h3, h4, h5, h6.1, fun k hk hd => ?_⟩
  have hs : ∀ l : List ℕ, l.length ≤ 1 → swap01 l = l := by
    intro l hl
    rcases l with _ | ⟨a, _ | ⟨b, l⟩⟩
    · rfl
    · rfl
    · simp at hl
  obtain ⟨h7, h8⟩ := h6.2 k hk hd
  refine ⟨by rw [h7, hs _ (by omega)], fun idx hidx => ?_⟩
  obtain ⟨i, hi, hx⟩ := h8 idx hidx
  rw [hs idx (by rw [hidx.length_eq]; omega)] at hx
  exact ⟨i, hi, hx⟩

/-- C26, what holds for any number of coordinates: the mesh arrays have their first two axes exchanged. -/
theorem C26_mesh_transposed [CharZero K] (cls : FDClass) (shape : Option (List ℕ)) (lengths : Option (List K))
    (kwargs : Dict Str (Val V)) (hn : cls.coordinates.Nodup) (hk : kwargs.keys.Nodup)
    (h1 : (fullShape cls shape).length = cls.coordinates.length)
    (h2 : (fullLengths cls lengths).length = cls.coordinates.length) (h0 : 0 ∉ fullShape cls shape)
    (hf : ∀ a ∈ gridNames, a ∉ cls.constantFunctions) (hc : ∀ a ∈ gridNames, a ∉ cls.constants) :
    ∃ obj warn dx X, construct cls (.ok ()) shape lengths kwargs = .ok (obj, warn)
      ∧ obj.get? "dx".toList = some (.dx dx) ∧ obj.get? "X".toList = some (.mesh X)
      ∧ dx.length = (fullShape cls shape).length ∧ IsMeshXY (fullShape cls shape) dx X :=
  construct_X cls shape lengths kwargs hn hk h1 h2 h0 hf hc

/-- With two coordinates and different numbers of points no exchanged mesh array has the shape of the state
arrays; with equal numbers of points (at least two) and a non-zero step the values are transposed. -/
theorem not_isMesh_of_isMeshXY (n m : ℕ) (dx : List K) (X : List (NdArray K)) (hd : dx.length = 2)
    (hX : IsMeshXY [n, m] dx X) (h : n ≠ m ∨ (2 ≤ n ∧ dx[0] ≠ 0)) : ¬ IsMesh [n, m] dx X := by
  rintro ⟨h1, h2⟩
  have hl : 0 < X.length := by rw [h1]; simp
  obtain ⟨a1, a2⟩ := h2 0 hl (by omega)
  obtain ⟨b1, b2⟩ := hX.2 0 hl (by omega)
  rw [a1] at b1
  simp only [swap01, List.cons.injEq, and_true] at b1
  rcases h with h | ⟨h3, h4⟩
  · exact h b1.1
  · obtain ⟨i, hi, e1⟩ := a2 [0, 1] (by simp [InShape]; omega)
    obtain ⟨j, hj, e2⟩ := b2 [1, 0] (by simp [InShape]; omega)
    simp only [List.getElem?_cons_zero, Option.some.injEq] at hi hj
    subst hi hj
    simp only [swap01] at e2
    rw [e1] at e2
    simp only [Nat.cast_zero, zero_mul, Nat.cast_one, one_mul] at e2
    exact h4 e2.symm

/-- C26, counterexample: every generated model with two coordinates and different numbers of points builds a mesh that is not
the mesh of its grid. -/
theorem C26_counterexample_two_coordinates [CharZero K] (cls : FDClass) (n m : ℕ) (lengths : Option (List K))
    (kwargs : Dict Str (Val V)) (hn : cls.coordinates.Nodup) (hk : kwargs.keys.Nodup) (h1 : cls.coordinates.length = 2)
    (h2 : (fullLengths cls lengths).length = 2) (hn0 : n ≠ 0) (hm0 : m ≠ 0) (hnm : n ≠ m)
    (hf : ∀ a ∈ gridNames, a ∉ cls.constantFunctions) (hc : ∀ a ∈ gridNames, a ∉ cls.constants) :
    ∃ obj warn dx X, construct cls (.ok ()) (some [n, m]) lengths kwargs = .ok (obj, warn)
      ∧ obj.get? "dx".toList = some (.dx dx) ∧ obj.get? "X".toList = some (.mesh X) ∧ ¬ IsMesh [n, m] dx X := by
  obtain ⟨obj, warn, dx, X, he, h3, h4, h5, h6⟩ := C26_mesh_transposed cls (some [n, m]) lengths kwargs hn hk
    (by rw [h1]; rfl) (by rw [h1, h2]) (by simp [fullShape, hn0.symm, hm0.symm]) hf hc
  exact ⟨obj, warn, dx, X, he, h3, h4, not_isMesh_of_isMeshXY n m dx X h5 h6 (Or.inl hnm)⟩

/-- Non-vacuity: a one-dimensional model meets the hypotheses of `C26_mesh_partial`, the 2D `demoClass` those of
`C26_mesh_transposed` and of the counterexample. -/
example : ∃ obj warn dx X, construct (K := ℚ) (V := ℕ) ⟨["x".toList], [], ["kappa".toList]⟩ (.ok ()) (some [5]) none [] = .ok (obj, warn)
    ∧ obj.get? "dx".toList = some (.dx dx) ∧ obj.get? "X".toList = some (.mesh X)
    ∧ dx.length = 1 ∧ IsMesh [5] dx X :=
  C26_mesh_partial ⟨["x".toList], [], ["kappa".toList]⟩ (some [5]) none [] (by decide) (by decide) rfl rfl (by decide)
    (by decide) (by decide) (by decide)

example : ∃ obj warn dx X, construct (K := ℚ) (V := ℕ) demoClass (.ok ()) (some [4, 2]) none [] = .ok (obj, warn)
    ∧ obj.get? "dx".toList = some (.dx dx) ∧ obj.get? "X".toList = some (.mesh X) ∧ ¬ IsMesh [4, 2] dx X :=
  C26_counterexample_two_coordinates demoClass 4 2 none [] (by decide) (by decide) rfl rfl (by decide) (by decide) (by decide)
    (by decide) (by decide)

end Sympkf.FD
