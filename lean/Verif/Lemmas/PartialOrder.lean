import Mathlib.Algebra.BigOperators.Group.List.Basic
import Mathlib.Algebra.Order.BigOperators.Group.List
import Mathlib.Algebra.Order.Ring.Int
import Mathlib.Data.Nat.Choose.Basic
import Mathlib.Tactic.Ring
import Mathlib.Data.List.Nodup
import Mathlib.Data.List.NodupEquivFin
import Verif.Spec.MultiIndex

/-!
# Lemmas on partial orders
-/

set_option autoImplicit false

namespace Sympkf.POD

open Text Spec

theorem mapM_some_iff {α β : Type} (f : α → Option β) (l : List α) (r : List β) :
    l.mapM f = some r ↔ List.Forall₂ (fun a b => f a = some b) l r := by
  induction l generalizing r with
  | nil => cases r <;> simp
  | cons a l ih =>
    rw [List.mapM_cons]
    cases h : f a with
    | none => simp [List.forall₂_cons_left_iff, h]
    | some b =>
      cases h2 : l.mapM f with
      | none =>
        simp only [Option.bind_eq_bind, Option.bind_some, Option.bind_none]
        constructor
        · intro hh; cases hh
        · intro hh
          cases hh with
          | cons h3 h4 => exact absurd ((ih _).2 h4) (by rw [h2]; simp)
      | some l' =>
        simp only [Option.bind_eq_bind, Option.bind_some, Option.pure_def, Option.some.injEq]
        constructor
        · rintro rfl; exact .cons h ((ih _).1 h2)
        · intro hh
          cases hh with
          | cons h3 h4 =>
            have := (ih _).2 h4
            rw [h2] at this
            rw [h] at h3
            cases this; cases h3; rfl

theorem asInt_eq (i : Item) (n : ℤ) : i.asInt = some n ↔ i = .atom (.int n) := by
  unfold Item.asInt; split <;> simp_all

theorem asCoord_eq (coords : List Str) (i : Item) (s : Str) :
    i.asCoord coords = some s ↔ i = .atom (.sym s) ∧ s ∈ coords := by
  unfold Item.asCoord
  split
  · rename_i t
    split
    · constructor
      · intro h; cases h; exact ⟨rfl, by assumption⟩
      · rintro ⟨h, _⟩; cases h; rfl
    · constructor
      · intro h; cases h
      · rintro ⟨h, h2⟩; cases h; contradiction
  · rename_i h
    constructor
    · intro h; cases h
    · rintro ⟨rfl, _⟩; exact absurd rfl (h s)

theorem itemCouple_eq (coords : List Str) (i : Item) (c : Str × ℤ) :
    itemCouple coords i = some c ↔ i = .tup [.sym c.1, .int c.2] ∧ c.1 ∈ coords := by
  unfold itemCouple
  split
  · rename_i s n
    split
    · constructor
      · intro h; cases h; exact ⟨rfl, by assumption⟩
      · rintro ⟨h, _⟩; cases c; cases h; rfl
    · constructor
      · intro h; cases h
      · rintro ⟨h, h2⟩; cases c; cases h; contradiction
  · rename_i h
    constructor
    · intro h; cases h
    · rintro ⟨rfl, _⟩; exact absurd rfl (h _ _)

theorem forall2_map_iff {α β : Type} (P : α → β → Prop) (g : β → α) (Q : β → Prop)
    (h : ∀ a b, P a b ↔ a = g b ∧ Q b) (l : List α) (r : List β) :
    List.Forall₂ P l r ↔ l = r.map g ∧ ∀ b ∈ r, Q b := by
  induction r generalizing l with
  | nil => cases l <;> simp
  | cons b r ih =>
    cases l with
    | nil => simp
    | cons a l => simp [List.forall₂_cons, ih, h]; tauto

theorem mapM_asInt (l : List Item) (r : List ℤ) :
    l.mapM Item.asInt = some r ↔ l = r.map (fun n => .atom (.int n)) := by
  rw [mapM_some_iff, forall2_map_iff _ (fun n => Item.atom (.int n)) (fun _ => True)]
  · simp
  · intro a b; simp [asInt_eq]

theorem mapM_asCoord (coords : List Str) (l : List Item) (r : List Str) :
    l.mapM (Item.asCoord coords) = some r ↔ l = r.map (fun n => .atom (.sym n)) ∧ ∀ x ∈ r, x ∈ coords := by
  rw [mapM_some_iff, forall2_map_iff _ (fun n => Item.atom (.sym n)) (fun x => x ∈ coords)]
  intro a b; exact asCoord_eq _ _ _

theorem mapM_itemCouple (coords : List Str) (l : List Item) (r : List (Str × ℤ)) :
    l.mapM (itemCouple coords) = some r ↔
      l = r.map (fun c => .tup [.sym c.1, .int c.2]) ∧ ∀ c ∈ r, c.1 ∈ coords := by
  rw [mapM_some_iff, forall2_map_iff _ (fun c : Str × ℤ => Item.tup [.sym c.1, .int c.2]) (fun c => c.1 ∈ coords)]
  intro a b; exact itemCouple_eq _ _ _

theorem asTuple_eq (coords : List Str) (p : PArg) (t : List ℤ) :
    asTuple coords p = some t ↔ p = .tuple (t.map (fun n => .atom (.int n))) ∧ t.length = coords.length := by
  cases p with
  | tuple l =>
    unfold asTuple
    simp only [PArg.tuple.injEq]
    split
    · rename_i h
      constructor
      · intro h; cases h
      · rintro ⟨rfl, h2⟩; simp_all
    · rename_i h
      rw [mapM_asInt]
      constructor
      · rintro rfl; simp_all
      · rintro ⟨rfl, _⟩; rfl
  | list l => simp [asTuple]
  | scalar a => simp [asTuple]

theorem asCouples_eq (coords : List Str) (p : PArg) (c : List (Str × ℤ)) :
    asCouples coords p = some c ↔
      (∃ x n, p = .tuple [.atom (.sym x), .atom (.int n)] ∧ x ∈ coords ∧ c = [(x, n)]) ∨
      (c ≠ [] ∧ p = .list (c.map (fun c => .tup [.sym c.1, .int c.2])) ∧ ∀ d ∈ c, d.1 ∈ coords) := by
  unfold asCouples
  split
  · rename_i a b
    constructor
    · intro h
      cases ha : a.asCoord coords with
      | none => rw [ha] at h; cases h
      | some s =>
        cases hb : b.asInt with
        | none => rw [ha, hb] at h; cases h
        | some n =>
          rw [ha, hb] at h
          obtain ⟨rfl, hs⟩ := (asCoord_eq _ _ _).1 ha
          obtain rfl := (asInt_eq _ _).1 hb
          cases h
          exact .inl ⟨s, n, rfl, hs, rfl⟩
    · rintro (⟨x, n, h, hx, rfl⟩ | ⟨_, h, _⟩)
      · cases h
        rw [(asCoord_eq _ _ _).2 ⟨rfl, hx⟩, (asInt_eq _ _).2 rfl]; rfl
      · cases h
  · rename_i l h
    constructor
    · intro h; cases h
    · rintro (⟨x, n, h2, hx, rfl⟩ | ⟨_, h, _⟩)
      · cases h2; exact absurd rfl (h _ _)
      · cases h
  · constructor
    · intro h; cases h
    · rintro (⟨x, n, h2, hx, rfl⟩ | ⟨h0, h, _⟩)
      · cases h2
      · simp at h; exact absurd h h0
  · rename_i l h0
    rw [mapM_itemCouple]
    constructor
    · rintro ⟨rfl, h⟩
      refine .inr ⟨?_, rfl, h⟩
      rintro rfl; simp at h0
    · rintro (⟨x, n, h2, hx, rfl⟩ | ⟨h0, h, h3⟩)
      · cases h2
      · cases h; exact ⟨rfl, h3⟩
  · constructor
    · intro h; cases h
    · rintro (⟨x, n, h2, hx, rfl⟩ | ⟨h0, h, _⟩)
      · cases h2
      · cases h

theorem asSequence_eq (coords : List Str) (p : PArg) (s : List Str) :
    asSequence coords p = some s ↔
      (p = .list (s.map (fun x => .atom (.sym x))) ∨ p = .tuple (s.map (fun x => .atom (.sym x)))) ∧
        ∀ x ∈ s, x ∈ coords := by
  cases p <;> simp [asSequence, mapM_asCoord]

/-- The list built from couples. -/
theorem setFromCouples_fold (coords : List Str) (hn : coords.Nodup) (f : Str → ℤ) (cs : List (Str × ℤ))
    (h : ∀ c ∈ cs, c.1 ∈ coords) :
    cs.foldl (fun orders c => orders.modify (coords.idxOf c.1) (· + c.2)) (coords.map f) =
      coords.map (fun y => f y + ((cs.filter (fun c => c.1 = y)).map Prod.snd).sum) := by
  induction cs generalizing f with
  | nil => simp
  | cons c cs ih =>
    rw [List.foldl_cons]
    have h1 : (coords.map f).modify (coords.idxOf c.1) (· + c.2) =
        coords.map (fun y => f y + if y = c.1 then c.2 else 0) := by
      apply List.ext_getElem
      · simp
      · intro i h1 h2
        simp only [List.getElem_modify, List.getElem_map]
        have hi : i < coords.length := by simpa using h2
        by_cases hc : coords[i] = c.1
        · have : coords.idxOf c.1 = i := by rw [← hc]; exact hn.idxOf_getElem i hi
          simp [this, hc]
        · have : coords.idxOf c.1 ≠ i := by
            rintro rfl
            exact hc (List.getElem_idxOf hi)
          simp [this, hc]
    rw [h1, ih _ (fun d hd => h d (List.mem_cons_of_mem _ hd))]
    apply List.map_congr_left
    intro y _
    by_cases hy : c.1 = y
    · simp [hy, add_assoc]
    · have hy' : ¬ y = c.1 := fun h => hy h.symm
      simp [hy, hy']

theorem setFromCouples_eq (coords : List Str) (hn : coords.Nodup) (cs : List (Str × ℤ))
    (h : ∀ c ∈ cs, c.1 ∈ coords) :
    setFromCouples coords cs = coords.map (fun y => ((cs.filter (fun c => c.1 = y)).map Prod.snd).sum) := by
  have := setFromCouples_fold coords hn (fun _ => 0) cs h
  simp only [zero_add] at this
  rw [← this]
  unfold setFromCouples
  congr 1
  simp

theorem map_getD_idxOf (coords : List Str) (hn : coords.Nodup) (t : List ℤ) (h : t.length = coords.length) :
    coords.map (fun x => t.getD (coords.idxOf x) 0) = t := by
  apply List.ext_getElem
  · simp [h]
  · intro i h1 h2
    have hi : i < coords.length := by simpa using h1
    simp [hn.idxOf_getElem i hi, List.getD_eq_getElem?_getD, List.getElem?_eq_getElem h2]

/-- Success of the constructor. -/
theorem build_ok_iff (coords : List Str) (hn : coords.Nodup) (p : PArg) (l : List ℤ) :
    build coords p = .ok l ↔ ∃ f, Denotes coords p f ∧ l = coords.map f := by
  constructor
  · intro h
    unfold build at h
    cases h1 : asTuple coords p with
    | some t =>
      rw [h1] at h; cases h
      obtain ⟨rfl, hl⟩ := (asTuple_eq _ _ _).1 h1
      have e := map_getD_idxOf coords hn l hl
      refine ⟨fun x => l.getD (coords.idxOf x) 0, ?_, e.symm⟩
      have := Denotes.tuple (coords := coords) (fun x => l.getD (coords.idxOf x) 0)
      rw [show coords.map (fun x => Item.atom (.int (l.getD (coords.idxOf x) 0))) =
        (coords.map (fun x => l.getD (coords.idxOf x) 0)).map (fun n => Item.atom (.int n)) by
          rw [List.map_map]; rfl, e] at this
      exact this
    | none =>
      rw [h1] at h
      cases h2 : asCouples coords p with
      | some c =>
        rw [h2] at h; cases h
        rcases (asCouples_eq _ _ _).1 h2 with ⟨x, n, rfl, hx, rfl⟩ | ⟨h0, rfl, hc⟩
        · refine ⟨_, .couple x n hx, ?_⟩
          rw [setFromCouples_eq coords hn _ (by simpa using hx)]
          apply List.map_congr_left
          intro y _
          by_cases hy : x = y
          · simp [hy]
          · have hy' : ¬ y = x := fun h => hy h.symm
            simp [hy, hy']
        · exact ⟨_, .couples c h0 hc, setFromCouples_eq coords hn _ hc⟩
      | none =>
        rw [h2] at h
        cases h3 : asSequence coords p with
        | some s =>
          rw [h3] at h; cases h
          obtain ⟨rfl | rfl, hs⟩ := (asSequence_eq _ _ _).1 h3
          · exact ⟨_, .sequence s hs, rfl⟩
          · exact ⟨_, .sequenceTuple s hs, rfl⟩
        | none => rw [h3] at h; cases h
  · rintro ⟨f, hd, rfl⟩
    unfold build
    cases hd with
    | tuple f =>
      rw [(asTuple_eq coords _ (coords.map f)).2 ⟨by rw [List.map_map]; rfl, by simp⟩]
    | couple x n hx =>
      have h1 : asTuple coords (.tuple [.atom (.sym x), .atom (.int n)]) = none := by
        by_contra h
        obtain ⟨t, ht⟩ := Option.ne_none_iff_exists'.1 h
        obtain ⟨h2, -⟩ := (asTuple_eq _ _ _).1 ht
        cases t <;> simp at h2
      rw [h1, (asCouples_eq coords _ [(x, n)]).2 (.inl ⟨x, n, rfl, hx, rfl⟩)]
      dsimp only
      rw [setFromCouples_eq coords hn _ (by simpa using hx)]
      congr 1
      apply List.map_congr_left
      intro y _
      by_cases hy : x = y
      · simp [hy]
      · have hy' : ¬ y = x := fun h => hy h.symm
        simp [hy, hy']
    | couples cs h0 h =>
      rw [show asTuple coords (.list (cs.map (fun c => .tup [.sym c.1, .int c.2]))) = none from rfl,
        (asCouples_eq coords _ cs).2 (.inr ⟨h0, rfl, h⟩)]
      dsimp only
      rw [setFromCouples_eq coords hn _ h]
    | sequence s h =>
      have h2 : asCouples coords (.list (s.map (fun x => .atom (.sym x)))) = none := by
        by_contra hh
        obtain ⟨t, ht⟩ := Option.ne_none_iff_exists'.1 hh
        rcases (asCouples_eq _ _ _).1 ht with ⟨x, n, h3, -, -⟩ | ⟨h0, h3, -⟩
        · cases h3
        · cases t with
          | nil => exact h0 rfl
          | cons c t => cases s <;> simp at h3
      rw [show asTuple coords (.list (s.map (fun x => .atom (.sym x)))) = none from rfl, h2,
        (asSequence_eq coords _ s).2 ⟨.inl rfl, h⟩]
      rfl
    | sequenceTuple s h =>
      have h3 := (asSequence_eq coords (.tuple (s.map (fun x => .atom (.sym x)))) s).2 ⟨.inr rfl, h⟩
      have h2 : asCouples coords (.tuple (s.map (fun x => .atom (.sym x)))) = none := by
        by_contra hh
        obtain ⟨t, ht⟩ := Option.ne_none_iff_exists'.1 hh
        rcases (asCouples_eq _ _ _).1 ht with ⟨x, n, h3, -, -⟩ | ⟨h0, h3, -⟩
        · cases s with
          | nil => simp at h3
          | cons a s =>
            cases s with
            | nil => simp at h3
            | cons b s => simp at h3
        · cases h3
      rw [h2, h3]
      cases h1 : asTuple coords (.tuple (s.map (fun x => .atom (.sym x)))) with
      | none => rfl
      | some t =>
        obtain ⟨h4, h5⟩ := (asTuple_eq _ _ _).1 h1
        cases s with
        | nil =>
          cases t with
          | nil =>
            have : coords = [] := by simpa using h5.symm
            subst this; rfl
          | cons => simp at h4
        | cons a s => cases t <;> simp at h4

theorem build_error (coords : List Str) (p : PArg) (e : PyErr) (h : build coords p = .error e) : e = .typeError := by
  unfold build at h
  split at h
  · cases h
  · split at h
    · cases h
    · split at h
      · cases h
      · cases h; rfl

/-- A permutation of an image is the image of a permutation. -/
theorem permMap {α β : Type} {f : α → β} {l : List α} {l' : List β} (h : (l.map f).Perm l') :
    ∃ r, l.Perm r ∧ l' = r.map f := by
  generalize hm : l.map f = m at h
  induction h generalizing l with
  | nil =>
    have := List.map_eq_nil_iff.1 hm
    subst this
    exact ⟨[], .refl _, rfl⟩
  | cons b _ ih =>
    cases l with
    | nil => cases hm
    | cons a l =>
      simp only [List.map_cons, List.cons.injEq] at hm
      obtain ⟨rfl, hm⟩ := hm
      obtain ⟨r, hr, rfl⟩ := ih hm
      exact ⟨a :: r, hr.cons a, rfl⟩
  | swap b c _ =>
    cases l with
    | nil => cases hm
    | cons a l =>
      cases l with
      | nil => cases hm
      | cons a' l =>
        simp only [List.map_cons, List.cons.injEq] at hm
        obtain ⟨rfl, rfl, rfl⟩ := hm
        exact ⟨a' :: a :: l, .swap _ _ _, rfl⟩
  | trans _ _ ih1 ih2 =>
    obtain ⟨r, hr, h⟩ := ih1 hm
    obtain ⟨r', hr', h'⟩ := ih2 h.symm
    exact ⟨r', hr.trans hr', h'⟩

theorem filter_graph_sum (c : List Str) (hn : c.Nodup) (f : Str → ℤ) (y : Str) (hy : y ∈ c) :
    (((c.map (fun x => (x, f x))).filter (fun p => p.1 = y)).map Prod.snd).sum = f y := by
  induction c with
  | nil => simp at hy
  | cons x c ih =>
    rw [List.nodup_cons] at hn
    by_cases hxy : x = y
    · subst hxy
      have : (c.map (fun x => (x, f x))).filter (fun p => p.1 = x) = [] := by
        rw [List.filter_eq_nil_iff]
        intro p hp
        obtain ⟨z, hz, rfl⟩ := List.mem_map.1 hp
        simp only [decide_eq_true_eq]
        rintro rfl; exact hn.1 hz
      simp [this]
    · have hy' : y ∈ c := by
        rcases List.mem_cons.1 hy with h | h
        · exact absurd h.symm hxy
        · exact h
      simp [hxy, ih hn.2 hy']

theorem sequence_cons (x : Str) (c : List Str) (f : Str → ℤ) :
    POrder.sequence ⟨x :: c, (x :: c).map f⟩ =
      (if 0 < f x then List.replicate (f x).toNat x else []) ++ POrder.sequence ⟨c, c.map f⟩ := by
  simp [POrder.sequence]

theorem sequence_mem (c : List Str) (f : Str → ℤ) (x : Str) (hx : x ∈ POrder.sequence ⟨c, c.map f⟩) : x ∈ c := by
  induction c with
  | nil => simp [POrder.sequence] at hx
  | cons a c ih =>
    rw [sequence_cons, List.mem_append] at hx
    rcases hx with h | h
    · split at h
      · rw [List.mem_replicate] at h
        rw [h.2]; simp
      · simp at h
    · exact List.mem_cons_of_mem _ (ih h)

theorem sequence_count (c : List Str) (f : Str → ℤ) (hn : c.Nodup) (h0 : ∀ n ∈ c.map f, 0 ≤ n) (y : Str) (hy : y ∈ c) :
    ((POrder.sequence ⟨c, c.map f⟩).count y : ℤ) = f y := by
  induction c with
  | nil => simp at hy
  | cons x c ih =>
    rw [sequence_cons, List.count_append]
    rw [List.nodup_cons] at hn
    have hfx : 0 ≤ f x := h0 _ (by simp)
    have e : ((if 0 < f x then List.replicate (f x).toNat x else []).count y : ℤ) = if x = y then f x else 0 := by
      by_cases hp : 0 < f x
      · rw [if_pos hp, List.count_replicate]
        by_cases hxy : x = y
        · simp [hxy]; rw [← hxy]; omega
        · simp [hxy]
      · rw [if_neg hp]
        have : f x = 0 := by omega
        simp [this]
    push_cast
    rw [e]
    by_cases hxy : x = y
    · subst hxy
      rw [if_pos rfl, List.count_eq_zero.2 (fun h => hn.1 (sequence_mem c f x h))]; simp
    · rw [if_neg hxy, zero_add]
      apply ih hn.2
      · intro n hn'; exact h0 n (List.mem_cons_of_mem _ hn')
      · rcases List.mem_cons.1 hy with h | h
        · exact absurd h.symm hxy
        · exact h

/-! ## Enumeration -/

/-- Reference enumeration of the multi-indices. -/
def comps : ℕ → ℕ → List (List ℤ)
  | 0, 0 => [[]]
  | 0, _ + 1 => []
  | n + 1, d => (List.range (d + 1)).flatMap (fun a => (comps n (d - a)).map (fun w => (a : ℤ) :: w))

theorem isMultiIndex_cons {n d : ℕ} {a : ℤ} {w : List ℤ} :
    IsMultiIndex (n + 1) d (a :: w) ↔ ∃ k : ℕ, k ≤ d ∧ a = k ∧ IsMultiIndex n (d - k) w := by
  constructor
  · rintro ⟨h1, h2, h3⟩
    simp only [List.mem_cons, forall_eq_or_imp, List.length_cons, List.sum_cons] at h1 h2 h3
    have hw : 0 ≤ w.sum := List.sum_nonneg h2.2
    obtain ⟨k, rfl⟩ := Int.eq_ofNat_of_zero_le h2.1
    refine ⟨k, by omega, rfl, by omega, h2.2, by omega⟩
  · rintro ⟨k, hk, rfl, h⟩
    refine ⟨by simp [h.length], ?_, ?_⟩
    · intro b hb
      rcases List.mem_cons.1 hb with rfl | hb
      · exact Int.natCast_nonneg k
      · exact h.nonneg b hb
    · rw [List.sum_cons, h.sum]; omega

theorem mem_comps (n d : ℕ) (v : List ℤ) : v ∈ comps n d ↔ IsMultiIndex n d v := by
  induction n generalizing d v with
  | zero =>
    constructor
    · intro h
      cases d with
      | zero => simp [comps] at h; subst h; exact ⟨rfl, by simp, by simp⟩
      | succ d => simp [comps] at h
    · rintro ⟨h1, -, h3⟩
      obtain rfl := List.length_eq_zero_iff.1 h1
      simp at h3
      have : d = 0 := by omega
      subst this; simp [comps]
  | succ n ih =>
    cases v with
    | nil =>
      constructor
      · intro h; simp [comps] at h
      · rintro ⟨h, -, -⟩; simp at h
    | cons a w =>
      rw [isMultiIndex_cons]
      simp only [comps, List.mem_flatMap, List.mem_range, List.mem_map]
      constructor
      · rintro ⟨k, hk, w', hw', h⟩
        cases h
        exact ⟨k, by omega, rfl, (ih _ _).1 hw'⟩
      · rintro ⟨k, hk, rfl, h⟩
        exact ⟨k, by omega, w, (ih _ _).2 h, rfl⟩

theorem nodup_comps (n d : ℕ) : (comps n d).Nodup := by
  induction n generalizing d with
  | zero => cases d <;> simp [comps]
  | succ n ih =>
    rw [comps, List.nodup_flatMap]
    constructor
    · intro a _
      exact (ih _).map (fun x y h => by simpa using h)
    · refine (List.nodup_range (n := d + 1)).pairwise_of_forall_ne ?_
      intro a _ b _ hab v h1 h2
      simp only [List.mem_map] at h1 h2
      obtain ⟨w, -, rfl⟩ := h1
      obtain ⟨w', -, h⟩ := h2
      simp at h
      exact hab (by exact_mod_cast h.1.symm)

theorem length_comps_succ (n d : ℕ) :
    (comps (n + 1) (d + 1)).length = (comps n (d + 1)).length + (comps (n + 1) d).length := by
  simp only [comps, List.length_flatMap, List.length_map]
  rw [List.range_succ_eq_map (n := d + 1)]
  simp [List.map_map, Function.comp_def]

theorem length_comps (n d : ℕ) : (comps (n + 1) d).length = (n + d).choose d := by
  induction d generalizing n with
  | zero =>
    rw [Nat.choose_zero_right]
    have h : ∀ n, (comps n 0).length = 1 := by
      intro n
      induction n with
      | zero => rfl
      | succ n ih => simp [comps, ih]
    exact h _
  | succ d ih =>
    induction n with
    | zero =>
      rw [length_comps_succ, ih]
      simp [comps]
    | succ n ihn =>
      rw [length_comps_succ, ihn, ih]
      rw [show n + 1 + (d + 1) = (n + 1 + d) + 1 by omega, Nat.choose_succ_succ, add_comm,
        show n + (d + 1) = n + 1 + d by omega]

/-! ## The generations -/

/-- Members of the generation `g`. -/
def IsGeneration (m d g : ℕ) (v : List ℤ) : Prop := ∃ w, v = ((d : ℤ) - g) :: w ∧ IsMultiIndex m g w

theorem sonsOf_cons (a : ℤ) (w : List ℤ) :
    sonsOf (a :: w) = (List.range w.length).map (fun i => (a - 1) :: w.modify i (· + 1)) := by
  simp [sonsOf]

theorem sum_modify (w : List ℤ) (i : ℕ) (h : i < w.length) (c : ℤ) : (w.modify i (· + c)).sum = w.sum + c := by
  induction w generalizing i with
  | nil => simp at h
  | cons a w ih =>
    cases i with
    | zero => simp; ring
    | succ i =>
      simp only [List.length_cons, Nat.add_lt_add_iff_right] at h
      simp [ih i h, add_assoc]

theorem exists_pos_of_sum_pos (w : List ℤ) (h : 0 < w.sum) : ∃ i, ∃ hi : i < w.length, 0 < w[i] := by
  by_contra hh
  push Not at hh
  have : w.sum ≤ 0 := by
    have h2 : ∀ l : List ℤ, (∀ a ∈ l, a ≤ 0) → l.sum ≤ 0 := by
      intro l
      induction l with
      | nil => simp
      | cons a l ih =>
        intro h3
        have h4 := h3 a (by simp)
        have h5 := ih (fun b hb => h3 b (by simp [hb]))
        simp only [List.sum_cons]
        omega
    apply h2
    intro a ha
    obtain ⟨i, hi, rfl⟩ := List.getElem_of_mem ha
    exact hh i hi
  omega

theorem mem_sons (m d g : ℕ) (fathers : List (List ℤ))
    (h : ∀ v, v ∈ fathers ↔ IsGeneration m d g v) (v : List ℤ) :
    v ∈ (fathers.flatMap sonsOf).dedup ↔ IsGeneration m d (g + 1) v := by
  rw [List.mem_dedup, List.mem_flatMap]
  constructor
  · rintro ⟨f, hf, hv⟩
    obtain ⟨w, rfl, hw⟩ := (h f).1 hf
    rw [sonsOf_cons, List.mem_map] at hv
    obtain ⟨i, hi, rfl⟩ := hv
    rw [List.mem_range] at hi
    refine ⟨w.modify i (· + 1), by push_cast; congr 1; ring, by simp [hw.length], ?_, ?_⟩
    · intro a ha
      obtain ⟨j, hj, rfl⟩ := List.getElem_of_mem ha
      rw [List.getElem_modify]
      have hj' : j < w.length := by simpa using hj
      have := hw.nonneg w[j] (List.getElem_mem hj')
      split <;> omega
    · rw [sum_modify w i hi, hw.sum]; push_cast; rfl
  · rintro ⟨w, rfl, hw⟩
    obtain ⟨i, hi, hpos⟩ := exists_pos_of_sum_pos w (by rw [hw.sum]; omega)
    refine ⟨((d : ℤ) - g) :: w.modify i (· + (-1)), (h _).2 ⟨_, rfl, by simp [hw.length], ?_, ?_⟩, ?_⟩
    · intro a ha
      obtain ⟨j, hj, rfl⟩ := List.getElem_of_mem ha
      rw [List.getElem_modify]
      have hj' : j < w.length := by simpa using hj
      have := hw.nonneg w[j] (List.getElem_mem hj')
      split
      · rename_i hij; subst hij; omega
      · exact this
    · rw [sum_modify w i hi, hw.sum]; push_cast; ring
    · rw [sonsOf_cons, List.mem_map]
      refine ⟨i, by simpa using hi, ?_⟩
      congr 1
      · push_cast; ring
      · apply List.ext_getElem
        · simp
        · intro j h1 h2
          simp only [List.getElem_modify]
          split <;> simp

theorem generations_spec (order : ℕ → List (List ℤ) → List (List ℤ)) (ho : ∀ g l, (order g l).Perm l) (m d : ℕ)
    (n g : ℕ) (fathers : List (List ℤ)) (hnd : fathers.Nodup) (h : ∀ v, v ∈ fathers ↔ IsGeneration m d g v) :
    (generations order n g fathers).Nodup ∧
      ∀ v, v ∈ generations order n g fathers ↔ ∃ k, g ≤ k ∧ k < g + n ∧ IsGeneration m d k v := by
  induction n generalizing g fathers with
  | zero =>
    simp only [generations]
    refine ⟨List.nodup_nil, fun v => ⟨by simp, ?_⟩⟩
    rintro ⟨k, h1, h2, -⟩; omega
  | succ n ih =>
    have hp := ho g fathers
    have hm : ∀ v, v ∈ order g fathers ↔ IsGeneration m d g v := fun v => by rw [hp.mem_iff, h]
    obtain ⟨i1, i2⟩ := ih (g + 1) ((order g fathers).flatMap sonsOf).dedup (List.nodup_dedup _)
      (mem_sons m d g _ hm)
    simp only [generations]
    refine ⟨?_, fun v => ?_⟩
    · rw [List.nodup_append']
      refine ⟨hp.nodup_iff.2 hnd, i1, ?_⟩
      intro v hv1 hv2
      obtain ⟨w, rfl, -⟩ := (hm v).1 hv1
      obtain ⟨k, hk, -, w', h', -⟩ := (i2 _).1 hv2
      simp at h'
      omega
    · rw [List.mem_append, hm, i2]
      constructor
      · rintro (h | ⟨k, h1, h2, h3⟩)
        · exact ⟨g, le_rfl, by omega, h⟩
        · exact ⟨k, by omega, by omega, h3⟩
      · rintro ⟨k, h1, h2, h3⟩
        rcases Nat.eq_or_lt_of_le h1 with rfl | h1
        · exact .inl h3
        · exact .inr ⟨k, h1, by omega, h3⟩

theorem generation_iff (m d : ℕ) (v : List ℤ) :
    (∃ k, 0 ≤ k ∧ k < 0 + (d + 1) ∧ IsGeneration m d k v) ↔ IsMultiIndex (m + 1) d v := by
  constructor
  · rintro ⟨k, -, hk, w, rfl, hw⟩
    rw [isMultiIndex_cons]
    refine ⟨d - k, by omega, by omega, ?_⟩
    rwa [show d - (d - k) = k by omega]
  · intro h
    cases v with
    | nil => exact absurd h.length (by simp)
    | cons a w =>
      obtain ⟨k, hk, rfl, hw⟩ := isMultiIndex_cons.1 h
      exact ⟨d - k, by omega, by omega, w, by congr 1; omega, hw⟩

theorem start_generation (m d : ℕ) (v : List ℤ) :
    v ∈ [(d : ℤ) :: List.replicate m 0] ↔ IsGeneration m d 0 v := by
  rw [List.mem_singleton]
  constructor
  · rintro rfl
    exact ⟨List.replicate m 0, by simp, by simp, by intro a ha; simp [List.mem_replicate] at ha; simp [ha.2], by simp⟩
  · rintro ⟨w, rfl, hw⟩
    have hz : ∀ a ∈ w, a = 0 := by
      intro a ha
      have h1 : (0 : ℤ) ≤ a := hw.nonneg a ha
      have h2 := List.single_le_sum hw.nonneg a ha
      rw [hw.sum] at h2
      push_cast at h2
      omega
    have := List.eq_replicate_iff.2 ⟨hw.length, hz⟩
    rw [this]; simp

end Sympkf.POD
