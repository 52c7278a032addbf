import Verif.Spec.Text
import Mathlib.Tactic.Ring
import Mathlib.Tactic.Linarith

/-! # Lemmas on the text model -/

set_option autoImplicit false

namespace Sympkf.Text

open Spec

theorem replace_singleton (c : Char) (new s : Str) :
    replace [c] new s = s.flatMap (fun d => if d = c then new else [d]) := by
  unfold replace
  induction s with
  | nil => rfl
  | cons d s ih =>
    simp only [replaceAux, List.isPrefixOf, Bool.and_true, List.length_singleton, Nat.sub_self, List.flatMap_cons]
    by_cases h : d = c
    · subst h; simp [ih]
    · have : (c == d) = false := by simpa using fun h' => h h'.symm
      simp [this, h, ih]

theorem intStr_eq (n : ℤ) : intStr n = decimal n := by
  unfold intStr natStr decimal
  rw [Int.toString_eq_repr, Int.repr_eq_if]
  by_cases h : n < 0
  · rw [if_pos h, if_neg (by omega)]
    have : (-n).toNat = n.natAbs := by omega
    rw [String.toList_append, Nat.toList_repr, this]; rfl
  · rw [if_neg h, if_pos (by omega), Nat.toList_repr]
    congr 1; omega

theorem decimal_injective {m n : ℤ} (h : decimal m = decimal n) : m = n := by
  unfold decimal at h
  have h := String.toList_inj.1 h
  simp only [Int.toString_eq_repr] at h
  rw [Int.repr_eq_if, Int.repr_eq_if] at h
  have key : ∀ a b : ℕ, a.repr = b.repr → a = b := by
    intro a b hab
    have h1 : Nat.toDigits 10 a = Nat.toDigits 10 b := by
      rw [← Nat.toList_repr, ← Nat.toList_repr, hab]
    rw [← Nat.ofDigitChars_ten_toDigits (n := a), h1, Nat.ofDigitChars_ten_toDigits]
  have key2 : ∀ a b : ℕ, a.repr = "-" ++ b.repr → False := by
    intro a b hab
    have h1 : Nat.toDigits 10 a = '-' :: Nat.toDigits 10 b := by
      rw [← Nat.toList_repr, ← Nat.toList_repr, hab, String.toList_append]; rfl
    have h2 : ('-' : Char).isDigit := by
      refine Nat.isDigit_of_mem_toDigits (b := 10) (n := a) (by norm_num) (by norm_num) ?_
      rw [h1]; simp
    exact absurd h2 (by decide)
  split_ifs at h with h1 h2 h2
  · have := key _ _ h; omega
  · exact (key2 _ _ h).elim
  · exact (key2 _ _ h.symm).elim
  · have h3 : (-m).toNat.repr = (-n).toNat.repr := by
      have := congrArg String.toList h
      rw [String.toList_append, String.toList_append, List.append_cancel_left_eq] at this
      exact String.toList_inj.1 this
    have := key _ _ h3; omega

theorem mem_decimal {n : ℤ} {c : Char} (h : c ∈ decimal n) : c = '-' ∨ c.isDigit := by
  rw [← intStr_eq] at h
  unfold intStr natStr at h
  split_ifs at h
  · rcases List.mem_cons.1 h with h | h
    · exact Or.inl h
    · exact Or.inr (Nat.isDigit_of_mem_toDigits (by norm_num) (by norm_num) h)
  · exact Or.inr (Nat.isDigit_of_mem_toDigits (by norm_num) (by norm_num) h)

theorem timeTag_eq (k : ℤ) : timeTag k = timeText k := by
  unfold timeTag timeText
  by_cases h : k < 0
  · rw [if_pos h, if_neg (by omega), if_pos h, ← intStr_eq]
    unfold intStr
    rw [if_neg (by omega), Int.natAbs_neg]
  · rw [if_neg h]
    by_cases h0 : k = 0
    · rw [if_pos h0, if_neg (by omega)]
    · rw [if_neg h0, if_pos (by omega), if_neg h, ← intStr_eq]
      unfold intStr
      rw [if_neg h]

attribute [local irreducible] decimal intStr natStr

/-! ## coordinates of shifted functions -/

theorem argCoordinates_shift {x : Str} {k : ℚ} {arg : Arg} (h : IsShift x k arg) (hx : k ≠ 0 → PlainName x) :
    argCoordinates arg = .ok (x, 'd' :: x) := by
  obtain ⟨h, -⟩ := h
  unfold argCoordinates
  by_cases hk : k = 0
  · rw [if_pos hk] at h
    rw [List.perm_singleton.1 h]; rfl
  · rw [if_neg hk] at h
    obtain ⟨c, s, rfl, hc⟩ := hx hk
    have h2 : arg.atoms = [c :: s, 'd' :: c :: s] ∨ arg.atoms = ['d' :: c :: s, c :: s] := by
      have hl : arg.atoms.length = 2 := by rw [h.length_eq]; rfl
      match hat : arg.atoms, hl with
      | [a, b], _ =>
        rw [hat] at h
        have ha : a ∈ [c :: s, 'd' :: c :: s] := h.subset (by simp)
        rcases List.mem_pair.1 ha with rfl | rfl
        · have := (List.perm_cons _).1 h
          rw [List.perm_singleton.1 this]; simp
        · have h' := h.trans (List.Perm.swap _ _ _)
          have := (List.perm_cons _).1 h'
          rw [List.perm_singleton.1 this]; simp
    rcases h2 with h2 | h2 <;> rw [h2] <;> simp [hc]

theorem getFunctionCoordinates_shifted {xs : List Str} {ks : List ℚ} {args : List Arg}
    (h : IsShifted xs ks args) (hx : ∀ p ∈ xs.zip ks, p.2 ≠ 0 → PlainName p.1) :
    getFunctionCoordinates args = .ok (xs, xs.map (fun x => 'd' :: x)) := by
  obtain ⟨h, hl⟩ := h
  induction xs generalizing ks args with
  | nil =>
    have : args = [] := by cases h; rfl
    subst this; rfl
  | cons x xs ih =>
    match ks, hl with
    | k :: ks, hl =>
      cases h with
      | cons h1 h2 =>
        have := ih (fun p hp => hx p (by simp [hp])) h2 (by simpa using hl)
        simp only [getFunctionCoordinates, argCoordinates_shift h1 (hx (x, k) (by simp)), this]
        rfl

theorem zipWith_coeff {xs : List Str} {ks : List ℚ} {args : List Arg} (h : IsShifted xs ks args) :
    List.zipWith (fun (arg : Arg) dxi => arg.coeff dxi) args (xs.map (fun x => 'd' :: x)) = ks := by
  obtain ⟨h, hl⟩ := h
  induction xs generalizing ks args with
  | nil =>
    have : args = [] := by cases h; rfl
    subst this
    have : ks = [] := List.eq_nil_of_length_eq_zero (by simpa using hl.symm)
    subst this; rfl
  | cons x xs ih =>
    match ks, hl with
    | k :: ks, hl =>
      cases h with
      | cons h1 h2 =>
        have h1 : IsShift x k _ := h1
        simp [h1.coeff, ih h2 (by simpa using hl)]

theorem getDisplacement_shifted {xs : List Str} {ks : List ℚ} {args : List Arg}
    (h : IsShifted xs ks args) (hx : ∀ p ∈ xs.zip ks, p.2 ≠ 0 → PlainName p.1) :
    getDisplacement args = .ok ks := by
  unfold getDisplacement
  rw [getFunctionCoordinates_shifted h hx]
  show Except.ok _ = _
  rw [zipWith_coeff h]

/-! ## rendering -/

theorem asInteger_cast (k : ℤ) : asInteger (k : ℚ) = .ok k := by
  simp [asInteger]

theorem asInteger_error {q : ℚ} (h : ∀ k : ℤ, q ≠ k) : asInteger q = .error .assertionError := by
  unfold asInteger
  rw [if_neg]
  intro hd
  exact h q.num (by rw [Rat.coe_int_num_of_den_eq_one hd])

theorem indexCall_cancel {x : Str} {k k' : ℤ} {s s' : Str} (h : indexCall x k ++ s = indexCall x k' ++ s') :
    decimal k ++ (")".toList ++ s) = decimal k' ++ (")".toList ++ s') := by
  unfold indexCall at h
  generalize "self.index('".toList = A, "',".toList = B, ")".toList = C at h ⊢
  simp only [List.append_assoc, List.append_cancel_left_eq] at h
  exact h

theorem sliceCodingRule_eq (x : Str) (k : ℤ) : sliceCodingRule ('\'' :: x ++ ['\'']) k = indexCall x k := by
  unfold sliceCodingRule indexCall
  rw [intStr_eq]
  have e1 : "self.index('".toList = "self.index(".toList ++ ['\''] := by decide
  have e2 : "',".toList = '\'' :: ",".toList := by decide
  rw [e1, e2]
  generalize "self.index(".toList = A, ")".toList = B, ",".toList = C
  simp

theorem sliceLoop_int (xs : List Str) (ks : List ℤ) (hl : xs.length = ks.length) :
    sliceLoop sliceCodingRule xs (ks.map (fun k : ℤ => (k : ℚ)))
      = .ok ((List.zipWith indexCall xs ks).flatMap (fun s => s ++ [','])) := by
  induction xs generalizing ks with
  | nil =>
    have : ks = [] := List.eq_nil_of_length_eq_zero (by simpa using hl.symm)
    subst this; rfl
  | cons x xs ih =>
    obtain _ | ⟨k, ks⟩ := ks
    · simp at hl
    · simp only [List.map_cons, sliceLoop, asInteger_cast, ih ks (by simpa using hl), sliceCodingRule_eq, bind,
        Except.bind, pure, Except.pure, List.zipWith_cons_cons, List.flatMap_cons]

theorem intercalate_eq (l : List Str) (hl : l ≠ []) :
    (l.flatMap (fun s => s ++ [','])).dropLast = List.intercalate ",".toList l := by
  induction l with
  | nil => exact absurd rfl hl
  | cons a l ih =>
    cases l with
    | nil => simp [List.intercalate]
    | cons b l =>
      have hne : (b :: l).flatMap (fun s => s ++ [',']) ≠ [] := by simp
      rw [List.flatMap_cons, List.dropLast_append_of_ne_nil hne, ih (by simp)]
      simp [List.intercalate]

theorem spaceTag_int (xs : List Str) (ks : List ℤ) (hl : xs.length = ks.length) :
    spaceTag sliceCodingRule xs (ks.map (fun k : ℤ => (k : ℚ))) = .ok (spaceText xs ks) := by
  unfold spaceTag spaceText
  by_cases h : ∀ k ∈ ks, k = 0
  · rw [if_neg, if_pos h]
    simp only [List.any_map, List.any_eq_true, Function.comp, decide_eq_true_eq, not_exists, not_and, not_not]
    intro k hk; simp [h k hk]
  · rw [if_pos, if_neg h, sliceLoop_int xs ks hl]
    · show Except.ok _ = _
      have hks : ks ≠ [] := by rintro rfl; simp at h
      have hz : List.zipWith indexCall xs ks ≠ [] := by
        intro h0
        have : (List.zipWith indexCall xs ks).length = 0 := by rw [h0]; rfl
        rw [List.length_zipWith] at this
        have := List.length_pos_of_ne_nil hks
        omega
      have hne : (List.zipWith indexCall xs ks).flatMap (fun s => s ++ [',']) ≠ [] := by
        cases hz' : List.zipWith indexCall xs ks with
        | nil => exact absurd hz' hz
        | cons a l => simp
      rw [List.dropLast_append_of_ne_nil hne, intercalate_eq _ hz]
    · push Not at h
      obtain ⟨k, hk, h0⟩ := h
      simp only [List.any_map, List.any_eq_true, Function.comp, decide_eq_true_eq]
      exact ⟨k, hk, by simpa using h0⟩

theorem sliceLoop_error (rule : SliceRule) (xs : List Str) (qs : List ℚ) (hl : xs.length = qs.length)
    (h : ∃ q ∈ qs, ∀ k : ℤ, q ≠ k) : sliceLoop rule xs qs = .error .assertionError := by
  induction xs generalizing qs with
  | nil =>
    have : qs = [] := List.eq_nil_of_length_eq_zero (by simpa using hl.symm)
    subst this; simp at h
  | cons x xs ih =>
    match qs, hl with
    | q :: qs, hl =>
      simp only [sliceLoop]
      by_cases hq : ∀ k : ℤ, q ≠ k
      · rw [asInteger_error hq]; rfl
      · push Not at hq
        obtain ⟨k, rfl⟩ := hq
        rw [asInteger_cast]
        obtain ⟨q, hq, hk⟩ := h
        rcases List.mem_cons.1 hq with rfl | hq
        · exact absurd rfl (hk k)
        · rw [ih qs (by simpa using hl) ⟨q, hq, hk⟩]; rfl

theorem spaceTag_error (rule : SliceRule) (xs : List Str) (qs : List ℚ) (hl : xs.length = qs.length)
    (h : ∃ q ∈ qs, ∀ k : ℤ, q ≠ k) : spaceTag rule xs qs = .error .assertionError := by
  unfold spaceTag
  rw [if_pos, sliceLoop_error rule xs qs hl h]
  · rfl
  · obtain ⟨q, hq, hk⟩ := h
    simp only [List.any_eq_true, decide_eq_true_eq]
    exact ⟨q, hq, fun h0 => hk 0 (by simp [h0])⟩

/-! ## the shift can be read back -/

theorem append_right_split {p : Char → Prop} {a a' b b' : Str} (ha : ∀ c ∈ a, p c) (ha' : ∀ c ∈ a', p c)
    (hb : ∀ c, b.head? = some c → ¬ p c) (hb' : ∀ c, b'.head? = some c → ¬ p c)
    (h : a ++ b = a' ++ b') : a = a' ∧ b = b' := by
  induction a generalizing a' with
  | nil =>
    cases a' with
    | nil => exact ⟨rfl, h⟩
    | cons c a' => exact absurd (ha' c (by simp)) (hb c (by simp at h; simp [h]))
  | cons c a ih =>
    cases a' with
    | nil => exact absurd (ha c (by simp)) (hb' c (by simp at h; simp [← h]))
    | cons c' a' =>
      simp only [List.cons_append, List.cons.injEq] at h
      obtain ⟨h1, h2⟩ := ih (fun c hc => ha c (by simp [hc])) (fun c hc => ha' c (by simp [hc])) h.2
      exact ⟨by rw [h.1, h1], h2⟩

theorem intercalate_index_inj (xs : List Str) (ks ks' : List ℤ) (hl : xs.length = ks.length)
    (hl' : xs.length = ks'.length) (suf : Str)
    (h : List.intercalate ",".toList (List.zipWith indexCall xs ks) ++ suf
      = List.intercalate ",".toList (List.zipWith indexCall xs ks') ++ suf) : ks = ks' := by
  induction xs generalizing ks ks' with
  | nil =>
    have e : ks = [] := List.eq_nil_of_length_eq_zero (by simpa using hl.symm)
    have e' : ks' = [] := List.eq_nil_of_length_eq_zero (by simpa using hl'.symm)
    rw [e, e']
  | cons x xs ih =>
    obtain _ | ⟨k, ks⟩ := ks
    · simp at hl
    obtain _ | ⟨k', ks'⟩ := ks'
    · simp at hl'
    have nd : ∀ (n : ℤ) (c : Char), c ∈ decimal n → c ≠ ')' := by
      rintro n c hc rfl
      rcases mem_decimal hc with h | h
      · simp at h
      · exact absurd h (by decide)
    have split : ∀ s s' : Str, indexCall x k ++ s = indexCall x k' ++ s' → k = k' ∧ s = s' := by
      intro s s' h
      have h := indexCall_cancel h
      have h2 := append_right_split (p := fun c => c ≠ ')') (nd k) (nd k')
        (b := ")".toList ++ s) (b' := ")".toList ++ s') (by simp) (by simp) h
      exact ⟨decimal_injective h2.1, by simpa using h2.2⟩
    obtain _ | ⟨y, ys⟩ := xs
    · have e : ks = [] := List.eq_nil_of_length_eq_zero (by simpa using hl.symm)
      have e' : ks' = [] := List.eq_nil_of_length_eq_zero (by simpa using hl'.symm)
      subst e e'
      simp only [List.zipWith_cons_cons, List.zipWith_nil_left, List.intercalate_singleton] at h
      rw [(split _ _ h).1]
    · obtain _ | ⟨l, ks⟩ := ks
      · simp at hl
      obtain _ | ⟨l', ks'⟩ := ks'
      · simp at hl'
      simp only [List.zipWith_cons_cons, List.intercalate_cons_cons, List.append_assoc] at h
      obtain ⟨h1, h2⟩ := split _ _ h
      rw [List.append_cancel_left_eq] at h2
      rw [h1, ih (l :: ks) (l' :: ks') (by simpa using hl) (by simpa using hl')
        (by simpa only [List.zipWith_cons_cons] using h2)]

theorem spaceText_inj (xs : List Str) (ks ks' : List ℤ) (hl : xs.length = ks.length) (hl' : xs.length = ks'.length)
    (h : spaceText xs ks = spaceText xs ks') : ks = ks' := by
  unfold spaceText at h
  split_ifs at h with h1 h2 h2
  · rw [List.eq_replicate_of_mem h1, List.eq_replicate_of_mem h2, ← hl, ← hl']
  · simp at h
  · simp at h
  · rw [List.append_assoc, List.append_assoc, List.append_cancel_left_eq] at h
    exact intercalate_index_inj xs ks ks' hl hl' _ h

theorem spaceText_head (xs : List Str) (ks : List ℤ) (c : Char) (h : (spaceText xs ks).head? = some c) : c = '[' := by
  unfold spaceText at h
  split_ifs at h
  · simp at h
  · simpa using h.symm

theorem mem_timeText {k : ℤ} {c : Char} (h : c ∈ timeText k) : c ≠ '[' := by
  unfold timeText at h
  rintro rfl
  split_ifs at h
  · simp at h
  all_goals
    rcases List.mem_cons.1 h with h | h
    · simp at h
    · rcases mem_decimal h with h | h
      · simp at h
      · exact absurd h (by decide)

theorem timeText_inj {k k' : ℤ} (h : timeText k = timeText k') : k = k' := by
  unfold timeText at h
  split_ifs at h with h1 h2 h3 h4 h5 h6 h7 <;> simp at h
  · rw [h1, h2]
  · have := decimal_injective h; omega
  · exact decimal_injective h

end Sympkf.Text
