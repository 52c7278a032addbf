import Verif.Model.Pkf
import Mathlib.Data.List.Perm.Basic
import Mathlib.Tactic.Ring

/-!
# Lemmas: the order of the normal form
-/

set_option autoImplicit false

namespace Sympkf.Rand

open Text

/-! ## Lexicographic order -/

theorem ltNat_irrefl (l : List ℕ) : ltNat l l = false := by
  induction l with
  | nil => rfl
  | cons a l ih => simp [ltNat, ih]

theorem ltNat_asymm (l m : List ℕ) (h : ltNat l m = true) : ltNat m l = false := by
  induction l generalizing m with
  | nil => cases m <;> rfl
  | cons a l ih =>
    cases m with
    | nil => cases h
    | cons b m =>
      simp only [ltNat, Bool.or_eq_true, decide_eq_true_eq, Bool.and_eq_true] at h
      simp only [ltNat, Bool.or_eq_false_iff, decide_eq_false_iff_not, Bool.and_eq_false_imp, decide_eq_true_eq]
      rcases h with h | ⟨rfl, h⟩
      · exact ⟨by omega, fun e => by omega⟩
      · exact ⟨by omega, fun _ => ih _ h⟩

theorem ltNat_total (l m : List ℕ) (h : l ≠ m) : ltNat l m = true ∨ ltNat m l = true := by
  induction l generalizing m with
  | nil =>
    cases m with
    | nil => exact absurd rfl h
    | cons b m => exact .inl rfl
  | cons a l ih =>
    cases m with
    | nil => exact .inr rfl
    | cons b m =>
      simp only [ltNat, Bool.or_eq_true, decide_eq_true_eq, Bool.and_eq_true]
      rcases lt_trichotomy a b with hab | rfl | hab
      · exact .inl (.inl hab)
      · rcases ih m (fun e => h (by rw [e])) with h' | h'
        · exact .inl (.inr ⟨rfl, h'⟩)
        · exact .inr (.inr ⟨rfl, h'⟩)
      · exact .inr (.inl hab)

theorem ltNat_trans (l m n : List ℕ) (h : ltNat l m = true) (h' : ltNat m n = true) : ltNat l n = true := by
  induction l generalizing m n with
  | nil =>
    cases n with
    | nil => cases m <;> cases h'
    | cons => rfl
  | cons a l ih =>
    cases m with
    | nil => cases h
    | cons b m =>
      cases n with
      | nil => cases h'
      | cons c n =>
        simp only [ltNat, Bool.or_eq_true, decide_eq_true_eq, Bool.and_eq_true] at h h' ⊢
        rcases h with h | ⟨rfl, h⟩ <;> rcases h' with h' | ⟨rfl, h'⟩
        · exact .inl (by omega)
        · exact .inl h
        · exact .inl h'
        · exact .inr ⟨rfl, ih _ _ h h'⟩

/-! ## The codes are unique -/

theorem codeStr_append (s s' : Str) (l l' : List ℕ) (h : codeStr s ++ l = codeStr s' ++ l') : s = s' ∧ l = l' := by
  induction s generalizing s' with
  | nil =>
    cases s' with
    | nil => exact ⟨rfl, by simpa [codeStr] using h⟩
    | cons c s' =>
      simp only [codeStr, List.map_nil, List.nil_append, List.map_cons, List.cons_append, List.cons.injEq] at h
      omega
  | cons c s ih =>
    cases s' with
    | nil =>
      simp only [codeStr, List.map_nil, List.nil_append, List.map_cons, List.cons_append, List.cons.injEq] at h
      omega
    | cons c' s' =>
      simp only [codeStr, List.map_cons, List.cons_append, List.cons.injEq] at h
      obtain ⟨h1, h2⟩ := ih s' (by simpa [codeStr] using h.2)
      have hc : c = c' := Char.toNat_inj.1 (by omega)
      exact ⟨by rw [hc, h1], h2⟩

theorem codeStr_inj {s s' : Str} (h : codeStr s = codeStr s') : s = s' := (codeStr_append s s' [] [] (by rw [h])).1

theorem codeStr_head (s : Str) (l : List ℕ) : ∃ n r, codeStr s ++ l = (n + 1) :: r := by
  cases s with
  | nil => exact ⟨0, l, rfl⟩
  | cons c s => exact ⟨c.toNat + 1, _, rfl⟩

/-- Lists of blocks, ended by `0`. -/
theorem blocks_append {α : Type} (f : α → List ℕ) (hf : ∀ a b l l', f a ++ l = f b ++ l' → a = b ∧ l = l')
    (hh : ∀ a l, ∃ n r, f a ++ l = (n + 1) :: r) (as bs : List α) (l l' : List ℕ)
    (h : (as.flatMap f ++ [0]) ++ l = (bs.flatMap f ++ [0]) ++ l') : as = bs ∧ l = l' := by
  induction as generalizing bs with
  | nil =>
    cases bs with
    | nil => exact ⟨rfl, by simpa using h⟩
    | cons b bs =>
      obtain ⟨n, r, e⟩ := hh b (bs.flatMap f ++ [0] ++ l')
      simp only [List.flatMap_nil, List.nil_append, List.flatMap_cons, List.append_assoc, List.cons_append] at h e
      rw [e] at h
      simp at h
  | cons a as ih =>
    cases bs with
    | nil =>
      obtain ⟨n, r, e⟩ := hh a (as.flatMap f ++ [0] ++ l)
      simp only [List.flatMap_nil, List.nil_append, List.flatMap_cons, List.append_assoc, List.cons_append] at h e
      rw [e] at h
      simp at h
    | cons b bs =>
      simp only [List.flatMap_cons, List.append_assoc] at h
      obtain ⟨e1, e2⟩ := hf a b _ _ h
      obtain ⟨e3, e4⟩ := ih bs (by simpa using e2)
      exact ⟨by rw [e1, e3], e4⟩

theorem codeNum_append (q q' : ℚ) (l l' : List ℕ) (h : codeNum q ++ l = codeNum q' ++ l') : q = q' ∧ l = l' := by
  simp only [codeNum, List.cons_append, List.nil_append, List.cons.injEq] at h
  obtain ⟨h1, h2, h3, h4⟩ := h
  exact ⟨Rat.ext (by omega) h3, h4⟩

theorem codeVar_append (v v' : Str × ℕ) (l l' : List ℕ) (h : codeStr v.1 ++ [v.2] ++ l = codeStr v'.1 ++ [v'.2] ++ l') :
    v = v' ∧ l = l' := by
  obtain ⟨e1, e2⟩ := codeStr_append v.1 v'.1 _ _ (by rw [List.append_assoc, List.append_assoc] at h; exact h)
  simp only [List.cons_append, List.nil_append, List.cons.injEq] at e2
  exact ⟨Prod.ext e1 e2.1, e2.2⟩

set_option linter.unusedSimpArgs false in
theorem code_append (a z : Ex) (l l' : List ℕ) (h : code a ++ l = code z ++ l') : a = z ∧ l = l' := by
  have hvar : ∀ (v : Str × ℕ) (l : List ℕ), ∃ n r, (codeStr v.1 ++ [v.2]) ++ l = (n + 1) :: r := fun v l => by
    rw [List.append_assoc]; exact codeStr_head _ _
  induction a generalizing z l l' with
  | num q =>
    cases z <;> simp only [code, List.cons_append, List.cons.injEq, List.append_assoc, reduceCtorEq, false_and, OfNat.ofNat_ne_zero,
      OfNat.zero_ne_ofNat, zero_ne_one, one_ne_zero, Nat.reduceEqDiff, OfNat.ofNat_ne_one, OfNat.one_ne_ofNat] at h
    obtain ⟨e1, e2⟩ := codeNum_append _ _ _ _ h.2
    exact ⟨by rw [e1], e2⟩
  | sym s =>
    cases z <;> simp only [code, List.cons_append, List.cons.injEq, List.append_assoc, reduceCtorEq, false_and, OfNat.ofNat_ne_zero,
      OfNat.zero_ne_ofNat, zero_ne_one, one_ne_zero, Nat.reduceEqDiff, OfNat.ofNat_ne_one, OfNat.one_ne_ofNat] at h
    obtain ⟨e1, e2⟩ := codeStr_append _ _ _ _ h.2
    exact ⟨by rw [e1], e2⟩
  | fn u args =>
    cases z <;> simp only [code, List.cons_append, List.cons.injEq, List.append_assoc, reduceCtorEq, false_and, OfNat.ofNat_ne_zero,
      OfNat.zero_ne_ofNat, zero_ne_one, one_ne_zero, Nat.reduceEqDiff, OfNat.ofNat_ne_one, OfNat.one_ne_ofNat] at h
    obtain ⟨e1, e2⟩ := codeStr_append _ _ _ _ h.2
    obtain ⟨e3, e4⟩ := blocks_append codeStr codeStr_append codeStr_head _ _ l l' (by simpa using e2)
    exact ⟨by rw [e1, e3], e4⟩
  | func g a ih =>
    cases z <;> simp only [code, List.cons_append, List.cons.injEq, List.append_assoc, reduceCtorEq, false_and, OfNat.ofNat_ne_zero,
      OfNat.zero_ne_ofNat, zero_ne_one, one_ne_zero, Nat.reduceEqDiff, OfNat.ofNat_ne_one, OfNat.one_ne_ofNat] at h
    obtain ⟨e1, e2⟩ := codeStr_append _ _ _ _ h.2
    obtain ⟨e3, e4⟩ := ih _ _ _ e2
    exact ⟨by rw [e1, e3], e4⟩
  | add a b iha ihb =>
    cases z <;> simp only [code, List.cons_append, List.cons.injEq, List.append_assoc, reduceCtorEq, false_and, OfNat.ofNat_ne_zero,
      OfNat.zero_ne_ofNat, zero_ne_one, one_ne_zero, Nat.reduceEqDiff, OfNat.ofNat_ne_one, OfNat.one_ne_ofNat] at h
    obtain ⟨e1, e2⟩ := iha _ _ _ h.2
    obtain ⟨e3, e4⟩ := ihb _ _ _ e2
    exact ⟨by rw [e1, e3], e4⟩
  | mul a b iha ihb =>
    cases z <;> simp only [code, List.cons_append, List.cons.injEq, List.append_assoc, reduceCtorEq, false_and, OfNat.ofNat_ne_zero,
      OfNat.zero_ne_ofNat, zero_ne_one, one_ne_zero, Nat.reduceEqDiff, OfNat.ofNat_ne_one, OfNat.one_ne_ofNat] at h
    obtain ⟨e1, e2⟩ := iha _ _ _ h.2
    obtain ⟨e3, e4⟩ := ihb _ _ _ e2
    exact ⟨by rw [e1, e3], e4⟩
  | pow a q ih =>
    cases z <;> simp only [code, List.cons_append, List.cons.injEq, List.append_assoc, reduceCtorEq, false_and, OfNat.ofNat_ne_zero,
      OfNat.zero_ne_ofNat, zero_ne_one, one_ne_zero, Nat.reduceEqDiff, OfNat.ofNat_ne_one, OfNat.one_ne_ofNat] at h
    obtain ⟨e1, e2⟩ := ih _ _ _ h.2
    obtain ⟨e3, e4⟩ := codeNum_append _ _ _ _ e2
    exact ⟨by rw [e1, e3], e4⟩
  | deriv a vars ih =>
    cases z <;> simp only [code, List.cons_append, List.cons.injEq, List.append_assoc, reduceCtorEq, false_and, OfNat.ofNat_ne_zero,
      OfNat.zero_ne_ofNat, zero_ne_one, one_ne_zero, Nat.reduceEqDiff, OfNat.ofNat_ne_one, OfNat.one_ne_ofNat] at h
    obtain ⟨e1, e2⟩ := ih _ _ _ h.2
    obtain ⟨e3, e4⟩ := blocks_append (fun v : Str × ℕ => codeStr v.1 ++ [v.2]) codeVar_append hvar _ _ l l' (by simpa using e2)
    exact ⟨by rw [e1, e3], e4⟩
  | integ a x ih =>
    cases z <;> simp only [code, List.cons_append, List.cons.injEq, List.append_assoc, reduceCtorEq, false_and, OfNat.ofNat_ne_zero,
      OfNat.zero_ne_ofNat, zero_ne_one, one_ne_zero, Nat.reduceEqDiff, OfNat.ofNat_ne_one, OfNat.one_ne_ofNat] at h
    obtain ⟨e1, e2⟩ := ih _ _ _ h.2
    obtain ⟨e3, e4⟩ := codeStr_append _ _ _ _ e2
    exact ⟨by rw [e1, e3], e4⟩
  | ex a ih =>
    cases z <;> simp only [code, List.cons_append, List.cons.injEq, List.append_assoc, reduceCtorEq, false_and, OfNat.ofNat_ne_zero,
      OfNat.zero_ne_ofNat, zero_ne_one, one_ne_zero, Nat.reduceEqDiff, OfNat.ofNat_ne_one, OfNat.one_ne_ofNat] at h
    obtain ⟨e1, e2⟩ := ih _ _ _ h.2
    exact ⟨by rw [e1], e2⟩
  | other b =>
    cases z <;> simp only [code, List.cons_append, List.cons.injEq, List.append_assoc, reduceCtorEq, false_and, OfNat.ofNat_ne_zero,
      OfNat.zero_ne_ofNat, zero_ne_one, one_ne_zero, Nat.reduceEqDiff, OfNat.ofNat_ne_one, OfNat.one_ne_ofNat, List.nil_append] at h
    rename_i c
    refine ⟨?_, h.2.2⟩
    have := h.2.1
    cases b <;> cases c <;> simp_all

theorem code_inj {a b : Ex} (h : code a = code b) : a = b := (code_append a b [] [] (by rw [h])).1

theorem code_total {a b : Ex} (h : a ≠ b) : ltNat (code a) (code b) = true ∨ ltNat (code b) (code a) = true :=
  ltNat_total _ _ (fun e => h (code_inj e))

theorem codeStr_total {a b : Str} (h : a ≠ b) : ltNat (codeStr a) (codeStr b) = true ∨ ltNat (codeStr b) (codeStr a) = true :=
  ltNat_total _ _ (fun e => h (codeStr_inj e))

/-! ## Derivatives commute -/

theorem bumpVar_comm (x y : Str) (l : List (Str × ℕ)) : bumpVar x (bumpVar y l) = bumpVar y (bumpVar x l) := by
  rcases eq_or_ne x y with rfl | hxy
  · rfl
  have tot := codeStr_total hxy
  have asy := ltNat_asymm (codeStr x) (codeStr y)
  have asy' := ltNat_asymm (codeStr y) (codeStr x)
  induction l with
  | nil =>
    rcases tot with h | h
    · simp [bumpVar, hxy, hxy.symm, h, asy h]
    · simp [bumpVar, hxy, hxy.symm, h, asy' h]
  | cons v l ih =>
    obtain ⟨z, n⟩ := v
    rcases eq_or_ne x z with rfl | hxz
    · rcases tot with h | h
      · simp [bumpVar, hxy.symm, asy h]
      · simp [bumpVar, hxy, hxy.symm, h, asy' h]
    rcases eq_or_ne y z with rfl | hyz
    · rcases tot with h | h
      · simp [bumpVar, hxy, hxy.symm, h, asy h]
      · simp [bumpVar, hxy, asy' h]
    by_cases hx : ltNat (codeStr x) (codeStr z) = true <;> by_cases hy : ltNat (codeStr y) (codeStr z) = true
    · rcases tot with h | h
      · simp [bumpVar, hxy, hxy.symm, hxz, hyz, hx, hy, h, asy h]
      · simp [bumpVar, hxy, hxy.symm, hxz, hyz, hx, hy, h, asy' h]
    · have h : ltNat (codeStr x) (codeStr y) = true := by
        rcases codeStr_total hyz with h' | h'
        · exact absurd h' hy
        · exact ltNat_trans _ _ _ hx h'
      simp [bumpVar, hxy.symm, hxz, hyz, hx, hy, asy h]
    · have h : ltNat (codeStr y) (codeStr x) = true := by
        rcases codeStr_total hxz with h' | h'
        · exact absurd h' hx
        · exact ltNat_trans _ _ _ hy h'
      simp [bumpVar, hxy, hxz, hyz, hx, hy, asy' h]
    · simp [bumpVar, hxz, hyz, hx, hy, ih]

end Sympkf.Rand
