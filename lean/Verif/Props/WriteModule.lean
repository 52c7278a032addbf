import Mathlib.Data.List.Forall2
import Verif.Model.WriteModule
import Verif.Spec.WriteModule
import Verif.Lemmas.Dict

/-!
# C107: what the written modules contain
-/

set_option autoImplicit false

namespace Sympkf.Write

open Text Spec

theorem lower_char (c : Char) : (∃ d, (d, c) ∈ alphabet ∧ c.toLower = d) ∨ ((∀ d, (d, c) ∉ alphabet) ∧ c.toLower = c) := by
  by_cases h : 65 ≤ c.toNat ∧ c.toNat ≤ 90
  · left
    have key : ∀ n < 91, 65 ≤ n → (Char.ofNat (n + 32), Char.ofNat n) ∈ alphabet ∧ (Char.ofNat n).toLower = Char.ofNat (n + 32) := by
      decide +kernel
    have := key c.toNat (by omega) h.1
    rw [Char.ofNat_toNat] at this
    exact ⟨_, this⟩
  · right
    constructor
    · intro d hd
      have : ∀ p ∈ alphabet, 65 ≤ p.2.toNat ∧ p.2.toNat ≤ 90 := by decide +kernel
      exact h (this _ hd)
    · unfold Char.toLower
      rw [dif_neg]
      rintro ⟨h1, h2⟩
      exact h ⟨h1, h2⟩

theorem alphabet_inj : ∀ p ∈ alphabet, ∀ q ∈ alphabet, (p.1 = q.1 ↔ p.2 = q.2) ∧ p.1 ≠ q.2 := by decide +kernel

theorem lower_eq_iff (c d : Char) : c.toLower = d.toLower ↔ SameLetter c d := by
  unfold SameLetter
  rcases lower_char c with ⟨x, hx, ex⟩ | ⟨hx, ex⟩ <;> rcases lower_char d with ⟨y, hy, ey⟩ | ⟨hy, ey⟩ <;> rw [ex, ey]
  · have := alphabet_inj _ hx _ hy
    constructor
    · intro h
      exact .inl (this.1.1 h)
    · rintro (h | h | h)
      · exact this.1.2 h
      · exact absurd rfl (alphabet_inj _ h _ hx).2
      · exact absurd rfl (alphabet_inj _ h _ hy).2
  · constructor
    · rintro rfl
      exact .inr (.inr hx)
    · rintro (rfl | h | h)
      · exact absurd hx (hy _)
      · exact absurd h (hy _)
      · exact (alphabet_inj _ hx _ h).1.2 rfl
  · constructor
    · rintro rfl
      exact .inr (.inl hy)
    · rintro (rfl | h | h)
      · exact absurd hy (hx _)
      · exact (alphabet_inj _ h _ hy).1.2 rfl
      · exact absurd h (hx _)
  · constructor
    · exact .inl
    · rintro (h | h | h)
      · exact h
      · exact absurd h (hy _)
      · exact absurd h (hx _)

/-- **C107** Two builders write to the same file exactly when the names of their classes differ at most in the case of the letters. -/
theorem C107_same_file (a b : Builder) : a.file = b.file ↔ SameIgnoringCase a.className b.className := by
  unfold Builder.file Builder.module lower SameIgnoringCase
  rw [List.append_cancel_right_eq]
  generalize a.className = l
  generalize b.className = m
  induction l generalizing m with
  | nil => cases m <;> simp
  | cons c l ih =>
    cases m with
    | nil => simp
    | cons d m => simp only [List.map_cons, List.cons.injEq, List.forall₂_cons, ih, lower_eq_iff]

theorem writeText_get (disk : Dict Str Str) (path text q : Str) : (writeText disk path text).get? q = if q = path then some text else disk.get? q := by
  have key : ∀ (text pre : Str) (d : Dict Str Str), d.get? path = some pre →
      (text.foldl (fun d c => d.set path ((d.get? path).getD [] ++ [c])) d).get? q = if q = path then some (pre ++ text) else d.get? q := by
    intro text
    induction text with
    | nil =>
      intro pre d hd
      split
      · next h => rw [h, List.append_nil]; exact hd
      · rfl
    | cons c text ih =>
      intro pre d hd
      rw [List.foldl_cons, ih (pre ++ [c]) _ (by rw [hd]; simp [Dict.get?_set_self])]
      split
      · simp
      · next h => rw [Dict.get?_set]; simp [Ne.symm h]
  unfold writeText
  rw [key text [] _ (Dict.get?_set_self _ _ _), List.nil_append]
  split
  · rfl
  · next h => rw [Dict.get?_set]; simp [Ne.symm h]

/-- **C107** After the modules of some builders are written, the file of a builder contains the licence and the code of the last builder of
the same name, up to the case of the letters; the files of other names are not changed. -/
theorem C107_written (disk : Dict Str Str) (bs : List Builder) :
    (∀ before b after, bs = before ++ b :: after → (∀ a ∈ after, ¬ SameIgnoringCase a.className b.className) →
      (writeAll disk bs).get? b.file = some (b.licence ++ b.code)) ∧
    ∀ path, (∀ b ∈ bs, path ≠ b.file) → (writeAll disk bs).get? path = disk.get? path := by
  have frame : ∀ (bs : List Builder) (disk : Dict Str Str) path, (∀ b ∈ bs, path ≠ b.file) → (writeAll disk bs).get? path = disk.get? path := by
    intro bs
    induction bs with
    | nil => intros; rfl
    | cons b bs ih =>
      intro disk path h
      show (writeAll (writeModule disk b) bs).get? path = _
      rw [ih _ _ (fun b hb => h b (by simp [hb]))]
      unfold writeModule
      rw [writeText_get, if_neg (h b (by simp))]
  refine ⟨?_, frame bs disk⟩
  rintro before b after rfl ha
  unfold writeAll
  rw [List.foldl_append, List.foldl_cons]
  have := frame after (writeModule (before.foldl writeModule disk) b) b.file (fun a h e => ha a h ((C107_same_file a b).1 e.symm))
  unfold writeAll at this
  rw [this]
  unfold writeModule
  rw [writeText_get, if_pos rfl]

/-- **C107** When the names of the classes differ in more than the case of the letters, every module contains its own code. -/
theorem C107_all (disk : Dict Str Str) (bs : List Builder) (h : bs.Pairwise (fun a b => ¬ SameIgnoringCase b.className a.className)) :
    ∀ b ∈ bs, (writeAll disk bs).get? b.file = some (b.licence ++ b.code) := by
  intro b hb
  obtain ⟨before, after, rfl⟩ := List.append_of_mem hb
  refine (C107_written disk _).1 before b after rfl (fun a ha => ?_)
  have := (List.pairwise_append.1 h).2.1
  exact (List.pairwise_cons.1 this).1 a ha

/-- **C107** The name of the class is the one that is given, else that of the system; systems without a name have the class `NumModel`. -/
theorem C107_class_name (b : Builder) : (∀ n, b.given = some n → b.className = n) ∧
    (b.given = none → b.systemName ≠ [] → b.className = b.systemName) ∧ (b.given = none → b.systemName = [] → b.className = "NumModel".toList) := by
  unfold Builder.className
  refine ⟨fun n h => by rw [h], fun h h' => by rw [h]; exact if_neg h', fun h h' => by rw [h]; exact if_pos h'⟩

/-- The PKF of the Burgers equation, the equation itself and a diffusion. -/
example : ∀ b ∈ [Builder.mk "PKF_Burgers".toList none "a".toList "#".toList, ⟨"Burgers".toList, none, "b".toList, "#".toList⟩,
      ⟨[], some "Diffusion".toList, "c".toList, "#".toList⟩],
    (writeAll [("burgers.py".toList, "old".toList)] [Builder.mk "PKF_Burgers".toList none "a".toList "#".toList,
      ⟨"Burgers".toList, none, "b".toList, "#".toList⟩, ⟨[], some "Diffusion".toList, "c".toList, "#".toList⟩]).get? b.file = some (b.licence ++ b.code) := by
  refine C107_all _ _ ?_
  have : ∀ a b : Builder, a.file ≠ b.file → ¬ SameIgnoringCase a.className b.className := fun a b h e => h ((C107_same_file a b).2 e)
  simp only [List.pairwise_cons, List.mem_cons, List.not_mem_nil, or_false, forall_eq_or_imp, forall_eq, List.Pairwise.nil, and_true,
    false_implies, implies_true]
  exact ⟨⟨this _ _ (by decide +kernel), this _ _ (by decide +kernel)⟩, this _ _ (by decide +kernel)⟩

/-- **C107** Otherwise a module is lost without an error: the module of a class `PKF` is overwritten by that of a class `pkf`, and so is
the module of a system without a name by that of the next system without a name. -/
theorem C107_counterexample : ∃ a b : Builder, a.code ≠ b.code ∧ a.className ≠ b.className ∧
    (writeAll [] [a, b]).get? a.file = some (b.licence ++ b.code) ∧
    ∀ c d : Builder, c.given = none → d.given = none → c.systemName = [] → d.systemName = [] →
      (writeAll [] [c, d]).get? c.file = some (d.licence ++ d.code) := by
  refine ⟨⟨[], some "PKF".toList, "a".toList, []⟩, ⟨[], some "pkf".toList, "b".toList, []⟩, by decide, by decide, by decide +kernel, ?_⟩
  intro c d h1 h2 h3 h4
  have : c.file = d.file := by
    unfold Builder.file Builder.module
    rw [(C107_class_name c).2.2 h1 h3, (C107_class_name d).2.2 h2 h4]
  rw [this]
  exact (C107_written [] [c, d]).1 [c] d [] rfl (fun _ h => by cases h)

end Sympkf.Write
