import Mathlib.Algebra.BigOperators.Group.List.Basic
import Mathlib.Tactic.Ring
import Verif.Spec.Stoch

/-!
# Lemmas on random expressions
-/

set_option autoImplicit false

namespace Sympkf.Rand

open Text Spec

/-! ## Visible subexpressions -/

section Visible
variable (x : Ex)

theorem visible_num (q : ℚ) : Visible x (.num q) ↔ x = .num q := by
  constructor
  · intro h; cases h with
    | refl => rfl
    | step _ h => cases h
  · rintro rfl; exact .refl _

theorem visible_sym (s : Str) : Visible x (.sym s) ↔ x = .sym s := by
  constructor
  · intro h; cases h with
    | refl => rfl
    | step _ h => cases h
  · rintro rfl; exact .refl _

theorem visible_fn (u : Str) (args : List Str) : Visible x (.fn u args) ↔ x = .fn u args := by
  constructor
  · intro h; cases h with
    | refl => rfl
    | step _ h => cases h
  · rintro rfl; exact .refl _

theorem visible_ex (a : Ex) : Visible x (.ex a) ↔ x = .ex a := by
  constructor
  · intro h; cases h with
    | refl => rfl
    | step _ h => cases h
  · rintro rfl; exact .refl _

theorem visible_other (b : Bool) : Visible x (.other b) ↔ x = .other b := by
  constructor
  · intro h; cases h with
    | refl => rfl
    | step _ h => cases h
  · rintro rfl; exact .refl _

theorem visible_func (g : Str) (a : Ex) : Visible x (.func g a) ↔ x = .func g a ∨ Visible x a := by
  constructor
  · intro h; cases h with
    | refl => exact .inl rfl
    | step h1 h => cases h; exact .inr h1
  · rintro (rfl | h)
    · exact .refl _
    · exact .step h (.func g a)

theorem visible_pow (a : Ex) (q : ℚ) : Visible x (.pow a q) ↔ x = .pow a q ∨ Visible x a := by
  constructor
  · intro h; cases h with
    | refl => exact .inl rfl
    | step h1 h => cases h; exact .inr h1
  · rintro (rfl | h)
    · exact .refl _
    · exact .step h (.pow a q)

theorem visible_deriv (a : Ex) (v : List (Str × ℕ)) : Visible x (.deriv a v) ↔ x = .deriv a v ∨ Visible x a := by
  constructor
  · intro h; cases h with
    | refl => exact .inl rfl
    | step h1 h => cases h; exact .inr h1
  · rintro (rfl | h)
    · exact .refl _
    · exact .step h (.deriv a v)

theorem visible_integ (a : Ex) (y : Str) : Visible x (.integ a y) ↔ x = .integ a y ∨ Visible x a := by
  constructor
  · intro h; cases h with
    | refl => exact .inl rfl
    | step h1 h => cases h; exact .inr h1
  · rintro (rfl | h)
    · exact .refl _
    · exact .step h (.integ a y)

theorem visible_add (a b : Ex) : Visible x (.add a b) ↔ x = .add a b ∨ Visible x a ∨ Visible x b := by
  constructor
  · intro h; cases h with
    | refl => exact .inl rfl
    | step h1 h =>
      cases h with
      | addL => exact .inr (.inl h1)
      | addR => exact .inr (.inr h1)
  · rintro (rfl | h | h)
    · exact .refl _
    · exact .step h (.addL a b)
    · exact .step h (.addR a b)

theorem visible_mul (a b : Ex) : Visible x (.mul a b) ↔ x = .mul a b ∨ Visible x a ∨ Visible x b := by
  constructor
  · intro h; cases h with
    | refl => exact .inl rfl
    | step h1 h =>
      cases h with
      | mulL => exact .inr (.inl h1)
      | mulR => exact .inr (.inr h1)
  · rintro (rfl | h | h)
    · exact .refl _
    · exact .step h (.mulL a b)
    · exact .step h (.mulR a b)

end Visible

/-- A property of all visible subexpressions. -/
def AllVisible (P : Ex → Prop) (e : Ex) : Prop := ∀ x, Visible x e → P x

section AllVisible
variable (P : Ex → Prop)

theorem allVisible_num (q : ℚ) : AllVisible P (.num q) ↔ P (.num q) := by simp [AllVisible, visible_num]
theorem allVisible_sym (q : Str) : AllVisible P (.sym q) ↔ P (.sym q) := by simp [AllVisible, visible_sym]
theorem allVisible_fn (u : Str) (q : List Str) : AllVisible P (.fn u q) ↔ P (.fn u q) := by simp [AllVisible, visible_fn]
theorem allVisible_ex (q : Ex) : AllVisible P (.ex q) ↔ P (.ex q) := by simp [AllVisible, visible_ex]
theorem allVisible_other (q : Bool) : AllVisible P (.other q) ↔ P (.other q) := by simp [AllVisible, visible_other]
theorem allVisible_func (g : Str) (a : Ex) : AllVisible P (.func g a) ↔ P (.func g a) ∧ AllVisible P a := by
  simp [AllVisible, visible_func, or_imp, forall_and]
theorem allVisible_pow (a : Ex) (q : ℚ) : AllVisible P (.pow a q) ↔ P (.pow a q) ∧ AllVisible P a := by
  simp [AllVisible, visible_pow, or_imp, forall_and]
theorem allVisible_deriv (a : Ex) (v : List (Str × ℕ)) : AllVisible P (.deriv a v) ↔ P (.deriv a v) ∧ AllVisible P a := by
  simp [AllVisible, visible_deriv, or_imp, forall_and]
theorem allVisible_integ (a : Ex) (v : Str) : AllVisible P (.integ a v) ↔ P (.integ a v) ∧ AllVisible P a := by
  simp [AllVisible, visible_integ, or_imp, forall_and]
theorem allVisible_add (a b : Ex) : AllVisible P (.add a b) ↔ P (.add a b) ∧ AllVisible P a ∧ AllVisible P b := by
  simp [AllVisible, visible_add, or_imp, forall_and]
theorem allVisible_mul (a b : Ex) : AllVisible P (.mul a b) ↔ P (.mul a b) ∧ AllVisible P a ∧ AllVisible P b := by
  simp [AllVisible, visible_mul, or_imp, forall_and]

end AllVisible

/-- Properties of nodes that do not look at sums, products, powers and numbers, and depend on derivatives and integrals only
through their variables: they are preserved by `expand`. -/
structure NodeProp (P : Ex → Prop) : Prop where
  num : ∀ q, P (.num q)
  add : ∀ a b, P (.add a b)
  mul : ∀ a b, P (.mul a b)
  pow : ∀ a q, P (.pow a q)
  func : ∀ g a, P (.func g a)
  deriv : ∀ a b v, P (.deriv a v) → P (.deriv b v)
  integ : ∀ a b v, P (.integ a v) → P (.integ b v)

section NodeProp
variable {P : Ex → Prop} (hP : NodeProp P)
include hP

theorem allVisible_distribL {a b : Ex} (ha : AllVisible P a) (hb : AllVisible P b) : AllVisible P (distribL a b) := by
  induction b with
  | add c d ihc ihd =>
    rw [allVisible_add] at hb
    simp only [distribL, allVisible_add]
    exact ⟨hP.add _ _, ihc hb.2.1, ihd hb.2.2⟩
  | _ =>
    simp only [distribL]
    exact (allVisible_mul _ _ _).2 ⟨hP.mul _ _, ha, hb⟩

theorem allVisible_distrib {a b : Ex} (ha : AllVisible P a) (hb : AllVisible P b) : AllVisible P (distrib a b) := by
  induction a with
  | add c d ihc ihd =>
    rw [allVisible_add] at ha
    simp only [distrib, allVisible_add]
    exact ⟨hP.add _ _, ihc ha.2.1, ihd ha.2.2⟩
  | _ => exact allVisible_distribL hP ha hb

theorem allVisible_foldl {a b : Ex} (n : ℕ) (ha : AllVisible P a) (hb : AllVisible P b) :
    AllVisible P ((List.replicate n a).foldl distrib b) := by
  induction n generalizing b with
  | zero => exact hb
  | succ n ih => exact ih (allVisible_distrib hP hb ha)

theorem allVisible_powN {a : Ex} (n : ℕ) (ha : AllVisible P a) : AllVisible P (powN a n) := by
  cases n with
  | zero =>
    have : powN a 0 = .num 1 := by cases a <;> rfl
    rw [this, allVisible_num]; exact hP.num 1
  | succ n =>
    induction a with
    | add c d ihc ihd => exact allVisible_foldl hP n ha ha
    | mul c d ihc ihd =>
      rw [allVisible_mul] at ha
      simp only [powN, allVisible_mul]
      exact ⟨hP.mul _ _, ihc ha.2.1, ihd ha.2.2⟩
    | _ => exact (allVisible_pow _ _ _).2 ⟨hP.pow _ _, ha⟩

theorem allVisible_expand {e : Ex} (he : AllVisible P e) : AllVisible P (expand e) := by
  induction e with
  | num q => exact he
  | sym q => exact he
  | fn u q => exact he
  | ex a _ => exact he
  | other b => exact he
  | func g a ih =>
    rw [allVisible_func] at he
    exact (allVisible_func _ _ _).2 ⟨hP.func _ _, ih he.2⟩
  | add a b iha ihb =>
    rw [allVisible_add] at he
    exact (allVisible_add _ _ _).2 ⟨hP.add _ _, iha he.2.1, ihb he.2.2⟩
  | mul a b iha ihb =>
    rw [allVisible_mul] at he
    exact allVisible_distrib hP (iha he.2.1) (ihb he.2.2)
  | pow a q ih =>
    rw [allVisible_pow] at he
    simp only [expand]
    split
    · exact allVisible_powN hP _ (ih he.2)
    · exact (allVisible_pow _ _ _).2 ⟨hP.pow _ _, ih he.2⟩
  | deriv a v ih =>
    rw [allVisible_deriv] at he
    exact (allVisible_deriv _ _ _).2 ⟨hP.deriv _ _ _ he.1, ih he.2⟩
  | integ a v ih =>
    rw [allVisible_integ] at he
    exact (allVisible_integ _ _ _).2 ⟨hP.integ _ _ _ he.1, ih he.2⟩

theorem allVisible_prod {l : List Ex} (h : ∀ a ∈ l, AllVisible P a) : AllVisible P (prod l) := by
  induction l with
  | nil => exact (allVisible_num _ _).2 (hP.num 1)
  | cons a l ih =>
    cases l with
    | nil => exact h a (by simp)
    | cons b l =>
      simp only [prod]
      exact (allVisible_mul _ _ _).2 ⟨hP.mul _ _, h a (by simp), ih (fun c hc => h c (List.mem_cons_of_mem _ hc))⟩

end NodeProp

theorem allVisible_factors {P : Ex → Prop} {e : Ex} (h : AllVisible P e) : ∀ a ∈ factors e, AllVisible P a := by
  induction e with
  | mul a b iha ihb =>
    rw [allVisible_mul] at h
    intro c hc
    simp only [factors, List.mem_append] at hc
    rcases hc with hc | hc
    · exact iha h.2.1 c hc
    · exact ihb h.2.2 c hc
  | _ =>
    intro c hc
    simp only [factors, List.mem_singleton] at hc
    rw [hc]; exact h

/-! ## `israndom` -/

theorem anyE_ok_true (a b : Except PyErr Bool) :
    anyE a b = .ok true ↔ a = .ok true ∨ (a = .ok false ∧ b = .ok true) := by
  rcases a with e | (_ | _) <;> simp [anyE]

theorem anyE_ok_false (a b : Except PyErr Bool) : anyE a b = .ok false ↔ a = .ok false ∧ b = .ok false := by
  rcases a with e | (_ | _) <;> simp [anyE]

theorem hasOmega_false {e : Ex} (h : hasOmega e = false) : israndom e = .ok false := by
  cases e <;> first
    | rfl
    | (unfold hasOmega at h; simp only [israndom]; exact if_pos h)

theorem israndom_add (a b : Ex) : israndom (.add a b) = anyE (israndom a) (israndom b) := by
  simp only [israndom]
  split
  · rename_i h
    simp only [hasOmega, Bool.or_eq_false_iff] at h
    rw [hasOmega_false h.1, hasOmega_false h.2]; rfl
  · rfl

theorem israndom_mul (a b : Ex) : israndom (.mul a b) = anyE (israndom a) (israndom b) := by
  simp only [israndom]
  split
  · rename_i h
    simp only [hasOmega, Bool.or_eq_false_iff] at h
    rw [hasOmega_false h.1, hasOmega_false h.2]; rfl
  · rfl

theorem israndom_pow (a : Ex) (q : ℚ) : israndom (.pow a q) = israndom a := by
  simp only [israndom]
  split
  · rename_i h
    exact (hasOmega_false (e := a) h).symm
  · rcases israndom a with e | (_ | _) <;> rfl

theorem israndom_func (g : Str) (a : Ex) : israndom (.func g a) = israndom a := by
  simp only [israndom]
  split
  · rename_i h
    exact (hasOmega_false (e := a) h).symm
  · rfl

theorem israndom_deriv (a : Ex) (v : List (Str × ℕ)) : israndom (.deriv a v) = israndom a := by
  simp only [israndom]
  split
  · rename_i h
    simp only [hasOmega, Bool.or_eq_false_iff] at h
    exact (hasOmega_false h.1).symm
  · rfl

theorem israndom_integ (a : Ex) (v : Str) : israndom (.integ a v) = israndom a := by
  simp only [israndom]
  split
  · rename_i h
    simp only [hasOmega, Bool.or_eq_false_iff] at h
    exact (hasOmega_false h.1).symm
  · rfl

theorem israndom_sym (s : Str) : israndom (.sym s) = .ok (decide (s = omega)) := by
  by_cases h : s = omega <;> simp [israndom, hasOmega, h]

theorem israndom_fn (u : Str) (args : List Str) : israndom (.fn u args) = .ok (decide (omega ∈ args)) := by
  by_cases h : omega ∈ args <;> simp [israndom, hasOmega, h]

/-- What `israndom` answers. -/
theorem israndom_spec (e : Ex) (h : Supported e) :
    (israndom e = .ok true ∧ OmegaVisible e) ∨ (israndom e = .ok false ∧ ¬ OmegaVisible e) := by
  unfold Supported OmegaVisible at *
  induction e with
  | num q => exact .inr ⟨rfl, by simp [visible_num]⟩
  | ex a _ => exact .inr ⟨rfl, by simp [visible_ex]⟩
  | other b =>
    cases b
    · exact .inr ⟨rfl, by simp [visible_other]⟩
    · exact absurd (.refl _) h
  | sym s =>
    rw [israndom_sym]
    by_cases hs : s = omega
    · exact .inl ⟨by simp [hs], .inl ((visible_sym _ _).2 (by rw [hs]))⟩
    · exact .inr ⟨by simp [hs], by simp [visible_sym, Ne.symm hs]⟩
  | fn u args =>
    rw [israndom_fn]
    by_cases hs : omega ∈ args
    · exact .inl ⟨by simp [hs], .inr ⟨u, args, hs, .refl _⟩⟩
    · refine .inr ⟨by simp [hs], ?_⟩
      simp only [visible_fn, reduceCtorEq, false_or, Ex.fn.injEq]
      rintro ⟨_, _, h1, _, rfl⟩
      exact hs h1
  | func g a ih =>
    rw [israndom_func]
    simp only [visible_func, reduceCtorEq, false_or] at *
    exact ih h
  | pow a q ih =>
    rw [israndom_pow]
    simp only [visible_pow, reduceCtorEq, false_or] at *
    exact ih h
  | deriv a q ih =>
    rw [israndom_deriv]
    simp only [visible_deriv, reduceCtorEq, false_or] at *
    exact ih h
  | integ a q ih =>
    rw [israndom_integ]
    simp only [visible_integ, reduceCtorEq, false_or] at *
    exact ih h
  | add a b iha ihb =>
    rw [israndom_add]
    simp only [visible_add, reduceCtorEq, false_or, not_or] at *
    rcases iha h.1 with ⟨h1, h2⟩ | ⟨h1, h2⟩
    · left
      rw [h1]
      refine ⟨rfl, ?_⟩
      rcases h2 with h2 | ⟨u, args, h3, h4⟩
      · exact .inl (.inl h2)
      · exact .inr ⟨u, args, h3, .inl h4⟩
    · rw [h1]
      rcases ihb h.2 with ⟨h3, h4⟩ | ⟨h3, h4⟩
      · left
        refine ⟨h3, ?_⟩
        rcases h4 with h4 | ⟨u, args, h5, h6⟩
        · exact .inl (.inr h4)
        · exact .inr ⟨u, args, h5, .inr h6⟩
      · right
        refine ⟨h3, ?_⟩
        push Not at h2 h4 ⊢
        exact ⟨⟨h2.1, h4.1⟩, fun u args hu => ⟨h2.2 u args hu, h4.2 u args hu⟩⟩
  | mul a b iha ihb =>
    rw [israndom_mul]
    simp only [visible_mul, reduceCtorEq, false_or, not_or] at *
    rcases iha h.1 with ⟨h1, h2⟩ | ⟨h1, h2⟩
    · left
      rw [h1]
      refine ⟨rfl, ?_⟩
      rcases h2 with h2 | ⟨u, args, h3, h4⟩
      · exact .inl (.inl h2)
      · exact .inr ⟨u, args, h3, .inl h4⟩
    · rw [h1]
      rcases ihb h.2 with ⟨h3, h4⟩ | ⟨h3, h4⟩
      · left
        refine ⟨h3, ?_⟩
        rcases h4 with h4 | ⟨u, args, h5, h6⟩
        · exact .inl (.inr h4)
        · exact .inr ⟨u, args, h5, .inr h6⟩
      · right
        refine ⟨h3, ?_⟩
        push Not at h2 h4 ⊢
        exact ⟨⟨h2.1, h4.1⟩, fun u args hu => ⟨h2.2 u args hu, h4.2 u args hu⟩⟩

theorem israndom_error (e : Ex) (err : PyErr) (h : israndom e = .error err) : err = .notImplementedError := by
  induction e with
  | num q => cases h
  | ex a _ => cases h
  | other b => cases b <;> cases h; rfl
  | sym s => rw [israndom_sym] at h; cases h
  | fn u args => rw [israndom_fn] at h; cases h
  | func g a ih => rw [israndom_func] at h; exact ih h
  | pow g a ih => rw [israndom_pow] at h; exact ih h
  | deriv g a ih => rw [israndom_deriv] at h; exact ih h
  | integ g a ih => rw [israndom_integ] at h; exact ih h
  | add a b iha ihb =>
    rw [israndom_add] at h
    rcases ha : israndom a with e | (_ | _)
    · rw [ha] at h iha; exact iha h
    · rw [ha] at h; exact ihb h
    · rw [ha] at h; cases h
  | mul a b iha ihb =>
    rw [israndom_mul] at h
    rcases ha : israndom a with e | (_ | _)
    · rw [ha] at h iha; exact iha h
    · rw [ha] at h; exact ihb h
    · rw [ha] at h; cases h

section Den
variable {R : Type} [CommRing R] [Algebra ℚ R] {S : Interp R} {A : Subalgebra ℚ R}

theorem derivs_det (hS : Stochastic S A) (v : List (Str × ℕ)) (r : R) (h : r ∈ A) : derivs S v r ∈ A := by
  induction v generalizing r with
  | nil => exact h
  | cons p v ih =>
    obtain ⟨x, n⟩ := p
    apply ih
    induction n generalizing r with
    | zero => exact h
    | succ n ihn => exact ihn _ (hS.D_det x r h)

/-- A non-random expression has a deterministic value. -/
theorem israndom_det (hS : Stochastic S A) (e : Ex) (h : israndom e = .ok false) : den S e ∈ A := by
  induction e with
  | num q => exact A.algebraMap_mem q
  | ex a _ => exact hS.E_det _
  | other b =>
    cases b
    · exact hS.other_det
    · cases h
  | sym s =>
    rw [israndom_sym] at h
    exact hS.sym_det s (by simpa using h)
  | fn u args =>
    rw [israndom_fn] at h
    exact hS.fn_det u args (by simpa using h)
  | func g a ih => rw [israndom_func] at h; exact hS.func_det _ _ (ih h)
  | pow a q ih => rw [israndom_pow] at h; exact hS.pw_det _ _ (ih h)
  | deriv a q ih => rw [israndom_deriv] at h; exact derivs_det hS _ _ (ih h)
  | integ a q ih => rw [israndom_integ] at h; exact hS.I_det _ _ (ih h)
  | add a b iha ihb =>
    rw [israndom_add, anyE_ok_false] at h
    exact A.add_mem (iha h.1) (ihb h.2)
  | mul a b iha ihb =>
    rw [israndom_mul, anyE_ok_false] at h
    exact A.mul_mem (iha h.1) (ihb h.2)

/-! ## `expand` preserves values -/

theorem den_distribL (a b : Ex) : den S (distribL a b) = den S a * den S b := by
  induction b with
  | add c d ihc ihd => simp only [distribL, den, ihc, ihd]; ring
  | _ => rfl

theorem den_distrib (a b : Ex) : den S (distrib a b) = den S a * den S b := by
  induction a with
  | add c d ihc ihd => simp only [distrib, den, ihc, ihd]; ring
  | _ => exact den_distribL _ _

theorem den_foldl (a b : Ex) (n : ℕ) : den S ((List.replicate n a).foldl distrib b) = den S b * den S a ^ n := by
  induction n generalizing b with
  | zero => simp
  | succ n ih =>
    rw [List.replicate_succ, List.foldl_cons, ih, den_distrib]; ring

theorem den_powN (hS : Stochastic S A) (a : Ex) (n : ℕ) : den S (powN a n) = den S a ^ n := by
  cases n with
  | zero =>
    have : powN a 0 = .num 1 := by cases a <;> rfl
    rw [this]; simp [den]
  | succ n =>
    induction a with
    | add c d _ _ => simp only [powN, den_foldl]; ring
    | mul c d ihc ihd => simp only [powN, den, ihc, ihd]; ring
    | _ => exact hS.pw_nat _ _

theorem rat_nat {q : ℚ} (h : q.den = 1 ∧ 0 ≤ q.num) : q = ((q.num.toNat : ℕ) : ℚ) := by
  have h1 : q = (q.num : ℚ) := (Rat.den_eq_one_iff q).1 h.1 ▸ rfl
  have h2 : ((q.num.toNat : ℤ)) = q.num := Int.toNat_of_nonneg h.2
  calc q = ((q.num : ℤ) : ℚ) := h1
    _ = (((q.num.toNat : ℕ) : ℤ) : ℚ) := by rw [h2]
    _ = ((q.num.toNat : ℕ) : ℚ) := by push_cast; rfl

theorem den_expand (hS : Stochastic S A) (e : Ex) : den S (expand e) = den S e := by
  induction e with
  | num q => rfl
  | sym q => rfl
  | fn u q => rfl
  | ex a _ => rfl
  | other b => rfl
  | func g a ih => simp only [expand, den, ih]
  | add a b iha ihb => simp only [expand, den, iha, ihb]
  | mul a b iha ihb => simp only [expand, den, den_distrib, iha, ihb]
  | pow a q ih =>
    simp only [expand]
    split
    · rename_i h
      rw [den_powN hS, ih]
      have := hS.pw_nat (den S a) q.num.toNat
      rw [← rat_nat h] at this
      exact this.symm
    · simp only [den, ih]
  | deriv a q ih => simp only [expand, den, ih]
  | integ a q ih => simp only [expand, den, ih]

/-! ## Factors -/

theorem den_prod (l : List Ex) : den S (prod l) = (l.map (den S)).prod := by
  induction l with
  | nil => simp [prod, den]
  | cons a l ih =>
    cases l with
    | nil => simp [prod]
    | cons b l => simp only [prod, den, ih, List.map_cons, List.prod_cons]

theorem den_factors (e : Ex) : ((factors e).map (den S)).prod = den S e := by
  induction e with
  | mul a b iha ihb => simp only [factors, List.map_append, List.prod_append, iha, ihb, den]
  | _ => simp [factors]

theorem splitFactors_den (hS : Stochastic S A) (l d r : List Ex) (h : splitFactors l = .ok (d, r)) :
    (l.map (den S)).prod = den S (prod d) * den S (prod r) ∧ den S (prod d) ∈ A := by
  induction l generalizing d r with
  | nil =>
    simp only [splitFactors, Except.ok.injEq, Prod.mk.injEq] at h
    obtain ⟨rfl, rfl⟩ := h
    simp [prod, den]
  | cons f l ih =>
    simp only [splitFactors, bind, Except.bind, pure, Except.pure] at h
    rcases hf : israndom f with e | b
    · rw [hf] at h; cases h
    · rw [hf] at h
      rcases hs : splitFactors l with e | ⟨d', r'⟩
      · rw [hs] at h; cases h
      · rw [hs] at h
        obtain ⟨h1, h2⟩ := ih d' r' hs
        rw [den_prod] at h2
        cases b
        · simp only [Bool.false_eq_true, if_false, Except.ok.injEq, Prod.mk.injEq] at h
          obtain ⟨rfl, rfl⟩ := h
          rw [den_prod] at h1 ⊢
          simp only [List.map_cons, List.prod_cons, h1]
          exact ⟨by ring, A.mul_mem (israndom_det hS f hf) h2⟩
        · simp only [if_true, Except.ok.injEq, Prod.mk.injEq] at h
          obtain ⟨rfl, rfl⟩ := h
          rw [den_prod, den_prod] at h1 ⊢
          simp only [List.map_cons, List.prod_cons, h1]
          exact ⟨by ring, h2⟩

theorem splitFactors_mem (l d r : List Ex) (h : splitFactors l = .ok (d, r)) :
    (∀ a ∈ d, a ∈ l ∧ israndom a = .ok false) ∧ (∀ a ∈ r, a ∈ l ∧ israndom a = .ok true) ∧
      (d.map size).sum + (r.map size).sum = (l.map size).sum ∧ d.length + r.length = l.length := by
  induction l generalizing d r with
  | nil =>
    simp only [splitFactors, Except.ok.injEq, Prod.mk.injEq] at h
    obtain ⟨rfl, rfl⟩ := h
    simp
  | cons f l ih =>
    simp only [splitFactors, bind, Except.bind, pure, Except.pure] at h
    rcases hf : israndom f with e | b
    · rw [hf] at h; cases h
    · rw [hf] at h
      rcases hs : splitFactors l with e | ⟨d', r'⟩
      · rw [hs] at h; cases h
      · rw [hs] at h
        obtain ⟨h1, h2, h3, h4⟩ := ih d' r' hs
        cases b
        · simp only [Bool.false_eq_true, if_false, Except.ok.injEq, Prod.mk.injEq] at h
          obtain ⟨rfl, rfl⟩ := h
          refine ⟨?_, fun a ha => ⟨List.mem_cons_of_mem _ (h2 a ha).1, (h2 a ha).2⟩, ?_, ?_⟩
          · intro a ha
            rcases List.mem_cons.1 ha with rfl | ha
            · exact ⟨by simp, hf⟩
            · exact ⟨List.mem_cons_of_mem _ (h1 a ha).1, (h1 a ha).2⟩
          · simp only [List.map_cons, List.sum_cons]; omega
          · simp only [List.length_cons]; omega
        · simp only [if_true, Except.ok.injEq, Prod.mk.injEq] at h
          obtain ⟨rfl, rfl⟩ := h
          refine ⟨fun a ha => ⟨List.mem_cons_of_mem _ (h1 a ha).1, (h1 a ha).2⟩, ?_, ?_, ?_⟩
          · intro a ha
            rcases List.mem_cons.1 ha with rfl | ha
            · exact ⟨by simp, hf⟩
            · exact ⟨List.mem_cons_of_mem _ (h2 a ha).1, (h2 a ha).2⟩
          · simp only [List.map_cons, List.sum_cons]; omega
          · simp only [List.length_cons]; omega

/-! ## Soundness of `Expectation` -/

/-- Node property equivalent to `SimpleDerivs`. -/
def simpleNode : Ex → Prop
  | .deriv _ vars => ∃ x n, vars = [(x, n)] ∧ x ≠ omega
  | .integ _ x => x ≠ omega
  | _ => True

theorem simpleDerivs_iff (e : Ex) : SimpleDerivs e ↔ AllVisible simpleNode e := by
  constructor
  · intro h x hx
    cases x with
    | deriv a vars => exact h.1 a vars hx
    | integ a y => exact h.2 a y hx
    | _ => trivial
  · intro h
    exact ⟨fun a v hv => h _ hv, fun a x hx => h _ hx⟩

theorem simpleNode_prop : NodeProp simpleNode where
  num _ := trivial
  add _ _ := trivial
  mul _ _ := trivial
  pow _ _ := trivial
  func _ _ := trivial
  deriv _ _ _ h := h
  integ _ _ _ h := h

theorem E_iter (hS : Stochastic S A) (x : Str) (hx : x ≠ omega) (n : ℕ) (r : R) :
    S.E ((S.D x)^[n] r) = (S.D x)^[n] (S.E r) := by
  induction n generalizing r with
  | zero => rfl
  | succ n ih => rw [Function.iterate_succ_apply, Function.iterate_succ_apply, ih, hS.E_D x r hx]

end Den

/-! ## Normal forms -/

def isAdd : Ex → Bool
  | .add _ _ => true
  | _ => false

def isMul : Ex → Bool
  | .mul _ _ => true
  | _ => false

/-- Expanded expressions. -/
def Normal : Ex → Prop
  | .num _ => True
  | .sym _ => True
  | .fn _ _ => True
  | .func _ a => Normal a
  | .add a b => Normal a ∧ Normal b
  | .mul a b => (Normal a ∧ isAdd a = false) ∧ (Normal b ∧ isAdd b = false)
  | .pow a q => Normal a ∧ (q.den = 1 ∧ 0 ≤ q.num → q ≠ 0 ∧ isAdd a = false ∧ isMul a = false)
  | .deriv a _ => Normal a
  | .integ a _ => Normal a
  | .ex _ => True
  | .other _ => True

theorem normal_distribL (a b : Ex) (ha : Normal a) (ha' : isAdd a = false) (hb : Normal b) : Normal (distribL a b) := by
  induction b with
  | add c d ihc ihd => exact ⟨ihc hb.1, ihd hb.2⟩
  | _ => exact ⟨⟨ha, ha'⟩, hb, rfl⟩

theorem normal_distrib (a b : Ex) (ha : Normal a) (hb : Normal b) : Normal (distrib a b) := by
  induction a with
  | add c d ihc ihd => exact ⟨ihc ha.1, ihd ha.2⟩
  | _ => exact normal_distribL _ b ha rfl hb

theorem normal_foldl (a b : Ex) (n : ℕ) (ha : Normal a) (hb : Normal b) :
    Normal ((List.replicate n a).foldl distrib b) := by
  induction n generalizing b with
  | zero => exact hb
  | succ n ih => exact ih _ (normal_distrib b a hb ha)

theorem isAdd_powN (a : Ex) (n : ℕ) (h : isAdd a = false) : isAdd (powN a (n + 1)) = false := by
  cases a <;> first | rfl | cases h

theorem nat_ne_zero (n : ℕ) : (((n + 1 : ℕ) : ℚ)) ≠ 0 := by
  have : (0 : ℚ) < ((n + 1 : ℕ) : ℚ) := by exact_mod_cast Nat.succ_pos n
  exact ne_of_gt this

theorem normal_powN (a : Ex) (n : ℕ) (ha : Normal a) : Normal (powN a n) := by
  cases n with
  | zero =>
    have : powN a 0 = .num 1 := by cases a <;> rfl
    rw [this]; trivial
  | succ n =>
    induction a with
    | add c d ihc ihd => exact normal_foldl _ _ _ ha ha
    | mul c d ihc ihd =>
      exact ⟨⟨ihc ha.1.1, isAdd_powN _ _ ha.1.2⟩, ihd ha.2.1, isAdd_powN _ _ ha.2.2⟩
    | _ => exact ⟨ha, fun _ => ⟨nat_ne_zero n, rfl, rfl⟩⟩

theorem normal_expand (e : Ex) : Normal (expand e) := by
  induction e with
  | num q => trivial
  | sym q => trivial
  | fn u q => trivial
  | ex a _ => trivial
  | other b => trivial
  | func g a ih => exact ih
  | add a b iha ihb => exact ⟨iha, ihb⟩
  | mul a b iha ihb => exact normal_distrib _ _ iha ihb
  | pow a q ih =>
    simp only [expand]
    split
    · exact normal_powN _ _ ih
    · rename_i h
      exact ⟨ih, fun h' => absurd h' h⟩
  | deriv a q ih => exact ih
  | integ a q ih => exact ih

theorem distrib_of_not_add (a b : Ex) (ha : isAdd a = false) (hb : isAdd b = false) : distrib a b = .mul a b := by
  cases a <;> cases b <;> first | rfl | exact Bool.noConfusion (show true = false from ha) |
    exact Bool.noConfusion (show true = false from hb)

theorem powN_atom (a : Ex) (n : ℕ) (ha : isAdd a = false) (hm : isMul a = false) :
    powN a (n + 1) = .pow a ((n + 1 : ℕ) : ℚ) := by
  cases a <;> first | rfl | exact Bool.noConfusion (show true = false from ha) |
    exact Bool.noConfusion (show true = false from hm)

theorem expand_normal (e : Ex) (h : Normal e) : expand e = e := by
  induction e with
  | num q => rfl
  | sym q => rfl
  | fn u q => rfl
  | ex a _ => rfl
  | other b => rfl
  | func g a ih => simp only [expand, ih h]
  | add a b iha ihb => simp only [expand, iha h.1, ihb h.2]
  | mul a b iha ihb =>
    simp only [expand, iha h.1.1, ihb h.2.1]
    exact distrib_of_not_add _ _ h.1.2 h.2.2
  | pow a q ih =>
    simp only [expand]
    split
    · rename_i hq
      obtain ⟨h0, h1, h2⟩ := h.2 hq
      have hn := rat_nat hq
      rw [ih h.1]
      cases hk : q.num.toNat with
      | zero => rw [hk] at hn; simp at hn; exact absurd hn h0
      | succ k =>
        rw [powN_atom a k h1 h2]
        rw [hk] at hn
        rw [← hn]
    · simp only [ih h.1]
  | deriv a q ih => simp only [expand, ih h]
  | integ a q ih => simp only [expand, ih h]

theorem normal_factors (e : Ex) (h : Normal e) (ha : isAdd e = false) :
    ∀ a ∈ factors e, Normal a ∧ isAdd a = false ∧ isMul a = false := by
  induction e with
  | mul a b iha ihb =>
    intro c hc
    simp only [factors, List.mem_append] at hc
    rcases hc with hc | hc
    · exact iha h.1.1 h.1.2 c hc
    · exact ihb h.2.1 h.2.2 c hc
  | add a b _ _ => cases ha
  | _ =>
    intro c hc
    simp only [factors, List.mem_singleton] at hc
    rw [hc]; exact ⟨h, rfl, rfl⟩

theorem normal_prod (l : List Ex) (h : ∀ a ∈ l, Normal a ∧ isAdd a = false) :
    Normal (prod l) ∧ isAdd (prod l) = false := by
  induction l with
  | nil => exact ⟨trivial, rfl⟩
  | cons a l ih =>
    cases l with
    | nil => exact h a (by simp)
    | cons b l =>
      have := ih (fun c hc => h c (List.mem_cons_of_mem _ hc))
      exact ⟨⟨h a (by simp), this⟩, rfl⟩

/-! ## Sizes -/

theorem size_pos (e : Ex) : 1 ≤ size e := by cases e <;> simp [size]

theorem size_factors (e : Ex) : ((factors e).map size).sum + (factors e).length = size e + 1 := by
  induction e with
  | mul a b iha ihb =>
    simp only [factors, List.map_append, List.sum_append, List.length_append, size]; omega
  | _ => simp [factors]

theorem size_prod (l : List Ex) (h : l ≠ []) : size (prod l) + 1 = (l.map size).sum + l.length := by
  induction l with
  | nil => exact absurd rfl h
  | cons a l ih =>
    cases l with
    | nil => simp [prod]
    | cons b l =>
      have := ih (by simp)
      simp only [prod, size, List.map_cons, List.sum_cons, List.length_cons] at *
      omega

theorem sum_size_ge (l : List Ex) : l.length ≤ (l.map size).sum := by
  induction l with
  | nil => simp
  | cons a l ih =>
    have := size_pos a
    simp only [List.map_cons, List.sum_cons, List.length_cons]; omega

/-! ## Termination, normal form and absence of randomness of the result -/

theorem splitFactors_ok (l : List Ex) (h : ∀ a ∈ l, Supported a) : ∃ d r, splitFactors l = .ok (d, r) := by
  induction l with
  | nil => exact ⟨[], [], rfl⟩
  | cons f l ih =>
    obtain ⟨d, r, hd⟩ := ih (fun a ha => h a (List.mem_cons_of_mem _ ha))
    have hf := israndom_spec f (h f (by simp))
    simp only [splitFactors, bind, Except.bind, pure, Except.pure]
    rcases hf with ⟨hf, -⟩ | ⟨hf, -⟩
    · rw [hf, hd]; exact ⟨_, _, rfl⟩
    · rw [hf, hd]; exact ⟨_, _, rfl⟩

theorem supported_iff (e : Ex) : Supported e ↔ AllVisible (fun x => x ≠ .other true) e :=
  ⟨fun h _ hx he => h (he ▸ hx), fun h hx => h _ hx rfl⟩

theorem notOther_prop : NodeProp (fun x => x ≠ .other true) where
  num _ := by simp
  add _ _ := by simp
  mul _ _ := by simp
  pow _ _ := by simp
  func _ _ := by simp
  deriv _ _ _ _ := by simp
  integ _ _ _ _ := by simp

theorem israndom_prod_of_exists (l : List Ex) (hs : ∀ a ∈ l, Supported a) (a : Ex) (ha : a ∈ l)
    (hr : israndom a = .ok true) : israndom (prod l) = .ok true := by
  induction l with
  | nil => simp at ha
  | cons b l ih =>
    cases l with
    | nil =>
      have : a = b := by simpa using ha
      rw [← this]; exact hr
    | cons c l =>
      simp only [prod, israndom_mul, anyE_ok_true]
      rcases israndom_spec b (hs b (by simp)) with ⟨hb, -⟩ | ⟨hb, -⟩
      · exact .inl hb
      · right
        refine ⟨hb, ih (fun d hd => hs d (List.mem_cons_of_mem _ hd)) ?_⟩
        rcases List.mem_cons.1 ha with rfl | ha
        · rw [hb] at hr; cases hr
        · exact ha

theorem israndom_prod_false (l : List Ex) (h : ∀ a ∈ l, israndom a = .ok false) : israndom (prod l) = .ok false := by
  induction l with
  | nil => rfl
  | cons b l ih =>
    cases l with
    | nil => exact h b (by simp)
    | cons c l =>
      simp only [prod, israndom_mul, anyE_ok_false]
      exact ⟨h b (by simp), ih (fun d hd => h d (List.mem_cons_of_mem _ hd))⟩

theorem factors_of_split_nil (l r : List Ex) (h : splitFactors l = .ok ([], r)) :
    r = l ∧ ∀ a ∈ l, israndom a = .ok true := by
  induction l generalizing r with
  | nil => simp only [splitFactors, Except.ok.injEq, Prod.mk.injEq] at h; exact ⟨h.2.symm, by simp⟩
  | cons f l ih =>
    simp only [splitFactors, bind, Except.bind, pure, Except.pure] at h
    rcases hf : israndom f with e | b
    · rw [hf] at h; cases h
    · rw [hf] at h
      rcases hs : splitFactors l with e | ⟨d', r'⟩
      · rw [hs] at h; cases h
      · rw [hs] at h
        cases b
        · simp at h
        · simp only [if_true, Except.ok.injEq, Prod.mk.injEq] at h
          obtain ⟨rfl, rfl⟩ := h
          obtain ⟨rfl, h2⟩ := ih r' hs
          refine ⟨rfl, ?_⟩
          intro a ha
          rcases List.mem_cons.1 ha with rfl | ha
          · exact hf
          · exact h2 a ha

theorem omegaVisible_mulL {a : Ex} (b : Ex) (h : OmegaVisible a) : OmegaVisible (.mul a b) := by
  rcases h with h | ⟨u, args, hu, h⟩
  · exact .inl ((visible_mul _ _ _).2 (.inr (.inl h)))
  · exact .inr ⟨u, args, hu, (visible_mul _ _ _).2 (.inr (.inl h))⟩

/-- If the elementary factors are random, all factors are. -/
theorem factor_random {a f : Ex} (h : ∀ g ∈ factors a, OmegaVisible g) (hf : Factor f a) : OmegaVisible f := by
  have key : ∀ f : Ex, (∀ g ∈ factors f, OmegaVisible g) → OmegaVisible f := by
    intro f
    induction f with
    | mul a b iha _ => intro h; exact omegaVisible_mulL b (iha (fun g hg => h g (by simp [factors, hg])))
    | _ => intro h; exact h _ (by simp [factors])
  induction hf with
  | refl => exact key f h
  | left b _ ih => exact ih (fun g hg => h g (by simp [factors, hg]))
  | right a _ ih => exact ih (fun g hg => h g (by simp [factors, hg]))

theorem omegaVisible_of_israndom {a : Ex} (hs : Supported a) (h : israndom a = .ok true) : OmegaVisible a := by
  rcases israndom_spec a hs with ⟨-, h1⟩ | ⟨h1, -⟩
  · exact h1
  · rw [h] at h1; cases h1

/-- Node property: expectations have good arguments. -/
def goodNode : Ex → Prop
  | .ex a => Irreducible a
  | _ => True

theorem goodNode_prop : NodeProp goodNode where
  num _ := trivial
  add _ _ := trivial
  mul _ _ := trivial
  pow _ _ := trivial
  func _ _ := trivial
  deriv _ _ _ h := h
  integ _ _ _ h := h

/-- Evaluation of a normal supported expression with enough fuel. -/
theorem expectation_normal (n : ℕ) (e : Ex) (hN : Normal e) (hs : Supported e) (hz : size e ≤ n) :
    ∃ r, expectation n e = .ok r ∧ Normal r ∧ (isAdd e = false → isAdd r = false) ∧ israndom r = .ok false ∧
      (AllVisible goodNode e → AllVisible goodNode r) := by
  induction n generalizing e with
  | zero => have := size_pos e; omega
  | succ n ih =>
    have hs' := (supported_iff e).1 hs
    simp only [expectation, bind, Except.bind, pure, Except.pure, expand_normal e hN]
    rcases israndom_spec e hs with ⟨hr, -⟩ | ⟨hr, -⟩
    · rw [hr]
      simp only [Bool.true_eq_false, if_false]
      cases e with
      | add b c =>
        rw [allVisible_add] at hs'
        simp only [size] at hz
        obtain ⟨b', hb, hb1, hb2, hb3, hb4⟩ := ih b hN.1 ((supported_iff b).2 hs'.2.1) (by omega)
        obtain ⟨c', hc, hc1, hc2, hc3, hc4⟩ := ih c hN.2 ((supported_iff c).2 hs'.2.2) (by omega)
        simp only [hb, hc]
        refine ⟨_, rfl, ⟨hb1, hc1⟩, fun h => absurd h (by simp [isAdd]), ?_, fun hg => ?_⟩
        · rw [israndom_add, anyE_ok_false]; exact ⟨hb3, hc3⟩
        · rw [allVisible_add] at hg
          exact (allVisible_add _ _ _).2 ⟨trivial, hb4 hg.2.1, hc4 hg.2.2⟩
      | mul b c =>
        have hfs : ∀ a ∈ factors (Ex.mul b c), Supported a :=
          fun a ha => (supported_iff a).2 (allVisible_factors hs' a ha)
        obtain ⟨d, rn, hd⟩ := splitFactors_ok _ hfs
        simp only [hd]
        obtain ⟨h1, h2, h3, h4⟩ := splitFactors_mem _ _ _ hd
        have hnf := normal_factors _ hN rfl
        by_cases hd0 : d = []
        · rw [if_pos hd0]
          subst hd0
          obtain ⟨-, h5⟩ := factors_of_split_nil _ _ hd
          refine ⟨_, rfl, trivial, fun _ => rfl, rfl, fun _ => ?_⟩
          rw [allVisible_ex]
          exact ⟨by simp, by simp, by simp, fun f hf =>
            factor_random (fun g hg => omegaVisible_of_israndom (hfs g hg) (h5 g hg)) hf⟩
        · rw [if_neg hd0]
          have hsz := size_factors (Ex.mul b c)
          have hdl : 1 ≤ d.length := List.length_pos_iff.2 hd0
          have hds := sum_size_ge d
          have hrn : rn ≠ [] := by
            rintro rfl
            have hall : ∀ a ∈ factors (Ex.mul b c), israndom a = .ok false := by
              intro a ha
              have hlen : d.length = (factors (Ex.mul b c)).length := by simpa using h4
              rcases israndom_spec a (hfs a ha) with ⟨h, -⟩ | ⟨h, -⟩
              · exfalso
                have key : ∀ (l d : List Ex), splitFactors l = .ok (d, []) → ∀ a ∈ l, israndom a = .ok false := by
                  intro l
                  induction l with
                  | nil => intro _ _ a ha; simp at ha
                  | cons f l ihl =>
                    intro d hd a ha
                    simp only [splitFactors, bind, Except.bind, pure, Except.pure] at hd
                    rcases hf : israndom f with e | b
                    · rw [hf] at hd; cases hd
                    · rw [hf] at hd
                      rcases hs : splitFactors l with e | ⟨d', r'⟩
                      · rw [hs] at hd; cases hd
                      · rw [hs] at hd
                        cases b
                        · simp only [Bool.false_eq_true, if_false, Except.ok.injEq, Prod.mk.injEq] at hd
                          obtain ⟨rfl, rfl⟩ := hd
                          rcases List.mem_cons.1 ha with rfl | ha
                          · exact hf
                          · exact ihl d' hs a ha
                        · simp at hd
                rw [key _ _ hd a ha] at h; cases h
              · exact h
            have : israndom (Ex.mul b c) = .ok false := by
              have key : ∀ e : Ex, (∀ a ∈ factors e, israndom a = .ok false) → israndom e = .ok false := by
                intro e
                induction e with
                | mul a b iha ihb =>
                  intro h
                  rw [israndom_mul, anyE_ok_false]
                  exact ⟨iha (fun x hx => h x (by simp [factors, hx])), ihb (fun x hx => h x (by simp [factors, hx]))⟩
                | _ => intro h; exact h _ (by simp [factors])
              exact key _ hall
            rw [this] at hr; cases hr
          have hpz := size_prod rn hrn
          have hNp := normal_prod rn (fun a ha => ⟨(hnf a (h2 a ha).1).1, (hnf a (h2 a ha).1).2.1⟩)
          have hNd := normal_prod d (fun a ha => ⟨(hnf a (h1 a ha).1).1, (hnf a (h1 a ha).1).2.1⟩)
          have hsp : Supported (prod rn) := (supported_iff _).2
            (allVisible_prod notOther_prop (fun a ha => allVisible_factors hs' a (h2 a ha).1))
          obtain ⟨r, hr1, hr2, hr3, hr4, hr5⟩ := ih (prod rn) hNp.1 hsp (by omega)
          rw [hr1]
          refine ⟨_, rfl, ⟨hNd, hr2, hr3 hNp.2⟩, fun _ => rfl, ?_, fun hg => ?_⟩
          · rw [israndom_mul, anyE_ok_false]
            exact ⟨israndom_prod_false d (fun a ha => (h1 a ha).2), hr4⟩
          · have hgf := allVisible_factors hg
            exact (allVisible_mul _ _ _).2 ⟨trivial,
              allVisible_prod goodNode_prop (fun a ha => hgf a (h1 a ha).1),
              hr5 (allVisible_prod goodNode_prop (fun a ha => hgf a (h2 a ha).1))⟩
      | deriv b vars =>
        rw [allVisible_deriv] at hs'
        simp only [size] at hz
        obtain ⟨b', hb, hb1, hb2, hb3, hb4⟩ := ih b hN ((supported_iff b).2 hs'.2) (by omega)
        simp only [hb]
        refine ⟨_, rfl, hb1, fun _ => rfl, by rw [israndom_deriv]; exact hb3, fun hg => ?_⟩
        rw [allVisible_deriv] at hg
        exact (allVisible_deriv _ _ _).2 ⟨trivial, hb4 hg.2⟩
      | integ b x =>
        rw [allVisible_integ] at hs'
        simp only [size] at hz
        obtain ⟨b', hb, hb1, hb2, hb3, hb4⟩ := ih b hN ((supported_iff b).2 hs'.2) (by omega)
        simp only [hb]
        refine ⟨_, rfl, hb1, fun _ => rfl, by rw [israndom_integ]; exact hb3, fun hg => ?_⟩
        rw [allVisible_integ] at hg
        exact (allVisible_integ _ _ _).2 ⟨trivial, hb4 hg.2⟩
      | _ =>
        refine ⟨_, rfl, trivial, fun _ => rfl, rfl, fun _ => ?_⟩
        rw [allVisible_ex]
        exact ⟨by simp, by simp, by simp, fun f hf =>
          factor_random (fun g hg => by
            have : g = _ := List.mem_singleton.1 hg
            rw [this]; exact omegaVisible_of_israndom hs hr) hf⟩
    · rw [hr]
      exact ⟨e, rfl, hN, id, hr, id⟩

theorem expectation_expand (n : ℕ) (e : Ex) : expectation n (expand e) = expectation n e := by
  cases n with
  | zero => rfl
  | succ n => simp only [expectation, expand_normal _ (normal_expand e)]

end Sympkf.Rand
