import Verif.Lemmas.Evolution
import Verif.Lemmas.PkfStat

/-!
# Lemmas: the value of an expectation in which the trends of the errors are replaced

Nothing is assumed about the trends: the expression that replaces the trend of an error may have another value.
-/

set_option autoImplicit false

namespace Sympkf.Spec

open Text Rand PKF Pkf

section

variable {R : Type} [CommRing R] [Algebra ℚ R]

/-! ## Values of polynomials -/

/-- A polynomial whose monomials have given values. -/
def weigh (f : Mono → R) (p : Poly) : R := (p.map (fun t => algebraMap ℚ R t.2 * f t.1)).sum

@[simp] theorem weigh_nil (f : Mono → R) : weigh f [] = 0 := rfl

@[simp] theorem weigh_cons (f : Mono → R) (t : Mono × ℚ) (p : Poly) : weigh f (t :: p) = algebraMap ℚ R t.2 * f t.1 + weigh f p := by
  simp [weigh]

theorem weigh_addTerm (f : Mono → R) (m : Mono) (c : ℚ) (p : Poly) : weigh f (addTerm m c p) = algebraMap ℚ R c * f m + weigh f p := by
  induction p with
  | nil =>
    unfold addTerm
    split
    · rename_i h; simp [h]
    · simp
  | cons t p ih =>
    obtain ⟨n, d⟩ := t
    unfold addTerm
    split
    · rename_i h
      subst h
      split
      · rename_i h
        have : algebraMap ℚ R d + algebraMap ℚ R c = 0 := by rw [← map_add, h, map_zero]
        rw [weigh_cons]
        linear_combination -f m * this
      · simp only [weigh_cons, map_add]; ring
    · split
      · rename_i h; simp [h]
      · split
        · simp
        · simp only [weigh_cons, ih]; ring

theorem weigh_padd (f : Mono → R) (p q : Poly) : weigh f (padd p q) = weigh f p + weigh f q := by
  induction p with
  | nil => simp [padd]
  | cons t p ih =>
    show weigh f (addTerm t.1 t.2 (padd p q)) = _
    rw [weigh_addTerm, ih, weigh_cons]; ring

theorem weigh_pmulTerm (f : Mono → R) (c : ℚ) (p : Poly) : weigh f (pmulTerm [] c p) = algebraMap ℚ R c * weigh f p := by
  induction p with
  | nil => simp [pmulTerm]
  | cons t p ih =>
    show weigh f (addTerm t.1 (c * t.2) (pmulTerm [] c p)) = _
    rw [weigh_addTerm, ih, weigh_cons, map_mul]; ring

theorem weigh_pmulConst (f : Mono → R) (c : ℚ) (p : Poly) : weigh f (pmul (pconst c) p) = algebraMap ℚ R c * weigh f p := by
  unfold pconst
  split
  · rename_i h; simp [h, pmul]
  · show weigh f (padd (pmulTerm [] c p) []) = _
    rw [weigh_padd, weigh_pmulTerm, weigh_nil, add_zero]

/-- Properties of all monomials. -/
def EveryM (Q : Mono → Prop) (p : Poly) : Prop := ∀ t ∈ p, Q t.1

section
variable {Q : Mono → Prop}

theorem EveryM.nil : EveryM Q [] := by intro t ht; cases ht

theorem EveryM.cons {t : Mono × ℚ} {p : Poly} (ht : Q t.1) (hp : EveryM Q p) : EveryM Q (t :: p) := by
  intro s hs
  rcases List.mem_cons.1 hs with rfl | hs
  · exact ht
  · exact hp s hs

theorem EveryM.head {t : Mono × ℚ} {p : Poly} (h : EveryM Q (t :: p)) : Q t.1 := h t (by simp)
theorem EveryM.tail {t : Mono × ℚ} {p : Poly} (h : EveryM Q (t :: p)) : EveryM Q p := fun s hs => h s (by simp [hs])

theorem every_addTerm (m : Mono) (c : ℚ) (p : Poly) (hm : Q m) (hp : EveryM Q p) : EveryM Q (addTerm m c p) := by
  induction p with
  | nil =>
    unfold addTerm
    split
    · exact hp
    · exact .cons hm hp
  | cons t p ih =>
    obtain ⟨n, d⟩ := t
    unfold addTerm
    split
    · split
      · exact hp.tail
      · exact .cons hp.head hp.tail
    · split
      · exact hp
      · split
        · exact .cons hm hp
        · exact .cons hp.head (ih hp.tail)

theorem every_padd (p q : Poly) (hp : EveryM Q p) (hq : EveryM Q q) : EveryM Q (padd p q) := by
  induction p with
  | nil => exact hq
  | cons t p ih => exact every_addTerm _ _ _ hp.head (ih hp.tail)

theorem every_pmulTerm (c : ℚ) (p : Poly) (hp : EveryM Q p) : EveryM Q (pmulTerm [] c p) := by
  induction p with
  | nil => exact .nil
  | cons t p ih => exact every_addTerm _ _ _ hp.head (ih hp.tail)

theorem every_pmulConst (c : ℚ) (p : Poly) (hp : EveryM Q p) : EveryM Q (pmul (pconst c) p) := by
  unfold pconst
  split
  · exact .nil
  · exact every_padd _ _ (every_pmulTerm _ _ hp) .nil

end

/-! ## Expectations with trends -/

/-- The value of the expectation of a product of a trend and a function, when the trend of `x` has the value `σ x`; the usual value of other
expressions. -/
def trendVal (S : Interp R) (σ : Ex → R) (a : Ex) : R :=
  match a with
  | .ex (.mul (.deriv x [(t, 1)]) (.fn v b)) => if t = time then S.E (σ x * S.fn v b) else den S a
  | .ex (.mul (.fn v b) (.deriv x [(t, 1)])) => if t = time then S.E (σ x * S.fn v b) else den S a
  | _ => den S a

/-- Monomials. -/
def trendM (S : Interp R) (σ : Ex → R) (m : Mono) : R :=
  match m with
  | [(a, q)] => if q = 1 then trendVal S σ a else denM S m
  | _ => denM S m

/-- The expectation of the product of a trend and a random function. -/
def Tied (S : Interp R) (P : Set R) (C : Set Str) (a : Ex) : Prop := ∃ u args v b, time ∈ args ∧ omega ∈ args ∧ omega ∈ b ∧ Regular S P C (.fn v b) ∧
  (a = .ex (.mul (dt (.fn u args)) (.fn v b)) ∨ a = .ex (.mul (.fn v b) (dt (.fn u args))))

theorem trendVal_left (S : Interp R) (σ : Ex → R) (x : Ex) (v : Str) (b : List Str) :
    trendVal S σ (.ex (.mul (dt x) (.fn v b))) = S.E (σ x * S.fn v b) := by simp [trendVal, dt]

theorem trendVal_right (S : Interp R) (σ : Ex → R) (x : Ex) (v : Str) (b : List Str) :
    trendVal S σ (.ex (.mul (.fn v b) (dt x))) = S.E (σ x * S.fn v b) := by simp [trendVal, dt]

theorem trendVal_free (S : Interp R) (σ : Ex → R) (a : Ex) (h : TimeFree a) : trendVal S σ a = den S a := by
  unfold trendVal
  split
  · split
    · rename_i e
      exact absurd (h.1.2 _ (List.mem_singleton_self _) e) (by simp)
    · rfl
  · split
    · rename_i e
      exact absurd (h.2.2 _ (List.mem_singleton_self _) e) (by simp)
    · rfl
  · rfl

theorem tied_not_free {S : Interp R} {P : Set R} {C : Set Str} {a : Ex} (h : Tied S P C a) : ¬ TimeFree a := by
  obtain ⟨u, args, v, b, -, -, -, -, rfl | rfl⟩ := h
  · exact fun h => absurd (h.1.2 _ (List.mem_singleton_self _) rfl) (by simp)
  · exact fun h => absurd (h.2.2 _ (List.mem_singleton_self _) rfl) (by simp)

variable {S : Interp R} {A : Subalgebra ℚ R} {P : Set R} {C : Set Str} {σ : Ex → R}

/-- Terms without trends, or with the expectation of a trend and a random function. -/
def GoodM (S : Interp R) (P : Set R) (C : Set Str) (m : Mono) : Prop :=
  (AllM (fun a _ => TF noFn a) m ∧ MOK S P C m) ∨ ∃ a, m = [(a, 1)] ∧ Tied S P C a

theorem trendM_free (hS : Stochastic S A) (m : Mono) (h : AllM (fun a _ => TF noFn a) m) : trendM S σ m = denM S m := by
  unfold trendM
  split
  · rename_i a q
    split
    · rename_i e
      subst e
      rw [trendVal_free S σ a ((timeFree_iff _).1 h.head)]
      simp [denM, pw_one hS.diff]
    · rfl
  · rfl

/-- The value and the terms of a polynomial. -/
def Has (S : Interp R) (P : Set R) (C : Set Str) (σ : Ex → R) (p : Poly) (r : R) : Prop := EveryM (GoodM S P C) p ∧ weigh (trendM S σ) p = r

theorem Has.padd {p q : Poly} {r s : R} (hp : Has S P C σ p r) (hq : Has S P C σ q s) : Has S P C σ (padd p q) (r + s) :=
  ⟨every_padd _ _ hp.1 hq.1, by rw [weigh_padd, hp.2, hq.2]⟩

theorem Has.const {p : Poly} {r : R} (c : ℚ) (hp : Has S P C σ p r) : Has S P C σ (pmul (pconst c) p) (algebraMap ℚ R c * r) :=
  ⟨every_pmulConst _ _ hp.1, by rw [weigh_pmulConst, hp.2]⟩

/-- Expressions without trends. -/
theorem has_free (hS : Stochastic S A) (hC : Calculus S P C) (e : Ex) (h : TimeFree e) (he : Regular S P C e) : Has S P C σ (ofEx e) (den S e) := by
  obtain ⟨h1, h2⟩ := ofEx_spec hS hC e he
  have h3 : TFP noFn (ofEx e) := tf_ofEx _ ((timeFree_iff _).2 h)
  refine ⟨fun t ht => .inl ⟨h3 t ht, h2 t ht⟩, ?_⟩
  rw [← h1]
  generalize ofEx e = p at h3
  induction p with
  | nil => rfl
  | cons t p ih => rw [weigh_cons, denP_cons, ih h3.tail, trendM_free hS _ h3.head]

/-- The expectation of the product of two random atoms. -/
theorem expect_pair (X Y : Ex) (hX : rnd X = true) (hY : rnd Y = true) (hne : X ≠ Y) :
    pexpect (pmul (patom X) (patom Y)) = patom (.ex (.mul X Y)) ∨ pexpect (pmul (patom X) (patom Y)) = patom (.ex (.mul Y X)) := by
  have key : ∀ X Y : Ex, rnd X = true → rnd Y = true → pexpect [([(X, 1), (Y, 1)], 1)] = patom (.ex (.mul X Y)) := by
    intro X Y hX hY
    show padd (expectTerm _) [] = _
    have : expectTerm ([(X, 1), (Y, 1)], 1) = pmulTerm [] 1 (patom (.ex (.mul X Y))) := by
      have e : monoEx [(X, 1), (Y, 1)] = .mul X Y := by simp [monoEx, factorEx, prod]
      rw [← e]
      unfold expectTerm
      simp only [List.filter_cons, hX, hY, List.filter_nil, Bool.not_true, if_true, Bool.false_eq_true, if_false]
    rw [this]
    simp [padd, pmulTerm, patom, addTerm, monoMul]
  rw [pmul_patom]
  unfold mulAtom
  rw [if_neg hne]
  split
  · exact .inl (key X Y hX hY)
  · exact .inr (key Y X hY hX)

theorem rnd_fn (u : Str) (args : List Str) (h : omega ∈ args) : rnd (.fn u args) = true := fnD_rnd u args [] h

theorem rnd_dt (u : Str) (args : List Str) (h : omega ∈ args) : rnd (dt (.fn u args)) = true := fnD_rnd u args [(time, 1)] h

/-- The expectation of a trend and a random function is not changed by an evaluation, up to the order of the factors. -/
theorem has_tied (u v : Str) (args b : List Str) (ht : time ∈ args) (ho : omega ∈ args) (hb : omega ∈ b)
    (hv : Regular S P C (.fn v b)) : Has S P C σ (pexpect (pmul (patom (dt (.fn u args))) (patom (.fn v b)))) (S.E (σ (.fn u args) * S.fn v b)) ∧
    Has S P C σ (pexpect (pmul (patom (.fn v b)) (patom (dt (.fn u args))))) (S.E (σ (.fn u args) * S.fn v b)) := by
  have one : ∀ a, Tied S P C a → trendVal S σ a = S.E (σ (.fn u args) * S.fn v b) → Has S P C σ (patom a) (S.E (σ (.fn u args) * S.fn v b)) := by
    intro a ha e
    refine ⟨.cons (.inr ⟨a, rfl, ha⟩) .nil, ?_⟩
    simp [patom, trendM, e]
  have l := one _ ⟨u, args, v, b, ht, ho, hb, hv, .inl rfl⟩ (trendVal_left S σ _ v b)
  have r := one _ ⟨u, args, v, b, ht, ho, hb, hv, .inr rfl⟩ (trendVal_right S σ _ v b)
  constructor
  · rcases expect_pair (dt (.fn u args)) (.fn v b) (rnd_dt _ _ ho) (rnd_fn _ _ hb) (by simp [dt]) with e | e <;> rw [e] <;> assumption
  · rcases expect_pair (.fn v b) (dt (.fn u args)) (rnd_fn _ _ hb) (rnd_dt _ _ ho) (by simp [dt]) with e | e <;> rw [e] <;> assumption

/-! ## Evaluation and substitution -/

/-- The operations on expressions that are additive, linear and right on the terms. -/
structure Sound (S : Interp R) (P : Set R) (C : Set Str) (σ : Ex → R) (op : Ex → Poly) : Prop where
  num : ∀ c, op (.num c) = pconst c
  add : ∀ a b, op (.add a b) = padd (op a) (op b)
  mul : ∀ a b, op (.mul a b) = pmul (op a) (op b)
  free : ∀ e, TimeFree e → Regular S P C e → Has S P C σ (op e) (den S e)
  tied : ∀ a, Tied S P C a → Has S P C σ (op a) (trendVal S σ a)

theorem Sound.term (hS : Stochastic S A) {op : Ex → Poly} (h : Sound S P C σ op) (t : Mono × ℚ) (ht : GoodM S P C t.1) :
    Has S P C σ (op (termEx t)) (algebraMap ℚ R t.2 * trendM S σ t.1) := by
  obtain ⟨m, c⟩ := t
  rcases ht with ⟨h1, h2⟩ | ⟨a, e, ha⟩
  · rw [trendM_free hS _ h1]
    have := h.free (termEx (m, c)) ((timeFree_iff _).1 ?_) (termEx_ok _ h2)
    · rwa [termEx_den hS.diff] at this
    · unfold termEx
      split
      · exact tf_monoEx _ h1
      · split
        · trivial
        · exact ⟨trivial, tf_monoEx _ h1⟩
  · simp only at e
    subst e
    have e1 : monoEx [(a, 1)] = a := by simp [monoEx, factorEx, prod]
    have e2 : trendM S σ [(a, 1)] = trendVal S σ a := by simp [trendM]
    rw [e2]
    unfold termEx
    rw [e1]
    split
    · rename_i h1
      have h1 : c = 1 := h1
      subst h1
      rw [map_one, one_mul]
      exact h.tied a ha
    · rw [if_neg (by simp), h.mul, h.num]
      exact (h.tied a ha).const c

theorem Sound.poly (hS : Stochastic S A) {op : Ex → Poly} (h : Sound S P C σ op) (p : Poly) {r : R} (hp : Has S P C σ p r) :
    Has S P C σ (op (toEx p)) r := by
  obtain ⟨h1, rfl⟩ := hp
  induction p with
  | nil =>
    rw [toEx, h.num]
    exact ⟨.nil, rfl⟩
  | cons t p ih =>
    cases p with
    | nil =>
      have := h.term hS t h1.head
      rwa [← add_zero (_ * _)] at this
    | cons s p =>
      show Has S P C σ (op (.add (termEx t) (toEx (s :: p)))) _
      rw [h.add, weigh_cons]
      exact (h.term hS t h1.head).padd (ih h1.tail)

theorem sound_ofEx (hS : Stochastic S A) (hC : Calculus S P C) : Sound S P C σ ofEx where
  num _ := rfl
  add _ _ := rfl
  mul _ _ := rfl
  free e h he := has_free hS hC e h he
  tied a ha := by
    obtain ⟨u, args, v, b, ht, ho, hb, hv, rfl | rfl⟩ := ha
    · rw [trendVal_left]
      show Has S P C σ (pexpect (pmul (ofEx (dt (.fn u args))) (patom (.fn v b)))) _
      rw [ofEx_dtFn u args ht]
      exact (has_tied u v args b ht ho hb hv).1
    · rw [trendVal_right]
      show Has S P C σ (pexpect (pmul (patom (.fn v b)) (ofEx (dt (.fn u args))))) _
      rw [ofEx_dtFn u args ht]
      exact (has_tied u v args b ht ho hb hv).2

/-- The substitution of a trend in an expression without trends. -/
theorem subst_free (u : Str) (args : List Str) (new : Poly) (e : Ex) (h : TimeFree e) : subst (dt (.fn u args)) new e = ofEx e := by
  have ne : e ≠ dt (.fn u args) := by
    rintro rfl
    exact absurd (h.2 _ (List.mem_singleton_self _) rfl) (by simp)
  induction e with
  | num q => unfold subst; rw [if_neg ne]; rfl
  | sym s => unfold subst; rw [if_neg ne]; rfl
  | fn v b => unfold subst; rw [if_neg ne]; rfl
  | func g a ih => unfold subst; rw [if_neg ne]; simp only [ofEx]; rw [ih h (by rintro rfl; exact absurd (h.2 _ (List.mem_singleton_self _) rfl) (by simp))]
  | add a b iha ihb =>
    unfold subst; rw [if_neg ne]; simp only [ofEx]
    rw [iha h.1 (by rintro rfl; exact absurd (h.1.2 _ (List.mem_singleton_self _) rfl) (by simp)), ihb h.2 (by rintro rfl; exact absurd (h.2.2 _ (List.mem_singleton_self _) rfl) (by simp))]
  | mul a b iha ihb =>
    unfold subst; rw [if_neg ne]; simp only [ofEx]
    rw [iha h.1 (by rintro rfl; exact absurd (h.1.2 _ (List.mem_singleton_self _) rfl) (by simp)), ihb h.2 (by rintro rfl; exact absurd (h.2.2 _ (List.mem_singleton_self _) rfl) (by simp))]
  | pow a q ih => unfold subst; rw [if_neg ne]; simp only [ofEx]; rw [ih h (by rintro rfl; exact absurd (h.2 _ (List.mem_singleton_self _) rfl) (by simp))]
  | deriv a vars ih =>
    unfold subst; rw [if_neg ne]; simp only [ofEx]
    unfold dt
    rw [derivRest_trend, T0.takeVar_none h.2, ite_self]
    show pdiffs vars (subst (dt (.fn u args)) new a) = _
    rw [ih h.1 (by rintro rfl; exact absurd (h.1.2 _ (List.mem_singleton_self _) rfl) (by simp))]
  | integ a x ih => unfold subst; rw [if_neg ne]; simp only [ofEx]; rw [ih h (by rintro rfl; exact absurd (h.2 _ (List.mem_singleton_self _) rfl) (by simp))]
  | ex a ih => unfold subst; rw [if_neg ne]; simp only [ofEx]; rw [ih h (by rintro rfl; exact absurd (h.2 _ (List.mem_singleton_self _) rfl) (by simp))]
  | other b => unfold subst; rw [if_neg ne]; rfl

/-- The entry of a dictionary of trends: the trend of a random function, to be replaced by an expression with the value `σ`. -/
def Entry (S : Interp R) (P : Set R) (C : Set Str) (σ : Ex → R) (kv : Ex × Ex) : Prop :=
  TimeFree kv.2 ∧ Regular S P C kv.2 ∧ ∃ u args, kv.1 = dt (.fn u args) ∧ time ∈ args ∧ den S kv.2 = σ (.fn u args)

theorem subst_fn (u v : Str) (args b : List Str) (new : Poly) : subst (dt (.fn u args)) new (.fn v b) = patom (.fn v b) := subst_free _ _ _ _ trivial

theorem subst_dt (u u' : Str) (args args' : List Str) (new : Poly) (ht : time ∈ args') :
    subst (dt (.fn u args)) new (dt (.fn u' args')) = if Ex.fn u' args' = .fn u args then new else patom (dt (.fn u' args')) := by
  by_cases e : Ex.fn u' args' = .fn u args
  · rw [if_pos e, e]
    unfold subst
    rw [if_pos rfl]
  · rw [if_neg e]
    have ne : Ex.deriv (.fn u' args') [(time, 1)] ≠ dt (.fn u args) := by
      intro h
      exact e (Ex.deriv.inj h).1
    have h1 : subst (dt (.fn u args)) new (dt (.fn u' args')) = pdiffs [(time, 1)] (subst (dt (.fn u args)) new (.fn u' args')) := by
      conv_lhs => rw [show dt (.fn u' args') = .deriv (.fn u' args') [(time, 1)] from rfl, subst, if_neg ne]
      simp only [dt, derivRest_trend, if_neg e]
    rw [h1, subst_fn]
    exact ofEx_dtFn u' args' ht

theorem sound_subst (hS : Stochastic S A) (hC : Calculus S P C) (u : Str) (args : List Str) (w : Ex) (h1 : TimeFree w) (h2 : Regular S P C w)
    (h3 : den S w = σ (.fn u args)) : Sound S P C σ (subst (dt (.fn u args)) (ofEx w)) where
  num c := by unfold subst; rw [if_neg (by simp [dt])]
  add a b := by rw [subst]; rw [if_neg (by simp [dt])]
  mul a b := by rw [subst]; rw [if_neg (by simp [dt])]
  free e h he := by rw [subst_free _ _ _ _ h]; exact has_free hS hC e h he
  tied a ha := by
    obtain ⟨u', args', v, b, ht, ho, hb, hv, rfl | rfl⟩ := ha
    · rw [trendVal_left]
      have e1 : subst (dt (.fn u args)) (ofEx w) (.ex (.mul (dt (.fn u' args')) (.fn v b))) =
          pexpect (pmul (subst (dt (.fn u args)) (ofEx w) (dt (.fn u' args'))) (patom (.fn v b))) := by
        rw [subst, if_neg (by simp [dt])]
        rw [subst, if_neg (by simp [dt]), subst_fn]
      rw [e1, subst_dt _ _ _ _ _ ht]
      split
      · rename_i e
        rw [e, ← h3]
        exact has_free hS hC (.ex (.mul w (.fn v b))) ⟨h1, trivial⟩ (.inl ⟨h2, hv⟩)
      · exact (has_tied u' v args' b ht ho hb hv).1
    · rw [trendVal_right]
      have e1 : subst (dt (.fn u args)) (ofEx w) (.ex (.mul (.fn v b) (dt (.fn u' args')))) =
          pexpect (pmul (patom (.fn v b)) (subst (dt (.fn u args)) (ofEx w) (dt (.fn u' args')))) := by
        rw [subst, if_neg (by simp [dt])]
        rw [subst, if_neg (by simp [dt]), subst_fn]
      rw [e1, subst_dt _ _ _ _ _ ht]
      split
      · rename_i e
        rw [e, ← h3, mul_comm]
        exact has_free hS hC (.ex (.mul (.fn v b) w)) ⟨trivial, h1⟩ (.inl ⟨hv, h2⟩)
      · exact (has_tied u' v args' b ht ho hb hv).2

/-- The substitution of trends. -/
theorem has_substAll (hS : Stochastic S A) (hC : Calculus S P C) (l : List (Ex × Ex)) (hl : ∀ kv ∈ l, Entry S P C σ kv) (e : Ex) (r : R)
    (he : Has S P C σ (ofEx e) r) : ∃ p, substAll l e = toEx p ∧ Has S P C σ p r := by
  have step : ∀ (l : List (Ex × Ex)), (∀ kv ∈ l, Entry S P C σ kv) → ∀ p, Has S P C σ p r →
      ∃ p', l.foldl (fun e kv => substEx kv.1 kv.2 e) (toEx p) = toEx p' ∧ Has S P C σ p' r := by
    intro l
    induction l with
    | nil => exact fun _ p hp => ⟨p, rfl, hp⟩
    | cons kv l ih =>
      intro hl p hp
      obtain ⟨h1, h2, u, args, e1, ht, h3⟩ := hl kv (by simp)
      refine ih (fun kv h => hl kv (by simp [h])) (subst (eval kv.1) (ofEx kv.2) (eval (toEx p))) ?_
      have e2 : eval kv.1 = dt (.fn u args) := by
        rw [e1, eval, ofEx_dtFn u args ht, toEx_patom]
      rw [e2]
      exact (sound_subst hS hC u args kv.2 h1 h2 h3).poly hS _ ((sound_ofEx hS hC).poly hS _ hp)
  exact step l hl _ he

/-- When no trend is left. -/
theorem has_value (hS : Stochastic S A) (p : Poly) (r : R) (h : Has S P C σ p r) (hp : TimeFree (toEx p)) :
    den S (toEx p) = r ∧ Regular S P C (toEx p) := by
  obtain ⟨h1, rfl⟩ := h
  have key : ∀ p : Poly, TimeFree (toEx p) → ∀ t ∈ p, TimeFree (termEx t) := by
    intro p
    induction p with
    | nil => intro _ t ht; cases ht
    | cons s p ih =>
      intro h t ht
      cases p with
      | nil =>
        rw [List.mem_singleton] at ht
        rw [ht]; exact h
      | cons s' p =>
        rcases List.mem_cons.1 ht with rfl | ht
        · exact h.1
        · exact ih h.2 t ht
  have good : ∀ t ∈ p, AllM (fun a _ => TF noFn a) t.1 ∧ MOK S P C t.1 := by
    intro t ht
    rcases h1 t ht with h2 | ⟨a, e, ha⟩
    · exact h2
    · have h3 := key p hp t ht
      have e1 : monoEx [(a, 1)] = a := by simp [monoEx, factorEx, prod]
      unfold termEx at h3
      rw [e, e1, if_neg (show ¬ [(a, (1 : ℚ))] = [] by simp)] at h3
      split at h3
      · exact absurd h3 (tied_not_free ha)
      · exact absurd h3.2 (tied_not_free ha)
  refine ⟨?_, toEx_ok _ fun t ht => (good t ht).2⟩
  rw [toEx_den hS.diff]
  clear hp h1 key
  induction p with
  | nil => rfl
  | cons t p ih => rw [weigh_cons, denP_cons, ih (fun t ht => good t (by simp [ht])), trendM_free hS _ (good t (by simp)).1]

/-! ## The trends of second moments -/

/-- Products of a trend and a random function. -/
def Linked (S : Interp R) (P : Set R) (C : Set Str) (m : Mono) : Prop := ∃ X Y, m = [(X, 1), (Y, 1)] ∧ rnd X = true ∧ rnd Y = true ∧ Tied S P C (.ex (.mul X Y))

/-- The expectation, term by term. -/
theorem has_pexpect (p : Poly) (h : EveryM (Linked S P C) p) : Has S P C σ (pexpect p) (weigh (fun m => trendVal S σ (.ex (monoEx m))) p) := by
  induction p with
  | nil => exact ⟨.nil, rfl⟩
  | cons t p ih =>
    rw [weigh_cons]
    refine Has.padd ?_ (ih h.tail)
    obtain ⟨m, c⟩ := t
    obtain ⟨X, Y, e, hX, hY, ht⟩ := h.head
    simp only at e
    subst e
    have e1 : monoEx [(X, 1), (Y, 1)] = .mul X Y := by simp [monoEx, factorEx, prod]
    have e2 : expectTerm ([(X, 1), (Y, 1)], c) = pmulTerm [] c (patom (.ex (.mul X Y))) := by
      rw [← e1]
      unfold expectTerm
      simp only [List.filter_cons, hX, hY, List.filter_nil, Bool.not_true, if_true, Bool.false_eq_true, if_false]
    rw [e2, e1]
    refine ⟨every_pmulTerm _ _ (.cons (.inr ⟨_, rfl, ht⟩) .nil), ?_⟩
    rw [weigh_pmulTerm]
    simp [patom, trendM]

section
variable (u v : Str) (args b : List Str) (ht : time ∈ args) (ht' : time ∈ b) (ho : omega ∈ args) (ho' : omega ∈ b)
  (hu : Regular S P C (.fn u args)) (hv : Regular S P C (.fn v b))
include ht ho ho' hv

/-- The product of a trend and a random function, sorted. -/
theorem linked_mulAtom : (Linked S P C (mulAtom (dt (.fn u args)) 1 [(.fn v b, 1)]) ∧
      trendVal S σ (.ex (monoEx (mulAtom (dt (.fn u args)) 1 [(.fn v b, 1)]))) = S.E (σ (.fn u args) * S.fn v b)) ∧
    (Linked S P C (mulAtom (.fn v b) 1 [(dt (.fn u args), 1)]) ∧
      trendVal S σ (.ex (monoEx (mulAtom (.fn v b) 1 [(dt (.fn u args), 1)]))) = S.E (σ (.fn u args) * S.fn v b)) := by
  have e1 : ∀ X Y : Ex, monoEx [(X, 1), (Y, 1)] = .mul X Y := by intro X Y; simp [monoEx, factorEx, prod]
  have l : Linked S P C [(dt (.fn u args), 1), (.fn v b, 1)] ∧
      trendVal S σ (.ex (monoEx [(dt (.fn u args), 1), (.fn v b, 1)])) = S.E (σ (.fn u args) * S.fn v b) :=
    ⟨⟨_, _, rfl, rnd_dt _ _ ho, rnd_fn _ _ ho', u, args, v, b, ht, ho, ho', hv, .inl rfl⟩, by rw [e1, trendVal_left]⟩
  have r : Linked S P C [(.fn v b, 1), (dt (.fn u args), 1)] ∧
      trendVal S σ (.ex (monoEx [(.fn v b, 1), (dt (.fn u args), 1)])) = S.E (σ (.fn u args) * S.fn v b) :=
    ⟨⟨_, _, rfl, rnd_fn _ _ ho', rnd_dt _ _ ho, u, args, v, b, ht, ho, ho', hv, .inr rfl⟩, by rw [e1, trendVal_right]⟩
  constructor
  · unfold mulAtom
    rw [if_neg (by simp [dt])]
    split
    · exact l
    · exact r
  · unfold mulAtom
    rw [if_neg (by simp [dt])]
    split
    · exact r
    · exact l

end

theorem diffAtom_fn (u : Str) (args : List Str) (ht : time ∈ args) : diffAtom time (.fn u args) = patom (dt (.fn u args)) := by
  simp [diffAtom, constIn, ht, dt, patom]

/-- The trend of the second moment of a random function. -/
theorem has_square (u : Str) (args : List Str) (ht : time ∈ args) (ho : omega ∈ args) (hu : Regular S P C (.fn u args)) :
    Has S P C σ (ofEx (.ex (dt (.pow (.fn u args) 2)))) (2 * S.E (σ (.fn u args) * S.fn u args)) := by
  have e2 : ppow (patom (.fn u args)) 2 = [([(.fn u args, 2)], 1)] := by
    unfold ppow
    rw [if_pos (by decide +kernel)]
    show pmul (patom _) (pmul (patom _) (pconst 1)) = _
    simp [pconst, patom, pmul_single, monoMul, mulAtom]
    norm_num
  show Has S P C σ (pexpect (pdiff time (ppow (patom (.fn u args)) 2))) _
  rw [e2, pdiff_single]
  obtain ⟨-, l1, l2⟩ := linked_mulAtom (S := S) (P := P) (C := C) (σ := σ) u u args args ht ho ho hu
  have e : diffMono time [(.fn u args, 2)] = padd [(monoMul (mulAtom (.fn u args) 1 [(dt (.fn u args), 1)]) [], 2)] [] := by
    have e : pmul (pmul (pmul (pconst 2) (if (2 : ℚ) = 1 then pconst 1 else [([(.fn u args, 2 - 1)], 1)])) (diffAtom time (.fn u args))) [([], 1)] =
        [(monoMul (mulAtom (.fn u args) 1 [(dt (.fn u args), 1)]) [], 2)] := by
      rw [if_neg (by norm_num), diffAtom_fn u args ht]
      have : (2 : ℚ) - 1 = 1 := by norm_num
      rw [this]
      simp [pconst, patom, pmul_single, monoMul]
    show padd _ (pmul _ []) = _
    rw [e, pmul_nil]
  have key : Linked S P C (monoMul (mulAtom (.fn u args) 1 [(dt (.fn u args), 1)]) []) ∧
      trendVal S σ (.ex (monoEx (monoMul (mulAtom (.fn u args) 1 [(dt (.fn u args), 1)]) []))) = S.E (σ (.fn u args) * S.fn u args) := by
    obtain ⟨k1, k2⟩ := linked_mulAtom (S := S) (P := P) (C := C) (σ := σ) u u args args ht ho ho hu
    unfold mulAtom
    rw [if_neg (by simp [dt])]
    split
    · exact k2
    · exact k1
  rw [e]
  have := has_pexpect (S := S) (P := P) (C := C) (σ := σ) (padd (pmul (pconst 1) (padd [(monoMul (mulAtom (.fn u args) 1 [(dt (.fn u args), 1)]) [], 2)] [])) [])
    (every_padd _ _ (every_pmulConst _ _ (every_padd _ _ (.cons key.1 .nil) .nil)) .nil)
  rw [weigh_padd, weigh_pmulConst, weigh_padd, weigh_cons, key.2, show algebraMap ℚ R 2 = 2 from map_ofNat _ 2] at this
  simpa using this

/-- The trend of the covariance of two random functions. -/
theorem has_product (u v : Str) (args b : List Str) (ht : time ∈ args) (ht' : time ∈ b) (ho : omega ∈ args) (ho' : omega ∈ b)
    (hu : Regular S P C (.fn u args)) (hv : Regular S P C (.fn v b)) (hne : Ex.fn u args ≠ .fn v b) :
    Has S P C σ (ofEx (.ex (dt (.mul (.fn u args) (.fn v b))))) (S.E (σ (.fn u args) * S.fn v b) + S.E (σ (.fn v b) * S.fn u args)) := by
  have one : ∀ (u v : Str) (args b : List Str), time ∈ args → time ∈ b → omega ∈ args → omega ∈ b → Regular S P C (.fn u args) → Regular S P C (.fn v b) →
      Has S P C σ (pexpect (pdiff time [([(.fn u args, 1), (.fn v b, 1)], 1)])) (S.E (σ (.fn u args) * S.fn v b) + S.E (σ (.fn v b) * S.fn u args)) := by
    intro u v args b ht ht' ho ho' hu hv
    obtain ⟨⟨k1, k2⟩, -⟩ := linked_mulAtom (S := S) (P := P) (C := C) (σ := σ) u v args b ht ho ho' hv
    obtain ⟨-, l1, l2⟩ := linked_mulAtom (S := S) (P := P) (C := C) (σ := σ) v u b args ht' ho' ho hu
    rw [pdiff_single, diffMono_one _ _ _ (diffAtom_fn u args ht), diffMono_patom _ _ (diffAtom_fn v b ht'), patom,
      pmul_single _ _ one_ne_zero _ _ one_ne_zero, one_mul]
    have := has_pexpect (S := S) (P := P) (C := C) (σ := σ) (padd (pmul (pconst 1) (padd [(mulAtom (dt (.fn u args)) 1 [(.fn v b, 1)], 1)]
      [(mulAtom (.fn u args) 1 [(dt (.fn v b), 1)], 1)])) [])
      (every_padd _ _ (every_pmulConst _ _ (every_padd _ _ (.cons k1 .nil) (.cons l1 .nil))) .nil)
    rw [weigh_padd, weigh_pmulConst, weigh_padd, weigh_cons, weigh_cons, k2, l2] at this
    simp only [map_one, one_mul, weigh_nil, add_zero] at this
    exact this
  show Has S P C σ (pexpect (pdiff time (pmul (patom (.fn u args)) (patom (.fn v b))))) _
  rw [pmul_patom]
  unfold mulAtom
  rw [if_neg hne]
  split
  · exact one u v args b ht ht' ho ho' hu hv
  · rw [add_comm]
    exact one v u b args ht' ht ho' ho hv hu

end

end Sympkf.Spec
