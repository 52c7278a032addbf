import Verif.Lemmas.Random

/-!
# Expressions from which `Expectation` does not lose variables of derivatives
-/

set_option autoImplicit false

namespace Sympkf.Rand

open Text Spec

/-! ## `Random` -/

theorem random_israndom (e : Ex) (h : Random e) : israndom e ≠ .ok false := by
  induction e with
  | num q => exact h.elim
  | ex a _ => exact h.elim
  | other b => exact h.elim
  | sym s => rw [israndom_sym, decide_eq_true (show s = omega from h)]; simp
  | fn u args => rw [israndom_fn, decide_eq_true (show omega ∈ args from h)]; simp
  | func g a ih => rw [israndom_func]; exact ih h
  | pow a q ih => rw [israndom_pow]; exact ih h.2
  | deriv a v ih => rw [israndom_deriv]; exact ih h
  | integ a x ih => rw [israndom_integ]; exact ih h
  | add a b iha ihb =>
    rw [israndom_add, Ne, anyE_ok_false]
    rcases h with h | h
    · exact fun hh => iha h hh.1
    · exact fun hh => ihb h hh.2
  | mul a b iha ihb =>
    rw [israndom_mul, Ne, anyE_ok_false]
    rcases h with h | h
    · exact fun hh => iha h hh.1
    · exact fun hh => ihb h hh.2

theorem randomTerms_random (e : Ex) (h : RandomTerms e) : Random e := by
  induction e with
  | num q => exact h.elim
  | ex a _ => exact h.elim
  | other b => exact h.elim
  | sym s => exact h
  | fn u args => exact h
  | func g a ih => exact h
  | pow a q ih =>
    refine ⟨h.1, ?_⟩
    by_cases hq : ∃ n : ℕ, q = n
    · exact ih (h.2.1 hq)
    · exact h.2.2 hq
  | deriv a v ih => exact h
  | integ a x ih => exact h
  | add a b iha ihb => exact .inl (iha h.1)
  | mul a b iha ihb => exact h.imp iha ihb

theorem nat_iff (q : ℚ) : (q.den = 1 ∧ 0 ≤ q.num) ↔ ∃ n : ℕ, q = n := by
  constructor
  · intro h
    exact ⟨_, rat_nat h⟩
  · rintro ⟨n, rfl⟩
    simp

theorem normal_random (e : Ex) (hn : Normal e) (h : israndom e = .ok true) : Random e := by
  induction e with
  | num q => cases h
  | ex a _ => cases h
  | other b => cases b <;> cases h
  | sym s => rw [israndom_sym] at h; simpa [Random] using h
  | fn u args => rw [israndom_fn] at h; simpa [Random] using h
  | func g a ih => rw [israndom_func] at h; exact ih hn h
  | pow a q ih =>
    rw [israndom_pow] at h
    refine ⟨?_, ih hn.1 h⟩
    rintro rfl
    exact (hn.2 (by simp)).1 rfl
  | deriv a v ih => rw [israndom_deriv] at h; exact ih hn h
  | integ a x ih => rw [israndom_integ] at h; exact ih hn h
  | add a b iha ihb =>
    rw [israndom_add, anyE_ok_true] at h
    rcases h with h | h
    · exact .inl (iha hn.1 h)
    · exact .inr (ihb hn.2 h.2)
  | mul a b iha ihb =>
    rw [israndom_mul, anyE_ok_true] at h
    rcases h with h | h
    · exact .inl (iha hn.1.1 h)
    · exact .inr (ihb hn.2.1 h.2)

theorem normal_randomTerms (e : Ex) (hn : Normal e) (ha : isAdd e = false) (h : israndom e = .ok true) : RandomTerms e := by
  induction e with
  | num q => cases h
  | ex a _ => cases h
  | other b => cases b <;> cases h
  | sym s => exact normal_random _ hn h
  | fn u args => exact normal_random _ hn h
  | func g a ih => exact normal_random (.func g a) hn h
  | deriv a v ih => exact normal_random (.deriv a v) hn h
  | integ a x ih => exact normal_random (.integ a x) hn h
  | pow a q ih =>
    have hr := normal_random _ hn h
    refine ⟨hr.1, fun hq => ?_, fun _ => hr.2⟩
    rw [israndom_pow] at h
    exact ih hn.1 (hn.2 ((nat_iff q).2 hq)).2.1 h
  | add a b iha ihb => cases ha
  | mul a b iha ihb =>
    rw [israndom_mul, anyE_ok_true] at h
    rcases h with h | h
    · exact .inl (iha hn.1.1 hn.1.2 h)
    · exact .inr (ihb hn.2.1 hn.2.2 h.2)

/-! ## `expand` -/

theorem random_distribL (a b : Ex) : Random (distribL a b) ↔ Random a ∨ Random b := by
  induction b with
  | add c d ihc ihd =>
    show Random (distribL a c) ∨ Random (distribL a d) ↔ Random a ∨ (Random c ∨ Random d)
    rw [ihc, ihd]
    tauto
  | _ => exact Iff.rfl

theorem random_distrib (a b : Ex) : Random (distrib a b) ↔ Random a ∨ Random b := by
  induction a with
  | add c d ihc ihd =>
    show Random (distrib c b) ∨ Random (distrib d b) ↔ (Random c ∨ Random d) ∨ Random b
    rw [ihc, ihd]
    tauto
  | _ => exact random_distribL _ _

theorem random_foldl (a b : Ex) (n : ℕ) : Random ((List.replicate n a).foldl distrib b) ↔ Random b ∨ (n ≠ 0 ∧ Random a) := by
  induction n generalizing b with
  | zero => simp
  | succ n ih =>
    rw [List.replicate_succ, List.foldl_cons, ih, random_distrib]
    simp only [ne_eq, Nat.succ_ne_zero, not_false_eq_true, true_and]
    tauto

theorem random_powN (a : Ex) (n : ℕ) : Random (powN a (n + 1)) ↔ Random a := by
  induction a with
  | add c d _ _ =>
    show Random ((List.replicate n (Ex.add c d)).foldl distrib (.add c d)) ↔ _
    rw [random_foldl]
    exact ⟨fun h => h.elim id (fun h => h.2), .inl⟩
  | mul c d ihc ihd =>
    show Random (powN c (n + 1)) ∨ Random (powN d (n + 1)) ↔ Random c ∨ Random d
    rw [ihc, ihd]
  | _ => exact and_iff_right (nat_ne_zero n)

theorem random_expand (e : Ex) : Random (expand e) ↔ Random e := by
  induction e with
  | num q => exact Iff.rfl
  | sym q => exact Iff.rfl
  | fn u q => exact Iff.rfl
  | ex a _ => exact Iff.rfl
  | other b => exact Iff.rfl
  | func g a ih => exact ih
  | add a b iha ihb => exact or_congr iha ihb
  | mul a b iha ihb => exact (random_distrib _ _).trans (or_congr iha ihb)
  | pow a q ih =>
    simp only [expand]
    split
    · rename_i h
      have hn := rat_nat h
      cases hk : q.num.toNat with
      | zero =>
        rw [hk] at hn
        have : powN (expand a) 0 = .num 1 := by cases expand a <;> rfl
        rw [this]
        exact ⟨False.elim, fun hh => hh.1 (by rw [hn]; rfl)⟩
      | succ k =>
        rw [random_powN, ih]
        rw [hk] at hn
        exact (and_iff_right (by rw [hn]; exact nat_ne_zero k)).symm
    · exact and_congr Iff.rfl ih
  | deriv a q ih => exact ih
  | integ a q ih => exact ih

theorem randomTerms_distribL (a b : Ex) (h : RandomTerms a ∨ RandomTerms b) : RandomTerms (distribL a b) := by
  induction b with
  | add c d ihc ihd =>
    refine ⟨ihc ?_, ihd ?_⟩
    · exact h.imp_right (fun h => h.1)
    · exact h.imp_right (fun h => h.2)
  | _ => exact h

theorem randomTerms_distrib (a b : Ex) (h : RandomTerms a ∨ RandomTerms b) : RandomTerms (distrib a b) := by
  induction a with
  | add c d ihc ihd =>
    refine ⟨ihc ?_, ihd ?_⟩
    · exact h.imp_left (fun h => h.1)
    · exact h.imp_left (fun h => h.2)
  | _ => exact randomTerms_distribL _ _ h

theorem randomTerms_foldl (a b : Ex) (n : ℕ) (h : RandomTerms b) : RandomTerms ((List.replicate n a).foldl distrib b) := by
  induction n generalizing b with
  | zero => exact h
  | succ n ih => exact ih _ (randomTerms_distrib _ _ (.inl h))

theorem randomTerms_pow_nat (a : Ex) (n : ℕ) (h : RandomTerms a) : RandomTerms (.pow a ((n + 1 : ℕ) : ℚ)) :=
  ⟨nat_ne_zero n, fun _ => h, fun hh => absurd ⟨_, rfl⟩ hh⟩

theorem randomTerms_powN (a : Ex) (n : ℕ) (h : RandomTerms a) : RandomTerms (powN a (n + 1)) := by
  induction a with
  | add c d _ _ => exact randomTerms_foldl _ _ _ h
  | mul c d ihc ihd => exact h.imp ihc ihd
  | _ => exact randomTerms_pow_nat _ n h

theorem randomTerms_expand (e : Ex) (h : RandomTerms e) : RandomTerms (expand e) := by
  induction e with
  | num q => exact h
  | sym q => exact h
  | fn u q => exact h
  | ex a _ => exact h
  | other b => exact h
  | func g a ih => exact (random_expand a).2 h
  | add a b iha ihb => exact ⟨iha h.1, ihb h.2⟩
  | mul a b iha ihb => exact randomTerms_distrib _ _ (h.imp iha ihb)
  | pow a q ih =>
    simp only [expand]
    split
    · rename_i hq
      have hn := rat_nat hq
      cases hk : q.num.toNat with
      | zero => rw [hk] at hn; exact absurd (by rw [hn]; rfl) h.1
      | succ k => exact randomTerms_powN _ _ (ih (h.2.1 ⟨_, hn⟩))
    · rename_i hq
      rw [nat_iff] at hq
      exact ⟨h.1, fun hh => absurd hh hq, fun _ => (random_expand a).2 (h.2.2 hq)⟩
  | deriv a q ih => exact (random_expand a).2 h
  | integ a q ih => exact (random_expand a).2 h

/-- The product of two expressions is lossless. -/
def LosslessMul (a b : Ex) : Prop := (Lossless a ∨ RandomTerms b) ∧ (Lossless b ∨ RandomTerms a)

theorem lossless_distribL (a b : Ex) (h : LosslessMul a b) : Lossless (distribL a b) := by
  induction b with
  | add c d ihc ihd =>
    refine ⟨ihc ⟨?_, ?_⟩, ihd ⟨?_, ?_⟩⟩
    · exact h.1.imp_right (fun h => h.1)
    · exact h.2.imp_left (fun h => h.1)
    · exact h.1.imp_right (fun h => h.2)
    · exact h.2.imp_left (fun h => h.2)
  | _ => exact h

theorem lossless_distrib (a b : Ex) (h : LosslessMul a b) : Lossless (distrib a b) := by
  induction a with
  | add c d ihc ihd =>
    refine ⟨ihc ⟨?_, ?_⟩, ihd ⟨?_, ?_⟩⟩
    · exact h.1.imp_left (fun h => h.1)
    · exact h.2.imp_right (fun h => h.1)
    · exact h.1.imp_left (fun h => h.2)
    · exact h.2.imp_right (fun h => h.2)
  | _ => exact lossless_distribL _ _ h

/-- A natural power multiplied out is lossless. -/
theorem lossless_foldl (a b : Ex) (n : ℕ) (h : Lossless b) (hab : Lossless a ∨ (RandomTerms a ∧ RandomTerms b)) :
    Lossless ((List.replicate n a).foldl distrib b) := by
  induction n generalizing b with
  | zero => exact h
  | succ n ih =>
    refine ih _ (lossless_distrib _ _ ⟨.inl h, ?_⟩) ?_
    · exact hab.imp_right (fun h => h.2)
    · exact hab.imp_right (fun h => ⟨h.1, randomTerms_distrib _ _ (.inl h.2)⟩)

theorem lossless_pow_nat (a : Ex) (n : ℕ) (h : Lossless a ∨ (RandomTerms a ∧ 2 ≤ n + 1)) : Lossless (.pow a ((n + 1 : ℕ) : ℚ)) := by
  intro m hm
  have : n + 1 = m := by exact_mod_cast hm
  subst this
  exact .inr h

theorem lossless_powN (a : Ex) (n : ℕ) (h : Lossless a ∨ (RandomTerms a ∧ 2 ≤ n + 1)) : Lossless (powN a (n + 1)) := by
  induction a with
  | add c d _ _ =>
    show Lossless ((List.replicate n (Ex.add c d)).foldl distrib (.add c d))
    rcases h with h | ⟨h, hn⟩
    · exact lossless_foldl _ _ _ h (.inl h)
    · cases n with
      | zero => omega
      | succ n =>
        exact lossless_foldl _ _ n (lossless_distrib _ _ ⟨.inr h, .inr h⟩) (.inr ⟨h, randomTerms_distrib _ _ (.inl h)⟩)
  | mul c d ihc ihd =>
    show LosslessMul (powN c (n + 1)) (powN d (n + 1))
    rcases h with ⟨h1, h2⟩ | ⟨h, hn⟩
    · exact ⟨h1.imp (fun h => ihc (.inl h)) (randomTerms_powN d n), h2.imp (fun h => ihd (.inl h)) (randomTerms_powN c n)⟩
    · rcases h with h | h
      · exact ⟨.inl (ihc (.inr ⟨h, hn⟩)), .inr (randomTerms_powN c n h)⟩
      · exact ⟨.inr (randomTerms_powN d n h), .inl (ihd (.inr ⟨h, hn⟩))⟩
  | _ => exact lossless_pow_nat _ n h

theorem lossless_expand (e : Ex) (h : Lossless e) : Lossless (expand e) := by
  induction e with
  | num q => exact h
  | sym q => exact h
  | fn u q => exact h
  | ex a _ => exact h
  | other b => exact h
  | func g a ih => trivial
  | add a b iha ihb => exact ⟨iha h.1, ihb h.2⟩
  | mul a b iha ihb =>
    exact lossless_distrib _ _ ⟨h.1.imp iha (randomTerms_expand b), h.2.imp ihb (randomTerms_expand a)⟩
  | pow a q ih =>
    simp only [expand]
    split
    · rename_i hq
      have hn := rat_nat hq
      cases hk : q.num.toNat with
      | zero =>
        have : powN (expand a) 0 = .num 1 := by cases expand a <;> rfl
        rw [this]
        trivial
      | succ k =>
        rw [hk] at hn
        have := h _ hn
        refine lossless_powN _ _ ?_
        rcases this with h | h | h
        · omega
        · exact .inl (ih h)
        · exact .inr ⟨randomTerms_expand a h.1, h.2⟩
    · rename_i hq
      rw [nat_iff] at hq
      exact fun n hn => absurd ⟨n, hn⟩ hq
  | deriv a q ih =>
    intro hr
    have := h ((random_expand a).1 hr)
    exact ⟨this.1, ih this.2⟩
  | integ a q ih =>
    intro hr
    have := h ((random_expand a).1 hr)
    exact ⟨this.1, ih this.2⟩

/-! ## Factors -/

theorem splitFactors_append (l l' d r : List Ex) (h : splitFactors (l ++ l') = .ok (d, r)) :
    ∃ d1 r1 d2 r2, splitFactors l = .ok (d1, r1) ∧ splitFactors l' = .ok (d2, r2) ∧ d = d1 ++ d2 ∧ r = r1 ++ r2 := by
  induction l generalizing d r with
  | nil => exact ⟨[], [], d, r, rfl, h, rfl, rfl⟩
  | cons f l ih =>
    simp only [List.cons_append, splitFactors, bind, Except.bind, pure, Except.pure] at h
    rcases hf : israndom f with e | b
    · rw [hf] at h; cases h
    · rw [hf] at h
      rcases hs : splitFactors (l ++ l') with e | ⟨d', r'⟩
      · rw [hs] at h; cases h
      · rw [hs] at h
        obtain ⟨d1, r1, d2, r2, h1, h2, rfl, rfl⟩ := ih d' r' hs
        cases b
        · simp only [Bool.false_eq_true, if_false, Except.ok.injEq, Prod.mk.injEq] at h
          obtain ⟨rfl, rfl⟩ := h
          exact ⟨f :: d1, r1, d2, r2, by simp [splitFactors, hf, h1, bind, Except.bind, pure, Except.pure], h2, rfl, rfl⟩
        · simp only [if_true, Except.ok.injEq, Prod.mk.injEq] at h
          obtain ⟨rfl, rfl⟩ := h
          exact ⟨d1, f :: r1, d2, r2, by simp [splitFactors, hf, h1, bind, Except.bind, pure, Except.pure], h2, rfl, rfl⟩

theorem israndom_factors (e : Ex) (h : ∀ f ∈ factors e, israndom f = .ok false) : israndom e = .ok false := by
  induction e with
  | mul a b iha ihb =>
    rw [israndom_mul, anyE_ok_false]
    exact ⟨iha (fun f hf => h f (List.mem_append.2 (.inl hf))), ihb (fun f hf => h f (List.mem_append.2 (.inr hf)))⟩
  | _ => exact h _ (List.mem_singleton.2 rfl)

theorem splitFactors_nil (e : Ex) (d : List Ex) (h : splitFactors (factors e) = .ok (d, [])) : israndom e = .ok false := by
  refine israndom_factors e (fun f hf => ?_)
  obtain ⟨h1, h2, -, h4⟩ := splitFactors_mem _ _ _ h
  have key : ∀ (l d r : List Ex), splitFactors l = .ok (d, r) → ∀ f ∈ l, f ∈ d ∨ f ∈ r := by
    intro l
    induction l with
    | nil => intro d r _ f hf; simp at hf
    | cons g l ih =>
      intro d r h f hf
      simp only [splitFactors, bind, Except.bind, pure, Except.pure] at h
      rcases hg : israndom g with e | b
      · rw [hg] at h; cases h
      · rw [hg] at h
        rcases hs : splitFactors l with e | ⟨d', r'⟩
        · rw [hs] at h; cases h
        · rw [hs] at h
          have := ih d' r' hs
          cases b
          · simp only [Bool.false_eq_true, if_false, Except.ok.injEq, Prod.mk.injEq] at h
            obtain ⟨rfl, rfl⟩ := h
            rcases List.mem_cons.1 hf with rfl | hf
            · exact .inl List.mem_cons_self
            · exact (this f hf).imp_left (List.mem_cons_of_mem _)
          · simp only [if_true, Except.ok.injEq, Prod.mk.injEq] at h
            obtain ⟨rfl, rfl⟩ := h
            rcases List.mem_cons.1 hf with rfl | hf
            · exact .inr List.mem_cons_self
            · exact (this f hf).imp_right (List.mem_cons_of_mem _)
  rcases key _ _ _ h f hf with hd | hr
  · exact (h1 f hd).2
  · simp at hr

theorem lossless_single (e f : Ex) (d : List Ex) (hl : Lossless e) (h : splitFactors (factors e) = .ok (d, [f])) : Lossless f := by
  induction e generalizing d with
  | mul a b iha ihb =>
    obtain ⟨d1, r1, d2, r2, h1, h2, rfl, hr⟩ := splitFactors_append _ _ _ _ h
    rcases List.append_eq_cons_iff.1 hr.symm with ⟨rfl, rfl⟩ | ⟨r', rfl, hr'⟩
    · have hna := splitFactors_nil a d1 h1
      rcases hl.2 with h | h
      · exact ihb _ h h2
      · exact absurd hna (random_israndom a (randomTerms_random a h))
    · obtain ⟨rfl, rfl⟩ := List.append_eq_nil_iff.1 hr'.symm
      have hnb := splitFactors_nil b d2 h2
      rcases hl.1 with h | h
      · exact iha _ h h1
      · exact absurd hnb (random_israndom b (randomTerms_random b h))
  | _ =>
    have hm := (splitFactors_mem _ _ _ h).2.1 f (List.mem_singleton.2 rfl)
    have : f = _ := List.mem_singleton.1 hm.1
    rw [this]
    exact hl

theorem randomTerms_prod (l : List Ex) (h : ∀ f ∈ l, RandomTerms f) (hl : l ≠ []) : RandomTerms (prod l) := by
  match l with
  | [] => exact absurd rfl hl
  | [f] => exact h f (List.mem_singleton.2 rfl)
  | f :: g :: l => exact .inl (h f List.mem_cons_self)

theorem lossless_prod (e : Ex) (hn : Normal e) (ha : isAdd e = false) (hl : Lossless e) (d r : List Ex)
    (h : splitFactors (factors e) = .ok (d, r)) : Lossless (prod r) := by
  have hr := (splitFactors_mem _ _ _ h).2.1
  have hrt : ∀ f ∈ r, RandomTerms f := fun f hf => by
    have := normal_factors e hn ha f (hr f hf).1
    exact normal_randomTerms f this.1 this.2.1 (hr f hf).2
  match r, h, hrt with
  | [], _, _ => trivial
  | [f], h, _ => exact lossless_single e f d hl h
  | f :: g :: r, _, hrt =>
    exact ⟨.inr (randomTerms_prod (g :: r) (fun x hx => hrt x (List.mem_cons_of_mem _ hx)) (by simp)), .inr (hrt f List.mem_cons_self)⟩

/-! ## Soundness -/

section Den
variable {R : Type} [CommRing R] [Algebra ℚ R] {S : Interp R} {A : Subalgebra ℚ R}

theorem expectation_den (hS : Stochastic S A) (n : ℕ) (e r : Ex) (hd : Lossless e)
    (h : expectation n e = .ok r) : den S r = S.E (den S e) := by
  induction n generalizing e r with
  | zero => cases h
  | succ n ih =>
    have hd' := lossless_expand e hd
    have hn := normal_expand e
    rw [← den_expand hS e]
    simp only [expectation, bind, Except.bind, pure, Except.pure] at h
    generalize expand e = a at h hd' hn
    rcases hr : israndom a with err | (_ | _)
    · rw [hr] at h; cases h
    · rw [hr] at h
      simp only [if_true, Except.ok.injEq] at h
      rw [← h]
      exact (hS.E_const _ (israndom_det hS a hr)).symm
    · rw [hr] at h
      simp only [Bool.true_eq_false, if_false] at h
      cases a with
      | add b c =>
        simp only at h
        rcases hb : expectation n b with err | b'
        · rw [hb] at h; cases h
        · rcases hc : expectation n c with err | c'
          · rw [hb, hc] at h; cases h
          · rw [hb, hc] at h
            cases h
            simp only [den]
            rw [ih _ _ hd'.1 hb, ih _ _ hd'.2 hc, hS.E_add]
      | mul b c =>
        simp only at h
        rcases hs : splitFactors (factors (.mul b c)) with err | ⟨d, rn⟩
        · rw [hs] at h; cases h
        · rw [hs] at h
          simp only at h
          split at h
          · cases h; rfl
          · rcases hb : expectation n (prod rn) with err | r'
            · rw [hb] at h; cases h
            · rw [hb] at h
              cases h
              obtain ⟨h1, h2⟩ := splitFactors_den hS _ _ _ hs
              rw [den_factors] at h1
              have h3 := ih _ _ (lossless_prod _ hn rfl hd' _ _ hs) hb
              rw [h1, hS.E_mul _ _ h2]
              simp only [den, h3]
      | deriv b vars =>
        obtain ⟨⟨x, k, rfl, hx⟩, hb'⟩ := hd' (normal_random (.deriv b vars) hn hr)
        simp only at h
        rcases hb : expectation n b with err | b'
        · rw [hb] at h; cases h
        · rw [hb] at h
          cases h
          simp only [den, List.take_one, List.head?_cons, Option.toList_some, derivs]
          rw [ih _ _ hb' hb, E_iter hS x hx]
      | integ b x =>
        obtain ⟨hx, hb'⟩ := hd' (normal_random (.integ b x) hn hr)
        simp only at h
        rcases hb : expectation n b with err | b'
        · rw [hb] at h; cases h
        · rw [hb] at h
          cases h
          simp only [den]
          rw [ih _ _ hb' hb, hS.E_I x _ hx]
      | _ => simp only [Except.ok.injEq] at h; rw [← h]; rfl

end Den

/-- Expressions whose visible derivatives have a single pair are lossless. -/
theorem lossless_of_simple (e : Ex) (h : SimpleDerivs e) : Lossless e := by
  rw [simpleDerivs_iff] at h
  induction e with
  | num q => trivial
  | sym q => trivial
  | fn u q => trivial
  | ex a _ => trivial
  | other b => trivial
  | func g a ih => trivial
  | add a b iha ihb =>
    rw [allVisible_add] at h
    exact ⟨iha h.2.1, ihb h.2.2⟩
  | mul a b iha ihb =>
    rw [allVisible_mul] at h
    exact ⟨.inl (iha h.2.1), .inl (ihb h.2.2)⟩
  | pow a q ih =>
    rw [allVisible_pow] at h
    exact fun n _ => .inr (.inl (ih h.2))
  | deriv a q ih =>
    rw [allVisible_deriv] at h
    exact fun _ => ⟨h.1, ih h.2⟩
  | integ a q ih =>
    rw [allVisible_integ] at h
    exact fun _ => ⟨h.1, ih h.2⟩

end Sympkf.Rand
