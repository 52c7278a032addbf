import Verif.Lemmas.TimeFreeSubst

/-!
# Lemmas: the left-hand sides of the systems
-/

set_option autoImplicit false

namespace Sympkf.Spec

open Text Rand PKF Pkf

/-! ## Expectations of the trends -/

/-- The mean of the trend: the error first or last. -/
def MeanLhs (f : Field) (e : Ex) : Prop :=
  e = .add (dt (.ex f.error)) (dt (.ex f.random)) ∨ e = .add (dt (.ex f.random)) (dt (.ex f.error))

theorem expect_total (f : Field) (ht : time ∈ f.coordinates) (hne : f.random ≠ f.error) : MeanLhs f (eval (.ex (totalLhs f))) := by
  have e : ofEx (.ex (totalLhs f)) = padd (patom (dt (.ex f.error))) (patom (dt (.ex f.random))) := by
    show pexpect (ofEx (totalLhs f)) = _
    rw [ofEx_totalLhs f ht, (total_sorted f).1]
    have r1 : rnd (dt f.error) = true := by
      have := fnD_rnd ("{e_{".toList ++ f.code ++ "}}".toList) (f.coordinates ++ [omega]) [(time, 1)] (omega_error f)
      exact this
    have r2 : rnd (dt (.ex f.random)) = false := by
      have : israndom (dt (.ex f.random)) = .ok false := by
        unfold dt
        rw [israndom]
        split
        · rfl
        · rw [israndom]
      unfold rnd
      rw [this]
    show padd (expectTerm _) (padd (expectTerm _) []) = _
    have t1 : expectTerm ([(dt f.error, 1)], 1) = patom (dt (.ex f.error)) := by
      simp only [expectTerm, List.filter_cons, r1, List.filter_nil, Bool.not_true, if_true, Bool.false_eq_true, if_false]
      simp [dt, Field.error, pmulTerm, patom, addTerm, monoMul]
    have t2 : expectTerm ([(dt (.ex f.random), 1)], 1) = patom (dt (.ex f.random)) := by
      simp only [expectTerm, List.filter_cons, r2, List.filter_nil, Bool.false_eq_true, if_false]
      rfl
    rw [t1, t2]
    simp [padd, patom, addTerm]
  unfold eval
  rw [e]
  exact toEx_two _ _ (by
    intro h
    simp only [dt, Ex.deriv.injEq, Ex.ex.injEq, and_true] at h
    exact hne h.symm)

/-- The keys of closures: expectations of products, or of centred functions. -/
def KeyOK (f : Field) (kv : Ex × Ex) : Prop :=
  (∃ a, eval kv.1 = .ex a ∧ ∀ u args, a ≠ .fn u args) ∨
    (kv.2 = .num 0 ∧ ∃ u args, kv.1 = .ex (.fn u args) ∧ omega ∈ args ∧ .fn u args ≠ f.random)

/-- The key after evaluation. -/
theorem KeyOK.eval {f : Field} {kv : Ex × Ex} (h : KeyOK f kv) :
    ∃ a, Rand.eval kv.1 = .ex a ∧ a ≠ f.random ∧ ∀ u args, a = .fn u args → kv.2 = .num 0 := by
  rcases h with ⟨a, h1, h2⟩ | ⟨h0, u, args, h1, h2, h3⟩
  · exact ⟨a, h1, h2 _ _, fun u args e => absurd e (h2 u args)⟩
  · exact ⟨.fn u args, by rw [h1, eval_exFn _ _ h2], h3, fun _ _ _ => h0⟩

theorem inert_random (f : Field) (kv : Ex × Ex) (h : KeyOK f kv) : substEx kv.1 kv.2 (dt (.ex f.random)) = dt (.ex f.random) := by
  obtain ⟨a, h1, h2, -⟩ := h.eval
  refine substEx_inert _ _ _ (by rw [h1]; simp) (eval_dtEx _ _ (omega_error f)) ?_
  rw [h1]
  refine ⟨by simp, ?_, by simp [Field.random, Inert]⟩
  intro e
  injection e with e
  exact h2 e.symm

theorem eval_sum (x y : Ex) (hx : ofEx x = patom x) (hy : ofEx y = patom y) (hne : x ≠ y) :
    eval (.add x y) = .add x y ∨ eval (.add x y) = .add y x := by
  have := toEx_two x y hne
  unfold eval
  show toEx (padd (ofEx x) (ofEx y)) = _ ∨ toEx (padd (ofEx x) (ofEx y)) = _
  rw [hx, hy]
  exact this

theorem MeanLhs.eval {f : Field} (hne : f.random ≠ f.error) {e : Ex} (h : MeanLhs f e) : MeanLhs f (Rand.eval e) := by
  have n1 : dt (.ex f.error) ≠ dt (.ex f.random) := by
    intro h
    simp only [dt, Ex.deriv.injEq, Ex.ex.injEq, and_true] at h
    exact hne h.symm
  have e1 : ofEx (dt (.ex f.error)) = patom (dt (.ex f.error)) := ofEx_dtEx _ _ (omega_error f)
  have e2 : ofEx (dt (.ex f.random)) = patom (dt (.ex f.random)) := ofEx_dtEx _ _ (omega_error f)
  rcases h with rfl | rfl
  · exact eval_sum _ _ e1 e2 n1
  · exact (eval_sum _ _ e2 e1 n1.symm).symm

/-- A key that does not occur in the mean of the trend. -/
theorem MeanLhs.inert {f : Field} (hne : f.random ≠ f.error) {e : Ex} (h : MeanLhs f e) (k v : Ex) (hd : ∀ b vs, Rand.eval k ≠ .deriv b vs)
    (ha : ∀ a b, Rand.eval k ≠ .add a b) (h1 : Rand.eval k ≠ .ex f.error) (h2 : Rand.eval k ≠ .ex f.random) (h3 : Rand.eval k ≠ f.error)
    (h4 : Rand.eval k ≠ f.random) : MeanLhs f (substEx k v e) := by
  have hi : ∀ e, MeanLhs f e → Inert (Rand.eval k) e := by
    rintro e (rfl | rfl)
    · exact ⟨(ha _ _).symm, ⟨(hd _ _).symm, h1.symm, h3.symm⟩, (hd _ _).symm, h2.symm, h4.symm⟩
    · exact ⟨(ha _ _).symm, ⟨(hd _ _).symm, h2.symm, h4.symm⟩, (hd _ _).symm, h1.symm, h3.symm⟩
  unfold substEx
  rw [subst_inert _ _ hd _ (hi _ (h.eval hne))]
  exact (h.eval hne).eval hne

/-- The expectation of the error is replaced by zero. -/
theorem MeanLhs.zero {f : Field} (hne : f.random ≠ f.error) {e : Ex} (h : MeanLhs f e) (k : Ex) (hk : Rand.eval k = .ex f.error) :
    substEx k (.num 0) e = dt (.ex f.random) := by
  have s1 : subst (.ex f.error) [] (dt (.ex f.error)) = [] := by
    unfold dt
    unfold subst
    rw [if_neg (by simp)]
    simp only [derivRest_none _ _ _ (show ∀ b vs, Ex.ex f.error ≠ .deriv b vs by simp)]
    unfold subst
    rw [if_pos rfl]
    rfl
  have s2 : subst (.ex f.error) [] (dt (.ex f.random)) = patom (dt (.ex f.random)) := by
    have hi : Inert (.ex f.error) (dt (.ex f.random)) := ⟨by simp, fun e => hne (by injection e), by simp [Field.random, Inert]⟩
    rw [subst_inert _ _ (by simp) _ hi]
    exact ofEx_dtEx _ _ (omega_error f)
  unfold substEx
  rw [hk, show ofEx (.num 0) = [] from rfl]
  rcases h.eval hne with e | e <;> rw [e] <;> unfold subst <;> rw [if_neg (by simp)] <;> simp only [] <;> rw [s1, s2]
  · exact toEx_patom _
  · exact toEx_patom _

/-- The closure on the mean of the trend: the trend of the mean. -/
theorem closure_mean (l : List (Ex × Ex)) (f : Field) (hne : f.random ≠ f.error) (hl : ∀ kv ∈ l, KeyOK f kv)
    (hw : ∃ kv ∈ l, kv.1 = .ex f.error) (e : Ex) (he : MeanLhs f e) : substAll l e = dt (.ex f.random) := by
  have step : ∀ kv ∈ l, ∀ e, MeanLhs f e → MeanLhs f (substEx kv.1 kv.2 e) ∧ eval kv.1 ≠ .ex f.error ∨ substEx kv.1 kv.2 e = dt (.ex f.random) := by
    intro kv hkv e he
    obtain ⟨a, h1, h2, h3⟩ := (hl kv hkv).eval
    by_cases ha : a = f.error
    · right
      rw [h3 _ _ ha]
      exact he.zero hne _ (by rw [h1, ha])
    · left
      have n1 : Ex.ex a ≠ .ex f.error := fun e => ha (by injection e)
      refine ⟨?_, by rw [h1]; exact n1⟩
      refine he.inert hne _ _ ?_ ?_ ?_ ?_ ?_ ?_ <;> rw [h1]
      · simp
      · simp
      · exact n1
      · exact fun e => h2 (by injection e)
      · simp [Field.error]
      · simp [Field.random]
  refine substAll_states l (MeanLhs f) (fun e => e = dt (.ex f.random)) ?_ ?_ ?_ _ (he.eval hne)
  · rintro kv hkv e rfl
    exact inert_random f kv (hl kv hkv)
  · exact fun kv hkv e he => (step kv hkv e he).imp And.left id
  · obtain ⟨kv, hkv, h⟩ := hw
    refine ⟨kv, hkv, fun e he => ?_⟩
    rcases step kv hkv e he with h1 | h1
    · refine absurd ?_ h1.2
      rw [h]
      exact eval_exFn _ _ (omega_error f)
    · exact h1

/-- The trend of the error is what is left. -/
theorem minus_lhs (f : Field) (ht : time ∈ f.coordinates) : minus (totalLhs f) (dt (.ex f.random)) = dt f.error := by
  have e : ofEx (.add (totalLhs f) (.mul (.num (-1)) (dt (.ex f.random)))) = patom (dt f.error) := by
    show padd (ofEx (totalLhs f)) (pmul (pconst (-1)) (ofEx (dt (.ex f.random)))) = _
    rw [ofEx_totalLhs f ht, (total_sorted f).1]
    unfold Field.random
    rw [ofEx_dtEx _ _ (omega_error f)]
    simp [pconst, patom, pmul, pmulTerm, padd, addTerm, monoMul]
  unfold minus eval
  rw [e, toEx_patom]

/-! ## The substitution of the errors in the mean of the trend -/

/-- The mean of the trend, the error being expressed with the variance. -/
def scaledLhs (f : Field) : Ex :=
  .add (.mul (.num (1 / 2)) (.mul (.pow f.variance (-1 / 2)) (.mul (dt f.variance) (.ex f.epsilon))))
    (.add (.mul (.pow f.variance (1 / 2)) (dt (.ex f.epsilon))) (dt (.ex f.random)))

theorem ltNat_append (l a b : List ℕ) : ltNat (l ++ a) (l ++ b) = ltNat a b := by
  induction l with
  | nil => rfl
  | cons x l ih => simp [ltNat, ih]

section Scaled

variable (f : Field) (ht : time ∈ f.coordinates) (ho : omega ∉ f.coordinates)

/-- As a polynomial. -/
def scaledPoly (f : Field) : Poly :=
  [([(f.variance, -1 / 2), (dt f.variance, 1), (.ex f.epsilon, 1)], 1 / 2), ([(f.variance, 1 / 2), (dt (.ex f.epsilon), 1)], 1),
    ([(dt (.ex f.random), 1)], 1)]

theorem scaled_toEx : toEx (scaledPoly f) = scaledLhs f := by
  simp [scaledPoly, scaledLhs, toEx, termEx, monoEx, prod, factorEx]
  norm_num

/-- The two terms of the error, and the trend of the mean. -/
theorem scaled_sum : padd [([(f.variance, -1 / 2), (dt f.variance, 1), (.ex f.epsilon, 1)], (1 / 2 : ℚ)), ([(f.variance, 1 / 2), (dt (.ex f.epsilon), 1)], 1)]
    (patom (dt (.ex f.random))) = scaledPoly f ∧ padd (patom (dt (.ex f.random)))
    [([(f.variance, -1 / 2), (dt f.variance, 1), (.ex f.epsilon, 1)], (1 / 2 : ℚ)), ([(f.variance, 1 / 2), (dt (.ex f.epsilon), 1)], 1)]
     = scaledPoly f := by
  constructor <;>
    simp [padd, patom, addTerm, scaledPoly, monoCode, code, codeNum, dt, Field.variance, ltNat, ltNat_append]
  all_goals decide +kernel

theorem rnd_det (u : Str) (args : List Str) (h : omega ∉ args) : rnd (.fn u args) = false := by
  have : israndom (.fn u args) = .ok false := by simp [israndom, hasOmega, h]
  unfold rnd
  rw [this]

theorem scaled_lt : ltNat (monoCode [(f.variance, -1 / 2), (dt f.variance, 1), (.ex f.epsilon, 1)])
    (monoCode [(f.variance, 1 / 2), (dt (.ex f.epsilon), 1)]) = true := by
  have h1 : (-1 / 2 : ℚ).num.toNat = 0 := by decide +kernel
  have h2 : (1 / 2 : ℚ).num.toNat = 1 := by decide +kernel
  simp only [monoCode, codeNum, List.flatMap_cons, List.append_assoc, ltNat_append, h1, h2]
  simp [ltNat]

theorem scaled_ne : [(f.variance, (-1 / 2 : ℚ)), (dt f.variance, 1), (.ex f.epsilon, 1)] ≠ [(f.variance, 1 / 2), (dt (.ex f.epsilon), 1)] := by
  intro h
  have := congrArg List.length h
  simp at this

omit f in
/-- Two terms in the right order. -/
theorem two_terms (m n : Mono) (c d : ℚ) (hne : m ≠ n) (hl : ltNat (monoCode m) (monoCode n) = true) (hc : c ≠ 0) (hd : d ≠ 0) :
    padd (pmul (pconst 1) [(m, c), (n, d)]) [] = [(m, c), (n, d)] := by
  have e : addTerm m c [(n, d)] = [(m, c), (n, d)] := by
    simp [addTerm, hne, hl, hc]
  have m1 : ∀ m, monoMul [] m = m := fun _ => rfl
  simp only [pconst, one_ne_zero, if_false, pmul, List.foldr_cons, List.foldr_nil, pmulTerm, padd, m1, one_mul]
  rw [show addTerm n d [] = [(n, d)] by simp [addTerm, hd], e]
  simp only [List.foldr_cons, List.foldr_nil]
  rw [show addTerm n d [] = [(n, d)] by simp [addTerm, hd], e]
  simp only [List.foldr_cons, List.foldr_nil]
  rw [show addTerm n d [] = [(n, d)] by simp [addTerm, hd], e]

include ht ho in
theorem scaled_pdiff : pdiff time (pexpect (ofEx (.mul (.pow f.variance (1 / 2)) f.epsilon))) =
    [([(f.variance, -1 / 2), (dt f.variance, 1), (.ex f.epsilon, 1)], 1 / 2), ([(f.variance, 1 / 2), (dt (.ex f.epsilon), 1)], 1)] := by
  have hve : f.variance ≠ f.epsilon := by
    intro h
    simp only [Field.variance, Field.epsilon, Ex.fn.injEq] at h
    have := congrArg List.length h.2
    simp at this
  have e1 : ofEx (.mul (.pow f.variance (1 / 2)) f.epsilon) = [([(f.variance, 1 / 2), (f.epsilon, 1)], 1)] ∨
      ofEx (.mul (.pow f.variance (1 / 2)) f.epsilon) = [([(f.epsilon, 1), (f.variance, 1 / 2)], 1)] := by
    have hp : ppow (patom f.variance) (1 / 2) = [([(f.variance, 1 / 2)], 1)] := by
      unfold ppow
      rw [if_neg (by decide +kernel)]
      simp [patom]
    show pmul (ppow (patom f.variance) (1 / 2)) (patom f.epsilon) = _ ∨ pmul (ppow (patom f.variance) (1 / 2)) (patom f.epsilon) = _
    rw [hp, patom, pmul_single _ _ one_ne_zero _ _ one_ne_zero]
    simp only [monoMul, List.foldr_cons, List.foldr_nil, mulAtom, if_neg hve]
    split <;> simp
  have r1 : rnd f.variance = false := rnd_det _ _ ho
  have r2 : rnd f.epsilon = true := fnD_rnd _ _ [] (omega_error f)
  have e2 : pexpect (ofEx (.mul (.pow f.variance (1 / 2)) f.epsilon)) = [([(f.variance, 1 / 2), (.ex f.epsilon, 1)], 1)] := by
    rcases e1 with e1 | e1 <;> rw [e1] <;> show padd (expectTerm _) [] = _ <;>
      simp only [expectTerm, List.filter_cons, r1, r2, List.filter_nil, Bool.not_true, Bool.not_false, if_true, Bool.false_eq_true, if_false] <;>
      simp [Field.epsilon, Field.variance, pmulTerm, patom, addTerm, monoMul, mulAtom, padd, code, ltNat, monoEx, prod, factorEx]
  have d1 : diffAtom time f.variance = patom (dt f.variance) := by
    simp [diffAtom, Field.variance, constIn, dt, ht]
  have d2 : diffMono time [(.ex f.epsilon, 1)] = patom (dt (.ex f.epsilon)) := diffMono_patom _ _ rfl
  have e3 : diffMono time [(f.variance, 1 / 2), (.ex f.epsilon, 1)] =
      [([(f.variance, -1 / 2), (dt f.variance, 1), (.ex f.epsilon, 1)], 1 / 2), ([(f.variance, 1 / 2), (dt (.ex f.epsilon), 1)], 1)] := by
    rw [diffMono, d1, d2, if_neg (by norm_num)]
    have a1 : pmul (pmul (pmul (pconst (1 / 2)) [([(f.variance, 1 / 2 - 1)], 1)]) (patom (dt f.variance))) [([(.ex f.epsilon, 1)], 1)] =
        [([(f.variance, -1 / 2), (dt f.variance, 1), (.ex f.epsilon, 1)], 1 / 2)] := by
      have : (1 / 2 : ℚ) - 1 = -1 / 2 := by norm_num
      rw [this]
      simp [pconst, pmul_single, patom, monoMul, mulAtom, dt, code, ltNat, Field.variance]
    have a2 : pmul [([(f.variance, 1 / 2)], 1)] (patom (dt (.ex f.epsilon))) = [([(f.variance, 1 / 2), (dt (.ex f.epsilon), 1)], 1)] := by
      simp [pmul_single, patom, monoMul, mulAtom, dt, code, ltNat, Field.variance]
    rw [a1, a2]
    simp only [padd, List.foldr_cons, List.foldr_nil, addTerm, if_neg (scaled_ne f), scaled_lt f]
    norm_num
  rw [e2]
  show padd (pmul (pconst 1) (diffMono time _)) [] = _
  rw [e3]
  exact two_terms _ _ _ _ (scaled_ne f) (scaled_lt f) (by norm_num) one_ne_zero

/-! ### Evaluation -/

include ht in
theorem ofEx_scaled : ofEx (scaledLhs f) = scaledPoly f := by
  have hV : ∀ q : ℚ, isNat q = false → ofEx (.pow f.variance q) = [([(f.variance, q)], 1)] := by
    intro q hq
    show ppow (patom f.variance) q = _
    unfold ppow
    rw [if_neg (by simp [hq])]
    simp [patom]
  have h1 : ofEx (dt f.variance) = patom (dt f.variance) := ofEx_dtFn _ _ ht
  have h2 : ofEx (.ex f.epsilon) = patom (.ex f.epsilon) := ofEx_exFn _ _ (omega_error f)
  have h3 : ofEx (dt (.ex f.epsilon)) = patom (dt (.ex f.epsilon)) := ofEx_dtEx _ _ (omega_error f)
  have h4 : ofEx (dt (.ex f.random)) = patom (dt (.ex f.random)) := ofEx_dtEx _ _ (omega_error f)
  have a1 : pmul (pconst (1 / 2)) (pmul [([(f.variance, -1 / 2)], 1)] (pmul (patom (dt f.variance)) (patom (.ex f.epsilon)))) =
      [([(f.variance, -1 / 2), (dt f.variance, 1), (.ex f.epsilon, 1)], 1 / 2)] := by
    simp [pconst, pmul_single, patom, monoMul, mulAtom, dt, code, ltNat, Field.variance]
  have a2 : pmul [([(f.variance, 1 / 2)], 1)] (patom (dt (.ex f.epsilon))) = [([(f.variance, 1 / 2), (dt (.ex f.epsilon), 1)], 1)] := by
    simp [pmul_single, patom, monoMul, mulAtom, dt, code, ltNat, Field.variance]
  show padd (pmul (pconst (1 / 2)) (pmul (ofEx (.pow f.variance (-1 / 2))) (pmul (ofEx (dt f.variance)) (ofEx (.ex f.epsilon)))))
    (padd (pmul (ofEx (.pow f.variance (1 / 2))) (ofEx (dt (.ex f.epsilon)))) (ofEx (dt (.ex f.random)))) = _
  rw [hV _ (by decide +kernel), hV _ (by decide +kernel), h1, h2, h3, h4, a1, a2]
  have := (scaled_sum f).1
  simp only [padd, List.foldr_cons, List.foldr_nil] at this ⊢
  exact this

include ht in
theorem eval_scaled : eval (scaledLhs f) = scaledLhs f := by
  unfold eval
  rw [ofEx_scaled f ht, scaled_toEx]

end Scaled

/-- Substitution of the error. -/
theorem MeanLhs.scale {f : Field} (ht : time ∈ f.coordinates) (ho : omega ∉ f.coordinates) (hne : f.random ≠ f.error) {e : Ex}
    (h : MeanLhs f e) : substEx f.error (.mul (.pow f.variance (1 / 2)) f.epsilon) e = scaledLhs f := by
  have s1 : subst f.error (ofEx (.mul (.pow f.variance (1 / 2)) f.epsilon)) (dt (.ex f.error)) =
      [([(f.variance, -1 / 2), (dt f.variance, 1), (.ex f.epsilon, 1)], 1 / 2), ([(f.variance, 1 / 2), (dt (.ex f.epsilon), 1)], 1)] := by
    rw [← scaled_pdiff f ht ho]
    unfold dt
    unfold subst
    rw [if_neg (by simp [Field.error])]
    simp only [derivRest_none _ _ _ (show ∀ b vs, f.error ≠ .deriv b vs by simp [Field.error])]
    unfold subst
    rw [if_neg (by simp [Field.error])]
    simp only []
    have : subst f.error (ofEx (.mul (.pow f.variance (1 / 2)) f.epsilon)) f.error = ofEx (.mul (.pow f.variance (1 / 2)) f.epsilon) := by
      unfold subst
      rw [if_pos rfl]
    rw [this]
    rfl
  have s2 : ∀ p, subst f.error p (dt (.ex f.random)) = patom (dt (.ex f.random)) := by
    intro p
    have hi : Inert f.error (dt (.ex f.random)) := ⟨by simp [Field.error], by simp [Field.error], hne⟩
    rw [subst_inert _ _ (by simp [Field.error]) _ hi]
    exact ofEx_dtEx _ _ (omega_error f)
  unfold substEx
  rw [show Rand.eval f.error = f.error from eval_fn _ _]
  rcases h.eval hne with e | e <;> rw [e] <;> unfold subst <;> rw [if_neg (by simp [Field.error])] <;> simp only [] <;> rw [s1, s2]
  · rw [(scaled_sum f).1, scaled_toEx]
  · rw [(scaled_sum f).2, scaled_toEx]

/-- The errors are replaced. -/
theorem error_mean (l : List (Ex × Ex)) (f : Field) (ht : time ∈ f.coordinates) (ho : omega ∉ f.coordinates)
    (hl : ∀ kv ∈ l, ∃ g : Field, g.coordinates = f.coordinates ∧ f.random ≠ g.error ∧
      kv = (g.error, .mul (.pow g.variance (1 / 2)) g.epsilon))
    (hf : ∃ kv ∈ l, kv.1 = f.error) (e : Ex) (he : MeanLhs f e) : substAll l e = scaledLhs f := by
  obtain ⟨kv, hkv, hkf⟩ := hf
  have hne : f.random ≠ f.error := by
    obtain ⟨g, -, h1, rfl⟩ := hl kv hkv
    rw [← hkf]; exact h1
  have work : ∀ kv ∈ l, kv.1 = f.error → ∀ e, MeanLhs f e → substEx kv.1 kv.2 e = scaledLhs f := by
    intro kv hkv e1 e he
    obtain ⟨g, hg, -, rfl⟩ := hl kv hkv
    have hc : g.code = f.code := by
      simp only [Field.error, Ex.fn.injEq] at e1
      have := e1.1
      simpa using this
    have hv : g.variance = f.variance := by simp [Field.variance, hc, hg]
    have hp : g.epsilon = f.epsilon := by simp [Field.epsilon, hc, hg]
    have hq : g.error = f.error := by simp [Field.error, hc, hg]
    simp only [hv, hp, hq]
    exact he.scale ht ho hne
  have inert : ∀ g : Field, f.random ≠ g.error → Inert (eval g.error) (scaledLhs f) := by
    intro g h1
    rw [show eval g.error = g.error from eval_fn _ _]
    have n1 : f.variance ≠ g.error := by
      intro h
      simp only [Field.variance, Field.error, Ex.fn.injEq] at h
      exact ho (by rw [h.2]; simp)
    have n2 : f.epsilon ≠ g.error := by
      intro h
      simp [Field.epsilon, Field.error, Ex.fn.injEq] at h
    refine ⟨by simp [Field.error], ⟨by simp [Field.error], by simp [Field.error, Inert], by simp [Field.error], ⟨by simp [Field.error], n1⟩,
      by simp [Field.error], ⟨by simp [Field.error], n1⟩, by simp [Field.error], n2⟩, by simp [Field.error],
      ⟨by simp [Field.error], ⟨by simp [Field.error], n1⟩, by simp [Field.error], by simp [Field.error], n2⟩, by simp [Field.error],
      by simp [Field.error], h1⟩
  refine substAll_states l (MeanLhs f) (fun e => e = scaledLhs f) ?_ ?_ ⟨kv, hkv, work kv hkv hkf⟩ _ (he.eval hne)
  · rintro kv hkv e rfl
    obtain ⟨g, hg, h1, rfl⟩ := hl kv hkv
    refine substEx_inert _ _ _ ?_ (eval_scaled f ht) (inert g h1)
    rw [show eval g.error = g.error from eval_fn _ _]
    simp [Field.error]
  · intro kv hkv e he
    by_cases h : kv.1 = f.error
    · exact .inr (work kv hkv h e he)
    · left
      obtain ⟨g, hg, h1, rfl⟩ := hl kv hkv
      have e1 : eval g.error = g.error := eval_fn _ _
      refine he.inert hne _ _ ?_ ?_ ?_ ?_ ?_ ?_ <;> simp only [e1]
      · simp [Field.error]
      · simp [Field.error]
      · simp [Field.error]
      · simp [Field.error]
      · exact h
      · exact h1.symm

/-- The closure on the mean of the trend: the trend of the mean. -/
theorem closure_scaled (l : List (Ex × Ex)) (f : Field) (ht : time ∈ f.coordinates) (hre : f.random ≠ f.epsilon) (hl : ∀ kv ∈ l, KeyOK f kv)
    (hw : ∃ kv ∈ l, kv.1 = .ex f.epsilon) : substAll l (scaledLhs f) = dt (.ex f.random) := by
  have zero : ∀ k, eval k = .ex f.epsilon → substEx k (.num 0) (scaledLhs f) = dt (.ex f.random) := by
    intro k hk
    have s2 : subst (.ex f.epsilon) [] (dt (.ex f.random)) = patom (dt (.ex f.random)) := by
      have hi : Inert (.ex f.epsilon) (dt (.ex f.random)) := ⟨by simp, fun e => hre (by injection e), by simp [Field.random, Inert]⟩
      rw [subst_inert _ _ (by simp) _ hi]
      exact ofEx_dtEx _ _ (omega_error f)
    have s3 : subst (.ex f.epsilon) [] (.ex f.epsilon) = [] := by
      unfold subst
      rw [if_pos rfl]
    have s1 : subst (.ex f.epsilon) [] (dt (.ex f.epsilon)) = [] := by
      unfold dt
      unfold subst
      rw [if_neg (by simp)]
      simp only [derivRest_none _ _ _ (show ∀ b vs, Ex.ex f.epsilon ≠ .deriv b vs by simp)]
      rw [s3]
      rfl
    unfold substEx
    rw [hk, eval_scaled f ht, show ofEx (.num 0) = [] from rfl]
    have sm : ∀ a b, subst (.ex f.epsilon) [] b = [] → subst (.ex f.epsilon) [] (.mul a b) = [] := by
      intro a b hb
      unfold subst
      rw [if_neg (by simp)]
      simp only [hb]
      exact pmul_nil _
    have sa : ∀ a b, subst (.ex f.epsilon) [] (.add a b) = padd (subst (.ex f.epsilon) [] a) (subst (.ex f.epsilon) [] b) := by
      intro a b
      conv_lhs => unfold subst
      rw [if_neg (by simp)]
    unfold scaledLhs
    rw [sa, sa, sm _ _ (sm _ _ (sm _ _ s3)), sm _ _ s1, s2]
    exact toEx_patom _
  have step : ∀ kv ∈ l, substEx kv.1 kv.2 (scaledLhs f) = scaledLhs f ∧ eval kv.1 ≠ .ex f.epsilon ∨
      substEx kv.1 kv.2 (scaledLhs f) = dt (.ex f.random) := by
    intro kv hkv
    obtain ⟨a, h1, h2, h3⟩ := (hl kv hkv).eval
    by_cases ha : a = f.epsilon
    · right
      rw [h3 _ _ ha]
      exact zero _ (by rw [h1, ha])
    · left
      have n1 : Ex.ex f.epsilon ≠ .ex a := fun e => ha (by injection e with e; exact e.symm)
      have n2 : Ex.ex f.random ≠ .ex a := fun e => h2 (by injection e with e; exact e.symm)
      refine ⟨substEx_inert _ _ _ (by rw [h1]; simp) (eval_scaled f ht) ?_, by rw [h1]; exact n1.symm⟩
      rw [h1]
      refine ⟨by simp, ⟨by simp, by simp [Inert], by simp, ⟨by simp, by simp [Field.variance, Inert]⟩, by simp,
        ⟨by simp, by simp [Field.variance, Inert]⟩, n1, by simp [Field.epsilon, Inert]⟩, by simp,
        ⟨by simp, ⟨by simp, by simp [Field.variance, Inert]⟩, by simp, n1, by simp [Field.epsilon, Inert]⟩, by simp, n2,
        by simp [Field.random, Inert]⟩
  refine substAll_states l (fun e => e = scaledLhs f) (fun e => e = dt (.ex f.random)) ?_ ?_ ?_ _ (eval_scaled f ht)
  · rintro kv hkv e rfl
    exact inert_random f kv (hl kv hkv)
  · rintro kv hkv e rfl
    exact (step kv hkv).imp And.left id
  · obtain ⟨kv, hkv, h⟩ := hw
    refine ⟨kv, hkv, ?_⟩
    rintro e rfl
    rcases step kv hkv with h1 | h1
    · refine absurd ?_ h1.2
      rw [h]
      exact eval_exFn _ _ (omega_error f)
    · exact h1

end Sympkf.Spec
