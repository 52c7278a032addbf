import Verif.Lemmas.TimeFree

/-!
# Lemmas: substitution of trends
-/

set_option autoImplicit false

namespace Sympkf.Spec

open Text Rand PKF Pkf

/-- A random function with at most spatial derivatives. -/
def Still (Y : Ex) : Prop := ∃ u args vs, Y = fnD u args vs ∧ omega ∈ args ∧ T0 vs

/-- The trend of a random function, with spatial derivatives. -/
def Moving (L : Str → List Str → Prop) (X : Ex) : Prop := ∃ u args vs, X = fnD u args vs ∧ omega ∈ args ∧ L u args ∧ T1 vs

/-- A product with one trend. -/
def Pair (L : Str → List Str → Prop) (a : Ex) : Prop := ∃ X Y, Moving L X ∧ Still Y ∧ (a = .mul X Y ∨ a = .mul Y X)

/-- The derivatives with respect to time in the expression are of first order, of functions in `L`; those in expectations occur in
products of two derivatives of random functions. -/
def TF (L : Str → List Str → Prop) : Ex → Prop
  | .func _ a => TF L a
  | .add a b => TF L a ∧ TF L b
  | .mul a b => TF L a ∧ TF L b
  | .pow a _ => TF L a
  | .deriv a vars => TF L a ∧ T0 vars ∨ ∃ u args, a = .fn u args ∧ L u args ∧ T1 vars
  | .integ a _ => TF L a
  | .ex a => TimeFree a ∨ Pair L a
  | _ => True

/-- No function. -/
def noFn : Str → List Str → Prop := fun _ _ => False

theorem timeFree_iff (e : Ex) : TF noFn e ↔ TimeFree e := by
  induction e with
  | deriv a vars ih =>
    constructor
    · rintro (⟨h1, h2⟩ | ⟨u, args, -, h, -⟩)
      · exact ⟨ih.1 h1, h2⟩
      · exact h.elim
    · rintro ⟨h1, h2⟩
      exact .inl ⟨ih.2 h1, h2⟩
  | ex a ih =>
    constructor
    · rintro (h | ⟨X, Y, ⟨u, args, vs, -, -, h, -⟩, -, -⟩)
      · exact h
      · exact h.elim
    · exact .inl
  | func g a ih => exact ih
  | add a b iha ihb => exact and_congr iha ihb
  | mul a b iha ihb => exact and_congr iha ihb
  | pow a q ih => exact ih
  | integ a x ih => exact ih
  | _ => exact Iff.rfl

variable {L L' : Str → List Str → Prop}

theorem Pair.mono (h : ∀ u args, L u args → L' u args) {a : Ex} (ha : Pair L a) : Pair L' a := by
  obtain ⟨X, Y, ⟨u, args, vs, h1, h2, h3, h4⟩, hY, e⟩ := ha
  exact ⟨X, Y, ⟨u, args, vs, h1, h2, h _ _ h3, h4⟩, hY, e⟩

theorem TF.mono (h : ∀ u args, L u args → L' u args) {e : Ex} (he : TF L e) : TF L' e := by
  induction e with
  | deriv a vars ih =>
    rcases he with ⟨h1, h2⟩ | ⟨u, args, h1, h2, h3⟩
    · exact .inl ⟨ih h1, h2⟩
    · exact .inr ⟨u, args, h1, h _ _ h2, h3⟩
  | ex a ih => exact Or.imp id (Pair.mono h) he
  | func g a ih => exact ih he
  | add a b iha ihb => exact ⟨iha he.1, ihb he.2⟩
  | mul a b iha ihb => exact ⟨iha he.1, ihb he.2⟩
  | pow a q ih => exact ih he
  | integ a x ih => exact ih he
  | _ => trivial

theorem TimeFree.tf {e : Ex} (h : TimeFree e) : TF L e := TF.mono (fun _ _ h => h.elim) ((timeFree_iff e).2 h)

/-! ## Normalisation -/

/-- Every atom of the polynomial. -/
abbrev TFP (L : Str → List Str → Prop) (p : Poly) : Prop := AllF (fun a _ => TF L a) p

theorem TFP.mono (h : ∀ u args, L u args → L' u args) {p : Poly} (hp : TFP L p) : TFP L' p :=
  fun t ht f hf => (hp t ht f hf).mono h

theorem TFP.up {p : Poly} (hp : TFP noFn p) : TFP L p := hp.mono (fun _ _ h => h.elim)

theorem tf_mulOK : MulOK (fun a (_ : ℚ) => TF L a) := fun _ _ _ h _ => h

theorem tf_expr : ExprOK (TF L) := ⟨fun _ => trivial, fun _ _ h1 h2 => ⟨h1, h2⟩, fun _ _ h1 h2 => ⟨h1, h2⟩⟩

theorem tf_factor (a : Ex) (q : ℚ) (h : TF L a) : TF L (factorEx (a, q)) := by
  unfold factorEx
  split
  · exact h
  · exact h

theorem tf_toEx (p : Poly) (h : TFP L p) : TF L (toEx p) := exprOK_toEx tf_expr tf_factor p h

theorem tf_monoEx (m : Mono) (h : AllM (fun a _ => TF L a) m) : TF L (monoEx m) := exprOK_monoEx tf_expr tf_factor m h

theorem tf_hereditary : Hereditary (TF L) where
  num _ := trivial
  add _ _ h h' := ⟨h, h'⟩
  mul _ _ h h' := ⟨h, h'⟩
  func _ _ _ _ _ h := ⟨h, h⟩
  add_inv _ _ h := h
  mul_inv _ _ h := h
  pow _ _ := Iff.rfl

theorem tf_diffOK (x : Str) (hx : x ≠ time) : DiffOK (fun a (_ : ℚ) => TF L a) x := by
  refine tf_hereditary.diffOK x (fun b vars h => ?_) (fun a _ h => .inl ⟨h, .one hx⟩)
  rcases h with ⟨h1, h2⟩ | ⟨u, args, h1, h2, h3⟩
  · exact .inl ⟨h1, h2.bump hx⟩
  · exact .inr ⟨u, args, h1, h2, h3.bump hx⟩

theorem tf_pdiffs (vars : List (Str × ℕ)) (hv : T0 vars) (p : Poly) (hp : TFP L p) : TFP L (pdiffs vars p) := by
  induction vars generalizing p with
  | nil => exact hp
  | cons v vars ih =>
    refine ih hv.tail _ ?_
    show TFP L ((pdiff v.1)^[v.2] p)
    by_cases hx : v.1 = time
    · rw [hv v (by simp) hx]; exact hp
    · generalize v.2 = n
      clear hv ih
      induction n generalizing p with
      | zero => exact hp
      | succ n ih => rw [Function.iterate_succ_apply]; exact ih _ (allF_pdiff tf_mulOK v.1 (tf_diffOK v.1 hx) p hp)

theorem tf_fnD1 (u : Str) (args : List Str) (vs : List (Str × ℕ)) (h : L u args) (hv : T1 vs) : TF L (fnD u args vs) := by
  unfold fnD
  split
  · trivial
  · exact .inr ⟨u, args, rfl, h, hv⟩

theorem tf_fnD0 (u : Str) (args : List Str) (vs : List (Str × ℕ)) (hv : T0 vs) : TF L (fnD u args vs) := by
  unfold fnD
  split
  · trivial
  · exact .inl ⟨trivial, hv⟩

theorem tf_pdiffs_fn (u : Str) (args : List Str) (vars : List (Str × ℕ)) (h : L u args) (hv : T1 vars) :
    TFP L (pdiffs vars (patom (.fn u args))) := by
  have e : Ex.fn u args = fnD u args [] := rfl
  rw [e]
  rcases pdiffs_fnD vars u args [] with ⟨h1, -⟩ | h1
  · rw [h1]; exact .nil
  · rw [h1]; exact allF_patom _ (tf_fnD1 u args _ h (hv.bumps .nil))

theorem tf_ppow (p : Poly) (q : ℚ) (hp : TFP L p) : TFP L (ppow p q) := by
  unfold ppow
  split
  · exact allF_ppowN tf_mulOK _ _ hp
  · split
    · split
      · exact AllF.cons (AllM.cons hp.head.head .nil) .nil
      · exact allF_patom _ (tf_toEx _ hp)
    · exact allF_patom _ (tf_toEx _ hp)

theorem tf_expectTerm (t : Mono × ℚ) (h : AllM (fun a _ => TF noFn a) t.1) : TFP noFn (expectTerm t) := by
  have hd : AllM (fun a _ => TF noFn a) (t.1.filter (fun f => !rnd f.1)) := fun f hf => h f (List.mem_of_mem_filter hf)
  have hr : AllM (fun a _ => TF noFn a) (t.1.filter (fun f => rnd f.1)) := fun f hf => h f (List.mem_of_mem_filter hf)
  unfold expectTerm
  simp only []
  generalize t.1.filter (fun f => rnd f.1) = r at hr
  have gen : ∀ r' : Mono, AllM (fun a _ => TF noFn a) r' →
      TFP noFn (pmulTerm (t.1.filter (fun f => !rnd f.1)) t.2 (patom (.ex (monoEx r')))) := by
    intro r' hr
    exact allF_pmulTerm tf_mulOK _ _ _ hd (allF_patom _ (.inl ((timeFree_iff _).1 (tf_monoEx _ hr))))
  split
  · exact AllF.cons h .nil
  · rename_i u args vars q
    have h1 : TF noFn (.deriv (.fn u args) vars) := hr.head
    split
    · refine allF_pmulTerm tf_mulOK _ _ _ hd (allF_patom _ ?_)
      rcases h1 with ⟨-, h2⟩ | ⟨_, _, -, h2, -⟩
      · exact .inl ⟨.inl trivial, fun v hv => h2 v (List.mem_of_mem_take hv)⟩
      · exact h2.elim
    · exact gen _ hr
  · rename_i b x q
    have h1 : TF noFn (.integ b x) := hr.head
    split
    · refine allF_pmulTerm tf_mulOK _ _ _ hd (allF_patom _ (.inl ?_))
      exact (timeFree_iff _).1 h1
    · exact gen _ hr
  · exact gen _ hr

theorem tf_pexpect (p : Poly) (hp : TFP noFn p) : TFP noFn (pexpect p) := by
  induction p with
  | nil => exact .nil
  | cons t p ih => exact allF_padd _ _ (tf_expectTerm t hp.head) (ih hp.tail)

/-! ## Products in expectations -/

theorem Moving.rnd {X : Ex} (h : Moving L X) : rnd X = true := by
  obtain ⟨u, args, vs, rfl, ho, -, -⟩ := h
  exact fnD_rnd u args vs ho

theorem Still.rnd {Y : Ex} (h : Still Y) : Rand.rnd Y = true := by
  obtain ⟨u, args, vs, rfl, ho, -⟩ := h
  exact fnD_rnd u args vs ho

theorem Moving.ne_still {X Y : Ex} (hX : Moving L X) (hY : Still Y) : X ≠ Y := by
  obtain ⟨u, args, vs, rfl, -, -, h1⟩ := hX
  obtain ⟨u', args', vs', rfl, -, h0⟩ := hY
  have hne : vs ≠ [] := by rintro rfl; obtain ⟨r, h, -⟩ := h1; cases h
  intro e
  unfold fnD at e
  rw [if_neg hne] at e
  split at e
  · cases e
  · injection e with _ e
    exact h1.not0 (e ▸ h0)

/-- The monomial is a product of a trend and a random factor. -/
def PairM (L : Str → List Str → Prop) (m : Mono) : Prop :=
  ∃ X Y, Moving L X ∧ Still Y ∧ (m = [(X, 1), (Y, 1)] ∨ m = [(Y, 1), (X, 1)])

/-- Every term. -/
def PairP (L : Str → List Str → Prop) (p : Poly) : Prop := ∀ t ∈ p, PairM L t.1

theorem pairM_mulAtom {X Y : Ex} (hX : Moving L X) (hY : Still Y) : PairM L (mulAtom X 1 [(Y, 1)]) := by
  unfold mulAtom
  rw [if_neg (hX.ne_still hY)]
  split
  · exact ⟨X, Y, hX, hY, .inl rfl⟩
  · exact ⟨X, Y, hX, hY, .inr rfl⟩

theorem pairM_mulAtom' {X Y : Ex} (hX : Moving L X) (hY : Still Y) : PairM L (mulAtom Y 1 [(X, 1)]) := by
  unfold mulAtom
  rw [if_neg (Ne.symm (hX.ne_still hY))]
  split
  · exact ⟨X, Y, hX, hY, .inr rfl⟩
  · exact ⟨X, Y, hX, hY, .inl rfl⟩

theorem pair_addTerm (m : Mono) (c : ℚ) (p : Poly) (hm : PairM L m) (hp : PairP L p) : PairP L (addTerm m c p) := by
  have cons : ∀ (t : Mono × ℚ) (p : Poly), PairM L t.1 → PairP L p → PairP L (t :: p) := by
    intro t p ht hp s hs
    rcases List.mem_cons.1 hs with rfl | hs
    · exact ht
    · exact hp s hs
  induction p with
  | nil =>
    unfold addTerm
    split
    · exact hp
    · exact cons _ _ hm hp
  | cons t p ih =>
    obtain ⟨n, d⟩ := t
    have h1 : PairM L n := hp (n, d) (by simp)
    have h2 : PairP L p := fun s hs => hp s (by simp [hs])
    unfold addTerm
    split
    · split
      · exact h2
      · exact cons _ _ h1 h2
    · split
      · exact hp
      · split
        · exact cons _ _ hm hp
        · exact cons _ _ h1 (ih h2)

theorem pair_padd (p q : Poly) (hp : PairP L p) (hq : PairP L q) : PairP L (padd p q) := by
  induction p with
  | nil => exact hq
  | cons t p ih => exact pair_addTerm _ _ _ (hp t (by simp)) (ih (fun s hs => hp s (by simp [hs])))

theorem tf_expectPair (t : Mono × ℚ) (h : PairM L t.1) : TFP L (expectTerm t) := by
  obtain ⟨X, Y, hX, hY, e⟩ := h
  have hr : t.1.filter (fun f => rnd f.1) = t.1 := by
    rcases e with e | e <;> simp [e, hX.rnd, hY.rnd]
  have hd : t.1.filter (fun f => !rnd f.1) = [] := by
    rcases e with e | e <;> simp [e, hX.rnd, hY.rnd]
  have key : expectTerm t = pmulTerm [] t.2 (patom (.ex (monoEx t.1))) := by
    unfold expectTerm
    simp only [hr, hd]
    rcases e with e | e <;> rw [e] <;> split <;> simp_all
  rw [key]
  refine allF_pmulTerm tf_mulOK _ _ _ .nil (allF_patom _ (.inr ⟨X, Y, hX, hY, ?_⟩))
  rcases e with e | e
  · left; rw [e]; simp [monoEx, factorEx, prod]
  · right; rw [e]; simp [monoEx, factorEx, prod]

theorem tf_pexpectPair (p : Poly) (h : PairP L p) : TFP L (pexpect p) := by
  induction p with
  | nil => exact .nil
  | cons t p ih => exact allF_padd _ _ (tf_expectPair t (h t (by simp))) (ih (fun s hs => h s (by simp [hs])))

/-- `Still` and `Moving` after evaluation. -/
theorem Still.ofEx {Y : Ex} (h : Still Y) : ofEx Y = [] ∨ ∃ Y', Still Y' ∧ Rand.ofEx Y = patom Y' := by
  obtain ⟨u, args, vs, rfl, ho, hv⟩ := h
  unfold fnD
  split
  · exact .inr ⟨.fn u args, ⟨u, args, [], rfl, ho, .nil⟩, rfl⟩
  · rcases pdiffs_fnD vs u args [] with ⟨h1, -⟩ | h1
    · exact .inl h1
    · exact .inr ⟨_, ⟨u, args, _, rfl, ho, hv.bumps .nil⟩, h1⟩

theorem Moving.ofEx {X : Ex} (h : Moving L X) : ofEx X = [] ∨ ∃ X', Moving L X' ∧ Rand.ofEx X = patom X' := by
  obtain ⟨u, args, vs, rfl, ho, hL, hv⟩ := h
  have hne : vs ≠ [] := by rintro rfl; obtain ⟨r, h, -⟩ := hv; cases h
  unfold fnD
  rw [if_neg hne]
  rcases pdiffs_fnD vs u args [] with ⟨h1, -⟩ | h1
  · exact .inl h1
  · exact .inr ⟨_, ⟨u, args, _, rfl, ho, hL, hv.bumps .nil⟩, h1⟩

theorem tf_pair_mul (p q : Poly) (hp : p = [] ∨ ∃ X, Moving L X ∧ p = patom X) (hq : q = [] ∨ ∃ Y, Still Y ∧ q = patom Y) :
    PairP L (pmul p q) ∧ PairP L (pmul q p) := by
  have nil : PairP L [] := by intro t ht; cases ht
  rcases hp with rfl | ⟨X, hX, rfl⟩
  · rw [pmul_nil]; exact ⟨nil, nil⟩
  · rcases hq with rfl | ⟨Y, hY, rfl⟩
    · rw [pmul_nil]; exact ⟨nil, nil⟩
    · rw [pmul_patom, pmul_patom]
      refine ⟨fun t ht => ?_, fun t ht => ?_⟩ <;> rw [List.mem_singleton] at ht <;> subst ht
      · exact pairM_mulAtom hX hY
      · exact pairM_mulAtom' hX hY

theorem tf_ofEx (e : Ex) (h : TF L e) : TFP L (ofEx e) := by
  induction e generalizing L with
  | num q => exact allF_pconst q
  | sym s => exact allF_patom _ trivial
  | fn u args => exact allF_patom _ trivial
  | func g a ih => exact allF_patom _ (tf_toEx _ (ih h))
  | add a b iha ihb => exact allF_padd _ _ (iha h.1) (ihb h.2)
  | mul a b iha ihb => exact allF_pmul tf_mulOK _ _ (iha h.1) (ihb h.2)
  | pow a q ih => exact tf_ppow _ _ (ih h)
  | deriv a vars ih =>
    rcases h with ⟨h1, h2⟩ | ⟨u, args, rfl, h2, h3⟩
    · exact tf_pdiffs _ h2 _ (ih h1)
    · exact tf_pdiffs_fn u args vars h2 h3
  | integ a x ih => exact allF_patom _ (tf_toEx _ (ih h))
  | ex a ih =>
    rcases h with h | ⟨X, Y, hX, hY, e⟩
    · exact TFP.up (tf_pexpect _ (ih ((timeFree_iff a).2 h)))
    · obtain ⟨h1, h2⟩ := tf_pair_mul _ _ hX.ofEx hY.ofEx
      rcases e with rfl | rfl
      · exact tf_pexpectPair _ h1
      · exact tf_pexpectPair _ h2
  | other b => exact allF_patom _ trivial

theorem tf_eval (e : Ex) (h : TF L e) : TF L (eval e) := tf_toEx _ (tf_ofEx e h)

/-! ## Substitution -/

/-- Substitution in an expression without time derivatives. -/
theorem timeFree_subst (old : Ex) (new : Poly) (hn : TFP noFn new) (e : Ex) (h : TF noFn e) : TFP noFn (subst old new e) := by
  induction e with
  | num q =>
    unfold subst; split
    · exact hn
    · exact allF_pconst q
  | sym s =>
    unfold subst; split
    · exact hn
    · exact allF_patom _ h
  | fn u args =>
    unfold subst; split
    · exact hn
    · exact allF_patom _ h
  | func g a ih =>
    unfold subst; split
    · exact hn
    · exact allF_patom _ (tf_toEx _ (ih h))
  | add a b iha ihb =>
    unfold subst; split
    · exact hn
    · exact allF_padd _ _ (iha h.1) (ihb h.2)
  | mul a b iha ihb =>
    unfold subst; split
    · exact hn
    · exact allF_pmul tf_mulOK _ _ (iha h.1) (ihb h.2)
  | pow a q ih =>
    unfold subst; split
    · exact hn
    · exact tf_ppow _ _ (ih h)
  | deriv a vars ih =>
    rcases h with ⟨h1, h2⟩ | ⟨u, args, -, h2, -⟩
    · unfold subst; split
      · exact hn
      · simp only []
        split
        · rename_i rest hr
          refine tf_pdiffs _ ?_ _ hn
          unfold derivRest at hr
          split at hr
          · split at hr
            · exact h2.varsSub hr
            · cases hr
          · cases hr
        · exact tf_pdiffs _ h2 _ (ih h1)
    · exact h2.elim
  | integ a x ih =>
    unfold subst; split
    · exact hn
    · exact allF_patom _ (tf_toEx _ (ih h))
  | ex a ih =>
    unfold subst; split
    · exact hn
    · exact tf_pexpect _ (ih ((timeFree_iff a).2 ((timeFree_iff (.ex a)).1 h)))
  | other b =>
    unfold subst; split
    · exact hn
    · exact allF_patom _ h

theorem timeFree_substEx (old new e : Ex) (hn : TimeFree new) (he : TimeFree e) : TimeFree (substEx old new e) :=
  (timeFree_iff _).1 (tf_toEx _ (timeFree_subst _ _ (tf_ofEx _ ((timeFree_iff _).2 hn)) _ (tf_eval _ ((timeFree_iff _).2 he))))

theorem timeFree_substAll (l : List (Ex × Ex)) (hl : ∀ kv ∈ l, TimeFree kv.2) (e : Ex) (he : TimeFree e) :
    TimeFree (substAll l e) := by
  unfold substAll
  have h0 : TimeFree (eval e) := (timeFree_iff _).1 (tf_eval e ((timeFree_iff _).2 he))
  generalize eval e = e0 at h0
  induction l generalizing e0 with
  | nil => exact h0
  | cons kv l ih => exact ih (fun kv h => hl kv (by simp [h])) _ (timeFree_substEx _ _ _ (hl kv (by simp)) h0)

/-- The function without trend. -/
def without (L : Str → List Str → Prop) (u : Str) (args : List Str) : Str → List Str → Prop :=
  fun u' args' => L u' args' ∧ ¬ (u' = u ∧ args' = args)

theorem derivRest_trend (u : Str) (args : List Str) (a : Ex) (vars : List (Str × ℕ)) :
    derivRest (.deriv (.fn u args) [(time, 1)]) a vars = if a = .fn u args then takeVar time 1 vars else none := by
  unfold derivRest
  split
  · rename_i b vs e
    cases e
    split
    · simp only [varsSub]
      cases takeVar time 1 vars <;> rfl
    · rfl
  · rename_i h
    exact absurd rfl (h _ _)

/-- What the substitution of a trend does to a product in an expectation: the factor with the trend. -/
theorem subst_moving (u : Str) (args : List Str) (new : Poly) (X : Ex) (hX : Moving L X) :
    (subst (.deriv (.fn u args) [(time, 1)]) new X = [] ∨
      ∃ X', Moving (without L u args) X' ∧ subst (.deriv (.fn u args) [(time, 1)]) new X = patom X') ∨
    (∃ vars, T0 vars ∧ subst (.deriv (.fn u args) [(time, 1)]) new X = pdiffs vars new) := by
  obtain ⟨u', args', vs, rfl, ho, hL, hv⟩ := hX
  have hne : vs ≠ [] := by rintro rfl; obtain ⟨r, h, -⟩ := hv; cases h
  unfold fnD
  rw [if_neg hne]
  unfold subst
  split
  · exact .inr ⟨[], .nil, rfl⟩
  · simp only [derivRest_trend]
    by_cases e : Ex.fn u' args' = .fn u args
    · rw [if_pos e]
      obtain ⟨rest, h1, h2⟩ := hv
      rw [h1]
      exact .inr ⟨rest, h2, rfl⟩
    · rw [if_neg e]
      left
      have hs : subst (.deriv (.fn u args) [(time, 1)]) new (.fn u' args') = patom (fnD u' args' []) := by
        unfold subst
        rw [if_neg (by simp)]
        rfl
      simp only [hs]
      rcases pdiffs_fnD vs u' args' [] with ⟨h1, -⟩ | h1
      · exact .inl h1
      · refine .inr ⟨_, ⟨u', args', _, rfl, ho, ⟨hL, ?_⟩, hv.bumps .nil⟩, h1⟩
        rintro ⟨rfl, rfl⟩
        exact e rfl

/-- The other factor. -/
theorem subst_still (u : Str) (args : List Str) (new : Poly) (Y : Ex) (hY : Still Y) :
    subst (.deriv (.fn u args) [(time, 1)]) new Y = [] ∨
      ∃ Y', Still Y' ∧ subst (.deriv (.fn u args) [(time, 1)]) new Y = patom Y' := by
  obtain ⟨u', args', vs, rfl, ho, hv⟩ := hY
  have hs : subst (.deriv (.fn u args) [(time, 1)]) new (.fn u' args') = patom (fnD u' args' []) := by
    unfold subst
    rw [if_neg (by simp)]
    rfl
  unfold fnD
  split
  · exact .inr ⟨_, ⟨u', args', [], rfl, ho, .nil⟩, hs⟩
  · unfold subst
    rw [if_neg (by
      intro e
      injection e with _ e
      subst e
      exact T1.one.not0 hv)]
    simp only [derivRest_trend]
    rw [hv.takeVar_none]
    simp only [ite_self, hs]
    rcases pdiffs_fnD vs u' args' [] with ⟨h1, -⟩ | h1
    · exact .inl h1
    · exact .inr ⟨_, ⟨u', args', _, rfl, ho, hv.bumps .nil⟩, h1⟩

/-- Substitution of the trend of a function. -/
theorem tf_subst_trend (u : Str) (args : List Str) (new : Poly) (hn : TFP noFn new) (e : Ex) (h : TF L e) :
    TFP (without L u args) (subst (.deriv (.fn u args) [(time, 1)]) new e) := by
  have hn' : TFP (without L u args) new := hn.up
  induction e with
  | num q =>
    unfold subst; split
    · exact hn'
    · exact allF_pconst q
  | sym s =>
    unfold subst; split
    · exact hn'
    · exact allF_patom _ trivial
  | fn u args =>
    unfold subst; split
    · exact hn'
    · exact allF_patom _ trivial
  | func g a ih =>
    unfold subst; split
    · exact hn'
    · exact allF_patom _ (tf_toEx _ (ih h))
  | add a b iha ihb =>
    unfold subst; split
    · exact hn'
    · exact allF_padd _ _ (iha h.1) (ihb h.2)
  | mul a b iha ihb =>
    unfold subst; split
    · exact hn'
    · exact allF_pmul tf_mulOK _ _ (iha h.1) (ihb h.2)
  | pow a q ih =>
    unfold subst; split
    · exact hn'
    · exact tf_ppow _ _ (ih h)
  | deriv a vars ih =>
    unfold subst; split
    · exact hn'
    · simp only [derivRest_trend]
      rcases h with ⟨h1, h2⟩ | ⟨u', args', rfl, h2, h3⟩
      · rw [h2.takeVar_none]
        simp only [ite_self]
        exact tf_pdiffs _ h2 _ (ih h1)
      · by_cases e : Ex.fn u' args' = .fn u args
        · rw [if_pos e]
          obtain ⟨rest, h4, h5⟩ := h3
          rw [h4]
          exact tf_pdiffs _ h5 _ hn'
        · rw [if_neg e]
          have hs : subst (.deriv (.fn u args) [(time, 1)]) new (.fn u' args') = patom (.fn u' args') := by
            unfold subst
            rw [if_neg (by simp)]
          simp only [hs]
          refine tf_pdiffs_fn u' args' vars ⟨h2, ?_⟩ h3
          rintro ⟨rfl, rfl⟩
          exact e rfl
  | integ a x ih =>
    unfold subst; split
    · exact hn'
    · exact allF_patom _ (tf_toEx _ (ih h))
  | ex a ih =>
    unfold subst; split
    · exact hn'
    · rcases h with h | ⟨X, Y, hX, hY, e⟩
      · exact (tf_pexpect _ (timeFree_subst _ _ hn a ((timeFree_iff a).2 h))).up
      · have hYs := subst_still u args new Y hY
        have hYt : TFP noFn (subst (.deriv (.fn u args) [(time, 1)]) new Y) := by
          rcases hYs with hYs | ⟨Y', ⟨u', args', vs, rfl, -, hv⟩, hYs⟩
          · rw [hYs]; exact .nil
          · rw [hYs]; exact allF_patom _ (tf_fnD0 _ _ _ hv)
        rcases subst_moving u args new X hX with hXs | ⟨vars, hv, hXs⟩
        · obtain ⟨p1, p2⟩ := tf_pair_mul _ _ hXs hYs
          rcases e with rfl | rfl
          · refine tf_pexpectPair _ ?_
            unfold subst
            rw [if_neg (by simp)]
            exact p1
          · refine tf_pexpectPair _ ?_
            unfold subst
            rw [if_neg (by simp)]
            exact p2
        · have hXt : TFP noFn (subst (.deriv (.fn u args) [(time, 1)]) new X) := by rw [hXs]; exact tf_pdiffs _ hv _ hn
          refine TFP.up (tf_pexpect _ ?_)
          rcases e with rfl | rfl
          · unfold subst
            rw [if_neg (by simp)]
            exact allF_pmul tf_mulOK _ _ hXt hYt
          · unfold subst
            rw [if_neg (by simp)]
            exact allF_pmul tf_mulOK _ _ hYt hXt
  | other b =>
    unfold subst; split
    · exact hn'
    · exact allF_patom _ trivial

/-- Substitution of the trends of functions: these trends disappear. -/
theorem tf_trends (l : List (Ex × Ex))
    (hl : ∀ kv ∈ l, TimeFree kv.2 ∧ ∃ u args, kv.1 = .deriv (.fn u args) [(time, 1)] ∧ time ∈ args) (e : Ex)
    (he : TFP L (ofEx e)) :
    TF (fun u args => L u args ∧ ∀ kv ∈ l, kv.1 ≠ .deriv (.fn u args) [(time, 1)]) (substAll l e) := by
  unfold substAll
  have h0 : TF L (eval e) := tf_toEx _ he
  generalize eval e = e0 at h0
  clear he e
  induction l generalizing e0 L with
  | nil => exact h0.mono (fun u args h => ⟨h, by simp⟩)
  | cons kv l ih =>
    obtain ⟨h1, u, args, h2, h3⟩ := hl kv (by simp)
    have := ih (L := without L u args) (fun kv h => hl kv (by simp [h])) (substEx kv.1 kv.2 e0) (by
      refine tf_toEx _ ?_
      rw [h2, eval_trend u args h3]
      exact tf_subst_trend u args _ (tf_ofEx _ ((timeFree_iff _).2 h1)) _ (tf_eval _ h0))
    refine this.mono (fun u' args' h => ⟨h.1.1, fun kv' hkv' => ?_⟩)
    rcases List.mem_cons.1 hkv' with rfl | h6
    · rw [h2]
      intro h7
      injection h7 with h7
      injection h7 with h8 h9
      exact h.1.2 ⟨h8.symm, h9.symm⟩
    · exact h.2 kv' h6

/-- Substitution of the trends of functions: none is left. -/
theorem timeFree_trends (l : List (Ex × Ex))
    (hl : ∀ kv ∈ l, TimeFree kv.2 ∧ ∃ u args, kv.1 = .deriv (.fn u args) [(time, 1)] ∧ time ∈ args) (e : Ex)
    (hL : ∀ u args, L u args → ∃ kv ∈ l, kv.1 = .deriv (.fn u args) [(time, 1)]) (he : TFP L (ofEx e)) :
    TimeFree (substAll l e) := by
  refine (timeFree_iff _).1 ((tf_trends l hl e he).mono (fun u args h => ?_))
  obtain ⟨kv, h1, h2⟩ := hL u args h.1
  exact h.2 kv h1 h2

/-! ## Trends of products -/

/-- The derivative of a polynomial whose atoms are functions. -/
theorem tf_pdiff_time (p : Poly) (h : AllF (fun a _ => ∃ u args, a = .fn u args ∧ L u args) p) : TFP L (pdiff time p) := by
  have atom : ∀ a : Ex, (∃ u args, a = .fn u args ∧ L u args) → TF L a ∧ TFP L (diffAtom time a) := by
    rintro a ⟨u, args, rfl, hL⟩
    refine ⟨trivial, ?_⟩
    simp only [diffAtom]
    split
    · exact .nil
    · exact allF_patom _ (.inr ⟨u, args, rfl, hL, .one⟩)
  have mono : ∀ m : Mono, AllM (fun a _ => ∃ u args, a = .fn u args ∧ L u args) m → TFP L (diffMono time m) := by
    intro m
    induction m with
    | nil => exact fun _ => .nil
    | cons f m ih =>
      intro hm
      obtain ⟨a, q⟩ := f
      have ha := atom a hm.head
      have hm' : AllM (fun a _ => TF L a) m := fun f hf => (atom f.1 (hm f (by simp [hf]))).1
      refine allF_padd _ _ (allF_pmul tf_mulOK _ _ (allF_pmul tf_mulOK _ _ (allF_pmul tf_mulOK _ _ (allF_pconst q) ?_) ha.2)
        (AllF.cons hm' .nil)) (allF_pmul tf_mulOK _ _ (AllF.cons (AllM.cons ha.1 .nil) .nil) (ih hm.tail))
      split
      · exact allF_pconst 1
      · exact AllF.cons (AllM.cons ha.1 .nil) .nil
  induction p with
  | nil => exact .nil
  | cons t p ih => exact allF_padd _ _ (allF_pmul tf_mulOK _ _ (allF_pconst _) (mono _ h.head)) (ih h.tail)

theorem pmul_const (q : ℚ) (m : Mono) (c : ℚ) (hc : c ≠ 0) : pmul (pconst q) [(m, c)] = if q = 0 then [] else [(m, q * c)] := by
  unfold pconst
  split
  · rfl
  · rename_i h
    rw [pmul_single _ _ h _ _ hc]; rfl

theorem pair_pmulConst (q : ℚ) (p : Poly) (hp : PairP L p) : PairP L (pmul (pconst q) p) := by
  have nil : PairP L [] := by intro t ht; cases ht
  unfold pconst
  split
  · exact nil
  · have : ∀ p : Poly, PairP L p → PairP L (pmulTerm [] q p) := by
      intro p
      induction p with
      | nil => exact fun _ => nil
      | cons t p ih => exact fun h => pair_addTerm _ _ _ (h t (by simp)) (ih (fun s hs => h s (by simp [hs])))
    exact pair_padd _ _ (this p hp) nil

theorem diffMono_sq (a a' : Ex) (h : diffAtom time a = patom a') (hY : Still a) (hX : Moving L a') :
    PairP L (diffMono time [(a, 2)]) := by
  have e : pmul (pmul (pmul (pconst 2) (if (2 : ℚ) = 1 then pconst 1 else [([(a, 2 - 1)], 1)])) (diffAtom time a)) [([], 1)] =
      [(monoMul (mulAtom a 1 [(a', 1)]) [], 2)] := by
    rw [if_neg (by norm_num), h]
    have : (2 : ℚ) - 1 = 1 := by norm_num
    rw [this]
    simp [pconst, patom, pmul_single, monoMul]
  have key : PairM L (monoMul (mulAtom a 1 [(a', 1)]) []) := by
    obtain ⟨X, Y, hX, hY, e | e⟩ := pairM_mulAtom' hX hY <;> rw [e]
    · exact pairM_mulAtom hX hY
    · exact pairM_mulAtom' hX hY
  show PairP L (padd _ (pmul _ []))
  rw [e, pmul_nil]
  refine pair_padd _ _ (fun t ht => ?_) (fun t ht => by cases ht)
  rw [List.mem_singleton] at ht
  rw [ht]; exact key

theorem pdiff_single (m : Mono) : pdiff time [(m, 1)] = padd (pmul (pconst 1) (diffMono time m)) [] := rfl

/-- The trend of a product of two derivatives of random functions. -/
theorem pair_pdiff (u u' : Str) (args args' : List Str) (vs vs' : List (Str × ℕ)) (h0 : T0 vs) (h0' : T0 vs') (ho : omega ∈ args)
    (ho' : omega ∈ args') (ht : time ∈ args) (ht' : time ∈ args') (hL : L u args) (hL' : L u' args') :
    PairP L (pdiff time (pmul (patom (fnD u args vs)) (patom (fnD u' args' vs')))) := by
  have nil : PairP L [] := by intro t ht; cases ht
  have hY : Still (fnD u args vs) := ⟨u, args, vs, rfl, ho, h0⟩
  have hY' : Still (fnD u' args' vs') := ⟨u', args', vs', rfl, ho', h0'⟩
  have hX : Moving L (fnD u args (bumpVar time vs)) := ⟨u, args, _, rfl, ho, hL, h0.bumpTime⟩
  have hX' : Moving L (fnD u' args' (bumpVar time vs')) := ⟨u', args', _, rfl, ho', hL', h0'.bumpTime⟩
  have d : ∀ (u : Str) (args : List Str) (vs : List (Str × ℕ)), time ∈ args →
      diffAtom time (fnD u args vs) = patom (fnD u args (bumpVar time vs)) := by
    intro u args vs ht
    have hb : bumpVar time vs ≠ [] := by
      cases vs with
      | nil => simp [bumpVar]
      | cons v vs => obtain ⟨y, n⟩ := v; unfold bumpVar; split <;> [simp; (split <;> simp)]
    unfold fnD
    rw [if_neg hb]
    split
    · rename_i h; subst h; simp [diffAtom, constIn, ht, bumpVar]
    · simp [diffAtom, constIn, ht]
  have dd := d u args vs ht
  have dd' := d u' args' vs' ht'
  generalize fnD u args vs = a at *
  generalize fnD u' args' vs' = b at *
  generalize fnD u args (bumpVar time vs) = a' at *
  generalize fnD u' args' (bumpVar time vs') = b' at *
  have single : ∀ m : Mono, ∀ c : ℚ, PairM L m → PairP L [(m, c)] := by
    intro m c h t ht
    rw [List.mem_singleton] at ht
    rw [ht]; exact h
  have one : ∀ (a b a' b' : Ex), diffAtom time a = patom a' → diffAtom time b = patom b' → Still a → Still b → Moving L a' →
      Moving L b' → PairP L (pdiff time [([(a, 1), (b, 1)], 1)]) := by
    intro a b a' b' da db ha hb ha' hb'
    rw [pdiff_single]
    refine pair_padd _ _ (pair_pmulConst _ _ ?_) nil
    rw [diffMono_one a a' _ da, diffMono_patom b b' db, patom, pmul_single _ _ one_ne_zero _ _ one_ne_zero]
    exact pair_padd _ _ (single _ _ (pairM_mulAtom ha' hb)) (single _ _ (pairM_mulAtom' hb' ha))
  rw [pmul_patom]
  unfold mulAtom
  split
  · rename_i e
    subst e
    rw [if_neg (by norm_num), pdiff_single]
    refine pair_padd _ _ (pair_pmulConst _ _ ?_) nil
    have : (1 : ℚ) + 1 = 2 := by norm_num
    rw [this]
    exact diffMono_sq a a' dd hY hX
  · split
    · exact one a b a' b' dd dd' hY hY' hX hX'
    · exact one b a b' a' dd' dd hY' hY hX' hX

end Sympkf.Spec
