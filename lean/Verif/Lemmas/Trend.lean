import Verif.Lemmas.PolyAll

/-!
# Lemmas: trends of fields, substitutions that change nothing, the left-hand sides of the Reynolds equations
-/

set_option autoImplicit false

namespace Sympkf.Spec

open Text Rand PKF Pkf

/-! ## Derivatives of functions -/

/-- The function `u(args)` with the derivatives `vs`. -/
def fnD (u : Str) (args : List Str) (vs : List (Str × ℕ)) : Ex := if vs = [] then .fn u args else .deriv (.fn u args) vs

theorem pdiff_patom (x : Str) (a : Ex) (h : diffAtom x a = [] ∨ ∃ b, diffAtom x a = patom b) : pdiff x (patom a) = diffAtom x a := by
  rcases h with h | ⟨b, h⟩ <;>
    simp [pdiff, patom, diffMono, h, pmul, pmulTerm, padd, addTerm, monoMul, mulAtom, pconst]

theorem pdiff_fnD (x : Str) (u : Str) (args : List Str) (vs : List (Str × ℕ)) :
    pdiff x (patom (fnD u args vs)) = if x ∈ args then patom (fnD u args (bumpVar x vs)) else [] := by
  have hb : bumpVar x vs ≠ [] := by
    cases vs with
    | nil => simp [bumpVar]
    | cons v vs =>
      obtain ⟨y, n⟩ := v
      unfold bumpVar
      split
      · simp
      · split <;> simp
  have key : diffAtom x (fnD u args vs) = if x ∈ args then patom (fnD u args (bumpVar x vs)) else [] := by
    unfold fnD
    rw [if_neg hb]
    by_cases hv : vs = []
    · subst hv
      by_cases hx : x ∈ args <;> simp [diffAtom, constIn, hx, bumpVar]
    · by_cases hx : x ∈ args <;> simp [hv, diffAtom, constIn, hx]
  rw [pdiff_patom, key]
  rw [key]
  by_cases hx : x ∈ args
  · right; exact ⟨_, if_pos hx⟩
  · left; exact if_neg hx

theorem toEx_patom (a : Ex) : toEx (patom a) = a := by simp [patom, toEx, termEx, monoEx, factorEx, prod]

theorem eval_fn (u : Str) (args : List Str) : eval (.fn u args) = .fn u args := by
  simp [eval, ofEx, patom, toEx, termEx, monoEx, prod, factorEx]

theorem fnD_rnd (u : Str) (args : List Str) (vs : List (Str × ℕ)) (ho : omega ∈ args) : rnd (fnD u args vs) = true := by
  have h : israndom (.fn u args) = .ok true := by simp [israndom, hasOmega, ho]
  unfold fnD rnd
  split
  · rename_i b hb
    split at hb
    · rw [h] at hb; cases hb; rfl
    · have : israndom (.deriv (.fn u args) vs) = .ok true := by
        rw [israndom, if_neg (by simp [hasOmega, ho]), h]
      rw [this] at hb; cases hb; rfl
  · rfl

theorem pmul_patom (a b : Ex) : pmul (patom a) (patom b) = [(mulAtom a 1 [(b, 1)], 1)] := by
  simp [pmul, patom, pmulTerm, padd, addTerm, monoMul]

theorem pmul_nil (p : Poly) : pmul p [] = [] := by
  induction p with
  | nil => rfl
  | cons t p ih =>
    show padd (pmulTerm t.1 t.2 []) (pmul p []) = []
    rw [ih]; rfl

theorem eval_trend (u : Str) (args : List Str) (h : time ∈ args) :
    eval (.deriv (.fn u args) [(time, 1)]) = .deriv (.fn u args) [(time, 1)] := by
  have h1 := pdiff_fnD time u args []
  rw [if_pos h] at h1
  show toEx (pdiff time (patom (fnD u args []))) = _
  rw [h1, toEx_patom]
  rfl

theorem pmul_single (m : Mono) (c : ℚ) (hc : c ≠ 0) (n : Mono) (d : ℚ) (hd : d ≠ 0) :
    pmul [(m, c)] [(n, d)] = [(monoMul m n, c * d)] := by
  simp [pmul, pmulTerm, padd, addTerm, hc, hd]

theorem diffMono_one (a a' : Ex) (m : Mono) (h : diffAtom time a = patom a') :
    diffMono time ((a, 1) :: m) = padd [(monoMul [(a', 1)] m, 1)] (pmul [([(a, 1)], 1)] (diffMono time m)) := by
  have e : pmul (pmul (pmul (pconst 1) (if (1 : ℚ) = 1 then pconst 1 else [([(a, 1 - 1)], 1)])) (diffAtom time a)) [(m, 1)] =
      [(monoMul [(a', 1)] m, 1)] := by
    rw [if_pos rfl, h]
    simp [pconst, patom, pmul_single, monoMul]
  show padd _ _ = _
  rw [e]

theorem diffMono_patom (a a' : Ex) (h : diffAtom time a = patom a') : diffMono time [(a, 1)] = patom a' := by
  rw [diffMono_one a a' [] h]
  show padd _ (pmul _ []) = _
  rw [pmul_nil]
  simp [padd, addTerm, monoMul, mulAtom, patom]

/-- The expression does not occur. -/
def Inert (old : Ex) : Ex → Prop
  | .num q => Ex.num q ≠ old
  | .sym s => Ex.sym s ≠ old
  | .fn u args => Ex.fn u args ≠ old
  | .func g a => Ex.func g a ≠ old ∧ Inert old a
  | .add a b => Ex.add a b ≠ old ∧ Inert old a ∧ Inert old b
  | .mul a b => Ex.mul a b ≠ old ∧ Inert old a ∧ Inert old b
  | .pow a q => Ex.pow a q ≠ old ∧ Inert old a
  | .deriv a vars => Ex.deriv a vars ≠ old ∧ Inert old a
  | .integ a x => Ex.integ a x ≠ old ∧ Inert old a
  | .ex a => Ex.ex a ≠ old ∧ Inert old a
  | .other b => Ex.other b ≠ old

theorem derivRest_none (old a : Ex) (vars : List (Str × ℕ)) (hd : ∀ b vs, old ≠ .deriv b vs) : derivRest old a vars = none := by
  unfold derivRest
  split
  · exact absurd rfl (hd _ _)
  · rfl

theorem subst_inert (old : Ex) (new : Poly) (hd : ∀ b vs, old ≠ .deriv b vs) (e : Ex) (h : Inert old e) :
    subst old new e = ofEx e := by
  induction e with
  | num q => unfold subst; rw [if_neg h]; rfl
  | sym s => unfold subst; rw [if_neg h]; rfl
  | fn u args => unfold subst; rw [if_neg h]; rfl
  | func g a ih => unfold subst; rw [if_neg h.1]; simp only [ih h.2]; rfl
  | add a b iha ihb => unfold subst; rw [if_neg h.1]; simp only [iha h.2.1, ihb h.2.2]; rfl
  | mul a b iha ihb => unfold subst; rw [if_neg h.1]; simp only [iha h.2.1, ihb h.2.2]; rfl
  | pow a q ih => unfold subst; rw [if_neg h.1]; simp only [ih h.2]; rfl
  | deriv a vars ih => unfold subst; rw [if_neg h.1]; simp only [derivRest_none old a vars hd, ih h.2]; rfl
  | integ a x ih => unfold subst; rw [if_neg h.1]; simp only [ih h.2]; rfl
  | ex a ih => unfold subst; rw [if_neg h.1]; simp only [ih h.2]; rfl
  | other b => unfold subst; rw [if_neg h]; rfl

theorem substEx_inert (k v e : Ex) (hd : ∀ b vs, eval k ≠ .deriv b vs) (he : eval e = e) (h : Inert (eval k) e) :
    substEx k v e = e := by
  unfold substEx
  rw [he, subst_inert _ _ hd _ h]
  exact he

/-- One substitution of the list does its work, the others do nothing. -/
theorem substAll_states (l : List (Ex × Ex)) (S T : Ex → Prop) (hT : ∀ kv ∈ l, ∀ e, T e → T (substEx kv.1 kv.2 e))
    (hS : ∀ kv ∈ l, ∀ e, S e → S (substEx kv.1 kv.2 e) ∨ T (substEx kv.1 kv.2 e))
    (hw : ∃ kv ∈ l, ∀ e, S e → T (substEx kv.1 kv.2 e)) (e : Ex) (he : S (eval e)) : T (substAll l e) := by
  have keep : ∀ (l : List (Ex × Ex)), (∀ kv ∈ l, ∀ e, T e → T (substEx kv.1 kv.2 e)) → ∀ e, T e →
      T (l.foldl (fun e kv => substEx kv.1 kv.2 e) e) := by
    intro l
    induction l with
    | nil => exact fun _ e h => h
    | cons kv l ih => exact fun h e he => ih (fun kv hkv => h kv (by simp [hkv])) _ (h kv (by simp) e he)
  unfold substAll
  generalize eval e = e0 at he
  induction l generalizing e0 with
  | nil => obtain ⟨kv, h, -⟩ := hw; cases h
  | cons kv l ih =>
    rw [List.foldl_cons]
    rcases hS kv (by simp) e0 he with h | h
    · obtain ⟨kv', h1, h2⟩ := hw
      rcases List.mem_cons.1 h1 with rfl | h1
      · exact keep l (fun kv hkv => hT kv (by simp [hkv])) _ (h2 e0 he)
      · exact ih (fun kv hkv => hT kv (by simp [hkv])) (fun kv hkv => hS kv (by simp [hkv])) ⟨kv', h1, h2⟩ _ h
    · exact keep l (fun kv hkv => hT kv (by simp [hkv])) _ h

/-- All substitutions of the list do nothing. -/
theorem substAll_inert (l : List (Ex × Ex)) (e : Ex) (he : eval e = e)
    (h : ∀ kv ∈ l, (∀ b vs, eval kv.1 ≠ .deriv b vs) ∧ Inert (eval kv.1) e) : substAll l e = e := by
  unfold substAll
  rw [he]
  induction l with
  | nil => rfl
  | cons kv l ih =>
    rw [List.foldl_cons, substEx_inert kv.1 kv.2 e (h kv (by simp)).1 he (h kv (by simp)).2]
    exact ih (fun kv hkv => h kv (by simp [hkv]))

/-! ## Trends -/

theorem eval_dt (u : Str) (args : List Str) (h : time ∈ args) : eval (dt (.fn u args)) = dt (.fn u args) := eval_trend u args h

theorem ofEx_exFn (u : Str) (args : List Str) (h : omega ∈ args) : ofEx (.ex (.fn u args)) = patom (.ex (.fn u args)) := by
  have hr : rnd (.fn u args) = true := fnD_rnd u args [] h
  show pexpect (patom (.fn u args)) = _
  simp [pexpect, patom, expectTerm, hr, pmulTerm, addTerm, padd, monoMul, monoEx, prod, factorEx]

theorem eval_exFn (u : Str) (args : List Str) (h : omega ∈ args) : eval (.ex (.fn u args)) = .ex (.fn u args) := by
  unfold eval
  rw [ofEx_exFn u args h, toEx_patom]

theorem pdiff_exFn (a : Ex) : pdiff time (patom (.ex a)) = patom (dt (.ex a)) := by
  rw [pdiff_patom]
  · rfl
  · exact .inr ⟨_, rfl⟩

theorem ofEx_dtEx (u : Str) (args : List Str) (h : omega ∈ args) : ofEx (dt (.ex (.fn u args))) = patom (dt (.ex (.fn u args))) := by
  show pdiff time (ofEx (.ex (.fn u args))) = _
  rw [ofEx_exFn u args h, pdiff_exFn]

theorem ofEx_dtFn (u : Str) (args : List Str) (h : time ∈ args) : ofEx (dt (.fn u args)) = patom (dt (.fn u args)) := by
  have h1 := pdiff_fnD time u args []
  rw [if_pos h] at h1
  exact h1

theorem eval_dtEx (u : Str) (args : List Str) (h : omega ∈ args) : eval (dt (.ex (.fn u args))) = dt (.ex (.fn u args)) := by
  unfold eval
  rw [ofEx_dtEx u args h, toEx_patom]

/-- A sum of two atoms, in one of the two orders. -/
theorem toEx_two (x y : Ex) (h : x ≠ y) : toEx (padd (patom x) (patom y)) = .add x y ∨ toEx (padd (patom x) (patom y)) = .add y x := by
  have : padd (patom x) (patom y) = [([(x, 1)], 1), ([(y, 1)], 1)] ∨ padd (patom x) (patom y) = [([(y, 1)], 1), ([(x, 1)], 1)] := by
    by_cases hl : ltNat (monoCode [(x, 1)]) (monoCode [(y, 1)]) = true
    · left; simp [padd, patom, addTerm, h, hl]
    · right; simp [padd, patom, addTerm, h, hl]
  rcases this with e | e <;> rw [e]
  · left; simp [toEx, termEx, monoEx, prod, factorEx]
  · right; simp [toEx, termEx, monoEx, prod, factorEx]

/-- A sum of two atoms, the first one being smaller. -/
theorem toEx_sorted (x y : Ex) (h : x ≠ y) (hl : ltNat (monoCode [(x, 1)]) (monoCode [(y, 1)]) = true) :
    padd (patom x) (patom y) = [([(x, 1)], 1), ([(y, 1)], 1)] ∧ toEx (padd (patom x) (patom y)) = .add x y := by
  have : padd (patom x) (patom y) = [([(x, 1)], 1), ([(y, 1)], 1)] := by simp [padd, patom, addTerm, h, hl]
  refine ⟨this, ?_⟩
  rw [this]
  simp [toEx, termEx, monoEx, prod, factorEx]

/-! ## Reynolds decomposition -/

section Field

variable (f : Field) (ht : time ∈ f.coordinates)
include ht

/-- The left-hand side with the small parameter. -/
def reynoldsLhs (f : Field) : Ex := .add (.mul (.sym epsSym) (dt f.error)) (dt (.ex f.random))

omit ht in
theorem omega_error : omega ∈ f.coordinates ++ [omega] := by simp

theorem time_error : time ∈ f.coordinates ++ [omega] := by simp [ht]

theorem ofEx_reynoldsLhs : ofEx (reynoldsLhs f) = [([(.sym epsSym, 1), (dt f.error, 1)], 1), ([(dt (.ex f.random), 1)], 1)] := by
  show padd (pmul (patom (.sym epsSym)) (ofEx (dt f.error))) (ofEx (dt (.ex f.random))) = _
  unfold Field.error Field.random
  rw [ofEx_dtFn _ _ (time_error f ht), ofEx_dtEx _ _ (omega_error f), pmul_patom]
  simp [mulAtom, dt, code, ltNat, padd, addTerm, patom, monoCode]

theorem eval_reynoldsLhs : eval (reynoldsLhs f) = reynoldsLhs f := by
  unfold eval
  rw [ofEx_reynoldsLhs f ht]
  simp [toEx, termEx, monoEx, prod, factorEx, reynoldsLhs]

theorem pdiff_reynolds : pdiff time (ofEx (.add (.ex f.random) (.mul (.sym epsSym) f.error))) = ofEx (reynoldsLhs f) := by
  rw [ofEx_reynoldsLhs f ht]
  have h1 : ofEx (.add (.ex f.random) (.mul (.sym epsSym) f.error)) =
      [([(.sym epsSym, 1), (f.error, 1)], 1), ([(.ex f.random, 1)], 1)] := by
    show padd (ofEx (.ex f.random)) (pmul (patom (.sym epsSym)) (patom f.error)) = _
    unfold Field.random Field.error
    rw [ofEx_exFn _ _ (omega_error f), pmul_patom]
    simp [mulAtom, code, ltNat, padd, addTerm, patom, monoCode]
  have d1 : diffAtom time f.error = patom (dt f.error) := by
    have := time_error f ht
    simp [diffAtom, Field.error, constIn, dt, ht]
  have d2 : diffAtom time (.ex f.random) = patom (dt (.ex f.random)) := rfl
  have d3 : diffAtom time (.sym epsSym) = [] := by
    have : ¬ epsSym = time := by decide
    simp only [diffAtom, if_neg this]
  rw [h1]
  show padd (pmul (pconst 1) (diffMono time [(.sym epsSym, 1), (f.error, 1)])) (padd (pmul (pconst 1) (diffMono time [(.ex f.random, 1)])) []) = _
  have e2 : diffMono time [(.ex f.random, 1)] = patom (dt (.ex f.random)) := diffMono_patom _ _ d2
  have e3 : diffMono time [(f.error, 1)] = patom (dt f.error) := diffMono_patom _ _ d1
  have e1 : diffMono time [(.sym epsSym, 1), (f.error, 1)] = [([(.sym epsSym, 1), (dt f.error, 1)], 1)] := by
    show padd (pmul (pmul _ (diffAtom time (.sym epsSym))) _) (pmul _ (diffMono time [(f.error, 1)])) = _
    rw [d3, pmul_nil, e3, patom, pmul_single _ _ one_ne_zero _ _ one_ne_zero]
    simp [monoMul, mulAtom, dt, code, ltNat, padd, pmul]
  rw [e1, e2]
  simp [pconst, patom, pmul, pmulTerm, padd, addTerm, monoMul, dt, code, ltNat, monoCode]

/-- With the small parameter equal to one. -/
def totalLhs (f : Field) : Ex := .add (dt f.error) (dt (.ex f.random))

theorem ofEx_totalLhs : ofEx (totalLhs f) = padd (patom (dt f.error)) (patom (dt (.ex f.random))) := by
  show padd (ofEx (dt f.error)) (ofEx (dt (.ex f.random))) = _
  unfold Field.error Field.random
  rw [ofEx_dtFn _ _ (time_error f ht), ofEx_dtEx _ _ (omega_error f)]

omit ht in
theorem total_sorted : padd (patom (dt f.error)) (patom (dt (.ex f.random))) = [([(dt f.error, 1)], 1), ([(dt (.ex f.random), 1)], 1)] ∧
    toEx (padd (patom (dt f.error)) (patom (dt (.ex f.random)))) = totalLhs f :=
  toEx_sorted _ _ (by simp [dt, Field.error]) (by simp [dt, monoCode, code, ltNat, Field.error])

theorem epsOne_lhs : epsOne (ofEx (reynoldsLhs f)) = totalLhs f := by
  have h1 : toEx (ofEx (reynoldsLhs f)) = reynoldsLhs f := eval_reynoldsLhs f ht
  unfold epsOne
  rw [h1]
  have s1 : subst (.sym epsSym) (pconst 1) (dt f.error) = patom (dt f.error) := by
    rw [subst_inert _ _ (by simp) _ (by simp [Inert, dt, Field.error])]
    exact ofEx_dtFn _ _ (time_error f ht)
  have s2 : subst (.sym epsSym) (pconst 1) (dt (.ex f.random)) = patom (dt (.ex f.random)) := by
    rw [subst_inert _ _ (by simp) _ (by simp [Inert, dt, Field.random])]
    exact ofEx_dtEx _ _ (omega_error f)
  have s3 : subst (.sym epsSym) (pconst 1) (reynoldsLhs f) = padd (patom (dt f.error)) (patom (dt (.ex f.random))) := by
    unfold reynoldsLhs
    unfold subst
    rw [if_neg (by simp)]
    simp only []
    rw [s2]
    congr 1
    unfold subst
    rw [if_neg (by simp)]
    simp only []
    rw [s1]
    unfold subst
    rw [if_pos rfl]
    simp [pconst, patom, pmul, pmulTerm, padd, addTerm, monoMul]
  rw [s3]
  exact (total_sorted f).2

theorem dropSquare_lhs : dropSquare (ofEx (reynoldsLhs f)) = ofEx (reynoldsLhs f) := by
  rw [ofEx_reynoldsLhs f ht]
  simp [dropSquare, epsDegree, dt]

end Field

/-- The substitution of the Reynolds decomposition in the trend of a field. -/
theorem reynolds_lhs (l : List (Ex × Ex)) (f : Field) (ht : time ∈ f.coordinates) (ho : omega ∉ f.coordinates)
    (hl : ∀ kv ∈ l, ∃ g : Field, g.coordinates = f.coordinates ∧
      kv = (g.value, .add (.ex g.random) (.mul (.sym epsSym) g.error)))
    (hf : ∃ kv ∈ l, kv.1 = f.value) : substAll l (dt f.value) = reynoldsLhs f := by
  have work : ∀ kv ∈ l, kv.1 = f.value → ∀ e, e = dt f.value → substEx kv.1 kv.2 e = reynoldsLhs f := by
    rintro kv hkv e1 e rfl
    obtain ⟨⟨n, c⟩, -, rfl⟩ := hl kv hkv
    obtain ⟨n', c'⟩ := f
    simp only [Field.value, Ex.fn.injEq] at e1
    obtain ⟨rfl, rfl⟩ := e1
    unfold substEx
    have e2 : eval (dt (Field.value ⟨n, c⟩)) = dt (Field.value ⟨n, c⟩) := eval_dt _ _ ht
    rw [e2, show eval (Field.value ⟨n, c⟩) = Field.value ⟨n, c⟩ from eval_fn _ _]
    have e3 : subst (Field.value ⟨n, c⟩) (ofEx (.add (.ex (Field.random ⟨n, c⟩)) (.mul (.sym epsSym) (Field.error ⟨n, c⟩))))
        (dt (Field.value ⟨n, c⟩)) = pdiff time (ofEx (.add (.ex (Field.random ⟨n, c⟩)) (.mul (.sym epsSym) (Field.error ⟨n, c⟩)))) := by
      unfold dt
      unfold subst
      rw [if_neg (by simp [Field.value])]
      simp only [derivRest_none _ _ _ (show ∀ b vs, Field.value ⟨n, c⟩ ≠ .deriv b vs by simp [Field.value])]
      unfold subst
      rw [if_pos rfl]
      rfl
    rw [e3, pdiff_reynolds _ ht]
    exact eval_reynoldsLhs _ ht
  refine substAll_states l (fun e => e = dt f.value) (fun e => e = reynoldsLhs f) ?_ ?_ ?_ _ (eval_dt _ _ ht)
  · rintro kv hkv e rfl
    obtain ⟨g, hg, rfl⟩ := hl kv hkv
    have ne : ∀ u, Ex.fn u (f.coordinates ++ [omega]) ≠ g.value := by
      intro u h
      simp only [Field.value, Ex.fn.injEq] at h
      exact ho (by rw [← hg, ← h.2]; simp)
    refine substEx_inert _ _ _ ?_ (eval_reynoldsLhs f ht) ?_
    · rw [show eval g.value = g.value from eval_fn _ _]; simp [Field.value]
    · rw [show eval g.value = g.value from eval_fn _ _]
      refine ⟨?_, ⟨?_, ?_, ?_, ?_⟩, ?_, ?_, ?_⟩
      · simp [Field.value]
      · simp [Field.value]
      · simp [Inert, Field.value]
      · simp [Field.value]
      · exact ne _
      · simp [Field.value]
      · simp [Field.value]
      · exact ne _
  · rintro kv hkv e he
    by_cases h : kv.1 = f.value
    · exact .inr (work kv hkv h e he)
    · left
      obtain ⟨g, hg, rfl⟩ := hl kv hkv
      subst he
      refine substEx_inert _ _ _ ?_ (eval_dt _ _ ht) ?_
      · rw [show eval g.value = g.value from eval_fn _ _]; simp [Field.value]
      · rw [show eval g.value = g.value from eval_fn _ _]
        exact ⟨by simp [Field.value], fun e => h e.symm⟩
  · obtain ⟨kv, hkv, h⟩ := hf
    exact ⟨kv, hkv, work kv hkv h⟩

/-- The trend of a field that does not depend on the time. -/
theorem reynolds_const (l : List (Ex × Ex)) (f : Field) (ht : time ∉ f.coordinates)
    (hl : ∀ kv ∈ l, ∃ g : Field, kv = (g.value, .add (.ex g.random) (.mul (.sym epsSym) g.error))) :
    ofEx (substAll l (dt f.value)) = [] := by
  have z : ofEx (.num 0) = [] := rfl
  have e0 : eval (dt f.value) = .num 0 := by
    show toEx (pdiff time (patom (.fn _ _))) = _
    have hd : diffAtom time (.fn f.name f.coordinates) = [] := by simp [diffAtom, constIn, ht]
    rw [pdiff_patom _ _ (.inl hd), hd]
    rfl
  have : substAll l (dt f.value) = .num 0 := by
    unfold substAll
    rw [e0]
    induction l with
    | nil => rfl
    | cons kv l ih =>
      obtain ⟨g, e⟩ := hl kv (by simp)
      rw [List.foldl_cons]
      have : substEx kv.1 kv.2 (.num 0) = .num 0 := by
        rw [e]
        unfold substEx
        rw [show eval g.value = g.value from eval_fn _ _, show eval (.num 0) = .num 0 from rfl]
        unfold subst
        rw [if_neg (by simp [Field.value])]
        rfl
      rw [this]
      exact ih (fun kv' h' => hl kv' (by simp [h']))
  rw [this, z]

theorem epsOne_nil : epsOne [] = .num 0 := by
  unfold epsOne
  rw [show toEx [] = .num 0 from rfl]
  unfold subst
  rw [if_neg (by simp)]
  rfl

end Sympkf.Spec
