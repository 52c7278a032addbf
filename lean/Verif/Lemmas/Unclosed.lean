import Verif.Lemmas.Canon
import Verif.Lemmas.Evolution

/-!
# Lemmas: the expectations that are left after a substitution
-/

set_option autoImplicit false

namespace Sympkf.Spec

open Text Rand PKF Pkf

/-! ## Expectations of an expression -/

/-- Every expectation of the expression has the property. -/
def Exs (G : Ex → Prop) (e : Ex) : Prop := ∀ t ∈ exAtoms e, G t

/-- An expectation of an expression without expectations that is in normal form. -/
def Stable (t : Ex) : Prop := (∃ a, t = .ex a ∧ exAtoms a = []) ∧ ofEx t = patom t

theorem Exs.mono {G G' : Ex → Prop} (h : ∀ t, G t → G' t) {e : Ex} (he : Exs G e) : Exs G' e := fun t ht => h t (he t ht)

theorem exs_append {G : Ex → Prop} {a b : Ex} (l : List Ex) (h : l = exAtoms a ++ exAtoms b) :
    (∀ t ∈ l, G t) ↔ Exs G a ∧ Exs G b := by
  subst h
  simp only [List.mem_append, Exs]
  exact ⟨fun h => ⟨fun t ht => h t (.inl ht), fun t ht => h t (.inr ht)⟩, fun h t ht => ht.elim (h.1 t) (h.2 t)⟩

theorem exs_add {G : Ex → Prop} {a b : Ex} : Exs G (.add a b) ↔ Exs G a ∧ Exs G b := exs_append _ rfl
theorem exs_mul {G : Ex → Prop} {a b : Ex} : Exs G (.mul a b) ↔ Exs G a ∧ Exs G b := exs_append _ rfl
theorem exs_nil {G : Ex → Prop} {a : Ex} (h : exAtoms a = []) : Exs G a := by intro t ht; rw [h] at ht; cases ht

theorem exs_hereditary (G : Ex → Prop) : Hereditary (Exs G) where
  num _ := exs_nil rfl
  add _ _ h h' := exs_add.2 ⟨h, h'⟩
  mul _ _ h h' := exs_mul.2 ⟨h, h'⟩
  func _ _ _ _ _ h := ⟨h, h⟩
  add_inv _ _ h := exs_add.1 h
  mul_inv _ _ h := exs_mul.1 h
  pow _ _ := Iff.rfl

/-- Every expectation of the polynomial. -/
abbrev ExsP (G : Ex → Prop) (p : Poly) : Prop := AllF (fun a _ => Exs G a) p

theorem exs_mulOK {G : Ex → Prop} : MulOK (fun a (_ : ℚ) => Exs G a) := fun _ _ _ h _ => h

theorem exs_pdiffs {G : Ex → Prop} (vars : List (Str × ℕ)) (p : Poly) (hp : ExsP G p) : ExsP G (pdiffs vars p) :=
  allF_pdiffs exs_mulOK vars (fun v _ => (exs_hereditary G).diffOK v.1 (fun _ _ h => h) (fun _ _ h => h)) p hp

theorem exs_toEx {G : Ex → Prop} (p : Poly) (hp : ExsP G p) : Exs G (toEx p) := hereditary_toEx (exs_hereditary G) p hp

theorem ExsP.mono {G G' : Ex → Prop} (h : ∀ t, G t → G' t) {p : Poly} (hp : ExsP G p) : ExsP G' p :=
  fun t ht f hf => (hp t ht f hf).mono h

theorem exs_ofEx {G : Ex → Prop} (e : Ex) (h : Exs (fun t => Stable t ∧ G t) e) : ExsP G (ofEx e) := by
  induction e with
  | num q => exact allF_pconst q
  | sym s => exact allF_patom _ (exs_nil rfl)
  | fn u args => exact allF_patom _ (exs_nil rfl)
  | func g a ih => exact allF_patom _ (exs_toEx _ (ih h))
  | add a b iha ihb => exact allF_padd _ _ (iha (exs_add.1 h).1) (ihb (exs_add.1 h).2)
  | mul a b iha ihb => exact allF_pmul exs_mulOK _ _ (iha (exs_mul.1 h).1) (ihb (exs_mul.1 h).2)
  | pow a q ih => exact hereditary_ppow (exs_hereditary G) _ _ (ih h)
  | deriv a vars ih => exact exs_pdiffs _ _ (ih h)
  | integ a x ih => exact allF_patom _ (exs_toEx _ (ih h))
  | ex a ih =>
    obtain ⟨⟨⟨b, e, hb⟩, h2⟩, h3⟩ := h (.ex a) (by simp [exAtoms])
    cases e
    rw [h2]
    exact allF_patom _ (fun t ht => by
      rw [exAtoms, hb, List.mem_singleton] at ht
      rw [ht]; exact h3)
  | other b => exact allF_patom _ (exs_nil rfl)

theorem inert_of_noEx (k e : Ex) (h : exAtoms e = []) : Inert (.ex k) e := by
  induction e with
  | num q => exact fun h => by cases h
  | sym s => exact fun h => by cases h
  | fn u args => exact fun h => by cases h
  | func g a ih => exact ⟨(fun h => by cases h), ih h⟩
  | add a b iha ihb => exact ⟨(fun h => by cases h), iha (List.append_eq_nil_iff.1 h).1, ihb (List.append_eq_nil_iff.1 h).2⟩
  | mul a b iha ihb => exact ⟨(fun h => by cases h), iha (List.append_eq_nil_iff.1 h).1, ihb (List.append_eq_nil_iff.1 h).2⟩
  | pow a q ih => exact ⟨(fun h => by cases h), ih h⟩
  | deriv a vars ih => exact ⟨(fun h => by cases h), ih h⟩
  | integ a x ih => exact ⟨(fun h => by cases h), ih h⟩
  | ex a ih => cases h
  | other b => exact fun h => by cases h

theorem exs_subst {G : Ex → Prop} (k : Ex) (new : Poly) (hn : ExsP G new) (e : Ex)
    (h : Exs (fun t => Stable t ∧ (t ≠ .ex k → G t)) e) : ExsP G (subst (.ex k) new e) := by
  have hd : ∀ b vs, Ex.ex k ≠ .deriv b vs := fun b vs h => by cases h
  induction e with
  | num q => unfold subst; rw [if_neg (by intro h; cases h)]; exact allF_pconst q
  | sym s => unfold subst; rw [if_neg (by intro h; cases h)]; exact allF_patom _ (exs_nil rfl)
  | fn u args => unfold subst; rw [if_neg (by intro h; cases h)]; exact allF_patom _ (exs_nil rfl)
  | func g a ih => unfold subst; rw [if_neg (by intro h; cases h)]; exact allF_patom _ (exs_toEx _ (ih h))
  | add a b iha ihb =>
    unfold subst; rw [if_neg (by intro h; cases h)]
    exact allF_padd _ _ (iha (exs_add.1 h).1) (ihb (exs_add.1 h).2)
  | mul a b iha ihb =>
    unfold subst; rw [if_neg (by intro h; cases h)]
    exact allF_pmul exs_mulOK _ _ (iha (exs_mul.1 h).1) (ihb (exs_mul.1 h).2)
  | pow a q ih =>
    unfold subst; rw [if_neg (by intro h; cases h)]
    exact hereditary_ppow (exs_hereditary G) _ _ (ih h)
  | deriv a vars ih =>
    unfold subst; rw [if_neg (by intro h; cases h)]
    simp only [derivRest_none _ a vars hd]
    exact exs_pdiffs _ _ (ih h)
  | integ a x ih => unfold subst; rw [if_neg (by intro h; cases h)]; exact allF_patom _ (exs_toEx _ (ih h))
  | ex a ih =>
    obtain ⟨⟨⟨b, e, hb⟩, h2⟩, h3⟩ := h (.ex a) (by simp [exAtoms])
    cases e
    unfold subst
    split
    · exact hn
    · rename_i hne
      have e : pexpect (subst (.ex k) new a) = patom (.ex a) := by
        rw [subst_inert _ _ hd a (inert_of_noEx k a hb)]; exact h2
      show ExsP G (pexpect (subst (.ex k) new a))
      rw [e]
      exact allF_patom _ (fun t ht => by
        rw [exAtoms, hb, List.mem_singleton] at ht
        rw [ht]; exact h3 hne)
  | other b => unfold subst; rw [if_neg (by intro h; cases h)]; exact allF_patom _ (exs_nil rfl)

/-- Substitution of expectations: every expectation that is left has the property when all others are replaced. -/
theorem exs_substAll {B : Ex → Prop} (l : List (Ex × Ex)) (hk : ∀ kv ∈ l, ∃ a, eval kv.1 = .ex a)
    (hv : ∀ kv ∈ l, ExsP (fun t => Stable t ∧ B t) (ofEx kv.2)) (e : Ex)
    (he : ExsP (fun t => Stable t ∧ (B t ∨ ∃ kv ∈ l, eval kv.1 = t)) (ofEx e)) : Exs (fun t => Stable t ∧ B t) (substAll l e) := by
  have h0 : Exs (fun t => Stable t ∧ (B t ∨ ∃ kv ∈ l, eval kv.1 = t)) (eval e) := exs_toEx _ he
  unfold substAll
  generalize eval e = e0 at h0
  clear he
  induction l generalizing e0 with
  | nil => exact h0.mono (fun t h => ⟨h.1, h.2.resolve_right (by simp)⟩)
  | cons kv l ih =>
    refine ih (fun kv h => hk kv (by simp [h])) (fun kv h => hv kv (by simp [h])) _ ?_
    obtain ⟨a, ha⟩ := hk kv (by simp)
    show Exs _ (toEx (subst (eval kv.1) (ofEx kv.2) (eval e0)))
    rw [ha]
    have h1 : Exs (fun t => Stable t ∧ (B t ∨ ∃ kv' ∈ kv :: l, eval kv'.1 = t)) (eval e0) :=
      exs_toEx _ (exs_ofEx e0 (h0.mono (fun t h => ⟨h.1, h⟩)))
    refine exs_toEx _ (exs_subst a _ ?_ _ (h1.mono ?_))
    · exact (hv kv (by simp)).mono (fun t h => ⟨h.1, .inl h.2⟩)
    · rintro t ⟨hs, h | ⟨kv', h', rfl⟩⟩
      · exact ⟨hs, fun _ => ⟨hs, .inl h⟩⟩
      · refine ⟨hs, fun hne => ⟨hs, ?_⟩⟩
        rcases List.mem_cons.1 h' with e | h'
        · rw [e] at hne; exact absurd ha hne
        · exact .inr ⟨kv', h', rfl⟩

/-! ## Derivatives of a function, up to the order of the variables -/

/-- The variables with repetitions. -/
def repeated (vars : List (Str × ℕ)) : List Str := vars.flatMap (fun v => List.replicate v.2 v.1)

theorem iterate_bump (x : Str) (n : ℕ) (vs : List (Str × ℕ)) :
    (bumpVar x)^[n] vs = (List.replicate n x).foldl (fun l x => bumpVar x l) vs := by
  induction n generalizing vs with
  | zero => rfl
  | succ n ih => rw [Function.iterate_succ_apply, ih, List.replicate_succ, List.foldl_cons]

theorem bumps_repeated (vars vs : List (Str × ℕ)) : bumps vars vs = (repeated vars).foldl (fun l x => bumpVar x l) vs := by
  induction vars generalizing vs with
  | nil => rfl
  | cons v vars ih =>
    show bumps vars ((bumpVar v.1)^[v.2] vs) = _
    rw [ih, iterate_bump]
    simp [repeated, List.foldl_append]

theorem bumps_perm {v w : List (Str × ℕ)} (h : (repeated v).Perm (repeated w)) (vs : List (Str × ℕ)) : bumps v vs = bumps w vs := by
  rw [bumps_repeated, bumps_repeated]
  exact List.Perm.foldl_eq' h (fun x _ y _ z => bumpVar_comm y x z) vs

theorem repeated_bump (x : Str) (l : List (Str × ℕ)) : (repeated (bumpVar x l)).Perm (x :: repeated l) := by
  induction l with
  | nil => simp [bumpVar, repeated]
  | cons v l ih =>
    obtain ⟨y, n⟩ := v
    unfold bumpVar
    split
    · rename_i e
      subst e
      simp [repeated, List.replicate_succ]
    · split
      · simp [repeated]
      · have e : repeated ((y, n) :: bumpVar x l) = List.replicate n y ++ repeated (bumpVar x l) := by simp [repeated]
        have e' : repeated ((y, n) :: l) = List.replicate n y ++ repeated l := by simp [repeated]
        rw [e, e']
        exact (List.Perm.append_left _ ih).trans List.perm_middle

theorem repeated_bumps (v vs : List (Str × ℕ)) : (repeated (bumps v vs)).Perm (repeated v ++ repeated vs) := by
  rw [bumps_repeated]
  generalize repeated v = l
  induction l generalizing vs with
  | nil => exact List.Perm.refl _
  | cons x l ih =>
    rw [List.foldl_cons]
    refine (ih _).trans ((List.Perm.append_left _ (repeated_bump x vs)).trans ?_)
    exact List.perm_middle

/-- The derivatives of a function in normal form. -/
theorem bumps_idem (v : List (Str × ℕ)) : bumps (bumps v []) [] = bumps v [] :=
  bumps_perm (by simpa [repeated] using repeated_bumps v []) []

theorem bumps_nil_iff (v : List (Str × ℕ)) : bumps v [] = [] ↔ repeated v = [] := by
  constructor
  · intro h
    have := repeated_bumps v []
    rw [h] at this
    simpa [repeated] using this
  · intro h
    rw [bumps_repeated, h]; rfl

theorem ofEx_fnD (u : Str) (args : List Str) (v : List (Str × ℕ)) (hv : ∀ p ∈ v, p.1 ∈ args) :
    ofEx (.deriv (.fn u args) v) = patom (fnD u args (bumps v [])) := by
  rcases pdiffs_fnD v u args [] with ⟨-, p, hp, hn⟩ | h
  · exact absurd (hv p hp) hn
  · exact h

/-! ## Products of two derivatives -/

/-- The product of two atoms. -/
def pair (x y : Ex) : Ex :=
  if x = y then .pow x 2 else if ltNat (code x) (code y) then .mul x y else .mul y x

theorem pair_comm (x y : Ex) : pair x y = pair y x := by
  unfold pair
  by_cases h : x = y
  · subst h; rfl
  · have h' : ¬ y = x := fun e => h e.symm
    rcases code_total h with h1 | h1
    · simp [h, h', h1, ltNat_asymm _ _ h1]
    · simp [h, h', h1, ltNat_asymm _ _ h1]

theorem padd_patom_nil (a : Ex) : padd (patom a) [] = patom a := by simp [padd, patom, addTerm]

theorem pexpect_pair (x y : Ex) (hx : rnd x = true) (hy : rnd y = true) :
    pexpect (pmul (patom x) (patom y)) = patom (.ex (pair x y)) := by
  have e : pexpect (pmul (patom x) (patom y)) = padd (expectTerm (mulAtom x 1 [(y, 1)], 1)) [] := by
    rw [pmul_patom]; rfl
  rw [e]
  unfold mulAtom pair
  split
  · rename_i h
    subst h
    rw [if_neg (by norm_num), expectTerm_pow _ hx _ (by norm_num)]
    norm_num
    exact padd_patom_nil _
  · split
    · rw [expectTerm_mul _ _ hx hy]; exact padd_patom_nil _
    · rw [show mulAtom x 1 [] = [(x, 1)] from rfl, expectTerm_mul _ _ hy hx]; exact padd_patom_nil _

theorem ppow_two (x : Ex) : ppow (patom x) 2 = pmul (patom x) (patom x) := by
  unfold ppow
  rw [if_pos (by decide +kernel)]
  show pmul (patom x) (pmul (patom x) (pconst 1)) = _
  simp [pconst, patom, pmul_single, monoMul, mulAtom]

theorem ofEx_ex_mul (a b x y : Ex) (ha : ofEx a = patom x) (hb : ofEx b = patom y) (hx : rnd x = true) (hy : rnd y = true) :
    ofEx (.ex (.mul a b)) = patom (.ex (pair x y)) := by
  show pexpect (pmul (ofEx a) (ofEx b)) = _
  rw [ha, hb, pexpect_pair x y hx hy]

theorem ofEx_ex_sq (a x : Ex) (ha : ofEx a = patom x) (hx : rnd x = true) : ofEx (.ex (.pow a 2)) = patom (.ex (pair x x)) := by
  show pexpect (ppow (ofEx a) 2) = _
  rw [ha, ppow_two, pexpect_pair x x hx hx]

theorem patom_inj {a b : Ex} (h : patom a = patom b) : a = b := by
  simpa [patom] using h

theorem fnD_ofEx (u : Str) (args : List Str) (v : List (Str × ℕ)) (hv : ∀ p ∈ v, p.1 ∈ args) :
    ofEx (fnD u args (bumps v [])) = patom (fnD u args (bumps v [])) := by
  have h : ∀ p ∈ bumps v [], p.1 ∈ args := by
    intro p hp
    suffices h : ∀ (v vs : List (Str × ℕ)), (∀ p ∈ v, p.1 ∈ args) → (∀ p ∈ vs, p.1 ∈ args) → ∀ p ∈ bumps v vs, p.1 ∈ args from
      h v [] hv (by simp) p hp
    intro v
    induction v with
    | nil => intro vs _ h p hp; exact h p hp
    | cons w v ih =>
      intro vs hw hvs
      refine ih _ (fun p hp => hw p (by simp [hp])) ?_
      show ∀ p ∈ (bumpVar w.1)^[w.2] vs, p.1 ∈ args
      generalize hk : w.2 = n
      clear hk
      induction n generalizing vs with
      | zero => exact hvs
      | succ n ihn =>
        rw [Function.iterate_succ_apply]
        refine ihn _ (fun p hp => ?_)
        rcases mem_bumpVar w.1 vs p hp with e | ⟨q, hq, e⟩
        · rw [e]; exact hw w (by simp)
        · rw [← e]; exact hvs q hq
  by_cases h0 : bumps v [] = []
  · rw [h0]; rfl
  · have := ofEx_fnD u args (bumps v []) h
    rw [bumps_idem] at this
    have e : fnD u args (bumps v []) = .deriv (.fn u args) (bumps v []) := if_neg h0
    rw [e] at this ⊢
    exact this

theorem exAtoms_fnD (u : Str) (args : List Str) (v : List (Str × ℕ)) : exAtoms (fnD u args v) = [] := by
  unfold fnD
  split <;> rfl

/-- Expectations of products of two derivatives are in normal form after one evaluation. -/
theorem stable_pair (u u' : Str) (args args' : List Str) (v w : List (Str × ℕ)) (hv : ∀ p ∈ v, p.1 ∈ args) (hw : ∀ p ∈ w, p.1 ∈ args')
    (ho : omega ∈ args) (ho' : omega ∈ args') : Stable (.ex (pair (fnD u args (bumps v [])) (fnD u' args' (bumps w [])))) := by
  have e1 := fnD_ofEx u args v hv
  have e2 := fnD_ofEx u' args' w hw
  have r1 := fnD_rnd u args (bumps v []) ho
  have r2 := fnD_rnd u' args' (bumps w []) ho'
  have n1 := exAtoms_fnD u args (bumps v [])
  have n2 := exAtoms_fnD u' args' (bumps w [])
  refine ⟨⟨_, rfl, ?_⟩, ?_⟩
  · unfold pair
    split
    · exact n1
    · split <;> simp [exAtoms, n1, n2]
  · conv_lhs => unfold pair
    split
    · rename_i h
      rw [ofEx_ex_sq _ _ e1 r1, ← h]
    · split
      · rw [ofEx_ex_mul _ _ _ _ e1 e2 r1 r2]
      · rw [ofEx_ex_mul _ _ _ _ e2 e1 r2 r1, pair_comm]

theorem Stable.eval {t : Ex} (h : Stable t) : eval t = t := by
  unfold Rand.eval
  rw [h.2, toEx_patom]

theorem stable_exs {G : Ex → Prop} {t : Ex} (h : Stable t) (hG : G t) : Exs G t := by
  obtain ⟨⟨a, rfl, ha⟩, -⟩ := h
  intro t ht
  rw [exAtoms, ha, List.mem_singleton] at ht
  rw [ht]; exact hG

/-! ## Multi-indices -/

theorem repeated_length (v : List (Str × ℕ)) : (repeated v).length = (v.map Prod.snd).sum := by
  induction v with
  | nil => rfl
  | cons p v ih =>
    have : repeated (p :: v) = List.replicate p.2 p.1 ++ repeated v := by simp [repeated]
    rw [this, List.length_append, ih]
    simp

theorem mem_repeated (v : List (Str × ℕ)) (x : Str) (h : x ∈ repeated v) : ∃ p ∈ v, p.1 = x := by
  obtain ⟨p, hp, hx⟩ := List.mem_flatMap.1 h
  exact ⟨p, hp, (List.eq_of_mem_replicate hx).symm⟩

theorem count_blocks (coords l : List Str) (hn : coords.Nodup) (y : Str) (hy : y ∈ coords) :
    (coords.flatMap (fun x => List.replicate (l.count x) x)).count y = l.count y := by
  induction coords with
  | nil => cases hy
  | cons x coords ih =>
    rw [List.flatMap_cons, List.count_append, List.count_replicate]
    have hx := (List.nodup_cons.1 hn).1
    by_cases e : x = y
    · subst e
      have : (coords.flatMap (fun z => List.replicate (l.count z) z)).count x = 0 := by
        rw [List.count_eq_zero]
        intro hm
        obtain ⟨z, hz, hm⟩ := List.mem_flatMap.1 hm
        exact hx ((List.eq_of_mem_replicate hm) ▸ hz)
      simp [this]
    · rw [ih (List.nodup_cons.1 hn).2 (by rcases List.mem_cons.1 hy with h | h; exact absurd h.symm e; exact h)]
      simp [e]

/-- The multi-index of a list of variables. -/
theorem exists_multi (coords : List Str) (hn : coords.Nodup) (v : List (Str × ℕ)) (hv : ∀ p ∈ v, p.1 ∈ coords) :
    ∃ α, IsMultiIndex coords.length ((v.map Prod.snd).sum) α ∧ (repeated (coords.zip (α.map Int.toNat))).Perm (repeated v) := by
  have e : repeated (coords.zip ((coords.map (fun x => ((repeated v).count x : ℤ))).map Int.toNat)) =
      coords.flatMap (fun x => List.replicate ((repeated v).count x) x) := by
    rw [List.map_map]
    generalize repeated v = l
    clear hn hv
    induction coords with
    | nil => rfl
    | cons x coords ih =>
      have : repeated ((x :: coords).zip ((x :: coords).map (Int.toNat ∘ fun x => (l.count x : ℤ)))) =
          List.replicate (l.count x) x ++ repeated (coords.zip (coords.map (Int.toNat ∘ fun x => (l.count x : ℤ)))) := by
        simp [repeated]
      rw [this, ih, List.flatMap_cons]
  have hp : (repeated (coords.zip ((coords.map (fun x => ((repeated v).count x : ℤ))).map Int.toNat))).Perm (repeated v) := by
    rw [e, List.perm_iff_count]
    intro y
    by_cases hy : y ∈ coords
    · exact count_blocks coords _ hn y hy
    · rw [List.count_eq_zero.2, List.count_eq_zero.2]
      · intro hm
        obtain ⟨p, hp, rfl⟩ := mem_repeated v y hm
        exact hy (hv p hp)
      · intro hm
        obtain ⟨z, hz, hm⟩ := List.mem_flatMap.1 hm
        exact hy ((List.eq_of_mem_replicate hm) ▸ hz)
  refine ⟨_, ⟨by simp, ?_, ?_⟩, hp⟩
  · intro a ha
    obtain ⟨x, -, rfl⟩ := List.mem_map.1 ha
    positivity
  · have hl := hp.length_eq
    rw [e, repeated_length] at hl
    rw [← hl]
    generalize repeated v = l
    clear hn hv e hp hl
    induction coords with
    | nil => rfl
    | cons x coords ih => simp [ih]

/-! ## Second moments of one field -/

/-- `E[D^v eps D^w eps]`, where `v` and `w` are derivatives along the coordinates of the field. -/
def Moment (f : Field) (v w : List (Str × ℕ)) (t : Ex) : Prop :=
  (∀ p ∈ v, p.1 ∈ f.spatial) ∧ (∀ p ∈ w, p.1 ∈ f.spatial) ∧
    (t = .ex (.mul (.deriv f.epsilon v) (.deriv f.epsilon w)) ∨ v = w ∧ t = .ex (.pow (.deriv f.epsilon v) 2))

/-- Not the expectation of a product of two derivatives. -/
def NoPair (t : Ex) : Prop := ∀ a v b w, t ≠ .ex (.mul (.deriv a v) (.deriv b w)) ∧ t ≠ .ex (.pow (.deriv a v) 2)

theorem NoPair.moment {t : Ex} (h : NoPair t) (f : Field) (v w : List (Str × ℕ)) : ¬ Moment f v w t := by
  rintro ⟨-, -, h' | ⟨-, h'⟩⟩
  · exact (h _ _ _ _).1 h'
  · exact (h _ _ (.num 0) []).2 h'

variable {f : Field}

theorem spatial_args (x : Str) (hx : x ∈ f.spatial) : x ∈ f.coordinates ++ [omega] := by
  simp [(List.mem_filter.1 hx).1]

/-- The name of the normalised error. -/
abbrev epsName (f : Field) : Str := "{\\varepsilon_{".toList ++ f.code ++ "}}".toList

theorem epsilon_eq (f : Field) : f.epsilon = .fn (epsName f) (f.coordinates ++ [omega]) := rfl

/-- The normal form of `D^v eps`. -/
abbrev dEps (f : Field) (v : List (Str × ℕ)) : Ex := fnD (epsName f) (f.coordinates ++ [omega]) (bumps v [])

theorem rnd_dEps (v : List (Str × ℕ)) : rnd (dEps f v) = true := fnD_rnd _ _ _ (by simp)

theorem ofEx_dEps (v : List (Str × ℕ)) (hv : ∀ p ∈ v, p.1 ∈ f.spatial) : ofEx (.deriv f.epsilon v) = patom (dEps f v) :=
  ofEx_fnD _ _ v (fun p hp => spatial_args _ (hv p hp))

theorem stable_dEps (v w : List (Str × ℕ)) (hv : ∀ p ∈ v, p.1 ∈ f.spatial) (hw : ∀ p ∈ w, p.1 ∈ f.spatial) :
    Stable (.ex (pair (dEps f v) (dEps f w))) :=
  stable_pair _ _ _ _ v w (fun p hp => spatial_args _ (hv p hp)) (fun p hp => spatial_args _ (hw p hp)) (by simp) (by simp)

/-- A second moment in normal form. -/
theorem Moment.stable {v w : List (Str × ℕ)} {t : Ex} (h : Moment f v w t) (hs : Stable t) :
    t = .ex (pair (dEps f v) (dEps f w)) := by
  obtain ⟨hv, hw, rfl | ⟨rfl, rfl⟩⟩ := h
  · have := hs.2
    rw [ofEx_ex_mul _ _ _ _ (ofEx_dEps v hv) (ofEx_dEps w hw) (rnd_dEps v) (rnd_dEps w)] at this
    exact (patom_inj this).symm
  · have := hs.2
    rw [ofEx_ex_sq _ _ (ofEx_dEps v hv) (rnd_dEps v)] at this
    exact (patom_inj this).symm

theorem dEps_cases (v : List (Str × ℕ)) : repeated v = [] ∧ dEps f v = f.epsilon ∨ repeated v ≠ [] ∧ dEps f v = .deriv f.epsilon (bumps v []) := by
  unfold dEps fnD
  split
  · rename_i h; exact .inl ⟨(bumps_nil_iff v).1 h, rfl⟩
  · rename_i h; exact .inr ⟨fun e => h ((bumps_nil_iff v).2 e), rfl⟩

theorem repeated_pos (v : List (Str × ℕ)) (h : repeated v ≠ []) : 0 < (v.map Prod.snd).sum := by
  rw [← repeated_length]
  exact List.length_pos_of_ne_nil h

theorem isUnivariate_mul (f : Field) (v w : List (Str × ℕ)) (hvw : v ≠ w) (t : Ex)
    (ht : t = .ex (.mul (.deriv f.epsilon v) (.deriv f.epsilon w))) (he : eval t = t) :
    isUnivariate t = some (f.epsilon, (v.map Prod.snd).sum + (w.map Prod.snd).sum) := by
  have e1 : derivAtoms t = [.deriv f.epsilon v, .deriv f.epsilon w] := by subst ht; rfl
  have ne : Ex.deriv f.epsilon v ≠ .deriv f.epsilon w := fun e => hvw (by injection e)
  have e2 : (derivAtoms t).dedup = [.deriv f.epsilon v, .deriv f.epsilon w] := by
    rw [e1, List.dedup_cons_of_notMem (by simpa using ne)]; rfl
  have e3 : (([.deriv f.epsilon v, .deriv f.epsilon w] : List Ex).flatMap fnAtoms).dedup = [f.epsilon] := by
    have : (([.deriv f.epsilon v, .deriv f.epsilon w] : List Ex).flatMap fnAtoms) = [f.epsilon, f.epsilon] := rfl
    rw [this, List.dedup_cons_of_mem (by simp)]; rfl
  unfold isUnivariate
  simp only [e2, e3]
  rw [if_pos (by rw [← ht, he])]
  rfl

theorem isUnivariate_sq (f : Field) (v : List (Str × ℕ)) (t : Ex) (ht : t = .ex (.pow (.deriv f.epsilon v) 2))
    (he : eval t = t) (h1 : eval (.ex (.mul (.deriv f.epsilon v) (.deriv f.epsilon v))) = t)
    (h2 : eval (.ex (.mul f.epsilon (.deriv f.epsilon v))) ≠ t) :
    isUnivariate t = some (f.epsilon, (v.map Prod.snd).sum + (v.map Prod.snd).sum) := by
  have e1 : derivAtoms t = [.deriv f.epsilon v] := by subst ht; rfl
  have e2 : (derivAtoms t).dedup = [.deriv f.epsilon v] := by rw [e1]; rfl
  have e3 : (([.deriv f.epsilon v] : List Ex).flatMap fnAtoms).dedup = [f.epsilon] := rfl
  unfold isUnivariate
  simp only [e2, e3]
  rw [if_neg (fun e => h2 e.symm), if_pos h1.symm]
  show some (f.epsilon, 2 * (v.map Prod.snd).sum) = _
  rw [two_mul]

theorem pair_noPair (v w : List (Str × ℕ)) (h : repeated v = [] ∨ repeated w = []) : NoPair (.ex (pair (dEps f v) (dEps f w))) := by
  wlog hv : repeated v = [] generalizing v w
  · rw [pair_comm]; exact this w v h.symm (h.resolve_left hv)
  intro a x b y
  have e : dEps f v = f.epsilon := by
    rcases dEps_cases (f := f) v with h | h
    · exact h.2
    · exact absurd hv h.1
  rw [e]
  unfold pair
  split
  · exact ⟨by simp, by simp [Field.epsilon]⟩
  · split
    · exact ⟨by simp [Field.epsilon], by simp⟩
    · exact ⟨by simp [Field.epsilon], by simp⟩

/-- A second moment of two derivatives is found by `is_univariate`, and it is a key of the tree. -/
theorem Moment.key (hn : f.spatial.Nodup) {v w : List (Str × ℕ)} {t : Ex} (h : Moment f v w t) (hs : Stable t) :
    ∃ a b α β, IsMultiIndex f.spatial.length a α ∧ IsMultiIndex f.spatial.length b β ∧ 0 < a ∧ 0 < b ∧
      isUnivariate t = some (f.epsilon, a + b) ∧ eval (ofTree f.spatial f.epsilon (.term (Tree.term α β))) = t := by
  have ht := h.stable hs
  obtain ⟨hv, hw, hshape⟩ := h
  obtain ⟨α, hα, pα⟩ := exists_multi f.spatial hn v hv
  obtain ⟨β, hβ, pβ⟩ := exists_multi f.spatial hn w hw
  have pos : repeated v ≠ [] ∧ repeated w ≠ [] := by
    by_contra hc
    have hor : repeated v = [] ∨ repeated w = [] := by
      by_cases h1 : repeated v = []
      · exact .inl h1
      · exact .inr (by by_contra h2; exact hc ⟨h1, h2⟩)
    have hno := pair_noPair (f := f) v w hor
    rw [← ht] at hno
    rcases hshape with e | ⟨-, e⟩
    · exact (hno _ _ _ _).1 e
    · exact (hno _ _ (.num 0) []).2 e
  refine ⟨_, _, α, β, hα, hβ, repeated_pos v pos.1, repeated_pos w pos.2, ?_, ?_⟩
  · rcases hshape with e | ⟨rfl, e⟩
    · refine isUnivariate_mul f v w ?_ t e hs.eval
      rintro rfl
      have : pair (dEps f v) (dEps f v) = .pow (dEps f v) 2 := if_pos rfl
      rw [this, e] at ht
      cases ht
    · refine isUnivariate_sq f v t e hs.eval ?_ ?_
      · unfold eval
        rw [ofEx_ex_mul _ _ _ _ (ofEx_dEps v hv) (ofEx_dEps v hv) (rnd_dEps v) (rnd_dEps v), toEx_patom, ht]
      · have he : ofEx f.epsilon = patom (dEps f []) := rfl
        unfold eval
        rw [ofEx_ex_mul _ _ _ _ he (ofEx_dEps v hv) (rnd_dEps []) (rnd_dEps v), toEx_patom]
        intro hc
        exact (pair_noPair (f := f) [] v (.inl rfl) f.epsilon v (.num 0) []).2 (hc.trans e)
  · have zα : ∀ p ∈ f.spatial.zip (α.map Int.toNat), p.1 ∈ f.spatial := fun p hp => (List.of_mem_zip hp).1
    have zβ : ∀ p ∈ f.spatial.zip (β.map Int.toNat), p.1 ∈ f.spatial := fun p hp => (List.of_mem_zip hp).1
    have eα : dEps f (f.spatial.zip (α.map Int.toNat)) = dEps f v := by unfold dEps; rw [bumps_perm pα]
    have eβ : dEps f (f.spatial.zip (β.map Int.toNat)) = dEps f w := by unfold dEps; rw [bumps_perm pβ]
    have key : ∀ α β : List ℤ, eval (ofTree f.spatial f.epsilon (.term ⟨α, β⟩)) =
        .ex (pair (dEps f (f.spatial.zip (α.map Int.toNat))) (dEps f (f.spatial.zip (β.map Int.toNat)))) := by
      intro α β
      have zα : ∀ p ∈ f.spatial.zip (α.map Int.toNat), p.1 ∈ f.spatial := fun p hp => (List.of_mem_zip hp).1
      have zβ : ∀ p ∈ f.spatial.zip (β.map Int.toNat), p.1 ∈ f.spatial := fun p hp => (List.of_mem_zip hp).1
      unfold eval
      rw [show ofEx (ofTree f.spatial f.epsilon (.term ⟨α, β⟩)) = _ from
        ofEx_ex_mul _ _ _ _ (ofEx_dEps _ zα) (ofEx_dEps _ zβ) (rnd_dEps _) (rnd_dEps _), toEx_patom]
    unfold Tree.term
    split
    · rw [key, eα, eβ, ← ht]
    · rw [key, eα, eβ, pair_comm, ← ht]

/-- The expectations of a reduced expression of the tree. -/
theorem exs_tree (n : ℕ) (hn : f.spatial.length = n) (v : Tree.TEx) (hz : OnlyZero n v) :
    ExsP (fun t => Stable t ∧ NoPair t) (ofEx (ofTree f.spatial f.epsilon v)) := by
  induction v with
  | term t =>
    have z : ∀ α : List ℤ, ∀ p ∈ f.spatial.zip (α.map Int.toNat), p.1 ∈ f.spatial := fun α p hp => (List.of_mem_zip hp).1
    have e : ofEx (ofTree f.spatial f.epsilon (.term t)) = patom _ :=
      ofEx_ex_mul _ _ _ _ (ofEx_dEps _ (z t.a)) (ofEx_dEps _ (z t.b)) (rnd_dEps _) (rnd_dEps _)
    have zero : ∀ α : List ℤ, α = List.replicate n 0 → repeated (f.spatial.zip (α.map Int.toNat)) = [] := by
      rintro α rfl
      rw [← hn, List.map_replicate]
      generalize f.spatial = l
      induction l with
      | nil => rfl
      | cons x l ih => simpa [repeated, List.replicate_succ] using ih
    have hs := stable_dEps (f := f) _ _ (z t.a) (z t.b)
    rw [e]
    exact allF_patom _ (stable_exs hs ⟨hs, pair_noPair _ _ (hz.imp (zero _) (zero _))⟩)
  | d x e ih => exact exs_pdiffs _ _ (ih hz)
  | sub e g ihe ihg => exact allF_padd _ _ (ihe hz.1) (allF_pmul exs_mulOK _ _ (allF_pconst _) (ihg hz.2))
  | half e ih => exact allF_pmul exs_mulOK _ _ (allF_pconst _) (ih hz)

/-! ## The internal closure -/

namespace DetSystem

variable {K : Pkf} {coords : List Str} (h : DetSystem K coords)
include h

/-- An entry of the internal closure: an expectation is replaced by an expression without expectations. -/
def Entry (kv : Ex × Ex) : Prop := (∃ a, eval kv.1 = .ex a) ∧ exAtoms kv.2 = []

theorem entry_field (f : Field) (hf : f ∈ K.fields) (kv : Ex × Ex) (c : Dict Ex Ex) (hc : f.internalClosure K.order = .ok c)
    (hkv : kv ∈ c) : Entry kv := by
  have e := h.spatial f hf
  obtain ⟨c', h1, -, h3⟩ := internalClosure_spec K.order h.order f (e ▸ h.space) (e ▸ h.nodup.filter _)
  rw [h1] at hc
  cases hc
  have hsub : ∀ x ∈ f.spatial, x ∈ f.coordinates ++ [omega] := fun x hx => spatial_args x hx
  obtain ⟨E, hE, rE⟩ := ofEx_random ("{\\varepsilon_{".toList ++ f.code ++ "}}".toList) (f.coordinates ++ [omega]) (omega_error f)
  obtain ⟨E', hE', rE'⟩ := ofEx_random ("{e_{".toList ++ f.code ++ "}}".toList) (f.coordinates ++ [omega]) (omega_error f)
  have ex1 : ∀ u, ∃ a, eval (.ex (.fn u (f.coordinates ++ [omega]))) = .ex a := by
    intro u
    have hr : rnd (.fn u (f.coordinates ++ [omega])) = true := fnD_rnd u _ [] (omega_error f)
    refine ⟨.fn u (f.coordinates ++ [omega]), ?_⟩
    have : ofEx (.ex (.fn u (f.coordinates ++ [omega]))) = patom (.ex (.fn u (f.coordinates ++ [omega]))) := by
      show pexpect (patom _) = _
      simp [pexpect, patom, expectTerm, hr, pmulTerm, monoMul, addTerm, padd, monoEx, factorEx, prod]
    unfold eval
    rw [this, toEx_patom]
  rcases h3 kv hkv with rfl | rfl | rfl | rfl | ⟨x, hx, rfl⟩ | ⟨i, j, hij, hj, rfl⟩ | ⟨k, i, j, hk, hi, hj, rfl⟩
  · exact ⟨ex1 _, rfl⟩
  · exact ⟨(eval_sq _ _ hE' rE').imp fun _ h => h.1, rfl⟩
  · exact ⟨ex1 _, rfl⟩
  · exact ⟨(eval_sq _ _ hE rE).imp fun _ h => h.1, rfl⟩
  · obtain ⟨X, h1, h2⟩ := ofEx_derivSeq f.spatial _ _ (omega_error f) hsub [x]
    exact ⟨(eval_pair _ _ _ _ hE h1 rE h2).imp fun _ h => h.1, rfl⟩
  · obtain ⟨X, h1, h2⟩ := ofEx_derivSeq f.spatial _ _ (omega_error f) hsub [f.spatial.getD i [], f.spatial.getD j []]
    exact ⟨(eval_pair _ _ _ _ hE h1 rE h2).imp fun _ h => h.1, rfl⟩
  · obtain ⟨X, h1, h2⟩ := ofEx_derivSeq f.spatial _ _ (omega_error f) hsub [k, i, j]
    exact ⟨(eval_pair _ _ _ _ hE h1 rE h2).imp fun _ h => h.1, rfl⟩

/-- The internal closure of the system. -/
theorem entries (c : Dict Ex Ex) (hc : K.closure = .ok c) :
    (∀ kv ∈ c, Entry kv) ∧ ∀ k, ClosedTerms K.fields k → k ∈ Dict.keys c := by
  have step1 : ∀ (l : List Field) (c c' : Dict Ex Ex), (∀ f ∈ l, f ∈ K.fields) →
      l.foldlM (fun (c : Dict Ex Ex) f => do return c.update (← f.internalClosure K.order)) c = .ok c' →
      (∀ kv ∈ c, Entry kv) →
      (∀ kv ∈ c', Entry kv) ∧ (∀ k ∈ Dict.keys c, k ∈ Dict.keys c') ∧ ∀ f ∈ l, ∀ k, ClosedTerm f k → k ∈ Dict.keys c' := by
    intro l
    induction l with
    | nil => intro c c' _ hc h0; cases hc; exact ⟨h0, fun _ h => h, by simp⟩
    | cons f l ih =>
      intro c c' hl hc h0
      have e := h.spatial f (hl f (by simp))
      obtain ⟨cf, h1, h2, h3⟩ := internalClosure_spec K.order h.order f (e ▸ h.space) (e ▸ h.nodup.filter _)
      rw [List.foldlM_cons] at hc
      simp only [h1, bind, Except.bind, pure, Except.pure] at hc
      obtain ⟨a1, a2, a3⟩ := ih (c.update cf) c' (fun g hg => hl g (List.mem_cons_of_mem _ hg)) hc (by
        intro kv hkv
        rcases Dict.mem_update _ _ _ hkv with hkv | hkv
        · exact h0 kv hkv
        · exact h.entry_field f (hl f (by simp)) kv cf h1 hkv)
      refine ⟨a1, fun k hk => a2 k ?_, fun g hg k hk => ?_⟩
      · rw [Dict.keys_update_iff]; exact .inl hk
      · rcases List.mem_cons.1 hg with rfl | hg
        · exact a2 _ (by rw [Dict.keys_update_iff]; exact .inr ((h2 _).2 hk))
        · exact a3 g hg k hk
  have step2 : ∀ (l : List (Field × Field)) (c c' : Dict Ex Ex), (∀ p ∈ l, p.1 ∈ K.fields ∧ p.2 ∈ K.fields) →
      l.foldlM (coupleEntries label K.fields) c = .ok c' → (∀ kv ∈ c, Entry kv) →
      (∀ kv ∈ c', Entry kv) ∧ (∀ k ∈ Dict.keys c, k ∈ Dict.keys c') ∧ ∀ p ∈ l,
        .ex (.mul p.1.error p.2.error) ∈ Dict.keys c' ∧ .ex (.mul p.1.epsilon p.2.epsilon) ∈ Dict.keys c' := by
    intro l
    induction l with
    | nil => intro c c' _ hc h0; cases hc; exact ⟨h0, fun _ h => h, by simp⟩
    | cons p l ih =>
      intro c c' hl hc h0
      have hp := hl p (by simp)
      have hv : covariance label K.fields p.1 p.2 = .ok (.fn (label ++ p.1.name ++ p.2.name) p.1.coordinates) := by
        unfold covariance
        rw [if_pos hp, if_pos (by rw [h.same _ hp.1, h.same _ hp.2])]
      rw [List.foldlM_cons] at hc
      unfold coupleEntries at hc
      simp only [hv, bind, Except.bind, pure, Except.pure] at hc
      obtain ⟨a1, a2, a3⟩ := ih _ c' (fun q hq => hl q (List.mem_cons_of_mem _ hq)) hc (by
        intro kv hkv
        rcases Dict.mem_set _ _ _ _ hkv with rfl | hkv
        · exact ⟨(eval_pair _ _ _ _ rfl rfl (fnD_rnd _ _ [] (omega_error p.1)) (fnD_rnd _ _ [] (omega_error p.2))).imp
            fun _ h => h.1, rfl⟩
        · rcases Dict.mem_set _ _ _ _ hkv with rfl | hkv
          · exact ⟨(eval_pair _ _ _ _ rfl rfl (fnD_rnd _ _ [] (omega_error p.1)) (fnD_rnd _ _ [] (omega_error p.2))).imp
              fun _ h => h.1, rfl⟩
          · exact h0 kv hkv)
      refine ⟨a1, fun k hk => a2 k ?_, fun q hq => ?_⟩
      · rw [Tree.mem_keys_set_iff, Tree.mem_keys_set_iff]
        exact .inl (.inl hk)
      · rcases List.mem_cons.1 hq with rfl | hq
        · refine ⟨a2 _ ?_, a2 _ ?_⟩ <;> rw [Tree.mem_keys_set_iff, Tree.mem_keys_set_iff] <;> simp
        · exact a3 q hq
  unfold Pkf.closure internalClosure at hc
  simp only [bind, Except.bind] at hc
  split at hc
  · cases hc
  rename_i c1 hc1
  obtain ⟨a1, -, a3⟩ := step1 K.fields [] c1 (fun _ h => h) (by simpa only [bind, Except.bind] using hc1) (by simp)
  obtain ⟨b1, b2, b3⟩ := step2 (couples K.fields) c1 c (fun p hp => by
    have hm := ((PKF.C41_couples K.fields).1 p.1 p.2).1 hp
    exact ⟨hm.subset (by simp), hm.subset (by simp)⟩) hc a1
  refine ⟨b1, fun k hk => ?_⟩
  rcases hk with ⟨f, hf, k, hk⟩ | ⟨f, g, hs⟩ | ⟨f, g, hs⟩
  · exact b2 _ (a3 f hf k hk)
  · exact (b3 (f, g) (((PKF.C41_couples K.fields).1 f g).2 hs)).1
  · exact (b3 (f, g) (((PKF.C41_couples K.fields).1 f g).2 hs)).2

/-- Replacing the closed terms. -/
theorem exs_closure (c : Dict Ex Ex) (hc : K.closure = .ok c) {B : Ex → Prop} (e : Ex)
    (he : ExsP (fun t => Stable t ∧ B t) (ofEx e)) :
    Exs (fun t => Stable t ∧ B t ∧ ∀ k, ClosedTerms K.fields k → t ≠ eval k) (K.subs c e) := by
  obtain ⟨h1, h2⟩ := h.entries c hc
  have hm : ∀ kv, kv ∈ K.arrange c ↔ kv ∈ c := fun kv => (h.arrange c).mem_iff
  refine exs_substAll (B := fun t => B t ∧ ∀ k, ClosedTerms K.fields k → t ≠ eval k) (K.arrange c)
    (fun kv hkv => (h1 kv ((hm kv).1 hkv)).1) (fun kv hkv => exs_ofEx _ (exs_nil (h1 kv ((hm kv).1 hkv)).2)) e (he.mono ?_)
  rintro t ⟨hs, hB⟩
  refine ⟨hs, ?_⟩
  by_cases hk : ∃ kv ∈ K.arrange c, eval kv.1 = t
  · exact .inr hk
  · refine .inl ⟨hB, fun k hk' e => hk ?_⟩
    obtain ⟨kv, hkv, rfl⟩ := List.mem_map.1 (h2 k hk')
    exact ⟨kv, (hm kv).2 hkv, e.symm⟩

theorem closedTree_spec (c : Dict Ex Ex) (hc : K.closure = .ok c) (f : Field) (hf : f ∈ K.fields) (d : ℕ) (t : Dict Ex Ex)
    (ht : K.closedTree c f d = .ok t) :
    (∀ kv ∈ t, (∃ a, eval kv.1 = .ex a) ∧ ExsP (fun t => Stable t ∧ NoPair t) (ofEx kv.2)) ∧
      ∀ a b α β, IsMultiIndex f.spatial.length a α → IsMultiIndex f.spatial.length b β → 0 < a → 0 < b → a + b ≤ d →
        ∃ kv ∈ t, eval kv.1 = eval (ofTree f.spatial f.epsilon (.term (Tree.term α β))) := by
  have e := h.spatial f hf
  have h0 : f.spatial ≠ [] := e ▸ h.space
  have hn : f.spatial.Nodup := e ▸ h.nodup.filter _
  have hreach : Tree.Reachable K.order f.spatial true Tree.State.init := ⟨[], rfl⟩
  obtain ⟨tree, s', h1, h2⟩ := Tree.C38_tree_complete K.order h.order f.spatial h0 hn (h.omega_spatial f hf) true _ hreach d
  unfold Pkf.closedTree at ht
  simp only [h1, bind, Except.bind, pure, Except.pure] at ht
  cases ht
  have z : ∀ α : List ℤ, ∀ p ∈ f.spatial.zip (α.map Int.toNat), p.1 ∈ f.spatial := fun α p hp => (List.of_mem_zip hp).1
  have key : ∀ t : Tree.Term, ∃ a, eval (ofTree f.spatial f.epsilon (.term t)) = .ex a ∧ Stable (.ex a) := by
    intro t
    refine ⟨_, ?_, stable_dEps (f := f) _ _ (z t.a) (z t.b)⟩
    unfold eval
    rw [show ofEx (ofTree f.spatial f.epsilon (.term t)) = _ from
      ofEx_ex_mul _ _ _ _ (ofEx_dEps _ (z t.a)) (ofEx_dEps _ (z t.b)) (rnd_dEps _) (rnd_dEps _), toEx_patom]
  refine ⟨fun kv hkv => ?_, fun a b α β hα hβ ha hb hab => ?_⟩
  · obtain ⟨tv, htv, rfl⟩ := List.mem_map.1 (Setting.mem_trends _ _ hkv)
    refine ⟨?_, ?_⟩
    · obtain ⟨a, ha, hs⟩ := key tv.1
      exact ⟨a, by rw [ha]; exact hs.eval⟩
    · have hz : OnlyZero f.spatial.length tv.2 := by
        refine Tree.C38_reduced K.order h.order f.spatial h0 hn (h.omega_spatial f hf) _ hreach (some d) tree s' h1 tv.1 tv.2 ?_
        exact Dict.get?_of_mem (Tree.call_nodup K.order f.spatial true _ _ _ _ h1) htv
      refine exs_ofEx _ ((h.exs_closure c hc _ (exs_tree _ rfl tv.2 hz)).mono (fun t ht => ⟨ht.1, ht.1, ht.2.1⟩))
  · obtain ⟨tv, htv, e1⟩ := List.mem_map.1 ((h2 _).2 ⟨a, b, α, β, hα, hβ, ha, hb, hab, rfl⟩)
    have hk : eval (ofTree f.spatial f.epsilon (.term (Tree.term α β))) ∈ Dict.keys (Dict.update [] (tree.map (fun kv =>
        (eval (ofTree f.spatial f.epsilon (.term kv.1)), K.subs c (ofTree f.spatial f.epsilon kv.2))))) := by
      rw [Dict.keys_update_iff]
      right
      refine List.mem_map.2 ⟨_, List.mem_map.2 ⟨tv, htv, rfl⟩, ?_⟩
      show eval (ofTree f.spatial f.epsilon (.term tv.1)) = _
      rw [e1]
    obtain ⟨kv, hkv, e2⟩ := List.mem_map.1 hk
    refine ⟨kv, hkv, ?_⟩
    obtain ⟨a, ha, hs⟩ := key (Tree.term α β)
    rw [e2, ha]
    exact hs.eval

omit h in
theorem foldr_max_le (l : List ℕ) (n : ℕ) (hn : n ∈ l) : n ≤ l.foldr max 0 := by
  induction l with
  | nil => cases hn
  | cons a l ih =>
    rw [List.foldr_cons]
    rcases List.mem_cons.1 hn with rfl | hn
    · exact le_max_left _ _
    · exact le_trans (ih hn) (le_max_right _ _)

theorem epsilon_spatial (f g : Field) (hf : f ∈ K.fields) (hg : g ∈ K.fields) : f.spatial = g.spatial := by
  rw [h.spatial f hf, h.spatial g hg]

/-- **The result of the internal closure**: no second moment of two derivatives of a field is left, and no closed term. -/
theorem exs_applyInternal (c : Dict Ex Ex) (hc : K.closure = .ok c) (rhs : Ex) (hr : Exs Stable rhs) (r : Ex)
    (hok : K.applyInternal c rhs = .ok r) :
    Exs (fun t => Stable t ∧ (∀ f ∈ K.fields, ∀ v w, ¬ Moment f v w t) ∧ ∀ k, ClosedTerms K.fields k → t ≠ eval k) r := by
  let I : List Ex → Ex → Prop := fun l t =>
    ∀ f ∈ K.fields, ∀ v w, Moment f v w t → f.epsilon ∈ l ∧ t ∈ exAtoms rhs
  have key : ∀ (l : List Ex) (e e' : Ex), Exs (fun t => Stable t ∧ I l t) e → l.foldlM (K.applyTree c (univariates rhs)) e = .ok e' →
      Exs (fun t => Stable t ∧ I [] t) e' := by
    intro l
    induction l with
    | nil => intro e e' he hh; cases hh; exact he
    | cons eps l ih =>
      intro e e' he hh
      rw [List.foldlM_cons] at hh
      simp only [bind, Except.bind] at hh
      split at hh
      · cases hh
      rename_i e1 he1
      refine ih e1 e' ?_ hh
      unfold applyTree at he1
      split at he1
      · cases he1
      rename_i g hg
      simp only [bind, Except.bind] at he1
      split at he1
      · cases he1
      rename_i t ht
      cases he1
      obtain ⟨hgm, hge⟩ := Setting.fieldOf_mem eps g hg
      obtain ⟨h1, h2⟩ := h.closedTree_spec c hc g hgm _ t ht
      have hm : ∀ kv, kv ∈ K.arrange t ↔ kv ∈ t := fun kv => (h.arrange t).mem_iff
      refine exs_substAll (K.arrange t) (fun kv hkv => (h1 kv ((hm kv).1 hkv)).1)
        (fun kv hkv => (h1 kv ((hm kv).1 hkv)).2.mono (fun s hs => ⟨hs.1, fun f hf v w hmo => absurd hmo (hs.2.moment f v w)⟩)) e
        (exs_ofEx e (he.mono ?_))
      rintro s ⟨hs, hI⟩
      refine ⟨hs, hs, ?_⟩
      by_cases hmo : ∃ f ∈ K.fields, ∃ v w, Moment f v w s ∧ f.epsilon = eps
      · right
        obtain ⟨f, hf, v, w, hmo, rfl⟩ := hmo
        have esp := h.epsilon_spatial g f hgm hf
        have hn : f.spatial.Nodup := h.spatial f hf ▸ h.nodup.filter _
        obtain ⟨a, b, α, β, hα, hβ, ha, hb, hu, hk⟩ := hmo.key hn hs
        obtain ⟨kv, hkv, e2⟩ := h2 a b α β (esp ▸ hα) (esp ▸ hβ) ha hb (by
          apply foldr_max_le
          refine List.mem_map.2 ⟨(f.epsilon, a + b), List.mem_filter.2 ⟨?_, decide_eq_true rfl⟩, rfl⟩
          exact List.mem_filterMap.2 ⟨s, (hI f hf v w hmo).2, hu⟩)
        refine ⟨kv, (hm kv).2 hkv, ?_⟩
        rw [e2, esp, hge, hk]
      · left
        intro f hf v w hmo'
        obtain ⟨i1, i2⟩ := hI f hf v w hmo'
        refine ⟨?_, i2⟩
        rcases List.mem_cons.1 i1 with e | i1
        · exact absurd ⟨f, hf, v, w, hmo', e⟩ hmo
        · exact i1
  unfold applyInternal at hok
  simp only [] at hok
  split at hok
  · cases hok
  simp only [bind, Except.bind] at hok
  split at hok
  · cases hok
  rename_i e1 he1
  cases hok
  have h1 := key _ rhs e1 (fun t ht => ⟨hr t ht, fun f hf v w hmo => by
    have hn : f.spatial.Nodup := h.spatial f hf ▸ h.nodup.filter _
    obtain ⟨a, b, -, -, -, -, -, -, hu, -⟩ := hmo.key hn (hr t ht)
    refine ⟨List.mem_dedup.2 (List.mem_map.2 ⟨(f.epsilon, a + b), List.mem_filterMap.2 ⟨t, ht, hu⟩, rfl⟩), ht⟩⟩) he1
  exact (h.exs_closure c hc (B := fun t => ∀ f ∈ K.fields, ∀ v w, ¬ Moment f v w t) e1 (exs_ofEx _ (h1.mono (fun t ht =>
    ⟨ht.1, ht.1, fun f hf v w hmo => by simpa using (ht.2 f hf v w hmo).1⟩))))

end DetSystem

end Sympkf.Spec
