import Verif.Lemmas.FreeOf
import Verif.Lemmas.Idem

/-!
# Lemmas: polynomials that are affine in the fields and their means
-/

set_option autoImplicit false

namespace Sympkf.Spec

open Text Rand PKF Pkf

variable {F : List Field}

/-- A coefficient: deterministic, without fields. -/
def Cf (F : List Field) (a : Ex) : Prop := FreeOf (fieldNames F) a ∧ Deterministic a

theorem cf_hereditary : Hereditary (Cf F) where
  num _ := ⟨trivial, trivial⟩
  add _ _ h h' := ⟨⟨h.1, h'.1⟩, h.2, h'.2⟩
  mul _ _ h h' := ⟨⟨h.1, h'.1⟩, h.2, h'.2⟩
  func _ _ _ _ _ h := ⟨h, h⟩
  add_inv _ _ h := ⟨⟨h.1.1, h.2.1⟩, h.1.2, h.2.2⟩
  mul_inv _ _ h := ⟨⟨h.1.1, h.2.1⟩, h.1.2, h.2.2⟩
  pow _ _ := Iff.rfl

abbrev CfP (F : List Field) (p : Poly) : Prop := AllF (fun a _ => Cf F a) p

theorem cf_mulOK : MulOK (fun a (_ : ℚ) => Cf F a) := fun _ _ _ h _ => h

theorem cf_toEx (p : Poly) (hp : CfP F p) : Cf F (toEx p) := hereditary_toEx cf_hereditary p hp

theorem cf_diffOK (x : Str) (hx : x ≠ omega) : DiffOK (fun a (_ : ℚ) => Cf F a) x := by
  refine cf_hereditary.diffOK x (fun b vars h => ⟨h.1, h.2.1, fun v hv => ?_⟩) (fun a _ h => ⟨h.1, h.2, by simpa using hx⟩)
  rcases mem_bumpVar x vars v hv with e | ⟨w, hw, e⟩
  · rw [e]; exact hx
  · rw [← e]; exact h.2.2 w hw

theorem cf_pdiffs (vars : List (Str × ℕ)) (hv : ∀ v ∈ vars, v.1 ≠ omega) (p : Poly) (hp : CfP F p) : CfP F (pdiffs vars p) :=
  allF_pdiffs cf_mulOK vars (fun v h => cf_diffOK v.1 (hv v h)) p hp

theorem cf_monoEx (m : Mono) (h : AllM (fun a _ => Cf F a) m) : Cf F (monoEx m) :=
  exprOK_monoEx cf_hereditary.toExprOK (fun a q h => by unfold factorEx; split <;> exact h) m h

theorem cf_factorEx (f : Ex × ℚ) (h : Cf F f.1) : Cf F (factorEx f) := by unfold factorEx; split <;> exact h

theorem cf_ofEx (e : Ex) (h : Cf F e) : CfP F (ofEx e) := by
  induction e with
  | num q => exact allF_pconst q
  | sym s => exact allF_patom _ h
  | fn u args => exact allF_patom _ h
  | func g a ih => exact allF_patom _ (cf_toEx _ (ih h))
  | add a b iha ihb => exact allF_padd _ _ (iha ⟨h.1.1, h.2.1⟩) (ihb ⟨h.1.2, h.2.2⟩)
  | mul a b iha ihb => exact allF_pmul cf_mulOK _ _ (iha ⟨h.1.1, h.2.1⟩) (ihb ⟨h.1.2, h.2.2⟩)
  | pow a q ih => exact hereditary_ppow cf_hereditary _ _ (ih h)
  | deriv a vars ih => exact cf_pdiffs _ h.2.2 _ (ih ⟨h.1, h.2.1⟩)
  | integ a x ih =>
    have := cf_toEx _ (ih ⟨h.1, h.2.1⟩)
    exact allF_patom _ ⟨this.1, this.2, h.2.2⟩
  | ex a ih => exact h.2.elim
  | other b => exact h.2.elim

theorem cf_subst (old : Ex) (new : Poly) (hd : ∀ b vs, old ≠ .deriv b vs) (hn : Cf F old → CfP F new) (e : Ex) (h : Cf F e) :
    CfP F (subst old new e) := by
  have hit : e = old → CfP F new := fun he => hn (he ▸ h)
  induction e with
  | num q => unfold subst; split; exact hit ‹_›; exact allF_pconst q
  | sym s => unfold subst; split; exact hit ‹_›; exact allF_patom _ h
  | fn u args => unfold subst; split; exact hit ‹_›; exact allF_patom _ h
  | func g a ih => unfold subst; split; exact hit ‹_›; exact allF_patom _ (cf_toEx _ (ih h (fun he => hn (he ▸ h))))
  | add a b iha ihb =>
    have h1 : Cf F a := ⟨h.1.1, h.2.1⟩
    have h2 : Cf F b := ⟨h.1.2, h.2.2⟩
    unfold subst; split; exact hit ‹_›
    exact allF_padd _ _ (iha h1 (fun he => hn (he ▸ h1))) (ihb h2 (fun he => hn (he ▸ h2)))
  | mul a b iha ihb =>
    have h1 : Cf F a := ⟨h.1.1, h.2.1⟩
    have h2 : Cf F b := ⟨h.1.2, h.2.2⟩
    unfold subst; split; exact hit ‹_›
    exact allF_pmul cf_mulOK _ _ (iha h1 (fun he => hn (he ▸ h1))) (ihb h2 (fun he => hn (he ▸ h2)))
  | pow a q ih => unfold subst; split; exact hit ‹_›; exact hereditary_ppow cf_hereditary _ _ (ih h (fun he => hn (he ▸ h)))
  | deriv a vars ih =>
    have h1 : Cf F a := ⟨h.1, h.2.1⟩
    unfold subst
    split
    · exact hit ‹_›
    · dsimp only
      rw [derivRest_none old a vars hd]
      exact cf_pdiffs _ h.2.2 _ (ih h1 (fun he => hn (he ▸ h1)))
  | integ a x ih =>
    have h1 : Cf F a := ⟨h.1, h.2.1⟩
    have := fun hh => cf_toEx _ (ih h1 hh)
    unfold subst; split; exact hit ‹_›
    exact allF_patom _ ⟨(this (fun he => hn (he ▸ h1))).1, (this (fun he => hn (he ▸ h1))).2, h.2.2⟩
  | ex a ih => exact h.2.elim
  | other b => exact h.2.elim

/-! ## Monomials with at most one field -/

/-- A field or the mean of a field. -/
def FieldBase (F : List Field) (b : Ex) : Prop := (∃ f ∈ F, b = f.value) ∨ ∃ f ∈ F, b = .ex f.random

/-- A derivative of a field or of its mean. -/
def La (F : List Field) (a : Ex) : Prop := ∃ b vars, FieldBase F b ∧ a = baseD b vars ∧ ∀ v ∈ vars, v.1 ≠ omega

theorem FieldBase.not_free {b : Ex} (h : FieldBase F b) : ¬ FreeOf (fieldNames F) b := by
  rcases h with ⟨f, hf, rfl⟩ | ⟨f, hf, rfl⟩
  · exact fun h => h (List.mem_map.2 ⟨f, hf, rfl⟩)
  · exact fun h => h (List.mem_map.2 ⟨f, hf, rfl⟩)

theorem La.not_free {a : Ex} (h : La F a) : ¬ FreeOf (fieldNames F) a := by
  obtain ⟨b, vars, hb, rfl, -⟩ := h
  unfold baseD
  split
  · exact hb.not_free
  · exact hb.not_free

theorem La.ne {a c : Ex} (h : La F a) (hc : Cf F c) : c ≠ a := fun e => h.not_free (e ▸ hc.1)

/-- One field, times coefficients. -/
inductive LinM (F : List Field) : Mono → Prop
  | here (a : Ex) (m : Mono) : La F a → AllM (fun a _ => Cf F a) m → LinM F ((a, 1) :: m)
  | there (f : Ex × ℚ) (m : Mono) : Cf F f.1 → LinM F m → LinM F (f :: m)

/-- No field, or one field times coefficients. -/
def LD (F : List Field) (m : Mono) : Prop := AllM (fun a _ => FreeOf (fieldNames F) a) m ∨ LinM F m

abbrev LDP (F : List Field) (p : Poly) : Prop := AllMono (LD F) p

theorem LinM.not_free {m : Mono} (h : LinM F m) : ¬ AllM (fun a _ => FreeOf (fieldNames F) a) m := by
  induction h with
  | here a m h _ => exact fun hf => h.not_free hf.head
  | there f m _ _ ih => exact fun hf => ih hf.tail

theorem lin_mulAtom_cf (c : Ex) (q : ℚ) (m : Mono) (hc : Cf F c) (hm : LinM F m) : LinM F (mulAtom c q m) := by
  induction hm with
  | here a m ha hm =>
    unfold mulAtom
    rw [if_neg (ha.ne hc)]
    split
    · exact .there (c, q) _ hc (.here a m ha hm)
    · exact .here a _ ha (allM_mulAtom cf_mulOK c q m hc hm)
  | there f m hf hm ih =>
    obtain ⟨b, p⟩ := f
    unfold mulAtom
    split
    · split
      · exact hm
      · exact .there (b, p + q) _ hf hm
    · split
      · exact .there (c, q) _ hc (.there (b, p) _ hf hm)
      · exact .there (b, p) _ hf ih

theorem lin_mulAtom_la (a : Ex) (m : Mono) (ha : La F a) (hm : AllM (fun a _ => Cf F a) m) : LinM F (mulAtom a 1 m) := by
  induction m with
  | nil => exact .here a [] ha .nil
  | cons f m ih =>
    obtain ⟨b, p⟩ := f
    unfold mulAtom
    rw [if_neg (fun e => ha.ne hm.head e.symm)]
    split
    · exact .here a _ ha hm
    · exact .there (b, p) _ hm.head (ih hm.tail)

theorem lin_monoMul_left (m m' : Mono) (hm : AllM (fun a _ => Cf F a) m) (hm' : LinM F m') : LinM F (monoMul m m') := by
  induction m with
  | nil => exact hm'
  | cons f m ih => exact lin_mulAtom_cf _ _ _ hm.head (ih hm.tail)

theorem lin_monoMul_right (m m' : Mono) (hm : LinM F m) (hm' : AllM (fun a _ => Cf F a) m') : LinM F (monoMul m m') := by
  induction hm with
  | here a m ha hm => exact lin_mulAtom_la a _ ha (allM_monoMul cf_mulOK m m' hm hm')
  | there f m hf _ ih => exact lin_mulAtom_cf _ _ _ hf ih

theorem AllM.free {m : Mono} (h : AllM (fun a _ => Cf F a) m) : AllM (fun a _ => FreeOf (fieldNames F) a) m := fun f hf => (h f hf).1

theorem ld_left (m m' : Mono) (hm : AllM (fun a _ => Cf F a) m) (hm' : LD F m') : LD F (monoMul m m') := by
  rcases hm' with hm' | hm'
  · exact .inl (allM_monoMul fieldFree_mulOK m m' (AllM.free hm) hm')
  · exact .inr (lin_monoMul_left m m' hm hm')

theorem ld_right (m m' : Mono) (hm : LD F m) (hm' : AllM (fun a _ => Cf F a) m') : LD F (monoMul m m') := by
  rcases hm with hm | hm
  · exact .inl (allM_monoMul fieldFree_mulOK m m' hm (AllM.free hm'))
  · exact .inr (lin_monoMul_right m m' hm hm')

theorem ldp_left {p q : Poly} (hp : CfP F p) (hq : LDP F q) : LDP F (pmul p q) := allMono_pmul ld_left p q hp hq
theorem ldp_right {p q : Poly} (hp : LDP F p) (hq : CfP F q) : LDP F (pmul p q) := allMono_pmul ld_right p q hp hq
theorem LDP.free {p : Poly} (h : FreeP (fieldNames F) p) : LDP F p := fun t ht => .inl (h t ht)
theorem LDP.cf {p : Poly} (h : CfP F p) : LDP F p := fun t ht => .inl (AllM.free (h t ht))
theorem ldp_patom {a : Ex} (h : La F a) : LDP F (patom a) := .cons (.inr (.here a [] h .nil)) .nil

theorem La.diff {a : Ex} (h : La F a) (x : Str) (hx : x ≠ omega) : LDP F (diffAtom x a) := by
  obtain ⟨b, vars, hb, rfl, hv⟩ := h
  have new : LDP F (patom (baseD b (bumpVar x vars))) := by
    refine ldp_patom ⟨b, _, hb, rfl, fun v hv' => ?_⟩
    rcases mem_bumpVar x vars v hv' with e | ⟨w, hw, e⟩
    · rw [e]; exact hx
    · rw [← e]; exact hv w hw
  have he : baseD b (bumpVar x vars) = .deriv b (bumpVar x vars) := if_neg (bumpVar_nonempty x vars)
  rw [he] at new
  unfold baseD
  split
  · rename_i e
    subst e
    rcases hb with ⟨f, hf, rfl⟩ | ⟨f, hf, rfl⟩
    · show LDP F (if constIn x f.value then [] else patom (.deriv f.value [(x, 1)]))
      split
      · exact .nil
      · exact new
    · exact new
  · simp only [diffAtom]
    split
    · exact .nil
    · exact new

theorem ldp_diffMono (x : Str) (hx : x ≠ omega) (m : Mono) (hm : LinM F m) : LDP F (diffMono x m) := by
  induction hm with
  | here a m ha hm =>
    refine allMono_padd _ _ (ldp_right (ldp_left ?_ (ha.diff x hx)) (.cons hm .nil))
      (ldp_right (.cons (.inr (.here a [] ha .nil)) .nil) (allF_diffMono cf_mulOK x (cf_diffOK x hx) m hm))
    exact allF_pmul cf_mulOK _ _ (allF_pconst 1) (by rw [if_pos rfl]; exact allF_pconst 1)
  | there f m hf hm ih =>
    obtain ⟨c, q⟩ := f
    refine allMono_padd _ _ (ldp_left (allF_pmul cf_mulOK _ _ (allF_pmul cf_mulOK _ _ (allF_pconst q) ?_)
      ((cf_diffOK x hx).diff c q hf)) (.cons (.inr hm) .nil)) (ldp_left (.cons (.cons hf .nil) .nil) ih)
    split
    · exact allF_pconst 1
    · exact .cons (.cons hf .nil) .nil

theorem ldp_pdiff (x : Str) (hx : x ≠ omega) {p : Poly} (hp : LDP F p) : LDP F (pdiff x p) := by
  induction p with
  | nil => exact .nil
  | cons t p ih =>
    refine allMono_padd _ _ (ldp_left (allF_pconst _) ?_) (ih hp.tail)
    rcases hp.head with h | h
    · exact .free (allF_diffMono fieldFree_mulOK x (fieldFree_diffOK x) _ h)
    · exact ldp_diffMono x hx _ h

theorem ldp_pdiffs (vars : List (Str × ℕ)) (hv : ∀ v ∈ vars, v.1 ≠ omega) {p : Poly} (hp : LDP F p) : LDP F (pdiffs vars p) := by
  induction vars generalizing p with
  | nil => exact hp
  | cons v vars ih =>
    refine ih (fun w hw => hv w (by simp [hw])) ?_
    have hx := hv v (by simp)
    show LDP F ((pdiff v.1)^[v.2] p)
    generalize v.2 = n
    clear ih hv
    induction n generalizing p with
    | zero => exact hp
    | succ n ih => rw [Function.iterate_succ_apply]; exact ih (ldp_pdiff _ hx hp)

/-! ## Affine expressions -/

/-- Affine in the fields and their means. -/
inductive Aff (F : List Field) : Ex → Prop
  | free (e : Ex) : FreeOf (fieldNames F) e → Aff F e
  | base (b : Ex) : FieldBase F b → Aff F b
  | deriv (a : Ex) (vars : List (Str × ℕ)) : Aff F a → (∀ v ∈ vars, v.1 ≠ omega) → Aff F (.deriv a vars)
  | add (a b : Ex) : Aff F a → Aff F b → Aff F (.add a b)
  | mul (c a : Ex) : Cf F c → Aff F a → Aff F (.mul c a)
  | mulRight (a c : Ex) : Aff F a → Cf F c → Aff F (.mul a c)

theorem Affine.aff {e : Ex} (h : Affine F e) (hd : Deterministic e) : Aff F e := by
  induction h with
  | free e h => exact .free e h
  | field f hf => exact .base _ (.inl ⟨f, hf, rfl⟩)
  | deriv a vars _ ih => exact .deriv a vars (ih hd.1) hd.2
  | add a b _ _ iha ihb => exact .add a b (iha hd.1) (ihb hd.2)
  | mul c a hc _ ih => exact .mul c a ⟨hc, hd.1⟩ (ih hd.2)
  | mulRight a c _ hc ih => exact .mulRight a c (ih hd.1) ⟨hc, hd.2⟩

theorem La.aff {a : Ex} (h : La F a) : Aff F a := by
  obtain ⟨b, vars, hb, rfl, hv⟩ := h
  unfold baseD
  split
  · exact .base b hb
  · exact .deriv b vars (.base b hb) hv

theorem LinM.aff {m : Mono} (h : LinM F m) : Aff F (monoEx m) := by
  induction h with
  | here a m ha hm =>
    have e : factorEx (a, 1) = a := by simp [factorEx]
    cases m with
    | nil => show Aff F (factorEx (a, 1)); rw [e]; exact ha.aff
    | cons g m => show Aff F (.mul (factorEx (a, 1)) (monoEx (g :: m))); rw [e]; exact .mulRight _ _ ha.aff (cf_monoEx _ hm)
  | there f m hf hm ih =>
    cases m with
    | nil => cases hm
    | cons g m => exact .mul _ _ (cf_factorEx f hf) ih

theorem aff_termEx (t : Mono × ℚ) (h : LD F t.1) : Aff F (termEx t) := by
  have key : Aff F (monoEx t.1) := by
    rcases h with h | h
    · exact .free _ (fieldFree_monoEx _ h)
    · exact h.aff
  unfold termEx
  split
  · exact key
  · split
    · exact .free _ trivial
    · exact .mul _ _ ⟨trivial, trivial⟩ key

theorem aff_toEx (p : Poly) (hp : LDP F p) : Aff F (toEx p) := by
  induction p with
  | nil => exact .free _ trivial
  | cons t p ih =>
    cases p with
    | nil => exact aff_termEx t hp.head
    | cons t' p => exact .add _ _ (aff_termEx t hp.head) (ih hp.tail)

theorem fieldBase_ldp {b : Ex} (h : FieldBase F b) : LDP F (patom b) := ldp_patom ⟨b, [], h, rfl, by simp⟩

theorem ofEx_fieldBase {b : Ex} (h : FieldBase F b) : ofEx b = patom b := by
  rcases h with ⟨f, -, rfl⟩ | ⟨f, -, rfl⟩
  · rfl
  · exact ofEx_exFn _ _ (by simp)

theorem aff_ofEx (e : Ex) (h : Aff F e) : LDP F (ofEx e) := by
  induction h with
  | free e h => exact .free (fieldFree_ofEx e h)
  | base b h => rw [ofEx_fieldBase h]; exact fieldBase_ldp h
  | deriv a vars _ hv ih => exact ldp_pdiffs vars hv ih
  | add a b _ _ iha ihb => exact allMono_padd _ _ iha ihb
  | mul c a hc _ ih => exact ldp_left (cf_ofEx c hc) ih
  | mulRight a c _ hc ih => exact ldp_right ih (cf_ofEx c hc)

theorem aff_eval (e : Ex) (h : Aff F e) : Aff F (eval e) := aff_toEx _ (aff_ofEx e h)

/-- What may be replaced: functions and symbols. -/
def Leaf : Ex → Prop
  | .sym _ => True
  | .fn _ _ => True
  | _ => False

theorem aff_subst (old : Ex) (new : Poly) (hl : Leaf old) (hf : FreeOf (fieldNames F) old → FreeP (fieldNames F) new) (hc : Cf F old → CfP F new)
    (hb : ∀ b, FieldBase F b → LDP F (subst old new b)) (e : Ex) (h : Aff F e) : LDP F (subst old new e) := by
  have hd : ∀ b vs, old ≠ .deriv b vs := by rintro b vs rfl; exact hl
  induction h with
  | free e h => exact .free (fieldFree_subst old new hf e h)
  | base b h => exact hb b h
  | deriv a vars _ hv ih =>
    unfold subst
    rw [if_neg (fun e => by rw [← e] at hl; exact hl)]
    dsimp only
    rw [derivRest_none old a vars hd]
    exact ldp_pdiffs vars hv ih
  | add a b _ _ iha ihb =>
    unfold subst
    rw [if_neg (fun e => by rw [← e] at hl; exact hl)]
    exact allMono_padd _ _ iha ihb
  | mul c a hcc _ ih =>
    unfold subst
    rw [if_neg (fun e => by rw [← e] at hl; exact hl)]
    exact ldp_left (cf_subst old new hd hc c hcc) ih
  | mulRight a c _ hcc ih =>
    unfold subst
    rw [if_neg (fun e => by rw [← e] at hl; exact hl)]
    exact ldp_right ih (cf_subst old new hd hc c hcc)

theorem aff_epsOne (p : Poly) (hp : LDP F p) : Aff F (epsOne p) := by
  refine aff_toEx _ (aff_subst _ _ (by exact trivial) (fun _ => allF_pconst 1) (fun _ => allF_pconst 1) (fun b hb => ?_) _ (aff_toEx p hp))
  have e : subst (.sym epsSym) (pconst 1) b = ofEx b := by
    refine subst_inert _ _ (by simp) b ?_
    rcases hb with ⟨f, -, rfl⟩ | ⟨f, -, rfl⟩
    · simp [Inert, Field.value]
    · simp [Inert, Field.random]
  rw [e, ofEx_fieldBase hb]
  exact fieldBase_ldp hb

theorem aff_reynolds (g : Field) (hg : g ∈ F) (ho : ∀ f ∈ F, omega ∉ f.coordinates) (herr : FreeOf (fieldNames F) g.error) (e : Ex) (h : Aff F e) :
    Aff F (substEx g.value (.add (.ex g.random) (.mul (.sym epsSym) g.error)) e) := by
  have hnew : LDP F (ofEx (.add (.ex g.random) (.mul (.sym epsSym) g.error))) :=
    aff_ofEx _ (.add _ _ (.base _ (.inr ⟨g, hg, rfl⟩)) (.free _ ⟨trivial, herr⟩))
  have hb0 : FieldBase F g.value := .inl ⟨g, hg, rfl⟩
  unfold substEx
  rw [show eval g.value = g.value from eval_fn _ _]
  refine aff_toEx _ (aff_subst _ _ (by exact trivial) (fun h => absurd h hb0.not_free) (fun h => absurd h.1 hb0.not_free) (fun b hb => ?_) _ (aff_eval e h))
  by_cases e0 : b = g.value
  · unfold subst
    rw [if_pos e0]
    exact hnew
  · have e : subst g.value (ofEx (.add (.ex g.random) (.mul (.sym epsSym) g.error))) b = ofEx b := by
      refine subst_inert _ _ (by simp [Field.value]) b ?_
      rcases hb with ⟨f, -, rfl⟩ | ⟨f, hf, rfl⟩
      · exact e0
      · refine ⟨by simp [Field.value], fun h => ?_⟩
        have : omega ∈ g.coordinates := by
          simp only [Field.value, Ex.fn.injEq] at h
          rw [← h.2]; simp
        exact ho g hg this
    rw [e, ofEx_fieldBase hb]
    exact fieldBase_ldp hb

theorem aff_substAll (l : List (Ex × Ex)) (ho : ∀ f ∈ F, omega ∉ f.coordinates)
    (hl : ∀ kv ∈ l, ∃ g ∈ F, FreeOf (fieldNames F) g.error ∧ kv = (g.value, .add (.ex g.random) (.mul (.sym epsSym) g.error))) (e : Ex) (h : Aff F e) :
    Aff F (substAll l e) := by
  unfold substAll
  have h0 := aff_eval e h
  generalize eval e = e0 at h0
  induction l generalizing e0 with
  | nil => exact h0
  | cons kv l ih =>
    obtain ⟨g, hg, he, rfl⟩ := hl kv (by simp)
    exact ih (fun kv h => hl kv (by simp [h])) _ (aff_reynolds g hg ho he e0 h0)

/-! ## Taylor expansions -/

/-- All coefficients of the expansion are affine. -/
def L3 (F : List Field) (j : Taylor) : Prop := LDP F j.1 ∧ LDP F j.2.1 ∧ LDP F j.2.2

theorem l3_free (e : Ex) (h : FreeOf (fieldNames F) e) (j : Taylor) (hj : expansion e = .ok j) : L3 F j := by
  obtain ⟨h0, h1, h2⟩ := expansion_all fieldFree_hereditary (fun _ _ _ _ _ h => h) e h j hj
  exact ⟨.free (fun t ht f hf => (h0 t ht f hf).1), .free (fun t ht f hf => (h1 t ht f hf).1), .free (fun t ht f hf => (h2 t ht f hf).1)⟩

theorem expansion_cf (e : Ex) (h : Cf F e) (j : Taylor) (hj : expansion e = .ok j) : AllT (Cf F) j := by
  obtain ⟨h0, h1, h2⟩ := expansion_all cf_hereditary (fun _ _ _ _ _ h => h) e h j hj
  exact ⟨fun t ht f hf => (h0 t ht f hf).1, fun t ht f hf => (h1 t ht f hf).1, fun t ht f hf => (h2 t ht f hf).1⟩

theorem l3_tmul_left {a b : Taylor} (ha : AllT (Cf F) a) (hb : L3 F b) : L3 F (tmul a b) :=
  ⟨ldp_left ha.1 hb.1, allMono_padd _ _ (ldp_left ha.1 hb.2.1) (ldp_left ha.2.1 hb.1),
    allMono_padd _ _ (ldp_left ha.1 hb.2.2) (allMono_padd _ _ (ldp_left ha.2.1 hb.2.1) (ldp_left ha.2.2 hb.1))⟩

theorem l3_tmul_right {a b : Taylor} (ha : L3 F a) (hb : AllT (Cf F) b) : L3 F (tmul a b) :=
  ⟨ldp_right ha.1 hb.1, allMono_padd _ _ (ldp_right ha.1 hb.2.1) (ldp_right ha.2.1 hb.1),
    allMono_padd _ _ (ldp_right ha.1 hb.2.2) (allMono_padd _ _ (ldp_right ha.2.1 hb.2.1) (ldp_right ha.2.2 hb.1))⟩

theorem expansion_inert (e : Ex) (h : occurs epsSym e = false) : expansion e = .ok (reEx e, [], []) := by
  unfold expansion
  rw [if_pos h]

theorem l3_mul_left (c a : Ex) (hc : Cf F c) (ha : ∀ j, expansion a = .ok j → L3 F j) (j : Taylor) (hj : expansion (.mul c a) = .ok j) : L3 F j := by
  unfold expansion at hj
  split at hj
  · rename_i ho
    simp only [occurs, Bool.or_eq_false_iff] at ho
    cases hj
    exact ⟨ldp_left (expansion_cf c hc _ (expansion_inert c ho.1)).1 (ha _ (expansion_inert a ho.2)).1, .nil, .nil⟩
  · obtain ⟨jc, h1, hj⟩ := bind_eq_ok hj
    obtain ⟨ja, h2, hj⟩ := bind_eq_ok hj
    cases hj
    exact l3_tmul_left (expansion_cf c hc jc h1) (ha ja h2)

theorem l3_mul_right (a c : Ex) (ha : ∀ j, expansion a = .ok j → L3 F j) (hc : Cf F c) (j : Taylor) (hj : expansion (.mul a c) = .ok j) : L3 F j := by
  unfold expansion at hj
  split at hj
  · rename_i ho
    simp only [occurs, Bool.or_eq_false_iff] at ho
    cases hj
    exact ⟨ldp_right (ha _ (expansion_inert a ho.1)).1 (expansion_cf c hc _ (expansion_inert c ho.2)).1, .nil, .nil⟩
  · obtain ⟨ja, h1, hj⟩ := bind_eq_ok hj
    obtain ⟨jc, h2, hj⟩ := bind_eq_ok hj
    cases hj
    exact l3_tmul_right (ha ja h1) (expansion_cf c hc jc h2)

theorem l3_la (a : Ex) (h : La F a) (j : Taylor) (hj : expansion a = .ok j) : L3 F j := by
  have key : (∃ x, expansion a = .error x) ∨ expansion a = .ok (patom a, [], []) := by
    obtain ⟨b, vars, hb, rfl, -⟩ := h
    unfold baseD expansion
    split
    · rcases hb with ⟨f, -, rfl⟩ | ⟨f, -, rfl⟩
      · split
        · exact .inr rfl
        · exact .inl ⟨_, rfl⟩
      · split
        · exact .inr rfl
        · exact .inl ⟨_, rfl⟩
    · split
      · exact .inr rfl
      · exact .inl ⟨_, rfl⟩
  rcases key with ⟨x, e⟩ | e
  · rw [e] at hj; cases hj
  · rw [e] at hj; cases hj; exact ⟨ldp_patom h, .nil, .nil⟩

theorem l3_monoEx (m : Mono) (h : LinM F m) (j : Taylor) (hj : expansion (monoEx m) = .ok j) : L3 F j := by
  induction h generalizing j with
  | here a m ha hm =>
    have e : factorEx (a, 1) = a := by simp [factorEx]
    cases m with
    | nil =>
      have hj' : expansion (factorEx (a, 1)) = .ok j := hj
      rw [e] at hj'
      exact l3_la a ha j hj'
    | cons g m =>
      have hj' : expansion (.mul (factorEx (a, 1)) (monoEx (g :: m))) = .ok j := hj
      rw [e] at hj'
      exact l3_mul_right _ _ (l3_la a ha) (cf_monoEx _ hm) j hj'
  | there f m hf hm ih =>
    cases m with
    | nil => cases hm
    | cons g m => exact l3_mul_left _ _ (cf_factorEx f hf) ih j hj

theorem l3_termEx (t : Mono × ℚ) (h : LD F t.1) (j : Taylor) (hj : expansion (termEx t) = .ok j) : L3 F j := by
  have key : ∀ j, expansion (monoEx t.1) = .ok j → L3 F j := by
    rcases h with h | h
    · exact l3_free _ (fieldFree_monoEx _ h)
    · exact l3_monoEx _ h
  unfold termEx at hj
  split at hj
  · exact key j hj
  · split at hj
    · exact l3_free _ (by exact trivial) j hj
    · exact l3_mul_left _ _ (by exact ⟨trivial, trivial⟩) key j hj

theorem l3_toEx (p : Poly) (hp : LDP F p) (j : Taylor) (hj : expansion (toEx p) = .ok j) : L3 F j := by
  induction p generalizing j with
  | nil => exact l3_free _ (by exact trivial) j hj
  | cons t p ih =>
    cases p with
    | nil => exact l3_termEx t hp.head j hj
    | cons t' p =>
      have hj' : expansion (.add (termEx t) (toEx (t' :: p))) = .ok j := hj
      unfold expansion at hj'
      split at hj'
      · rename_i ho
        simp only [occurs, Bool.or_eq_false_iff] at ho
        cases hj'
        exact ⟨allMono_padd _ _ (l3_termEx t hp.head _ (expansion_inert _ ho.1)).1 (ih hp.tail _ (expansion_inert _ ho.2)).1, .nil, .nil⟩
      · obtain ⟨ja, h1, hj'⟩ := bind_eq_ok hj'
        obtain ⟨jb, h2, hj'⟩ := bind_eq_ok hj'
        cases hj'
        have a := l3_termEx t hp.head ja h1
        have b := ih hp.tail jb h2
        exact ⟨allMono_padd _ _ a.1 b.1, allMono_padd _ _ a.2.1 b.2.1, allMono_padd _ _ a.2.2 b.2.2⟩

theorem eps_ne_omega : epsSym ≠ omega := by decide +kernel

theorem ldp_taylor (p q : Poly) (hp : LDP F p) (h : taylor p = .ok q) : LDP F q := by
  unfold taylor at h
  obtain ⟨j, h1, h2⟩ := bind_eq_ok h
  cases h2
  obtain ⟨a0, a1, a2⟩ := l3_toEx p hp j h1
  have hs : Cf F (.sym epsSym) := ⟨trivial, eps_ne_omega⟩
  exact allMono_padd _ _ a0 (allMono_padd _ _ (ldp_left (allF_patom _ hs) a1) (ldp_left (.cons (.cons hs .nil) .nil) a2))

end Sympkf.Spec
