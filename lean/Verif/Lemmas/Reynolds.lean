import Verif.Lemmas.Perturb
import Verif.Lemmas.Expansion

/-!
# Lemmas: the form of the expressions of the Reynolds systems
-/

set_option autoImplicit false

namespace Sympkf.Spec

open Text Rand PKF Pkf

/-- Without fields and parameter. -/
def Free (fields : List Field) : Ex → Prop
  | .num _ => True
  | .sym s => s ≠ epsSym
  | .fn u args => (⟨u, args⟩ : Field) ∉ fields ∧ epsSym ∉ args
  | .func _ a => Free fields a
  | .add a b => Free fields a ∧ Free fields b
  | .mul a b => Free fields a ∧ Free fields b
  | .pow a _ => Free fields a
  | .deriv a vars => Free fields a ∧ ∀ v ∈ vars, v.1 ≠ epsSym
  | .integ a x => Free fields a ∧ x ≠ epsSym
  | .ex a => (∃ u args, a = .fn u args ∧ omega ∈ args) ∧ Free fields a
  | .other _ => True

/-- With a Taylor expansion. -/
def Good (fields : List Field) : Ex → Prop
  | .num _ => True
  | .sym _ => True
  | .fn _ args => epsSym ∉ args
  | .func g a => ((dfunc g).isSome = true ∧ Good fields a) ∨ Free fields a
  | .add a b => Good fields a ∧ Good fields b
  | .mul a b => Good fields a ∧ Good fields b
  | .pow a _ => Good fields a
  | .deriv a vars => Good fields a ∧ ∀ v ∈ vars, v.1 ≠ epsSym
  | .integ a x => Free fields a ∧ x ≠ epsSym
  | .ex a => (∃ u args, a = .fn u args ∧ omega ∈ args) ∧ Free fields a
  | .other _ => True

/-- The parameter only occurs where `series` goes. -/
def Reach : Ex → Prop
  | .func g a => ((dfunc g).isSome = true ∧ Reach a) ∨ occurs epsSym a = false
  | .add a b => Reach a ∧ Reach b
  | .mul a b => Reach a ∧ Reach b
  | .pow a _ => Reach a
  | .sym _ => True
  | a => occurs epsSym a = false

/-- The factors of the normalised expressions. -/
def GoodF (fields : List Field) (a : Ex) : Prop := Good fields a ∧ Reach a

variable {fields : List Field}

theorem Free.good {a : Ex} (h : Free fields a) : Good fields a := by
  induction a with
  | num q => trivial
  | sym s => trivial
  | fn u args => exact h.2
  | func g a ih => exact .inr h
  | add a b iha ihb => exact ⟨iha h.1, ihb h.2⟩
  | mul a b iha ihb => exact ⟨iha h.1, ihb h.2⟩
  | pow a q ih => exact ih h
  | deriv a vars ih => exact ⟨ih h.1, h.2⟩
  | integ a x ih => exact h
  | ex a ih => exact h
  | other b => trivial

theorem Free.occurs {a : Ex} (h : Free fields a) : occurs epsSym a = false := by
  induction a with
  | num q => rfl
  | sym s => simpa [Pkf.occurs, Free] using h
  | fn u args => simpa [Pkf.occurs] using h.2
  | func g a ih => exact ih h
  | add a b iha ihb => simp [Pkf.occurs, iha h.1, ihb h.2]
  | mul a b iha ihb => simp [Pkf.occurs, iha h.1, ihb h.2]
  | pow a q ih => exact ih h
  | deriv a vars ih =>
    simp only [Pkf.occurs, ih h.1, Bool.false_or, List.any_eq_false]
    intro v hv
    simpa using h.2 v hv
  | integ a x ih => simp [Pkf.occurs, ih h.1, h.2]
  | ex a ih => exact ih h.2
  | other b => rfl

theorem Free.fieldFree {a : Ex} (h : Free fields a) : FieldFree fields a := by
  induction a with
  | num q => trivial
  | sym s => trivial
  | fn u args => exact h.1
  | func g a ih => exact ih h
  | add a b iha ihb => exact ⟨iha h.1, ihb h.2⟩
  | mul a b iha ihb => exact ⟨iha h.1, ihb h.2⟩
  | pow a q ih => exact ih h
  | deriv a vars ih => exact ih h.1
  | integ a x ih => exact ih h.1
  | ex a ih => exact ih h.2
  | other b => trivial

theorem reach_free {a : Ex} (h : Pkf.occurs epsSym a = false) : Reach a := by
  induction a with
  | sym s => trivial
  | func g a ih => exact .inr h
  | add a b iha ihb =>
    simp only [Pkf.occurs, Bool.or_eq_false_iff] at h
    exact ⟨iha h.1, ihb h.2⟩
  | mul a b iha ihb =>
    simp only [Pkf.occurs, Bool.or_eq_false_iff] at h
    exact ⟨iha h.1, ihb h.2⟩
  | pow a q ih => exact ih h
  | _ => exact h

theorem Free.goodF {a : Ex} (h : Free fields a) : GoodF fields a := ⟨h.good, reach_free h.occurs⟩

theorem Free.exFn {a : Ex} (h : Free fields a) : ExFn a := by
  induction a with
  | num q => trivial
  | sym s => trivial
  | fn u args => trivial
  | func g a ih => exact ih h
  | add a b iha ihb => exact ⟨iha h.1, ihb h.2⟩
  | mul a b iha ihb => exact ⟨iha h.1, ihb h.2⟩
  | pow a q ih => exact ih h
  | deriv a vars ih => exact ih h.1
  | integ a x ih => exact ih h.1
  | ex a ih => exact h.1
  | other b => trivial

theorem Good.exFn {a : Ex} (h : Good fields a) : ExFn a := by
  induction a with
  | num q => trivial
  | sym s => trivial
  | fn u args => trivial
  | func g a ih => exact h.elim (fun h' => ih h'.2) Free.exFn
  | add a b iha ihb => exact ⟨iha h.1, ihb h.2⟩
  | mul a b iha ihb => exact ⟨iha h.1, ihb h.2⟩
  | pow a q ih => exact ih h
  | deriv a vars ih => exact ih h.1
  | integ a x ih => exact Free.exFn (a := a) (fields := fields) h.1
  | ex a ih => exact h.1
  | other b => trivial

/-! ## Preservation -/

theorem mulOK_free : MulOK (fun a _ => Free fields a) := fun _ _ _ h _ => h

theorem bumpVar_ne (x : Str) (hx : x ≠ epsSym) (vars : List (Str × ℕ)) (h : ∀ v ∈ vars, v.1 ≠ epsSym) :
    ∀ v ∈ bumpVar x vars, v.1 ≠ epsSym := by
  intro v hv
  rcases bumpVar_mem x vars v hv with h' | ⟨w, hw, e⟩
  · rw [h']; exact hx
  · rw [← e]; exact h w hw

theorem hereditary_free : Hereditary (Free fields) where
  num _ := trivial
  add _ _ h h' := ⟨h, h'⟩
  mul _ _ h h' := ⟨h, h'⟩
  func _ _ _ _ _ h := ⟨h, h⟩
  add_inv _ _ h := h
  mul_inv _ _ h := h
  pow _ _ := Iff.rfl

theorem diffOK_free (x : Str) (hx : x ≠ epsSym) : DiffOK (fun a _ => Free fields a) x :=
  hereditary_free.diffOK x (fun _ _ h => ⟨h.1, bumpVar_ne x hx _ h.2⟩) (fun _ _ h => ⟨h, by simpa using hx⟩)

theorem occurs_vars {s : Str} {vars : List (Str × ℕ)} (h : ∀ v ∈ vars, v.1 ≠ s) : vars.any (fun v => v.1 = s) = false := by
  rw [List.any_eq_false]
  intro v hv
  simpa using h v hv

theorem hereditary_good : Hereditary (GoodF fields) where
  num _ := ⟨trivial, rfl⟩
  add _ _ h h' := ⟨⟨h.1, h'.1⟩, h.2, h'.2⟩
  mul _ _ h h' := ⟨⟨h.1, h'.1⟩, h.2, h'.2⟩
  func g h a _ hs ha := by
    rcases ha.1 with ⟨-, h1⟩ | h1
    · rcases ha.2 with ⟨-, h2⟩ | h2
      · exact ⟨⟨h1, h2⟩, .inl ⟨hs, h1⟩, .inl ⟨hs, h2⟩⟩
      · exact ⟨⟨h1, reach_free h2⟩, .inl ⟨hs, h1⟩, .inr h2⟩
    · exact ⟨h1.goodF, .inr h1, .inr h1.occurs⟩
  add_inv _ _ h := ⟨⟨h.1.1, h.2.1⟩, h.1.2, h.2.2⟩
  mul_inv _ _ h := ⟨⟨h.1.1, h.2.1⟩, h.1.2, h.2.2⟩
  pow _ _ := Iff.rfl

theorem good_func (g : Str) (a : Ex) (hs : (dfunc g).isSome = true) (_ : GoodF fields (.func g a)) (b : Ex) (hb : GoodF fields b) :
    GoodF fields (.func g b) := ⟨.inl ⟨hs, hb.1⟩, .inl ⟨hs, hb.2⟩⟩

theorem mulOK_good : MulOK (fun a _ => GoodF fields a) := fun _ _ _ h _ => h

theorem diffOK_good (x : Str) (hx : x ≠ epsSym) : DiffOK (fun a _ => GoodF fields a) x := by
  refine hereditary_good.diffOK x (fun b vars h => ?_) (fun a ho h => ?_)
  · have hv := bumpVar_ne x hx _ h.1.2
    have h2 : occurs epsSym (.deriv b vars) = false := h.2
    simp only [occurs, Bool.or_eq_false_iff] at h2
    exact ⟨⟨h.1.1, hv⟩, by simp only [Reach, occurs, Bool.or_eq_false_iff]; exact ⟨h2.1, occurs_vars hv⟩⟩
  · have hv : ∀ v ∈ [(x, 1)], v.1 ≠ epsSym := by simpa using hx
    refine ⟨⟨h.1, hv⟩, ?_⟩
    simp only [Reach, occurs, Bool.or_eq_false_iff]
    refine ⟨?_, occurs_vars hv⟩
    obtain ⟨h1, h2⟩ := h
    cases a with
    | func g a =>
      have hn : (dfunc g).isNone = true := ho
      rcases h2 with h2 | h2
      · rw [Option.isNone_iff_eq_none] at hn
        rw [hn] at h2; exact absurd h2.1 (by simp)
      · exact h2
    | fn u args => exact h2
    | integ a x => exact h2
    | ex a => exact h2
    | other b => rfl
    | _ => cases ho

theorem free_toEx (p : Poly) (hp : AllF (fun a _ => Free fields a) p) : Free fields (toEx p) := hereditary_toEx hereditary_free p hp

theorem good_toEx (p : Poly) (hp : AllF (fun a _ => GoodF fields a) p) : GoodF fields (toEx p) := hereditary_toEx hereditary_good p hp

theorem good_of_free {p : Poly} (hp : AllF (fun a _ => Free fields a) p) : AllF (fun a _ => GoodF fields a) p :=
  fun t ht f hf => (hp t ht f hf).goodF

theorem free_ppow (p : Poly) (q : ℚ) (hp : AllF (fun a _ => Free fields a) p) : AllF (fun a _ => Free fields a) (ppow p q) :=
  hereditary_ppow hereditary_free p q hp

theorem pexpect_randomFn (u : Str) (args : List Str) (h : omega ∈ args) :
    pexpect (patom (.fn u args)) = patom (.ex (.fn u args)) := by rw [pexpect_fn, if_pos h]

theorem free_ofEx (e : Ex) (h : Free fields e) : AllF (fun a _ => Free fields a) (ofEx e) := by
  induction e with
  | num q => exact allF_pconst q
  | sym s => exact allF_patom _ h
  | fn u args => exact allF_patom _ h
  | func g a ih => exact allF_patom _ (free_toEx _ (ih h))
  | add a b iha ihb => exact allF_padd _ _ (iha h.1) (ihb h.2)
  | mul a b iha ihb => exact allF_pmul mulOK_free _ _ (iha h.1) (ihb h.2)
  | pow a q ih => exact free_ppow _ _ (ih h)
  | deriv a vars ih => exact allF_pdiffs mulOK_free vars (fun v hv => diffOK_free _ (h.2 v hv)) _ (ih h.1)
  | integ a x ih => exact allF_patom _ ⟨free_toEx _ (ih h.1), h.2⟩
  | ex a ih =>
    obtain ⟨⟨u, args, rfl, ho⟩, h'⟩ := h
    show AllF _ (pexpect (patom (.fn u args)))
    rw [pexpect_randomFn _ _ ho]
    exact allF_patom _ ⟨⟨u, args, rfl, ho⟩, h'⟩
  | other b => exact allF_patom _ h

theorem good_ofEx (e : Ex) (h : Good fields e) : AllF (fun a _ => GoodF fields a) (ofEx e) := by
  induction e with
  | num q => exact allF_pconst q
  | sym s => exact allF_patom _ ⟨trivial, trivial⟩
  | fn u args => exact allF_patom _ ⟨h, by simpa [Reach, occurs, Good] using h⟩
  | func g a ih =>
    rcases h with h | h
    · have := good_toEx _ (ih h.2)
      exact allF_patom _ ⟨.inl ⟨h.1, this.1⟩, .inl ⟨h.1, this.2⟩⟩
    · have : Free fields (.func g a) := h
      exact good_of_free (free_ofEx _ this)
  | add a b iha ihb => exact allF_padd _ _ (iha h.1) (ihb h.2)
  | mul a b iha ihb => exact allF_pmul mulOK_good _ _ (iha h.1) (ihb h.2)
  | pow a q ih => exact hereditary_ppow hereditary_good _ _ (ih h)
  | deriv a vars ih => exact allF_pdiffs mulOK_good vars (fun v hv => diffOK_good _ (h.2 v hv)) _ (ih h.1)
  | integ a x ih =>
    have : Free fields (.integ a x) := h
    exact good_of_free (free_ofEx _ this)
  | ex a ih =>
    have : Free fields (.ex a) := h
    exact good_of_free (free_ofEx _ this)
  | other b =>
    have : Free fields (.other b) := trivial
    exact good_of_free (free_ofEx _ this)

/-- Substitution of a function that does not occur. -/
theorem free_subst (old : Field) (hold : old ∈ fields) (new : Poly) (e : Ex) (h : Free fields e) :
    AllF (fun a _ => Free fields a) (subst old.value new e) := by
  have hne : e ≠ old.value := by
    rintro rfl
    exact h.1 hold
  induction e with
  | num q => unfold subst; rw [if_neg hne]; exact allF_pconst q
  | sym s => unfold subst; rw [if_neg hne]; exact allF_patom _ h
  | fn u args => unfold subst; rw [if_neg hne]; exact allF_patom _ h
  | func g a ih =>
    unfold subst; rw [if_neg hne]
    exact allF_patom _ (free_toEx _ (ih h (by rintro rfl; exact h.1 hold)))
  | add a b iha ihb =>
    unfold subst; rw [if_neg hne]
    exact allF_padd _ _ (iha h.1 (by rintro rfl; exact h.1.1 hold)) (ihb h.2 (by rintro rfl; exact h.2.1 hold))
  | mul a b iha ihb =>
    unfold subst; rw [if_neg hne]
    exact allF_pmul mulOK_free _ _ (iha h.1 (by rintro rfl; exact h.1.1 hold)) (ihb h.2 (by rintro rfl; exact h.2.1 hold))
  | pow a q ih =>
    unfold subst; rw [if_neg hne]
    exact free_ppow _ _ (ih h (by rintro rfl; exact h.1 hold))
  | deriv a vars ih =>
    unfold subst; rw [if_neg hne]
    exact allF_pdiffs mulOK_free vars (fun v hv => diffOK_free _ (h.2 v hv)) _ (ih h.1 (by rintro rfl; exact h.1.1 hold))
  | integ a x ih =>
    unfold subst; rw [if_neg hne]
    exact allF_patom _ ⟨free_toEx _ (ih h.1 (by rintro rfl; exact h.1.1 hold)), h.2⟩
  | ex a ih =>
    obtain ⟨⟨u, args, rfl, ho⟩, h'⟩ := h
    unfold subst; rw [if_neg hne]
    have hne' : Ex.fn u args ≠ old.value := by
      intro e
      have : Free fields old.value := e ▸ h'
      exact this.1 hold
    have : subst old.value new (.fn u args) = patom (.fn u args) := by unfold subst; rw [if_neg hne']
    simp only [this]
    rw [pexpect_randomFn _ _ ho]
    exact allF_patom _ ⟨⟨u, args, rfl, ho⟩, h'⟩
  | other b => unfold subst; rw [if_neg hne]; exact allF_patom _ h

theorem good_subst (old : Field) (hold : old ∈ fields) (new : Poly) (hnew : AllF (fun a _ => GoodF fields a) new) (e : Ex)
    (h : Good fields e) : AllF (fun a _ => GoodF fields a) (subst old.value new e) := by
  by_cases hne : e = old.value
  · have : subst old.value new e = new := by unfold subst; simp [hne]
    rw [this]; exact hnew
  have fr : Free fields e → AllF (fun a _ => GoodF fields a) (subst old.value new e) := fun hf => good_of_free (free_subst old hold new e hf)
  have at' : ∀ a, (a ≠ old.value → AllF (fun a _ => GoodF fields a) (subst old.value new a)) → AllF (fun a _ => GoodF fields a) (subst old.value new a) := by
    intro a ha
    by_cases h' : a = old.value
    · have : subst old.value new a = new := by unfold subst; simp [h']
      rw [this]; exact hnew
    · exact ha h'
  induction e with
  | num q => exact fr trivial
  | sym s =>
    have := good_ofEx (fields := fields) (.sym s) h
    unfold subst; rw [if_neg hne]; exact this
  | fn u args =>
    have := good_ofEx (fields := fields) (.fn u args) h
    unfold subst; rw [if_neg hne]; exact this
  | func g a ih =>
    rcases h with h | h
    · have h1 := good_toEx _ (at' a (fun h' => ih h.2 h' (fun hf => good_of_free (free_subst old hold new a hf))))
      unfold subst; rw [if_neg hne]
      exact allF_patom _ ⟨.inl ⟨h.1, h1.1⟩, .inl ⟨h.1, h1.2⟩⟩
    · exact fr h
  | add a b iha ihb =>
    have h1 := at' a (fun h' => iha h.1 h' (fun hf => good_of_free (free_subst old hold new a hf)))
    have h2 := at' b (fun h' => ihb h.2 h' (fun hf => good_of_free (free_subst old hold new b hf)))
    unfold subst; rw [if_neg hne]
    exact allF_padd _ _ h1 h2
  | mul a b iha ihb =>
    have h1 := at' a (fun h' => iha h.1 h' (fun hf => good_of_free (free_subst old hold new a hf)))
    have h2 := at' b (fun h' => ihb h.2 h' (fun hf => good_of_free (free_subst old hold new b hf)))
    unfold subst; rw [if_neg hne]
    exact allF_pmul mulOK_good _ _ h1 h2
  | pow a q ih =>
    have h1 := at' a (fun h' => ih h h' (fun hf => good_of_free (free_subst old hold new a hf)))
    unfold subst; rw [if_neg hne]
    exact hereditary_ppow hereditary_good _ _ h1
  | deriv a vars ih =>
    have h1 := at' a (fun h' => ih h.1 h' (fun hf => good_of_free (free_subst old hold new a hf)))
    unfold subst; rw [if_neg hne]
    exact allF_pdiffs mulOK_good vars (fun v hv => diffOK_good _ (h.2 v hv)) _ h1
  | integ a x ih => exact fr h
  | ex a ih => exact fr h
  | other b => exact fr trivial

end Sympkf.Spec
