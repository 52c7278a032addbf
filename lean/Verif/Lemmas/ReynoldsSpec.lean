import Verif.Lemmas.Reynolds
import Verif.Lemmas.Field
import Verif.Lemmas.Tree

/-!
# Lemmas: the values of the Reynolds systems
-/

set_option autoImplicit false

namespace Sympkf.Spec

open Text Rand PKF Pkf Jet

variable {R : Type} [CommRing R] [Algebra ℚ R] {S : Interp R} {A : Subalgebra ℚ R} {P : Set R} {C : Set Str}
variable {fields : List Field}

/-! ## Expandable dynamics -/

theorem Expandable.free (hε : epsSym ∉ C) {e : Ex} (h : Expandable S P C fields e) (hf : FieldFree fields e) :
    Free fields e := by
  induction e with
  | num q => trivial
  | sym s => exact h.1
  | fn u args => exact ⟨hf, h.1⟩
  | func g a ih => exact ih h.2 hf
  | add a b iha ihb => exact ⟨iha h.1 hf.1, ihb h.2 hf.2⟩
  | mul a b iha ihb => exact ⟨iha h.1 hf.1, ihb h.2 hf.2⟩
  | pow a q ih => exact ih h.1 hf
  | deriv a vars ih => exact ⟨ih h.1 hf, fun v hv e => hε (e ▸ h.2 v hv)⟩
  | integ a x ih => exact ⟨ih h.2.1 hf, h.2.2.1⟩
  | ex a ih => exact h.elim
  | other b => trivial

theorem elementary_dfunc {g : Str} (h : g ∈ elementaryNames) : (dfunc g).isSome = true := by
  simp only [elementaryNames, List.mem_cons, List.not_mem_nil, or_false] at h
  rcases h with rfl | rfl | rfl | rfl | rfl | rfl | rfl | rfl | rfl <;> decide +kernel

theorem Expandable.good (hε : epsSym ∉ C) {e : Ex} (h : Expandable S P C fields e) : Good fields e := by
  induction e with
  | num q => trivial
  | sym s => trivial
  | fn u args => exact h.1
  | func g a ih =>
    rcases h.1.1 with hg | hf
    · exact .inl ⟨elementary_dfunc hg, ih h.2⟩
    · exact .inr (h.2.free hε hf)
  | add a b iha ihb => exact ⟨iha h.1, ihb h.2⟩
  | mul a b iha ihb => exact ⟨iha h.1, ihb h.2⟩
  | pow a q ih => exact ih h.1
  | deriv a vars ih => exact ⟨ih h.1, fun v hv e => hε (e ▸ h.2 v hv)⟩
  | integ a x ih => exact ⟨h.2.1.free hε h.1, h.2.2.1⟩
  | ex a ih => exact h.elim
  | other b => trivial

theorem derivs_lift (l : List Field) (vars : List (Str × ℕ)) (p : Jet R) :
    derivs (liftI S l) vars p = derivs (perturbed S l) vars p := by
  induction vars generalizing p with
  | nil => rfl
  | cons v vars ih => obtain ⟨x, n⟩ := v; rw [derivs, derivs, ih]; rfl

theorem Expandable.den_lift {e : Ex} (h : Expandable S P C fields e) : den (liftI S fields) e = den (perturbed S fields) e := by
  induction e with
  | num q => rfl
  | sym s =>
    show (if s = epsSym then eps else const (S.sym s) : Jet R) = _
    rw [if_neg h.1]; rfl
  | fn u args => rfl
  | func g a ih => simp only [den, ih h.2]; rfl
  | add a b iha ihb => simp only [den, iha h.1, ihb h.2]
  | mul a b iha ihb => simp only [den, iha h.1, ihb h.2]
  | pow a q ih => simp only [den, ih h.1]; rfl
  | deriv a vars ih => simp only [den, ih h.1]; exact derivs_lift _ _ _
  | integ a x ih => simp only [den, ih h.2.1]; rfl
  | ex a ih => exact h.elim
  | other b => rfl

theorem inDomain_lift {l : List Field} {g : Str} {j : Jet R} :
    InDomain (liftI S l) {j | j.c0 ∈ P} g j ↔ InDomain S P g j.c0 := by
  have h1 : (1 + j ^ 2).c0 = 1 + j.c0 ^ 2 := by rw [pow_two, pow_two]; rfl
  have h2 : (((liftI S l).func "cos".toList j) ^ 2).c0 = S.func "cos".toList j.c0 ^ 2 := by rw [pow_two, pow_two]; rfl
  unfold InDomain
  simp only [Set.mem_ofPred_eq, h1, h2]

theorem Expandable.regular {e : Ex} (h : Expandable S P C fields e) :
    Regular (liftI S fields) ({j | j.c0 ∈ P}) C e := by
  induction e with
  | num q => trivial
  | sym s => trivial
  | fn u args => exact fun ho => absurd ho h.2
  | func g a ih => exact ⟨ih h.2, by rw [h.2.den_lift]; exact inDomain_lift.2 h.1.2⟩
  | add a b iha ihb => exact ⟨iha h.1, ihb h.2⟩
  | mul a b iha ihb => exact ⟨iha h.1, ihb h.2⟩
  | pow a q ih =>
    refine ⟨ih h.1, h.2.imp id fun h' => ?_⟩
    rw [h.1.den_lift]
    exact h'
  | deriv a vars ih => exact ⟨ih h.1, h.2⟩
  | integ a x ih => exact ⟨ih h.2.1, h.2.2.2⟩
  | ex a ih => exact h.elim
  | other b => trivial

/-! ## The substitution -/

/-- An entry of `subs_reynolds`. -/
def reynoldsEntry (f : Field) : Ex × Ex := (f.value, .add (.ex f.random) (.mul (.sym epsSym) f.error))

theorem eval_value (f : Field) : eval f.value = f.value := by
  show toEx (patom (.fn _ _)) = _
  simp [patom, toEx, termEx, monoEx, factorEx, prod, Field.value]

theorem free_random (l : List Field) (hl : ∀ f ∈ l, omega ∉ f.coordinates) (u : Str) (args : List Str) (h : omega ∈ args) :
    (⟨u, args⟩ : Field) ∉ l := fun hm => hl _ hm h

theorem pexpect_ok_lift (l : List Field) (hS : Stochastic S A) (u : Str) (args : List Str) (hnl : (⟨u, args⟩ : Field) ∉ l)
    (h : S.E (S.fn u args) = 0) : (liftI S l).E ((liftI S l).fn u args) = 0 := by
  show Jet.map S.E (if (⟨u, args⟩ : Field) ∈ l then _ else const (S.fn u args) : Jet R) = 0
  rw [if_neg hnl, map_const _ (E_zero hS), h]; rfl

variable (hS : Stochastic S A) (hC : Calculus S P C) (hε : epsSym ∉ C)
  (hpos : ∀ f ∈ fields, positiveFn f.value = false) (hom : ∀ f ∈ fields, omega ∉ f.coordinates)
  (hce : ∀ f ∈ fields, epsSym ∉ f.coordinates)
  (herr : ∀ f ∈ fields, S.E (den S f.error) = 0)

include hS hom hce herr in
theorem new_spec (l : List Field) (hl : ∀ f ∈ l, f ∈ fields) (f : Field) (hf : f ∈ fields) :
    Regular (liftI S l) ({j | j.c0 ∈ P}) C (reynoldsEntry f).2 ∧ Good fields (reynoldsEntry f).2 ∧
      den (liftI S l) (reynoldsEntry f).2 = ⟨S.E (den S f.random), den S f.error, 0⟩ := by
  have ho : omega ∈ f.coordinates ++ [omega] := by simp
  have hne : ∀ u, (⟨u, f.coordinates ++ [omega]⟩ : Field) ∉ l := fun u =>
    free_random l (fun g hg => hom g (hl g hg)) u _ ho
  have hne' : ∀ u, (⟨u, f.coordinates ++ [omega]⟩ : Field) ∉ fields := fun u => free_random fields hom u _ ho
  have hεo : epsSym ∉ f.coordinates ++ [omega] := by
    rw [List.mem_append]
    rintro (h | h)
    · exact hce f hf h
    · revert h; decide +kernel
  refine ⟨⟨.inr ⟨_, _, rfl⟩, trivial, fun _ => ?_⟩, ⟨⟨⟨_, _, rfl, ho⟩, hne' _, hεo⟩, trivial, hεo⟩, ?_⟩
  · exact pexpect_ok_lift l hS _ _ (hne _) (herr f hf)
  · have e1 : den (liftI S l) f.random = const (den S f.random) := by
      show (if _ then _ else const (S.fn _ _) : Jet R) = _
      rw [if_neg (hne _)]; rfl
    have e2 : den (liftI S l) f.error = const (den S f.error) := by
      show (if _ then _ else const (S.fn _ _) : Jet R) = _
      rw [if_neg (hne _)]; rfl
    show Jet.map S.E (den (liftI S l) f.random) + (if epsSym = epsSym then eps else const (S.sym epsSym)) * den (liftI S l) f.error = _
    rw [e1, e2, if_pos rfl, map_const _ (E_zero hS)]
    ext <;> simp

include hS hC hε hpos hom hce herr in
theorem chain_spec (l : List Field) (hl : ∀ f ∈ l, f ∈ fields) (e : Ex)
    (he : Regular (liftI S l) ({j | j.c0 ∈ P}) C e) (hg : Good fields e) :
    den (liftI S []) ((l.map reynoldsEntry).foldl (fun e kv => substEx kv.1 kv.2 e) e) = den (liftI S l) e ∧
      Regular (liftI S []) ({j | j.c0 ∈ P}) C ((l.map reynoldsEntry).foldl (fun e kv => substEx kv.1 kv.2 e) e) ∧
      Good fields ((l.map reynoldsEntry).foldl (fun e kv => substEx kv.1 kv.2 e) e) := by
  induction l generalizing e with
  | nil => exact ⟨rfl, he, hg⟩
  | cons f l ih =>
    have hf := hl f (by simp)
    have hl' : ∀ g ∈ l, g ∈ fields := fun g hg => hl g (by simp [hg])
    have hD := lift_diff hS l
    have hD' := lift_diff hS (f :: l)
    have hCl := lift_calculus hS hC hε l (fun g hg => hpos g (hl' g hg))
    have hCl' := lift_calculus hS hC hε (f :: l) (fun g hg => hpos g (hl g hg))
    obtain ⟨n1, n2, n3⟩ := new_spec (P := P) (C := C) hS hom hce herr l hl' f hf
    obtain ⟨e1, e2⟩ := ofEx_spec' hD' hCl' e he (.inr hg.exFn)
    obtain ⟨m1, m2⟩ := ofEx_spec' hD hCl _ n1 (.inr n2.exFn)
    have ge : Good fields (eval e) := (good_toEx _ (good_ofEx e hg)).1
    have hA : Agree (liftI S l) (liftI S (f :: l)) f.value (ofEx (reynoldsEntry f).2) := by
      refine ⟨rfl, rfl, rfl, rfl, rfl, rfl, fun _ _ => rfl, fun u args hne => ?_, ?_⟩
      · show (if (⟨u, args⟩ : Field) ∈ f :: l then _ else _ : Jet R) = if (⟨u, args⟩ : Field) ∈ l then _ else _
        have : (⟨u, args⟩ : Field) ∈ f :: l ↔ (⟨u, args⟩ : Field) ∈ l := by
          rw [List.mem_cons]
          constructor
          · rintro (h | h)
            · exact absurd (by rw [← h]; rfl) hne
            · exact h
          · exact .inr
        by_cases h : (⟨u, args⟩ : Field) ∈ l
        · rw [if_pos h, if_pos (this.2 h)]
        · rw [if_neg h, if_neg (fun h' => h (this.1 h'))]
      · rw [m1, n3]
        show _ = (if (⟨f.name, f.coordinates⟩ : Field) ∈ f :: l then _ else _ : Jet R)
        rw [if_pos (by simp)]
    obtain ⟨s1, s2⟩ := subst_spec' hD hCl f.value _ hA m2 (eval e) (toEx_ok _ e2) (.inr ⟨fun u args ho => by
      intro h
      have : args = f.coordinates := by injection h
      exact hom f hf (this ▸ ho), ge.exFn⟩)
    have hsub : substEx (reynoldsEntry f).1 (reynoldsEntry f).2 e = toEx (subst f.value (ofEx (reynoldsEntry f).2) (eval e)) := by
      show toEx (subst (eval f.value) _ _) = _
      rw [eval_value]
    have g1 := (good_toEx _ (good_subst f hf _ (good_ofEx _ n2) _ ge)).1
    obtain ⟨i1, i2, i3⟩ := ih hl' (substEx (reynoldsEntry f).1 (reynoldsEntry f).2 e)
      (by rw [hsub]; exact toEx_ok _ s2) (by rw [hsub]; exact g1)
    refine ⟨?_, i2, i3⟩
    rw [List.map_cons, List.foldl_cons, i1, hsub, toEx_den hD, s1, Rand.eval, toEx_den hD', e1]

include hS hC hε hpos hom hce herr in
/-- The right-hand (left-hand) side after the substitution of `E[u] + epsilon e` for `u`. -/
theorem substituted_spec (l : List Field) (hl : ∀ f, f ∈ l ↔ f ∈ fields) (e : Ex) (he : Expandable S P C fields e) :
    denP (liftI S []) (ofEx (substAll (l.map reynoldsEntry) e)) = den (perturbed S fields) e ∧
      POK (liftI S []) ({j | j.c0 ∈ P}) C (ofEx (substAll (l.map reynoldsEntry) e)) ∧
      AllF (fun a _ => GoodF fields a) (ofEx (substAll (l.map reynoldsEntry) e)) := by
  have hlift : liftI S l = liftI S fields := by
    unfold liftI perturbed
    simp only [hl]
  have hD := lift_diff hS fields
  have hD0 := lift_diff hS ([] : List Field)
  have hC0 := lift_calculus hS hC hε [] (by simp)
  have hCf := lift_calculus hS hC hε fields hpos
  obtain ⟨e1, e2⟩ := ofEx_spec' hD hCf e (he.regular) (.inr (he.good hε).exFn)
  have ge := (good_toEx _ (good_ofEx e (he.good hε))).1
  obtain ⟨c1, c2, c3⟩ := chain_spec hS hC hε hpos hom hce herr l (fun f h => (hl f).1 h) (eval e)
    (by rw [hlift]; exact toEx_ok _ e2) ge
  obtain ⟨o1, o2⟩ := ofEx_spec' hD0 hC0 _ c2 (.inr c3.exFn)
  refine ⟨?_, o2, good_ofEx _ c3⟩
  show denP (liftI S []) (ofEx (List.foldl _ (eval e) _)) = _
  rw [o1, c1, hlift, Rand.eval, toEx_den hD, e1, he.den_lift]

/-! ## The coefficients -/

/-- The parameter has the value one. -/
def atOne (S : Interp R) : Interp R := { S with sym := fun s => if s = epsSym then 1 else S.sym s }

theorem derivs_atOne (vars : List (Str × ℕ)) (r : R) : derivs (atOne S) vars r = derivs S vars r := by
  induction vars generalizing r with
  | nil => rfl
  | cons v vars ih => obtain ⟨x, n⟩ := v; rw [derivs, derivs, ih]; rfl

theorem den_atOne (a : Ex) (h : occurs epsSym a = false) : den (atOne S) a = den S a := by
  induction a with
  | num q => rfl
  | sym s =>
    have : s ≠ epsSym := by simpa [occurs] using h
    show (if s = epsSym then 1 else S.sym s) = _
    rw [if_neg this]; rfl
  | fn u args => rfl
  | func g a ih => simp only [den, ih h]; rfl
  | add a b iha ihb =>
    simp only [occurs, Bool.or_eq_false_iff] at h
    simp only [den, iha h.1, ihb h.2]
  | mul a b iha ihb =>
    simp only [occurs, Bool.or_eq_false_iff] at h
    simp only [den, iha h.1, ihb h.2]
  | pow a q ih => simp only [den, ih h]; rfl
  | deriv a vars ih =>
    simp only [occurs, Bool.or_eq_false_iff] at h
    simp only [den, ih h.1, derivs_atOne]
  | integ a x ih =>
    simp only [occurs, Bool.or_eq_false_iff] at h
    simp only [den, ih h.1]; rfl
  | ex a ih => simp only [den, ih h]; rfl
  | other b => rfl

theorem fieldFree_nil (a : Ex) : FieldFree [] a := by
  induction a with
  | num q => trivial
  | sym s => trivial
  | fn u args => simp [FieldFree]
  | func g a ih => exact ih
  | add a b iha ihb => exact ⟨iha, ihb⟩
  | mul a b iha ihb => exact ⟨iha, ihb⟩
  | pow a q ih => exact ih
  | deriv a vars ih => exact ih
  | integ a x ih => exact ih
  | ex a ih => exact ih
  | other b => trivial

omit hC hε hpos hom hce herr in
include hS in
theorem regular_lift (a : Ex) (h : occurs epsSym a = false) (ha : Regular (liftI S []) {j | j.c0 ∈ P} C a) :
    Regular S P C a := by
  induction a with
  | num q => trivial
  | sym s => trivial
  | fn u args =>
    intro ho
    have h1 := ha ho
    have h2 : (liftI S []).fn u args = const (S.fn u args) := by
      exact den_lift_free hS [] (.fn u args) (fieldFree_nil _) h
    rw [h2] at h1
    exact congrArg Jet.c0 h1
  | func g a ih =>
    refine ⟨ih h ha.1, ?_⟩
    have := inDomain_lift.1 ha.2
    rwa [den_lift_free hS [] a (fieldFree_nil a) h] at this
  | add a b iha ihb =>
    simp only [occurs, Bool.or_eq_false_iff] at h
    exact ⟨iha h.1 ha.1, ihb h.2 ha.2⟩
  | mul a b iha ihb =>
    simp only [occurs, Bool.or_eq_false_iff] at h
    exact ⟨iha h.1 ha.1, ihb h.2 ha.2⟩
  | pow a q ih =>
    refine ⟨ih h ha.1, ha.2.imp id fun e => ?_⟩
    rw [den_lift_free hS [] a (fieldFree_nil a) h] at e
    exact e
  | deriv a vars ih =>
    simp only [occurs, Bool.or_eq_false_iff] at h
    exact ⟨ih h.1 ha.1, ha.2⟩
  | integ a x ih =>
    simp only [occurs, Bool.or_eq_false_iff] at h
    exact ⟨ih h.1 ha.1, ha.2⟩
  | ex a ih => exact ha.imp (ih h) id
  | other b => trivial

theorem regular_atOne (a : Ex) (h : occurs epsSym a = false) (ha : Regular S P C a) : Regular (atOne S) P C a := by
  induction a with
  | num q => trivial
  | sym s => trivial
  | fn u args => exact ha
  | func g a ih => exact ⟨ih h ha.1, by rw [den_atOne a h]; exact ha.2⟩
  | add a b iha ihb =>
    simp only [occurs, Bool.or_eq_false_iff] at h
    exact ⟨iha h.1 ha.1, ihb h.2 ha.2⟩
  | mul a b iha ihb =>
    simp only [occurs, Bool.or_eq_false_iff] at h
    exact ⟨iha h.1 ha.1, ihb h.2 ha.2⟩
  | pow a q ih =>
    refine ⟨ih h ha.1, ha.2.imp id fun e => ?_⟩
    rw [den_atOne a h]
    exact e
  | deriv a vars ih =>
    simp only [occurs, Bool.or_eq_false_iff] at h
    exact ⟨ih h.1 ha.1, ha.2⟩
  | integ a x ih =>
    simp only [occurs, Bool.or_eq_false_iff] at h
    exact ⟨ih h.1 ha.1, ha.2⟩
  | ex a ih => exact ha.imp (ih h) id
  | other b => trivial

omit hpos hom hce herr in
include hS hC hε in
theorem atOne_calculus : Calculus (atOne S) P C where
  omega_notMem := hC.omega_notMem
  zero_notMem := hC.zero_notMem
  D_sym x hx s := by
    show S.D x (if s = epsSym then 1 else S.sym s) = _
    by_cases h : s = epsSym
    · have hsx : s ≠ x := fun e => hε (h ▸ e ▸ hx)
      rw [if_pos h, if_neg hsx]
      exact D_one hS.diff x
    · rw [if_neg h]; exact hC.D_sym x hx s
  D_fn := hC.D_fn
  pw_add := hC.pw_add
  pw_mul := hC.pw_mul
  D_pw := hC.D_pw
  positive := hC.positive
  D_exp := hC.D_exp
  D_sin := hC.D_sin
  D_cos := hC.D_cos
  D_sinh := hC.D_sinh
  D_cosh := hC.D_cosh
  D_tanh := hC.D_tanh
  D_tan := hC.D_tan
  D_log := hC.D_log
  D_atan := hC.D_atan

theorem atOne_diff (hS : Diff S) : Diff (atOne S) := ⟨hS.pw_nat, hS.D_add, hS.D_mul, hS.D_comm⟩

/-! ## The expansion -/

/-- The value of an expansion. -/
def denT (S : Interp R) (j : Taylor) : Jet R := ⟨denP S j.1, denP S j.2.1, denP S j.2.2⟩

/-- Regular coefficients. -/
def TOK (S : Interp R) (P : Set R) (C : Set Str) (j : Taylor) : Prop := POK S P C j.1 ∧ POK S P C j.2.1 ∧ POK S P C j.2.2

omit hε hpos hom hce herr in
include hS hC in
theorem tmul_spec (a b : Taylor) (ha : TOK S P C a) (hb : TOK S P C b) :
    denT S (tmul a b) = denT S a * denT S b ∧ TOK S P C (tmul a b) := by
  obtain ⟨a0, a1, a2⟩ := ha
  obtain ⟨b0, b1, b2⟩ := hb
  obtain ⟨h1, k1⟩ := pmul_spec hS.diff hC _ _ a0 b0
  obtain ⟨h2, k2⟩ := pmul_spec hS.diff hC _ _ a0 b1
  obtain ⟨h3, k3⟩ := pmul_spec hS.diff hC _ _ a1 b0
  obtain ⟨h4, k4⟩ := pmul_spec hS.diff hC _ _ a0 b2
  obtain ⟨h5, k5⟩ := pmul_spec hS.diff hC _ _ a1 b1
  obtain ⟨h6, k6⟩ := pmul_spec hS.diff hC _ _ a2 b0
  refine ⟨?_, k1, padd_ok _ _ k2 k3, padd_ok _ _ k4 (padd_ok _ _ k5 k6)⟩
  unfold denT tmul
  ext
  · exact h1
  · simp only [padd_den, h2, h3, mul_c1]
  · simp only [padd_den, h4, h5, h6, mul_c2]; ring

omit hε hpos hom hce herr in
include hS hC in
theorem tpow_spec (a : Taylor) (ha : TOK S P C a) (n : ℕ) : denT S (tpow a n) = denT S a ^ n ∧ TOK S P C (tpow a n) := by
  induction n with
  | zero =>
    refine ⟨?_, pconst_ok 1, .nil, .nil⟩
    unfold denT tpow
    rw [pow_zero]
    ext <;> simp [pconst_den]
  | succ n ih =>
    obtain ⟨h1, h2⟩ := tmul_spec hS hC (tpow a n) a ih.2 ha
    exact ⟨by rw [tpow, h1, ih.1, pow_succ], h2⟩

omit hε hpos hom hce herr in
include hS hC in
theorem tcompose_spec (f0 f1 f2 : Poly) (a : Taylor) (h0 : POK S P C f0) (h1 : POK S P C f1) (h2 : POK S P C f2) (ha : TOK S P C a) :
    denT S (tcompose f0 f1 f2 a) = compose (denP S f0) (denP S f1) (denP S f2) (denT S a) ∧ TOK S P C (tcompose f0 f1 f2 a) := by
  obtain ⟨a0, a1, a2⟩ := ha
  obtain ⟨e1, k1⟩ := pmul_spec hS.diff hC _ _ h1 a1
  obtain ⟨e2, k2⟩ := pmul_spec hS.diff hC _ _ h1 a2
  obtain ⟨e3, k3⟩ := pmul_spec hS.diff hC _ _ a1 a1
  obtain ⟨e4, k4⟩ := pmul_spec hS.diff hC _ _ h2 k3
  obtain ⟨e5, k5⟩ := pmul_spec hS.diff hC _ _ (pconst_ok (1 / 2)) k4
  refine ⟨?_, h0, k1, padd_ok _ _ k2 k5⟩
  unfold denT tcompose compose
  ext
  · rfl
  · exact e1
  · simp only [padd_den, e2, e5, e4, e3, pconst_den]; ring

theorem dfunc_derivatives (hS : Diff S) {g : Str} {d : (Ex → Ex) × (Ex → Ex)} (hg : dfunc g = some d) (a : Ex) :
    derivatives S g (den S a) = some (den S (d.1 a), den S (d.2 a)) := by
  cases isElementary hg with
  | exp => rfl
  | sin => simp [derivatives, den]
  | cos => simp [derivatives, den]
  | sinh => simp [derivatives, den]
  | cosh => simp [derivatives, den]
  | tan => simp [derivatives, den, pw_two hS, mul_assoc, map_ofNat]
  | tanh => simp [derivatives, den, pw_two hS, sub_eq_add_neg, mul_assoc, map_ofNat]
  | log => simp [derivatives, den]
  | atan => simp [derivatives, den, pw_two hS, mul_assoc, map_ofNat]

omit hε hpos hom hce herr in
include hS hC in
theorem expansion_spec (e : Ex) (hr : Reach e) (he : Regular (liftI S []) {j | j.c0 ∈ P} C e) :
    ∃ j, expansion e = .ok j ∧ denT S j = den (liftI S []) e ∧ TOK S P C j := by
  have free : ∀ e, Regular (liftI S []) {j | j.c0 ∈ P} C e → occurs epsSym e = false →
      ∃ j, expansion e = .ok j ∧ denT S j = den (liftI S []) e ∧ TOK S P C j := by
    intro e he ho
    obtain ⟨h1, h2⟩ := reEx_spec hS.diff hC e (regular_lift hS e ho he)
    refine ⟨(reEx e, [], []), by unfold expansion; rw [if_pos ho], ?_, h2, .nil, .nil⟩
    rw [den_lift_free hS [] e (fieldFree_nil e) ho]
    unfold denT
    ext
    · exact h1
    · rfl
    · rfl
  by_cases ho : occurs epsSym e = false
  · exact free e he ho
  induction e with
  | num q => exact absurd rfl ho
  | sym s =>
    have hs : s = epsSym := by simpa [occurs] using ho
    refine ⟨([], pconst 1, []), by unfold expansion; rw [if_neg ho], ?_, .nil, pconst_ok 1, .nil⟩
    show _ = (if s = epsSym then eps else const (S.sym s) : Jet R)
    rw [if_pos hs]
    unfold denT
    ext <;> simp [pconst_den]
  | fn u args => exact absurd hr ho
  | func g a ih =>
    rcases hr with ⟨hs, hr⟩ | hr
    · obtain ⟨d, hg⟩ := Option.isSome_iff_exists.1 hs
      obtain ⟨j, h1, h2, h3⟩ := ih hr he.1 ho
      have hden : den S (toEx j.1) = (den (liftI S []) a).c0 := by rw [toEx_den hS.diff, ← h2]; rfl
      have hdom : InDomain S P g (den S (toEx j.1)) := by rw [hden]; exact inDomain_lift.1 he.2
      have hreg : Regular S P C (.func g (toEx j.1)) := ⟨toEx_ok _ h3.1, hdom⟩
      obtain ⟨r1, r2⟩ := dfunc_regular hS.diff hg _ hreg
      obtain ⟨e1, k1⟩ := reEx_spec hS.diff hC _ r1
      obtain ⟨e2, k2⟩ := reEx_spec hS.diff hC _ r2
      obtain ⟨t1, t2⟩ := tcompose_spec hS hC _ _ _ j (patom_ok _ hreg) k1 k2 h3
      have hlog : ¬ (g = "log".toList ∧ j.1 = []) := fun h => by
        have h0 := hdom.1 h.1
        rw [toEx_den hS.diff, h.2] at h0
        exact hC.zero_notMem h0
      refine ⟨_, ?_, ?_, t2⟩
      · unfold expansion
        rw [if_neg ho]
        simp only [hg, h1, bind, Except.bind, pure, Except.pure, if_neg hlog]
      · rw [t1, e1, e2, patom_den hS.diff]
        show _ = Jet.func S g (den (liftI S []) a)
        unfold Jet.func
        rw [← hden, dfunc_derivatives hS.diff hg, ← h2]
        rfl
    · exact absurd hr ho
  | add a b iha ihb =>
    have ha : ∃ j, expansion a = .ok j ∧ denT S j = den (liftI S []) a ∧ TOK S P C j := by
      by_cases ho : occurs epsSym a = false
      · exact free a he.1 ho
      · exact iha hr.1 he.1 ho
    have hb : ∃ j, expansion b = .ok j ∧ denT S j = den (liftI S []) b ∧ TOK S P C j := by
      by_cases ho : occurs epsSym b = false
      · exact free b he.2 ho
      · exact ihb hr.2 he.2 ho
    obtain ⟨j, a1, a2, a3⟩ := ha
    obtain ⟨k, b1, b2, b3⟩ := hb
    refine ⟨(padd j.1 k.1, padd j.2.1 k.2.1, padd j.2.2 k.2.2), ?_, ?_, padd_ok _ _ a3.1 b3.1, padd_ok _ _ a3.2.1 b3.2.1,
      padd_ok _ _ a3.2.2 b3.2.2⟩
    · unfold expansion
      rw [if_neg ho]
      simp only [a1, b1, bind, Except.bind, pure, Except.pure]
    · show _ = den (liftI S []) a + den (liftI S []) b
      rw [← a2, ← b2]
      unfold denT
      ext <;> exact padd_den _ _
  | mul a b iha ihb =>
    have ha : ∃ j, expansion a = .ok j ∧ denT S j = den (liftI S []) a ∧ TOK S P C j := by
      by_cases ho : occurs epsSym a = false
      · exact free a he.1 ho
      · exact iha hr.1 he.1 ho
    have hb : ∃ j, expansion b = .ok j ∧ denT S j = den (liftI S []) b ∧ TOK S P C j := by
      by_cases ho : occurs epsSym b = false
      · exact free b he.2 ho
      · exact ihb hr.2 he.2 ho
    obtain ⟨j, a1, a2, a3⟩ := ha
    obtain ⟨k, b1, b2, b3⟩ := hb
    obtain ⟨t1, t2⟩ := tmul_spec hS hC j k a3 b3
    refine ⟨tmul j k, ?_, ?_, t2⟩
    · unfold expansion
      rw [if_neg ho]
      simp only [a1, b1, bind, Except.bind, pure, Except.pure]
    · rw [t1, a2, b2]; rfl
  | pow a q ih =>
    obtain ⟨j, h1, h2, h3⟩ := ih hr he.1 ho
    by_cases hq : isNat q = true
    · obtain ⟨t1, t2⟩ := tpow_spec hS hC j h3 q.num.toNat
      refine ⟨_, ?_, ?_, t2⟩
      · unfold expansion
        rw [if_neg ho]
        simp only [h1, bind, Except.bind, pure, Except.pure, if_pos hq]
      · rw [t1, h2]
        show _ = Jet.pw S _ q
        unfold Jet.pw
        rw [if_pos ((isNat_eq q).2 hq)]
    · have hP : denP S j.1 ∈ P := by
        have := he.2.resolve_left hq
        rw [← h2] at this
        exact this
      have hne : j.1 ≠ [] := by
        intro e
        rw [e] at hP
        exact hC.zero_notMem hP
      obtain ⟨e0, k0⟩ := ppow_spec hS.diff hC j.1 q h3.1 (.inr hP)
      obtain ⟨e1, k1⟩ := ppow_spec hS.diff hC j.1 (q - 1) h3.1 (.inr hP)
      obtain ⟨e2, k2⟩ := ppow_spec hS.diff hC j.1 (q - 2) h3.1 (.inr hP)
      obtain ⟨e3, k3⟩ := pmul_spec hS.diff hC _ _ (pconst_ok q) k1
      obtain ⟨e4, k4⟩ := pmul_spec hS.diff hC _ _ (pconst_ok (q * (q - 1))) k2
      obtain ⟨t1, t2⟩ := tcompose_spec hS hC _ _ _ j k0 k3 k4 h3
      refine ⟨_, ?_, ?_, t2⟩
      · unfold expansion
        rw [if_neg ho]
        simp only [h1, bind, Except.bind, pure, Except.pure, if_neg hq, if_neg hne]
      · rw [t1, e0, e3, e4, e1, e2, pconst_den, pconst_den, h2]
        show _ = Jet.pw S _ q
        unfold Jet.pw
        rw [if_neg (fun h => hq ((isNat_eq q).1 h)), ← h2]
        rfl
  | deriv a vars ih => exact absurd hr ho
  | integ a x ih => exact absurd hr ho
  | ex a ih => exact absurd hr ho
  | other b => exact absurd rfl ho

/-! ## The powers of the parameter -/

theorem filter_addTerm (F : Mono → Bool) (m : Mono) (c : ℚ) (p : Poly) :
    denP S ((addTerm m c p).filter (fun t => F t.1)) =
      (if F m then algebraMap ℚ R c * denM S m else 0) + denP S (p.filter (fun t => F t.1)) := by
  induction p with
  | nil =>
    unfold addTerm
    split
    · rename_i h; simp [h]
    · by_cases hF : F m <;> simp [hF, denP_cons]
  | cons t p ih =>
    obtain ⟨n, d⟩ := t
    unfold addTerm
    split
    · rename_i h
      subst h
      split
      · rename_i h0
        by_cases hF : F m
        · rw [List.filter_cons_of_pos (by exact hF), denP_cons, if_pos hF, ← add_assoc, ← add_mul, ← map_add, add_comm c, h0]
          simp
        · rw [List.filter_cons_of_neg (by exact hF), if_neg hF, zero_add]
      · by_cases hF : F m
        · rw [List.filter_cons_of_pos (by exact hF), List.filter_cons_of_pos (by exact hF), denP_cons, denP_cons, if_pos hF, map_add]
          ring
        · rw [List.filter_cons_of_neg (by exact hF), List.filter_cons_of_neg (by exact hF), if_neg hF, zero_add]
    · split
      · rename_i h; simp [h]
      · split
        · by_cases hF : F m
          · rw [List.filter_cons_of_pos (by exact hF), denP_cons, if_pos hF]
          · rw [List.filter_cons_of_neg (by exact hF), if_neg hF, zero_add]
        · by_cases hF : F n
          · rw [List.filter_cons_of_pos (by exact hF), List.filter_cons_of_pos (by exact hF), denP_cons, denP_cons, ih]
            ring
          · rw [List.filter_cons_of_neg (by exact hF), List.filter_cons_of_neg (by exact hF), ih]

theorem filter_padd (F : Mono → Bool) (p q : Poly) :
    denP S ((padd p q).filter (fun t => F t.1)) = denP S (p.filter (fun t => F t.1)) + denP S (q.filter (fun t => F t.1)) := by
  induction p with
  | nil => simp [padd]
  | cons t p ih =>
    have : padd (t :: p) q = addTerm t.1 t.2 (padd p q) := rfl
    rw [this, filter_addTerm, ih]
    by_cases hF : F t.1
    · rw [List.filter_cons_of_pos (by exact hF), denP_cons, if_pos hF]; ring
    · rw [List.filter_cons_of_neg (by exact hF), if_neg hF]; ring

theorem epsDegree_mulAtom (a : Ex) (q : ℚ) (m : Mono) :
    epsDegree (mulAtom a q m) = (if a = .sym epsSym then q else 0) + epsDegree m := by
  have cons : ∀ (b : Ex) (p : ℚ) (m : Mono), epsDegree ((b, p) :: m) = (if b = .sym epsSym then p else 0) + epsDegree m := by
    intro b p m
    unfold epsDegree
    by_cases h : b = .sym epsSym <;> simp [h]
  induction m with
  | nil => unfold mulAtom; rw [cons]
  | cons f m ih =>
    obtain ⟨b, p⟩ := f
    unfold mulAtom
    split
    · rename_i h
      subst h
      split
      · rename_i h0
        rw [cons]
        by_cases h : a = .sym epsSym
        · rw [if_pos h, if_pos h, ← add_assoc, add_comm q, h0, zero_add]
        · rw [if_neg h, if_neg h]; simp
      · rw [cons, cons]
        split <;> ring
    · split
      · rw [cons, cons]
      · rw [cons, cons, ih]; ring

theorem epsDegree_monoMul (m m' : Mono) : epsDegree (monoMul m m') = epsDegree m + epsDegree m' := by
  induction m with
  | nil => simp [monoMul, epsDegree]
  | cons f m ih =>
    show epsDegree (mulAtom f.1 f.2 (monoMul m m')) = _
    rw [epsDegree_mulAtom, ih, ← add_assoc]
    congr 1
    unfold epsDegree
    by_cases h : f.1 = .sym epsSym <;> simp [h]

/-- All monomials have this degree in the parameter. -/
def EpsDeg (k : ℚ) (p : Poly) : Prop := ∀ t ∈ p, epsDegree t.1 = k

theorem epsDeg_addTerm {k : ℚ} (m : Mono) (c : ℚ) (p : Poly) (hm : epsDegree m = k) (hp : EpsDeg k p) : EpsDeg k (addTerm m c p) := by
  induction p with
  | nil =>
    unfold addTerm
    split
    · exact hp
    · intro t ht
      rw [List.mem_singleton.1 ht]; exact hm
  | cons t p ih =>
    obtain ⟨n, d⟩ := t
    have hn : epsDegree n = k := hp (n, d) (by simp)
    have hp' : EpsDeg k p := fun t ht => hp t (by simp [ht])
    have cons : ∀ (m : Mono) (c : ℚ) (p : Poly), epsDegree m = k → EpsDeg k p → EpsDeg k ((m, c) :: p) := by
      intro m c p h1 h2 t ht
      rcases List.mem_cons.1 ht with rfl | ht
      · exact h1
      · exact h2 t ht
    unfold addTerm
    split
    · split
      · exact hp'
      · exact cons _ _ _ hn hp'
    · split
      · exact hp
      · split
        · exact cons _ _ _ hm hp
        · exact cons _ _ _ hn (ih hp')

theorem epsDeg_padd {k : ℚ} (p q : Poly) (hp : EpsDeg k p) (hq : EpsDeg k q) : EpsDeg k (padd p q) := by
  induction p with
  | nil => exact hq
  | cons t p ih => exact epsDeg_addTerm _ _ _ (hp t (by simp)) (ih (fun t ht => hp t (by simp [ht])))

theorem epsDeg_pmul {k l : ℚ} (p q : Poly) (hp : EpsDeg k p) (hq : EpsDeg l q) : EpsDeg (k + l) (pmul p q) := by
  have term : ∀ (m : Mono) (c : ℚ) (q : Poly), epsDegree m = k → EpsDeg l q → EpsDeg (k + l) (pmulTerm m c q) := by
    intro m c q hm hq
    induction q with
    | nil => intro t ht; simp [pmulTerm] at ht
    | cons t q ih =>
      refine epsDeg_addTerm _ _ _ ?_ (ih (fun t ht => hq t (by simp [ht])))
      rw [epsDegree_monoMul, hm, hq t (by simp)]
  induction p with
  | nil => intro t ht; simp [pmul] at ht
  | cons t p ih => exact epsDeg_padd _ _ (term _ _ _ (hp t (by simp)) hq) (ih (fun t ht => hp t (by simp [ht])))

theorem epsDeg_free (p : Poly) (hp : AllF (fun a _ => occurs epsSym a = false) p) : EpsDeg 0 p := by
  intro t ht
  unfold epsDegree
  rw [List.filter_eq_nil_iff.2]
  · rfl
  · intro f hf
    have := hp t ht f hf
    intro h
    simp only [decide_eq_true_eq] at h
    rw [h] at this
    simp [occurs] at this

theorem filter_epsDeg {k : ℚ} (F : ℚ → Bool) (p : Poly) (hp : EpsDeg k p) :
    p.filter (fun t => F (epsDegree t.1)) = if F k then p else [] := by
  split
  · rename_i h
    rw [List.filter_eq_self]
    intro t ht
    rw [hp t ht]; exact h
  · rename_i h
    rw [List.filter_eq_nil_iff]
    intro t ht
    rw [hp t ht]; exact h

/-! ## The parameter equal to one -/

theorem denM_atOne (m : Mono) (hm : AllM (fun a _ => occurs epsSym a = false) m) : denM (atOne S) m = denM S m := by
  induction m with
  | nil => rfl
  | cons f m ih => rw [denM_cons, denM_cons, ih hm.tail, den_atOne f.1 hm.head]; rfl

theorem denP_atOne (p : Poly) (hp : AllF (fun a _ => occurs epsSym a = false) p) : denP (atOne S) p = denP S p := by
  induction p with
  | nil => rfl
  | cons t p ih => rw [denP_cons, denP_cons, ih hp.tail, denM_atOne t.1 hp.head]

theorem pok_atOne (p : Poly) (hp : POK S P C p) (hg : AllF (fun a _ => occurs epsSym a = false) p) : POK (atOne S) P C p := by
  intro t ht f hf
  obtain ⟨h1, h2⟩ := hp t ht f hf
  have h3 := hg t ht f hf
  exact ⟨regular_atOne _ h3 h1, h2.imp id fun h => by rw [den_atOne _ h3]; exact h⟩

omit hε hpos hom hce herr in
include hS hC in
theorem epsOne_spec (p : Poly) (h1 : POK (atOne S) P C p) :
    den S (epsOne p) = denP (atOne S) p ∧ Regular S P C (epsOne p) := by
  have hA : Agree S (atOne S) (.sym epsSym) (pconst 1) := by
    refine ⟨rfl, rfl, rfl, rfl, rfl, rfl, fun s hs => ?_, fun _ _ _ => rfl, ?_⟩
    · show (if s = epsSym then 1 else S.sym s) = _
      rw [if_neg (fun e => hs (by rw [e]))]
    · rw [pconst_den, map_one]
      show 1 = (if epsSym = epsSym then 1 else S.sym epsSym)
      rw [if_pos rfl]
  obtain ⟨s1, s2⟩ := subst_spec hS hC _ _ hA (pconst_ok 1) (toEx p) (toEx_ok _ h1)
  refine ⟨?_, toEx_ok _ s2⟩
  rw [epsOne, toEx_den hS.diff, s1, toEx_den (atOne_diff hS.diff)]

theorem denM_eps (hS : Diff S) (n : ℕ) : denM (atOne S) [(.sym epsSym, (n : ℚ))] = 1 := by
  rw [denM_cons, denM_nil, mul_one, (atOne_diff hS).pw_nat]
  show (if epsSym = epsSym then (1 : R) else S.sym epsSym) ^ n = 1
  rw [if_pos rfl, one_pow]

omit hpos hom hce herr in
include hS hC hε in
/-- The expansions of second and first order, for the parameter one. -/
theorem taylor_spec (p : Poly) (hp : POK (liftI S []) {j | j.c0 ∈ P} C p) (hg : AllF (fun a _ => GoodF fields a) p) :
    ∃ q, taylor p = .ok q ∧
      (den S (epsOne q) = (denP (liftI S []) p).second ∧ Regular S P C (epsOne q)) ∧
      (den S (epsOne (dropSquare q)) = (denP (liftI S []) p).first ∧ Regular S P C (epsOne (dropSquare q))) := by
  have ge := good_toEx p hg
  obtain ⟨j, h1, h2, h3⟩ := expansion_spec hS hC (toEx p) ge.2 (toEx_ok _ hp)
  rw [toEx_den (lift_diff hS [])] at h2
  have hf := expansion_all hereditary_good good_func _ ge j h1
  have w : ∀ r : Poly, AllF (fun a _ => GoodF fields a ∧ occurs epsSym a = false) r → AllF (fun a _ => occurs epsSym a = false) r :=
    fun r hr t ht f hf => (hr t ht f hf).2
  have f0 := w _ hf.1
  have f1 := w _ hf.2.1
  have f2 := w _ hf.2.2
  have hC1 := atOne_calculus hS hC hε
  have hD1 := atOne_diff hS.diff
  have eps1 : POK (atOne S) P C (patom (.sym epsSym)) := patom_ok _ trivial
  have eps2 : POK (atOne S) P C [([(.sym epsSym, 2)], 1)] :=
    POK.cons (MOK.cons ⟨trivial, .inl (show isNat 2 = true by decide +kernel)⟩ .nil) .nil
  obtain ⟨e1, k1⟩ := pmul_spec hD1 hC1 _ _ eps1 (pok_atOne _ h3.2.1 f1)
  obtain ⟨e2, k2⟩ := pmul_spec hD1 hC1 _ _ eps2 (pok_atOne _ h3.2.2 f2)
  have v1 : denP (atOne S) (patom (.sym epsSym)) = 1 := by
    rw [patom_den hD1]
    show (if epsSym = epsSym then (1 : R) else S.sym epsSym) = 1
    rw [if_pos rfl]
  have v2 : denP (atOne S) [([(.sym epsSym, 2)], 1)] = 1 := by
    have h : denM (atOne S) [(.sym epsSym, 2)] = 1 := by simpa using denM_eps hS.diff 2
    rw [denP_cons]
    simp only [h]
    simp
  have d1 : EpsDeg 1 (pmul (patom (.sym epsSym)) j.2.1) := by
    have := epsDeg_pmul (k := 1) (patom (.sym epsSym)) _ (fun t ht => by rw [List.mem_singleton.1 ht]; simp [epsDegree]) (epsDeg_free _ f1)
    rwa [add_zero] at this
  have d2 : EpsDeg 2 (pmul [([(.sym epsSym, 2)], 1)] j.2.2) := by
    have := epsDeg_pmul (k := 2) [([(.sym epsSym, 2)], 1)] _ (fun t ht => by rw [List.mem_singleton.1 ht]; simp [epsDegree]) (epsDeg_free _ f2)
    rwa [add_zero] at this
  have hok : POK (atOne S) P C (padd j.1 (padd (pmul (patom (.sym epsSym)) j.2.1) (pmul [([(.sym epsSym, 2)], 1)] j.2.2))) :=
    padd_ok _ _ (pok_atOne _ h3.1 f0) (padd_ok _ _ k1 k2)
  obtain ⟨o1, o2⟩ := epsOne_spec hS hC _ hok
  obtain ⟨o3, o4⟩ := epsOne_spec hS hC (dropSquare _) (fun t ht => hok t (List.mem_filter.1 ht).1)
  refine ⟨_, by unfold taylor; rw [h1]; rfl, ⟨?_, o2⟩, ?_, o4⟩
  · rw [o1, padd_den, padd_den, e1, e2, v1, v2, one_mul, one_mul, denP_atOne _ f0, denP_atOne _ f1, denP_atOne _ f2, ← h2,
      ← add_assoc]
    rfl
  · rw [o3]
    unfold dropSquare
    have hF := filter_padd (S := atOne S) (fun m => decide (epsDegree m ≠ 2))
    rw [hF, hF]
    have g0 := filter_epsDeg (fun d => decide (d ≠ 2)) _ (epsDeg_free _ f0)
    have g1 := filter_epsDeg (fun d => decide (d ≠ 2)) _ d1
    have g2 := filter_epsDeg (fun d => decide (d ≠ 2)) _ d2
    rw [g0, g1, g2]
    norm_num
    rw [e1, v1, one_mul, denP_atOne _ f0, denP_atOne _ f1, ← h2]
    rfl

end Sympkf.Spec
