import Verif.Lemmas.PkfValue
import Verif.Lemmas.Trend

/-!
# Lemmas: the Reynolds, mean and error systems
-/

set_option autoImplicit false

namespace Sympkf.Spec

open Text Rand PKF Pkf Jet

variable {R : Type} [CommRing R] [Algebra ℚ R] {S : Interp R} {A : Subalgebra ℚ R} {P : Set R} {C : Set Str}
  {K : Pkf} {coords : List Str}

/-! ## Coefficients of the perturbed dynamics -/

/-- The value at the mean is deterministic and the first-order term is centred. -/
def Split (S : Interp R) (A : Subalgebra ℚ R) (p : Jet R) : Prop := p.c0 ∈ A ∧ S.E p.c1 = 0

theorem split_C (hS : Stochastic S A) (r : R) (hr : r ∈ A) : Split S A (const r) := ⟨hr, E_zero hS⟩

theorem split_add (hS : Stochastic S A) (p q : Jet R) (hp : Split S A p) (hq : Split S A q) : Split S A (p + q) :=
  ⟨A.add_mem hp.1 hq.1, by rw [add_c1, hS.E_add, hp.2, hq.2, add_zero]⟩

theorem split_mul (hS : Stochastic S A) (p q : Jet R) (hp : Split S A p) (hq : Split S A q) : Split S A (p * q) := by
  refine ⟨A.mul_mem hp.1 hq.1, ?_⟩
  rw [mul_c1, hS.E_add, mul_comm p.c1, hS.E_mul _ _ hp.1, hS.E_mul _ _ hq.1, hp.2, hq.2, mul_zero, mul_zero, add_zero]

theorem split_pow (hS : Stochastic S A) (p : Jet R) (hp : Split S A p) (n : ℕ) : Split S A (p ^ n) := by
  induction n with
  | zero => rw [pow_zero]; exact split_C hS 1 A.one_mem
  | succ n ih => rw [pow_succ]; exact split_mul hS _ _ ih hp

theorem split_compose (hS : Stochastic S A) (f0 f1 f2 : R) (h0 : f0 ∈ A) (h1 : f1 ∈ A) (p : Jet R) (hp : Split S A p) :
    Split S A (compose f0 f1 f2 p) :=
  ⟨h0, by show S.E (f1 * p.c1) = 0; rw [hS.E_mul _ _ h1, hp.2, mul_zero]⟩

theorem split_func (hS : Stochastic S A) (g : Str) (p : Jet R) (hp : Split S A p) : Split S A (Jet.func S g p) := by
  have h : ∀ g : Str, S.func g p.c0 ∈ A := fun g => hS.func_det _ _ hp.1
  unfold Jet.func
  split
  · rename_i d1 d2 hd
    refine split_compose hS _ _ _ (h g) ?_ p hp
    unfold derivatives at hd
    split at hd
    · cases hd; exact h _
    split at hd
    · cases hd; exact h _
    split at hd
    · cases hd; exact A.neg_mem (h _)
    split at hd
    · cases hd; exact h _
    split at hd
    · cases hd; exact h _
    split at hd
    · cases hd; exact A.add_mem A.one_mem (A.pow_mem (h _) 2)
    split at hd
    · cases hd; exact A.sub_mem A.one_mem (A.pow_mem (h _) 2)
    split at hd
    · cases hd; exact hS.pw_det _ _ hp.1
    split at hd
    · cases hd; exact hS.pw_det _ _ (A.add_mem A.one_mem (A.pow_mem hp.1 2))
    cases hd
  · exact split_C hS _ (h g)

theorem split_pw (hS : Stochastic S A) (p : Jet R) (hp : Split S A p) (q : ℚ) : Split S A (Jet.pw S p q) := by
  unfold Jet.pw
  split
  · exact split_pow hS p hp _
  · exact split_compose hS _ _ _ (hS.pw_det _ _ hp.1) (A.mul_mem (A.algebraMap_mem q) (hS.pw_det _ _ hp.1)) p hp

theorem split_D (hS : Stochastic S A) (x : Str) (hx : x ≠ omega) (p : Jet R) (hp : Split S A p) :
    Split S A (Jet.map (S.D x) p) := by
  refine ⟨hS.D_det _ _ hp.1, ?_⟩
  show S.E (S.D x p.c1) = 0
  rw [hS.E_D _ _ hx, hp.2, D_zero hS.diff]

theorem split_derivs (hS : Stochastic S A) (l : List Field) (vars : List (Str × ℕ)) (hv : ∀ v ∈ vars, v.1 ≠ omega) (p : Jet R)
    (hp : Split S A p) : Split S A (derivs (perturbed S l) vars p) := by
  induction vars generalizing p with
  | nil => exact hp
  | cons v vars ih =>
    obtain ⟨x, n⟩ := v
    refine ih (fun v h => hv v (by simp [h])) _ ?_
    have hx : x ≠ omega := hv (x, n) (by simp)
    clear ih hv
    induction n generalizing p with
    | zero => exact hp
    | succ n ih => rw [Function.iterate_succ_apply]; exact ih _ (split_D hS x hx p hp)

theorem Expandable.den_free (hS : Stochastic S A) (hε : epsSym ∉ C) {l : List Field} {e : Ex} (h : Expandable S P C l e)
    (hf : FieldFree l e) : den (perturbed S l) e = const (den S e) := by
  rw [← h.den_lift, den_lift_free hS l e hf (h.free hε hf).occurs]

theorem Expandable.split (hS : Stochastic S A) (hC : Calculus S P C) (hε : epsSym ∉ C) {l : List Field}
    (herr : ∀ f ∈ l, S.E (den S f.error) = 0) {e : Ex} (h : Expandable S P C l e) :
    Split S A (den (perturbed S l) e) := by
  induction e with
  | num q => exact split_C hS _ (A.algebraMap_mem q)
  | sym s => exact split_C hS _ (hS.sym_det s h.2)
  | fn u args =>
    show Split S A (if (⟨u, args⟩ : Field) ∈ l then _ else _ : Jet R)
    split
    · rename_i hm
      exact ⟨hS.E_det _, herr _ hm⟩
    · exact split_C hS _ (hS.fn_det _ _ h.2)
  | func g a ih => exact split_func hS g _ (ih h.2)
  | add a b iha ihb => exact split_add hS _ _ (iha h.1) (ihb h.2)
  | mul a b iha ihb => exact split_mul hS _ _ (iha h.1) (ihb h.2)
  | pow a q ih => exact split_pw hS _ (ih h.1) q
  | deriv a vars ih => exact split_derivs hS l vars (fun v hv e => hC.omega_notMem (e ▸ h.2 v hv)) _ (ih h.1)
  | integ a x ih =>
    have e := h.2.1.den_free hS hε h.1
    show Split S A (Jet.map (S.I x) (den (perturbed S l) a))
    rw [e, map_const _ (I_zero hS x)]
    have := (ih h.2.1).1
    rw [e] at this
    exact split_C hS _ (hS.I_det _ _ this)
  | ex a ih => exact h.elim
  | other b => exact h.elim

/-! ## The Reynolds systems -/

namespace Setting

variable (h : Setting S A P C K coords) (hd : Dynamics S P C K)
include h

theorem eps_field (hd : Dynamics S P C K) (f : Field) (hf : f ∈ K.fields) : epsSym ∉ f.coordinates := by
  rw [h.same f hf]; exact fun he => hd.eps (h.sub _ he)

theorem exists_fields : ∃ l : List Field, K.arrange K.subsReynolds = l.map reynoldsEntry ∧ ∀ f, f ∈ l ↔ f ∈ K.fields := by
  have h1 : ∀ kv ∈ K.arrange K.subsReynolds, ∃ f ∈ K.fields, kv = reynoldsEntry f := by
    intro kv hkv
    have hkv := (h.arrange _).mem_iff.1 hkv
    rcases Dict.mem_update _ _ _ hkv with h' | h'
    · simp at h'
    · obtain ⟨f, hf, rfl⟩ := List.mem_map.1 h'
      exact ⟨f, hf, rfl⟩
  have h2 : ∀ f ∈ K.fields, reynoldsEntry f ∈ K.arrange K.subsReynolds := by
    intro f hf
    have hk : f.value ∈ Dict.keys K.subsReynolds := by
      unfold subsReynolds
      rw [Dict.keys_update_iff]
      exact .inr (List.mem_map.2 ⟨_, List.mem_map.2 ⟨f, hf, rfl⟩, rfl⟩)
    obtain ⟨kv, hkv, e⟩ := List.mem_map.1 hk
    have hkv' := (h.arrange _).mem_iff.2 hkv
    obtain ⟨g, -, rfl⟩ := h1 kv hkv'
    have : g = f := by
      have e' : Ex.fn g.name g.coordinates = .fn f.name f.coordinates := e
      cases g; cases f
      simp only [Ex.fn.injEq] at e'
      obtain ⟨rfl, rfl⟩ := e'
      rfl
    rw [← this]; exact hkv'
  have key : ∀ L : List (Ex × Ex), (∀ kv ∈ L, ∃ f ∈ K.fields, kv = reynoldsEntry f) →
      ∃ l : List Field, L = l.map reynoldsEntry ∧ ∀ f ∈ l, f ∈ K.fields := by
    intro L
    induction L with
    | nil => intro _; exact ⟨[], rfl, by simp⟩
    | cons kv L ih =>
      intro hL
      obtain ⟨l, e, hl⟩ := ih (fun kv' h' => hL kv' (by simp [h']))
      obtain ⟨f, hf, e'⟩ := hL kv (by simp)
      exact ⟨f :: l, by rw [e, e']; rfl, by simpa using ⟨hf, hl⟩⟩
  obtain ⟨l, e, hl⟩ := key _ h1
  refine ⟨l, e, fun f => ⟨hl f, fun hf => ?_⟩⟩
  have := h2 f hf
  rw [e] at this
  obtain ⟨g, hg, e'⟩ := List.mem_map.1 this
  have : g = f := by
    have e' : Ex.fn g.name g.coordinates = .fn f.name f.coordinates := congrArg Prod.fst e'
    cases g; cases f
    simp only [Ex.fn.injEq] at e'
    obtain ⟨rfl, rfl⟩ := e'
    rfl
  exact this ▸ hg

include hd

theorem reynolds_subs (e : Ex) (he : Expandable S P C K.fields e) :
    denP (liftI S []) (ofEx (K.subs K.subsReynolds e)) = den (perturbed S K.fields) e ∧
      POK (liftI S []) ({j | j.c0 ∈ P}) C (ofEx (K.subs K.subsReynolds e)) ∧
      AllF (fun a _ => GoodF K.fields a) (ofEx (K.subs K.subsReynolds e)) := by
  obtain ⟨l, e1, hl⟩ := h.exists_fields
  unfold Pkf.subs
  rw [e1]
  exact substituted_spec h.stoch h.calculus hd.eps h.names (fun f hf => h.omega_field f hf) (fun f hf => h.eps_field hd f hf)
    (fun f hf => h.error_centred f hf) l hl e he

omit hd in
theorem time_ne : time ≠ omega := fun e => h.calculus.omega_notMem (e ▸ h.time_mem)

omit hd in
/-- The left-hand sides of the Reynolds equations. -/
theorem lhs_spec (f : Field) (hf : f ∈ K.fields) (p : Poly) (hp : p = ofEx (K.subs K.subsReynolds (dt f.value))) :
    dropSquare p = p ∧ den S (epsOne p) = S.D time (S.E (den S f.random)) + S.D time (den S f.error) ∧
      Regular S P C (epsOne p) := by
  obtain ⟨l, e1, hl⟩ := h.exists_fields
  have ho := h.omega_field f hf
  unfold Pkf.subs at hp
  rw [e1] at hp
  by_cases ht : time ∈ f.coordinates
  · rw [reynolds_lhs _ f ht ho (fun kv hkv => by
      obtain ⟨g, hg, rfl⟩ := List.mem_map.1 hkv
      exact ⟨g, by rw [h.same g ((hl g).1 hg), h.same f hf], rfl⟩) ⟨reynoldsEntry f, List.mem_map.2 ⟨f, (hl f).2 hf, rfl⟩, rfl⟩] at hp
    rw [hp, dropSquare_lhs f ht, epsOne_lhs f ht]
    refine ⟨rfl, add_comm _ _, ⟨⟨fun _ => h.error_centred f hf, ?_⟩, .inr ⟨_, _, rfl⟩, ?_⟩⟩ <;>
    · intro v hv
      rw [List.mem_singleton.1 hv]; exact h.time_mem
  · rw [reynolds_const _ f ht (fun kv hkv => by
      obtain ⟨g, -, rfl⟩ := List.mem_map.1 hkv
      exact ⟨g, rfl⟩)] at hp
    rw [hp]
    have ht' : time ∉ f.coordinates ++ [omega] := by simp [ht, h.time_ne]
    have d1 : S.D time (den S f.error) = 0 := h.calculus.D_fn _ h.time_mem _ _ ht'
    have d2 : S.D time (S.E (den S f.random)) = 0 := by
      rw [← h.stoch.E_D _ _ h.time_ne]
      have : S.D time (den S f.random) = 0 := h.calculus.D_fn _ h.time_mem _ _ ht'
      rw [this, E_zero h.stoch]
    refine ⟨rfl, ?_, ?_⟩
    · rw [d1, d2, epsOne_nil]; simp [den]
    · rw [epsOne_nil]; trivial

/-- The values of the Reynolds equations. -/
structure ReynoldsVal (S : Interp R) (P : Set R) (C : Set Str) (K : Pkf) (fq : Field × Eqn) (r : Eqn × Eqn) : Prop where
  lhs2 : den S r.1.1 = S.D time (S.E (den S fq.1.random)) + S.D time (den S fq.1.error)
  lhs1 : den S r.2.1 = S.D time (S.E (den S fq.1.random)) + S.D time (den S fq.1.error)
  rhs2 : den S r.1.2 = (den (perturbed S K.fields) fq.2.2).second
  rhs1 : den S r.2.2 = (den (perturbed S K.fields) fq.2.2).first
  reg : Regular S P C r.1.1 ∧ Regular S P C r.1.2 ∧ Regular S P C r.2.1 ∧ Regular S P C r.2.2

theorem reynoldsEq_spec (f : Field) (hf : f ∈ K.fields) (q : Eqn) (hq : q.1 = dt f.value)
    (hp : Expandable S P C K.fields q.2) : ∃ r, K.reynoldsEq q = .ok r ∧ ReynoldsVal S P C K (f, q) r := by
  obtain ⟨l1, l2, l3⟩ := h.lhs_spec f hf _ rfl
  obtain ⟨r1, r2, r3⟩ := h.reynolds_subs hd q.2 hp
  obtain ⟨t, t1, ⟨t2, t3⟩, t4, t5⟩ := taylor_spec h.stoch h.calculus hd.eps _ r2 r3
  rw [r1] at t2 t4
  refine ⟨((epsOne (ofEx (K.subs K.subsReynolds (dt f.value))), epsOne t),
    (epsOne (dropSquare (ofEx (K.subs K.subsReynolds (dt f.value)))), epsOne (dropSquare t))), ?_, l2, by rw [l1]; exact l2, t2, t4,
    l3, t3, by rw [l1]; exact l3, t5⟩
  unfold reynoldsEq
  rw [hq, t1]
  rfl

omit h in
theorem zip_mem (fq : Field × Eqn) (hm : fq ∈ K.fields.zip K.equations) :
    fq.1 ∈ K.fields ∧ fq.2.1 = dt fq.1.value ∧ Expandable S P C K.fields fq.2.2 := by
  have h1 := (List.of_mem_zip hm)
  refine ⟨h1.1, ?_, hd.rhs _ h1.2⟩
  obtain ⟨i, hi, e⟩ := List.mem_iff_getElem.1 hm
  have h2 := hd.lhs
  have e1 : (K.equations.map Prod.fst)[i]? = (K.fields.map (fun f => dt f.value))[i]? := by rw [h2]
  rw [List.getElem_zip] at e
  rw [List.length_zip] at hi
  rw [List.getElem?_map, List.getElem?_map, List.getElem?_eq_getElem (by omega), List.getElem?_eq_getElem (by omega)] at e1
  simp only [Option.map_some, Option.some.injEq] at e1
  rw [← e]
  exact e1

omit h in
theorem length_eq : K.equations.length = K.fields.length := by
  have := congrArg List.length hd.lhs
  simpa using this

theorem reynolds_spec : ∃ r, K.reynolds = .ok r ∧ List.Forall₂ (ReynoldsVal S P C K) (K.fields.zip K.equations) r := by
  have key : ∀ (fs : List Field) (qs : List Eqn), fs.length = qs.length →
      (∀ fq ∈ fs.zip qs, fq.1 ∈ K.fields ∧ fq.2.1 = dt fq.1.value ∧ Expandable S P C K.fields fq.2.2) →
      ∃ r, qs.mapM K.reynoldsEq = .ok r ∧ List.Forall₂ (ReynoldsVal S P C K) (fs.zip qs) r := by
    intro fs qs
    induction qs generalizing fs with
    | nil => intro hl _; cases fs with
      | nil => exact ⟨[], rfl, .nil⟩
      | cons f fs => simp at hl
    | cons q qs ih =>
      intro hl hm
      cases fs with
      | nil => simp at hl
      | cons f fs =>
        obtain ⟨m1, m2, m3⟩ := hm (f, q) (by simp)
        obtain ⟨r, h1, h2⟩ := h.reynoldsEq_spec hd f m1 q m2 m3
        obtain ⟨rs, h3, h4⟩ := ih fs (by simpa using hl) (fun fq h' => hm fq (by simp [h']))
        exact ⟨r :: rs, by simp only [List.mapM_cons, h1, h3, bind, Except.bind, pure, Except.pure], .cons h2 h4⟩
  exact key _ _ (length_eq hd).symm (fun fq => zip_mem hd fq)

/-! ## Mean and errors -/

omit hd in
theorem expect_spec (e : Ex) (he : Regular S P C e) : den S (eval (.ex e)) = S.E (den S e) ∧ Regular S P C (eval (.ex e)) :=
  eval_spec h.stoch h.calculus _ (.inl he)

omit hd in
/-- The mean of the left-hand side. -/
theorem mean_lhs (f : Field) (hf : f ∈ K.fields) :
    S.E (S.D time (S.E (den S f.random)) + S.D time (den S f.error)) = S.D time (S.E (den S f.random)) := by
  rw [h.stoch.E_add, h.stoch.E_D _ _ h.time_ne, h.stoch.E_D _ _ h.time_ne, h.error_centred f hf, D_zero h.stoch.diff, add_zero,
    h.stoch.E_const _ (h.stoch.E_det _)]

theorem split_rhs (fq : Field × Eqn) (hm : fq ∈ K.fields.zip K.equations) : Split S A (den (perturbed S K.fields) fq.2.2) :=
  (zip_mem hd fq hm).2.2.split h.stoch h.calculus hd.eps (fun f hf => h.error_centred f hf)

/-- An equation with its values. -/
structure EqnVal (S : Interp R) (P : Set R) (C : Set Str) (l r : R) (q : Eqn) : Prop where
  lhs : den S q.1 = l
  rhs : den S q.2 = r
  reg : Regular S P C q.1 ∧ Regular S P C q.2

omit h hd in
theorem forall₂_mem {α β : Type} {r s : α → β → Prop} {l : List α} {l' : List β} (hr : List.Forall₂ r l l')
    (hrs : ∀ a ∈ l, ∀ b, r a b → s a b) : List.Forall₂ s l l' := by
  induction hr with
  | nil => exact .nil
  | cons hab _ ih => exact .cons (hrs _ (by simp) _ hab) (ih (fun a ha b => hrs a (by simp [ha]) b))

theorem expectation_spec : ∃ m, K.expectationSystem = .ok m ∧
    List.Forall₂ (fun fq => EqnVal S P C (S.D time (S.E (den S fq.1.random)))
      ((den (perturbed S K.fields) fq.2.2).c0 + S.E ((den (perturbed S K.fields) fq.2.2).c2)))
      (K.fields.zip K.equations) m := by
  obtain ⟨r, h1, h2⟩ := h.reynolds_spec hd
  obtain ⟨c, hc⟩ := h.closure_ok
  have hv := h.closure_valid c hc
  refine ⟨(r.map Prod.fst).map (fun q => K.subsEq c (K.subsEq K.subsError (expectEqn q))),
    by unfold expectationSystem secondOrder; simp only [h1, hc, bind, Except.bind, pure, Except.pure], ?_⟩
  rw [List.map_map, List.forall₂_map_right_iff]
  refine forall₂_mem h2 (fun fq hm r hr => ?_)
  have sp := h.split_rhs hd fq hm
  obtain ⟨a1, a2⟩ := h.expect_spec _ hr.reg.1
  obtain ⟨b1, b2⟩ := h.expect_spec _ hr.reg.2.1
  obtain ⟨a3, a4⟩ := h.subs_spec _ h.subsError_valid _ a2
  obtain ⟨b3, b4⟩ := h.subs_spec _ h.subsError_valid _ b2
  obtain ⟨a5, a6⟩ := h.subs_spec c hv _ a4
  obtain ⟨b5, b6⟩ := h.subs_spec c hv _ b4
  refine ⟨?_, ?_, a6, b6⟩
  · exact a5.trans (a3.trans (a1.trans (by rw [hr.lhs2, h.mean_lhs fq.1 (zip_mem hd fq hm).1])))
  · refine b5.trans (b3.trans (b1.trans ?_))
    rw [hr.rhs2, Jet.second, h.stoch.E_add, h.stoch.E_add, h.stoch.E_const _ sp.1, sp.2, add_zero]

theorem tl_spec : ∃ r m, K.firstOrder = .ok (r.map Prod.snd) ∧ K.tlExpectation = .ok m ∧
    List.Forall₂ (ReynoldsVal S P C K) (K.fields.zip K.equations) r ∧
    List.Forall₂ (fun fq => EqnVal S P C (S.D time (S.E (den S fq.1.random))) ((den (perturbed S K.fields) fq.2.2).c0))
      (K.fields.zip K.equations) m := by
  obtain ⟨r, h1, h2⟩ := h.reynolds_spec hd
  obtain ⟨c, hc⟩ := h.closure_ok
  have hv := h.closure_valid c hc
  refine ⟨r, (r.map Prod.snd).map (fun q => K.subsEq c (expectEqn q)), by unfold firstOrder; simp only [h1, bind, Except.bind, pure, Except.pure],
    by unfold tlExpectation firstOrder; simp only [h1, hc, bind, Except.bind, pure, Except.pure], h2, ?_⟩
  rw [List.map_map, List.forall₂_map_right_iff]
  refine forall₂_mem h2 (fun fq hm r hr => ?_)
  have sp := h.split_rhs hd fq hm
  obtain ⟨a1, a2⟩ := h.expect_spec _ hr.reg.2.2.1
  obtain ⟨b1, b2⟩ := h.expect_spec _ hr.reg.2.2.2
  obtain ⟨a5, a6⟩ := h.subs_spec c hv _ a2
  obtain ⟨b5, b6⟩ := h.subs_spec c hv _ b2
  refine ⟨?_, ?_, a6, b6⟩
  · exact a5.trans (a1.trans (by rw [hr.lhs1, h.mean_lhs fq.1 (zip_mem hd fq hm).1]))
  · refine b5.trans (b1.trans ?_)
    rw [hr.rhs1, Jet.first, h.stoch.E_add, h.stoch.E_const _ sp.1, sp.2, add_zero]

omit hd in
theorem minus_spec (a b : Ex) (ha : Regular S P C a) (hb : Regular S P C b) :
    den S (minus a b) = den S a - den S b ∧ Regular S P C (minus a b) := by
  obtain ⟨h1, h2⟩ := eval_spec h.stoch h.calculus (.add a (.mul (.num (-1)) b)) ⟨ha, trivial, hb⟩
  refine ⟨h1.trans ?_, h2⟩
  simp only [den, map_neg, map_one]
  ring

theorem error_spec : ∃ es, K.errorSystem = .ok es ∧
    List.Forall₂ (fun fq => EqnVal S P C (S.D time (den S fq.1.error)) ((den (perturbed S K.fields) fq.2.2).c1))
      (K.fields.zip K.equations) es := by
  obtain ⟨r, m, h1, h2, h3, h4⟩ := h.tl_spec hd
  refine ⟨((r.map Prod.snd).zip m).map (fun q => (minus q.1.1 q.2.1, minus q.1.2 q.2.2)), by unfold errorSystem; simp only [h1, h2, bind, Except.bind, pure, Except.pure], ?_⟩
  rw [List.forall₂_map_right_iff]
  clear h1 h2
  have key : ∀ (l : List (Field × Eqn)) (r : List (Eqn × Eqn)) (m : List Eqn), List.Forall₂ (ReynoldsVal S P C K) l r →
      List.Forall₂ (fun fq => EqnVal S P C (S.D time (S.E (den S fq.1.random))) ((den (perturbed S K.fields) fq.2.2).c0)) l m →
      List.Forall₂ (fun fq (p : Eqn × Eqn) => EqnVal S P C (S.D time (den S fq.1.error))
        ((den (perturbed S K.fields) fq.2.2).c1) (minus p.1.1 p.2.1, minus p.1.2 p.2.2)) l ((r.map Prod.snd).zip m) := by
    intro l r m hr
    induction hr generalizing m with
    | nil => intro _; simp
    | cons hab _ ih =>
      intro hm
      cases hm with
      | cons hcd hm =>
        refine .cons ?_ (ih _ hm)
        obtain ⟨u1, u2⟩ := h.minus_spec _ _ hab.reg.2.2.1 hcd.reg.1
        obtain ⟨v1, v2⟩ := h.minus_spec _ _ hab.reg.2.2.2 hcd.reg.2
        refine ⟨?_, ?_, u2, v2⟩
        · rw [u1, hab.lhs1, hcd.lhs, add_sub_cancel_left]
        · rw [v1, hab.rhs1, hcd.rhs, Jet.first, add_sub_cancel_left]
  exact key _ _ _ h3 h4

end Setting

end Sympkf.Spec
