import Verif.Lemmas.PkfStat
import Verif.Lemmas.Trend

/-!
# Lemmas: the statistical systems of deterministic dynamics are computed without exception
-/

set_option autoImplicit false

namespace Sympkf.PKF

open Text Rand Pkf

/-- The random functions of the expression have the property `Q`, except `X` in `E[X]`, which has the property `M`. -/
def Only (M Q : Ex → Prop) : Ex → Prop
  | .num _ => True
  | .sym s => s ≠ omega
  | .fn u args => omega ∈ args → Q (.fn u args)
  | .func _ a => Only M Q a
  | .add a b => Only M Q a ∧ Only M Q b
  | .mul a b => Only M Q a ∧ Only M Q b
  | .pow a _ => Only M Q a
  | .deriv a vars => Only M Q a ∧ ∀ v ∈ vars, v.1 ≠ omega
  | .integ a x => Only M Q a ∧ x ≠ omega
  | .ex a => hasOmega a = true ∧ (Only M Q a ∨ ∃ u args, a = .fn u args ∧ M a)
  | .other _ => False

theorem Only.mono {M Q Q' : Ex → Prop} (h : ∀ e, Q e → Q' e) {e : Ex} (he : Only M Q e) : Only M Q' e := by
  induction e with
  | num => trivial
  | sym => exact he
  | fn u args => exact fun ho => h _ (he ho)
  | func g a ih => exact ih he
  | add a b iha ihb => exact ⟨iha he.1, ihb he.2⟩
  | mul a b iha ihb => exact ⟨iha he.1, ihb he.2⟩
  | pow a q ih => exact ih he
  | deriv a vars ih => exact ⟨ih he.1, he.2⟩
  | integ a x ih => exact ⟨ih he.1, he.2⟩
  | ex a ih => exact ⟨he.1, he.2.imp ih id⟩
  | other b => exact he.elim

variable {M Q : Ex → Prop}

/-! ## Normalisation -/

/-- Every atom of the polynomial. -/
abbrev OnlyP (M Q : Ex → Prop) (p : Poly) : Prop := AllF (fun a _ => Only M Q a) p

theorem only_mulOK : MulOK (fun a (_ : ℚ) => Only M Q a) := fun _ _ _ h _ => h

theorem only_expr : ExprOK (Only M Q) := ⟨fun _ => trivial, fun _ _ h1 h2 => ⟨h1, h2⟩, fun _ _ h1 h2 => ⟨h1, h2⟩⟩

theorem only_factor (a : Ex) (q : ℚ) (h : Only M Q a) : Only M Q (factorEx (a, q)) := by
  unfold factorEx
  split
  · exact h
  · exact h

theorem only_toEx (p : Poly) (h : OnlyP M Q p) : Only M Q (toEx p) := exprOK_toEx only_expr only_factor p h

theorem mem_bumpVar (x : Str) (vars : List (Str × ℕ)) (v : Str × ℕ) (h : v ∈ bumpVar x vars) :
    v.1 = x ∨ ∃ w ∈ vars, w.1 = v.1 := by
  induction vars with
  | nil => left; rw [bumpVar, List.mem_singleton] at h; rw [h]
  | cons w vars ih =>
    obtain ⟨y, n⟩ := w
    unfold bumpVar at h
    split at h
    · rcases List.mem_cons.1 h with h | h
      · right; exact ⟨(y, n), by simp, by rw [h]⟩
      · right; exact ⟨v, by simp [h], rfl⟩
    · split at h
      · rcases List.mem_cons.1 h with h | h
        · left; rw [h]
        · right; exact ⟨v, h, rfl⟩
      · rcases List.mem_cons.1 h with h | h
        · right; exact ⟨(y, n), by simp, by rw [h]⟩
        · rcases ih h with h | ⟨w, hw, e⟩
          · exact .inl h
          · exact .inr ⟨w, by simp [hw], e⟩

theorem only_hereditary : Hereditary (Only M Q) where
  num _ := trivial
  add _ _ h h' := ⟨h, h'⟩
  mul _ _ h h' := ⟨h, h'⟩
  func _ _ _ _ _ h := ⟨h, h⟩
  add_inv _ _ h := h
  mul_inv _ _ h := h
  pow _ _ := Iff.rfl

theorem only_diffOK (x : Str) (hx : x ≠ omega) : DiffOK (fun a (_ : ℚ) => Only M Q a) x := by
  refine only_hereditary.diffOK x (fun b vars h => ⟨h.1, fun v hv => ?_⟩) (fun _ _ h => ⟨h, by simpa using hx⟩)
  rcases mem_bumpVar x vars v hv with e | ⟨w, hw, e⟩
  · rw [e]; exact hx
  · rw [← e]; exact h.2 w hw

theorem only_pdiffs (vars : List (Str × ℕ)) (hv : ∀ v ∈ vars, v.1 ≠ omega) (p : Poly) (hp : OnlyP M Q p) : OnlyP M Q (pdiffs vars p) :=
  allF_pdiffs only_mulOK vars (fun v h => only_diffOK v.1 (hv v h)) p hp

theorem only_ppow (p : Poly) (q : ℚ) (hp : OnlyP M Q p) : OnlyP M Q (ppow p q) := by
  unfold ppow
  split
  · exact allF_ppowN only_mulOK _ _ hp
  · split
    · split
      · exact AllF.cons (AllM.cons hp.head.head .nil) .nil
      · exact allF_patom _ (only_toEx _ hp)
    · exact allF_patom _ (only_toEx _ hp)

theorem rnd_hasOmega (e : Ex) (h : rnd e = true) : hasOmega e = true := by
  cases ho : hasOmega e with
  | true => rfl
  | false =>
    unfold rnd at h
    rw [hasOmega_false ho] at h
    cases h

theorem hasOmega_factor (f : Ex × ℚ) : hasOmega (factorEx f) = hasOmega f.1 := by
  unfold factorEx
  split <;> rfl

theorem hasOmega_prod (l : List Ex) : hasOmega (prod l) = l.any hasOmega := by
  induction l with
  | nil => rfl
  | cons a l ih =>
    cases l with
    | nil => simp [prod]
    | cons b l => rw [prod, hasOmega, ih, List.any_cons (a := a)]; simp

theorem hasOmega_monoEx (m : Mono) : hasOmega (monoEx m) = m.any (fun f => hasOmega f.1) := by
  unfold monoEx
  rw [hasOmega_prod, List.any_map]
  congr 1
  funext f
  exact hasOmega_factor f

theorem only_monoEx (m : Mono) (h : AllM (fun a _ => Only M Q a) m) : Only M Q (monoEx m) := exprOK_monoEx only_expr only_factor m h

theorem only_expectTerm (t : Mono × ℚ) (h : AllM (fun a _ => Only M Q a) t.1) : OnlyP M Q (expectTerm t) := by
  have hd : AllM (fun a _ => Only M Q a) (t.1.filter (fun f => !rnd f.1)) := fun f hf => h f (List.mem_of_mem_filter hf)
  have hr : AllM (fun a _ => Only M Q a) (t.1.filter (fun f => rnd f.1)) := fun f hf => h f (List.mem_of_mem_filter hf)
  have hrnd : ∀ f ∈ t.1.filter (fun f => rnd f.1), rnd f.1 = true := fun f hf => (List.mem_filter.1 hf).2
  unfold expectTerm
  simp only []
  generalize hR : t.1.filter (fun f => rnd f.1) = r at hr hrnd
  have gen : ∀ r' : Mono, r' ≠ [] → (∀ f ∈ r', rnd f.1 = true) → AllM (fun a _ => Only M Q a) r' →
      OnlyP M Q (pmulTerm (t.1.filter (fun f => !rnd f.1)) t.2 (patom (.ex (monoEx r')))) := by
    intro r' hne hrnd hr
    refine allF_pmulTerm only_mulOK _ _ _ hd (allF_patom _ ⟨?_, .inl (only_monoEx _ hr)⟩)
    rw [hasOmega_monoEx]
    cases r' with
    | nil => exact absurd rfl hne
    | cons f r' => rw [List.any_cons, rnd_hasOmega f.1 (hrnd f (by simp)), Bool.true_or]
  split
  · exact AllF.cons h .nil
  · rename_i u args vars q
    have h1 : Only M Q (.deriv (.fn u args) vars) := hr.head
    split
    · refine allF_pmulTerm only_mulOK _ _ _ hd (allF_patom _ ⟨⟨?_, .inl h1.1⟩, fun v hv => h1.2 v (List.mem_of_mem_take hv)⟩)
      have h2 := rnd_hasOmega _ (hrnd (.deriv (.fn u args) vars, q) (by simp))
      rw [hasOmega, Bool.or_eq_true] at h2
      rcases h2 with h2 | h2
      · exact h2
      · obtain ⟨v, hv, e⟩ := List.any_eq_true.1 h2
        exact absurd (of_decide_eq_true e) (h1.2 v hv)
    · exact gen _ (by simp) hrnd hr
  · rename_i b x q
    have h1 : Only M Q (.integ b x) := hr.head
    split
    · refine allF_pmulTerm only_mulOK _ _ _ hd (allF_patom _ ⟨⟨?_, .inl h1.1⟩, h1.2⟩)
      have h2 := rnd_hasOmega _ (hrnd (.integ b x, q) (by simp))
      rw [hasOmega, Bool.or_eq_true] at h2
      rcases h2 with h2 | h2
      · exact h2
      · exact absurd (of_decide_eq_true h2) h1.2
    · exact gen _ (by simp) hrnd hr
  · rename_i hne _ _
    exact gen _ hne hrnd hr

theorem only_pexpect (p : Poly) (hp : OnlyP M Q p) : OnlyP M Q (pexpect p) := by
  induction p with
  | nil => exact .nil
  | cons t p ih => exact allF_padd _ _ (only_expectTerm t hp.head) (ih hp.tail)

theorem only_pexpect_fn (u : Str) (args : List Str) (ho : omega ∈ args) (hm : M (.fn u args)) : OnlyP M Q (pexpect (patom (.fn u args))) := by
  have hr : rnd (.fn u args) = true := by
    have : israndom (.fn u args) = .ok true := by simp [israndom, hasOmega, ho]
    rw [rnd, this]
  have : expectTerm ([(.fn u args, 1)], 1) = pmulTerm [] 1 (patom (.ex (monoEx [(.fn u args, 1)]))) := by
    unfold expectTerm
    simp [hr]
  unfold pexpect patom
  simp only [List.foldr_cons, List.foldr_nil]
  rw [this]
  refine allF_padd _ _ (allF_pmulTerm only_mulOK _ _ _ .nil (allF_patom _ ?_)) .nil
  have e : monoEx [(.fn u args, 1)] = .fn u args := by simp [monoEx, factorEx, prod]
  rw [e]
  exact ⟨by simp [hasOmega, ho], .inr ⟨u, args, rfl, hm⟩⟩

theorem only_ofEx (e : Ex) (h : Only M Q e) : OnlyP M Q (ofEx e) := by
  induction e with
  | num q => exact allF_pconst q
  | sym s => exact allF_patom _ h
  | fn u args => exact allF_patom _ h
  | func g a ih => exact allF_patom _ (only_toEx _ (ih h))
  | add a b iha ihb => exact allF_padd _ _ (iha h.1) (ihb h.2)
  | mul a b iha ihb => exact allF_pmul only_mulOK _ _ (iha h.1) (ihb h.2)
  | pow a q ih => exact only_ppow _ _ (ih h)
  | deriv a vars ih => exact only_pdiffs _ h.2 _ (ih h.1)
  | integ a x ih => exact allF_patom _ ⟨only_toEx _ (ih h.1), h.2⟩
  | ex a ih =>
    rcases h.2 with h' | ⟨u, args, rfl, hm⟩
    · exact only_pexpect _ (ih h')
    · exact only_pexpect_fn u args (by simpa [hasOmega] using h.1) hm
  | other b => exact h.elim

theorem only_eval (e : Ex) (h : Only M Q e) : Only M Q (eval e) := only_toEx _ (only_ofEx e h)

/-- `Expectation` of an expression. -/
theorem only_eval_ex (e : Ex) (h : Only M Q e) : Only M Q (eval (.ex e)) := only_toEx _ (only_pexpect _ (only_ofEx e h))

/-! ## Substitution -/

theorem mem_takeVar (x : Str) (n : ℕ) (vars r : List (Str × ℕ)) (h : takeVar x n vars = some r) (v : Str × ℕ) (hv : v ∈ r) :
    ∃ w ∈ vars, w.1 = v.1 := by
  induction vars generalizing r with
  | nil => cases h
  | cons w vars ih =>
    obtain ⟨y, k⟩ := w
    unfold takeVar at h
    split at h
    · split at h
      · cases h
        rcases List.mem_cons.1 hv with hv | hv
        · exact ⟨(y, k), by simp, by rw [hv]⟩
        · exact ⟨v, by simp [hv], rfl⟩
      · cases h
    · obtain ⟨r', h', rfl⟩ := Option.map_eq_some_iff.1 h
      rcases List.mem_cons.1 hv with hv | hv
      · exact ⟨(y, k), by simp, by rw [hv]⟩
      · obtain ⟨w, hw, e⟩ := ih r' h' hv
        exact ⟨w, by simp [hw], e⟩

theorem mem_varsSub (vs vars r : List (Str × ℕ)) (h : varsSub vs vars = some r) (v : Str × ℕ) (hv : v ∈ r) :
    ∃ w ∈ vars, w.1 = v.1 := by
  induction vs generalizing vars with
  | nil => cases h; exact ⟨v, hv, rfl⟩
  | cons w vs ih =>
    obtain ⟨x, n⟩ := w
    obtain ⟨r', h1, h2⟩ := Option.bind_eq_some_iff.1 h
    obtain ⟨w, hw, e⟩ := ih r' h2
    obtain ⟨w', hw', e'⟩ := mem_takeVar x n vars r' h1 w hw
    exact ⟨w', hw', e'.trans e⟩

theorem only_subst {Q' : Ex → Prop} (old : Ex) (new : Poly) (hn : OnlyP M Q' new) (e : Ex) (h : Only M Q e)
    (hQ : ∀ u args, omega ∈ args → Q (.fn u args) → Ex.fn u args ≠ old → Q' (.fn u args)) : OnlyP M Q' (subst old new e) := by
  induction e with
  | num q =>
    unfold subst; split
    · exact hn
    · exact allF_pconst q
  | sym s =>
    unfold subst; split
    · exact hn
    · exact allF_patom _ h
  | fn u args =>
    unfold subst; split
    · exact hn
    · rename_i hne
      exact allF_patom _ (fun ho => hQ u args ho (h ho) hne)
  | func g a ih =>
    unfold subst; split
    · exact hn
    · exact allF_patom _ (only_toEx _ (ih h))
  | add a b iha ihb =>
    unfold subst; split
    · exact hn
    · exact allF_padd _ _ (iha h.1) (ihb h.2)
  | mul a b iha ihb =>
    unfold subst; split
    · exact hn
    · exact allF_pmul only_mulOK _ _ (iha h.1) (ihb h.2)
  | pow a q ih =>
    unfold subst; split
    · exact hn
    · exact only_ppow _ _ (ih h)
  | deriv a vars ih =>
    unfold subst; split
    · exact hn
    · simp only []
      split
      · rename_i rest hr
        refine only_pdiffs _ (fun v hv => ?_) _ hn
        unfold derivRest at hr
        split at hr
        · split at hr
          · obtain ⟨w, hw, e⟩ := mem_varsSub _ _ _ hr v hv
            rw [← e]; exact h.2 w hw
          · cases hr
        · cases hr
      · exact only_pdiffs _ h.2 _ (ih h.1)
  | integ a x ih =>
    unfold subst; split
    · exact hn
    · exact allF_patom _ ⟨only_toEx _ (ih h.1), h.2⟩
  | ex a ih =>
    unfold subst; split
    · exact hn
    · rcases h.2 with h' | ⟨u, args, rfl, hm⟩
      · exact only_pexpect _ (ih h')
      · have ho : omega ∈ args := by simpa [hasOmega] using h.1
        show OnlyP M Q' (pexpect (subst old new (.fn u args)))
        unfold subst
        split
        · exact only_pexpect _ hn
        · exact only_pexpect_fn u args ho hm
  | other b => exact h.elim

theorem only_substEx (old new e : Ex) (hn : Only M Q new) (he : Only M Q e) : Only M Q (substEx old new e) :=
  only_toEx _ (only_subst _ _ (only_ofEx new hn) _ (only_eval e he) (fun _ _ _ h _ => h))

theorem only_substAll (l : List (Ex × Ex)) (hl : ∀ kv ∈ l, Only M Q kv.2) (e : Ex) (he : Only M Q e) : Only M Q (substAll l e) := by
  unfold substAll
  have h0 := only_eval e he
  generalize eval e = e0 at h0
  induction l generalizing e0 with
  | nil => exact h0
  | cons kv l ih => exact ih (fun kv h => hl kv (by simp [h])) _ (only_substEx _ _ _ (hl kv (by simp)) h0)

/-- Random functions that are replaced disappear. -/
theorem only_substAll_fn (l : List (Ex × Ex)) (hk : ∀ kv ∈ l, ∃ u args, kv.1 = .fn u args) (hl : ∀ kv ∈ l, Only M Q kv.2) (e : Ex)
    (he : Only M (fun a => Q a ∨ ∃ kv ∈ l, kv.1 = a) e) : Only M Q (substAll l e) := by
  unfold substAll
  have h0 := only_eval e he
  generalize eval e = e0 at h0
  clear he
  induction l generalizing e0 with
  | nil => exact h0.mono (fun e h => h.elim id (fun ⟨_, h, _⟩ => by cases h))
  | cons kv l ih =>
    refine ih (fun kv h => hk kv (by simp [h])) (fun kv h => hl kv (by simp [h])) _ ?_
    obtain ⟨u, args, hu⟩ := hk kv (by simp)
    have hev : eval kv.1 = kv.1 := by rw [hu, Spec.eval_fn]
    refine only_toEx _ (only_subst _ _ (only_ofEx _ ((hl kv (by simp)).mono (fun e h => .inl h))) _ (only_eval _ h0) ?_)
    rintro u' args' - (h | ⟨kv', h, e⟩) hne
    · exact .inl h
    · rcases List.mem_cons.1 h with rfl | h
      · exact absurd (e.symm.trans hev.symm) hne
      · exact .inr ⟨kv', h, e⟩

/-! ## Univariate terms -/

/-- Deterministic expressions stay deterministic. -/
abbrev DetP (p : Poly) : Prop := AllF (fun a _ => hasOmega a = false) p

theorem det_expr : ExprOK (fun a => hasOmega a = false) :=
  ⟨fun _ => rfl, fun _ _ h1 h2 => by rw [hasOmega, h1, h2]; rfl, fun _ _ h1 h2 => by rw [hasOmega, h1, h2]; rfl⟩

theorem det_toEx (p : Poly) (h : DetP p) : hasOmega (toEx p) = false :=
  exprOK_toEx det_expr (fun a q h => (hasOmega_factor (a, q)).trans h) p h

theorem det_mulOK : MulOK (fun a (_ : ℚ) => hasOmega a = false) := fun _ _ _ h _ => h

theorem det_hereditary : Hereditary (fun a => hasOmega a = false) where
  num _ := rfl
  add a b h h' := by rw [hasOmega, h, h']; rfl
  mul a b h h' := by rw [hasOmega, h, h']; rfl
  func _ _ _ _ _ h := ⟨h, h⟩
  add_inv _ _ h := by rw [hasOmega, Bool.or_eq_false_iff] at h; exact h
  mul_inv _ _ h := by rw [hasOmega, Bool.or_eq_false_iff] at h; exact h
  pow _ _ := Iff.rfl

theorem det_diffOK (x : Str) (hx : x ≠ omega) : DiffOK (fun a (_ : ℚ) => hasOmega a = false) x := by
  refine det_hereditary.diffOK x (fun b vars h => ?_) (fun a _ h => ?_)
  · rw [hasOmega, Bool.or_eq_false_iff] at h ⊢
    refine ⟨h.1, List.any_eq_false.2 (fun v hv => ?_)⟩
    rcases mem_bumpVar x vars v hv with e | ⟨w, hw, e⟩
    · simpa [e] using hx
    · rw [← e]; exact List.any_eq_false.1 h.2 w hw
  · rw [hasOmega, h]
    simpa using hx

theorem det_pexpect (p : Poly) (hp : DetP p) : DetP (pexpect p) := by
  induction p with
  | nil => exact .nil
  | cons t p ih =>
    refine allF_padd _ _ ?_ (ih hp.tail)
    have : t.1.filter (fun f => rnd f.1) = [] := by
      rw [List.filter_eq_nil_iff]
      intro f hf h
      have h1 := hp.head f hf
      rw [rnd_hasOmega _ h] at h1
      cases h1
    unfold expectTerm
    simp only [this]
    exact AllF.cons hp.head .nil

theorem det_ofEx (e : Ex) (h : hasOmega e = false) : DetP (ofEx e) := by
  induction e with
  | num q => exact allF_pconst q
  | sym s => exact allF_patom _ h
  | fn u args => exact allF_patom _ h
  | func g a ih => exact allF_patom _ (det_toEx _ (ih h))
  | add a b iha ihb =>
    rw [hasOmega, Bool.or_eq_false_iff] at h
    exact allF_padd _ _ (iha h.1) (ihb h.2)
  | mul a b iha ihb =>
    rw [hasOmega, Bool.or_eq_false_iff] at h
    exact allF_pmul det_mulOK _ _ (iha h.1) (ihb h.2)
  | pow a q ih =>
    have hp := ih h
    show DetP (ppow (ofEx a) q)
    generalize ofEx a = p at hp
    unfold ppow
    split
    · exact allF_ppowN det_mulOK _ _ hp
    · split
      · split
        · exact AllF.cons (AllM.cons hp.head.head .nil) .nil
        · exact allF_patom _ (det_toEx _ hp)
      · exact allF_patom _ (det_toEx _ hp)
  | deriv a vars ih =>
    rw [hasOmega, Bool.or_eq_false_iff] at h
    refine allF_pdiffs det_mulOK vars (fun v hv => det_diffOK v.1 ?_) _ (ih h.1)
    simpa using List.any_eq_false.1 h.2 v hv
  | integ a x ih =>
    rw [hasOmega, Bool.or_eq_false_iff] at h
    refine allF_patom _ ?_
    rw [hasOmega, det_toEx _ (ih h.1), h.2]; rfl
  | ex a ih => exact det_pexpect _ (ih h)
  | other b => exact allF_patom _ h

theorem det_eval (e : Ex) (h : hasOmega e = false) : hasOmega (eval e) = false := det_toEx _ (det_ofEx e h)

theorem det_of_fnAtoms (e : Ex) (h : Only M Q e) (hf : ∀ g ∈ fnAtoms e, hasOmega g = false) : hasOmega e = false := by
  induction e with
  | num => rfl
  | sym s => have h' : s ≠ omega := h; simp [hasOmega, h']
  | fn u args => exact hf _ (by simp [fnAtoms])
  | func g a ih => exact hf (.func g a) (by simp [fnAtoms])
  | add a b iha ihb =>
    rw [hasOmega, iha h.1 (fun g hg => hf g (by simp [fnAtoms, hg])), ihb h.2 (fun g hg => hf g (by simp [fnAtoms, hg]))]; rfl
  | mul a b iha ihb =>
    rw [hasOmega, iha h.1 (fun g hg => hf g (by simp [fnAtoms, hg])), ihb h.2 (fun g hg => hf g (by simp [fnAtoms, hg]))]; rfl
  | pow a q ih => exact ih h hf
  | deriv a vars ih =>
    rw [hasOmega, ih h.1 hf, Bool.false_or]
    exact List.any_eq_false.2 (fun v hv => by simpa using h.2 v hv)
  | integ a x ih => rw [hasOmega, ih h.1 hf]; simpa using h.2
  | ex a ih => exact hf (.ex a) (by simp [fnAtoms])
  | other b => exact h.elim

theorem only_derivAtoms (e : Ex) (h : Only M Q e) : ∀ d ∈ derivAtoms e, Only M Q d ∧ ∃ b vars, d = .deriv b vars := by
  induction e with
  | func g a ih => exact ih h
  | add a b iha ihb => exact fun d hd => (List.mem_append.1 hd).elim (iha h.1 d) (ihb h.2 d)
  | mul a b iha ihb => exact fun d hd => (List.mem_append.1 hd).elim (iha h.1 d) (ihb h.2 d)
  | pow a q ih => exact ih h
  | deriv a vars ih =>
    intro d hd
    rcases List.mem_cons.1 hd with rfl | hd
    · exact ⟨h, a, vars, rfl⟩
    · exact ih h.1 d hd
  | integ a x ih => exact ih h.1
  | ex a ih =>
    rcases h.2 with h' | ⟨u, args, rfl, hm⟩
    · exact ih h'
    · intro d hd; simp [derivAtoms] at hd
  | _ => intro d hd; simp [derivAtoms] at hd

theorem only_exAtoms (e : Ex) (h : Only M Q e) : ∀ d ∈ exAtoms e, Only M Q d ∧ ∃ a, d = .ex a := by
  induction e with
  | func g a ih => exact ih h
  | add a b iha ihb => exact fun d hd => (List.mem_append.1 hd).elim (iha h.1 d) (ihb h.2 d)
  | mul a b iha ihb => exact fun d hd => (List.mem_append.1 hd).elim (iha h.1 d) (ihb h.2 d)
  | pow a q ih => exact ih h
  | deriv a vars ih => exact ih h.1
  | integ a x ih => exact ih h.1
  | ex a ih =>
    intro d hd
    rcases List.mem_cons.1 hd with rfl | hd
    · exact ⟨h, a, rfl⟩
    · rcases h.2 with h' | ⟨u, args, rfl, hm⟩
      · exact ih h' d hd
      · simp [exAtoms] at hd
  | _ => intro d hd; simp [exAtoms] at hd

theorem size_fnAtoms (e : Ex) : ∀ g ∈ fnAtoms e, size g ≤ size e := by
  induction e with
  | fn u args => intro g hg; rw [fnAtoms, List.mem_singleton] at hg; rw [hg]
  | func g a ih =>
    intro g hg
    rcases List.mem_cons.1 hg with rfl | hg
    · exact le_rfl
    · exact (ih g hg).trans (Nat.le_succ _)
  | add a b iha ihb =>
    intro g hg
    rcases List.mem_append.1 hg with hg | hg
    · have := iha g hg; simp only [size]; omega
    · have := ihb g hg; simp only [size]; omega
  | mul a b iha ihb =>
    intro g hg
    rcases List.mem_append.1 hg with hg | hg
    · have := iha g hg; simp only [size]; omega
    · have := ihb g hg; simp only [size]; omega
  | pow a q ih => exact fun g hg => (ih g hg).trans (Nat.le_succ _)
  | deriv a vars ih => exact fun g hg => (ih g hg).trans (Nat.le_succ _)
  | integ a x ih => exact fun g hg => (ih g hg).trans (Nat.le_succ _)
  | ex a ih =>
    intro g hg
    rcases List.mem_cons.1 hg with rfl | hg
    · exact le_rfl
    · exact (ih g hg).trans (Nat.le_succ _)
  | _ => intro g hg; simp [fnAtoms] at hg

/-- A function of the expression is deterministic, an expectation with its functions, or a random function with the property or in
an expectation. -/
theorem only_fnAtoms (e : Ex) (h : Only M Q e) : ∀ g ∈ fnAtoms e,
    (∃ u args, g = .fn u args ∧ (omega ∈ args → Q g ∨ .ex g ∈ fnAtoms e)) ∨
    (∃ s a, g = .func s a ∧ Only M Q a ∧ ∀ b ∈ fnAtoms a, b ∈ fnAtoms e) ∨
    (∃ a, g = .ex a ∧ hasOmega a = true ∧ (Only M Q a ∨ ∃ u args, a = .fn u args ∧ M a) ∧ ∀ b ∈ fnAtoms a, b ∈ fnAtoms e) := by
  have lift : ∀ {a e : Ex}, (∀ b ∈ fnAtoms a, b ∈ fnAtoms e) → ∀ g,
      ((∃ u args, g = .fn u args ∧ (omega ∈ args → Q g ∨ .ex g ∈ fnAtoms a)) ∨
      (∃ s c, g = .func s c ∧ Only M Q c ∧ ∀ b ∈ fnAtoms c, b ∈ fnAtoms a) ∨
      (∃ c, g = .ex c ∧ hasOmega c = true ∧ (Only M Q c ∨ ∃ u args, c = .fn u args ∧ M c) ∧ ∀ b ∈ fnAtoms c, b ∈ fnAtoms a)) →
      ((∃ u args, g = .fn u args ∧ (omega ∈ args → Q g ∨ .ex g ∈ fnAtoms e)) ∨
      (∃ s c, g = .func s c ∧ Only M Q c ∧ ∀ b ∈ fnAtoms c, b ∈ fnAtoms e) ∨
      (∃ c, g = .ex c ∧ hasOmega c = true ∧ (Only M Q c ∨ ∃ u args, c = .fn u args ∧ M c) ∧ ∀ b ∈ fnAtoms c, b ∈ fnAtoms e)) := by
    rintro a e hs g (⟨u, args, e1, h1⟩ | ⟨s, c, e1, h1, h2⟩ | ⟨c, e1, h0, h1, h2⟩)
    · exact .inl ⟨u, args, e1, fun ho => (h1 ho).imp id (hs _)⟩
    · exact .inr (.inl ⟨s, c, e1, h1, fun b hb => hs b (h2 b hb)⟩)
    · exact .inr (.inr ⟨c, e1, h0, h1, fun b hb => hs b (h2 b hb)⟩)
  induction e with
  | fn u args =>
    intro g hg
    rw [fnAtoms, List.mem_singleton] at hg
    subst hg
    exact .inl ⟨u, args, rfl, fun ho => .inl (h ho)⟩
  | func s a ih =>
    intro g hg
    rcases List.mem_cons.1 hg with rfl | hg
    · exact .inr (.inl ⟨s, a, rfl, h, fun b hb => by simp [fnAtoms, hb]⟩)
    · exact lift (fun b hb => by simp [fnAtoms, hb]) g (ih h g hg)
  | add a b iha ihb =>
    intro g hg
    rcases List.mem_append.1 hg with hg | hg
    · exact lift (fun b hb => by simp [fnAtoms, hb]) g (iha h.1 g hg)
    · exact lift (fun b hb => by simp [fnAtoms, hb]) g (ihb h.2 g hg)
  | mul a b iha ihb =>
    intro g hg
    rcases List.mem_append.1 hg with hg | hg
    · exact lift (fun b hb => by simp [fnAtoms, hb]) g (iha h.1 g hg)
    · exact lift (fun b hb => by simp [fnAtoms, hb]) g (ihb h.2 g hg)
  | pow a q ih => exact fun g hg => lift (fun b hb => hb) g (ih h g hg)
  | deriv a vars ih => exact fun g hg => lift (fun b hb => hb) g (ih h.1 g hg)
  | integ a x ih => exact fun g hg => lift (fun b hb => hb) g (ih h.1 g hg)
  | ex a ih =>
    intro g hg
    rcases List.mem_cons.1 hg with rfl | hg
    · exact .inr (.inr ⟨a, rfl, h.1, h.2, fun b hb => by simp [fnAtoms, hb]⟩)
    · rcases h.2 with h' | ⟨u, args, rfl, hm⟩
      · exact lift (fun b hb => by simp [fnAtoms, hb]) g (ih h' g hg)
      · rw [fnAtoms, List.mem_singleton] at hg
        subst hg
        exact .inl ⟨u, args, rfl, fun _ => .inr (by simp [fnAtoms])⟩
  | _ => intro g hg; simp [fnAtoms] at hg

/-- The function of a univariate term has the property. -/
theorem only_univariate (a : Ex) (h : Only M Q (.ex a)) (f : Ex) (n : ℕ) (hu : isUnivariate (.ex a) = some (f, n)) : Q f := by
  -- the only function of the derivatives is `f`
  have key : ∃ ds : List Ex, (∀ d ∈ ds, Only M Q d) ∧ (∀ d ∈ ds, ∀ g ∈ fnAtoms d, g = f) ∧ (∃ d ∈ ds, f ∈ fnAtoms d) ∧
      (∃ d ∈ ds, .ex a = eval (.ex (.mul f d)) ∨ ∃ d' ∈ ds, .ex a = eval (.ex (.mul d d'))) := by
    unfold isUnivariate at hu
    simp only [] at hu
    split at hu
    · rename_i f' hf'
      have hmem : ∀ d ∈ (derivAtoms (.ex a)).dedup, ∀ g ∈ fnAtoms d, g = f' := by
        intro d hd g hg
        have : g ∈ (((derivAtoms (.ex a)).dedup).flatMap fnAtoms).dedup :=
          List.mem_dedup.2 (List.mem_flatMap.2 ⟨d, hd, hg⟩)
        rw [hf'] at this
        exact List.mem_singleton.1 this
      have hex : ∃ d ∈ (derivAtoms (.ex a)).dedup, f' ∈ fnAtoms d := by
        have : f' ∈ (((derivAtoms (.ex a)).dedup).flatMap fnAtoms).dedup := by rw [hf']; simp
        exact List.mem_flatMap.1 (List.mem_dedup.1 this)
      have honly : ∀ d ∈ (derivAtoms (.ex a)).dedup, Only M Q d := fun d hd => (only_derivAtoms _ h d (List.mem_dedup.1 hd)).1
      split at hu
      · rename_i d hd
        rw [hd] at hmem hex honly
        split at hu
        · rename_i ht
          cases hu
          exact ⟨[d], honly, hmem, hex, d, by simp, .inl ht⟩
        · split at hu
          · rename_i ht
            cases hu
            exact ⟨[d], honly, hmem, hex, d, by simp, .inr ⟨d, by simp, ht⟩⟩
          · cases hu
      · rename_i d d' hd
        rw [hd] at hmem hex honly
        split at hu
        · rename_i ht
          cases hu
          exact ⟨[d, d'], honly, hmem, hex, d, by simp, .inr ⟨d', by simp, ht⟩⟩
        · cases hu
      · cases hu
    · cases hu
  obtain ⟨ds, honly, hall, ⟨d0, hd0, hf0⟩, d1, hd1, ht⟩ := key
  -- `f` is random
  have hfo : hasOmega f = true := by
    cases hfo : hasOmega f with
    | true => rfl
    | false =>
      exfalso
      have hdet : ∀ d ∈ ds, hasOmega d = false := fun d hd => det_of_fnAtoms d (honly d hd) (fun g hg => by rw [hall d hd g hg]; exact hfo)
      have hto : hasOmega (.ex a) = true := h.1
      rcases ht with ht | ⟨d', hd', ht⟩
      · rw [ht, det_eval] at hto
        · cases hto
        · show hasOmega (.mul f d1) = false
          rw [hasOmega, hfo, hdet d1 hd1]; rfl
      · rw [ht, det_eval] at hto
        · cases hto
        · show hasOmega (.mul d1 d') = false
          rw [hasOmega, hdet d1 hd1, hdet d' hd']; rfl
  rcases only_fnAtoms d0 (honly d0 hd0) f hf0 with ⟨u, args, rfl, hq⟩ | ⟨s, b, rfl, hb, hs⟩ | ⟨b, rfl, hb, hb', hs⟩
  · rcases hq (by simpa [hasOmega] using hfo) with hq | hq
    · exact hq
    · cases hall d0 hd0 _ hq
  · exfalso
    have hb0 : fnAtoms b = [] := by
      rw [List.eq_nil_iff_forall_not_mem]
      intro g hg
      have h1 := size_fnAtoms b g hg
      rw [hall d0 hd0 g (hs g hg)] at h1
      simp only [size] at h1
      omega
    have : hasOmega b = false := det_of_fnAtoms b hb (fun g hg => by rw [hb0] at hg; cases hg)
    rw [hasOmega, this] at hfo
    cases hfo
  · exfalso
    have hb0 : fnAtoms b = [] := by
      rw [List.eq_nil_iff_forall_not_mem]
      intro g hg
      have h1 := size_fnAtoms b g hg
      rw [hall d0 hd0 g (hs g hg)] at h1
      simp only [size] at h1
      omega
    rcases hb' with hb' | ⟨u, args, rfl, _⟩
    · have : hasOmega b = false := det_of_fnAtoms b hb' (fun g hg => by rw [hb0] at hg; cases hg)
      rw [this] at hb
      cases hb
    · simp [fnAtoms] at hb0

theorem only_univariates (e : Ex) (h : Only M Q e) : ∀ u ∈ univariates e, Q u.1 := by
  rintro ⟨f, n⟩ hu
  obtain ⟨t, ht, hu⟩ := List.mem_filterMap.1 hu
  obtain ⟨h1, a, rfl⟩ := only_exAtoms e h t ht
  exact only_univariate a h1 f n hu

end Sympkf.PKF

/-! ## The systems -/

namespace Sympkf.Spec

open Text Rand PKF Pkf

theorem Deterministic.only {M Q : Ex → Prop} {e : Ex} (h : Deterministic e) : Only M Q e := by
  induction e with
  | num => trivial
  | sym => exact h
  | fn u args => exact fun ho => absurd ho h
  | func g a ih => exact ih h
  | add a b iha ihb => exact ⟨iha h.1, ihb h.2⟩
  | mul a b iha ihb => exact ⟨iha h.1, ihb h.2⟩
  | pow a q ih => exact ih h
  | deriv a vars ih => exact ⟨ih h.1, h.2⟩
  | integ a x ih => exact ⟨ih h.1, h.2⟩
  | ex a ih => exact h.elim
  | other b => exact h.elim

namespace DetSystem

variable {K : Pkf} {coords : List Str} (h : DetSystem K coords)
include h

/-- The errors of the fields. -/
def IsError (K : Pkf) (a : Ex) : Prop := ∃ f ∈ K.fields, a = f.error

/-- The normalised errors of the fields. -/
def IsEps (K : Pkf) (a : Ex) : Prop := ∃ f ∈ K.fields, a = f.epsilon

/-- The random fields. -/
def IsMean (K : Pkf) (a : Ex) : Prop := ∃ f ∈ K.fields, a = f.random

/-- The normalised errors and the errors. -/
def IsAny (K : Pkf) (a : Ex) : Prop := IsEps K a ∨ IsError K a

theorem omega_field (f : Field) (hf : f ∈ K.fields) : Rand.omega ∉ f.coordinates := by rw [h.same f hf]; exact h.noise

theorem omega_spatial (f : Field) (hf : f ∈ K.fields) : Rand.omega ∉ f.spatial :=
  fun ho => h.omega_field f hf (List.mem_filter.1 ho).1

theorem det (f : Field) (hf : f ∈ K.fields) (u : Str) (Q : Ex → Prop) : Only (IsMean K) Q (.fn u f.coordinates) :=
  fun ho => absurd ho (h.omega_field f hf)

omit h in
theorem only_error (f : Field) (hf : f ∈ K.fields) : Only (IsMean K) (IsAny K) f.error := fun _ => .inr ⟨f, hf, rfl⟩

omit h in
theorem only_eps (f : Field) (hf : f ∈ K.fields) : Only (IsMean K) (IsEps K) f.epsilon := fun _ => ⟨f, hf, rfl⟩

omit h in
theorem up {e : Ex} (he : Only (IsMean K) (IsEps K) e) : Only (IsMean K) (IsAny K) e := he.mono (fun _ h => .inl h)

omit h in
theorem time_ne : time ≠ Rand.omega := by decide

omit h in
theorem only_dt {Q : Ex → Prop} {e : Ex} (he : Only (IsMean K) Q e) : Only (IsMean K) Q (dt e) := ⟨he, by simpa using time_ne⟩

theorem only_subs {Q : Ex → Prop} (d : Dict Ex Ex) (hd : ∀ kv ∈ d, Only (IsMean K) Q kv.2) (e : Ex) (he : Only (IsMean K) Q e) : Only (IsMean K) Q (K.subs d e) :=
  only_substAll _ (fun kv hkv => hd kv ((h.arrange d).mem_iff.1 hkv)) e he

/-- After the substitution of the errors only normalised errors are left. -/
theorem only_subsError (e : Ex) (he : Only (IsMean K) (IsAny K) e) : Only (IsMean K) (IsEps K) (K.subs K.subsError e) := by
  have key : ∀ kv ∈ K.subsError, ∃ f ∈ K.fields, kv = (f.error, .mul (.pow f.variance (1 / 2)) f.epsilon) := by
    intro kv hkv
    rcases Dict.mem_update _ _ _ hkv with hkv | hkv
    · cases hkv
    · obtain ⟨f, hf, rfl⟩ := List.mem_map.1 hkv
      exact ⟨f, hf, rfl⟩
  refine only_substAll_fn _ (fun kv hkv => ?_) (fun kv hkv => ?_) e (he.mono ?_)
  · obtain ⟨f, -, rfl⟩ := key kv ((h.arrange _).mem_iff.1 hkv)
    exact ⟨_, _, rfl⟩
  · obtain ⟨f, hf, rfl⟩ := key kv ((h.arrange _).mem_iff.1 hkv)
    exact ⟨h.det f hf _ _, only_eps f hf⟩
  · rintro a (ha | ⟨f, hf, rfl⟩)
    · exact .inl ha
    · right
      have hk : f.error ∈ Dict.keys K.subsError := by
        unfold Pkf.subsError
        rw [Dict.keys_update_iff]
        right
        exact List.mem_map.2 ⟨_, List.mem_map.2 ⟨f, hf, rfl⟩, rfl⟩
      obtain ⟨kv, hkv, e⟩ := List.mem_map.1 hk
      exact ⟨kv, (h.arrange _).mem_iff.2 hkv, e⟩

/-! ### Reynolds, mean, errors -/

omit h in
theorem only_filter {Q : Ex → Prop} (p : Poly) (c : Mono × ℚ → Bool) (hp : OnlyP (IsMean K) Q p) : OnlyP (IsMean K) Q (p.filter c) :=
  fun t ht => hp t (List.mem_of_mem_filter ht)

omit h in
theorem only_epsOne {Q : Ex → Prop} (p : Poly) (hp : OnlyP (IsMean K) Q p) : Only (IsMean K) Q (epsOne p) :=
  only_toEx _ (only_subst _ _ (allF_pconst 1) _ (only_toEx _ hp) (fun _ _ _ h _ => h))

theorem only_reynolds (e : Ex) (he : Deterministic e) : Only (IsMean K) (IsAny K) (K.subs K.subsReynolds e) := by
  refine h.only_subs _ (fun kv hkv => ?_) _ he.only
  rcases Dict.mem_update _ _ _ hkv with hkv | hkv
  · cases hkv
  · obtain ⟨f, hf, rfl⟩ := List.mem_map.1 hkv
    exact ⟨⟨by simp [hasOmega, Field.random], .inr ⟨_, _, rfl, f, hf, rfl⟩⟩, (by decide : epsSym ≠ Rand.omega), only_error f hf⟩

/-- Every expression of the first order Reynolds system. -/
theorem firstOrder_only (l : List Eqn) (hl : K.firstOrder = .ok l) : ∀ q ∈ l, Only (IsMean K) (IsAny K) q.1 ∧ Only (IsMean K) (IsAny K) q.2 := by
  unfold firstOrder reynolds at hl
  simp only [bind, Except.bind, pure, Except.pure] at hl
  split at hl
  · cases hl
  rename_i r hr
  cases hl
  intro q hq
  obtain ⟨r1, hr1, rfl⟩ := List.mem_map.1 hq
  obtain ⟨q0, hq0, hrey⟩ := forall₂_right (mapM_ok _ _ _ hr) r1 hr1
  unfold reynoldsEq at hrey
  obtain ⟨rhs, hrhs, hrey⟩ := bind_eq_ok hrey
  cases hrey
  have ht : OnlyP (IsMean K) (IsAny K) rhs := taylor_all only_hereditary (fun _ _ _ _ _ h => h) (by decide : epsSym ≠ Rand.omega) _ _
    (only_ofEx _ (h.only_reynolds _ (h.equations q0 hq0).2)) hrhs
  exact ⟨only_epsOne _ (only_filter _ _ (only_ofEx _ (h.only_reynolds _ (h.equations q0 hq0).1))),
    only_epsOne _ (only_filter _ _ ht)⟩

/-- Every right-hand side of the second order Reynolds system. -/
theorem second_only (r : List (Eqn × Eqn)) (hr : K.reynolds = .ok r) : ∀ q ∈ r, Only (IsMean K) (IsAny K) q.1.2 := by
  intro q hq
  obtain ⟨q0, hq0, hrey⟩ := forall₂_right (mapM_ok _ _ _ hr) q hq
  unfold reynoldsEq at hrey
  obtain ⟨rhs, hrhs, hrey⟩ := bind_eq_ok hrey
  cases hrey
  exact only_epsOne _ (taylor_all only_hereditary (fun _ _ _ _ _ h => h) (by decide : epsSym ≠ Rand.omega) _ _
    (only_ofEx _ (h.only_reynolds _ (h.equations q0 hq0).2)) hrhs)

theorem spatial (f : Field) (hf : f ∈ K.fields) : f.spatial = coords.filter (· ≠ time) := by
  unfold Field.spatial; rw [h.same f hf]

/-- The values of the internal closure are deterministic. -/
theorem closure_only (c : Dict Ex Ex) (hc : K.closure = .ok c) (Q : Ex → Prop) : ∀ kv ∈ c, Only (IsMean K) Q kv.2 := by
  unfold Pkf.closure internalClosure at hc
  simp only [bind, Except.bind] at hc
  split at hc
  · cases hc
  rename_i c1 hc1
  have r1 : ∀ kv ∈ c1, Only (IsMean K) Q kv.2 := by
    refine foldlM_ok _ (fun c : Dict Ex Ex => ∀ kv ∈ c, Only (IsMean K) Q kv.2) _ _ _ hc1 (by simp) ?_
    intro s f s' hf hs hstep
    split at hstep
    · cases hstep
    rename_i cf hcf
    cases hstep
    intro kv hkv
    rcases Dict.mem_update _ _ _ hkv with hkv | hkv
    · exact hs kv hkv
    · have e := h.spatial f hf
      obtain ⟨c', h1, -, h3⟩ := internalClosure_spec K.order h.order f (e ▸ h.space) (e ▸ h.nodup.filter _)
      rw [h1] at hcf
      cases hcf
      have ne : ∀ x ∈ f.spatial, x ≠ Rand.omega := fun x hx e => h.omega_spatial f hf (e ▸ hx)
      rcases h3 kv hkv with rfl | rfl | rfl | rfl | ⟨x, hx, rfl⟩ | ⟨i, j, hij, hj, rfl⟩ | ⟨k, i, j, hk, hi, hj, rfl⟩
      · trivial
      · exact h.det f hf _ _
      · trivial
      · trivial
      · trivial
      · exact ⟨trivial, h.det f hf _ _⟩
      · exact ⟨trivial, ⟨⟨h.det f hf _ _, by simpa using ne i hi⟩, h.det f hf _ _, by simpa using ne j hj⟩, h.det f hf _ _,
          by simpa using ne k hk⟩
  refine foldlM_ok _ (fun c : Dict Ex Ex => ∀ kv ∈ c, Only (IsMean K) Q kv.2) _ _ _ hc r1 ?_
  intro s p s' hp hs hstep
  have hm := ((PKF.C41_couples K.fields).1 p.1 p.2).1 hp
  have m1 : p.1 ∈ K.fields := hm.subset (by simp)
  have m2 : p.2 ∈ K.fields := hm.subset (by simp)
  unfold coupleEntries at hstep
  simp only [bind, Except.bind] at hstep
  split at hstep
  · cases hstep
  rename_i v hv
  have hvo : Only (IsMean K) Q v := by
    unfold covariance at hv
    split at hv
    · split at hv
      · cases hv
        exact h.det _ m1 _ _
      · cases hv
    · cases hv
  cases hstep
  intro kv hkv
  rcases Dict.mem_set _ _ _ _ hkv with rfl | hkv
  · exact ⟨hvo, h.det _ m1 _ _, h.det _ m2 _ _⟩
  · rcases Dict.mem_set _ _ _ _ hkv with rfl | hkv
    · exact hvo
    · exact hs kv hkv

/-- The internal closure is computed, and every product of errors of a couple is closed. -/
theorem closure_ok : ∃ c, K.closure = .ok c ∧ ∀ p ∈ couples K.fields, .ex (.mul p.1.error p.2.error) ∈ Dict.keys c := by
  have hcouple : ∀ p ∈ couples K.fields, p.1 ∈ K.fields ∧ p.2 ∈ K.fields := fun p hp => by
    have hm := ((PKF.C41_couples K.fields).1 p.1 p.2).1 hp
    exact ⟨hm.subset (by simp), hm.subset (by simp)⟩
  have step1 : ∀ (l : List Field) (c : Dict Ex Ex), (∀ f ∈ l, f ∈ K.fields) →
      ∃ c', l.foldlM (fun (c : Dict Ex Ex) f => do return c.update (← f.internalClosure K.order)) c = .ok c' := by
    intro l
    induction l with
    | nil => intro c _; exact ⟨c, rfl⟩
    | cons f l ih =>
      intro c hl
      have e := h.spatial f (hl f (by simp))
      obtain ⟨cf, h1, -⟩ := internalClosure_spec K.order h.order f (e ▸ h.space) (e ▸ h.nodup.filter _)
      obtain ⟨c', h4⟩ := ih (c.update cf) (fun g hg => hl g (List.mem_cons_of_mem _ hg))
      refine ⟨c', ?_⟩
      rw [List.foldlM_cons]
      simp only [h1, bind, Except.bind, pure, Except.pure] at h4 ⊢
      exact h4
  have step2 : ∀ (l : List (Field × Field)) (c : Dict Ex Ex), (∀ p ∈ l, p.1 ∈ K.fields ∧ p.2 ∈ K.fields) →
      ∃ c', l.foldlM (coupleEntries label K.fields) c = .ok c' ∧ (∀ k ∈ Dict.keys c, k ∈ Dict.keys c') ∧
        ∀ p ∈ l, .ex (.mul p.1.error p.2.error) ∈ Dict.keys c' := by
    intro l
    induction l with
    | nil => intro c _; exact ⟨c, rfl, fun _ h => h, fun _ h => by cases h⟩
    | cons p l ih =>
      intro c hl
      have hp := hl p (by simp)
      have hv : covariance label K.fields p.1 p.2 = .ok (.fn (label ++ p.1.name ++ p.2.name) p.1.coordinates) := by
        unfold covariance
        rw [if_pos hp, if_pos (by rw [h.same _ hp.1, h.same _ hp.2])]
      obtain ⟨c', h1, h2, h3⟩ := ih _ (fun q hq => hl q (List.mem_cons_of_mem _ hq))
      refine ⟨c', ?_, fun k hk => h2 k ?_, fun q hq => ?_⟩
      · rw [List.foldlM_cons]
        unfold coupleEntries
        simp only [hv, bind, Except.bind, pure, Except.pure]
        exact h1
      · rw [Tree.mem_keys_set_iff, Tree.mem_keys_set_iff]
        exact .inl (.inl hk)
      · rcases List.mem_cons.1 hq with rfl | hq
        · refine h2 _ ?_
          rw [Tree.mem_keys_set_iff, Tree.mem_keys_set_iff]
          exact .inl (.inr rfl)
        · exact h3 q hq
  obtain ⟨c1, h1⟩ := step1 K.fields [] (fun _ h => h)
  obtain ⟨c2, h2, -, h3⟩ := step2 (couples K.fields) c1 hcouple
  refine ⟨c2, ?_, h3⟩
  unfold Pkf.closure internalClosure
  simp only [bind, Except.bind] at h1 ⊢
  rw [h1]
  exact h2

/-- The tangent-linear mean and the errors. -/
theorem error_only (es : List Eqn) (hes : K.errorSystem = .ok es) : ∀ q ∈ es, Only (IsMean K) (IsAny K) q.2 := by
  unfold errorSystem tlExpectation at hes
  obtain ⟨c, hc, -⟩ := h.closure_ok
  simp only [hc, bind, Except.bind, pure, Except.pure] at hes
  split at hes
  · cases hes
  rename_i first hf
  simp only at hes
  cases hes
  intro q hq
  obtain ⟨⟨q1, q2⟩, hz, rfl⟩ := List.mem_map.1 hq
  have m := List.of_mem_zip hz
  obtain ⟨q3, hq3, rfl⟩ := List.mem_map.1 m.2
  have e1 := (h.firstOrder_only first hf q1 m.1).2
  have e2 := (h.firstOrder_only first hf q3 hq3).2
  exact only_eval (.add q1.2 (.mul (.num (-1)) _)) ⟨e1, trivial, h.only_subs c (h.closure_only c hc _) _ (only_eval_ex _ e2)⟩

theorem error_ok (r : List (Eqn × Eqn)) (hr : K.reynolds = .ok r) : ∃ es, K.errorSystem = .ok es := by
  obtain ⟨c, hc, -⟩ := h.closure_ok
  unfold errorSystem tlExpectation firstOrder
  simp only [hr, hc, bind, Except.bind, pure, Except.pure]
  exact ⟨_, rfl⟩

theorem expectation_ok (r : List (Eqn × Eqn)) (hr : K.reynolds = .ok r) : ∃ es, K.expectationSystem = .ok es := by
  obtain ⟨c, hc, -⟩ := h.closure_ok
  unfold expectationSystem secondOrder
  simp only [hr, hc, bind, Except.bind, pure, Except.pure]
  exact ⟨_, rfl⟩

/-! ### Second moments -/

theorem only_tree (f : Field) (hf : f ∈ K.fields) (v : Tree.TEx) (hv : Tree.Along f.spatial v) :
    Only (IsMean K) (IsEps K) (ofTree f.spatial f.epsilon v) := by
  have ne : ∀ x ∈ f.spatial, x ≠ Rand.omega := fun x hx e => h.omega_spatial f hf (e ▸ hx)
  have da : ∀ a, Only (IsMean K) (IsEps K) (dalpha f.spatial f.epsilon a) :=
    fun a => ⟨only_eps f hf, fun v hv => ne _ (List.of_mem_zip hv).1⟩
  induction v with
  | term t => exact ⟨by simp [hasOmega, dalpha, Field.epsilon], .inl ⟨da _, da _⟩⟩
  | d x e ih => exact ⟨ih hv.2, by simpa using ne x hv.1⟩
  | sub e g ihe ihg => exact ⟨ihe hv.1, trivial, ihg hv.2⟩
  | half e ih => exact ⟨trivial, ih hv⟩

theorem closedTree_ok (c : Dict Ex Ex) (hc : K.closure = .ok c) (f : Field) (hf : f ∈ K.fields) (d : ℕ) :
    ∃ t, K.closedTree c f d = .ok t ∧ ∀ kv ∈ t, Only (IsMean K) (IsEps K) kv.2 := by
  have e := h.spatial f hf
  have h0 : f.spatial ≠ [] := e ▸ h.space
  have hn : f.spatial.Nodup := e ▸ h.nodup.filter _
  have hreach : Tree.Reachable K.order f.spatial true Tree.State.init := ⟨[], rfl⟩
  obtain ⟨tree, s', h1, h2⟩ := Tree.C38_tree_complete K.order h.order f.spatial h0 hn (h.omega_spatial f hf) true _ hreach d
  have hal := Tree.call_along K.order f.spatial true (some d) Tree.State.init s' tree h1 ⟨by simp [Tree.State.init], by simp [Tree.State.init]⟩
  unfold Pkf.closedTree
  simp only [h1, bind, Except.bind, pure, Except.pure]
  refine ⟨_, rfl, fun kv hkv => ?_⟩
  obtain ⟨tv, htv, rfl⟩ := List.mem_map.1 (Setting.mem_trends _ _ hkv)
  exact h.only_subs c (h.closure_only c hc _) _ (h.only_tree f hf _ (hal _ htv))

theorem applyInternal_ok (c : Dict Ex Ex) (hc : K.closure = .ok c) (rhs : Ex) (hr : Only (IsMean K) (IsEps K) rhs) :
    ∃ r, K.applyInternal c rhs = .ok r ∧ Only (IsMean K) (IsEps K) r := by
  have hun := only_univariates rhs hr
  have hfield : ∀ eps, IsEps K eps → ∃ f, K.fieldOf eps = some f := by
    rintro eps ⟨f, hf, rfl⟩
    refine Option.isSome_iff_exists.1 ?_
    unfold Pkf.fieldOf
    rw [List.find?_isSome]
    exact ⟨f, by simpa using hf, by simp⟩
  have key : ∀ (unis : List (Ex × ℕ)) (l : List Ex), (∀ eps ∈ l, IsEps K eps) → ∀ e, Only (IsMean K) (IsEps K) e →
      ∃ r, l.foldlM (K.applyTree c unis) e = .ok r ∧ Only (IsMean K) (IsEps K) r := by
    intro unis l
    induction l with
    | nil => intro _ e he; exact ⟨e, rfl, he⟩
    | cons eps l ih =>
      intro hl e he
      obtain ⟨f, hf⟩ := hfield eps (hl eps (by simp))
      obtain ⟨t, ht, hv⟩ := h.closedTree_ok c hc f (Setting.fieldOf_mem eps f hf).1
        (((unis.filter (fun u => u.1 = eps)).map Prod.snd).foldr max 0)
      obtain ⟨r, h1, h2⟩ := ih (fun eps' h' => hl eps' (by simp [h'])) _ (h.only_subs t hv e he)
      refine ⟨r, ?_, h2⟩
      rw [List.foldlM_cons]
      unfold applyTree
      rw [hf]
      simp only [ht, bind, Except.bind, pure, Except.pure]
      exact h1
  have hany : ((univariates rhs).any (fun u => (K.fieldOf u.1).isNone)) = false := by
    rw [List.any_eq_false]
    intro u hu
    obtain ⟨f, hf⟩ := hfield u.1 (hun u hu)
    simp [hf]
  obtain ⟨r, h1, h2⟩ := key (univariates rhs) ((univariates rhs).map Prod.fst).dedup (fun eps he => by
    obtain ⟨u, hu, rfl⟩ := List.mem_map.1 (List.mem_dedup.1 he)
    exact hun u hu) rhs hr
  unfold applyInternal
  simp only [hany, Bool.false_eq_true, if_false, h1, bind, Except.bind, pure, Except.pure]
  exact ⟨_, rfl, h.only_subs c (h.closure_only c hc _) _ h2⟩

omit h in
theorem mapM_all {α β : Type} (g : α → Except PyErr β) (l : List α) (I : β → Prop) (hg : ∀ a ∈ l, ∃ b, g a = .ok b ∧ I b) :
    ∃ l', l.mapM g = .ok l' ∧ ∀ b ∈ l', I b := by
  induction l with
  | nil => exact ⟨[], rfl, by simp⟩
  | cons a l ih =>
    obtain ⟨b, hb, hI⟩ := hg a (by simp)
    obtain ⟨l', hl, hI'⟩ := ih (fun a ha => hg a (by simp [ha]))
    refine ⟨b :: l', ?_, ?_⟩
    · rw [List.mapM_cons]
      simp only [hb, hl, bind, Except.bind, pure, Except.pure]
    · intro c hc
      rcases List.mem_cons.1 hc with rfl | hc
      · exact hI
      · exact hI' c hc

variable (r : List (Eqn × Eqn)) (hr : K.reynolds = .ok r)
include hr

theorem variance_ok : ∃ vs, K.varianceSystem = .ok vs ∧ ∀ q ∈ vs, Only (IsMean K) (IsEps K) q.2 := by
  obtain ⟨es, hes⟩ := h.error_ok r hr
  obtain ⟨c, hc, -⟩ := h.closure_ok
  have he : ∀ kv ∈ trends es, Only (IsMean K) (IsAny K) kv.2 := fun kv hkv => h.error_only es hes kv (Setting.mem_trends _ _ hkv)
  unfold varianceSystem
  simp only [hes, hc, bind, Except.bind]
  refine mapM_all _ _ _ (fun f hf => ?_)
  have hreg : Only (IsMean K) (IsAny K) (.ex (dt (.pow f.error 2))) :=
    ⟨by simp [hasOmega, dt, Field.error], .inl (only_dt (only_error f hf))⟩
  obtain ⟨rhs, h1, h2⟩ := h.applyInternal_ok c hc _ (h.only_subsError _ (h.only_subs _ he _ hreg))
  unfold varianceEq
  simp only [h1, bind, Except.bind, pure, Except.pure]
  exact ⟨_, rfl, h2⟩

theorem epsilon_ok : ∃ vs, K.epsilonSystem = .ok vs ∧ ∀ q ∈ vs, Only (IsMean K) (IsEps K) q.2 := by
  obtain ⟨es, hes⟩ := h.error_ok r hr
  obtain ⟨vs, hvs, hv⟩ := h.variance_ok r hr
  have he : ∀ kv ∈ trends es, Only (IsMean K) (IsAny K) kv.2 := fun kv hkv => h.error_only es hes kv (Setting.mem_trends _ _ hkv)
  have hv' : ∀ kv ∈ trends vs, Only (IsMean K) (IsAny K) kv.2 := fun kv hkv => up (hv kv (Setting.mem_trends _ _ hkv))
  unfold epsilonSystem
  simp only [hes, hvs, bind, Except.bind, pure, Except.pure]
  refine ⟨_, rfl, fun q hq => ?_⟩
  obtain ⟨f, hf, rfl⟩ := List.mem_map.1 hq
  have hreg : Only (IsMean K) (IsAny K) (dt (.mul f.error (.pow f.variance (-1 / 2)))) := only_dt ⟨only_error f hf, h.det f hf _ _⟩
  exact h.only_subsError _ (h.only_subs _ hv' _ (h.only_subs _ he _ hreg))

theorem metric_ok : ∃ ms, K.metricSystem = .ok ms ∧ ∀ q ∈ ms, Only (IsMean K) (IsEps K) q.2 := by
  obtain ⟨es, hes, he0⟩ := h.epsilon_ok r hr
  obtain ⟨c, hc, -⟩ := h.closure_ok
  have he : ∀ kv ∈ trends es, Only (IsMean K) (IsEps K) kv.2 := fun kv hkv => he0 kv (Setting.mem_trends _ _ hkv)
  unfold metricSystem
  simp only [hes, hc, bind, Except.bind]
  refine mapM_all _ _ _ (fun p hp => ?_)
  obtain ⟨f, hf, hp⟩ := List.mem_flatMap.1 hp
  obtain ⟨⟨i, j⟩, hij, rfl⟩ := List.mem_map.1 hp
  obtain ⟨hij, hj⟩ := (Setting.mem_pairs _ _ _).1 hij
  have hx : ∀ k, k < f.spatial.length → f.spatial.getD k [] ≠ Rand.omega := fun k hk e => by
    rw [List.getD_eq_getElem?_getD, List.getElem?_eq_getElem hk, Option.getD_some] at e
    exact h.omega_spatial f hf (e ▸ List.getElem_mem hk)
  have hreg : Only (IsMean K) (IsEps K) (.ex (dt (.mul (.deriv f.epsilon [(f.spatial.getD i [], 1)]) (.deriv f.epsilon [(f.spatial.getD j [], 1)])))) :=
    ⟨by simp [hasOmega, dt, Field.epsilon], .inl (only_dt ⟨⟨only_eps f hf, by simpa using hx i (by omega)⟩, only_eps f hf, by simpa using hx j hj⟩)⟩
  obtain ⟨rhs, h1, h2⟩ := h.applyInternal_ok c hc _ (h.only_subs _ he _ hreg)
  unfold metricEq
  simp only [h1, bind, Except.bind, pure, Except.pure]
  exact ⟨_, rfl, only_eval _ h2⟩

theorem cross_ok : ∃ cs, K.crossSystem = .ok cs := by
  unfold crossSystem
  split
  · exact ⟨_, rfl⟩
  obtain ⟨es, hes⟩ := h.error_ok r hr
  obtain ⟨c, hc, hk⟩ := h.closure_ok
  have he : ∀ kv ∈ trends es, Only (IsMean K) (IsAny K) kv.2 := fun kv hkv => h.error_only es hes kv (Setting.mem_trends _ _ hkv)
  obtain ⟨cs, hcs, -⟩ := mapM_all (K.crossEq c (trends es)) (couples K.fields) (fun _ => True) (fun p hp => by
    have hm := ((PKF.C41_couples K.fields).1 p.1 p.2).1 hp
    have m1 : p.1 ∈ K.fields := hm.subset (by simp)
    have m2 : p.2 ∈ K.fields := hm.subset (by simp)
    have hreg : Only (IsMean K) (IsAny K) (.ex (dt (.mul p.1.error p.2.error))) :=
      ⟨by simp [hasOmega, dt, Field.error], .inl (only_dt ⟨only_error _ m1, only_error _ m2⟩)⟩
    obtain ⟨rhs, h1, -⟩ := h.applyInternal_ok c hc _ (h.only_subsError _ (h.only_subs _ he _ hreg))
    obtain ⟨v, hv⟩ := (Dict.mem_keys_iff _ _).1 (hk p hp)
    unfold crossEq Dict.getItem
    simp only [hv, h1, bind, Except.bind, pure, Except.pure]
    exact ⟨_, rfl, trivial⟩)
  simp only [hes, hc, hcs, bind, Except.bind, pure, Except.pure]
  exact ⟨_, rfl⟩

/-- The complete systems. -/
theorem systems_ok (user : Dict Ex Ex) : (∃ l, K.inMetric user = .ok l) ∧ (∃ l, K.inAspect user = .ok l) ∧
    (∃ l, K.inDiffusion user = .ok l) ∧ ∃ l, K.unclosedTerms user = .ok l := by
  obtain ⟨ms, hms⟩ := h.expectation_ok r hr
  obtain ⟨vs, hvs, -⟩ := h.variance_ok r hr
  obtain ⟨cs, hcs⟩ := h.cross_ok r hr
  obtain ⟨gs, hgs, -⟩ := h.metric_ok r hr
  refine ⟨?_, ?_, ?_, ?_⟩ <;>
    simp only [inMetric, inAspect, inDiffusion, unclosedTerms, hms, hvs, hcs, hgs, bind, Except.bind, pure, Except.pure] <;>
    exact ⟨_, rfl⟩

end DetSystem
/-! ## From the hypotheses of the properties -/

theorem Expandable.deterministic {R : Type} [CommRing R] [Algebra ℚ R] {S : Interp R} {P : Set R} {C : Set Str} {fields : List Field}
    (ho : omega ∉ C) {e : Ex} (h : Expandable S P C fields e) : Deterministic e := by
  induction e with
  | num => trivial
  | sym => exact h.2
  | fn u args => exact h.2
  | func g a ih => exact ih h.2
  | add a b iha ihb => exact ⟨iha h.1, ihb h.2⟩
  | mul a b iha ihb => exact ⟨iha h.1, ihb h.2⟩
  | pow a q ih => exact ih h.1
  | deriv a vars ih => exact ⟨ih h.1, fun v hv e => ho (e ▸ h.2 v hv)⟩
  | integ a x ih => exact ⟨ih h.2.1, h.2.2.2⟩
  | ex a ih => exact h.elim
  | other b => exact h.elim

/-- The systems of the properties C45-C53 are deterministic systems. -/
theorem Setting.detSystem {R : Type} [CommRing R] [Algebra ℚ R] {S : Interp R} {A : Subalgebra ℚ R} {P : Set R} {C : Set Str}
    {K : Pkf} {coords : List Str} (h : Setting S A P C K coords) (hd : Dynamics S P C K) : DetSystem K coords where
  order := h.order
  arrange := h.arrange
  same := h.same
  nodup := h.nodup
  noise := h.omega_notMem
  space := h.space
  equations := fun q hq => by
    have ho : omega ∉ C := h.calculus.omega_notMem
    refine ⟨?_, (hd.rhs q hq).deterministic ho⟩
    have : q.1 ∈ K.equations.map Prod.fst := List.mem_map_of_mem hq
    rw [hd.lhs] at this
    obtain ⟨f, hf, e⟩ := List.mem_map.1 this
    rw [← e]
    refine ⟨?_, fun v hv => ?_⟩
    · show omega ∉ f.coordinates
      rw [h.same f hf]
      exact h.omega_notMem
    · simp only [List.mem_singleton] at hv
      rw [hv]
      exact fun e => absurd e (by decide)

end Sympkf.Spec
