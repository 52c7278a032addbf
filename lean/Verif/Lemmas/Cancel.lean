import Verif.Lemmas.AffineForm
import Verif.Lemmas.Evolution

/-!
# Lemmas: the terms with fields are the same in the tangent-linear equation and in its expectation, so they cancel
-/

set_option autoImplicit false

namespace Sympkf.Spec

open Text Rand PKF Pkf

variable {F : List Field}

/-! ## Expectations of random functions only -/

theorem src_hereditary : Hereditary Src where
  num _ := trivial
  add _ _ h h' := ⟨h, h'⟩
  mul _ _ h h' := ⟨h, h'⟩
  func _ _ _ _ _ h := ⟨h, h⟩
  add_inv _ _ h := h
  mul_inv _ _ h := h
  pow _ _ := Iff.rfl

abbrev SrcP (p : Poly) : Prop := AllF (fun a _ => Src a) p

theorem src_mulOK : MulOK (fun a (_ : ℚ) => Src a) := fun _ _ _ h _ => h
theorem src_toEx (p : Poly) (hp : SrcP p) : Src (toEx p) := hereditary_toEx src_hereditary p hp
theorem src_diffOK (x : Str) : DiffOK (fun a (_ : ℚ) => Src a) x := src_hereditary.diffOK x (fun _ _ h => h) (fun _ _ h => h)
theorem src_pdiffs (vars : List (Str × ℕ)) (p : Poly) (hp : SrcP p) : SrcP (pdiffs vars p) :=
  allF_pdiffs src_mulOK vars (fun v _ => src_diffOK v.1) p hp

theorem src_ofEx (e : Ex) (h : Src e) : SrcP (ofEx e) := by
  induction e with
  | num q => exact allF_pconst q
  | sym s => exact allF_patom _ h
  | fn u args => exact allF_patom _ h
  | func g a ih => exact allF_patom _ (src_toEx _ (ih h))
  | add a b iha ihb => exact allF_padd _ _ (iha h.1) (ihb h.2)
  | mul a b iha ihb => exact allF_pmul src_mulOK _ _ (iha h.1) (ihb h.2)
  | pow a q ih => exact hereditary_ppow src_hereditary _ _ (ih h)
  | deriv a vars ih => exact src_pdiffs _ _ (ih h)
  | integ a x ih => exact allF_patom _ (src_toEx _ (ih h))
  | ex a ih =>
    obtain ⟨u, args, rfl, ho⟩ := h
    rw [ofEx_exFn u args ho]
    exact allF_patom _ ⟨u, args, rfl, ho⟩
  | other b => exact allF_patom _ h

theorem src_subst (old : Ex) (new : Poly) (hl : Leaf old) (ho : ∀ u args, old = .fn u args → omega ∉ args) (hn : SrcP new) (e : Ex) (h : Src e) :
    SrcP (subst old new e) := by
  have hd : ∀ b vs, old ≠ .deriv b vs := by rintro b vs rfl; exact hl
  induction e with
  | num q => unfold subst; split; exact hn; exact allF_pconst q
  | sym s => unfold subst; split; exact hn; exact allF_patom _ h
  | fn u args => unfold subst; split; exact hn; exact allF_patom _ h
  | func g a ih => unfold subst; split; exact hn; exact allF_patom _ (src_toEx _ (ih h))
  | add a b iha ihb => unfold subst; split; exact hn; exact allF_padd _ _ (iha h.1) (ihb h.2)
  | mul a b iha ihb => unfold subst; split; exact hn; exact allF_pmul src_mulOK _ _ (iha h.1) (ihb h.2)
  | pow a q ih => unfold subst; split; exact hn; exact hereditary_ppow src_hereditary _ _ (ih h)
  | deriv a vars ih =>
    unfold subst
    split
    · exact hn
    · dsimp only
      rw [derivRest_none old a vars hd]
      exact src_pdiffs _ _ (ih h)
  | integ a x ih => unfold subst; split; exact hn; exact allF_patom _ (src_toEx _ (ih h))
  | ex a ih =>
    obtain ⟨u, args, rfl, hw⟩ := h
    have e : subst old new (.ex (.fn u args)) = ofEx (.ex (.fn u args)) := by
      refine subst_inert _ _ hd _ ⟨?_, fun e => ho u args e.symm hw⟩
      rintro rfl
      exact hl
    rw [e, ofEx_exFn u args hw]
    exact allF_patom _ ⟨u, args, rfl, hw⟩
  | other b => unfold subst; split; exact hn; exact allF_patom _ h

theorem src_reynolds (l : List (Ex × Ex)) (hl : ∀ kv ∈ l, ∃ g : Field, omega ∉ g.coordinates ∧ kv = (g.value, .add (.ex g.random) (.mul (.sym epsSym) g.error)))
    (e : Ex) (h : Src e) : Src (substAll l e) := by
  unfold substAll
  have h0 : Src (eval e) := src_toEx _ (src_ofEx e h)
  generalize eval e = e0 at h0
  induction l generalizing e0 with
  | nil => exact h0
  | cons kv l ih =>
    obtain ⟨g, hg, rfl⟩ := hl kv (by simp)
    refine ih (fun kv h => hl kv (by simp [h])) _ (src_toEx _ ?_)
    rw [show eval g.value = g.value from eval_fn _ _]
    refine src_subst _ _ (by exact trivial) (fun u args e => ?_) (src_ofEx _ (by exact ⟨⟨_, _, rfl, by simp⟩, trivial, trivial⟩)) _ (src_toEx _ (src_ofEx e0 h0))
    simp only [Field.value, Ex.fn.injEq] at e
    rw [← e.2]
    exact hg

theorem src_taylor (p q : Poly) (hp : SrcP p) (h : taylor p = .ok q) : SrcP q :=
  taylor_all src_hereditary (fun _ _ _ _ _ h => h) trivial p q hp h

theorem src_epsOne (p : Poly) (hp : SrcP p) : Src (epsOne p) :=
  src_toEx _ (src_subst _ _ (by exact trivial) (fun _ _ h => by cases h) (allF_pconst 1) _ (src_toEx p hp))

theorem Deterministic.src {e : Ex} (h : Deterministic e) : Src e := by
  induction e with
  | num q => trivial
  | sym s => trivial
  | fn u args => trivial
  | func g a ih => exact ih h
  | add a b iha ihb => exact ⟨iha h.1, ihb h.2⟩
  | mul a b iha ihb => exact ⟨iha h.1, ihb h.2⟩
  | pow a q ih => exact ih h
  | deriv a vars ih => exact ih h.1
  | integ a x ih => exact ih h.1
  | ex a ih => exact h.elim
  | other b => exact h.elim

/-! ## Coefficients -/

/-- The coefficient of a monomial. -/
def coef (m : Mono) : Poly → ℚ
  | [] => 0
  | t :: p => (if t.1 = m then t.2 else 0) + coef m p

theorem coef_addTerm (m n : Mono) (c : ℚ) (p : Poly) : coef m (addTerm n c p) = (if n = m then c else 0) + coef m p := by
  induction p with
  | nil =>
    unfold addTerm
    split
    · rename_i h; subst h; simp [coef]
    · simp [coef]
  | cons t p ih =>
    obtain ⟨k, d⟩ := t
    unfold addTerm
    split
    · rename_i h
      subst h
      split
      · rename_i h0
        simp only [coef]
        split
        · linarith
        · simp
      · simp only [coef]
        split
        · ring
        · simp
    · split
      · rename_i h; subst h; simp
      · split
        · rfl
        · simp only [coef, ih]; ring

theorem coef_padd (m : Mono) (p q : Poly) : coef m (padd p q) = coef m p + coef m q := by
  induction p with
  | nil => simp [padd, coef]
  | cons t p ih =>
    show coef m (addTerm t.1 t.2 (padd p q)) = _
    rw [coef_addTerm, ih]
    simp only [coef]
    ring

theorem coef_zero (m : Mono) (p : Poly) (h : ∀ t ∈ p, t.1 ≠ m) : coef m p = 0 := by
  induction p with
  | nil => rfl
  | cons t p ih =>
    simp only [coef]
    rw [if_neg (h t (by simp)), ih (fun t ht => h t (by simp [ht]))]
    ring

theorem CanonP.coef {p : Poly} (h : CanonP p) (t : Mono × ℚ) (ht : t ∈ p) : coef t.1 p = t.2 := by
  induction p with
  | nil => cases ht
  | cons s p ih =>
    have hs := (List.pairwise_cons.1 h.1).1
    rcases List.mem_cons.1 ht with rfl | ht
    · simp only [Spec.coef]
      rw [coef_zero t.1 p, if_pos trivial, add_zero]
      intro r hr e
      have := hs r hr
      rw [e, ltNat_irrefl] at this
      cases this
    · simp only [Spec.coef]
      rw [if_neg, ih h.tail ht, zero_add]
      intro e
      have := hs t ht
      rw [e, ltNat_irrefl] at this
      cases this

theorem coef_neg (m : Mono) (p : Poly) : coef m (pmul (pconst (-1)) p) = - coef m p := by
  have e : pmul (pconst (-1)) p = padd (pmulTerm [] (-1) p) [] := by
    unfold pconst
    rw [if_neg (by norm_num)]
    rfl
  rw [e, coef_padd]
  simp only [coef, add_zero]
  induction p with
  | nil => simp [pmulTerm, coef]
  | cons t p ih =>
    show coef m (addTerm t.1 (-1 * t.2) (pmulTerm [] (-1) p)) = _
    rw [coef_addTerm, ih (by
      unfold pconst
      rw [if_neg (by norm_num)]
      rfl)]
    simp only [coef]
    split <;> ring

/-! ## Operations that keep the terms with fields -/

/-- No field, or one field in normal form. -/
def WM (F : List Field) (m : Mono) : Prop := AllM (fun a _ => FreeOf (fieldNames F) a) m ∨ (LinM F m ∧ NM m)

/-- The terms with fields are the same. -/
def Keep (F : List Field) (p r : Poly) : Prop :=
  AllMono (WM F) r ∧ ∀ m, ¬ AllM (fun a _ => FreeOf (fieldNames F) a) m → coef m r = coef m p

/-- An operation on terms that keeps those with fields. -/
def TermOK (F : List Field) (T : Mono × ℚ → Poly) : Prop :=
  (∀ t, AllM (fun a _ => FreeOf (fieldNames F) a) t.1 → FreeP (fieldNames F) (T t)) ∧ ∀ t, LinM F t.1 → NM t.1 → t.2 ≠ 0 → T t = [t]

theorem Keep.trans {p q r : Poly} (h : Keep F p q) (h' : Keep F q r) : Keep F p r := ⟨h'.1, fun m hm => (h'.2 m hm).trans (h.2 m hm)⟩

theorem keep_one {T : Mono × ℚ → Poly} (hT : TermOK F T) (t : Mono × ℚ) (ht : WM F t.1) (h0 : t.2 ≠ 0) : Keep F [t] (T t) := by
  rcases ht with h | ⟨h, hn⟩
  · refine ⟨fun s hs => .inl (hT.1 t h s hs), fun m hm => ?_⟩
    rw [coef_zero m (T t) (fun s hs e => hm (e ▸ hT.1 t h s hs)), coef_zero m [t] (fun s hs e => ?_)]
    rw [List.mem_singleton] at hs
    subst hs
    exact hm (e ▸ h)
  · rw [hT.2 t h hn h0]
    exact ⟨.cons (.inr ⟨h, hn⟩) .nil, fun _ _ => rfl⟩

theorem keep_cons {t : Mono × ℚ} {p r s : Poly} (h1 : Keep F [t] s) (h2 : Keep F p r) : Keep F (t :: p) (padd s r) := by
  refine ⟨allMono_padd _ _ h1.1 h2.1, fun m hm => ?_⟩
  rw [coef_padd, h1.2 m hm, h2.2 m hm]
  simp only [coef, add_zero]

theorem keep_nil : Keep F [] [] := ⟨.nil, fun _ _ => rfl⟩

/-- An operation on expressions that respects sums. -/
theorem keep_toEx (Φ : Ex → Poly) (h0 : Φ (.num 0) = []) (ha : ∀ a b, Φ (.add a b) = padd (Φ a) (Φ b)) (hT : TermOK F (fun t => Φ (termEx t)))
    (p : Poly) (hp : AllMono (WM F) p) (hc : ∀ t ∈ p, t.2 ≠ 0) : Keep F p (Φ (toEx p)) := by
  induction p with
  | nil =>
    show Keep F [] (Φ (.num 0))
    rw [h0]; exact keep_nil
  | cons t p ih =>
    cases p with
    | nil => exact keep_one hT t hp.head (hc t (by simp))
    | cons t' p =>
      show Keep F (t :: t' :: p) (Φ (.add (termEx t) (toEx (t' :: p))))
      rw [ha]
      exact keep_cons (keep_one hT t hp.head (hc t (by simp))) (ih hp.tail (fun t ht => hc t (by simp [ht])))

theorem keep_pexpect (hT : TermOK F expectTerm) (p : Poly) (hp : AllMono (WM F) p) (hc : ∀ t ∈ p, t.2 ≠ 0) : Keep F p (pexpect p) := by
  induction p with
  | nil => exact keep_nil
  | cons t p ih => exact keep_cons (keep_one hT t hp.head (hc t (by simp))) (ih hp.tail (fun t ht => hc t (by simp [ht])))

theorem NM.round {m : Mono} (h : NM m) : Round ofEx m := ⟨h.1, fun f hf => ⟨(h.2 f hf).1.2.1, (h.2 f hf).2⟩⟩

theorem termOK_ofEx : TermOK F (fun t => ofEx (termEx t)) := by
  refine ⟨fun t h => fieldFree_ofEx _ ?_, fun t _ hn h0 => round_term hom_ofEx t hn.round h0⟩
  exact fieldFree_toEx [t] (.cons h .nil)

theorem keep_ofEx (p : Poly) (hp : AllMono (WM F) p) (hc : ∀ t ∈ p, t.2 ≠ 0) : Keep F p (ofEx (toEx p)) :=
  keep_toEx ofEx rfl (fun _ _ => rfl) termOK_ofEx p hp hc

theorem La.rnd (ho : ∀ f ∈ F, omega ∉ f.coordinates) {a : Ex} (h : La F a) : Rand.rnd a = false := by
  have key : ∀ b, FieldBase F b → israndom b = .ok false := by
    rintro b (⟨f, hf, rfl⟩ | ⟨f, hf, rfl⟩)
    · simp [Field.value, israndom, hasOmega, ho f hf]
    · rfl
  obtain ⟨b, vars, hb, rfl, -⟩ := h
  unfold baseD
  split
  · unfold Rand.rnd
    rw [key b hb]
  · have : israndom (.deriv b vars) = .ok false := by
      unfold israndom
      split
      · rfl
      · exact key b hb
    unfold Rand.rnd
    rw [this]

theorem Deterministic.rnd {a : Ex} (h : Deterministic a) : Rand.rnd a = false := by
  have : hasOmega a = false := by
    induction a with
    | num q => rfl
    | sym s => exact decide_eq_false h
    | fn u args => exact decide_eq_false h
    | func g a ih => exact ih h
    | add a b iha ihb => simp only [hasOmega, iha h.1, ihb h.2, Bool.or_false]
    | mul a b iha ihb => simp only [hasOmega, iha h.1, ihb h.2, Bool.or_false]
    | pow a q ih => exact ih h
    | deriv a vars ih =>
      simp only [hasOmega, ih h.1, Bool.false_or, List.any_eq_false, decide_eq_true_eq]
      exact h.2
    | integ a x ih => simp only [hasOmega, ih h.1, Bool.false_or, decide_eq_false_iff_not]; exact h.2
    | ex a ih => exact h.elim
    | other b => exact h.elim
  unfold Rand.rnd
  rw [hasOmega_false this]

theorem LinM.rnd (ho : ∀ f ∈ F, omega ∉ f.coordinates) {m : Mono} (h : LinM F m) : ∀ f ∈ m, Rand.rnd f.1 = false := by
  induction h with
  | here a m ha hm =>
    intro f hf
    rcases List.mem_cons.1 hf with rfl | hf
    · exact ha.rnd ho
    · exact (hm f hf).2.rnd
  | there g m hg _ ih =>
    intro f hf
    rcases List.mem_cons.1 hf with rfl | hf
    · exact hg.2.rnd
    · exact ih f hf

theorem termOK_expect (ho : ∀ f ∈ F, omega ∉ f.coordinates) : TermOK F expectTerm := by
  refine ⟨fun t h => fieldFree_expectTerm t h, fun t h _ _ => ?_⟩
  have e : t.1.filter (fun f => Rand.rnd f.1) = [] := by
    rw [List.filter_eq_nil_iff]
    intro f hf
    rw [h.rnd ho f hf]
    simp
  unfold expectTerm
  simp only [e]

theorem Deterministic.inert {k c : Ex} (h : Deterministic c) : Inert (.ex k) c := by
  induction c with
  | num q => simp [Inert]
  | sym s => simp [Inert]
  | fn u args => simp [Inert]
  | func g a ih => exact ⟨by simp, ih h⟩
  | add a b iha ihb => exact ⟨by simp, iha h.1, ihb h.2⟩
  | mul a b iha ihb => exact ⟨by simp, iha h.1, ihb h.2⟩
  | pow a q ih => exact ⟨by simp, ih h⟩
  | deriv a vars ih => exact ⟨by simp, ih h.1⟩
  | integ a x ih => exact ⟨by simp, ih h.1⟩
  | ex a ih => exact h.elim
  | other b => exact h.elim

theorem La.inert {k a : Ex} (hk : FreeOf (fieldNames F) k) (h : La F a) : Inert (.ex k) a := by
  have key : ∀ b, FieldBase F b → Inert (.ex k) b := by
    rintro b (⟨f, hf, rfl⟩ | ⟨f, hf, rfl⟩)
    · simp [Inert, Field.value]
    · refine ⟨fun e => ?_, by simp [Inert, Field.random]⟩
      have : FieldBase F (.ex f.random) := .inr ⟨f, hf, rfl⟩
      rw [e] at this
      exact this.not_free hk
  obtain ⟨b, vars, hb, rfl, -⟩ := h
  unfold baseD
  split
  · exact key b hb
  · exact ⟨by simp, key b hb⟩

theorem LinM.inert {k : Ex} (hk : FreeOf (fieldNames F) k) {m : Mono} (h : LinM F m) : Inert (.ex k) (monoEx m) := by
  induction h with
  | here a m ha hm =>
    have e : factorEx (a, 1) = a := by simp [factorEx]
    cases m with
    | nil => show Inert _ (factorEx (a, 1)); rw [e]; exact ha.inert hk
    | cons g m =>
      show Inert _ (.mul (factorEx (a, 1)) (monoEx (g :: m)))
      rw [e]; exact ⟨by simp, ha.inert hk, (cf_monoEx _ hm).2.inert⟩
  | there f m hf hm ih =>
    cases m with
    | nil => cases hm
    | cons g m => exact ⟨by simp, (cf_factorEx f hf).2.inert, ih⟩

theorem termOK_subst (k : Ex) (new : Poly) (hk : FreeOf (fieldNames F) k) (hn : FreeP (fieldNames F) new) :
    TermOK F (fun t => subst (.ex k) new (termEx t)) := by
  refine ⟨fun t h => fieldFree_subst _ _ (fun _ => hn) _ (fieldFree_toEx [t] (.cons h .nil)), fun t h hnm h0 => ?_⟩
  have e : subst (.ex k) new (termEx t) = ofEx (termEx t) := by
    refine subst_inert _ _ (by simp) _ ?_
    unfold termEx
    split
    · exact h.inert hk
    · split
      · simp [Inert]
      · exact ⟨by simp, by simp [Inert], h.inert hk⟩
  dsimp only
  rw [e]
  exact round_term hom_ofEx t hnm.round h0

theorem keep_subst (k : Ex) (new : Poly) (hk : FreeOf (fieldNames F) k) (hn : FreeP (fieldNames F) new) (p : Poly) (hp : AllMono (WM F) p)
    (hc : ∀ t ∈ p, t.2 ≠ 0) : Keep F p (subst (.ex k) new (toEx p)) := by
  refine keep_toEx (subst (.ex k) new) ?_ ?_ (termOK_subst k new hk hn) p hp hc
  · unfold subst; rw [if_neg (by simp)]; rfl
  · intro a b
    rw [subst, if_neg (by simp)]

theorem canon_subst (old : Ex) (new : Poly) (hn : CanonP new) (e : Ex) : CanonP (subst old new e) := by
  induction e with
  | num q => unfold subst; split; exact hn; exact canon_pconst q
  | sym s => unfold subst; split; exact hn; exact canon_patom _
  | fn u args => unfold subst; split; exact hn; exact canon_patom _
  | func g a ih => unfold subst; split; exact hn; exact canon_patom _
  | add a b iha ihb => unfold subst; split; exact hn; exact canon_padd _ _ ihb
  | mul a b iha ihb => unfold subst; split; exact hn; exact canon_pmul _ _
  | pow a q ih => unfold subst; split; exact hn; exact canon_ppow _ _
  | deriv a vars ih =>
    unfold subst
    split
    · exact hn
    · dsimp only
      split
      · exact canon_pdiffs _ _ hn
      · exact canon_pdiffs _ _ ih
  | integ a x ih => unfold subst; split; exact hn; exact canon_patom _
  | ex a ih => unfold subst; split; exact hn; exact canon_pexpect _
  | other b => unfold subst; split; exact hn; exact canon_patom _

/-- The closure keeps the terms with fields. -/
theorem keep_substAll (l : List (Ex × Ex)) (hl : ∀ kv ∈ l, (∃ k, eval kv.1 = .ex k ∧ FreeOf (fieldNames F) k) ∧ FreeOf (fieldNames F) kv.2)
    (p : Poly) (hp : AllMono (WM F) p) (hc : CanonP p) : ∃ r, substAll l (toEx p) = toEx r ∧ CanonP r ∧ Keep F p r := by
  have step : ∀ q : Poly, AllMono (WM F) q → CanonP q → ∃ r, l.foldl (fun e kv => substEx kv.1 kv.2 e) (toEx q) = toEx r ∧ CanonP r ∧ Keep F q r := by
    clear hp hc p
    induction l with
    | nil => exact fun q hq hc => ⟨q, rfl, hc, hq, fun _ _ => rfl⟩
    | cons kv l ih =>
      intro q hq hc
      obtain ⟨⟨k, hk, hkf⟩, hv⟩ := hl kv (by simp)
      have k1 := keep_ofEx q hq hc.2
      have c1 := canon_ofEx (toEx q)
      have k2 := keep_subst k (ofEx kv.2) hkf (fieldFree_ofEx _ hv) _ k1.1 c1.2
      have c2 := canon_subst (.ex k) (ofEx kv.2) (canon_ofEx _) (toEx (ofEx (toEx q)))
      obtain ⟨r, e, hr, kr⟩ := ih (fun kv h => hl kv (by simp [h])) _ k2.1 c2
      refine ⟨r, ?_, hr, (k1.trans k2).trans kr⟩
      rw [List.foldl_cons, ← e]
      unfold substEx
      rw [hk]
      rfl
  have k1 := keep_ofEx p hp hc.2
  obtain ⟨r, e, hr, kr⟩ := step _ k1.1 (canon_ofEx (toEx p))
  exact ⟨r, e, hr, k1.trans kr⟩

/-- The terms with fields cancel. -/
theorem free_minus (e : Ex) (he : Aff F e) (hs : Src e) (ho : ∀ f ∈ F, omega ∉ f.coordinates) (l : List (Ex × Ex))
    (hl : ∀ kv ∈ l, (∃ k, eval kv.1 = .ex k ∧ FreeOf (fieldNames F) k) ∧ FreeOf (fieldNames F) kv.2) :
    FreeOf (fieldNames F) (minus e (substAll l (eval (.ex e)))) := by
  have hq : AllMono (WM F) (ofEx e) := fun t ht => by
    rcases aff_ofEx e he t ht with h | h
    · exact .inl h
    · exact .inr ⟨h, (nf_ofEx e hs).2 t ht⟩
  have k1 := keep_pexpect (termOK_expect ho) _ hq (canon_ofEx e).2
  obtain ⟨r, hr, cr, kr⟩ := keep_substAll l hl _ k1.1 (canon_pexpect (ofEx e))
  have e1 : eval (.ex e) = toEx (pexpect (ofEx e)) := rfl
  rw [e1, hr]
  have k2 := (k1.trans kr).trans (keep_ofEx r kr.1 cr.2)
  refine fieldFree_toEx _ ?_
  have hc : CanonP (ofEx (.add e (.mul (.num (-1)) (toEx r)))) := canon_ofEx _
  intro t ht
  by_contra hf
  have h0 := hc.coef t ht
  have h1 : coef t.1 (ofEx (.add e (.mul (.num (-1)) (toEx r)))) = 0 := by
    show coef t.1 (padd (ofEx e) (pmul (pconst (-1)) (ofEx (toEx r)))) = 0
    rw [coef_padd, coef_neg, k2.2 t.1 hf]
    ring
  exact hc.2 t ht (h0.symm.trans h1)

end Sympkf.Spec
