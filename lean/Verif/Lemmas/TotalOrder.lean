import Verif.Lemmas.GradedSystem

/-!
# Lemmas: the number of derivations in the terms of the Reynolds equations
-/

set_option autoImplicit false

namespace Sympkf.Spec.Graded

open Text Rand PKF Pkf

variable {G : Grade}

/-- The derivations of every term have the weight `k` at most. -/
def To (G : Grade) : Ex → ℚ → Prop
  | .num _, k => 0 ≤ k
  | .sym _, k => 0 ≤ k
  | .fn _ _, k => 0 ≤ k
  | .func _ a, k => To G a 0 ∧ 0 ≤ k
  | .add x y, k => To G x k ∧ To G y k
  | .mul x y, k => ∃ i j, i + j ≤ k ∧ To G x i ∧ To G y j
  | .pow a q, k => 0 ≤ k ∧ ((∃ m, isNat q = true ∧ 1 ≤ q ∧ q * m ≤ k ∧ To G a m) ∨ To G a 0)
  | .deriv a vars, k => cost G vars ≤ k ∧ To G a (k - cost G vars)
  | .integ a _, k => To G a 0 ∧ 0 ≤ k
  | .ex a, k => 0 ≤ k ∧ ∃ u args, a = .fn u args ∧ omega ∈ args
  | .other _, _ => False

theorem To.nonneg {e : Ex} {k : ℚ} (h : To G e k) : 0 ≤ k := by
  induction e generalizing k with
  | num => exact h
  | sym => exact h
  | fn => exact h
  | func g a ih => exact h.2
  | add x y ihx ihy => exact ihx h.1
  | mul x y ihx ihy =>
    obtain ⟨i, j, hij, hx, hy⟩ := h
    have := ihx hx
    have := ihy hy
    linarith
  | pow a q ih => exact h.1
  | deriv a vars ih =>
    have := cost_nonneg G vars
    linarith [h.1]
  | integ a x ih => exact h.2
  | ex a ih => exact h.1
  | other b => exact h.elim

theorem To.up {e : Ex} {k k' : ℚ} (h : To G e k) (hk : k ≤ k') : To G e k' := by
  have h0 := le_trans h.nonneg hk
  induction e generalizing k k' with
  | num => exact h0
  | sym => exact h0
  | fn => exact h0
  | func g a ih => exact ⟨h.1, h0⟩
  | add x y ihx ihy => exact ⟨ihx h.1 hk h0, ihy h.2 hk h0⟩
  | mul x y ihx ihy =>
    obtain ⟨i, j, hij, hx, hy⟩ := h
    exact ⟨i, j, le_trans hij hk, hx, hy⟩
  | pow a q ih =>
    refine ⟨h0, h.2.imp ?_ id⟩
    rintro ⟨m, h1, h2, h3, h4⟩
    exact ⟨m, h1, h2, le_trans h3 hk, h4⟩
  | deriv a vars ih => exact ⟨le_trans h.1 hk, ih h.2 (by linarith) (by linarith [h.1])⟩
  | integ a x ih => exact ⟨h.1, h0⟩
  | ex a ih => exact ⟨h0, h.2⟩
  | other b => exact h

theorem To.mo {e : Ex} {k : ℚ} (h : To G e k) : Mo G e k := by
  induction e generalizing k with
  | num => trivial
  | sym => trivial
  | fn => trivial
  | func g a ih => exact (ih h.1).up h.2
  | add x y ihx ihy => exact ⟨ihx h.1, ihy h.2⟩
  | mul x y ihx ihy =>
    obtain ⟨i, j, hij, hx, hy⟩ := h
    have := hx.nonneg
    have := hy.nonneg
    exact ⟨(ihx hx).up (by linarith), (ihy hy).up (by linarith)⟩
  | pow a q ih =>
    rcases h.2 with ⟨m, h1, h2, h3, h4⟩ | h'
    · have := mul_le_mul_of_nonneg_right h2 h4.nonneg
      exact (ih h4).up (by linarith)
    · exact (ih h').up h.1
  | deriv a vars ih => exact ⟨h.1, ih h.2⟩
  | integ a x ih => exact (ih h.1).up h.2
  | ex a ih => exact h.2
  | other b => exact h

/-- The weight of the derivations of an atom. -/
def wT (G : Grade) : Ex → ℚ
  | .deriv _ vars => cost G vars
  | _ => 0

theorem wT_nonneg (a : Ex) : 0 ≤ wT G a := by
  cases a with
  | deriv b vars => exact cost_nonneg G vars
  | _ => exact le_refl _

theorem To.wT {a : Ex} (h : To G a 0) : wT G a = 0 := by
  cases a with
  | deriv b vars => exact le_antisymm h.1 (cost_nonneg G vars)
  | _ => rfl

/-- The factors. -/
def FT (G : Grade) (a : Ex) (q : ℚ) : Prop := To G a 0 ∨ ((∃ b vars, a = .deriv b vars ∧ To G b 0) ∧ ∃ n : ℕ, q = (n : ℚ) + 1)

/-- Polynomials. -/
def PT (G : Grade) (k : ℚ) (p : Poly) : Prop := AllF (FT G) p ∧ BdBy (wT G) k p

theorem ft_mulOK : MulOK (FT G) := by
  rintro a p q (h | ⟨h, n, rfl⟩) h'
  · exact .inl h
  · rcases h' with h' | ⟨-, m, rfl⟩
    · exact .inl h'
    · exact .inr ⟨h, n + m + 1, by push_cast; ring⟩

theorem ft_nonneg {a : Ex} {q : ℚ} (h : FT G a q) : 0 ≤ wT G a * q := by
  rcases h with h | ⟨h, n, e⟩
  · rw [h.wT]; simp
  · have := wT_nonneg (G := G) a
    rw [e]; positivity

theorem degT_nonneg (m : Mono) (h : AllM (FT G) m) : 0 ≤ degBy (wT G) m := by
  induction m with
  | nil => simp [degBy]
  | cons f m ih =>
    rw [degBy_cons]
    have := ih h.tail
    have := ft_nonneg h.head
    linarith

theorem mem_degT (m : Mono) (h : AllM (FT G) m) (f : Ex × ℚ) (hf : f ∈ m) : wT G f.1 * f.2 ≤ degBy (wT G) m := by
  induction m with
  | nil => cases hf
  | cons g m ih =>
    rw [degBy_cons]
    rcases List.mem_cons.1 hf with rfl | hf
    · have := degT_nonneg m h.tail
      linarith
    · have := ih h.tail hf
      have := ft_nonneg h.head
      linarith

theorem bd_of_to {p : Poly} (h : AllF (fun a _ => To G a 0) p) : BdBy (wT G) 0 p := by
  intro t ht
  have h1 : AllM (fun a _ => To G a 0) t.1 := h t ht
  generalize t.1 = m at h1
  induction m with
  | nil => simp [degBy]
  | cons f m ih =>
    rw [degBy_cons, To.wT (G := G) h1.head, zero_mul, zero_add]
    exact ih h1.tail

theorem PT.of {k : ℚ} (hk : 0 ≤ k) {p : Poly} (h : AllF (fun a _ => To G a 0) p) : PT G k p :=
  ⟨fun t ht f hf => .inl (h t ht f hf), (bd_of_to h).mono hk⟩

theorem PT.to {p : Poly} (h : PT G 0 p) : AllF (fun a _ => To G a 0) p := by
  intro t ht f hf
  rcases h.1 t ht f hf with h' | ⟨⟨b, vars, e, hb⟩, n, e'⟩
  · exact h'
  · have h1 := mem_degT t.1 (h.1 t ht) f hf
    rw [e', e] at h1
    have h2 : degBy (wT G) t.1 ≤ 0 := h.2 t ht
    have h3 : 0 ≤ cost G vars := cost_nonneg G vars
    have h4 : cost G vars * ((n : ℚ) + 1) ≤ 0 := le_trans h1 h2
    have h5 : (0 : ℚ) ≤ cost G vars * n := by positivity
    have h6 : cost G vars = 0 := by linarith
    rw [e]
    exact ⟨le_of_eq h6, by rw [h6, sub_zero]; exact hb⟩

theorem PT.up {k k' : ℚ} (hk : k ≤ k') {p : Poly} (h : PT G k p) : PT G k' p := ⟨h.1, h.2.mono hk⟩
theorem PT.nil {k : ℚ} : PT G k [] := ⟨.nil, .nil⟩
theorem pt_padd {k : ℚ} {p q : Poly} (hp : PT G k p) (hq : PT G k q) : PT G k (padd p q) := ⟨allF_padd _ _ hp.1 hq.1, allMono_padd _ _ hp.2 hq.2⟩
theorem pt_pmul {k i j : ℚ} (h : i + j ≤ k) {p q : Poly} (hp : PT G i p) (hq : PT G j q) : PT G k (pmul p q) :=
  ⟨allF_pmul ft_mulOK _ _ hp.1 hq.1, bd_pmul h _ _ hp.2 hq.2⟩
theorem pt_pconst {k : ℚ} (hk : 0 ≤ k) (c : ℚ) : PT G k (pconst c) := ⟨allF_pconst c, bd_pconst k c hk⟩
theorem pt_patom {k : ℚ} (hk : 0 ≤ k) {a : Ex} (h : To G a 0) : PT G k (patom a) := .of hk (allF_patom _ h)
theorem pt_deriv {k : ℚ} {b : Ex} {vars : List (Str × ℕ)} (h : To G b 0) (hk : cost G vars ≤ k) : PT G k (patom (.deriv b vars)) :=
  ⟨allF_patom _ (.inr ⟨⟨b, vars, rfl, h⟩, 0, by simp⟩), bd_patom k _ hk⟩

theorem pt_ppow_nat {k m q : ℚ} (hq : isNat q = true) (hm : q * m ≤ k) {p : Poly} (hp : PT G m p) : PT G k (ppow p q) := by
  unfold ppow
  rw [if_pos hq]
  refine ⟨allF_ppowN ft_mulOK _ _ hp.1, (bd_ppowN p _ hp.2).mono ?_⟩
  rw [← isNat_toNat hq]; exact hm

theorem to_hereditary : Hereditary (fun a => To G a 0) where
  num _ := le_refl (0 : ℚ)
  add _ _ h h' := ⟨h, h'⟩
  mul _ _ h h' := ⟨0, 0, by simp, h, h'⟩
  func _ _ _ _ _ h := ⟨h.1, h.1, h.2⟩
  add_inv _ _ h := h
  mul_inv x y h := by
    obtain ⟨i, j, hij, hx, hy⟩ := h
    have := hx.nonneg
    have := hy.nonneg
    exact ⟨hx.up (by linarith), hy.up (by linarith)⟩
  pow a q := by
    constructor
    · rintro ⟨-, ⟨m, h1, h2, h3, h4⟩ | h⟩
      · have := mul_le_mul_of_nonneg_right h2 h4.nonneg
        exact h4.up (by linarith)
      · exact h
    · exact fun h => ⟨le_refl _, .inr h⟩

theorem pt_ppow {k q : ℚ} (hk : 0 ≤ k) {p : Poly} (hp : PT G 0 p) : PT G k (ppow p q) := .of hk (hereditary_ppow to_hereditary _ _ hp.to)

theorem to_factor {a : Ex} {q : ℚ} (h : FT G a q) : To G (factorEx (a, q)) (wT G a * q) := by
  unfold factorEx
  rcases h with h | ⟨⟨b, vars, rfl, hb⟩, n, rfl⟩
  · rw [h.wT, zero_mul]
    split
    · exact h
    · exact ⟨le_refl _, .inr h⟩
  · have h1 : To G (.deriv b vars) (cost G vars) := ⟨le_refl _, by rw [sub_self]; exact hb⟩
    have h2 : 0 ≤ cost G vars := cost_nonneg G vars
    split
    · rename_i e
      simp only at e ⊢
      rw [e, mul_one]; exact h1
    · exact ⟨mul_nonneg h2 (by positivity), .inl ⟨cost G vars, (isNat_iff _).2 ⟨n + 1, by push_cast; rfl⟩,
        by linarith [show (0 : ℚ) ≤ n by positivity], le_of_eq (mul_comm _ _), h1⟩⟩

theorem to_toEx {k : ℚ} (hk : 0 ≤ k) (p : Poly) (hp : PT G k p) : To G (toEx p) k := by
  have term : ∀ t ∈ p, To G (termEx t) k := by
    intro t ht
    have := graded_termEx (w := wT G) (G := fun n e => To G e n) (fun _ => le_refl (0 : ℚ))
      (fun i j _ _ h h' => ⟨i, j, le_refl _, h, h'⟩) t (fun f hf => to_factor (hp.1 t ht f hf))
    exact this.up (hp.2 t ht)
  clear hp
  induction p with
  | nil => exact hk
  | cons t p ih =>
    cases p with
    | nil => exact term t (by simp)
    | cons t' p => exact ⟨term t (by simp), ih (fun t ht => term t (by simp [ht]))⟩

/-! ## Derivatives -/

theorem pt_diffAtom (x : Str) (e : Ex) (h : To G e 0) : PT G (G.ow x) (diffAtom x e) := by
  have h1 := G.ow0 x
  have c1 : cost G [(x, 1)] = G.ow x := by simp [cost]
  have re : ∀ a, To G a 0 → PT G 0 (reEx a) := fun a h => .of (le_refl _) (hereditary_reEx to_hereditary a h)
  have opq : ∀ a : Ex, To G a 0 → PT G (G.ow x) (patom (.deriv a [(x, 1)])) := fun a h => pt_deriv h (le_of_eq c1)
  induction e with
  | num => exact .nil
  | sym s =>
    simp only [diffAtom]
    split
    · exact pt_pconst h1 1
    · exact .nil
  | func g a ih =>
    simp only [diffAtom]
    split
    · rename_i hg
      obtain ⟨-, h2, -⟩ := to_hereditary.dfunc hg a h
      exact pt_pmul (i := 0) (by rw [zero_add]) (re _ h2) (ih h.1)
    · exact opq _ h
  | add a b iha ihb => exact pt_padd (iha h.1) (ihb h.2)
  | mul a b iha ihb =>
    obtain ⟨ha, hb⟩ := to_hereditary.mul_inv a b h
    exact pt_padd (pt_pmul (j := 0) (by rw [add_zero]) (iha ha) (re b hb)) (pt_pmul (i := 0) (by rw [zero_add]) (re a ha) (ihb hb))
  | pow a q ih =>
    have ha := (to_hereditary.pow a q).1 h
    exact pt_pmul (i := 0) (by rw [zero_add]) (pt_pmul (i := 0) (j := 0) (by simp) (pt_pconst (le_refl _) _) (pt_ppow (le_refl _) (re a ha))) (ih ha)
  | deriv b vars =>
    simp only [diffAtom]
    have h2 := h.wT
    have h3 : cost G vars = 0 := h2
    split
    · exact .nil
    · refine pt_deriv ?_ ?_
      · have := h.2
        rwa [h3, sub_zero] at this
      · rw [cost_bumpVar, h3, add_zero]
  | other b => exact h.elim
  | _ =>
    simp only [diffAtom]
    split
    · exact .nil
    · exact opq _ h

theorem pt_diffFactor (x : Str) (a : Ex) (q : ℚ) (h : FT G a q) : PT G (wT G a + G.ow x) (diffAtom x a) := by
  rcases h with h | ⟨⟨b, vars, rfl, hb⟩, -⟩
  · rw [h.wT, zero_add]; exact pt_diffAtom x a h
  · simp only [diffAtom]
    split
    · exact .nil
    · refine pt_deriv hb ?_
      rw [cost_bumpVar]
      show _ ≤ cost G vars + _
      linarith

theorem pt_pdiff {k : ℚ} (x : Str) {p : Poly} (hp : PT G k p) : PT G (k + G.ow x) (pdiff x p) := by
  refine ⟨allF_pdiff ft_mulOK x ⟨?_, fun a q h => (pt_diffFactor x a q h).1⟩ p hp.1,
    bd_pdiff x p (fun t ht f hf => (pt_diffFactor x f.1 f.2 (hp.1 t ht f hf)).2) hp.2⟩
  rintro a q (h | ⟨h, n, rfl⟩) h0 h1
  · exact .inl h
  · refine .inr ⟨h, n - 1, ?_⟩
    cases n with
    | zero => simp at h1
    | succ n => simp

theorem pt_pdiffs {k : ℚ} (vars : List (Str × ℕ)) {p : Poly} (hp : PT G k p) : PT G (k + cost G vars) (pdiffs vars p) := by
  induction vars generalizing p k with
  | nil => rw [cost_nil, add_zero]; exact hp
  | cons v vars ih =>
    rw [cost_cons, ← add_assoc]
    refine ih ?_
    show PT G _ ((pdiff v.1)^[v.2] p)
    generalize v.2 = n
    clear ih
    induction n generalizing p k with
    | zero => simpa using hp
    | succ n ih =>
      rw [Function.iterate_succ_apply]
      exact (ih (pt_pdiff v.1 hp)).up (by push_cast; linarith)

theorem pt_derivs {a : Ex} {k : ℚ} {vars : List (Str × ℕ)} {p : Poly} (ih : ∀ j, To G a j → PT G j p) (h : To G (.deriv a vars) k) :
    PT G k (pdiffs vars p) := (pt_pdiffs vars (ih _ h.2)).up (by linarith)

/-! ## Normal forms and substitutions -/

theorem pt_exFn (u : Str) (args : List Str) (ho : omega ∈ args) {k : ℚ} (hk : 0 ≤ k) : PT G k (patom (.ex (.fn u args))) :=
  pt_patom hk ⟨le_refl _, u, args, rfl, ho⟩

theorem pt_ofEx (e : Ex) (k : ℚ) (h : To G e k) : PT G k (ofEx e) := by
  have h0 := h.nonneg
  induction e generalizing k with
  | num q => exact pt_pconst h0 q
  | sym s => exact pt_patom h0 (le_refl (0 : ℚ))
  | fn u args => exact pt_patom h0 (le_refl (0 : ℚ))
  | func g a ih => exact pt_patom h0 ⟨to_toEx (le_refl _) _ (ih 0 h.1 (le_refl _)), le_refl _⟩
  | add x y ihx ihy => exact pt_padd (ihx k h.1 h0) (ihy k h.2 h0)
  | mul x y ihx ihy =>
    obtain ⟨i, j, hij, hx, hy⟩ := h
    exact pt_pmul hij (ihx i hx hx.nonneg) (ihy j hy hy.nonneg)
  | pow a q ih =>
    rcases h.2 with ⟨m, h1, -, h3, h4⟩ | h'
    · exact pt_ppow_nat h1 h3 (ih m h4 h4.nonneg)
    · exact pt_ppow h0 (ih 0 h' (le_refl _))
  | deriv a vars ih => exact pt_derivs (fun j hj => ih j hj hj.nonneg) h
  | integ a x ih => exact pt_patom h0 ⟨to_toEx (le_refl _) _ (ih 0 h.1 (le_refl _)), le_refl _⟩
  | ex a ih =>
    obtain ⟨-, u, args, rfl, ho⟩ := h
    rw [ofEx_exFn u args ho]
    exact pt_exFn u args ho h0
  | other b => exact h.elim

theorem to_eval (e : Ex) (k : ℚ) (h : To G e k) : To G (eval e) k := to_toEx h.nonneg _ (pt_ofEx e k h)

/-- Substitution of an expression without derivatives for a function or a symbol. -/
theorem pt_subst (old : Ex) (hold : ∀ b vs, old ≠ .deriv b vs) (ho' : ∀ u args, old = .fn u args → omega ∉ args) (new : Poly)
    (hnew : PT G 0 new) (e : Ex) (k : ℚ) (h : To G e k) : PT G k (subst old new e) := by
  have hn : ∀ j, 0 ≤ j → PT G j new := fun j hj => hnew.up hj
  have h0 := h.nonneg
  induction e generalizing k with
  | num q => unfold subst; split; exacts [hn k h0, pt_pconst h0 q]
  | sym s => unfold subst; split; exacts [hn k h0, pt_patom h0 (le_refl (0 : ℚ))]
  | fn u args => unfold subst; split; exacts [hn k h0, pt_patom h0 (le_refl (0 : ℚ))]
  | func g a ih => unfold subst; split; exacts [hn k h0, pt_patom h0 ⟨to_toEx (le_refl _) _ (ih 0 h.1 (le_refl _)), le_refl _⟩]
  | add x y ihx ihy => unfold subst; split; exacts [hn k h0, pt_padd (ihx k h.1 h0) (ihy k h.2 h0)]
  | mul x y ihx ihy =>
    obtain ⟨i, j, hij, hx, hy⟩ := h
    unfold subst; split; exacts [hn k h0, pt_pmul hij (ihx i hx hx.nonneg) (ihy j hy hy.nonneg)]
  | pow a q ih =>
    unfold subst; split
    · exact hn k h0
    · rcases h.2 with ⟨m, h1, -, h3, h4⟩ | h'
      · exact pt_ppow_nat h1 h3 (ih m h4 h4.nonneg)
      · exact pt_ppow h0 (ih 0 h' (le_refl _))
  | deriv a vars ih =>
    unfold subst; split
    · exact hn k h0
    · simp only []
      split
      · rename_i rest hrest
        unfold derivRest at hrest
        split at hrest
        · exact absurd rfl (hold _ _)
        · cases hrest
      · exact pt_derivs (fun j hj => ih j hj hj.nonneg) h
  | integ a x ih => unfold subst; split; exacts [hn k h0, pt_patom h0 ⟨to_toEx (le_refl _) _ (ih 0 h.1 (le_refl _)), le_refl _⟩]
  | ex a ih =>
    unfold subst; split
    · exact hn k h0
    · obtain ⟨-, u, args, rfl, ho⟩ := h
      have hs : subst old new (.fn u args) = patom (.fn u args) := by
        unfold subst
        rw [if_neg (fun h => ho' u args h.symm ho)]
      show PT G k (pexpect (subst old new (.fn u args)))
      rw [hs]
      have e : pexpect (patom (.fn u args)) = patom (.ex (.fn u args)) := ofEx_exFn u args ho
      rw [e]
      exact pt_exFn u args ho h0
  | other b => exact h.elim

theorem to_substAll (l : List (Ex × Ex)) (hl : ∀ kv ∈ l, ∃ u args, kv.1 = .fn u args ∧ omega ∉ args) (hn : ∀ kv ∈ l, To G kv.2 0)
    (e : Ex) (k : ℚ) (he : To G e k) : To G (substAll l e) k := by
  unfold substAll
  have h0 := to_eval e k he
  generalize eval e = e0 at h0
  clear he
  induction l generalizing e0 with
  | nil => exact h0
  | cons kv l ih =>
    refine ih (fun kv h => hl kv (by simp [h])) (fun kv h => hn kv (by simp [h])) _ ?_
    obtain ⟨u, args, hu, ho⟩ := hl kv (by simp)
    have hev : eval kv.1 = .fn u args := by rw [hu, Spec.eval_fn]
    show To G (toEx (subst (eval kv.1) (ofEx kv.2) (eval e0))) k
    rw [hev]
    exact to_toEx h0.nonneg _ (pt_subst _ (fun _ _ h => by cases h) (fun _ _ h => by cases h; exact ho) _
      (pt_ofEx _ 0 (hn kv (by simp))) _ k (to_eval e0 k h0))

/-! ## Taylor expansions -/

/-- Expressions in normal form: derivatives are applied to expressions without derivatives. -/
def Ts (G : Grade) : Ex → ℚ → Prop
  | .add x y, k => Ts G x k ∧ Ts G y k
  | .mul x y, k => ∃ i j, i + j ≤ k ∧ 0 ≤ i ∧ 0 ≤ j ∧ Ts G x i ∧ Ts G y j
  | .pow a q, k => 0 ≤ k ∧ ((∃ m, isNat q = true ∧ 0 ≤ m ∧ q * m ≤ k ∧ Ts G a m) ∨ To G a 0)
  | .deriv a vars, k => cost G vars ≤ k ∧ To G a 0
  | e, k => To G e 0 ∧ 0 ≤ k

theorem To.ts {e : Ex} (h : To G e 0) : Ts G e 0 := by
  induction e with
  | add x y ihx ihy => exact ⟨ihx h.1, ihy h.2⟩
  | mul x y ihx ihy =>
    obtain ⟨hx, hy⟩ := to_hereditary.mul_inv x y h
    exact ⟨0, 0, by simp, le_refl _, le_refl _, ihx hx, ihy hy⟩
  | pow a q ih => exact ⟨le_refl _, .inr ((to_hereditary.pow a q).1 h)⟩
  | deriv a vars ih =>
    have h3 : cost G vars = 0 := h.wT
    refine ⟨h.1, ?_⟩
    have := h.2
    rwa [h3, sub_zero] at this
  | _ => exact ⟨h, le_refl _⟩

theorem Ts.up {e : Ex} {k k' : ℚ} (h : Ts G e k) (hk : k ≤ k') : Ts G e k' := by
  induction e generalizing k k' with
  | add x y ihx ihy => exact ⟨ihx h.1 hk, ihy h.2 hk⟩
  | mul x y ihx ihy =>
    obtain ⟨i, j, hij, hx⟩ := h
    exact ⟨i, j, le_trans hij hk, hx⟩
  | pow a q ih =>
    refine ⟨le_trans h.1 hk, h.2.imp ?_ id⟩
    rintro ⟨m, h1, h2, h3, h4⟩
    exact ⟨m, h1, h2, le_trans h3 hk, h4⟩
  | deriv a vars ih => exact ⟨le_trans h.1 hk, h.2⟩
  | _ => exact ⟨h.1, le_trans h.2 hk⟩

theorem ts_factor {a : Ex} {q : ℚ} (h : FT G a q) : 0 ≤ wT G a * q ∧ Ts G (factorEx (a, q)) (wT G a * q) := by
  refine ⟨ft_nonneg h, ?_⟩
  unfold factorEx
  rcases h with h | ⟨⟨b, vars, rfl, hb⟩, n, rfl⟩
  · rw [h.wT, zero_mul]
    split
    · exact h.ts
    · exact ⟨le_refl _, .inr h⟩
  · have h1 : Ts G (.deriv b vars) (cost G vars) := ⟨le_refl _, hb⟩
    have h2 : 0 ≤ cost G vars := cost_nonneg G vars
    split
    · rename_i e
      simp only at e ⊢
      rw [e, mul_one]; exact h1
    · exact ⟨mul_nonneg h2 (by positivity), .inl ⟨cost G vars, (isNat_iff _).2 ⟨n + 1, by push_cast; rfl⟩, h2, le_of_eq (mul_comm _ _), h1⟩⟩

theorem ts_toEx {k : ℚ} (hk : 0 ≤ k) (p : Poly) (hp : PT G k p) : Ts G (toEx p) k := by
  have term : ∀ t ∈ p, Ts G (termEx t) k := by
    intro t ht
    have := graded_termEx (w := wT G) (G := fun n e => 0 ≤ n ∧ Ts G e n) (fun _ => ⟨le_refl _, le_refl (0 : ℚ), le_refl _⟩)
      (fun i j _ _ h h' => ⟨add_nonneg h.1 h'.1, i, j, le_refl _, h.1, h'.1, h.2, h'.2⟩) t (fun f hf => ts_factor (hp.1 t ht f hf))
    exact this.2.up (hp.2 t ht)
  clear hp
  induction p with
  | nil => exact ⟨le_refl (0 : ℚ), hk⟩
  | cons t p ih =>
    cases p with
    | nil => exact term t (by simp)
    | cons t' p => exact ⟨term t (by simp), ih (fun t ht => term t (by simp [ht]))⟩

theorem pt_reEx (e : Ex) (k : ℚ) (h0 : 0 ≤ k) (h : Ts G e k) : PT G k (reEx e) := by
  induction e generalizing k with
  | num q => exact pt_pconst h0 q
  | add x y ihx ihy => exact pt_padd (ihx k h0 h.1) (ihy k h0 h.2)
  | mul x y ihx ihy =>
    obtain ⟨i, j, hij, hi, hj, hx, hy⟩ := h
    exact pt_pmul hij (ihx i hi hx) (ihy j hj hy)
  | pow a q ih =>
    rcases h.2 with ⟨m, h1, h2, h3, h4⟩ | h'
    · exact pt_ppow_nat h1 h3 (ih m h2 h4)
    · exact pt_ppow h0 (ih 0 (le_refl _) h'.ts)
  | deriv a vars ih => exact pt_deriv h.2 h.1
  | _ => exact pt_patom h0 h.1

/-- The weights of the coefficients of a Taylor expansion. -/
def TT (G : Grade) (k : ℚ) (j : Taylor) : Prop := PT G k j.1 ∧ PT G k j.2.1 ∧ PT G k j.2.2

theorem tt_tmul {i k n : ℚ} (h : i + k ≤ n) {a b : Taylor} (ha : TT G i a) (hb : TT G k b) : TT G n (tmul a b) := by
  obtain ⟨a0, a1, a2⟩ := ha
  obtain ⟨b0, b1, b2⟩ := hb
  exact ⟨pt_pmul h a0 b0, pt_padd (pt_pmul h a0 b1) (pt_pmul h a1 b0),
    pt_padd (pt_pmul h a0 b2) (pt_padd (pt_pmul h a1 b1) (pt_pmul h a2 b0))⟩

theorem tt_tpow {m : ℚ} {a : Taylor} (ha : TT G m a) (k : ℕ) : TT G (k * m) (tpow a k) := by
  induction k with
  | zero => exact ⟨pt_pconst (by simp) 1, .nil, .nil⟩
  | succ k ih => exact tt_tmul (by push_cast; linarith) ih ha

theorem tt_tcompose {f0 f1 f2 : Poly} {a : Taylor} (h0 : PT G 0 f0) (h1 : PT G 0 f1) (h2 : PT G 0 f2) (ha : TT G 0 a) :
    TT G 0 (tcompose f0 f1 f2 a) := by
  obtain ⟨-, a1, a2⟩ := ha
  have m : ∀ {p q : Poly}, PT G 0 p → PT G 0 q → PT G 0 (pmul p q) := fun hp hq => pt_pmul (by simp) hp hq
  exact ⟨h0, m h1 a1, pt_padd (m h1 a2) (m (pt_pconst (le_refl _) _) (m h2 (m a1 a1)))⟩

theorem TT.up {k k' : ℚ} (hk : k ≤ k') {j : Taylor} (h : TT G k j) : TT G k' j := ⟨h.1.up hk, h.2.1.up hk, h.2.2.up hk⟩

theorem tt_expansion (e : Ex) (n : ℚ) (hn : 0 ≤ n) (he : Ts G e n) (j : Taylor) (hj : expansion e = .ok j) : TT G n j := by
  induction e generalizing j n
  all_goals
    unfold expansion at hj
    split at hj
    · cases hj
      exact ⟨pt_reEx _ n hn he, .nil, .nil⟩
  case sym s ho =>
    cases hj
    exact ⟨.nil, pt_pconst hn 1, .nil⟩
  case add x y ihx ihy _ =>
    obtain ⟨jx, h1, hj⟩ := bind_eq_ok hj
    obtain ⟨jy, h2, hj⟩ := bind_eq_ok hj
    cases hj
    obtain ⟨a0, a1, a2⟩ := ihx n hn he.1 _ h1
    obtain ⟨b0, b1, b2⟩ := ihy n hn he.2 _ h2
    exact ⟨pt_padd a0 b0, pt_padd a1 b1, pt_padd a2 b2⟩
  case mul x y ihx ihy _ =>
    obtain ⟨jx, h1, hj⟩ := bind_eq_ok hj
    obtain ⟨jy, h2, hj⟩ := bind_eq_ok hj
    cases hj
    obtain ⟨i, k, hik, hi, hk, hx, hy⟩ := he
    exact tt_tmul hik (ihx i hi hx _ h1) (ihy k hk hy _ h2)
  case pow a q ih hno =>
    obtain ⟨ja, h1, hj⟩ := bind_eq_ok hj
    split at hj
    · rename_i hq
      cases hj
      have hm : ∃ m, 0 ≤ m ∧ q * m ≤ n ∧ Ts G a m := by
        rcases he.2 with ⟨m, -, h0, hm, h⟩ | h
        · exact ⟨m, h0, hm, h⟩
        · exact ⟨0, le_refl _, by simpa using hn, h.ts⟩
      obtain ⟨m, h0, hm, h⟩ := hm
      have := tt_tpow (ih m h0 h _ h1) q.num.toNat
      rw [← isNat_toNat hq] at this
      exact this.up hm
    · rename_i hq
      split at hj
      · cases hj
      · cases hj
        rcases he.2 with ⟨m, hq', -⟩ | h
        · exact absurd hq' hq
        · have ha := ih 0 (le_refl _) h.ts _ h1
          have pw : ∀ q, PT G 0 (ppow ja.1 q) := fun q => pt_ppow (le_refl _) ha.1
          exact (tt_tcompose (pw _) (pt_pmul (i := 0) (j := 0) (by simp) (pt_pconst (le_refl _) _) (pw _))
            (pt_pmul (i := 0) (j := 0) (by simp) (pt_pconst (le_refl _) _) (pw _)) ha).up hn
  case func g a ih hno =>
    dsimp only at hj
    split at hj
    · cases hj
    · rename_i d hg
      obtain ⟨ja, h1, hj⟩ := bind_eq_ok hj
      split at hj
      · cases hj
      · cases hj
        have ha := ih 0 (le_refl _) he.1.1.ts _ h1
        have f0 : To G (.func g (toEx ja.1)) 0 := ⟨to_toEx (le_refl _) _ ha.1, le_refl _⟩
        obtain ⟨-, f1, f2⟩ := to_hereditary.dfunc hg _ f0
        exact (tt_tcompose (pt_patom (le_refl _) f0) (.of (le_refl _) (hereditary_reEx to_hereditary _ f1))
          (.of (le_refl _) (hereditary_reEx to_hereditary _ f2)) ha).up hn
  all_goals exact nomatch hj

theorem pt_taylor {k : ℚ} (hk : 0 ≤ k) (p q : Poly) (hp : PT G k p) (h : taylor p = .ok q) : PT G k q := by
  unfold taylor at h
  obtain ⟨j, h1, h2⟩ := bind_eq_ok h
  cases h2
  obtain ⟨a0, a1, a2⟩ := tt_expansion _ k hk (ts_toEx hk p hp) j h1
  have hs : To G (.sym epsSym) 0 := le_refl (0 : ℚ)
  exact pt_padd a0 (pt_padd (pt_pmul (i := 0) (by rw [zero_add]) (pt_patom (le_refl _) hs) a1)
    (pt_pmul (i := 0) (by rw [zero_add]) (.of (le_refl _) (.cons (.cons hs .nil) .nil)) a2))

/-! ## The weights of the open expectations -/

theorem wT_fnA {a : Ex} (h : FnA a) : wt G a ≤ 1 + wT G a := by
  rw [fnA_wt h]
  obtain ⟨u, args, v, rfl, -, -⟩ := h
  unfold fnD
  split
  · simp [ord, wT]
  · simp [ord, wT]

theorem pn_of_pt {n k : ℚ} (p : Poly) (h : Spec.PN n p) (hm : PT G k p) : PN G (n + k) p := by
  constructor
  · intro t ht f hf
    rcases h.1 t ht f hf with h' | h'
    · rcases hm.1 t ht f hf with h'' | ⟨⟨b, vars, e, hb⟩, -⟩
      · exact .inl (po_of_mo _ h'.1 0 h''.mo)
      · refine .inl (po_of_mo _ h'.1 (cost G vars) ?_)
        rw [e]
        exact ⟨le_refl _, by rw [sub_self]; exact hb.mo⟩
    · exact .inr h'
  · intro t ht
    have h1 : AllM Spec.Fac t.1 := h.1 t ht
    have h2 : AllM (FT G) t.1 := hm.1 t ht
    refine le_trans ?_ (add_le_add (h.2 t ht) (hm.2 t ht))
    generalize t.1 = m at h1 h2
    induction m with
    | nil => simp [degBy]
    | cons f m ih =>
      rw [degBy_cons, degBy_cons, degBy_cons]
      have := ih h1.tail h2.tail
      have : wt G f.1 * f.2 ≤ Spec.wt f.1 * f.2 + wT G f.1 * f.2 := by
        rcases h1.head with h' | ⟨h', n, e⟩
        · have h3 := ft_nonneg h2.head
          rw [h'.wt]
          have : Po G f.1 0 := by
            rcases h2.head with h'' | ⟨⟨b, vars, e, hb⟩, -⟩
            · exact po_of_mo _ h'.1 0 h''.mo
            · refine po_of_mo _ h'.1 (cost G vars) ?_
              rw [e]
              exact ⟨le_refl _, by rw [sub_self]; exact hb.mo⟩
          rw [this.wt]
          linarith
        · rw [h'.wt, ← add_mul, e]
          exact mul_le_mul_of_nonneg_right (wT_fnA h') (by positivity)
      linarith

/-- The weight of the right-hand sides of the first Reynolds equations. -/
theorem po_reynoldsTotal {K : Pkf} {coords : List Str} (h : DetSystem K coords) (q : Eqn) (hq : Deterministic q.2)
    (ho : occurs epsSym q.2 = false) (k : ℚ) (ht : To G q.2 k) (r : Eqn × Eqn) (hr : K.reynoldsEq q = .ok r) :
    Po G r.1.2 (2 + k) := by
  have hk := ht.nonneg
  unfold reynoldsEq at hr
  obtain ⟨rhs, h1, h2⟩ := bind_eq_ok hr
  cases h2
  have hsub : Pw (K.subs K.subsReynolds q.2) 0 ∧ To G (K.subs K.subsReynolds q.2) k := by
    constructor
    · refine pw_substAll _ (fun kv hkv => ?_) (fun kv hkv => ?_) _ (hq.pw _ ho)
      all_goals
        have hm := (h.arrange _).mem_iff.1 hkv
        obtain ⟨f, hf, rfl⟩ := List.mem_map.1 (Setting.mem_trends _ _ hm)
      · exact ⟨f.name, f.coordinates, rfl, by rw [h.same f hf]; exact h.noise⟩
      · refine ⟨⟨rfl, _, _, rfl, by simp⟩, -1, 1, by norm_num, ⟨by decide, rfl⟩, ?_⟩
        exact (if_pos (omega_error f)).symm
    · refine to_substAll _ (fun kv hkv => ?_) (fun kv hkv => ?_) _ k ht
      all_goals
        have hm := (h.arrange _).mem_iff.1 hkv
        obtain ⟨f, hf, rfl⟩ := List.mem_map.1 (Setting.mem_trends _ _ hm)
      · exact ⟨f.name, f.coordinates, rfl, by rw [h.same f hf]; exact h.noise⟩
      · exact ⟨⟨le_refl _, _, _, rfl, by simp⟩, 0, 0, by simp, le_refl (0 : ℚ), le_refl (0 : ℚ)⟩
  obtain ⟨h3, h4⟩ := pn_taylor _ rhs (wn_ofEx _ 0 hsub.1) h1
  have h5 : PT G k rhs := pt_taylor hk _ rhs (pt_ofEx _ k hsub.2) h1
  have h6 : Spec.PN 2 rhs := by
    refine ⟨h3, fun t ht => le_trans (h4 t ht).1 ?_⟩
    rcases (h4 t ht).2 with e | e | e <;> rw [e] <;> norm_num
  have h7 := Spec.po_subst _ _ (sorted_pconst 1) (fun m hm => Spec.pn_pconst (show Spec.Po (.sym epsSym) m from hm).2 1)
    (fun c vs h => by cases h) _ 2 (Spec.po_toEx (by norm_num) rhs h6).1
  have h8 := pt_subst (.sym epsSym) (fun _ _ h => by cases h) (fun _ _ h => by cases h) (pconst 1) (pt_pconst (le_refl (0 : ℚ)) 1) (toEx rhs) k
    (to_toEx hk rhs h5)
  exact po_toEx (by positivity) _ (pn_of_pt _ h7 h8)

theorem to_of_total (p N : ℕ) (e : Ex) (k : ℕ) (ho : TotalLe k e) (ht : TimeFree e) (hd : Deterministic e) : To (grade p N) e k := by
  have h0 : ∀ k : ℕ, (0 : ℚ) ≤ k := fun k => by positivity
  induction e generalizing k with
  | num => exact h0 k
  | sym => exact h0 k
  | fn => exact h0 k
  | func g a ih => exact ⟨by simpa using ih 0 ho ht hd, h0 k⟩
  | add a b iha ihb => exact ⟨iha k ho.1 ht.1 hd.1, ihb k ho.2 ht.2 hd.2⟩
  | mul a b iha ihb =>
    obtain ⟨i, j, hij, ha, hb⟩ := ho
    exact ⟨i, j, by exact_mod_cast hij, iha i ha ht.1 hd.1, ihb j hb ht.2 hd.2⟩
  | pow a q ih =>
    refine ⟨h0 k, ?_⟩
    rcases ho with ho | ⟨n, m, rfl, h1, h2, h3⟩
    · exact .inr (by simpa using ih 0 ho ht hd)
    · exact .inl ⟨m, (isNat_iff _).2 ⟨n, rfl⟩, by exact_mod_cast h1, by exact_mod_cast h2, ih m h3 ht hd⟩
  | deriv a vars ih =>
    have h1 := cost_timeFree p N vars ht.2
    have h2 : (((vars.map Prod.snd).sum : ℕ) : ℚ) ≤ k := by exact_mod_cast ho.1
    refine ⟨by linarith, (ih _ ho.2 ht.1 hd.1).up ?_⟩
    rw [Nat.cast_sub ho.1]
    linarith
  | integ a x ih => exact ⟨by simpa using ih 0 ho ht hd.1, h0 k⟩
  | ex a => exact hd.elim
  | other b => exact hd.elim

theorem po_meanTotal {K : Pkf} {coords : List Str} (h : EvolutionSystem K coords) {k : ℕ} (heps : ∀ q ∈ K.equations, occurs epsSym q.2 = false)
    (htot : ∀ q ∈ K.equations, TotalLe k q.2) (r : List (Eqn × Eqn)) (hr : K.reynolds = .ok r) (ms : List Eqn)
    (hms : K.expectationSystem = .ok ms) : ∀ q ∈ ms, Po (grade k k) q.2 0 := by
  obtain ⟨c, hc, -⟩ := h.det.closure_ok
  unfold expectationSystem secondOrder at hms
  simp only [hr, hc, bind, Except.bind, pure, Except.pure] at hms
  cases hms
  intro q hq
  obtain ⟨q1, hq1, rfl⟩ := List.mem_map.1 hq
  obtain ⟨q2, hq2, rfl⟩ := List.mem_map.1 hq1
  unfold reynolds at hr
  obtain ⟨q0, hq0, e⟩ := mem_mapM _ _ _ hr q2 hq2
  have p0 := po_reynoldsTotal (G := grade k k) h.det q0 (h.det.equations q0 hq0).2 (heps q0 hq0) k
    (to_of_total k k q0.2 k (htot q0 hq0) (h.evolution.2 q0 hq0) (h.det.equations q0 hq0).2) q2 e
  have p1 : Po (grade k k) (eval (.ex q2.1.2)) 0 := po_eval _ ⟨le_refl _, .inl p0⟩
  exact po_subs h c (fit_closure h c hc) _ 0 (po_subs h _ (fit_error h) _ 0 p1)

end Sympkf.Spec.Graded
