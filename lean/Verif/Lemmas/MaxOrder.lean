import Verif.Lemmas.Graded
import Verif.Spec.OrderBound

/-!
# Lemmas: the order of the derivatives in the Reynolds equations
-/

set_option autoImplicit false

namespace Sympkf.Spec.Graded

open Text Rand PKF Pkf

variable {G : Grade}

/-- The derivatives have the weight `k` at most; the only expectations are those of functions. -/
def Mo (G : Grade) : Ex → ℚ → Prop
  | .num _, _ => True
  | .sym _, _ => True
  | .fn _ _, _ => True
  | .func _ a, k => Mo G a k
  | .add x y, k => Mo G x k ∧ Mo G y k
  | .mul x y, k => Mo G x k ∧ Mo G y k
  | .pow a _, k => Mo G a k
  | .deriv a vars, k => cost G vars ≤ k ∧ Mo G a (k - cost G vars)
  | .integ a _, k => Mo G a k
  | .ex a, _ => ∃ u args, a = .fn u args ∧ omega ∈ args
  | .other _, _ => False

theorem Mo.up {e : Ex} {k k' : ℚ} (h : Mo G e k) (hk : k ≤ k') : Mo G e k' := by
  induction e generalizing k k' with
  | func g a ih => exact ih (k := k) h hk
  | add x y ihx ihy => exact ⟨ihx h.1 hk, ihy h.2 hk⟩
  | mul x y ihx ihy => exact ⟨ihx h.1 hk, ihy h.2 hk⟩
  | pow a q ih => exact ih (k := k) h hk
  | deriv a vars ih => exact ⟨le_trans h.1 hk, ih h.2 (by linarith)⟩
  | integ a x ih => exact ih (k := k) h hk
  | ex a ih => exact h
  | other b => exact h
  | _ => trivial

theorem mo_hereditary (k : ℚ) : Hereditary (fun e => Mo G e k) where
  num _ := trivial
  add _ _ h h' := ⟨h, h'⟩
  mul _ _ h h' := ⟨h, h'⟩
  func _ _ _ _ _ h := ⟨h, h⟩
  add_inv _ _ h := h
  mul_inv _ _ h := h
  pow _ _ := Iff.rfl

/-- Polynomials with derivatives of weight at most `k`. -/
abbrev MP (G : Grade) (k : ℚ) (p : Poly) : Prop := AllF (fun a _ => Mo G a k) p

theorem MP.up {p : Poly} {k k' : ℚ} (h : MP G k p) (hk : k ≤ k') : MP G k' p := fun t ht f hf => (h t ht f hf).up hk

theorem mo_diffAtom (x : Str) (e : Ex) (k : ℚ) (hk : 0 ≤ k) (h : Mo G e k) : MP G (k + G.ow x) (diffAtom x e) := by
  have h1 := G.ow0 x
  have hup : k ≤ k + G.ow x := by linarith
  have mul := mulOK_prop (fun e => Mo G e (k + G.ow x))
  have hH := mo_hereditary (G := G) (k + G.ow x)
  have opq : ∀ a : Ex, Mo G a k → Mo G (.deriv a [(x, 1)]) (k + G.ow x) := by
    intro a ha
    have : cost G [(x, 1)] = G.ow x := by simp [cost]
    refine ⟨by rw [this]; linarith, ?_⟩
    rw [this, add_sub_cancel_right]
    exact ha
  induction e with
  | num => exact .nil
  | sym s =>
    simp only [diffAtom]
    split
    · exact allF_pconst 1
    · exact .nil
  | func g a ih =>
    simp only [diffAtom]
    split
    · rename_i hg
      obtain ⟨-, h2, -⟩ := hH.dfunc hg a (h.up hup)
      exact allF_pmul mul _ _ (hereditary_reEx hH _ h2) (ih h)
    · exact allF_patom _ (opq _ h)
  | add a b iha ihb => exact allF_padd _ _ (iha h.1) (ihb h.2)
  | mul a b iha ihb =>
    exact allF_padd _ _ (allF_pmul mul _ _ (iha h.1) (hereditary_reEx hH b (h.2.up hup)))
      (allF_pmul mul _ _ (hereditary_reEx hH a (h.1.up hup)) (ihb h.2))
  | pow a q ih =>
    have ha : Mo G a k := h
    exact allF_pmul mul _ _ (allF_pmul mul _ _ (allF_pconst _) (hereditary_ppow hH _ _ (hereditary_reEx hH a (ha.up hup)))) (ih ha)
  | deriv b vars =>
    simp only [diffAtom]
    split
    · exact .nil
    · refine allF_patom _ ⟨?_, ?_⟩
      · rw [cost_bumpVar]; linarith [h.1]
      · rw [cost_bumpVar]; exact h.2.up (by linarith)
  | other b => exact h.elim
  | _ =>
    simp only [diffAtom]
    split
    · exact .nil
    · exact allF_patom _ (opq _ h)

theorem mo_pdiff (x : Str) (p : Poly) (k : ℚ) (hk : 0 ≤ k) (h : MP G k p) : MP G (k + G.ow x) (pdiff x p) := by
  have hup : k ≤ k + G.ow x := by linarith [G.ow0 x]
  have mul := mulOK_prop (fun e => Mo G e (k + G.ow x))
  have mono : ∀ m : Mono, AllM (fun a _ => Mo G a k) m → MP G (k + G.ow x) (diffMono x m) := by
    intro m hm
    induction m with
    | nil => exact .nil
    | cons f m ih =>
      obtain ⟨a, q⟩ := f
      have ha : Mo G a (k + G.ow x) := Mo.up (k := k) hm.head hup
      have hm' : AllM (fun a _ => Mo G a (k + G.ow x)) m := fun f hf => (hm.tail f hf).up hup
      refine allF_padd _ _ ?_ (allF_pmul mul _ _ (AllF.cons (AllM.cons ha .nil) .nil) (ih hm.tail))
      refine allF_pmul mul _ _ (allF_pmul mul _ _ (allF_pmul mul _ _ (allF_pconst q) ?_) (mo_diffAtom x a k hk hm.head)) (AllF.cons hm' .nil)
      split
      · exact allF_pconst 1
      · exact AllF.cons (AllM.cons ha .nil) .nil
  induction p with
  | nil => exact .nil
  | cons t p ih => exact allF_padd _ _ (allF_pmul mul _ _ (allF_pconst _) (mono _ h.head)) (ih h.tail)

theorem mo_pdiffs (vars : List (Str × ℕ)) (p : Poly) (k : ℚ) (hk : 0 ≤ k) (h : MP G k p) : MP G (k + cost G vars) (pdiffs vars p) := by
  induction vars generalizing p k with
  | nil => rw [cost_nil, add_zero]; exact h
  | cons v vars ih =>
    rw [cost_cons, ← add_assoc]
    have hv : 0 ≤ G.ow v.1 * v.2 := mul_nonneg (G.ow0 v.1) (Nat.cast_nonneg _)
    refine ih _ _ (by linarith) ?_
    show MP G _ ((pdiff v.1)^[v.2] p)
    clear hv
    generalize v.2 = n
    clear ih
    induction n generalizing p k with
    | zero => simpa using h
    | succ n ih =>
      rw [Function.iterate_succ_apply]
      exact (ih _ _ (by linarith [G.ow0 v.1]) (mo_pdiff v.1 p k hk h)).up (by push_cast; linarith)

theorem mo_deriv {a : Ex} {k : ℚ} {vars : List (Str × ℕ)} {p : Poly} (ih : ∀ j, 0 ≤ j → Mo G a j → MP G j p) (h : Mo G (.deriv a vars) k) :
    MP G k (pdiffs vars p) := by
  have h1 : 0 ≤ k - cost G vars := by linarith [h.1]
  exact (mo_pdiffs vars p _ h1 (ih _ h1 h.2)).up (by linarith)

theorem mo_ofEx (e : Ex) (k : ℚ) (hk : 0 ≤ k) (h : Mo G e k) : MP G k (ofEx e) := by
  have mul := mulOK_prop (fun e => Mo G e k)
  induction e generalizing k with
  | num q => exact allF_pconst q
  | sym s => exact allF_patom _ trivial
  | fn u args => exact allF_patom _ trivial
  | func g a ih => exact allF_patom _ (hereditary_toEx (mo_hereditary k) _ (ih k hk h mul))
  | add x y ihx ihy => exact allF_padd _ _ (ihx k hk h.1 mul) (ihy k hk h.2 mul)
  | mul x y ihx ihy => exact allF_pmul mul _ _ (ihx k hk h.1 mul) (ihy k hk h.2 mul)
  | pow a q ih => exact hereditary_ppow (mo_hereditary k) _ _ (ih k hk h mul)
  | deriv a vars ih => exact mo_deriv (fun j hj ha => ih j hj ha (mulOK_prop _)) h
  | integ a x ih => exact allF_patom _ (hereditary_toEx (mo_hereditary k) _ (ih k hk h mul))
  | ex a ih =>
    obtain ⟨u, args, rfl, ho⟩ := h
    rw [ofEx_exFn u args ho]
    exact allF_patom _ ⟨u, args, rfl, ho⟩
  | other b => exact h.elim

theorem mo_eval (e : Ex) (k : ℚ) (hk : 0 ≤ k) (h : Mo G e k) : Mo G (eval e) k := hereditary_toEx (mo_hereditary k) _ (mo_ofEx e k hk h)

/-- Substitution of an expression without derivatives for a function or a symbol. -/
theorem mo_subst (old : Ex) (hold : ∀ b vs, old ≠ .deriv b vs) (ho' : ∀ u args, old = .fn u args → omega ∉ args) (new : Poly)
    (hnew : MP G 0 new) (e : Ex) (k : ℚ) (hk : 0 ≤ k) (h : Mo G e k) : MP G k (subst old new e) := by
  have mul := mulOK_prop (fun e => Mo G e k)
  have hn : ∀ j, 0 ≤ j → MP G j new := fun j hj => hnew.up hj
  induction e generalizing k with
  | num q => unfold subst; split; exacts [hn k hk, allF_pconst q]
  | sym s => unfold subst; split; exacts [hn k hk, allF_patom _ trivial]
  | fn u args => unfold subst; split; exacts [hn k hk, allF_patom _ trivial]
  | func g a ih => unfold subst; split; exacts [hn k hk, allF_patom _ (hereditary_toEx (mo_hereditary k) _ (ih k hk h mul))]
  | add x y ihx ihy => unfold subst; split; exacts [hn k hk, allF_padd _ _ (ihx k hk h.1 mul) (ihy k hk h.2 mul)]
  | mul x y ihx ihy => unfold subst; split; exacts [hn k hk, allF_pmul mul _ _ (ihx k hk h.1 mul) (ihy k hk h.2 mul)]
  | pow a q ih => unfold subst; split; exacts [hn k hk, hereditary_ppow (mo_hereditary k) _ _ (ih k hk h mul)]
  | deriv a vars ih =>
    unfold subst; split
    · exact hn k hk
    · simp only []
      split
      · rename_i rest hrest
        unfold derivRest at hrest
        split at hrest
        · exact absurd rfl (hold _ _)
        · cases hrest
      · exact mo_deriv (fun j hj ha => ih j hj ha (mulOK_prop _)) h
  | integ a x ih => unfold subst; split; exacts [hn k hk, allF_patom _ (hereditary_toEx (mo_hereditary k) _ (ih k hk h mul))]
  | ex a ih =>
    unfold subst; split
    · exact hn k hk
    · obtain ⟨u, args, rfl, ho⟩ := h
      have hs : subst old new (.fn u args) = patom (.fn u args) := by
        unfold subst
        rw [if_neg (fun h => ho' u args h.symm ho)]
      show MP G k (pexpect (subst old new (.fn u args)))
      rw [hs]
      have e : pexpect (patom (.fn u args)) = patom (.ex (.fn u args)) := ofEx_exFn u args ho
      rw [e]
      exact allF_patom _ ⟨u, args, rfl, ho⟩
  | other b => exact h.elim

theorem mo_substAll (l : List (Ex × Ex)) (hl : ∀ kv ∈ l, ∃ u args, kv.1 = .fn u args ∧ omega ∉ args) (hn : ∀ kv ∈ l, Mo G kv.2 0)
    (e : Ex) (k : ℚ) (hk : 0 ≤ k) (he : Mo G e k) : Mo G (substAll l e) k := by
  unfold substAll
  have h0 := mo_eval e k hk he
  generalize eval e = e0 at h0
  clear he
  induction l generalizing e0 with
  | nil => exact h0
  | cons kv l ih =>
    refine ih (fun kv h => hl kv (by simp [h])) (fun kv h => hn kv (by simp [h])) _ ?_
    obtain ⟨u, args, hu, ho⟩ := hl kv (by simp)
    have hev : eval kv.1 = .fn u args := by rw [hu, Spec.eval_fn]
    show Mo G (toEx (subst (eval kv.1) (ofEx kv.2) (eval e0))) k
    rw [hev]
    exact hereditary_toEx (mo_hereditary k) _ (mo_subst _ (fun _ _ h => by cases h) (fun _ _ h => by cases h; exact ho) _
      (mo_ofEx _ 0 (le_refl _) (hn kv (by simp))) _ k hk (mo_eval e0 k hk h0))

/-! ## Both gradings -/

theorem po_of_mo (e : Ex) (h : Spec.Po e 0) (k : ℚ) (hm : Mo G e k) : Po G e 0 := by
  induction e generalizing k with
  | num => exact h
  | sym => exact h
  | fn u args => exact h
  | func g a ih => exact ⟨ih h.1 k hm, le_refl _⟩
  | add x y ihx ihy => exact ⟨ihx h.1 k hm.1, ihy h.2 k hm.2⟩
  | mul x y ihx ihy =>
    obtain ⟨i, j, hij, hx, hy⟩ := h
    have := hx.nonneg
    have := hy.nonneg
    exact ⟨0, 0, by simp, ihx (hx.up (by linarith)) k hm.1, ihy (hy.up (by linarith)) k hm.2⟩
  | pow a q ih =>
    refine ⟨le_refl _, .inr (ih ?_ k hm)⟩
    rcases h.2 with ⟨m, -, h2, h3, h4⟩ | h
    · have hm : m ≤ 0 := by
        by_contra hc
        have := mul_pos h2 (lt_of_not_ge hc)
        linarith
      exact h4.up hm
    · exact h
  | deriv a vars ih => exact ⟨.inr ⟨ih h.1 _ hm.2, le_refl _⟩, h.2⟩
  | integ a x ih => exact ⟨ih h.1 k hm, h.2.1, le_refl _⟩
  | ex a ih =>
    obtain ⟨u, args, rfl, ho⟩ := hm
    exact fr_exFn u args ho
  | other b => exact h.elim

theorem mo_fnA {a : Ex} {k : ℚ} (hk : 0 ≤ k) (hm : Mo G a k) (h : FnA a) : wt G a ≤ 1 + k := by
  rw [fnA_wt h]
  obtain ⟨u, args, v, rfl, -, -⟩ := h
  unfold fnD at hm ⊢
  split
  · simpa [ord] using hk
  · rename_i e
    rw [if_neg e] at hm
    have := hm.1
    simp only [ord]
    linarith

theorem pn_of_mo {n k : ℚ} (hk : 0 ≤ k) (p : Poly) (h : Spec.PN n p) (hm : MP G k p) : PN G ((1 + k) * n) p := by
  constructor
  · intro t ht f hf
    rcases h.1 t ht f hf with h' | h'
    · exact .inl (po_of_mo _ h'.1 k (hm t ht f hf))
    · exact .inr h'
  · intro t ht
    refine le_trans ?_ (mul_le_mul_of_nonneg_left (h.2 t ht) (by linarith))
    have h1 : AllM Spec.Fac t.1 := h.1 t ht
    have h2 := hm t ht
    generalize t.1 = m at h1 h2
    induction m with
    | nil => simp [degBy]
    | cons f m ih =>
      rw [degBy_cons, degBy_cons, mul_add]
      refine add_le_add ?_ (ih h1.tail (fun f hf => h2 f (by simp [hf])))
      rcases h1.head with h' | ⟨h', n, e⟩
      · rw [h'.wt, (po_of_mo _ h'.1 k (h2 f (by simp))).wt]; simp
      · rw [h'.wt, e, one_mul]
        exact mul_le_mul_of_nonneg_right (mo_fnA hk (h2 f (by simp)) h') (by positivity)

theorem po_epsOne {n k : ℚ} (hn : 0 ≤ n) (hk : 0 ≤ k) (p : Poly) (h : Spec.PN n p) (hm : MP G k p) : Po G (epsOne p) ((1 + k) * n) := by
  have h1 := Spec.po_subst _ _ (sorted_pconst 1) (fun m hm => Spec.pn_pconst (show Spec.Po (.sym epsSym) m from hm).2 1) (fun c vs h => by cases h) _ n
    (Spec.po_toEx hn p h).1
  have h2 := mo_subst (.sym epsSym) (fun _ _ h => by cases h) (fun _ _ h => by cases h) (pconst 1) (allF_pconst 1) (toEx p) k hk
    (hereditary_toEx (mo_hereditary k) p hm)
  exact po_toEx (by positivity) _ (pn_of_mo hk _ h1 h2)

/-- The weights of the right-hand sides of the Reynolds equations. -/
theorem po_reynoldsEq {K : Pkf} {coords : List Str} (h : DetSystem K coords) (q : Eqn) (hq : Deterministic q.2)
    (ho : occurs epsSym q.2 = false) (k : ℚ) (hk : 0 ≤ k) (hm : Mo G q.2 k) (r : Eqn × Eqn) (hr : K.reynoldsEq q = .ok r) :
    Po G r.1.2 ((1 + k) * 2) ∧ Po G r.2.2 (1 + k) := by
  unfold reynoldsEq at hr
  obtain ⟨rhs, h1, h2⟩ := bind_eq_ok hr
  cases h2
  have hsub : Pw (K.subs K.subsReynolds q.2) 0 ∧ Mo G (K.subs K.subsReynolds q.2) k := by
    constructor
    · refine pw_substAll _ (fun kv hkv => ?_) (fun kv hkv => ?_) _ (hq.pw _ ho)
      all_goals
        have hm := (h.arrange _).mem_iff.1 hkv
        obtain ⟨f, hf, rfl⟩ := List.mem_map.1 (Setting.mem_trends _ _ hm)
      · exact ⟨f.name, f.coordinates, rfl, by rw [h.same f hf]; exact h.noise⟩
      · refine ⟨⟨rfl, _, _, rfl, by simp⟩, -1, 1, by norm_num, ⟨by decide, rfl⟩, ?_⟩
        exact (if_pos (omega_error f)).symm
    · refine mo_substAll _ (fun kv hkv => ?_) (fun kv hkv => ?_) _ k hk hm
      all_goals
        have hm := (h.arrange _).mem_iff.1 hkv
        obtain ⟨f, hf, rfl⟩ := List.mem_map.1 (Setting.mem_trends _ _ hm)
      · exact ⟨f.name, f.coordinates, rfl, by rw [h.same f hf]; exact h.noise⟩
      · exact ⟨⟨_, _, rfl, by simp⟩, trivial, trivial⟩
  obtain ⟨h3, h4⟩ := pn_taylor _ rhs (wn_ofEx _ 0 hsub.1) h1
  have h5 : MP G k rhs := taylor_all (mo_hereditary k) (fun _ _ _ _ b hb => hb) trivial _ rhs (mo_ofEx _ k hk hsub.2) h1
  constructor
  · refine po_epsOne (by norm_num) hk _ ⟨h3, fun t ht => le_trans (h4 t ht).1 ?_⟩ h5
    rcases (h4 t ht).2 with e | e | e <;> rw [e] <;> norm_num
  · have := po_epsOne (n := 1) (by norm_num) hk (dropSquare rhs) ⟨fun t ht => h3 t (List.mem_filter.1 ht).1, fun t ht => ?_⟩
      (fun t ht => h5 t (List.mem_filter.1 ht).1)
    · rwa [mul_one] at this
    · obtain ⟨ht, he⟩ := List.mem_filter.1 ht
      refine le_trans (h4 t ht).1 ?_
      rcases (h4 t ht).2 with e | e | e
      · rw [e]; norm_num
      · rw [e]
      · rw [e] at he; simp at he

end Sympkf.Spec.Graded
