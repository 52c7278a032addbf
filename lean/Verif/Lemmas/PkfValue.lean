import Verif.Lemmas.ReynoldsSpec
import Verif.Lemmas.TreeVars
import Verif.Props.Tree
import Verif.Props.Field

/-!
# Lemmas: the operations of `SymbolicPKF` preserve values
-/

set_option autoImplicit false

namespace Sympkf.Spec

open Text Rand PKF Pkf

variable {R : Type} [CommRing R] [Algebra ℚ R] {S : Interp R} {A : Subalgebra ℚ R} {P : Set R} {C : Set Str}
  {K : Pkf} {coords : List Str}

namespace Setting

variable (h : Setting S A P C K coords)
include h

theorem omega_notMem : omega ∉ coords := fun ho => h.calculus.omega_notMem (h.sub _ ho)

theorem spatial (f : Field) (hf : f ∈ K.fields) : f.spatial = coords.filter (· ≠ time) := by
  unfold Field.spatial; rw [h.same f hf]

theorem spatial_mem (f : Field) (hf : f ∈ K.fields) (x : Str) (hx : x ∈ f.spatial) : x ∈ C := by
  rw [h.spatial f hf] at hx
  exact h.sub x (List.mem_filter.1 hx).1

theorem omega_field (f : Field) (hf : f ∈ K.fields) : omega ∉ f.coordinates := by
  rw [h.same f hf]; exact h.omega_notMem

theorem std_det (f : Field) (hf : f ∈ K.fields) (q : ℚ) : S.pw (den S f.variance) q ∈ A :=
  h.stoch.pw_det _ _ (h.stoch.fn_det _ _ (h.omega_field f hf))

theorem error_centred (f : Field) (hf : f ∈ K.fields) : S.E (den S f.error) = 0 := by
  rw [(h.normal f hf).error, mul_comm, h.stoch.E_mul _ _ (h.std_det f hf _), (h.normal f hf).centred, mul_zero]

theorem error_var (f : Field) (hf : f ∈ K.fields) : S.E (den S f.error ^ 2) = den S f.variance := by
  rw [(h.normal f hf).error, mul_pow, (h.normal f hf).sqrt_sq, mul_comm,
    h.stoch.E_mul _ _ (show den S f.variance ∈ A from h.stoch.fn_det _ _ (h.omega_field f hf)), (h.normal f hf).normed, mul_one]

omit h in
theorem regular_det (u : Str) (args : List Str) (ho : omega ∉ args) : Regular S P C (.fn u args) := fun h => absurd h ho

theorem regular_error (f : Field) (hf : f ∈ K.fields) : Regular S P C f.error := fun _ => h.error_centred f hf

theorem regular_epsilon (f : Field) (hf : f ∈ K.fields) : Regular S P C f.epsilon := fun _ => (h.normal f hf).centred

theorem regular_variance (f : Field) (hf : f ∈ K.fields) : Regular S P C f.variance :=
  regular_det _ _ (h.omega_field f hf)

theorem regular_metric (f : Field) (hf : f ∈ K.fields) (i j : ℕ) : Regular S P C (f.metric i j) :=
  regular_det _ _ (h.omega_field f hf)

theorem variance_pos (f : Field) : den S f.variance ∈ P := by
  apply h.calculus.positive
  simp [positiveFn]

theorem regular_pow (f : Field) (hf : f ∈ K.fields) (q : ℚ) : Regular S P C (.pow f.variance q) :=
  ⟨h.regular_variance f hf, .inr (h.variance_pos f)⟩

theorem regular_derivSeq (f : Field) (hf : f ∈ K.fields) (s : List Str) : Regular S P C (derivSeq f.spatial f.epsilon s) := by
  refine ⟨h.regular_epsilon f hf, fun v hv => ?_⟩
  obtain ⟨x, hx, rfl⟩ := List.mem_map.1 hv
  exact h.spatial_mem f hf x (List.mem_filter.1 hx).1

theorem regular_dt (e : Ex) (he : Regular S P C e) : Regular S P C (dt e) :=
  ⟨he, by simpa using h.time_mem⟩

/-! ## Substitution of equal expressions -/

theorem subs_spec (d : Dict Ex Ex) (hd : ∀ kv ∈ d, Valid S P C kv) (e : Ex) (he : Regular S P C e) :
    den S (K.subs d e) = den S e ∧ Regular S P C (K.subs d e) :=
  substAll_spec h.stoch h.calculus _ (fun kv hkv => hd kv ((h.arrange d).mem_iff.1 hkv)) e he

omit h in
theorem mem_trends (l : List Eqn) (kv : Ex × Ex) (hkv : kv ∈ trends l) : kv ∈ l := by
  rcases Dict.mem_update _ _ _ hkv with hkv | hkv
  · simp at hkv
  · exact hkv

theorem subsError_valid : ∀ kv ∈ K.subsError, Valid S P C kv := by
  intro kv hkv
  obtain ⟨f, hf, rfl⟩ := List.mem_map.1 (mem_trends _ _ hkv)
  refine ⟨h.regular_error f hf, ⟨h.regular_pow f hf _, h.regular_epsilon f hf⟩, ?_⟩
  show den S f.error = S.pw (den S f.variance) (1 / 2) * den S f.epsilon
  rw [(h.normal f hf).error, mul_comm]

/-! ## The internal closure -/

theorem fieldClosure_regular (f : Field) (hf : f ∈ K.fields) (c : Dict Ex Ex) (hc : f.internalClosure K.order = .ok c) :
    ∀ kv ∈ c, Regular S P C kv.1 ∧ Regular S P C kv.2 := by
  have e := h.spatial f hf
  obtain ⟨c', h1, -, h3⟩ := internalClosure_spec K.order h.order f (e ▸ h.space) (e ▸ h.nodup.filter _)
  rw [h1] at hc
  cases hc
  intro kv hkv
  have he := h.regular_epsilon f hf
  have two : isNat 2 = true := by decide +kernel
  have hmul : ∀ s, Regular S P C (.ex (.mul f.epsilon (derivSeq f.spatial f.epsilon s))) :=
    fun s => .inl ⟨he, h.regular_derivSeq f hf s⟩
  rcases h3 kv hkv with rfl | rfl | rfl | rfl | ⟨x, hx, rfl⟩ | ⟨i, j, hij, hj, rfl⟩ | ⟨k, i, j, hk, hi, hj, rfl⟩
  · exact ⟨.inl (h.regular_error f hf), trivial⟩
  · exact ⟨.inl ⟨h.regular_error f hf, .inl two⟩, h.regular_variance f hf⟩
  · exact ⟨.inl he, trivial⟩
  · exact ⟨.inl ⟨he, .inl two⟩, trivial⟩
  · exact ⟨hmul _, trivial⟩
  · exact ⟨hmul _, trivial, h.regular_metric f hf i j⟩
  · have hx : ∀ x ∈ f.spatial, x ∈ C := h.spatial_mem f hf
    exact ⟨hmul _, trivial, ⟨⟨h.regular_metric f hf _ _, by simpa using hx i hi⟩,
      ⟨h.regular_metric f hf _ _, by simpa using hx j hj⟩⟩, h.regular_metric f hf _ _, by simpa using hx k hk⟩

theorem covariance_regular (f g : Field) (v : Ex) (hv : covariance label K.fields f g = .ok v) : Regular S P C v := by
  obtain ⟨h1, -, -⟩ := (PKF.C41_covariance_errors label K.fields f g).2.2.1 ⟨v, hv⟩
  unfold covariance at hv
  split at hv
  · split at hv
    · cases hv
      exact regular_det _ _ (h.omega_field f h1)
    · cases hv
  · cases hv

theorem closure_ok : ∃ c, K.closure = .ok c := by
  obtain ⟨c, hc, -⟩ := PKF.C41_internal_closure K.order h.order h.stoch label K.fields coords h.same h.nodup h.omega_notMem h.space
    h.normal h.cov
  exact ⟨c, hc⟩

theorem closure_valid (c : Dict Ex Ex) (hc : K.closure = .ok c) : ∀ kv ∈ c, Valid S P C kv := by
  obtain ⟨c', h1, -, h3⟩ := PKF.C41_internal_closure K.order h.order h.stoch label K.fields coords h.same h.nodup h.omega_notMem
    h.space h.normal h.cov
  have e : c' = c := Except.ok.inj (h1.symm.trans hc)
  subst e
  have reg : ∀ kv ∈ c', Regular S P C kv.1 ∧ Regular S P C kv.2 := by
    unfold Pkf.closure internalClosure at hc
    simp only [bind, Except.bind] at hc
    split at hc
    · cases hc
    rename_i c1 hc1
    have r1 : ∀ kv ∈ c1, Regular S P C kv.1 ∧ Regular S P C kv.2 := by
      refine foldlM_ok _ (fun c : Dict Ex Ex => ∀ kv ∈ c, Regular S P C kv.1 ∧ Regular S P C kv.2) _ _ _ hc1 (by simp) ?_
      intro s f s' hf hs hstep
      split at hstep
      · cases hstep
      rename_i cf hcf
      cases hstep
      intro kv hkv
      rcases Dict.mem_update _ _ _ hkv with hkv | hkv
      · exact hs kv hkv
      · exact h.fieldClosure_regular f hf cf hcf kv hkv
    refine foldlM_ok _ (fun c : Dict Ex Ex => ∀ kv ∈ c, Regular S P C kv.1 ∧ Regular S P C kv.2) _ _ _ hc r1 ?_
    intro s p s' hp hs hstep
    have hm := ((PKF.C41_couples K.fields).1 p.1 p.2).1 hp
    have m1 : p.1 ∈ K.fields := hm.subset (by simp)
    have m2 : p.2 ∈ K.fields := hm.subset (by simp)
    unfold coupleEntries at hstep
    simp only [bind, Except.bind] at hstep
    split at hstep
    · cases hstep
    rename_i v hv
    cases hstep
    intro kv hkv
    rcases Dict.mem_set _ _ _ _ hkv with rfl | hkv
    · exact ⟨.inl ⟨h.regular_epsilon _ m1, h.regular_epsilon _ m2⟩, h.covariance_regular _ _ v hv,
        h.regular_pow _ m1 _, h.regular_pow _ m2 _⟩
    · rcases Dict.mem_set _ _ _ _ hkv with rfl | hkv
      · exact ⟨.inl ⟨h.regular_error _ m1, h.regular_error _ m2⟩, h.covariance_regular _ _ v hv⟩
      · exact hs kv hkv
  intro kv hkv
  exact ⟨(reg kv hkv).1, (reg kv hkv).2, h3 kv hkv⟩

/-! ## The tree -/

omit h in
theorem den_ofTree (l : List Str) (eps : Ex) (v : Tree.TEx) : den S (ofTree l eps v) = treeVal S l (den S eps) v := by
  induction v with
  | term t => rfl
  | d x e ih => simp only [ofTree, den, ih, treeVal]; rfl
  | sub e f ihe ihf => simp only [ofTree, den, ihe, ihf, treeVal, map_neg, map_one]; ring
  | half e ih => simp only [ofTree, den, ih, treeVal]

theorem regular_dalpha (f : Field) (hf : f ∈ K.fields) (a : List ℤ) : Regular S P C (dalpha f.spatial f.epsilon a) := by
  refine ⟨h.regular_epsilon f hf, fun v hv => ?_⟩
  exact h.spatial_mem f hf _ (List.of_mem_zip hv).1

theorem regular_ofTree (f : Field) (hf : f ∈ K.fields) (v : Tree.TEx) (hv : Tree.Along f.spatial v) :
    Regular S P C (ofTree f.spatial f.epsilon v) := by
  induction v with
  | term t => exact .inl ⟨h.regular_dalpha f hf _, h.regular_dalpha f hf _⟩
  | d x e ih => exact ⟨ih hv.2, by simpa using h.spatial_mem f hf x hv.1⟩
  | sub e g ihe ihg => exact ⟨ihe hv.1, trivial, ihg hv.2⟩
  | half e ih => exact ⟨trivial, ih hv⟩

theorem closedTree_valid (c : Dict Ex Ex) (hc : ∀ kv ∈ c, Valid S P C kv) (f : Field) (hf : f ∈ K.fields) (d : ℕ) :
    ∃ t, K.closedTree c f d = .ok t ∧ ∀ kv ∈ t, Valid S P C kv := by
  have e := h.spatial f hf
  have h0 : f.spatial ≠ [] := e ▸ h.space
  have hn : f.spatial.Nodup := e ▸ h.nodup.filter _
  have ho : omega ∉ f.spatial := fun ho => h.omega_field f hf (List.mem_filter.1 ho).1
  have hreach : Tree.Reachable K.order f.spatial true Tree.State.init := ⟨[], rfl⟩
  obtain ⟨tree, s', h1, h2⟩ := Tree.C38_tree_complete K.order h.order f.spatial h0 hn ho true _ hreach d
  have hal := Tree.call_along K.order f.spatial true (some d) Tree.State.init s' tree h1 ⟨by simp [Tree.State.init], by simp [Tree.State.init]⟩
  unfold Pkf.closedTree
  simp only [h1, bind, Except.bind, pure, Except.pure]
  refine ⟨_, rfl, fun kv hkv => ?_⟩
  obtain ⟨tv, htv, rfl⟩ := List.mem_map.1 (mem_trends _ _ hkv)
  obtain ⟨t, v⟩ := tv
  have hval := Tree.C37_tree_sound K.order h.order f.spatial h0 hn ho true _ hreach (some d) tree s' h1 t v
    (Dict.get?_of_mem (Tree.call_nodup K.order f.spatial true _ _ _ _ h1) htv) S A h.stoch (den S f.epsilon)
  have r1 := h.regular_ofTree f hf (.term t) trivial
  have r2 := h.regular_ofTree f hf v (hal _ htv)
  obtain ⟨e1, e2⟩ := eval_spec h.stoch h.calculus _ r1
  obtain ⟨e3, e4⟩ := h.subs_spec c hc _ r2
  refine ⟨e2, e4, ?_⟩
  rw [e1, e3, den_ofTree, den_ofTree, hval]
  rfl

omit h in
theorem fieldOf_mem (eps : Ex) (f : Field) (hf : K.fieldOf eps = some f) : f ∈ K.fields ∧ f.epsilon = eps := by
  have h1 := List.find?_some hf
  have h2 := List.mem_of_find?_eq_some hf
  exact ⟨by simpa using h2, by simpa using h1⟩

/-- What `_apply_internal_closure` does to the value of an expression. -/
theorem applyInternal_spec (c : Dict Ex Ex) (hc : ∀ kv ∈ c, Valid S P C kv) (rhs : Ex) (hr : Regular S P C rhs) :
    (∀ r, K.applyInternal c rhs = .ok r → den S r = den S rhs ∧ Regular S P C r) ∧
      ((∀ u ∈ univariates rhs, ∃ f ∈ K.fields, f.epsilon = u.1) → ∃ r, K.applyInternal c rhs = .ok r) ∧
      ((¬ ∀ u ∈ univariates rhs, ∃ f ∈ K.fields, f.epsilon = u.1) → K.applyInternal c rhs = .error .runtimeError) := by
  have hany : ((univariates rhs).any (fun u => (K.fieldOf u.1).isNone)) = false ↔
      ∀ u ∈ univariates rhs, ∃ f ∈ K.fields, f.epsilon = u.1 := by
    rw [List.any_eq_false]
    refine forall₂_congr (fun u _ => ?_)
    unfold Pkf.fieldOf
    simp
  have key : ∀ (unis : List (Ex × ℕ)) (l : List Ex), (∀ eps ∈ l, ∃ f ∈ K.fields, f.epsilon = eps) → ∀ e, Regular S P C e →
      ∃ r, l.foldlM (K.applyTree c unis) e = .ok r ∧ den S r = den S e ∧ Regular S P C r := by
    intro unis l
    induction l with
    | nil => intro _ e he; exact ⟨e, rfl, rfl, he⟩
    | cons eps l ih =>
      intro hl e he
      obtain ⟨f, hf⟩ : ∃ f, K.fieldOf eps = some f := by
        obtain ⟨f, hf, hfe⟩ := hl eps (by simp)
        refine Option.isSome_iff_exists.1 ?_
        unfold Pkf.fieldOf
        rw [List.find?_isSome]
        exact ⟨f, by simpa using hf, by simpa using hfe⟩
      obtain ⟨t, ht, hv⟩ := h.closedTree_valid c hc f (fieldOf_mem eps f hf).1
        (((unis.filter (fun u => u.1 = eps)).map Prod.snd).foldr max 0)
      obtain ⟨e1, e2⟩ := h.subs_spec t hv e he
      obtain ⟨r, h1, h2, h3⟩ := ih (fun eps' h' => hl eps' (by simp [h'])) _ e2
      refine ⟨r, ?_, h2.trans e1, h3⟩
      rw [List.foldlM_cons]
      unfold applyTree
      rw [hf]
      simp only [ht, bind, Except.bind, pure, Except.pure]
      exact h1
  by_cases hu : ∀ u ∈ univariates rhs, ∃ f ∈ K.fields, f.epsilon = u.1
  · obtain ⟨r, h1, h2, h3⟩ := key (univariates rhs) ((univariates rhs).map Prod.fst).dedup (by
      intro eps he
      obtain ⟨u, hu', rfl⟩ := List.mem_map.1 (List.mem_dedup.1 he)
      exact hu u hu') rhs hr
    obtain ⟨e1, e2⟩ := h.subs_spec c hc r h3
    have e : K.applyInternal c rhs = .ok (K.subs c r) := by
      unfold applyInternal
      simp only [hany.2 hu, h1, bind, Except.bind, pure, Except.pure, Bool.false_eq_true, if_false]
    refine ⟨fun r' hr' => ?_, fun _ => ⟨_, e⟩, fun hn => absurd hu hn⟩
    rw [e] at hr'
    cases hr'
    exact ⟨e1.trans h2, e2⟩
  · have e : K.applyInternal c rhs = .error .runtimeError := by
      have : ((univariates rhs).any (fun u => (K.fieldOf u.1).isNone)) = true := by
        by_contra hn
        exact hu (hany.1 (by simpa using hn))
      unfold applyInternal
      simp only [this, if_true]
    exact ⟨fun r hr => (by rw [e] at hr; cases hr), fun h' => absurd h' hu, fun _ => e⟩

end Setting
end Sympkf.Spec
