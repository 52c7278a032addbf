import Verif.Lemmas.Inert

/-!
# Lemmas: the systems are in evolution form
-/

set_option autoImplicit false

namespace Sympkf.Spec

open Text Rand PKF Pkf

/-! ## Keys of the closure -/

theorem expectTerm_pow (X : Ex) (h : rnd X = true) (q : ℚ) (hq : q ≠ 1) : expectTerm ([(X, q)], 1) = patom (.ex (.pow X q)) := by
  have : monoEx [(X, q)] = .pow X q := by simp [monoEx, prod, factorEx, hq]
  have e : expectTerm ([(X, q)], 1) = pmulTerm [] 1 (patom (.ex (monoEx [(X, q)]))) := by
    unfold expectTerm
    simp only [List.filter_cons, h, List.filter_nil, Bool.not_true, if_true, Bool.false_eq_true, if_false]
    split
    · rename_i e; cases e
    · rename_i e; cases e; rw [if_neg hq]
    · rename_i e; cases e; rw [if_neg hq]
    · rfl
  rw [e, this]
  simp [pmulTerm, patom, addTerm, monoMul]

theorem expectTerm_mul (X Y : Ex) (hX : rnd X = true) (hY : rnd Y = true) :
    expectTerm ([(X, 1), (Y, 1)], 1) = patom (.ex (.mul X Y)) := by
  have : monoEx [(X, 1), (Y, 1)] = .mul X Y := by simp [monoEx, prod, factorEx]
  have e : expectTerm ([(X, 1), (Y, 1)], 1) = pmulTerm [] 1 (patom (.ex (monoEx [(X, 1), (Y, 1)]))) := by
    unfold expectTerm
    simp only [List.filter_cons, hX, hY, List.filter_nil, Bool.not_true, if_true, Bool.false_eq_true, if_false]
  rw [e, this]
  simp [pmulTerm, patom, addTerm, monoMul]

/-- The expectation of a product of two random atoms. -/
theorem eval_pair (x y X Y : Ex) (hx : ofEx x = patom X) (hy : ofEx y = patom Y) (rX : rnd X = true) (rY : rnd Y = true) :
    ∃ a, eval (.ex (.mul x y)) = .ex a ∧ ∀ u args, a ≠ .fn u args := by
  have e : ofEx (.ex (.mul x y)) = padd (expectTerm (mulAtom X 1 [(Y, 1)], 1)) [] := by
    show pexpect (pmul (ofEx x) (ofEx y)) = _
    rw [hx, hy, pmul_patom]
    rfl
  have fin : ∀ a, ofEx (.ex (.mul x y)) = padd (patom (.ex a)) [] → eval (.ex (.mul x y)) = .ex a := by
    intro a h
    unfold eval
    rw [h]
    have : padd (patom (.ex a)) [] = patom (.ex a) := by simp [padd, patom, addTerm]
    rw [this, toEx_patom]
  unfold mulAtom at e
  split at e
  · rw [if_neg (by norm_num), expectTerm_pow _ rY _ (by norm_num)] at e
    exact ⟨_, fin _ e, by simp⟩
  · split at e
    · rw [expectTerm_mul _ _ rX rY] at e
      exact ⟨_, fin _ e, by simp⟩
    · rw [show mulAtom X 1 [] = [(X, 1)] from rfl, expectTerm_mul _ _ rY rX] at e
      exact ⟨_, fin _ e, by simp⟩

theorem eval_sq (x X : Ex) (hx : ofEx x = patom X) (rX : rnd X = true) :
    ∃ a, eval (.ex (.pow x 2)) = .ex a ∧ ∀ u args, a ≠ .fn u args := by
  have h := eval_pair x x X X hx hx rX rX
  have e : eval (.ex (.pow x 2)) = eval (.ex (.mul x x)) := by
    unfold eval
    show toEx (pexpect (ppow (ofEx x) 2)) = toEx (pexpect (pmul (ofEx x) (ofEx x)))
    have : ppow (ofEx x) 2 = pmul (ofEx x) (ofEx x) := by
      unfold ppow
      rw [if_pos (by decide +kernel)]
      show pmul (ofEx x) (pmul (ofEx x) (pconst 1)) = _
      rw [hx]
      simp [pconst, patom, pmul_single, monoMul, mulAtom]
    rw [this]
  rw [e]; exact h

theorem ofEx_random (u : Str) (args : List Str) (ho : omega ∈ args) : ∃ X, ofEx (.fn u args) = patom X ∧ rnd X = true :=
  ⟨_, rfl, fnD_rnd u args [] ho⟩

theorem ofEx_derivSeq (coords : List Str) (u : Str) (args : List Str) (ho : omega ∈ args) (hc : ∀ x ∈ coords, x ∈ args) (s : List Str) :
    ∃ X, ofEx (derivSeq coords (.fn u args) s) = patom X ∧ rnd X = true := by
  unfold derivSeq
  rcases pdiffs_fnD ((coords.filter (· ∈ s)).map (fun x => (x, s.count x))) u args [] with ⟨-, v, hv, hn⟩ | h
  · obtain ⟨x, hx, rfl⟩ := List.mem_map.1 hv
    exact absurd (hc x (List.mem_filter.1 hx).1) hn
  · exact ⟨_, h, fnD_rnd u args _ ho⟩

namespace EvolutionSystem

variable {K : Pkf} {coords : List Str} (h : EvolutionSystem K coords)
include h

theorem time_field (f : Field) (hf : f ∈ K.fields) : time ∈ f.coordinates := by rw [h.det.same f hf]; exact h.time_mem

/-- Every entry of the closure of a field. -/
theorem key_field (f : Field) (hf : f ∈ K.fields) (kv : Ex × Ex) (c : Dict Ex Ex) (hc : f.internalClosure K.order = .ok c) (hkv : kv ∈ c)
    (g : Field) (hg : g ∈ K.fields) : KeyOK g kv ∧ TimeFree kv.2 := by
  have e := h.det.spatial f hf
  obtain ⟨c', h1, -, h3⟩ := internalClosure_spec K.order h.det.order f (e ▸ h.det.space) (e ▸ h.det.nodup.filter _)
  rw [h1] at hc
  cases hc
  have ne : ∀ x ∈ f.spatial, x ≠ time := fun x hx => by simpa using (List.mem_filter.1 hx).2
  have hsub : ∀ x ∈ f.spatial, x ∈ f.coordinates ++ [omega] := fun x hx => by simp [(List.mem_filter.1 hx).1]
  obtain ⟨E, hE, rE⟩ := ofEx_random ("{\\varepsilon_{".toList ++ f.code ++ "}}".toList) (f.coordinates ++ [omega]) (omega_error f)
  obtain ⟨E', hE', rE'⟩ := ofEx_random ("{e_{".toList ++ f.code ++ "}}".toList) (f.coordinates ++ [omega]) (omega_error f)
  have tm : ∀ x y, TimeFree (f.metricOf x y) := fun _ _ => trivial
  have t0 : ∀ x ∈ f.spatial, ∀ e, TimeFree e → TimeFree (.deriv e [(x, 1)]) := fun x hx e he =>
    ⟨he, fun v hv e => by rw [List.mem_singleton] at hv; subst hv; exact absurd e (ne x hx)⟩
  rcases h3 kv hkv with rfl | rfl | rfl | rfl | ⟨x, hx, rfl⟩ | ⟨i, j, hij, hj, rfl⟩ | ⟨k, i, j, hk, hi, hj, rfl⟩
  · exact ⟨.inr ⟨rfl, _, _, rfl, omega_error f, (h.clash g hg f hf).1.symm⟩, trivial⟩
  · exact ⟨.inl (eval_sq _ _ hE' rE'), trivial⟩
  · exact ⟨.inr ⟨rfl, _, _, rfl, omega_error f, (h.clash g hg f hf).2.symm⟩, trivial⟩
  · exact ⟨.inl (eval_sq _ _ hE rE), trivial⟩
  · obtain ⟨X, h1, h2⟩ := ofEx_derivSeq f.spatial _ _ (omega_error f) hsub [x]
    exact ⟨.inl (eval_pair _ _ _ _ hE h1 rE h2), trivial⟩
  · obtain ⟨X, h1, h2⟩ := ofEx_derivSeq f.spatial _ _ (omega_error f) hsub [f.spatial.getD i [], f.spatial.getD j []]
    exact ⟨.inl (eval_pair _ _ _ _ hE h1 rE h2), trivial, trivial⟩
  · obtain ⟨X, h1, h2⟩ := ofEx_derivSeq f.spatial _ _ (omega_error f) hsub [k, i, j]
    exact ⟨.inl (eval_pair _ _ _ _ hE h1 rE h2), trivial, ⟨t0 i hi _ (tm _ _), t0 j hj _ (tm _ _)⟩, t0 k hk _ (tm _ _)⟩

/-- The internal closure. -/
theorem closure_keys (c : Dict Ex Ex) (hc : K.closure = .ok c) :
    (∀ kv ∈ c, ∀ g ∈ K.fields, KeyOK g kv ∧ TimeFree kv.2) ∧
      ∀ f ∈ K.fields, .ex f.error ∈ Dict.keys c ∧ .ex f.epsilon ∈ Dict.keys c := by
  have step1 : ∀ (l : List Field) (c c' : Dict Ex Ex), (∀ f ∈ l, f ∈ K.fields) →
      l.foldlM (fun (c : Dict Ex Ex) f => do return c.update (← f.internalClosure K.order)) c = .ok c' →
      (∀ kv ∈ c, ∀ g ∈ K.fields, KeyOK g kv ∧ TimeFree kv.2) →
      (∀ kv ∈ c', ∀ g ∈ K.fields, KeyOK g kv ∧ TimeFree kv.2) ∧ (∀ k ∈ Dict.keys c, k ∈ Dict.keys c') ∧
      ∀ f ∈ l, .ex f.error ∈ Dict.keys c' ∧ .ex f.epsilon ∈ Dict.keys c' := by
    intro l
    induction l with
    | nil => intro c c' _ hc h0; cases hc; exact ⟨h0, fun _ h => h, by simp⟩
    | cons f l ih =>
      intro c c' hl hc h0
      have e := h.det.spatial f (hl f (by simp))
      obtain ⟨cf, h1, h2, h3⟩ := internalClosure_spec K.order h.det.order f (e ▸ h.det.space) (e ▸ h.det.nodup.filter _)
      rw [List.foldlM_cons] at hc
      simp only [h1, bind, Except.bind, pure, Except.pure] at hc
      obtain ⟨a1, a2, a3⟩ := ih (c.update cf) c' (fun g hg => hl g (List.mem_cons_of_mem _ hg)) hc (by
        intro kv hkv
        rcases Dict.mem_update _ _ _ hkv with hkv | hkv
        · exact h0 kv hkv
        · exact fun g hg => h.key_field f (hl f (by simp)) kv cf h1 hkv g hg)
      refine ⟨a1, fun k hk => a2 k ?_, fun g hg => ?_⟩
      · rw [Dict.keys_update_iff]; exact .inl hk
      · rcases List.mem_cons.1 hg with rfl | hg
        · exact ⟨a2 _ (by rw [Dict.keys_update_iff]; exact .inr ((h2 _).2 .error)),
            a2 _ (by rw [Dict.keys_update_iff]; exact .inr ((h2 _).2 .epsilon))⟩
        · exact a3 g hg
  have step2 : ∀ (l : List (Field × Field)) (c c' : Dict Ex Ex), (∀ p ∈ l, p.1 ∈ K.fields ∧ p.2 ∈ K.fields) →
      l.foldlM (coupleEntries label K.fields) c = .ok c' →
      (∀ kv ∈ c, ∀ g ∈ K.fields, KeyOK g kv ∧ TimeFree kv.2) →
      (∀ kv ∈ c', ∀ g ∈ K.fields, KeyOK g kv ∧ TimeFree kv.2) ∧ (∀ k ∈ Dict.keys c, k ∈ Dict.keys c') := by
    intro l
    induction l with
    | nil => intro c c' _ hc h0; cases hc; exact ⟨h0, fun _ h => h⟩
    | cons p l ih =>
      intro c c' hl hc h0
      have hp := hl p (by simp)
      have hv : covariance label K.fields p.1 p.2 = .ok (.fn (label ++ p.1.name ++ p.2.name) p.1.coordinates) := by
        unfold covariance
        rw [if_pos hp, if_pos (by rw [h.det.same _ hp.1, h.det.same _ hp.2])]
      rw [List.foldlM_cons] at hc
      unfold coupleEntries at hc
      simp only [hv, bind, Except.bind, pure, Except.pure] at hc
      obtain ⟨a1, a2⟩ := ih _ c' (fun q hq => hl q (List.mem_cons_of_mem _ hq)) hc (by
        intro kv hkv
        rcases Dict.mem_set _ _ _ _ hkv with rfl | hkv
        · exact fun g hg => ⟨.inl (eval_pair _ _ _ _ rfl rfl (fnD_rnd _ _ [] (omega_error p.1)) (fnD_rnd _ _ [] (omega_error p.2))),
            trivial, trivial, trivial⟩
        · rcases Dict.mem_set _ _ _ _ hkv with rfl | hkv
          · exact fun g hg => ⟨.inl (eval_pair _ _ _ _ rfl rfl (fnD_rnd _ _ [] (omega_error p.1)) (fnD_rnd _ _ [] (omega_error p.2))),
              trivial⟩
          · exact h0 kv hkv)
      refine ⟨a1, fun k hk => a2 k ?_⟩
      rw [Tree.mem_keys_set_iff, Tree.mem_keys_set_iff]
      exact .inl (.inl hk)
  unfold Pkf.closure internalClosure at hc
  simp only [bind, Except.bind] at hc
  split at hc
  · cases hc
  rename_i c1 hc1
  obtain ⟨a1, -, a3⟩ := step1 K.fields [] c1 (fun _ h => h) (by simpa only [bind, Except.bind] using hc1) (by simp)
  obtain ⟨b1, b2⟩ := step2 (couples K.fields) c1 c (fun p hp => by
    have hm := ((PKF.C41_couples K.fields).1 p.1 p.2).1 hp
    exact ⟨hm.subset (by simp), hm.subset (by simp)⟩) hc a1
  exact ⟨b1, fun f hf => ⟨b2 _ (a3 f hf).1, b2 _ (a3 f hf).2⟩⟩

/-- The value of the product of two errors. -/
theorem couple_key (c : Dict Ex Ex) (hc : K.closure = .ok c) : ∀ kv ∈ c, ∀ f ∈ K.fields, ∀ g ∈ K.fields,
    kv.1 = .ex (.mul f.error g.error) → kv.2 = .fn (label ++ f.name ++ g.name) f.coordinates := by
  have ne : ∀ f g : Field, f.epsilon ≠ g.error := by
    intro f g e
    simp [Field.epsilon, Field.error] at e
  unfold Pkf.closure internalClosure at hc
  simp only [bind, Except.bind] at hc
  split at hc
  · cases hc
  rename_i c1 hc1
  let I : Dict Ex Ex → Prop := fun c => ∀ kv ∈ c, ∀ f ∈ K.fields, ∀ g ∈ K.fields,
    kv.1 = .ex (.mul f.error g.error) → kv.2 = .fn (label ++ f.name ++ g.name) f.coordinates
  have r1 : I c1 := by
    refine foldlM_ok _ I _ _ _ hc1 (by simp [I]) ?_
    intro s f s' hf hs hstep
    split at hstep
    · cases hstep
    rename_i cf hcf
    cases hstep
    intro kv hkv
    rcases Dict.mem_update _ _ _ hkv with hkv | hkv
    · exact hs kv hkv
    · have e := h.det.spatial f hf
      obtain ⟨c', h1, -, h3⟩ := internalClosure_spec K.order h.det.order f (e ▸ h.det.space) (e ▸ h.det.nodup.filter _)
      rw [h1] at hcf
      cases hcf
      intro g hg g' hg' ek
      rcases h3 kv hkv with rfl | rfl | rfl | rfl | ⟨x, hx, rfl⟩ | ⟨i, j, hij, hj, rfl⟩ | ⟨k, i, j, hk, hi, hj, rfl⟩
      · simp [Field.error] at ek
      · simp at ek
      · simp [Field.epsilon] at ek
      · simp at ek
      · simp only [Ex.ex.injEq, Ex.mul.injEq] at ek
        exact absurd ek.1 (ne _ _)
      · simp only [Field.metricTerm, Ex.ex.injEq, Ex.mul.injEq] at ek
        exact absurd ek.1 (ne _ _)
      · simp only [Field.skewnessDef, Ex.ex.injEq, Ex.mul.injEq] at ek
        exact absurd ek.1 (ne _ _)
  refine foldlM_ok _ I _ _ _ hc r1 ?_
  intro s p s' hp hs hstep
  have hm := ((PKF.C41_couples K.fields).1 p.1 p.2).1 hp
  have m1 : p.1 ∈ K.fields := hm.subset (by simp)
  have m2 : p.2 ∈ K.fields := hm.subset (by simp)
  have hv : covariance label K.fields p.1 p.2 = .ok (.fn (label ++ p.1.name ++ p.2.name) p.1.coordinates) := by
    unfold covariance
    rw [if_pos ⟨m1, m2⟩, if_pos (by rw [h.det.same _ m1, h.det.same _ m2])]
  unfold coupleEntries at hstep
  simp only [hv, bind, Except.bind, pure, Except.pure] at hstep
  cases hstep
  have code : ∀ f g : Field, f.error = g.error → f.code = g.code := by
    intro f g e
    simp only [Field.error, Ex.fn.injEq] at e
    simpa using e.1
  intro kv hkv f hf g hg ek
  rcases Dict.mem_set _ _ _ _ hkv with rfl | hkv
  · simp only [Ex.ex.injEq, Ex.mul.injEq] at ek
    exact absurd ek.1 (ne _ _)
  · rcases Dict.mem_set _ _ _ _ hkv with rfl | hkv
    · simp only [Ex.ex.injEq, Ex.mul.injEq] at ek
      rw [h.codes _ m1 _ hf (code _ _ ek.1), h.codes _ m2 _ hg (code _ _ ek.2)]
    · exact hs kv hkv f hf g hg ek

/-! ## Reynolds, mean, errors -/

theorem timeFree_subs (d : Dict Ex Ex) (hd : ∀ kv ∈ d, TimeFree kv.2) (e : Ex) (he : TimeFree e) : TimeFree (K.subs d e) :=
  timeFree_substAll _ (fun kv hkv => hd kv ((h.det.arrange d).mem_iff.1 hkv)) e he

omit h in
theorem timeFree_eval (e : Ex) (he : TimeFree e) : TimeFree (eval e) := (timeFree_iff _).1 (tf_eval _ ((timeFree_iff _).2 he))

omit h in
theorem timeFree_epsOne (p : Poly) (hp : TFP noFn p) : TimeFree (epsOne p) :=
  (timeFree_iff _).1 (tf_toEx _ (timeFree_subst _ _ (allF_pconst 1) _ (tf_toEx _ hp)))

omit h in
theorem filter_tf (p : Poly) (c : Mono × ℚ → Bool) (hp : TFP noFn p) : TFP noFn (p.filter c) :=
  fun t ht => hp t (List.mem_of_mem_filter ht)

/-- The Reynolds systems. -/
theorem reynolds_evolution (r : List (Eqn × Eqn)) (hr : K.reynolds = .ok r) :
    List.Forall₂ (fun f q => q.1.1 = totalLhs f ∧ q.2.1 = totalLhs f ∧ TimeFree q.1.2 ∧ TimeFree q.2.2) K.fields r := by
  have h1 := mapM_ok _ _ _ hr
  have hlhs : K.equations.map Prod.fst = K.fields.map (fun f => dt f.value) := by
    have := h.evolution.1
    rw [List.map_map] at this
    exact this
  have htf := h.evolution.2
  have key : ∀ f ∈ K.fields, ∀ q q', q.1 = dt f.value → TimeFree q.2 → K.reynoldsEq q = .ok q' →
      q'.1.1 = totalLhs f ∧ q'.2.1 = totalLhs f ∧ TimeFree q'.1.2 ∧ TimeFree q'.2.2 := by
    intro f hf q q' hq htq hrey
    have ht := h.time_field f hf
    have hs : K.subs K.subsReynolds q.1 = reynoldsLhs f := by
      rw [hq]
      have mem : ∀ kv ∈ K.arrange K.subsReynolds, ∃ g ∈ K.fields, kv = (g.value, .add (.ex g.random) (.mul (.sym epsSym) g.error)) := by
        intro kv hkv
        rcases Dict.mem_update _ _ _ ((h.det.arrange _).mem_iff.1 hkv) with hkv | hkv
        · cases hkv
        · obtain ⟨g, hg, rfl⟩ := List.mem_map.1 hkv
          exact ⟨g, hg, rfl⟩
      refine reynolds_lhs _ f ht (h.det.omega_field f hf) (fun kv hkv => ?_) ?_
      · obtain ⟨g, hg, e⟩ := mem kv hkv
        exact ⟨g, by rw [h.det.same g hg, h.det.same f hf], e⟩
      · have : f.value ∈ Dict.keys K.subsReynolds := by
          unfold Pkf.subsReynolds
          rw [Dict.keys_update_iff]
          right
          exact List.mem_map.2 ⟨_, List.mem_map.2 ⟨f, hf, rfl⟩, rfl⟩
        obtain ⟨kv, hkv, e⟩ := List.mem_map.1 this
        exact ⟨kv, (h.det.arrange _).mem_iff.2 hkv, e⟩
    have hrhs : TFP noFn (ofEx (K.subs K.subsReynolds q.2)) := by
      refine tf_ofEx _ ((timeFree_iff _).2 (h.timeFree_subs _ (fun kv hkv => ?_) _ htq))
      rcases Dict.mem_update _ _ _ hkv with hkv | hkv
      · cases hkv
      · obtain ⟨g, hg, rfl⟩ := List.mem_map.1 hkv
        exact ⟨trivial, trivial, trivial⟩
    unfold reynoldsEq at hrey
    obtain ⟨rhs, hrhs', hrey⟩ := bind_eq_ok hrey
    cases hrey
    have htf : TFP noFn rhs := taylor_all tf_hereditary (fun _ _ _ _ _ h => h) trivial _ _ hrhs hrhs'
    simp only [hs, dropSquare_lhs f ht, epsOne_lhs f ht, true_and]
    exact ⟨timeFree_epsOne _ htf, timeFree_epsOne _ (filter_tf _ _ htf)⟩
  clear hr
  have : ∀ (fs : List Field) (qs : List Eqn) (r : List (Eqn × Eqn)), (∀ f ∈ fs, f ∈ K.fields) →
      qs.map Prod.fst = fs.map (fun f => dt f.value) → (∀ q ∈ qs, TimeFree q.2) → List.Forall₂ (fun a b => K.reynoldsEq a = .ok b) qs r →
      List.Forall₂ (fun f q => q.1.1 = totalLhs f ∧ q.2.1 = totalLhs f ∧ TimeFree q.1.2 ∧ TimeFree q.2.2) fs r := by
    intro fs
    induction fs with
    | nil =>
      intro qs r _ h1 _ h2
      cases qs with
      | nil => cases h2; exact .nil
      | cons => simp at h1
    | cons f fs ih =>
      intro qs r hf h1 h2 h3
      cases qs with
      | nil => simp at h1
      | cons q qs =>
        cases h3 with
        | cons h4 h5 =>
          simp only [List.map_cons, List.cons.injEq] at h1
          exact .cons (key f (hf f (by simp)) q _ h1.1 (h2 q (by simp)) h4)
            (ih qs _ (fun g hg => hf g (by simp [hg])) h1.2 (fun q hq => h2 q (by simp [hq])) h5)
  exact this _ _ _ (fun _ h => h) hlhs htf h1

variable (r : List (Eqn × Eqn)) (hr : K.reynolds = .ok r)
include hr

/-- The mean. -/
theorem mean_evolution (ms : List Eqn) (hms : K.expectationSystem = .ok ms) :
    EvolutionForm (K.fields.map (fun f => .ex f.random)) ms := by
  obtain ⟨c, hc, -⟩ := h.det.closure_ok
  obtain ⟨k1, k2⟩ := h.closure_keys c hc
  unfold expectationSystem secondOrder at hms
  simp only [hr, hc, bind, Except.bind, pure, Except.pure] at hms
  cases hms
  have hall := h.reynolds_evolution r hr
  have hv : ∀ kv ∈ K.subsError, ∃ g ∈ K.fields, kv = (g.error, .mul (.pow g.variance (1 / 2)) g.epsilon) := by
    intro kv hkv
    rcases Dict.mem_update _ _ _ hkv with hkv | hkv
    · cases hkv
    · obtain ⟨f, hf, rfl⟩ := List.mem_map.1 hkv
      exact ⟨f, hf, rfl⟩
  have hlhs : ∀ f ∈ K.fields, K.subs c (K.subs K.subsError (eval (.ex (totalLhs f)))) = dt (.ex f.random) := by
    intro f hf
    have ht := h.time_field f hf
    have e1 : K.subs K.subsError (eval (.ex (totalLhs f))) = scaledLhs f := by
      refine error_mean _ f ht (h.det.omega_field f hf) (fun kv hkv => ?_) ?_ _ (expect_total f ht (h.clash f hf f hf).1)
      · obtain ⟨g, hg, e⟩ := hv kv ((h.det.arrange _).mem_iff.1 hkv)
        exact ⟨g, by rw [h.det.same g hg, h.det.same f hf], (h.clash f hf g hg).1, e⟩
      · have : f.error ∈ Dict.keys K.subsError := by
          unfold Pkf.subsError
          rw [Dict.keys_update_iff]
          right
          exact List.mem_map.2 ⟨_, List.mem_map.2 ⟨f, hf, rfl⟩, rfl⟩
        obtain ⟨kv, hkv, e⟩ := List.mem_map.1 this
        exact ⟨kv, (h.det.arrange _).mem_iff.2 hkv, e⟩
    rw [e1]
    obtain ⟨kv, hkv, e⟩ := List.mem_map.1 (k2 f hf).2
    exact closure_scaled _ f ht (h.clash f hf f hf).2 (fun kv hkv => (k1 kv ((h.det.arrange _).mem_iff.1 hkv) f hf).1)
      ⟨kv, (h.det.arrange _).mem_iff.2 hkv, e⟩
  constructor
  · have : ∀ (fs : List Field) (r : List (Eqn × Eqn)), (∀ f ∈ fs, f ∈ K.fields) →
        List.Forall₂ (fun f (q : Eqn × Eqn) => q.1.1 = totalLhs f ∧ q.2.1 = totalLhs f ∧ TimeFree q.1.2 ∧ TimeFree q.2.2) fs r →
        ((r.map Prod.fst).map (fun q => K.subsEq c (K.subsEq K.subsError (expectEqn q)))).map Prod.fst =
          (fs.map (fun f => Ex.ex f.random)).map (fun g => .deriv g [(time, 1)]) := by
      intro fs r hf hfr
      induction hfr with
      | nil => rfl
      | cons hq _ ih =>
        simp only [List.map_cons]
        rw [ih (fun f h' => hf f (by simp [h']))]
        congr 1
        simp only [subsEq, expectEqn, hq.1]
        exact hlhs _ (hf _ (by simp))
    exact this _ _ (fun _ h => h) hall
  · intro q hq
    obtain ⟨q1, hq1, rfl⟩ := List.mem_map.1 hq
    obtain ⟨q2, hq2, rfl⟩ := List.mem_map.1 hq1
    obtain ⟨f, hf, -, -, ht, -⟩ := forall₂_right hall q2 hq2
    refine h.timeFree_subs _ (fun kv hkv => (k1 kv hkv f hf).2) _ (h.timeFree_subs _ (fun kv hkv => ?_) _ (timeFree_eval _ ht))
    obtain ⟨g, -, rfl⟩ := hv kv hkv
    exact ⟨trivial, trivial⟩

/-- The errors. -/
theorem error_evolution (es : List Eqn) (hes : K.errorSystem = .ok es) : EvolutionForm (K.fields.map Field.error) es := by
  obtain ⟨c, hc, -⟩ := h.det.closure_ok
  obtain ⟨k1, k2⟩ := h.closure_keys c hc
  unfold errorSystem tlExpectation firstOrder at hes
  simp only [hr, hc, bind, Except.bind, pure, Except.pure] at hes
  cases hes
  have hall := h.reynolds_evolution r hr
  have hlhs : ∀ f ∈ K.fields, minus (totalLhs f) (K.subs c (eval (.ex (totalLhs f)))) = dt f.error := by
    intro f hf
    have ht := h.time_field f hf
    obtain ⟨kv, hkv, e⟩ := List.mem_map.1 (k2 f hf).1
    have e1 : K.subs c (eval (.ex (totalLhs f))) = dt (.ex f.random) :=
      closure_mean _ f (h.clash f hf f hf).1 (fun kv hkv => (k1 kv ((h.det.arrange _).mem_iff.1 hkv) f hf).1)
        ⟨kv, (h.det.arrange _).mem_iff.2 hkv, e⟩ _ (expect_total f ht (h.clash f hf f hf).1)
    rw [e1]
    exact minus_lhs f ht
  have : ∀ (fs : List Field) (r : List (Eqn × Eqn)), (∀ f ∈ fs, f ∈ K.fields) →
      List.Forall₂ (fun f (q : Eqn × Eqn) => q.1.1 = totalLhs f ∧ q.2.1 = totalLhs f ∧ TimeFree q.1.2 ∧ TimeFree q.2.2) fs r →
      EvolutionForm (fs.map Field.error) (((r.map Prod.snd).zip ((r.map Prod.snd).map (fun q => K.subsEq c (expectEqn q)))).map
        (fun q => (minus q.1.1 q.2.1, minus q.1.2 q.2.2))) := by
    intro fs r hf hfr
    induction hfr with
    | nil => exact ⟨rfl, by simp⟩
    | @cons f q fs r hq _ ih =>
      obtain ⟨i1, i2⟩ := ih (fun f h' => hf f (by simp [h']))
      have hf0 := hf f (by simp)
      simp only [List.map_cons, List.zip_cons_cons]
      constructor
      · simp only [List.map_cons]
        rw [i1]
        congr 1
        simp only [subsEq, expectEqn, hq.2.1]
        exact hlhs _ hf0
      · intro q' hq'
        rcases List.mem_cons.1 hq' with rfl | hq'
        · exact timeFree_eval _ ⟨hq.2.2.2, trivial, h.timeFree_subs _ (fun kv hkv => (k1 kv hkv f hf0).2) _ (timeFree_eval _ hq.2.2.2)⟩
        · exact i2 q' hq'
  exact this _ _ (fun _ h => h) hall

omit r hr in
/-- The dictionary of the trends of functions. -/
theorem trends_spec (gs : List Ex) (hg : ∀ g ∈ gs, ∃ u args, g = .fn u args ∧ time ∈ args) (es : List Eqn) (he : EvolutionForm gs es) :
    (∀ kv ∈ K.arrange (trends es), TimeFree kv.2 ∧ ∃ u args, kv.1 = .deriv (.fn u args) [(time, 1)] ∧ time ∈ args) ∧
      ∀ g ∈ gs, ∃ kv ∈ K.arrange (trends es), kv.1 = .deriv g [(time, 1)] := by
  constructor
  · intro kv hkv
    have hm : kv ∈ es := Setting.mem_trends _ _ ((h.det.arrange _).mem_iff.1 hkv)
    have h1 : kv.1 ∈ es.map Prod.fst := List.mem_map_of_mem hm
    rw [he.1] at h1
    obtain ⟨g, hg', e⟩ := List.mem_map.1 h1
    obtain ⟨u, args, rfl, ht⟩ := hg g hg'
    exact ⟨he.2 kv hm, u, args, e.symm, ht⟩
  · intro g hg'
    have h1 : (Ex.deriv g [(time, 1)]) ∈ es.map Prod.fst := by rw [he.1]; exact List.mem_map_of_mem hg'
    have h2 : (Ex.deriv g [(time, 1)]) ∈ Dict.keys (trends es) := by
      unfold trends
      rw [Dict.keys_update_iff]
      exact .inr h1
    obtain ⟨kv, hkv, e⟩ := List.mem_map.1 h2
    exact ⟨kv, (h.det.arrange _).mem_iff.2 hkv, e⟩

omit r hr in
/-- Substitution of the trends of functions. -/
theorem timeFree_trends (gs : List Ex) (hg : ∀ g ∈ gs, ∃ u args, g = .fn u args ∧ time ∈ args) (es : List Eqn) (he : EvolutionForm gs es)
    (e : Ex) (hp : TFP (fun u args => .fn u args ∈ gs) (ofEx e)) : TimeFree (K.subs (trends es) e) := by
  obtain ⟨h1, h2⟩ := h.trends_spec gs hg es he
  exact Spec.timeFree_trends _ h1 e (fun u args hu => h2 _ hu) hp

omit r hr in
theorem timeFree_subsError (e : Ex) (he : TimeFree e) : TimeFree (K.subs K.subsError e) := by
  refine h.timeFree_subs _ (fun kv hkv => ?_) _ he
  rcases Dict.mem_update _ _ _ hkv with hkv | hkv
  · cases hkv
  · obtain ⟨f, hf, rfl⟩ := List.mem_map.1 hkv
    exact ⟨trivial, trivial⟩

omit r hr in
theorem errors_fn : ∀ g ∈ K.fields.map Field.error, ∃ u args, g = .fn u args ∧ time ∈ args := by
  intro g hg
  obtain ⟨f, hf, rfl⟩ := List.mem_map.1 hg
  exact ⟨_, _, rfl, time_error f (h.time_field f hf)⟩

omit r hr in
theorem epsilons_fn : ∀ g ∈ K.fields.map Field.epsilon, ∃ u args, g = .fn u args ∧ time ∈ args := by
  intro g hg
  obtain ⟨f, hf, rfl⟩ := List.mem_map.1 hg
  exact ⟨_, _, rfl, time_error f (h.time_field f hf)⟩

omit r hr in
theorem variances_fn : ∀ g ∈ K.fields.map Field.variance, ∃ u args, g = .fn u args ∧ time ∈ args := by
  intro g hg
  obtain ⟨f, hf, rfl⟩ := List.mem_map.1 hg
  exact ⟨_, _, rfl, h.time_field f hf⟩

/-! ## The internal closure -/

omit r hr h in
theorem timeFree_dalpha (xs : List Str) (hx : ∀ x ∈ xs, x ≠ time) (e : Ex) (he : TimeFree e) (a : List ℤ) : TimeFree (dalpha xs e a) :=
  ⟨he, fun _ hv e => absurd e (hx _ (List.of_mem_zip hv).1)⟩

omit r hr h in
theorem timeFree_tree (f : Field) (v : Tree.TEx) (hv : Tree.Along f.spatial v) : TimeFree (ofTree f.spatial f.epsilon v) := by
  have ne : ∀ x ∈ f.spatial, x ≠ time := fun x hx => by simpa using (List.mem_filter.1 hx).2
  induction v with
  | term t =>
    have he : TimeFree f.epsilon := trivial
    exact ⟨timeFree_dalpha _ ne _ he _, timeFree_dalpha _ ne _ he _⟩
  | d x e ih => exact ⟨ih hv.2, fun v hv' e => by rw [List.mem_singleton] at hv'; subst hv'; exact absurd e (ne _ hv.1)⟩
  | sub e g ihe ihg => exact ⟨ihe hv.1, trivial, ihg hv.2⟩
  | half e ih => exact ⟨trivial, ih hv⟩

omit r hr in
theorem timeFree_closure (c : Dict Ex Ex) (hc : K.closure = .ok c) (hK : K.fields ≠ []) : ∀ kv ∈ c, TimeFree kv.2 := by
  obtain ⟨g, hg⟩ := List.exists_mem_of_ne_nil _ hK
  exact fun kv hkv => ((h.closure_keys c hc).1 kv hkv g hg).2

omit r hr in
theorem timeFree_applyInternal (c : Dict Ex Ex) (hc : K.closure = .ok c) (hK : K.fields ≠ []) (rhs : Ex) (hrhs : TimeFree rhs) (e : Ex)
    (he : K.applyInternal c rhs = .ok e) : TimeFree e := by
  have hcl := h.timeFree_closure c hc hK
  unfold applyInternal at he
  simp only [bind, Except.bind, pure, Except.pure] at he
  split at he
  · cases he
  split at he
  · cases he
  rename_i e1 he1
  cases he
  refine h.timeFree_subs _ hcl _ (foldlM_ok _ TimeFree _ _ _ he1 hrhs ?_)
  intro s eps s' _ hs hstep
  unfold applyTree at hstep
  split at hstep
  · cases hstep
  rename_i f hf
  simp only [bind, Except.bind, pure, Except.pure] at hstep
  split at hstep
  · cases hstep
  rename_i tree htree
  cases hstep
  refine h.timeFree_subs _ (fun kv hkv => ?_) _ hs
  have hfm := (Setting.fieldOf_mem eps f hf).1
  have e := h.det.spatial f hfm
  have h0 : f.spatial ≠ [] := e ▸ h.det.space
  unfold closedTree at htree
  simp only [bind, Except.bind, pure, Except.pure] at htree
  split at htree
  · cases htree
  rename_i t ht
  cases htree
  obtain ⟨t1, s1⟩ := t
  have hal := Tree.call_along K.order f.spatial true _ Tree.State.init s1 t1 ht ⟨by simp [Tree.State.init], by simp [Tree.State.init]⟩
  obtain ⟨tv, htv, rfl⟩ := List.mem_map.1 (Setting.mem_trends _ _ hkv)
  exact h.timeFree_subs c hcl _ (timeFree_tree f _ (hal _ htv))

/-! ## Second moments -/

omit r hr h in
theorem mapM_form {α : Type} (g : α → Except PyErr Eqn) (t : α → Ex) (l : List α) (l' : List Eqn) (hl : l.mapM g = .ok l')
    (hg : ∀ a ∈ l, ∀ q, g a = .ok q → q.1 = .deriv (t a) [(time, 1)] ∧ TimeFree q.2) : EvolutionForm (l.map t) l' := by
  have h1 := mapM_ok _ _ _ hl
  clear hl
  induction h1 with
  | nil => exact ⟨rfl, by simp⟩
  | @cons a b l l' hab _ ih =>
    obtain ⟨i1, i2⟩ := ih (fun a ha => hg a (by simp [ha]))
    have h2 := hg a (by simp) b hab
    refine ⟨by simp [h2.1, ← i1], fun q hq => ?_⟩
    rcases List.mem_cons.1 hq with rfl | hq
    · exact h2.2
    · exact i2 q hq

theorem variance_evolution (vs : List Eqn) (hvs : K.varianceSystem = .ok vs) : EvolutionForm (K.fields.map Field.variance) vs := by
  obtain ⟨c, hc, -⟩ := h.det.closure_ok
  obtain ⟨es, hes⟩ := h.det.error_ok r hr
  have he := h.error_evolution r hr es hes
  unfold varianceSystem at hvs
  simp only [hes, hc, bind, Except.bind] at hvs
  refine mapM_form _ _ _ _ hvs (fun f hf q hq => ?_)
  have ht := time_error f (h.time_field f hf)
  unfold varianceEq at hq
  simp only [bind, Except.bind, pure, Except.pure] at hq
  split at hq
  · cases hq
  rename_i e hap
  cases hq
  refine ⟨rfl, h.timeFree_applyInternal c hc (List.ne_nil_of_mem hf) _ (h.timeFree_subsError _ (h.timeFree_trends _ h.errors_fn _ he _ ?_)) _ hap⟩
  show TFP _ (pexpect (pdiff time (ppow (patom f.error) 2)))
  have e2 : ppow (patom f.error) 2 = pmul (patom f.error) (patom f.error) := by
    unfold ppow
    rw [if_pos (by decide +kernel)]
    show pmul (patom f.error) (pmul (patom f.error) (pconst 1)) = _
    simp [pconst, patom, pmul_single, monoMul, mulAtom]
  rw [e2]
  exact tf_pexpectPair _ (pair_pdiff _ _ _ _ [] [] .nil .nil (omega_error f) (omega_error f) ht ht
    (List.mem_map_of_mem hf) (List.mem_map_of_mem hf))

theorem cross_evolution (cs : Option (List Eqn)) (hcs : K.crossSystem = .ok cs) :
    EvolutionForm ((couples K.fields).map (fun p => .fn (label ++ p.1.name ++ p.2.name) coords)) (cs.toList.flatMap id) := by
  unfold crossSystem at hcs
  split at hcs
  · rename_i hl
    cases hcs
    obtain ⟨f, hf⟩ := List.length_eq_one_iff.1 hl
    rw [hf]
    exact ⟨rfl, by simp⟩
  obtain ⟨c, hc, hkeys⟩ := h.det.closure_ok
  obtain ⟨es, hes⟩ := h.det.error_ok r hr
  have he := h.error_evolution r hr es hes
  simp only [hes, hc, bind, Except.bind, pure, Except.pure] at hcs
  split at hcs
  · cases hcs
  rename_i l hl
  cases hcs
  simp only [Option.toList_some, List.flatMap_cons, List.flatMap_nil, List.append_nil, id]
  refine mapM_form _ _ _ _ hl (fun p hp q hq => ?_)
  have hm := ((PKF.C41_couples K.fields).1 p.1 p.2).1 hp
  have m1 : p.1 ∈ K.fields := hm.subset (by simp)
  have m2 : p.2 ∈ K.fields := hm.subset (by simp)
  unfold crossEq at hq
  simp only [bind, Except.bind, pure, Except.pure] at hq
  split at hq
  · cases hq
  rename_i v hv
  split at hq
  · cases hq
  rename_i e hap
  cases hq
  constructor
  · have hmem : (Ex.ex (.mul p.1.error p.2.error), v) ∈ c := by
      unfold Dict.getItem at hv
      split at hv
      · rename_i w hw
        cases hv
        exact Dict.mem_of_get? _ _ _ hw
      · cases hv
    have := h.couple_key c hc _ hmem p.1 m1 p.2 m2 rfl
    show dt v = _
    rw [show v = _ from this, h.det.same _ m1]
    rfl
  · refine timeFree_eval _ (h.timeFree_applyInternal c hc (List.ne_nil_of_mem m1) _
      (h.timeFree_subsError _ (h.timeFree_trends _ h.errors_fn _ he _ ?_)) _ hap)
    show TFP _ (pexpect (pdiff time (pmul (patom p.1.error) (patom p.2.error))))
    exact tf_pexpectPair _ (pair_pdiff _ _ _ _ [] [] .nil .nil (omega_error p.1) (omega_error p.2) (time_error _ (h.time_field _ m1))
      (time_error _ (h.time_field _ m2)) (List.mem_map_of_mem m1) (List.mem_map_of_mem m2))

theorem epsilon_evolution (vs : List Eqn) (hvs : K.epsilonSystem = .ok vs) : EvolutionForm (K.fields.map Field.epsilon) vs := by
  obtain ⟨es, hes⟩ := h.det.error_ok r hr
  obtain ⟨ws, hws, -⟩ := h.det.variance_ok r hr
  have he := h.error_evolution r hr es hes
  have hv := h.variance_evolution r hr ws hws
  unfold epsilonSystem at hvs
  simp only [hes, hws, bind, Except.bind, pure, Except.pure] at hvs
  cases hvs
  refine ⟨by rw [List.map_map, List.map_map]; rfl, fun q hq => ?_⟩
  obtain ⟨f, hf, rfl⟩ := List.mem_map.1 hq
  refine h.timeFree_subsError _ (h.timeFree_trends _ h.variances_fn _ hv _ ?_)
  obtain ⟨t1, t2⟩ := h.trends_spec _ h.errors_fn _ he
  have h1 : TFP (fun u args => .fn u args ∈ K.fields.map Field.error ∨ .fn u args ∈ K.fields.map Field.variance)
      (ofEx (dt (.mul f.error (.pow f.variance (-1 / 2))))) := by
    refine tf_pdiff_time _ (allF_pmul ?_ _ _ (allF_patom _ ⟨_, _, rfl, .inl (List.mem_map_of_mem hf)⟩) ?_)
    · exact fun _ _ _ h _ => h
    · show AllF _ (ppow (patom f.variance) (-1 / 2))
      unfold ppow
      rw [if_neg (by decide +kernel)]
      simp only [patom]
      rw [if_pos (by simp)]
      exact AllF.cons (AllM.cons ⟨_, _, rfl, .inr (List.mem_map_of_mem hf)⟩ .nil) .nil
  have h2 := tf_trends _ t1 _ h1
  refine tf_ofEx _ (h2.mono ?_)
  rintro u args ⟨h3 | h3, h4⟩
  · obtain ⟨kv, h5, h6⟩ := t2 _ h3
    exact absurd h6 (h4 kv h5)
  · exact h3

/-- The components of the metric tensors. -/
def metrics (K : Pkf) : List Ex := K.fields.flatMap (fun f => (pairs f.spatial.length).map (fun ij => f.metric ij.1 ij.2))

theorem metric_evolution (ms : List Eqn) (hms : K.metricSystem = .ok ms) : EvolutionForm (metrics K) ms := by
  obtain ⟨c, hc, -⟩ := h.det.closure_ok
  obtain ⟨es, hes, -⟩ := h.det.epsilon_ok r hr
  have he := h.epsilon_evolution r hr es hes
  unfold metricSystem at hms
  simp only [hes, hc, bind, Except.bind] at hms
  have := mapM_form _ (fun p : Field × ℕ × ℕ => p.1.metric p.2.1 p.2.2) _ _ hms (fun p hp q hq => ?_)
  · simpa [metrics, List.map_flatMap, List.map_map, Function.comp_def] using this
  obtain ⟨f, hf, hp⟩ := List.mem_flatMap.1 hp
  obtain ⟨⟨i, j⟩, hij, rfl⟩ := List.mem_map.1 hp
  obtain ⟨hij, hj⟩ := (Setting.mem_pairs _ _ _).1 hij
  have ht := time_error f (h.time_field f hf)
  unfold metricEq at hq
  simp only [bind, Except.bind, pure, Except.pure] at hq
  split at hq
  · cases hq
  rename_i e hap
  cases hq
  refine ⟨rfl, timeFree_eval _ (h.timeFree_applyInternal c hc (List.ne_nil_of_mem hf) _ (h.timeFree_trends _ h.epsilons_fn _ he _ ?_) _ hap)⟩
  have hx : ∀ k, k < f.spatial.length → f.spatial.getD k [] ≠ time ∧ f.spatial.getD k [] ∈ f.coordinates ++ [omega] := fun k hk => by
    have : f.spatial.getD k [] ∈ f.spatial := by
      rw [List.getD_eq_getElem?_getD, List.getElem?_eq_getElem hk, Option.getD_some]
      exact List.getElem_mem hk
    have := List.mem_filter.1 this
    exact ⟨by simpa using this.2, List.mem_append_left _ this.1⟩
  have d : ∀ k, k < f.spatial.length → ofEx (.deriv f.epsilon [(f.spatial.getD k [], 1)]) =
      patom (fnD ("{\\varepsilon_{".toList ++ f.code ++ "}}".toList) (f.coordinates ++ [omega]) [(f.spatial.getD k [], 1)]) := by
    intro k hk
    have h1 := pdiff_fnD (f.spatial.getD k []) ("{\\varepsilon_{".toList ++ f.code ++ "}}".toList) (f.coordinates ++ [omega]) []
    rw [if_pos (hx k hk).2] at h1
    exact h1
  show TFP _ (pexpect (pdiff time (pmul (ofEx (.deriv f.epsilon [(f.spatial.getD i [], 1)])) (ofEx (.deriv f.epsilon [(f.spatial.getD j [], 1)])))))
  rw [d i (by omega), d j hj]
  exact tf_pexpectPair _ (pair_pdiff _ _ _ _ _ _ (.one (hx i (by omega)).1) (.one (hx j hj).1) (omega_error f) (omega_error f) ht ht
    (List.mem_map_of_mem hf) (List.mem_map_of_mem hf))

/-! ## The complete systems -/

omit r hr h in
theorem form_append {gs gs' : List Ex} {l l' : List Eqn} (h1 : EvolutionForm gs l) (h2 : EvolutionForm gs' l') :
    EvolutionForm (gs ++ gs') (l ++ l') := by
  refine ⟨by rw [List.map_append, List.map_append, h1.1, h2.1], fun q hq => ?_⟩
  rcases List.mem_append.1 hq with hq | hq
  · exact h1.2 q hq
  · exact h2.2 q hq

omit r hr in
/-- A substitution in a system. -/
theorem subs_form (d : Dict Ex Ex) (hd : ∀ kv ∈ d, TimeFree kv.2) (tgt : Ex → Ex) (gs : List Ex) (l : List Eqn) (hl : EvolutionForm gs l)
    (hto : ∀ g ∈ gs, K.subs d (dt g) = dt (tgt g)) : EvolutionForm (gs.map tgt) (l.map (K.subsEq d)) := by
  constructor
  · rw [List.map_map, List.map_map]
    have : ∀ (gs : List Ex) (l : List Eqn), (∀ g ∈ gs, K.subs d (dt g) = dt (tgt g)) →
        l.map Prod.fst = gs.map (fun g => .deriv g [(time, 1)]) →
        l.map (Prod.fst ∘ K.subsEq d) = gs.map ((fun g => .deriv g [(time, 1)]) ∘ tgt) := by
      intro gs
      induction gs with
      | nil =>
        intro l _ h1
        cases l with
        | nil => rfl
        | cons => simp at h1
      | cons g gs ih =>
        intro l h0 h1
        cases l with
        | nil => simp at h1
        | cons q l =>
          simp only [List.map_cons, List.cons.injEq] at h1
          simp only [List.map_cons, Function.comp]
          rw [ih l (fun g hg => h0 g (by simp [hg])) h1.2]
          congr 1
          simp only [subsEq, h1.1]
          exact h0 g (by simp)
    exact this gs l hto hl.1
  · intro q hq
    obtain ⟨q', hq', rfl⟩ := List.mem_map.1 hq
    exact h.timeFree_subs d hd _ (hl.2 q' hq')

omit r hr in
/-- A substitution that does not change the left-hand sides. -/
theorem subs_form_id (d : Dict Ex Ex) (hd : ∀ kv ∈ d, TimeFree kv.2) (gs : List Ex) (l : List Eqn) (hl : EvolutionForm gs l)
    (hg : ∀ g ∈ gs, eval (dt g) = dt g ∧ ∀ kv ∈ d, (∀ b vs, eval kv.1 ≠ .deriv b vs) ∧ Inert (eval kv.1) (dt g)) :
    EvolutionForm gs (l.map (K.subsEq d)) := by
  have := h.subs_form d hd id gs l hl (fun g hg' => by
    exact substAll_inert _ _ (hg g hg').1 (fun kv hkv => (hg g hg').2 kv ((h.det.arrange _).mem_iff.1 hkv)))
  simpa using this

/-- The function `g` has a trend: it depends on time. -/
def Moves (g : Ex) : Prop := ∃ u args, g = .fn u args ∧ time ∈ args

omit r hr h in
theorem Moves.eval {g : Ex} (hg : Moves g) : Rand.eval (dt g) = dt g := by
  obtain ⟨u, args, rfl, ht⟩ := hg
  exact eval_dt _ _ ht

omit r hr in
/-- The closure of the user. -/
theorem user_form (user : Dict Ex Ex) (hu : UserClosure user) (gs : List Ex) (l : List Eqn) (hl : EvolutionForm gs l)
    (hg : ∀ g ∈ gs, Moves g ∨ ∃ f : Field, g = .ex f.random) : EvolutionForm gs (K.applyClosure user l) := by
  unfold applyClosure
  split
  · exact hl
  refine h.subs_form_id user (fun kv hkv => (hu kv hkv).2) gs l hl (fun g hg' => ?_)
  rcases hg g hg' with hm | ⟨f, rfl⟩
  · refine ⟨hm.eval, fun kv hkv => ?_⟩
    obtain ⟨a, ha, -⟩ := (hu kv hkv).1
    obtain ⟨u, args, rfl, -⟩ := hm
    rw [ha]
    exact ⟨by simp, by simp [dt, Inert]⟩
  · refine ⟨eval_dtEx _ _ (omega_error f), fun kv hkv => ?_⟩
    obtain ⟨a, ha, hf⟩ := (hu kv hkv).1
    rw [ha]
    refine ⟨by simp, by simp, ?_, by simp [Field.random, Inert]⟩
    intro e
    injection e with e
    exact hf _ _ e.symm

omit r hr h in
theorem clean_keys : ∀ kv ∈ K.cleanDict, ∃ f ∈ K.fields, kv = (.ex f.random, f.value) := by
  intro kv hkv
  rcases Dict.mem_update _ _ _ hkv with hkv | hkv
  · cases hkv
  · obtain ⟨f, hf, rfl⟩ := List.mem_map.1 hkv
    exact ⟨f, hf, rfl⟩

omit r hr in
theorem clean_form (gs : List Ex) (l : List Eqn) (hl : EvolutionForm gs l) (hg : ∀ g ∈ gs, Moves g) : EvolutionForm gs (K.clean l) := by
  refine h.subs_form_id _ (fun kv hkv => ?_) gs l hl (fun g hg' => ⟨(hg g hg').eval, fun kv hkv => ?_⟩)
  · obtain ⟨f, hf, rfl⟩ := clean_keys kv hkv
    trivial
  · obtain ⟨f, hf, rfl⟩ := clean_keys kv hkv
    obtain ⟨u, args, rfl, -⟩ := hg g hg'
    rw [show eval (.ex f.random) = .ex f.random from eval_exFn _ _ (omega_error f)]
    exact ⟨by simp, by simp [dt, Inert]⟩

omit r hr in
/-- The expectation of the field becomes the field. -/
theorem clean_mean (l : List Eqn) (hl : EvolutionForm (K.fields.map (fun f => .ex f.random)) l) :
    EvolutionForm (K.fields.map Field.value) (K.clean l) := by
  have e0 : ∀ g : Field, eval (.ex g.random) = .ex g.random := fun g => eval_exFn _ _ (omega_error g)
  have key : ∀ f ∈ K.fields, K.subs K.cleanDict (dt (.ex f.random)) = dt f.value := by
    intro f hf
    have ht := h.time_field f hf
    have work : substEx (.ex f.random) f.value (dt (.ex f.random)) = dt f.value := by
      unfold substEx
      rw [e0, show eval (dt (.ex f.random)) = dt (.ex f.random) from eval_dtEx _ _ (omega_error f)]
      have s : subst (.ex f.random) (ofEx f.value) (dt (.ex f.random)) = ofEx (dt f.value) := by
        unfold dt
        unfold subst
        rw [if_neg (by simp)]
        simp only [derivRest_none _ _ _ (show ∀ b vs, Ex.ex f.random ≠ .deriv b vs by simp)]
        unfold subst
        rw [if_pos rfl]
        rfl
      rw [s]
      exact eval_dt _ _ ht
    refine substAll_states _ (fun e => e = dt (.ex f.random)) (fun e => e = dt f.value) ?_ ?_ ?_ _ (eval_dtEx _ _ (omega_error f))
    · rintro kv hkv e rfl
      obtain ⟨g, hg, rfl⟩ := clean_keys kv ((h.det.arrange _).mem_iff.1 hkv)
      refine substEx_inert _ _ _ (by rw [e0]; simp) (eval_dt _ _ ht) ?_
      rw [e0]
      simp [dt, Inert, Field.value]
    · rintro kv hkv e rfl
      obtain ⟨g, hg, rfl⟩ := clean_keys kv ((h.det.arrange _).mem_iff.1 hkv)
      by_cases e1 : g.random = f.random
      · right
        have : g = f := by
          obtain ⟨n, c⟩ := g
          obtain ⟨n', c'⟩ := f
          simp only [Field.random, Ex.fn.injEq] at e1
          simpa using e1
        rw [this]
        exact work
      · left
        refine substEx_inert _ _ _ (by rw [e0]; simp) (eval_dtEx _ _ (omega_error f)) ?_
        rw [e0]
        exact ⟨by simp, fun e => e1 (by injection e with e; exact e.symm), by simp [Field.random, Inert]⟩
    · have : Ex.ex f.random ∈ Dict.keys K.cleanDict := by
        unfold Pkf.cleanDict
        rw [Dict.keys_update_iff]
        right
        exact List.mem_map.2 ⟨_, List.mem_map.2 ⟨f, hf, rfl⟩, rfl⟩
      obtain ⟨kv, hkv, e⟩ := List.mem_map.1 this
      refine ⟨kv, (h.det.arrange _).mem_iff.2 hkv, ?_⟩
      rintro e' rfl
      obtain ⟨g, hg, rfl⟩ := clean_keys kv hkv
      simp only [Ex.ex.injEq] at e
      have : g = f := by
        obtain ⟨n, c⟩ := g
        obtain ⟨n', c'⟩ := f
        simp only [Field.random, Ex.fn.injEq] at e
        simpa using e
      rw [this]
      exact work
  -- a function from the expectations to the fields
  have hmap : ∃ tgt : Ex → Ex, ∀ f : Field, tgt (.ex f.random) = f.value := by
    refine ⟨fun e => match e with
      | .ex (.fn u args) => .fn u args.dropLast
      | e => e, fun f => ?_⟩
    simp [Field.random, Field.value]
  obtain ⟨tgt, hto⟩ := hmap
  have := h.subs_form K.cleanDict (fun kv hkv => by obtain ⟨g, hg, rfl⟩ := clean_keys kv hkv; trivial) tgt _ l hl (by
    intro g hg
    obtain ⟨f, hf, rfl⟩ := List.mem_map.1 hg
    rw [hto]
    exact key f hf)
  rw [List.map_map] at this
  rw [show (tgt ∘ fun f : Field => Ex.ex f.random) = Field.value from funext hto] at this
  exact this

omit r hr in
theorem metrics_moves : ∀ g ∈ metrics K, Moves g := by
  intro g hg
  obtain ⟨f, hf, hg⟩ := List.mem_flatMap.1 hg
  obtain ⟨ij, -, rfl⟩ := List.mem_map.1 hg
  exact ⟨_, _, rfl, h.time_field f hf⟩

/-- The covariances of couples. -/
def covariances (K : Pkf) (coords : List Str) : List Ex := (couples K.fields).map (fun p => .fn (label ++ p.1.name ++ p.2.name) coords)

omit r hr in
theorem covariances_moves : ∀ g ∈ covariances K coords, Moves g := by
  intro g hg
  obtain ⟨p, -, rfl⟩ := List.mem_map.1 hg
  exact ⟨_, _, rfl, h.time_mem⟩

theorem inMetric_form (user : Dict Ex Ex) (hu : UserClosure user) (l : List Eqn) (hl : K.inMetric user = .ok l) :
    EvolutionForm (K.fields.map Field.value ++ K.fields.map Field.variance ++ covariances K coords ++ metrics K) l := by
  obtain ⟨ms, hms⟩ := h.det.expectation_ok r hr
  obtain ⟨vs, hvs, -⟩ := h.det.variance_ok r hr
  obtain ⟨cs, hcs⟩ := h.det.cross_ok r hr
  obtain ⟨gs, hgs, -⟩ := h.det.metric_ok r hr
  have e1 := h.mean_evolution r hr ms hms
  have e2 := h.variance_evolution r hr vs hvs
  have e3 := h.cross_evolution r hr cs hcs
  have e4 := h.metric_evolution r hr gs hgs
  unfold inMetric at hl
  simp only [hms, hvs, hcs, hgs, bind, Except.bind, pure, Except.pure] at hl
  cases hl
  have f1 := h.clean_mean _ (h.user_form user hu _ _ e1 (fun g hg => by
    obtain ⟨f, -, rfl⟩ := List.mem_map.1 hg
    exact .inr ⟨f, rfl⟩))
  have f2 := h.clean_form _ _ (h.user_form user hu _ _ e2 (fun g hg => .inl (h.variances_fn g hg))) h.variances_fn
  have f3 := h.clean_form _ _ (h.user_form user hu _ _ e3 (fun g hg => .inl (h.covariances_moves g hg))) h.covariances_moves
  have f4 := h.clean_form _ _ (h.user_form user hu _ _ e4 (fun g hg => .inl (h.metrics_moves g hg))) h.metrics_moves
  cases cs with
  | none =>
    have : EvolutionForm (covariances K coords) [] := e3
    simpa using form_append (form_append (form_append f1 f2) this) f4
  | some cs =>
    simp only [Option.toList_some, List.flatMap_cons, List.flatMap_nil, List.append_nil, id] at f3
    simpa [covariances] using form_append (form_append (form_append f1 f2) f3) f4

omit r hr in
/-- The change of tensor. -/
theorem tensor_form (d : Dict Ex Ex) (hd : ∀ kv ∈ d, kv.1 ∈ metrics K ∧ TimeFree kv.2) (gs : List Ex) (l : List Eqn) (hl : EvolutionForm gs l)
    (hg : ∀ g ∈ gs, (Moves g ∧ g ∉ metrics K) ∨ ∃ f ∈ K.fields, g = .ex f.random) : EvolutionForm gs (l.map (K.subsEq d)) := by
  refine h.subs_form_id d (fun kv hkv => (hd kv hkv).2) gs l hl (fun g hg' => ?_)
  rcases hg g hg' with ⟨hm, hn⟩ | ⟨f, hf, rfl⟩
  · refine ⟨hm.eval, fun kv hkv => ?_⟩
    have hk := (hd kv hkv).1
    obtain ⟨u, args, e, ht⟩ := h.metrics_moves _ hk
    obtain ⟨u', args', rfl, -⟩ := hm
    rw [e, show eval (.fn u args) = .fn u args from rfl]
    refine ⟨by simp, by simp, ?_⟩
    intro e'
    rw [e'] at hn
    exact hn (e ▸ hk)
  · refine ⟨eval_dtEx _ _ (omega_error f), fun kv hkv => ?_⟩
    have hk := (hd kv hkv).1
    obtain ⟨g, hg, hk⟩ := List.mem_flatMap.1 hk
    obtain ⟨ij, -, e⟩ := List.mem_map.1 hk
    rw [← e, show eval (g.metric ij.1 ij.2) = g.metric ij.1 ij.2 from rfl]
    refine ⟨by simp [Field.metric], by simp [Field.metric], by simp [Field.metric], ?_⟩
    simp only [Field.random, Field.metric, Inert, ne_eq, Ex.fn.injEq, not_and]
    intro _ e'
    rw [h.det.same f hf, h.det.same g hg] at e'
    simpa using congrArg List.length e'

omit r hr h in
theorem timeFree_sumEx (l : List Ex) (hl : ∀ e ∈ l, TimeFree e) : TimeFree (sumEx l) := by
  unfold sumEx
  induction l with
  | nil => trivial
  | cons e l ih => exact ⟨hl e (by simp), ih (fun e he => hl e (by simp [he]))⟩

omit r hr h in
theorem timeFree_det (n : ℕ) (M : ℕ → ℕ → Ex) (hM : ∀ i j, TimeFree (M i j)) : TimeFree (detEx n M) := by
  induction n generalizing M with
  | zero => trivial
  | succ n ih =>
    refine timeFree_sumEx _ (fun e he => ?_)
    obtain ⟨j, -, rfl⟩ := List.mem_map.1 he
    exact ⟨⟨trivial, hM _ _⟩, ih _ (fun _ _ => hM _ _)⟩

omit r hr h in
theorem timeFree_inv (n : ℕ) (M : ℕ → ℕ → Ex) (hM : ∀ i j, TimeFree (M i j)) (i j : ℕ) : TimeFree (invEx n M i j) :=
  ⟨⟨trivial, timeFree_det _ _ (fun _ _ => hM _ _)⟩, timeFree_det _ _ hM⟩

omit r hr h in
theorem metric_mem (f : Field) (hf : f ∈ K.fields) (i j : ℕ) (hi : i < f.spatial.length) (hj : j < f.spatial.length) :
    f.metric i j ∈ metrics K := by
  have sym : ∀ i j, f.metric i j = f.metric j i := by
    intro i j
    unfold Field.metric Field.indexCode
    rcases Nat.lt_trichotomy i j with h | rfl | h
    · rw [if_neg (by omega), if_pos h]
    · rfl
    · rw [if_pos h, if_neg (by omega)]
  rcases le_total i j with h | h
  · exact List.mem_flatMap.2 ⟨f, hf, List.mem_map.2 ⟨(i, j), (Setting.mem_pairs _ _ _).2 ⟨h, hj⟩, rfl⟩⟩
  · rw [sym]
    exact List.mem_flatMap.2 ⟨f, hf, List.mem_map.2 ⟨(j, i), (Setting.mem_pairs _ _ _).2 ⟨h, hi⟩, rfl⟩⟩

omit r hr h in
theorem tf_sumEx {L : Str → List Str → Prop} (l : List Ex) (hl : ∀ e ∈ l, TF L e) : TF L (sumEx l) := by
  unfold sumEx
  induction l with
  | nil => trivial
  | cons e l ih => exact ⟨hl e (by simp), ih (fun e he => hl e (by simp [he]))⟩

/-- The components of a tensor of the fields. -/
def tensors (K : Pkf) (T : Field → ℕ → ℕ → Ex) : List Ex := K.fields.flatMap (fun f => (pairs f.spatial.length).map (fun ij => T f ij.1 ij.2))

omit r hr in
theorem tensors_moves (T : Field → ℕ → ℕ → Ex) (hT : ∀ f i j, ∃ u, T f i j = .fn u f.coordinates) : ∀ g ∈ tensors K T, Moves g := by
  intro g hg
  obtain ⟨f, hf, hg⟩ := List.mem_flatMap.1 hg
  obtain ⟨ij, -, rfl⟩ := List.mem_map.1 hg
  obtain ⟨u, e⟩ := hT f ij.1 ij.2
  exact ⟨_, _, e, h.time_field f hf⟩

omit r hr in
/-- The equations of a tensor. -/
theorem tensorEqs_form (factor : ℚ) (d : Dict Ex Ex) (hd : ∀ kv ∈ d, TimeFree kv.2) (T : Field → ℕ → ℕ → Ex)
    (hT : ∀ f i j, ∃ u, T f i j = .fn u f.coordinates) (ms : List Eqn) (hms : EvolutionForm (metrics K) ms) :
    EvolutionForm (tensors K T) (K.fields.flatMap (K.tensorEqs factor d (trends ms) T)) := by
  constructor
  · simp only [tensors, List.map_flatMap, tensorEqs, List.map_map]
    rfl
  · intro q hq
    obtain ⟨f, hf, hq⟩ := List.mem_flatMap.1 hq
    obtain ⟨ij, hij, rfl⟩ := List.mem_map.1 hq
    obtain ⟨hij, hj⟩ := (Setting.mem_pairs _ _ _).1 hij
    refine h.timeFree_subs _ hd _ (h.timeFree_trends _ h.metrics_moves _ hms _ (tf_ofEx _ ?_))
    refine ⟨trivial, tf_sumEx _ (fun e he => ?_)⟩
    obtain ⟨l, hl, rfl⟩ := List.mem_map.1 he
    have hTF : ∀ i j, TF (fun u args => .fn u args ∈ metrics K) (T f i j) := by
      intro i j
      obtain ⟨u, e⟩ := hT f i j
      rw [e]
      trivial
    refine ⟨tf_sumEx _ (fun e he => ?_), hTF _ _⟩
    obtain ⟨k, hk, rfl⟩ := List.mem_map.1 he
    exact ⟨hTF _ _, .inr ⟨_, _, rfl, metric_mem f hf k l (List.mem_range.1 hk) (List.mem_range.1 hl), .one⟩⟩

omit r hr h in
theorem not_metric (u : Str) (args : List Str) (hu : u.take 3 ≠ "{g_".toList) : .fn u args ∉ metrics K := by
  intro hm
  obtain ⟨f, -, hm⟩ := List.mem_flatMap.1 hm
  obtain ⟨ij, -, e⟩ := List.mem_map.1 hm
  simp only [Field.metric, Ex.fn.injEq] at e
  apply hu
  rw [← e.1]
  rfl

omit r hr h in
theorem variances_metric : ∀ g ∈ K.fields.map Field.variance, g ∉ metrics K := by
  intro g hg
  obtain ⟨f, -, rfl⟩ := List.mem_map.1 hg
  exact not_metric _ _ (by simp)

omit r hr h in
theorem covariances_metric : ∀ g ∈ covariances K coords, g ∉ metrics K := by
  intro g hg
  obtain ⟨p, -, rfl⟩ := List.mem_map.1 hg
  refine not_metric _ _ ?_
  show ('V' :: '_' :: (p.1.name ++ p.2.name)).take 3 ≠ ['{', 'g', '_']
  simp

omit r hr h in
theorem aspect_keys : ∀ kv ∈ K.metricToAspect, kv.1 ∈ metrics K ∧ TimeFree kv.2 := by
  intro kv hkv
  rcases Dict.mem_update _ _ _ hkv with hkv | hkv
  · cases hkv
  · obtain ⟨f, hf, hkv⟩ := List.mem_flatMap.1 hkv
    obtain ⟨ij, hij, rfl⟩ := List.mem_map.1 hkv
    exact ⟨List.mem_flatMap.2 ⟨f, hf, List.mem_map.2 ⟨ij, hij, rfl⟩⟩, timeFree_inv _ (Field.aspect f) (fun _ _ => trivial) _ _⟩

omit r hr h in
theorem diffusion_keys : ∀ kv ∈ K.metricToDiffusion, kv.1 ∈ metrics K ∧ TimeFree kv.2 := by
  intro kv hkv
  rcases Dict.mem_update _ _ _ hkv with hkv | hkv
  · cases hkv
  · obtain ⟨f, hf, hkv⟩ := List.mem_flatMap.1 hkv
    obtain ⟨ij, hij, rfl⟩ := List.mem_map.1 hkv
    exact ⟨List.mem_flatMap.2 ⟨f, hf, List.mem_map.2 ⟨ij, hij, rfl⟩⟩, trivial, timeFree_inv _ (Field.diffusion f) (fun _ _ => trivial) _ _⟩

/-- The closed systems of the means, variances, covariances and metrics. -/
theorem closed_forms (user : Dict Ex Ex) (hu : UserClosure user) :
    ∃ ms vs cs gs, K.expectationSystem = .ok ms ∧ K.varianceSystem = .ok vs ∧ K.crossSystem = .ok cs ∧ K.metricSystem = .ok gs ∧
      EvolutionForm (K.fields.map (fun f => .ex f.random)) (K.applyClosure user ms) ∧
      EvolutionForm (K.fields.map Field.variance) (K.applyClosure user vs) ∧
      EvolutionForm (covariances K coords) (cs.toList.flatMap (fun s => K.applyClosure user s)) ∧
      EvolutionForm (metrics K) (K.applyClosure user gs) := by
  obtain ⟨ms, hms⟩ := h.det.expectation_ok r hr
  obtain ⟨vs, hvs, -⟩ := h.det.variance_ok r hr
  obtain ⟨cs, hcs⟩ := h.det.cross_ok r hr
  obtain ⟨gs, hgs, -⟩ := h.det.metric_ok r hr
  have e3 := h.user_form user hu _ _ (h.cross_evolution r hr cs hcs) (fun g hg => .inl (h.covariances_moves g hg))
  refine ⟨ms, vs, cs, gs, hms, hvs, hcs, hgs, h.user_form user hu _ _ (h.mean_evolution r hr ms hms) (fun g hg => by
      obtain ⟨f, -, rfl⟩ := List.mem_map.1 hg
      exact .inr ⟨f, rfl⟩),
    h.user_form user hu _ _ (h.variance_evolution r hr vs hvs) (fun g hg => .inl (h.variances_fn g hg)), ?_,
    h.user_form user hu _ _ (h.metric_evolution r hr gs hgs) (fun g hg => .inl (h.metrics_moves g hg))⟩
  cases cs with
  | none => exact h.cross_evolution r hr none hcs
  | some cs => simpa [covariances] using e3

theorem inAspect_form (user : Dict Ex Ex) (hu : UserClosure user) (l : List Eqn) (hl : K.inAspect user = .ok l) :
    EvolutionForm (K.fields.map Field.value ++ K.fields.map Field.variance ++ covariances K coords ++ tensors K Field.aspect) l := by
  obtain ⟨ms, vs, cs, gs, hms, hvs, hcs, hgs, e1, e2, e3, e4⟩ := h.closed_forms r hr user hu
  unfold inAspect at hl
  simp only [hms, hvs, hcs, hgs, bind, Except.bind, pure, Except.pure] at hl
  cases hl
  have f1 := h.clean_mean _ (h.tensor_form _ aspect_keys _ _ e1 (fun g hg => by
    obtain ⟨f, hf, rfl⟩ := List.mem_map.1 hg
    exact .inr ⟨f, hf, rfl⟩))
  have f2 := h.clean_form _ _ (h.tensor_form _ aspect_keys _ _ e2 (fun g hg => .inl ⟨h.variances_fn g hg, variances_metric g hg⟩)) h.variances_fn
  have f3 := h.clean_form _ _ (h.tensor_form _ aspect_keys _ _ e3 (fun g hg => .inl ⟨h.covariances_moves g hg, covariances_metric g hg⟩))
    h.covariances_moves
  have hT : ∀ (f : Field) (i j : ℕ), ∃ u, f.aspect i j = .fn u f.coordinates := fun f i j => ⟨_, rfl⟩
  have f4 := h.clean_form _ _ (h.tensorEqs_form (-1) K.metricToAspect (fun kv hkv => (aspect_keys kv hkv).2) Field.aspect hT _ e4) (h.tensors_moves _ hT)
  have := form_append (form_append (form_append f1 f2) f3) f4
  simp only [clean, List.flatMap_append, List.flatMap_cons, List.flatMap_nil, List.append_nil, List.map_append, List.map_flatMap,
    List.append_assoc] at this ⊢
  exact this

theorem inDiffusion_form (user : Dict Ex Ex) (hu : UserClosure user) (l : List Eqn) (hl : K.inDiffusion user = .ok l) :
    EvolutionForm (K.fields.map Field.value ++ K.fields.map Field.variance ++ tensors K Field.diffusion) l := by
  obtain ⟨ms, vs, cs, gs, hms, hvs, hcs, hgs, e1, e2, e3, e4⟩ := h.closed_forms r hr user hu
  unfold inDiffusion at hl
  simp only [hms, hvs, hgs, bind, Except.bind, pure, Except.pure] at hl
  cases hl
  have f1 := h.clean_mean _ (h.tensor_form _ diffusion_keys _ _ e1 (fun g hg => by
    obtain ⟨f, hf, rfl⟩ := List.mem_map.1 hg
    exact .inr ⟨f, hf, rfl⟩))
  have f2 := h.clean_form _ _ (h.tensor_form _ diffusion_keys _ _ e2 (fun g hg => .inl ⟨h.variances_fn g hg, variances_metric g hg⟩)) h.variances_fn
  have hT : ∀ (f : Field) (i j : ℕ), ∃ u, f.diffusion i j = .fn u f.coordinates := fun f i j => ⟨_, rfl⟩
  have f4 := h.clean_form _ _ (h.tensorEqs_form (-2) K.metricToDiffusion (fun kv hkv => (diffusion_keys kv hkv).2) Field.diffusion hT _ e4) (h.tensors_moves _ hT)
  have := form_append (form_append f1 f2) f4
  simp only [clean, List.flatMap_cons, List.flatMap_nil, List.append_nil, List.map_append, List.map_flatMap,
    List.append_assoc] at this ⊢
  exact this

end EvolutionSystem

end Sympkf.Spec
