import Verif.Lemmas.Plain

/-!
# Lemmas: the functions that occur in the systems of the PKF
-/

set_option autoImplicit false
set_option linter.unusedSectionVars false

namespace Sympkf.Spec

open Text Rand PKF Pkf

/-- The functions of the systems have the property `F`; the symbols and the functions of the dynamics have the properties `S`, `F`. -/
structure Covers (K : Pkf) (S : Str → Prop) (F : Str → List Str → Prop) : Prop where
  value : ∀ f ∈ K.fields, Plain S F f.value
  random : ∀ f ∈ K.fields, Plain S F f.random
  error : ∀ f ∈ K.fields, Plain S F f.error
  epsilon : ∀ f ∈ K.fields, Plain S F f.epsilon
  variance : ∀ f ∈ K.fields, Plain S F f.variance
  metric : ∀ f ∈ K.fields, ∀ i j, i < f.spatial.length → j < f.spatial.length → Plain S F (f.metric i j)
  cross : ∀ p ∈ couples K.fields, Plain S F (.fn (label ++ p.1.name ++ p.2.name) p.1.coordinates)
  equations : ∀ q ∈ K.equations, Plain S F q.2

namespace Covers

variable {K : Pkf} {coords : List Str} {S : Str → Prop} {F : Str → List Str → Prop} (h : DetSystem K coords) (hF : Covers K S F)
include h hF

theorem subs (d : Dict Ex Ex) (hd : ∀ kv ∈ d, Plain S F kv.2) (e : Ex) (he : Plain S F e) : Neat S F (K.subs d e) :=
  neat_substAll _ (fun kv hkv => hd kv ((h.arrange d).mem_iff.1 hkv)) e he

theorem metricOf (f : Field) (hf : f ∈ K.fields) (x y : Str) (hx : x ∈ f.spatial) (hy : y ∈ f.spatial) : Plain S F (f.metricOf x y) :=
  hF.metric f hf _ _ (List.idxOf_lt_length_iff.2 hx) (List.idxOf_lt_length_iff.2 hy)

theorem closure (c : Dict Ex Ex) (hc : K.closure = .ok c) : ∀ kv ∈ c, Plain S F kv.2 := by
  unfold Pkf.closure internalClosure at hc
  simp only [bind, Except.bind] at hc
  split at hc
  · cases hc
  rename_i c1 hc1
  have r1 : ∀ kv ∈ c1, Plain S F kv.2 := by
    refine foldlM_ok _ (fun c : Dict Ex Ex => ∀ kv ∈ c, Plain S F kv.2) _ _ _ hc1 (by simp) ?_
    intro s f s' hf hs hstep
    split at hstep
    · cases hstep
    rename_i cf hcf
    cases hstep
    intro kv hkv
    rcases Dict.mem_update _ _ _ hkv with hkv | hkv
    · exact hs kv hkv
    · have e := h.spatial f hf
      obtain ⟨c', h1, -, h3⟩ := internalClosure_spec K.order h.order f (e ▸ h.space) (e ▸ h.nodup.filter _)
      rw [h1] at hcf
      cases hcf
      rcases h3 kv hkv with rfl | rfl | rfl | rfl | ⟨x, hx, rfl⟩ | ⟨i, j, hij, hj, rfl⟩ | ⟨k, i, j, hk, hi, hj, rfl⟩
      · trivial
      · exact hF.variance f hf
      · trivial
      · trivial
      · trivial
      · exact ⟨trivial, hF.metric f hf i j (by omega) hj⟩
      · have m := fun x y hx hy => metricOf h hF f hf x y hx hy
        exact ⟨trivial, ⟨m k j hk hj, m i k hi hk⟩, m i j hi hj⟩
  refine foldlM_ok _ (fun c : Dict Ex Ex => ∀ kv ∈ c, Plain S F kv.2) _ _ _ hc r1 ?_
  intro s p s' hp hs hstep
  have hm := ((PKF.C41_couples K.fields).1 p.1 p.2).1 hp
  have m1 : p.1 ∈ K.fields := hm.subset (by simp)
  have m2 : p.2 ∈ K.fields := hm.subset (by simp)
  unfold coupleEntries at hstep
  simp only [bind, Except.bind] at hstep
  split at hstep
  · cases hstep
  rename_i v hv
  have hvo : Plain S F v := by
    unfold covariance at hv
    split at hv
    · split at hv
      · cases hv
        exact hF.cross p hp
      · cases hv
    · cases hv
  cases hstep
  intro kv hkv
  rcases Dict.mem_set _ _ _ _ hkv with rfl | hkv
  · exact ⟨hvo, hF.variance _ m1, hF.variance _ m2⟩
  · rcases Dict.mem_set _ _ _ _ hkv with rfl | hkv
    · exact hvo
    · exact hs kv hkv

theorem subsError (e : Ex) (he : Plain S F e) : Neat S F (K.subs K.subsError e) := by
  refine subs h hF _ (fun kv hkv => ?_) e he
  rcases Dict.mem_update _ _ _ hkv with hkv | hkv
  · cases hkv
  obtain ⟨f, hf, rfl⟩ := List.mem_map.1 hkv
  exact ⟨hF.variance f hf, hF.epsilon f hf⟩

theorem epsOne (p : Poly) (hp : NeatP (fun s => S s ∨ s = epsSym) F p) : Neat S F (Pkf.epsOne p) :=
  neat_toEx _ (neat_subst _ _ (fun s hs hne => hs.resolve_right (fun e => hne (by rw [e]))) (fun _ _ h _ => h) (allF_pconst 1) _
    (neat_toEx p hp).plain)

theorem reynolds (r : List (Eqn × Eqn)) (hr : K.reynolds = .ok r) : ∀ q ∈ r, Neat S F q.1.2 ∧ Neat S F q.2.2 := by
  intro q hq
  obtain ⟨q0, hq0, hrey⟩ := mem_mapM _ _ _ hr q hq
  unfold reynoldsEq at hrey
  obtain ⟨rhs, hrhs, hrey⟩ := bind_eq_ok hrey
  cases hrey
  have up : ∀ {e : Ex}, Plain S F e → Plain (fun s => S s ∨ s = epsSym) F e := fun he => he.mono (fun _ h => .inl h) (fun _ _ h => h)
  have h1 : Neat (fun s => S s ∨ s = epsSym) F (K.subs K.subsReynolds q0.2) := by
    refine neat_substAll _ (fun kv hkv => ?_) _ (up (hF.equations q0 hq0))
    rcases Dict.mem_update _ _ _ ((h.arrange _).mem_iff.1 hkv) with hkv | hkv
    · cases hkv
    obtain ⟨f, hf, rfl⟩ := List.mem_map.1 hkv
    exact ⟨up (hF.random f hf), .inr rfl, up (hF.error f hf)⟩
  have h2 : NeatP (fun s => S s ∨ s = epsSym) F rhs :=
    taylor_all neat_hereditary (fun _ _ _ h => h.elim) (.inr rfl) _ _ (neat_ofEx _ h1.plain) hrhs
  exact ⟨epsOne h hF _ h2, epsOne h hF _ (fun t ht => h2 t (List.mem_of_mem_filter ht))⟩

theorem mean (ms : List Eqn) (hms : K.expectationSystem = .ok ms) : ∀ q ∈ ms, Neat S F q.2 := by
  unfold expectationSystem secondOrder at hms
  simp only [bind, Except.bind, pure, Except.pure] at hms
  split at hms
  · cases hms
  rename_i sec hsec
  split at hsec
  · cases hsec
  rename_i r hr
  cases hsec
  split at hms
  · cases hms
  rename_i c hc
  cases hms
  intro q hq
  obtain ⟨q1, hq1, rfl⟩ := List.mem_map.1 hq
  obtain ⟨q2, hq2, rfl⟩ := List.mem_map.1 hq1
  have h1 := (reynolds h hF r hr q2 hq2).1
  have h2 : Neat S F (eval (.ex q2.1.2)) := neat_eval _ h1.plain
  exact subs h hF c (closure h hF c hc) _ (subsError h hF _ h2.plain).plain

theorem errors (es : List Eqn) (hes : K.errorSystem = .ok es) : ∀ q ∈ es, Neat S F q.2 := by
  unfold errorSystem tlExpectation firstOrder at hes
  obtain ⟨c, hc, -⟩ := h.closure_ok
  simp only [hc, bind, Except.bind, pure, Except.pure] at hes
  split at hes
  · cases hes
  rename_i first hf
  split at hf
  · cases hf
  rename_i r hr
  cases hf
  cases hes
  have hp := reynolds h hF r hr
  intro q hq
  obtain ⟨⟨q1, q2⟩, hz, rfl⟩ := List.mem_map.1 hq
  have m := List.of_mem_zip hz
  obtain ⟨q3, hq3, rfl⟩ := List.mem_map.1 m.2
  obtain ⟨r1, hr1, e1⟩ := List.mem_map.1 m.1
  obtain ⟨r3, hr3, e3⟩ := List.mem_map.1 hq3
  have p1 : Neat S F q1.2 := e1 ▸ (hp r1 hr1).2
  have p3 : Neat S F q3.2 := e3 ▸ (hp r3 hr3).2
  have p4 := subs h hF c (closure h hF c hc) (eval (.ex q3.2)) (neat_eval (.ex q3.2) p3.plain).plain
  exact neat_eval (.add q1.2 (.mul (.num (-1)) _)) ⟨p1.plain, trivial, p4.plain⟩

theorem tree (f : Field) (hf : f ∈ K.fields) (v : Tree.TEx) : Plain S F (ofTree f.spatial f.epsilon v) := by
  induction v with
  | term t => exact ⟨hF.epsilon f hf, hF.epsilon f hf⟩
  | d x e ih => exact ih
  | sub e g ihe ihg => exact ⟨ihe, trivial, ihg⟩
  | half e ih => exact ⟨trivial, ih⟩

theorem applyInternal (c : Dict Ex Ex) (hc : K.closure = .ok c) (rhs : Ex) (hr : Neat S F rhs) (e : Ex)
    (he : K.applyInternal c rhs = .ok e) : Neat S F e := by
  unfold Pkf.applyInternal at he
  simp only [bind, Except.bind, pure, Except.pure] at he
  split at he
  · cases he
  split at he
  · cases he
  rename_i e1 he1
  cases he
  refine subs h hF _ (closure h hF c hc) _ (Neat.plain (foldlM_ok _ (fun e => Neat S F e) _ _ _ he1 hr ?_))
  intro s eps s' _ hs hstep
  unfold applyTree at hstep
  split at hstep
  · cases hstep
  rename_i f hf
  simp only [bind, Except.bind, pure, Except.pure] at hstep
  split at hstep
  · cases hstep
  rename_i t htree
  cases hstep
  refine subs h hF t (fun kv hkv => ?_) _ hs.plain
  unfold closedTree at htree
  simp only [bind, Except.bind, pure, Except.pure] at htree
  split at htree
  · cases htree
  cases htree
  obtain ⟨tv, -, rfl⟩ := List.mem_map.1 (Setting.mem_trends _ _ hkv)
  exact (subs h hF c (closure h hF c hc) _ (tree h hF f (Setting.fieldOf_mem eps f hf).1 _)).plain

variable (r : List (Eqn × Eqn)) (hr : K.reynolds = .ok r)
include hr

theorem variances (vs : List Eqn) (hvs : K.varianceSystem = .ok vs) : ∀ q ∈ vs, Neat S F q.2 := by
  obtain ⟨es, hes⟩ := h.error_ok r hr
  obtain ⟨c, hc, -⟩ := h.closure_ok
  unfold varianceSystem at hvs
  simp only [hes, hc, bind, Except.bind] at hvs
  intro q hq
  obtain ⟨f, hf, hq⟩ := mem_mapM _ _ _ hvs q hq
  unfold varianceEq at hq
  simp only [bind, Except.bind, pure, Except.pure] at hq
  split at hq
  · cases hq
  rename_i e hap
  cases hq
  have p1 := subs h hF (trends es) (fun kv hkv => (errors h hF es hes kv (Setting.mem_trends _ _ hkv)).plain) (.ex (dt (.pow f.error 2))) (hF.error f hf)
  exact applyInternal h hF c hc _ (subsError h hF _ p1.plain) e hap

theorem crosses (cs : Option (List Eqn)) (hcs : K.crossSystem = .ok cs) : ∀ q ∈ cs.getD [], Neat S F q.2 := by
  unfold crossSystem at hcs
  split at hcs
  · cases hcs
    intro q hq
    cases hq
  obtain ⟨c, hc, -⟩ := h.closure_ok
  obtain ⟨es, hes⟩ := h.error_ok r hr
  simp only [hes, hc, bind, Except.bind, pure, Except.pure] at hcs
  split at hcs
  · cases hcs
  rename_i l hl
  cases hcs
  intro q hq
  obtain ⟨p, hp, hq⟩ := mem_mapM _ _ _ hl q hq
  have hm := ((PKF.C41_couples K.fields).1 p.1 p.2).1 hp
  unfold crossEq at hq
  simp only [bind, Except.bind, pure, Except.pure] at hq
  split at hq
  · cases hq
  split at hq
  · cases hq
  rename_i e hap
  cases hq
  have p1 := subs h hF (trends es) (fun kv hkv => (errors h hF es hes kv (Setting.mem_trends _ _ hkv)).plain) (.ex (dt (.mul p.1.error p.2.error)))
    ⟨hF.error _ (hm.subset (by simp)), hF.error _ (hm.subset (by simp))⟩
  exact neat_eval _ (applyInternal h hF c hc _ (subsError h hF _ p1.plain) e hap).plain

theorem epsilons (es : List Eqn) (hes : K.epsilonSystem = .ok es) : ∀ q ∈ es, Neat S F q.2 := by
  obtain ⟨rs, hrs⟩ := h.error_ok r hr
  obtain ⟨vs, hvs, -⟩ := h.variance_ok r hr
  unfold epsilonSystem at hes
  simp only [hrs, hvs, bind, Except.bind, pure, Except.pure] at hes
  cases hes
  intro q hq
  obtain ⟨f, hf, rfl⟩ := List.mem_map.1 hq
  have p1 := subs h hF (trends rs) (fun kv hkv => (errors h hF rs hrs kv (Setting.mem_trends _ _ hkv)).plain)
    (dt (.mul f.error (.pow f.variance (-1 / 2)))) ⟨hF.error f hf, hF.variance f hf⟩
  have p2 := subs h hF (trends vs) (fun kv hkv => (variances h hF r hr vs hvs kv (Setting.mem_trends _ _ hkv)).plain) _ p1.plain
  exact subsError h hF _ p2.plain

theorem metrics (ms : List Eqn) (hms : K.metricSystem = .ok ms) : ∀ q ∈ ms, Neat S F q.2 := by
  obtain ⟨es, hes, -⟩ := h.epsilon_ok r hr
  obtain ⟨c, hc, -⟩ := h.closure_ok
  unfold metricSystem at hms
  simp only [hes, hc, bind, Except.bind] at hms
  intro q hq
  obtain ⟨p, hp, hq⟩ := mem_mapM _ _ _ hms q hq
  obtain ⟨f, hf, hp⟩ := List.mem_flatMap.1 hp
  obtain ⟨⟨i, j⟩, hij, rfl⟩ := List.mem_map.1 hp
  unfold metricEq at hq
  simp only [bind, Except.bind, pure, Except.pure] at hq
  split at hq
  · cases hq
  rename_i e hap
  cases hq
  have p1 := subs h hF (trends es) (fun kv hkv => (epsilons h hF r hr es hes kv (Setting.mem_trends _ _ hkv)).plain)
    (.ex (dt (.mul (.deriv f.epsilon [(f.spatial.getD i [], 1)]) (.deriv f.epsilon [(f.spatial.getD j [], 1)]))))
    ⟨hF.epsilon f hf, hF.epsilon f hf⟩
  exact neat_eval _ (applyInternal h hF c hc _ p1 e hap).plain

end Covers

end Sympkf.Spec
