import Verif.Lemmas.Classify
import Verif.Props.Evolution

/-!
# C82, C83: the expectations that are left open
-/

set_option autoImplicit false

namespace Sympkf.PKF

open Text Rand Spec Pkf

variable {K : Pkf} {coords : List Str}

theorem without_occurs (s : Str) (e : Ex) (h : Without s e) : occurs s e = false := by
  induction e with
  | num => rfl
  | sym t => exact decide_eq_false h
  | fn u args => exact decide_eq_false h
  | func g a ih => exact ih h
  | add a b iha ihb => rw [occurs, iha h.1, ihb h.2]; rfl
  | mul a b iha ihb => rw [occurs, iha h.1, ihb h.2]; rfl
  | pow a q ih => exact ih h
  | deriv a vars ih =>
    rw [occurs, ih h.1, Bool.false_or, List.any_eq_false]
    intro v hv
    simpa using h.2 v hv
  | integ a x ih => rw [occurs, ih h.1, Bool.false_or]; exact decide_eq_false h.2
  | ex a ih => exact ih h
  | other b => rfl

/-- The expansion parameter of the Reynolds equations does not occur in the dynamics. -/
def ParameterFree (K : Pkf) : Prop := ∀ q ∈ K.equations, Without "\\varepsilon".toList q.2

theorem ParameterFree.occurs (h : ParameterFree K) : ∀ q ∈ K.equations, Pkf.occurs epsSym q.2 = false :=
  fun q hq => without_occurs _ _ (h q hq)

/-- The mean of a random field. -/
abbrev Mean (K : Pkf) (t : Ex) : Prop := ∃ f ∈ K.fields, t = .ex f.random

theorem atoms_within {P : Ex → Prop} {e : Ex} (h : ∀ t ∈ exAtoms e, P t) (a : Ex) (ha : Within (.ex a) e) : P (.ex a) :=
  h _ ((mem_exAtoms _ _).2 ⟨⟨a, rfl⟩, ha⟩)

theorem mean_left (h : EvolutionSystem K coords) (hp : ParameterFree K) (r : List (Eqn × Eqn)) (hr : K.reynolds = .ok r) (ms : List Eqn)
    (hms : K.expectationSystem = .ok ms) (q : Eqn) (hq : q ∈ ms) : ∀ t ∈ exAtoms q.2, Stable t ∧ (Mean K t ∨ OpenMean K.fields t) := by
  have h1 := h.left_mean hp.occurs r hr ms hms q hq
  have h2 := h.open_mean q.2 h1 (h.only_mean ms hms q hq) ((h.mean_evolution r hr ms hms).2 q hq)
  exact fun t ht => ⟨(h1 t ht).1.1, h2 t ht⟩

theorem moments_left (h : EvolutionSystem K coords) (hp : ParameterFree K) (r : List (Eqn × Eqn)) (hr : K.reynolds = .ok r) :
    (∀ vs, K.varianceSystem = .ok vs → ∀ q ∈ vs, ∀ t ∈ exAtoms q.2, Stable t ∧ (Mean K t ∨ Open K.fields t)) ∧
    (∀ cs, K.crossSystem = .ok cs → ∀ q ∈ cs.getD [], ∀ t ∈ exAtoms q.2, Stable t ∧ (Mean K t ∨ Open K.fields t)) ∧
    ∀ gs, K.metricSystem = .ok gs → ∀ q ∈ gs, ∀ t ∈ exAtoms q.2, Stable t ∧ (Mean K t ∨ Open K.fields t) := by
  refine ⟨fun vs hvs q hq => ?_, fun cs hcs q hq => ?_, fun gs hgs q hq => ?_⟩
  · obtain ⟨vs', h1, h2⟩ := h.det.variance_ok r hr
    rw [hvs] at h1
    cases h1
    have h3 := (h.left_variance hp.occurs r hr vs hvs q hq).2
    have h4 := h.open_left q.2 h3 (h2 q hq) ((h.variance_evolution r hr vs hvs).2 q hq)
    exact fun t ht => ⟨(h3 t ht).1.1, h4 t ht⟩
  · have h3 := h.left_cross hp.occurs r hr cs hcs q hq
    have h4 := h.open_left q.2 h3 (h.only_cross r hr cs hcs q hq) ((h.cross_evolution r hr cs hcs).2 q (by
      cases cs with
      | none => cases hq
      | some c => simpa using hq))
    exact fun t ht => ⟨(h3 t ht).1.1, h4 t ht⟩
  · obtain ⟨gs', h1, h2⟩ := h.det.metric_ok r hr
    rw [hgs] at h1
    cases h1
    have h3 := h.left_metric hp.occurs r hr gs hgs q hq
    have h4 := h.open_left q.2 h3 (h2 q hq) ((h.metric_evolution r hr gs hgs).2 q hq)
    exact fun t ht => ⟨(h3 t ht).1.1, h4 t ht⟩

/-- **C82** For a deterministic system of evolution equations whose Reynolds equations are computed, the only expectations in the
equations of the variances, of the cross-covariances and of the metrics are the means of the fields, expectations of a normalised error
times one of its derivatives of order four or more, and expectations of products of the normalised errors of two different fields, at least
one of them differentiated.  In the equations of the means also expectations of products of two derivatives of one normalised error
are left. -/
theorem C82_systems (h : EvolutionSystem K coords) (hp : ParameterFree K) (hr : ∃ r, K.reynolds = .ok r) :
    (∃ l, K.expectationSystem = .ok l ∧ ∀ q ∈ l, ∀ a, Within (.ex a) q.2 → (∃ f ∈ K.fields, a = f.random) ∨ OpenMean K.fields (.ex a)) ∧
    (∃ l, K.varianceSystem = .ok l ∧ ∀ q ∈ l, ∀ a, Within (.ex a) q.2 → (∃ f ∈ K.fields, a = f.random) ∨ Open K.fields (.ex a)) ∧
    (∃ l, K.crossSystem = .ok l ∧ ∀ q ∈ l.getD [], ∀ a, Within (.ex a) q.2 → (∃ f ∈ K.fields, a = f.random) ∨ Open K.fields (.ex a)) ∧
    ∃ l, K.metricSystem = .ok l ∧ ∀ q ∈ l, ∀ a, Within (.ex a) q.2 → (∃ f ∈ K.fields, a = f.random) ∨ Open K.fields (.ex a) := by
  obtain ⟨r, hr⟩ := hr
  obtain ⟨ms, hms⟩ := h.det.expectation_ok r hr
  obtain ⟨vs, hvs, -⟩ := h.det.variance_ok r hr
  obtain ⟨gs, hgs, -⟩ := h.det.metric_ok r hr
  obtain ⟨cs, hcs⟩ := h.det.cross_ok r hr
  obtain ⟨m1, m2, m3⟩ := moments_left h hp r hr
  have tr : ∀ {P : Ex → Prop} {e : Ex}, (∀ t ∈ exAtoms e, Stable t ∧ (Mean K t ∨ P t)) →
      ∀ a, Within (.ex a) e → (∃ f ∈ K.fields, a = f.random) ∨ P (.ex a) := by
    intro P e h a ha
    rcases (atoms_within h a ha).2 with ⟨f, hf, e⟩ | h'
    · exact .inl ⟨f, hf, by injection e⟩
    · exact .inr h'
  exact ⟨⟨ms, hms, fun q hq => tr (mean_left h hp r hr ms hms q hq)⟩, ⟨vs, hvs, fun q hq => tr (m1 vs hvs q hq)⟩,
    ⟨cs, hcs, fun q hq => tr (m2 cs hcs q hq)⟩, gs, hgs, fun q hq => tr (m3 gs hgs q hq)⟩

/-- After the removal of the expectations of the fields. -/
theorem clean_left {P : Ex → Prop} (h : EvolutionSystem K coords) (e : Ex) (he : ∀ t ∈ exAtoms e, Stable t ∧ (Mean K t ∨ P t)) :
    ∀ t ∈ exAtoms (K.subs K.cleanDict e), P t := by
  have hkeys := EvolutionSystem.clean_keys (K := K)
  have hm : ∀ kv, kv ∈ K.arrange K.cleanDict ↔ kv ∈ K.cleanDict := fun kv => (h.det.arrange _).mem_iff
  have := exs_substAll (B := P) (K.arrange K.cleanDict) (fun kv hkv => by
      obtain ⟨f, -, rfl⟩ := hkeys kv ((hm kv).1 hkv)
      exact ⟨_, eval_random f⟩)
    (fun kv hkv => by
      obtain ⟨f, -, rfl⟩ := hkeys kv ((hm kv).1 hkv)
      exact exs_ofEx _ (exs_nil rfl)) e (exs_ofEx e (fun t ht => ?_))
  · exact fun t ht => (this t ht).2
  · obtain ⟨hs, hP⟩ := he t ht
    refine ⟨hs, hs, ?_⟩
    rcases hP with ⟨f, hf, rfl⟩ | hP
    · right
      have hk : Ex.ex f.random ∈ Dict.keys K.cleanDict := by
        unfold cleanDict
        rw [Dict.keys_update_iff]
        exact .inr (List.mem_map.2 ⟨_, List.mem_map.2 ⟨f, hf, rfl⟩, rfl⟩)
      obtain ⟨kv, hkv, e⟩ := List.mem_map.1 hk
      exact ⟨kv, (hm kv).2 hkv, by rw [e]; exact eval_random f⟩
    · exact .inl hP

/-- The equations that are put together in `in_metric`. -/
theorem inMetric_mem (user : Dict Ex Ex) (ms vs gs : List Eqn) (cs : Option (List Eqn)) (hms : K.expectationSystem = .ok ms)
    (hvs : K.varianceSystem = .ok vs) (hcs : K.crossSystem = .ok cs) (hgs : K.metricSystem = .ok gs) (l : List Eqn)
    (hl : K.inMetric user = .ok l) (q : Eqn) (hq : q ∈ l) :
    ∃ q' ∈ ms ++ vs ++ cs.getD [] ++ gs, q.2 = K.subs K.cleanDict (if user = [] then q'.2 else K.subs user q'.2) := by
  unfold inMetric at hl
  simp only [hms, hvs, hcs, hgs, bind, Except.bind, pure, Except.pure] at hl
  cases hl
  obtain ⟨s, hs, hq⟩ := List.mem_flatMap.1 hq
  obtain ⟨q1, hq1, rfl⟩ := List.mem_map.1 hq
  have key : ∃ q' ∈ s, q1.2 = if user = [] then q'.2 else K.subs user q'.2 := by
    unfold applyClosure at hq1
    split at hq1
    · rename_i e
      exact ⟨q1, hq1, by rw [if_pos e]⟩
    · rename_i e
      obtain ⟨q', hq', rfl⟩ := List.mem_map.1 hq1
      exact ⟨q', hq', by rw [if_neg e]; rfl⟩
  obtain ⟨q', hq', e⟩ := key
  refine ⟨q', ?_, by rw [← e]; rfl⟩
  simp only [List.mem_append, List.mem_cons, List.not_mem_nil, or_false, Option.mem_toList] at hs ⊢
  rcases hs with ((rfl | rfl) | hs) | rfl
  · exact .inl (.inl (.inl hq'))
  · exact .inl (.inl (.inr hq'))
  · refine .inl (.inr ?_)
    cases cs with
    | none => cases hs
    | some c => simp only [Option.some.injEq] at hs; subst hs; exact hq'
  · exact .inr hq'

/-- **C82** `unclosed_terms` lists nothing else. -/
theorem C82_unclosed (h : EvolutionSystem K coords) (hp : ParameterFree K) (hr : ∃ r, K.reynolds = .ok r) :
    ∃ l, K.unclosedTerms [] = .ok l ∧ ∀ t ∈ l, OpenMean K.fields t := by
  obtain ⟨r, hr⟩ := hr
  obtain ⟨⟨l, hl⟩, -, -, u, hu⟩ := h.det.systems_ok r hr []
  refine ⟨u, hu, fun t ht => ?_⟩
  obtain ⟨ms, hms⟩ := h.det.expectation_ok r hr
  obtain ⟨vs, hvs, -⟩ := h.det.variance_ok r hr
  obtain ⟨gs, hgs, -⟩ := h.det.metric_ok r hr
  obtain ⟨cs, hcs⟩ := h.det.cross_ok r hr
  obtain ⟨m1, m2, m3⟩ := moments_left h hp r hr
  obtain ⟨u', hu', -, hmem⟩ := C56_unclosed K [] l hl
  rw [hu] at hu'
  cases hu'
  obtain ⟨ha, ⟨q, hq, hw⟩, -⟩ := (hmem t).1 ht
  obtain ⟨q', hq', e⟩ := inMetric_mem [] ms vs gs cs hms hvs hcs hgs l hl q hq
  rw [if_pos rfl] at e
  have up : ∀ {e : Ex}, (∀ t ∈ exAtoms e, Stable t ∧ (Mean K t ∨ Open K.fields t)) → ∀ t ∈ exAtoms e, Stable t ∧ (Mean K t ∨ OpenMean K.fields t) :=
    fun h t ht => ⟨(h t ht).1, (h t ht).2.imp id (.other t)⟩
  refine clean_left h q'.2 ?_ t (by rw [← e]; exact (mem_exAtoms _ _).2 ⟨ha, hw⟩)
  rcases List.mem_append.1 hq' with hq' | hq'
  · rcases List.mem_append.1 hq' with hq' | hq'
    · rcases List.mem_append.1 hq' with hq' | hq'
      · exact mean_left h hp r hr ms hms q' hq'
      · exact up (m1 vs hvs q' hq')
    · exact up (m2 cs hcs q' hq')
  · exact up (m3 gs hgs q' hq')

/-- **C83** A closure of the user that gives, by an expression without expectations, every expectation of the four systems that is not
the mean of a field closes the complete system: `unclosed_terms` is empty. -/
theorem C83_closure_complete (h : EvolutionSystem K coords) (hp : ParameterFree K) (hr : ∃ r, K.reynolds = .ok r) (user : Dict Ex Ex)
    (hkey : ∀ kv ∈ user, ∃ a, eval kv.1 = .ex a) (hval : ∀ kv ∈ user, ∀ a, ¬ Within (.ex a) kv.2)
    (hall : ∀ ms vs cs gs, K.expectationSystem = .ok ms → K.varianceSystem = .ok vs → K.crossSystem = .ok cs → K.metricSystem = .ok gs →
      ∀ q ∈ ms ++ vs ++ cs.getD [] ++ gs, ∀ a, Within (.ex a) q.2 → (∃ f ∈ K.fields, a = f.random) ∨ ∃ kv ∈ user, eval kv.1 = .ex a) :
    K.unclosedTerms user = .ok [] := by
  obtain ⟨r, hr⟩ := hr
  obtain ⟨⟨l, hl⟩, -⟩ := h.det.systems_ok r hr user
  obtain ⟨ms, hms⟩ := h.det.expectation_ok r hr
  obtain ⟨vs, hvs, -⟩ := h.det.variance_ok r hr
  obtain ⟨gs, hgs, -⟩ := h.det.metric_ok r hr
  obtain ⟨cs, hcs⟩ := h.det.cross_ok r hr
  obtain ⟨m1, m2, m3⟩ := moments_left h hp r hr
  rw [C56_closed K user l hl]
  intro q hq a ha
  obtain ⟨q', hq', e⟩ := inMetric_mem user ms vs gs cs hms hvs hcs hgs l hl q hq
  have hst : ∀ t ∈ exAtoms q'.2, Stable t := by
    rcases List.mem_append.1 hq' with hq' | hq'
    · rcases List.mem_append.1 hq' with hq' | hq'
      · rcases List.mem_append.1 hq' with hq' | hq'
        · exact fun t ht => (mean_left h hp r hr ms hms q' hq' t ht).1
        · exact fun t ht => (m1 vs hvs q' hq' t ht).1
      · exact fun t ht => (m2 cs hcs q' hq' t ht).1
    · exact fun t ht => (m3 gs hgs q' hq' t ht).1
  have hcov : ∀ t ∈ exAtoms q'.2, Mean K t ∨ ∃ kv ∈ user, eval kv.1 = t := by
    intro t ht
    obtain ⟨⟨b, rfl⟩, hw⟩ := (mem_exAtoms _ _).1 ht
    rcases hall ms vs cs gs hms hvs hcs hgs q' hq' b hw with ⟨f, hf, rfl⟩ | hk
    · exact .inl ⟨f, hf, rfl⟩
    · exact .inr hk
  have key : ∀ t ∈ exAtoms (if user = [] then q'.2 else K.subs user q'.2), Stable t ∧ (Mean K t ∨ False) := by
    split
    · rename_i hu
      subst hu
      intro t ht
      refine ⟨hst t ht, ?_⟩
      rcases hcov t ht with h1 | ⟨kv, hkv, -⟩
      · exact .inl h1
      · cases hkv
    · have hm : ∀ kv, kv ∈ K.arrange user ↔ kv ∈ user := fun kv => (h.det.arrange _).mem_iff
      have := exs_substAll (B := Mean K) (K.arrange user) (fun kv hkv => hkey kv ((hm kv).1 hkv))
        (fun kv hkv => exs_ofEx _ (exs_nil (by
          rw [List.eq_nil_iff_forall_not_mem]
          intro t ht
          obtain ⟨⟨b, rfl⟩, hw⟩ := (mem_exAtoms _ _).1 ht
          exact hval kv ((hm kv).1 hkv) b hw))) q'.2 (exs_ofEx _ (fun t ht => ⟨hst t ht, hst t ht, by
            rcases hcov t ht with h1 | ⟨kv, hkv, e⟩
            · exact .inl h1
            · exact .inr ⟨kv, (hm kv).2 hkv, e⟩⟩))
      exact fun t ht => ⟨(this t ht).1, .inl (this t ht).2⟩
  exact absurd ((mem_exAtoms _ _).2 ⟨⟨a, rfl⟩, ha⟩) (by
    rw [e]
    exact fun hm => clean_left (P := fun _ => False) h _ key _ hm)

/-! ## Cases -/

theorem heat_evolution : EvolutionSystem heat ["t".toList, "x".toList] where
  det := heat_det
  time_mem := by decide +kernel
  evolution := by
    refine ⟨rfl, fun q hq => ?_⟩
    rw [heat, List.mem_singleton] at hq
    subst hq
    simp [TimeFree, time, Field.value]
  codes := by decide +kernel
  clash := by decide +kernel

theorem heat_parameter : ParameterFree heat := by
  intro q hq
  rw [heat, List.mem_singleton] at hq
  subst hq
  refine ⟨?_, ?_⟩
  · show "\\varepsilon".toList ∉ fieldU.coordinates
    decide +kernel
  · decide +kernel

theorem heat_reynolds : ∃ r, heat.reynolds = .ok r := ok_of_isSome _ (by decide +kernel)

/-- The term of the heat equation is of the second kind: a normalised error and its fourth derivative. -/
example : Open heat.fields fourth :=
  .left fieldU (by simp [heat]) 4 (le_refl _) _ (.some [("x".toList, 4)] (by simp) (by decide +kernel))

example : ∃ l, heat.unclosedTerms [] = .ok l ∧ l ≠ [] ∧ ∀ t ∈ l, OpenMean heat.fields t := by
  obtain ⟨l, h1, h2⟩ := C82_unclosed heat_evolution heat_parameter heat_reynolds
  refine ⟨l, h1, ?_, h2⟩
  rw [heat_unclosed.1] at h1
  cases h1
  simp

/-- The dynamics `Derivative(u, t) = Derivative(u, x)**2`. -/
def slope : Pkf where
  fields := [fieldU]
  equations := [(Pkf.dt fieldU.value, .pow (.deriv fieldU.value [("x".toList, 1)]) 2)]

/-- Two fields, `Derivative(u, t) = v*Derivative(u, x)` and `Derivative(v, t) = 0`. -/
def carried : Pkf where
  fields := [fieldU, fieldV]
  equations := [(Pkf.dt fieldU.value, .mul fieldV.value (.deriv fieldU.value [("x".toList, 1)])), (Pkf.dt fieldV.value, .num 0)]


/-- `E[Derivative(eps, x)**2]`. -/
def slopeSquare : Ex := .ex (.pow (.deriv fieldU.epsilon [("x".toList, 1)]) 2)

/-- **C82** `expectation_system` does not use the tree of the univariate terms: with the dynamics `Derivative(u, x)**2` the equation of the
mean keeps `E[Derivative(eps, x)**2]`, which is the metric, and `unclosed_terms` lists it. -/
theorem C82_counterexample_mean : slope.unclosedTerms [] = .ok [slopeSquare] ∧ ¬ Open slope.fields slopeSquare := by
  refine ⟨eq_ok _ _ (by decide +kernel), ?_⟩
  intro h
  cases h

theorem carried_evolution : EvolutionSystem carried ["t".toList, "x".toList] where
  det :=
    { order := fun _ _ => List.Perm.refl _
      arrange := fun _ => List.Perm.refl _
      same := by decide +kernel
      nodup := by decide +kernel
      noise := by decide +kernel
      space := by decide +kernel
      equations := by
        intro q hq
        simp only [carried, List.mem_cons, List.not_mem_nil, or_false] at hq
        rcases hq with rfl | rfl <;> simp [Deterministic, Pkf.dt, omega, time, Field.value, fieldU, fieldV] }
  time_mem := by decide +kernel
  evolution := by
    refine ⟨rfl, fun q hq => ?_⟩
    simp only [carried, List.mem_cons, List.not_mem_nil, or_false] at hq
    rcases hq with rfl | rfl <;> simp [TimeFree, time, Field.value]
  codes := by decide +kernel
  clash := by decide +kernel

theorem carried_parameter : ParameterFree carried := by
  intro q hq
  simp only [carried, List.mem_cons, List.not_mem_nil, or_false] at hq
  rcases hq with rfl | rfl
  · exact ⟨by show _ ∉ fieldV.coordinates; decide +kernel, by show _ ∉ fieldU.coordinates; decide +kernel, by decide +kernel⟩
  · trivial

/-- The terms of the two fields: `E[d_x eps_u d_x eps_v]` and `E[eps_v d_x eps_u]`. -/
def carriedTerms : List Ex := [.ex (.mul (.deriv fieldU.epsilon [("x".toList, 1)]) (.deriv fieldV.epsilon [("x".toList, 1)])),
  .ex (.mul fieldV.epsilon (.deriv fieldU.epsilon [("x".toList, 1)]))]

example : carried.unclosedTerms [] = .ok carriedTerms ∧ ∀ t ∈ carriedTerms, OpenMean carried.fields t := by
  have h1 : carried.unclosedTerms [] = .ok carriedTerms := eq_ok _ _ (by decide +kernel)
  obtain ⟨l, h2, h3⟩ := C82_unclosed carried_evolution carried_parameter (ok_of_isSome _ (by decide +kernel))
  rw [h1] at h2
  cases h2
  exact ⟨h1, h3⟩

/-- The closure of the fourth order term closes the heat equation. -/
example : heat.unclosedTerms closeFourth = .ok [] := by
  have hc : (match heat.expectationSystem, heat.varianceSystem, heat.crossSystem, heat.metricSystem with
      | .ok ms, .ok vs, .ok cs, .ok gs => (ms ++ vs ++ cs.getD [] ++ gs).all (fun q => (exAtoms q.2).all (fun t => t = .ex fieldU.random ∨ t = fourth))
      | _, _, _, _ => false) = true := by decide +kernel
  refine C83_closure_complete heat_evolution heat_parameter heat_reynolds closeFourth ?_ ?_ ?_
  · intro kv hkv
    rw [closeFourth, List.mem_singleton] at hkv
    subst hkv
    exact ⟨_, (by decide +kernel : eval fourth = fourth)⟩
  · intro kv hkv a ha
    rw [closeFourth, List.mem_singleton] at hkv
    subst hkv
    have := (mem_exAtoms (.ex a) _).2 ⟨⟨a, rfl⟩, ha⟩
    simp [exAtoms, Field.metric] at this
  · intro ms vs cs gs h1 h2 h3 h4 q hq a ha
    rw [h1, h2, h3, h4] at hc
    have := List.all_eq_true.1 (List.all_eq_true.1 hc q hq) _ ((mem_exAtoms _ _).2 ⟨⟨a, rfl⟩, ha⟩)
    rcases of_decide_eq_true this with e | e
    · exact .inl ⟨fieldU, by simp [heat], by injection e⟩
    · exact .inr ⟨_, by rw [closeFourth, List.mem_singleton], by rw [e]; exact (by decide +kernel : eval fourth = fourth)⟩

end Sympkf.PKF
