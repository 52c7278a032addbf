import Verif.Lemmas.Evolution
import Verif.Props.PkfObject

/-!
# C74: the derived systems are evolution equations
-/

set_option autoImplicit false

namespace Sympkf.PKF

open Text Rand Spec Pkf

variable {K : Pkf} {coords : List Str}

theorem covariances_eq (fields : List Field) :
    (couples fields).map (fun p => Ex.fn (label ++ p.1.name ++ p.2.name) coords) = crossCovariances coords fields := by
  induction fields with
  | nil => rfl
  | cons f l ih =>
    rw [couples, List.map_append, List.map_map, ih]
    rfl

theorem components_eq (T : Field → ℕ → ℕ → Ex) : EvolutionSystem.tensors K T = tensorComponents K.fields T := by
  unfold EvolutionSystem.tensors tensorComponents
  rw [pairs_eq_upper']

/-- **C74** For a deterministic system of evolution equations whose Reynolds equations are computed, every derived system is computed
and is again a system of evolution equations: the left-hand sides are the trends of the means, of the errors, of the variances, of the
normalised errors, of the metrics and of the cross-covariances, each of them once and in the order of the fields, and no trend occurs
in a right-hand side. -/
theorem C74_evolution (h : EvolutionSystem K coords) (hr : ∃ r, K.reynolds = .ok r) :
    (∃ l, K.expectationSystem = .ok l ∧ EvolutionForm (K.fields.map (fun f => .ex f.random)) l) ∧
    (∃ l, K.errorSystem = .ok l ∧ EvolutionForm (K.fields.map Field.error) l) ∧
    (∃ l, K.varianceSystem = .ok l ∧ EvolutionForm (K.fields.map Field.variance) l) ∧
    (∃ l, K.epsilonSystem = .ok l ∧ EvolutionForm (K.fields.map Field.epsilon) l) ∧
    (∃ l, K.metricSystem = .ok l ∧ EvolutionForm (tensorComponents K.fields Field.metric) l) ∧
    ∃ l, K.crossSystem = .ok l ∧ EvolutionForm (crossCovariances coords K.fields) (l.getD []) := by
  obtain ⟨r, hr⟩ := hr
  obtain ⟨ms, hms⟩ := h.det.expectation_ok r hr
  obtain ⟨es, hes⟩ := h.det.error_ok r hr
  obtain ⟨vs, hvs, -⟩ := h.det.variance_ok r hr
  obtain ⟨ns, hns, -⟩ := h.det.epsilon_ok r hr
  obtain ⟨gs, hgs, -⟩ := h.det.metric_ok r hr
  obtain ⟨cs, hcs⟩ := h.det.cross_ok r hr
  refine ⟨⟨ms, hms, h.mean_evolution r hr ms hms⟩, ⟨es, hes, h.error_evolution r hr es hes⟩, ⟨vs, hvs, h.variance_evolution r hr vs hvs⟩,
    ⟨ns, hns, h.epsilon_evolution r hr ns hns⟩, ⟨gs, hgs, ?_⟩, cs, hcs, ?_⟩
  · rw [← components_eq]
    exact h.metric_evolution r hr gs hgs
  · rw [← covariances_eq]
    have := h.cross_evolution r hr cs hcs
    cases cs with
    | none => exact this
    | some cs => simpa using this

/-- **C74** The complete systems are evolution equations, with the closure of the user: for the mean fields, the variances, the
cross-covariances (not in the diffusion form) and the tensors. -/
theorem C74_complete (h : EvolutionSystem K coords) (hr : ∃ r, K.reynolds = .ok r) (user : Dict Ex Ex) (hu : UserClosure user) :
    (∃ l, K.inMetric user = .ok l ∧ EvolutionForm (K.fields.map Field.value ++ K.fields.map Field.variance ++
      crossCovariances coords K.fields ++ tensorComponents K.fields Field.metric) l) ∧
    (∃ l, K.inAspect user = .ok l ∧ EvolutionForm (K.fields.map Field.value ++ K.fields.map Field.variance ++
      crossCovariances coords K.fields ++ tensorComponents K.fields Field.aspect) l) ∧
    ∃ l, K.inDiffusion user = .ok l ∧ EvolutionForm (K.fields.map Field.value ++ K.fields.map Field.variance ++
      tensorComponents K.fields Field.diffusion) l := by
  obtain ⟨r, hr⟩ := hr
  obtain ⟨⟨l1, h1⟩, ⟨l2, h2⟩, ⟨l3, h3⟩, -⟩ := h.det.systems_ok r hr user
  refine ⟨⟨l1, h1, ?_⟩, ⟨l2, h2, ?_⟩, l3, h3, ?_⟩
  · have := h.inMetric_form r hr user hu l1 h1
    rwa [show EvolutionSystem.covariances K coords = crossCovariances coords K.fields from covariances_eq _,
      show EvolutionSystem.metrics K = tensorComponents K.fields Field.metric from components_eq _] at this
  · have := h.inAspect_form r hr user hu l2 h2
    rwa [show EvolutionSystem.covariances K coords = crossCovariances coords K.fields from covariances_eq _, components_eq] at this
  · have := h.inDiffusion_form r hr user hu l3 h3
    rwa [components_eq] at this

/-! ## Cases -/

theorem tracer_evolution : EvolutionSystem tracer ["t".toList, "x".toList, "y".toList] where
  det := tracer_det
  time_mem := by decide +kernel
  evolution := by
    refine ⟨rfl, fun q hq => ?_⟩
    rw [tracer, List.mem_singleton] at hq
    subst hq
    simp [TimeFree, time]
  codes := by decide +kernel
  clash := by decide +kernel

/-- The tracer in two dimensions, with a closure of its fourth order term: five equations. -/
example : ∃ l, tracer.inAspect [(.ex (.pow (.deriv (Field.epsilon ⟨"c".toList, ["t".toList, "x".toList, "y".toList]⟩) [("x".toList, 2)]) 2),
      .mul (.num 3) (.pow (Field.metric ⟨"c".toList, ["t".toList, "x".toList, "y".toList]⟩ 0 0) 2))] = .ok l ∧ l.length = 5 ∧
    ∀ q ∈ l, TimeFree q.2 := by
  have hr : ∃ r, tracer.reynolds = .ok r := ok_of_isSome _ (by decide +kernel)
  obtain ⟨-, ⟨l, h1, h2, h3⟩, -⟩ := C74_complete tracer_evolution hr
    [(.ex (.pow (.deriv (Field.epsilon ⟨"c".toList, ["t".toList, "x".toList, "y".toList]⟩) [("x".toList, 2)]) 2),
      .mul (.num 3) (.pow (Field.metric ⟨"c".toList, ["t".toList, "x".toList, "y".toList]⟩ 0 0) 2))] (by
    intro kv hkv
    rw [List.mem_singleton] at hkv
    subst hkv
    exact ⟨⟨.pow (.deriv (Field.epsilon ⟨"c".toList, ["t".toList, "x".toList, "y".toList]⟩) [("x".toList, 2)]) 2, by decide +kernel, by simp⟩,
      by simp [TimeFree, Field.metric]⟩)
  refine ⟨l, h1, ?_, h3⟩
  have := congrArg List.length h2
  rw [List.length_map] at this
  rw [this]
  decide +kernel

/-- Two fields, the second one called like the error of the first one. -/
def clash : Pkf where
  fields := [⟨"u".toList, ["t".toList, "x".toList]⟩, ⟨"{e_{u}}".toList, ["t".toList, "x".toList]⟩]
  equations := [(dt (.fn "u".toList ["t".toList, "x".toList]), .fn "u".toList ["t".toList, "x".toList]),
    (dt (.fn "{e_{u}}".toList ["t".toList, "x".toList]), .fn "u".toList ["t".toList, "x".toList])]

/-- **C74** Without the condition on the names: the random function of the second field is the error of the first one, its expectation
is replaced by zero, and the equation of its mean is `0 = E[u]`. -/
theorem C74_counterexample : ∃ l, clash.expectationSystem = .ok l ∧ l.map Prod.fst =
    [dt (.ex (.fn "u".toList ["t".toList, "x".toList, omega])), .num 0] := by
  have key : ∀ r : Except PyErr (List Eqn), (match r with
      | .ok l => decide (l.map Prod.fst = [dt (.ex (.fn "u".toList ["t".toList, "x".toList, omega])), .num 0])
      | _ => false) = true → ∃ l, r = .ok l ∧ l.map Prod.fst = [dt (.ex (.fn "u".toList ["t".toList, "x".toList, omega])), .num 0] := by
    intro r h
    cases r with
    | error e => cases h
    | ok l => exact ⟨l, rfl, of_decide_eq_true h⟩
  exact key _ (by decide +kernel)

end Sympkf.PKF
