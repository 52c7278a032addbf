import Verif.Lemmas.GenerateSystem

/-!
# C84: the model generated from a closed system
-/

set_option autoImplicit false

namespace Sympkf.PKF

open Text Rand Spec Pkf

variable {K : Pkf} {coords : List Str} {user : Dict Ex Ex}

/-- The model generated from the equations `l` of the system for `prognostic`: the equations are accepted, the functions of the state
are `prognostic` in this order, the coordinates are `coords`, the other functions are functions of `other`; when the names of the
code are distinct identifiers and no square root is left, the generated trend returns the values of the right-hand sides. -/
def Generated (iter : List PDE.Sy → List PDE.Sy) (l : List Eqn) (prognostic : List Ex) (coords : List Str) (other : Str → List Str → Prop) : Prop :=
  ∃ eqs s, PDE.ofEqns l = some eqs ∧ PDE.System.build iter eqs = .ok s ∧
    s.prognostic.map some = prognostic.map PDE.ofEx ∧ s.coordinates = coords.map (.sym .plain) ∧
    (∀ f, f ∈ s.constantFunctions ∨ f ∈ s.exogenous → ∃ u args, f = .fn u args ∧ other u args) ∧
    (Props.WellNamed s → Spec.PDE.Evolves s.coordinates eqs ∧ ((∀ e ∈ eqs, Spec.PDE.SquareRootFree e.rhs) →
      ∀ {R : Type} (A : PDE.Arith R) (O : PDE.Obj R) (ρ : Spec.PDE.Valuation R),
        (∀ f ∈ s.constantFunctions, O.attr f.keyvar = ρ.fn f) →
        (∀ n, PDE.Sy.sym .plain n ∈ s.constants → O.attr (cleanLatexName n) = ρ.sym n) →
        (s.exogenous = [] ∨ O.exogenous = some (s.exogenous.map ρ.fn)) →
        ∃ m, s.trend A O (ρ.sym "t".toList) (s.prognostic.map ρ.fn) = .ok m ∧ m.out = eqs.map (fun e => Spec.PDE.rhsValue A ρ e.rhs)))

theorem generated_of (iter : List PDE.Sy → List PDE.Sy) (hi : ∀ l, (iter l).Perm l) (hG : Generates K coords user)
    (T : Field → ℕ → ℕ → Ex) (gs : List Ex) (hne : gs ≠ []) (hgs : ∀ g ∈ gs, ∃ u, g = .fn u coords) (l : List Eqn) (hform : EvolutionForm gs l)
    (hl : ∀ q ∈ l, Neat (Syms coords) (Fns K coords user T) q.2 ∧ Po q.2 0 ∧ exAtoms q.2 = []) (other : Str → List Str → Prop)
    (hsup : ∀ u args, Ex.fn u args ∈ K.fields.map Field.value ++ K.fields.map Field.variance ++ EvolutionSystem.covariances K coords ++
      EvolutionSystem.tensors K T → args = coords)
    (hother : ∀ u args, Fns K coords user T u args → omega ∉ args → Ex.fn u args ∉ gs → other u args) : Generated iter l gs coords other := by
  obtain ⟨eqs, h1, h2, h3⟩ := eqns_of gs hgs l hform hl
  have hlen : eqs.length = gs.length := by simpa using congrArg List.length h2
  obtain ⟨s, hs, p1, p2, p3⟩ := build_of iter hi hG.first (F := Fns K coords user T) (fun u args hf hw => by
    rcases hf with hf | hf | ⟨⟨q, hq, hf⟩ | ⟨kv, hkv, hf⟩, -⟩
    · exact absurd hf hw
    · rw [hsup u args hf]
      intro e
      have := hG.first
      rw [e] at this
      cases this
    · exact (hG.equations q hq).args hf
    · exact (hG.values kv hkv).1.args hf) eqs (fun e => hne (by rw [e] at hlen; exact List.length_eq_zero_iff.1 hlen.symm)) h3
  have hprog : s.prognostic.map some = gs.map PDE.ofEx := by
    rw [p1, List.map_map]
    exact h2
  refine ⟨eqs, s, h1, hs, hprog, p2, fun f hf => ?_, fun hn => ?_⟩
  · obtain ⟨u, args, rfl, hF, hw, hnp⟩ := p3 f hf
    refine ⟨u, args, rfl, hother u args hF hw (fun hg => hnp ?_)⟩
    have : PDE.ofEx (.fn u args) ∈ s.prognostic.map some := by rw [hprog]; exact List.mem_map_of_mem hg
    obtain ⟨f, hf, e⟩ := List.mem_map.1 this
    cases e
    exact hf
  · have he : Spec.PDE.Evolves s.coordinates eqs := by
      refine ⟨fun e he => ?_, ?_, fun e he => by rw [p2]; exact (h3 e he).2.1⟩
      · obtain ⟨⟨u, e1⟩, -⟩ := h3 e he
        exact ⟨u, coords, e1⟩
      · have hnd : (s.prognostic.map PDE.Sy.keyvar).Nodup := by
          have := (List.nodup_cons.1 hn.1).2
          have := (this.of_append_left).of_append_left.of_append_left.of_append_left
          exact this.of_append_right
        have hnd := hnd.of_map
        rw [p1] at hnd
        have e1 : eqs.map (fun e => e.lhs.base) = (eqs.map (fun e => e.lhs)).map PDE.Sy.base := by rw [List.map_map]; rfl
        rw [e1] at hnd
        exact hnd.of_map
    refine ⟨he, fun hroots _ A O ρ hcf hcs hex => ?_⟩
    obtain ⟨m, m1, m2, -⟩ := Props.C64_trend_partial iter hi eqs s hs ⟨he, hroots⟩ hn A O _ _ ρ rfl rfl hcf hcs hex
    exact ⟨m, m1, m2⟩

theorem functions_coords (h : EvolutionSystem K coords) (T : Field → ℕ → ℕ → Ex) (hT : ∀ f i j, ∃ u, T f i j = .fn u f.coordinates) (g : Ex)
    (hg : g ∈ K.fields.map Field.value ++ K.fields.map Field.variance ++ crossCovariances coords K.fields ++ tensorComponents K.fields T) :
    ∃ u, g = .fn u coords := by
  rcases List.mem_append.1 hg with hg | hg
  · rcases List.mem_append.1 hg with hg | hg
    · rcases List.mem_append.1 hg with hg | hg <;> obtain ⟨f, hf, rfl⟩ := List.mem_map.1 hg
      · exact ⟨f.name, by rw [← h.det.same f hf]; rfl⟩
      · exact ⟨_, by rw [← h.det.same f hf]; rfl⟩
    · rw [← covariances_eq] at hg
      obtain ⟨p, -, rfl⟩ := List.mem_map.1 hg
      exact ⟨_, rfl⟩
  · obtain ⟨f, hf, hg⟩ := List.mem_flatMap.1 hg
    obtain ⟨ij, -, rfl⟩ := List.mem_map.1 hg
    obtain ⟨u, e⟩ := hT f ij.1 ij.2
    exact ⟨u, by rw [e, h.det.same f hf]⟩

theorem functions_args (h : EvolutionSystem K coords) (T : Field → ℕ → ℕ → Ex) (hT : ∀ f i j, ∃ u, T f i j = .fn u f.coordinates) (u : Str)
    (args : List Str) (hg : Ex.fn u args ∈ K.fields.map Field.value ++ K.fields.map Field.variance ++ EvolutionSystem.covariances K coords ++
      EvolutionSystem.tensors K T) : args = coords := by
  rw [show EvolutionSystem.covariances K coords = crossCovariances coords K.fields from covariances_eq _, components_eq] at hg
  obtain ⟨u', e⟩ := functions_coords h T hT _ hg
  cases e
  rfl

theorem functions_ne (hG : Generates K coords user) (l : List Ex) : K.fields.map Field.value ++ l ≠ [] := by
  intro e
  exact hG.fields (by simpa using (List.append_eq_nil_iff.1 e).1)

/-- **C84** The system in the metric form of a polynomial dynamics, closed by the user, is a system from which a model is generated:
when `unclosed_terms` is empty, every equation is accepted, the state of the model is made of the mean fields, of the variances, of the
cross-covariances and of the metrics, in this order, and the other functions of the model are functions of the dynamics or of the closure. -/
theorem C84_metric (h : EvolutionSystem K coords) (hp : ParameterFree K) (hr : ∃ r, K.reynolds = .ok r) (hu : UserClosure user)
    (hG : Generates K coords user) (hclosed : K.unclosedTerms user = .ok []) (iter : List PDE.Sy → List PDE.Sy) (hi : ∀ l, (iter l).Perm l) :
    ∃ l, K.inMetric user = .ok l ∧ Generated iter l (K.fields.map Field.value ++ K.fields.map Field.variance ++ crossCovariances coords K.fields ++
      tensorComponents K.fields Field.metric) coords (Given K user) := by
  obtain ⟨⟨l, hl, hform⟩, -⟩ := C74_complete h hr user hu
  obtain ⟨r, hr⟩ := hr
  refine ⟨l, hl, generated_of iter hi hG Field.metric _ ?_ (functions_coords h _ (fun _ _ _ => ⟨_, rfl⟩)) l hform
    (metric_content h hp hG hu r hr hclosed l hl) _ (functions_args h _ (fun _ _ _ => ⟨_, rfl⟩)) (fun u args hF hw hn => ?_)⟩
  · rw [List.append_assoc, List.append_assoc]; exact functions_ne hG _
  · rcases hF with hF | hF | hF
    · exact absurd hF hw
    · rw [show EvolutionSystem.covariances K coords = crossCovariances coords K.fields from covariances_eq _, components_eq] at hF
      exact absurd hF hn
    · exact hF.1

/-- **C84** The same for the aspect tensors, when every expectation of the four systems is a mean or is given by the closure.  No metric
is left. -/
theorem C84_aspect (h : EvolutionSystem K coords) (hp : ParameterFree K) (hr : ∃ r, K.reynolds = .ok r) (hu : UserClosure user)
    (hG : Generates K coords user) (hcov : Covered K user) (iter : List PDE.Sy → List PDE.Sy) (hi : ∀ l, (iter l).Perm l) :
    ∃ l, K.inAspect user = .ok l ∧ Generated iter l (K.fields.map Field.value ++ K.fields.map Field.variance ++ crossCovariances coords K.fields ++
      tensorComponents K.fields Field.aspect) coords (fun u args => Given K user u args ∧ .fn u args ∉ tensorComponents K.fields Field.metric) := by
  obtain ⟨-, ⟨l, hl, hform⟩, -⟩ := C74_complete h hr user hu
  obtain ⟨r, hr⟩ := hr
  refine ⟨l, hl, generated_of iter hi hG Field.aspect _ ?_ (functions_coords h _ (fun _ _ _ => ⟨_, rfl⟩)) l hform
    (aspect_content h hp hG hu r hr hcov l hl) _ (functions_args h _ (fun _ _ _ => ⟨_, rfl⟩)) (fun u args hF hw hn => ?_)⟩
  · rw [List.append_assoc, List.append_assoc]; exact functions_ne hG _
  · rcases hF with hF | hF | hF
    · exact absurd hF hw
    · rw [show EvolutionSystem.covariances K coords = crossCovariances coords K.fields from covariances_eq _, components_eq] at hF
      exact absurd hF hn
    · rw [show EvolutionSystem.metrics K = tensorComponents K.fields Field.metric from components_eq _] at hF
      exact hF

/-- **C84** The same for the diffusion tensors.  `in_diffusion` has no equations for the cross-covariances: those that occur are functions
that the user has to give. -/
theorem C84_diffusion (h : EvolutionSystem K coords) (hp : ParameterFree K) (hr : ∃ r, K.reynolds = .ok r) (hu : UserClosure user)
    (hG : Generates K coords user) (hcov : Covered K user) (iter : List PDE.Sy → List PDE.Sy) (hi : ∀ l, (iter l).Perm l) :
    ∃ l, K.inDiffusion user = .ok l ∧ Generated iter l (K.fields.map Field.value ++ K.fields.map Field.variance ++
      tensorComponents K.fields Field.diffusion) coords (fun u args => .fn u args ∈ crossCovariances coords K.fields ∨
        (Given K user u args ∧ .fn u args ∉ tensorComponents K.fields Field.metric)) := by
  obtain ⟨-, -, l, hl, hform⟩ := C74_complete h hr user hu
  obtain ⟨r, hr⟩ := hr
  refine ⟨l, hl, generated_of iter hi hG Field.diffusion _ ?_ (fun g hg => functions_coords h Field.diffusion (fun _ _ _ => ⟨_, rfl⟩) g ?_) l hform
    (diffusion_content h hp hG hu r hr hcov l hl) _ (functions_args h _ (fun _ _ _ => ⟨_, rfl⟩)) (fun u args hF hw hn => ?_)⟩
  · rw [List.append_assoc]; exact functions_ne hG _
  · rcases List.mem_append.1 hg with hg | hg
    · exact List.mem_append_left _ (List.mem_append_left _ hg)
    · exact List.mem_append_right _ hg
  · rcases hF with hF | hF | hF
    · exact absurd hF hw
    · rw [show EvolutionSystem.covariances K coords = crossCovariances coords K.fields from covariances_eq _, components_eq] at hF
      rcases List.mem_append.1 hF with hF | hF
      · rcases List.mem_append.1 hF with hF | hF
        · exact absurd (List.mem_append_left _ hF) hn
        · exact .inl hF
      · exact absurd (List.mem_append_right _ hF) hn
    · rw [show EvolutionSystem.metrics K = tensorComponents K.fields Field.metric from components_eq _] at hF
      exact .inr hF

/-! ## Cases -/

theorem heat_user : UserClosure closeFourth := by
  intro kv hkv
  rw [closeFourth, List.mem_singleton] at hkv
  subst hkv
  exact ⟨⟨_, (by decide +kernel : eval fourth = fourth), fun _ _ e => by cases e⟩, by simp [TimeFree, Field.metric, time]⟩

theorem heat_generates : Generates heat ["t".toList, "x".toList] closeFourth where
  fields := by simp [heat]
  first := rfl
  equations := by
    intro q hq
    rw [heat, List.mem_singleton] at hq
    subst hq
    simp [Codable, Field.value, fieldU]
  values := by
    intro kv hkv
    rw [closeFourth, List.mem_singleton] at hkv
    subst hkv
    simp [Codable, Deterministic, Field.metric, fieldU, omega]

theorem heat_covered : Covered heat closeFourth := by
  have hc : (match heat.expectationSystem, heat.varianceSystem, heat.crossSystem, heat.metricSystem with
      | .ok ms, .ok vs, .ok cs, .ok gs => (ms ++ vs ++ cs.getD [] ++ gs).all (fun q => (exAtoms q.2).all (fun t => t = .ex fieldU.random ∨ t = fourth))
      | _, _, _, _ => false) = true := by decide +kernel
  intro ms vs cs gs h1 h2 h3 h4 q hq a ha
  rw [h1, h2, h3, h4] at hc
  have := List.all_eq_true.1 (List.all_eq_true.1 hc q hq) _ ((mem_exAtoms _ _).2 ⟨⟨a, rfl⟩, ha⟩)
  rcases of_decide_eq_true this with e | e
  · exact .inl ⟨fieldU, by simp [heat], by injection e⟩
  · exact .inr ⟨_, by rw [closeFourth, List.mem_singleton], by rw [e]; exact (by decide +kernel : eval fourth = fourth)⟩

/-- The heat equation with the closure of its fourth order term: models with the state mean, variance, metric or tensor. -/
example (iter : List PDE.Sy → List PDE.Sy) (hi : ∀ l, (iter l).Perm l) :
    (∃ l, heat.inMetric closeFourth = .ok l ∧ Generated iter l [fieldU.value, fieldU.variance, fieldU.metric 0 0]
      ["t".toList, "x".toList] (Given heat closeFourth)) ∧
    ∃ l, heat.inAspect closeFourth = .ok l ∧ Generated iter l [fieldU.value, fieldU.variance, fieldU.aspect 0 0]
      ["t".toList, "x".toList] (fun u args => Given heat closeFourth u args ∧ .fn u args ∉ [fieldU.metric 0 0]) :=
  ⟨C84_metric heat_evolution heat_parameter heat_reynolds heat_user heat_generates heat_unclosed.2 iter hi,
    C84_aspect heat_evolution heat_parameter heat_reynolds heat_user heat_generates heat_covered iter hi⟩

/-- The system that is built from a computed system. -/
def built (r : Except PyErr (List Eqn)) : Option PDE.System :=
  match r with
  | .ok l => (PDE.ofEqns l).bind (fun eqs => (PDE.System.build id eqs).toOption)
  | .error _ => none

theorem of_built (r : Except PyErr (List Eqn)) (p : PDE.System → Bool) (h : (match built r with | some s => p s | none => false) = true) :
    ∃ l eqs s, r = .ok l ∧ PDE.ofEqns l = some eqs ∧ PDE.System.build id eqs = .ok s ∧ p s = true := by
  unfold built at h
  match r, h with
  | .ok l, h =>
    match e1 : PDE.ofEqns l, h with
    | some eqs, h =>
      match e2 : PDE.System.build id eqs, h with
      | .ok s, h => exact ⟨l, eqs, s, rfl, e1, e2, by simpa [e1, e2, Except.toOption] using h⟩
      | .error e, h => simp [e1, e2, Except.toOption] at h
    | none, h => simp [e1] at h
  | .error e, h => simp at h

/-- The names of the code are distinct for the heat equation. -/
example : ∃ l eqs s, heat.inMetric closeFourth = .ok l ∧ PDE.ofEqns l = some eqs ∧ PDE.System.build id eqs = .ok s ∧ Props.WellNamed s ∧
    ∀ e ∈ s.equations, Spec.PDE.SquareRootFree e.rhs := by
  obtain ⟨l, eqs, s, h1, h2, h3, h4⟩ := of_built (heat.inMetric closeFourth) (fun s => decide (Props.WellNamed s ∧ ∀ e ∈ s.equations, Spec.PDE.SquareRootFree e.rhs)) (by decide +kernel)
  exact ⟨l, eqs, s, h1, h2, h3, of_decide_eq_true h4⟩

/-- **C84** Without a closure the expectation is still in the equations, and no model is generated. -/
theorem C84_counterexample_open : ∃ l, heat.inMetric [] = .ok l ∧ PDE.ofEqns l = none := by
  have key : ∀ r : Except PyErr (List Eqn), (match r with | .ok l => (PDE.ofEqns l).isNone | .error _ => false) = true → ∃ l, r = .ok l ∧ PDE.ofEqns l = none := by
    intro r h
    match r, h with
    | .ok l, h => exact ⟨l, rfl, Option.isNone_iff_eq_none.1 h⟩
  exact key _ (by decide +kernel)

/-- Two fields, `Derivative(u, t) = v` and `Derivative(v, t) = 0`. -/
def pushed : Pkf where
  fields := [fieldU, fieldV]
  equations := [(Pkf.dt fieldU.value, fieldV.value), (Pkf.dt fieldV.value, .num 0)]

/-- A closure of the two terms that are left. -/
def closePushed : Dict Ex Ex := carriedTerms.map (fun e => (e, .num 0))

/-- **C84** In the diffusion form the equation of the variance of `u` contains the covariance of `u` and `v`, for which the system has no
equation: it is a function that the user of the model must give.  In the metric form the model has no such function. -/
theorem C84_counterexample_diffusion :
    (∃ l eqs s, pushed.inMetric closePushed = .ok l ∧ PDE.ofEqns l = some eqs ∧ PDE.System.build id eqs = .ok s ∧ s.exogenous = []) ∧
    ∃ l eqs s, pushed.inDiffusion closePushed = .ok l ∧ PDE.ofEqns l = some eqs ∧ PDE.System.build id eqs = .ok s ∧
      s.exogenous = [.fn "V_uv".toList ["t".toList, "x".toList]] := by
  obtain ⟨l, eqs, s, h1, h2, h3, h4⟩ := of_built (pushed.inMetric closePushed) (fun s => decide (s.exogenous = [])) (by decide +kernel)
  obtain ⟨l', eqs', s', h1', h2', h3', h4'⟩ := of_built (pushed.inDiffusion closePushed)
    (fun s => decide (s.exogenous = [.fn "V_uv".toList ["t".toList, "x".toList]])) (by decide +kernel)
  exact ⟨⟨l, eqs, s, h1, h2, h3, of_decide_eq_true h4⟩, l', eqs', s', h1', h2', h3', of_decide_eq_true h4'⟩

/-- A closure of the two terms of `carried`. -/
def closeCarried : Dict Ex Ex := carriedTerms.map (fun e => (e, .num 1))

theorem closeCarried_mem (kv : Ex × Ex) (h : kv ∈ closeCarried) : (∃ a, eval kv.1 = .ex a ∧ ∀ f x, a ≠ .fn f x) ∧ kv.2 = .num 1 := by
  simp only [closeCarried, carriedTerms, List.map_cons, List.map_nil, List.mem_cons, List.not_mem_nil, or_false] at h
  rcases h with rfl | rfl
  · exact ⟨⟨.mul (.deriv fieldU.epsilon [("x".toList, 1)]) (.deriv fieldV.epsilon [("x".toList, 1)]), by decide +kernel, fun _ _ e => by cases e⟩, rfl⟩
  · exact ⟨⟨.mul fieldV.epsilon (.deriv fieldU.epsilon [("x".toList, 1)]), by decide +kernel, fun _ _ e => by cases e⟩, rfl⟩

/-- **C84** The system of several fields contains square roots of the variances, and the generated trend fails: for a field transported
by another one, all hypotheses of `C84_metric` hold, the names are distinct identifiers, and the code calls `sqrt`, which is not imported. -/
theorem C84_counterexample_root (iter : List PDE.Sy → List PDE.Sy) (hi : ∀ l, (iter l).Perm l) :
    carried.unclosedTerms closeCarried = .ok [] ∧
    ∃ l eqs s, carried.inMetric closeCarried = .ok l ∧ PDE.ofEqns l = some eqs ∧ PDE.System.build iter eqs = .ok s ∧ Props.WellNamed s ∧
      ∀ {R : Type} (A : PDE.Arith R) (O : PDE.Obj R) (t : R) (state : List R), ∃ err, s.trend A O t state = .error err := by
  have hc : carried.unclosedTerms closeCarried = .ok [] := eq_ok _ _ (by decide +kernel)
  refine ⟨hc, ?_⟩
  obtain ⟨l, h1, eqs, s, h2, h3, -, -, -, h4⟩ := C84_metric carried_evolution carried_parameter (ok_of_isSome _ (by decide +kernel))
    (fun kv hkv => ⟨(closeCarried_mem kv hkv).1, by rw [(closeCarried_mem kv hkv).2]; trivial⟩)
    ⟨by simp [carried], rfl, by
      intro q hq
      simp only [carried, List.mem_cons, List.not_mem_nil, or_false] at hq
      rcases hq with rfl | rfl <;> simp [Codable, Field.value, fieldU, fieldV],
      fun kv hkv => by rw [(closeCarried_mem kv hkv).2]; exact ⟨trivial, trivial⟩⟩ hc iter hi
  obtain ⟨l', eqs', s', e1, e2, e3, e4⟩ := of_built (carried.inMetric closeCarried)
    (fun s => decide (Props.WellNamed s ∧ (∃ e ∈ s.equations, ¬ Spec.PDE.SquareRootFree e.rhs) ∧
      ∀ e ∈ s.equations, (e.derivatives.filter PDE.Sy.timeFirst).length = 1)) (by decide +kernel)
  rw [h1] at e1
  cases e1
  rw [h2] at e2
  cases e2
  obtain ⟨w, hr, hd⟩ := of_decide_eq_true e4
  have hs' : s'.equations = eqs := (Props.build_ok id eqs s' e3).choose_spec.2.1
  rw [hs'] at hr hd
  obtain ⟨s2, k1, -, -, -, -, -, -, -, k2⟩ := Props.build_order iter hi eqs s' e3 (fun e he => List.length_eq_one_iff.1 (hd e he))
  rw [h3] at k1
  cases k1
  have hn := k2 w
  exact ⟨l, eqs, s, h1, h2, h3, hn, fun A O t state => Props.C64_square_root iter hi eqs s h3 (h4 hn).1 hr A O t state⟩

/-- The field `V_u(t, x)`. -/
def named : Pkf where
  fields := [fieldU, ⟨"V_u".toList, ["t".toList, "x".toList]⟩]
  equations := [(Pkf.dt fieldU.value, .num 0), (Pkf.dt (.fn "V_u".toList ["t".toList, "x".toList]), .num 0)]

/-- **C84** The names of the generated code may coincide: a field called `V_u` has the name of the variance of `u`, whose braces are
removed. -/
theorem C84_counterexample_names : ∃ l eqs s, named.inMetric [] = .ok l ∧ PDE.ofEqns l = some eqs ∧ PDE.System.build id eqs = .ok s ∧
    ¬ (s.prognostic.map PDE.Sy.keyvar).Nodup := by
  obtain ⟨l, eqs, s, h1, h2, h3, h4⟩ := of_built (named.inMetric []) (fun s => decide (¬ (s.prognostic.map PDE.Sy.keyvar).Nodup)) (by decide +kernel)
  exact ⟨l, eqs, s, h1, h2, h3, of_decide_eq_true h4⟩

end Sympkf.PKF
