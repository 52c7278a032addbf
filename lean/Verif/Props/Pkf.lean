import Verif.Props.Travel
import Verif.Lemmas.PkfTotal
import Verif.Lemmas.PolyPerturb

/-!
# Properties: the mean, error and second-moment equations of `SymbolicPKF` (C45-C51, C57)

The theorems are about every random state `S` in which the symbols of the fields have their meaning (`Setting`), every dynamics
that has a Taylor expansion in the fields and their derivatives (`Dynamics`), whatever the number of fields and of coordinates and
whatever the order in which SymPy iterates over sets and dictionaries.  `den S e` is the value of the expression `e`;
`den (perturbed S K.fields) rhs` is the expansion of the right-hand side at `E[f] + X e_f` in powers of the small parameter `X`, up
to the second order (`Jet`).
-/

set_option autoImplicit false

namespace Sympkf.PKF

open Text Rand Spec

variable {R : Type} [CommRing R] [Algebra ℚ R] {S : Interp R} {A : Subalgebra ℚ R} {P : Set R} {C : Set Str}
  {K : Pkf} {coords : List Str}

/-! ## C45 -/

/-- **C45** (partial: the name `\varepsilon` of the small parameter is not used by the dynamics; the claim is for every name, see
`C45_counterexample`.)  The Reynolds systems are computed, with one equation per equation of the dynamics; the values of the
right-hand sides are the Taylor polynomials of degree two and one of the dynamics at `E[f] + eps e_f`, at `eps = 1`, and the
left-hand sides are the trends of `E[f] + e_f`. -/
theorem C45_reynolds_partial (h : Setting S A P C K coords) (hd : Dynamics S P C K) :
    ∃ second first, K.secondOrder = .ok second ∧ K.firstOrder = .ok first ∧
    List.Forall₂ (fun fq q => den S q.1 = S.D time (S.E (den S fq.1.random) + den S fq.1.error) ∧
      den S q.2 = (den (perturbed S K.fields) fq.2.2).second) (K.fields.zip K.equations) second ∧
    List.Forall₂ (fun fq q => den S q.1 = S.D time (S.E (den S fq.1.random) + den S fq.1.error) ∧
      den S q.2 = (den (perturbed S K.fields) fq.2.2).first) (K.fields.zip K.equations) first := by
  obtain ⟨r, h1, h2⟩ := h.reynolds_spec hd
  refine ⟨r.map Prod.fst, r.map Prod.snd, by unfold Pkf.secondOrder; rw [h1]; rfl, by unfold Pkf.firstOrder; rw [h1]; rfl, ?_, ?_⟩
  · rw [List.forall₂_map_right_iff]
    refine h2.imp (fun fq q hq => ⟨by rw [hq.lhs2, h.stoch.D_add], hq.rhs2⟩)
  · rw [List.forall₂_map_right_iff]
    refine h2.imp (fun fq q hq => ⟨by rw [hq.lhs1, h.stoch.D_add], hq.rhs1⟩)

example : ∃ second first, burgers2.secondOrder = .ok second ∧ burgers2.firstOrder = .ok first ∧ second.length = 2 ∧
    first.length = 2 := by
  obtain ⟨s, f, h1, h2, h3, h4⟩ := C45_reynolds_partial burgers2_setting burgers2_dynamics
  exact ⟨s, f, h1, h2, h3.length_eq.symm, h4.length_eq.symm⟩

/-- A dynamics that is not a polynomial. -/
example : ∃ second first, nonlinear2.secondOrder = .ok second ∧ nonlinear2.firstOrder = .ok first ∧ second.length = 2 ∧
    first.length = 2 := by
  obtain ⟨s, f, h1, h2, h3, h4⟩ := C45_reynolds_partial nonlinear2_setting nonlinear2_dynamics
  exact ⟨s, f, h1, h2, h3.length_eq.symm, h4.length_eq.symm⟩

/-- Growth at the rate `eps`: `Derivative(u, t) = eps u`, where the user has a parameter with the name of the small parameter. -/
def growth : Pkf where
  fields := [fieldU]
  equations := [(Pkf.dt fieldU.value, .mul (.sym Pkf.epsSym) fieldU.value)]

theorem single_setting (K : Pkf) (h : K.fields = [fieldU]) (ho : ∀ g l, (K.order g l).Perm l)
    (ha : ∀ d, (K.arrange d).Perm d) : Setting travel Smooth.det posSet coordSet K ["t".toList, "x".toList] where
  stoch := travel_stochastic
  calculus := travel_calculus
  order := ho
  arrange := ha
  same := by rw [h]; decide +kernel
  nodup := by decide +kernel
  sub := by
    intro x hx
    simpa [coordSet] using hx
  time_mem := .inl rfl
  space := by decide +kernel
  names := by rw [h]; decide +kernel
  normal := by
    rw [h]
    intro f hf
    rw [List.mem_singleton] at hf
    rw [hf]
    exact travel_normU
  cov := by
    rw [h]
    intro f g hs
    simpa using hs.length_le

theorem travel_error_ne (f : Field) (h : f = fieldU ∨ f = fieldV) : den travel f.error ≠ 0 := by
  intro h0
  have hs := burgers2_setting
  have hf : f ∈ burgers2.fields := by rcases h with rfl | rfl <;> decide +kernel
  have h1 := hs.error_var f hf
  rw [h0, zero_pow two_ne_zero] at h1
  have h2 := hs.variance_pos f
  rw [← h1] at h2
  have h3 := h2 (true, true) (0, 0)
  rw [E_zero travel_stochastic] at h3
  exact lt_irrefl (0 : ℝ) h3

/-- **C45** A parameter of the dynamics with the name `\varepsilon` is taken for the small parameter: the first-order Reynolds
system loses the error and `error_system` is `d_t e = 0` instead of `d_t e = eps e`. -/
theorem C45_counterexample : ∃ (S : Interp (Bool × Bool → Smooth.F (ℝ × ℝ))) (q e : Eqn),
    Setting S Smooth.det posSet coordSet growth ["t".toList, "x".toList] ∧ S.sym Pkf.epsSym = 1 ∧
    growth.firstOrder = .ok [q] ∧ den S q.2 = S.E (den S fieldU.random) ∧
    den S q.2 ≠ (den (perturbed S growth.fields) (.mul (.sym Pkf.epsSym) fieldU.value)).first ∧
    growth.errorSystem = .ok [e] ∧ e.2 = .num 0 ∧ S.sym Pkf.epsSym * den S fieldU.error ≠ 0 := by
  have c1 : growth.firstOrder.toOption.map (·.map Prod.snd) = some [.ex fieldU.random] := by decide +kernel
  have c2 : growth.errorSystem.toOption.map (·.map Prod.snd) = some [.num 0] := by decide +kernel
  have single : ∀ (r : Except PyErr (List Eqn)) (x : Ex), r.toOption.map (·.map Prod.snd) = some [x] →
      ∃ q, r = .ok [q] ∧ q.2 = x := by
    intro r x h
    cases r with
    | error e => simp [Except.toOption] at h
    | ok l =>
      simp only [Except.toOption, Option.map_some, Option.some.injEq] at h
      obtain ⟨q, rfl, hq⟩ := List.map_eq_singleton_iff.1 h
      exact ⟨q, rfl, hq⟩
  obtain ⟨q, h1, h2⟩ := single _ _ c1
  obtain ⟨e, h3, h4⟩ := single _ _ c2
  have hs : travel.sym Pkf.epsSym = 1 := by
    funext ω
    show coordF Pkf.epsSym = 1
    unfold coordF
    rw [if_neg (by decide +kernel), if_neg (by decide +kernel)]
  have hq : den travel q.2 = travel.E (den travel fieldU.random) := by rw [h2]; rfl
  refine ⟨travel, q, e, single_setting _ rfl (fun _ _ => List.Perm.refl _) (fun _ => List.Perm.refl _), hs, h1, hq, ?_, h3, h4, ?_⟩
  · have e1 : den (perturbed travel growth.fields) (.mul (.sym Pkf.epsSym) fieldU.value) =
        .const (travel.sym Pkf.epsSym) *
          (if (⟨fieldU.name, fieldU.coordinates⟩ : Field) ∈ [fieldU] then
            ⟨travel.E (den travel fieldU.random), den travel fieldU.error, 0⟩
          else .const (travel.fn fieldU.name fieldU.coordinates)) := rfl
    rw [hq, e1, hs, if_pos (by decide +kernel), show (Jet.const 1 : Jet (Bool × Bool → Smooth.F (ℝ × ℝ))) = 1 from rfl, one_mul]
    intro h5
    exact travel_error_ne fieldU (.inl rfl) (left_eq_add.1 h5)
  · rw [hs, one_mul]
    exact travel_error_ne fieldU (.inl rfl)

/-! ## C46 -/

/-- **C46** (partial: as C45.)  `error_system` is computed, and its equations are `d_t e_f =` the derivative of the dynamics along
the errors at the mean state. -/
theorem C46_error_partial (h : Setting S A P C K coords) (hd : Dynamics S P C K) :
    ∃ es, K.errorSystem = .ok es ∧ List.Forall₂ (fun fq q => den S q.1 = S.D time (den S fq.1.error) ∧
      den S q.2 = (den (perturbed S K.fields) fq.2.2).c1) (K.fields.zip K.equations) es := by
  obtain ⟨es, h1, h2⟩ := h.error_spec hd
  exact ⟨es, h1, h2.imp (fun fq q hq => ⟨hq.lhs, hq.rhs⟩)⟩

/-! ## C47 -/

/-- **C47** (partial: as C45.)  `expectation_system` is the mean of the second-order Taylor expansion of
the dynamics. -/
theorem C47_expectation_partial (h : Setting S A P C K coords) (hd : Dynamics S P C K) :
    ∃ m, K.expectationSystem = .ok m ∧ List.Forall₂ (fun fq q => den S q.1 = S.D time (S.E (den S fq.1.random)) ∧
      den S q.2 = S.E (den (perturbed S K.fields) fq.2.2).second) (K.fields.zip K.equations) m := by
  obtain ⟨m, h1, h2⟩ := h.expectation_spec hd
  refine ⟨m, h1, Setting.forall₂_mem h2 (fun fq hm q hq => ⟨hq.lhs, ?_⟩)⟩
  obtain ⟨s1, s2⟩ := h.split_rhs hd fq hm
  rw [hq.rhs, Jet.second, h.stoch.E_add, h.stoch.E_add, s2, h.stoch.E_const _ s1, add_zero]

/-- **C47** (partial: as C45.)  For dynamics that are polynomials of degree at most two in the fields and their derivatives, the equations of
`expectation_system` are true of every random solution of the dynamics. -/
theorem C47_exact_partial (h : Setting S A P C K coords) (hd : Dynamics S P C K) (hr : RandomSolution S K)
    (h2 : ∀ q ∈ K.equations, Polynomials S P C K.fields q.2 ∧ fieldDegree K.fields q.2 ≤ 2) :
    ∃ m, K.expectationSystem = .ok m ∧ m.length = K.fields.length ∧ ∀ q ∈ m, den S q.1 = den S q.2 := by
  obtain ⟨m, h1, h3⟩ := C47_expectation_partial h hd
  refine ⟨m, h1, ?_, fun q hq => ?_⟩
  · rw [← h3.length_eq, List.length_zip, Setting.length_eq hd, min_self]
  · obtain ⟨fq, hm, e1, e2⟩ := forall₂_right h3 q hq
    obtain ⟨hp, hdeg⟩ := h2 _ (List.of_mem_zip hm).2
    rw [e1, e2, ← h.stoch.E_D _ _ h.time_ne, hr.trend fq hm, hp.exact h.stoch hr.deviation hdeg]

theorem transport2_quadratic :
    ∀ q ∈ transport2.equations, Polynomials travel posSet coordSet transport2.fields q.2 ∧ fieldDegree transport2.fields q.2 ≤ 2 := by
  intro q hq
  refine ⟨?_, (by decide +kernel : ∀ q ∈ transport2.equations, fieldDegree transport2.fields q.2 ≤ 2) q hq⟩
  simp only [transport2, List.map_cons, List.map_nil, List.mem_cons, List.not_mem_nil, or_false] at hq
  have hx : "x".toList ∈ coordSet := .inr rfl
  rcases hq with rfl | rfl <;>
  · refine ⟨trivial, ?_, ?_⟩
    · exact ⟨by decide +kernel, by decide +kernel⟩
    · simpa using hx

example : ∃ m, transport2.expectationSystem = .ok m ∧ m.length = 2 ∧ ∀ q ∈ m, den travel q.1 = den travel q.2 :=
  C47_exact_partial transport2_setting transport2_dynamics transport2_solution transport2_quadratic

/-! ## C48 -/

theorem variance_true (h : Setting S A P C K coords) (hd : Dynamics S P C K) (ht : Tangent S K) (vs : List Eqn)
    (hvs : K.varianceSystem = .ok vs) :
    List.Forall₂ (fun f q => q.1 = Pkf.dt f.variance ∧ den S f.variance = S.E (den S f.error ^ 2) ∧
      den S q.1 = den S q.2) K.fields vs :=
  Setting.forall₂_mem (h.variance_spec hd ht vs hvs) (fun f hf _ hq => ⟨hq.1, (h.error_var f hf).symm, hq.2.2.2.2⟩)

/-- **C48** (partial: as C45.)  If the errors follow their tangent-linear dynamics, `variance_system` is computed, its equations are
the trends of the variances `V_f`, which are the means `E[e_f^2]`, and they are true. -/
theorem C48_variance_partial (h : Setting S A P C K coords) (hd : Dynamics S P C K) (ht : Tangent S K) :
    ∃ vs, K.varianceSystem = .ok vs ∧ List.Forall₂ (fun f q => q.1 = Pkf.dt f.variance ∧
      den S f.variance = S.E (den S f.error ^ 2) ∧ den S q.1 = den S q.2) K.fields vs := by
  obtain ⟨r, hr, -⟩ := h.reynolds_spec hd
  obtain ⟨vs, hvs, -⟩ := (h.detSystem hd).variance_ok r hr
  exact ⟨vs, hvs, variance_true h hd ht vs hvs⟩

/-- The variances of the two waves satisfy the variance equations of `burgers2`. -/
example : ∃ vs, burgers2.varianceSystem = .ok vs ∧ vs.length = 2 ∧ ∀ q ∈ vs, den travel q.1 = den travel q.2 := by
  obtain ⟨vs, h1, this⟩ := C48_variance_partial burgers2_setting burgers2_dynamics burgers2_tangent
  exact ⟨vs, h1, this.length_eq.symm, fun q hq => let ⟨_, _, h⟩ := forall₂_right this q hq; h.2.2⟩

/-! ## C49 -/

theorem epsilon_true (h : Setting S A P C K coords) (hd : Dynamics S P C K) (ht : Tangent S K) (es : List Eqn)
    (hes : K.epsilonSystem = .ok es) :
    List.Forall₂ (fun f q => q.1 = Pkf.dt f.epsilon ∧ den S q.1 = den S q.2) K.fields es :=
  (h.epsilon_spec hd ht es hes).imp (fun _ _ hq => ⟨hq.1, hq.2.2.2⟩)

/-- **C49** (partial: as C48.)  `epsilon_system` is computed; its equations are the trends of the normalised errors, and they are
true. -/
theorem C49_epsilon_partial (h : Setting S A P C K coords) (hd : Dynamics S P C K) (ht : Tangent S K) :
    ∃ es, K.epsilonSystem = .ok es ∧
      List.Forall₂ (fun f q => q.1 = Pkf.dt f.epsilon ∧ den S q.1 = den S q.2) K.fields es := by
  obtain ⟨r, hr, -⟩ := h.reynolds_spec hd
  obtain ⟨es, hes, -⟩ := (h.detSystem hd).epsilon_ok r hr
  exact ⟨es, hes, epsilon_true h hd ht es hes⟩

example : ∃ es, burgers2.epsilonSystem = .ok es ∧ es.length = 2 ∧ ∀ q ∈ es, den travel q.1 = den travel q.2 := by
  obtain ⟨es, h1, this⟩ := C49_epsilon_partial burgers2_setting burgers2_dynamics burgers2_tangent
  exact ⟨es, h1, this.length_eq.symm, fun q hq => let ⟨_, _, h⟩ := forall₂_right this q hq; h.2⟩

/-! ## C50 -/

theorem pairs_eq_upper (n : ℕ) : Pkf.pairs n = upper n := by
  unfold Pkf.pairs upper List.product
  rw [List.filter_flatMap]
  apply List.flatMap_congr
  intro i hi
  rw [List.filter_map]
  have hi' : i < n := List.mem_range.1 hi
  congr 1
  have : List.range n = List.range' 0 i ++ List.range' i (n - i) := by
    rw [List.range_eq_range']
    have := List.range'_append (s := 0) (m := i) (n := n - i) (step := 1)
    simp only [one_mul, zero_add] at this
    rw [this]
    congr 1
    omega
  rw [this, List.filter_append, List.filter_eq_nil_iff.2, List.filter_eq_self.2, List.nil_append]
  · intro j hj
    have := List.mem_range'_1.1 hj
    simpa using this.1
  · intro j hj
    have := List.mem_range'_1.1 hj
    simp
    omega

theorem pairs_eq_upper' : Pkf.pairs = upper := funext pairs_eq_upper

theorem metric_true (h : Setting S A P C K coords) (hd : Dynamics S P C K) (ht : Tangent S K) (ms : List Eqn)
    (hms : K.metricSystem = .ok ms) :
    List.Forall₂ (fun p q => q.1 = Pkf.dt (p.1.metric p.2.1 p.2.2) ∧ den S q.1 = den S q.2)
      (K.fields.flatMap (fun f => (Spec.upper f.spatial.length).map (fun ij => (f, ij)))) ms := by
  rw [← pairs_eq_upper']
  refine (h.metric_spec hd ht ms hms).imp (fun _ _ hq => ⟨hq.1, hq.2.2.2⟩)

/-- **C50** (partial: as C48.)  `metric_system` is computed; its equations are the trends of the components `g_ij`, `i <= j`, of
every field, field by field and row by row, and they are true. -/
theorem C50_metric_partial (h : Setting S A P C K coords) (hd : Dynamics S P C K) (ht : Tangent S K) :
    ∃ ms, K.metricSystem = .ok ms ∧
      List.Forall₂ (fun p q => q.1 = Pkf.dt (p.1.metric p.2.1 p.2.2) ∧ den S q.1 = den S q.2)
        (K.fields.flatMap (fun f => (Spec.upper f.spatial.length).map (fun ij => (f, ij)))) ms := by
  obtain ⟨r, hr, -⟩ := h.reynolds_spec hd
  obtain ⟨ms, hms, -⟩ := (h.detSystem hd).metric_ok r hr
  exact ⟨ms, hms, metric_true h hd ht ms hms⟩

example : ∃ ms, burgers2.metricSystem = .ok ms ∧ ms.length = 2 ∧ ∀ q ∈ ms, den travel q.1 = den travel q.2 := by
  obtain ⟨ms, h1, this⟩ := C50_metric_partial burgers2_setting burgers2_dynamics burgers2_tangent
  exact ⟨ms, h1, this.length_eq.symm, fun q hq => let ⟨_, _, h⟩ := forall₂_right this q hq; h.2⟩

example : upper 3 = [(0, 0), (0, 1), (0, 2), (1, 1), (1, 2), (2, 2)] := by decide

/-! ## C51 -/

theorem error_ne_epsilon (f g : Field) : f.error ≠ g.epsilon := by
  intro e
  simp only [Field.error, Field.epsilon, Ex.fn.injEq] at e
  have := congrArg (·[1]?) e.1
  simp at this

theorem closure_errors (h : Setting S A P C K coords) (c : Dict Ex Ex) (hc : K.closure = .ok c) (f g : Field) (v : Ex)
    (hm : (Ex.ex (.mul f.error g.error), v) ∈ c) : ∃ p ∈ couples K.fields, p.1.error = f.error ∧ p.2.error = g.error ∧
      covariance Pkf.label K.fields p.1 p.2 = .ok v := by
  let I : Dict Ex Ex → Prop := fun c => ∀ kv ∈ c, kv.1 = Ex.ex (.mul f.error g.error) →
    ∃ p ∈ couples K.fields, p.1.error = f.error ∧ p.2.error = g.error ∧ covariance Pkf.label K.fields p.1 p.2 = .ok kv.2
  suffices hI : I c from hI _ hm rfl
  unfold Pkf.closure internalClosure at hc
  simp only [bind, Except.bind] at hc
  split at hc
  · cases hc
  rename_i c1 hc1
  refine foldlM_ok _ I _ _ _ hc (foldlM_ok _ I _ _ _ hc1 (by simp [I]) ?_) ?_
  · intro s x s' hx hs hstep
    split at hstep
    · cases hstep
    rename_i cf hcf
    cases hstep
    intro kv hkv hk
    rcases Dict.mem_update _ _ _ hkv with hkv | hkv
    · exact hs kv hkv hk
    · obtain ⟨cf', h1, h2, -⟩ := C40_internal_closure K.order h.order h.stoch x (h.spatial x hx ▸ h.space)
        (by rw [h.spatial x hx]; exact h.nodup.filter _) (by rw [h.same x hx]; exact h.omega_notMem) (h.normal x hx)
      rw [h1] at hcf
      cases hcf
      have := (h2 kv.1).1 (List.mem_map_of_mem hkv)
      rw [hk] at this
      generalize hz : Ex.ex (.mul f.error g.error) = z at this
      cases this with
      | error => simp [Field.error] at hz
      | error2 => simp at hz
      | epsilon => simp [Field.epsilon] at hz
      | epsilon2 => simp at hz
      | deriv s _ _ _ =>
        simp only [Ex.ex.injEq, Ex.mul.injEq] at hz
        exact absurd hz.1 (error_ne_epsilon _ _)
  · intro s p s' hp hs hstep
    unfold coupleEntries at hstep
    simp only [bind, Except.bind] at hstep
    split at hstep
    · cases hstep
    rename_i v hv
    cases hstep
    intro kv hkv hk
    rcases Dict.mem_set _ _ _ _ hkv with rfl | hkv
    · simp only [Ex.ex.injEq, Ex.mul.injEq] at hk
      exact absurd hk.1.symm (error_ne_epsilon _ _)
    · rcases Dict.mem_set _ _ _ _ hkv with rfl | hkv
      · simp only [Ex.ex.injEq, Ex.mul.injEq] at hk
        exact ⟨p, hp, hk.1, hk.2, hv⟩
      · exact hs kv hkv hk

theorem cross_true (h : Setting S A P C K coords) (hd : Dynamics S P C K) (ht : Tangent S K) (cs : Option (List Eqn))
    (hcs : K.crossSystem = .ok cs) :
    (K.fields.length = 1 → cs = none) ∧ (K.fields.length ≠ 1 → ∃ l, cs = some l ∧
      List.Forall₂ (fun p q => ∃ v, ∃ p' ∈ couples K.fields, p'.1.error = p.1.error ∧ p'.2.error = p.2.error ∧
        q.1 = Pkf.dt v ∧ covariance Pkf.label K.fields p'.1 p'.2 = .ok v ∧ den S v = S.E (den S p.1.error * den S p.2.error) ∧ den S q.1 = den S q.2) (couples K.fields) l) := by
  obtain ⟨h1, h2⟩ := h.cross_spec hd ht cs hcs
  refine ⟨h1, fun hn => ?_⟩
  obtain ⟨l, e, hl⟩ := h2 hn
  refine ⟨l, e, hl.imp (fun p q hq => ?_)⟩
  obtain ⟨v, e1, e2, e3, e4⟩ := hq
  obtain ⟨c, hc⟩ := h.closure_ok
  rw [hc] at e1
  obtain ⟨p', a1, a2, a3, a4⟩ := closure_errors h c hc p.1 p.2 v (Dict.mem_of_get? _ _ _ e1)
  exact ⟨v, p', a1, a2, a3, e2, a4, e3, e4.2.2⟩

/-- **C51** (partial: as C48.)  A system of one field has no cross-covariance system; otherwise there is one equation per couple,
whose left-hand side is the trend of a quantity equal to `E[e1 e2]`, and it is true.  (`p'` is `p`, unless two fields have the
same clean name.) -/
theorem C51_cross_partial (h : Setting S A P C K coords) (hd : Dynamics S P C K) (ht : Tangent S K) :
    (K.fields.length = 1 → K.crossSystem = .ok none) ∧ (K.fields.length ≠ 1 → ∃ l, K.crossSystem = .ok (some l) ∧
      List.Forall₂ (fun p q => ∃ v, ∃ p' ∈ couples K.fields, p'.1.error = p.1.error ∧ p'.2.error = p.2.error ∧
        q.1 = Pkf.dt v ∧ covariance Pkf.label K.fields p'.1 p'.2 = .ok v ∧ den S v = S.E (den S p.1.error * den S p.2.error) ∧
        den S q.1 = den S q.2) (couples K.fields) l) := by
  obtain ⟨r, hr, -⟩ := h.reynolds_spec hd
  obtain ⟨cs, hcs⟩ := (h.detSystem hd).cross_ok r hr
  obtain ⟨h1, h2⟩ := cross_true h hd ht cs hcs
  refine ⟨fun hn => by rw [hcs, h1 hn], fun hn => ?_⟩
  obtain ⟨l, rfl, hl⟩ := h2 hn
  exact ⟨l, hcs, hl⟩

example : ∃ cs, burgers2.crossSystem = .ok (some cs) ∧ cs.length = 1 ∧ ∀ q ∈ cs, den travel q.1 = den travel q.2 := by
  obtain ⟨l, h1, h2⟩ := (C51_cross_partial burgers2_setting burgers2_dynamics burgers2_tangent).2 (by decide +kernel)
  exact ⟨l, h1, h2.length_eq.symm, fun q hq => let ⟨_, _, _, _, _, h⟩ := forall₂_right h2 q hq; h.2.2.2.2.2⟩

/-! ## C57 -/

/-- **C57** (partial: the expression is regular; failure is excluded when the functions of the univariate terms are the normalised
errors of the fields, otherwise see `C57_counterexample`.)  Applying the internal closure preserves the value; it succeeds exactly
when the function of every univariate term is the normalised error of a field. -/
theorem C57_apply_internal_partial (h : Setting S A P C K coords) (c : Dict Ex Ex) (hc : K.closure = .ok c) (e : Ex)
    (he : Regular S P C e) :
    (∀ r, K.applyInternal c e = .ok r → den S r = den S e) ∧
    ((∃ r, K.applyInternal c e = .ok r) ↔ ∀ u ∈ Pkf.univariates e, ∃ f ∈ K.fields, f.epsilon = u.1) := by
  obtain ⟨h1, h2, h3⟩ := h.applyInternal_spec c (h.closure_valid c hc) e he
  refine ⟨fun r hr => (h1 r hr).1, fun ⟨r, hr⟩ => ?_, h2⟩
  by_contra hn
  rw [h3 hn] at hr
  cases hr

/-- **C57** For every deterministic system (nothing random in the equations) whose Reynolds equations are computed, no statistical
equation raises: all the systems, in any of the three forms and with any closure, are computed.  No other condition on the
equations, and no hypothesis on the random state. -/
theorem C57_never_raises (h : DetSystem K coords) (hr : ∃ r, K.reynolds = .ok r) (user : Dict Ex Ex) :
    (∃ l, K.expectationSystem = .ok l) ∧ (∃ l, K.errorSystem = .ok l) ∧ (∃ l, K.varianceSystem = .ok l) ∧
    (∃ l, K.epsilonSystem = .ok l) ∧ (∃ l, K.metricSystem = .ok l) ∧ (∃ l, K.crossSystem = .ok l) ∧
    (∃ l, K.inMetric user = .ok l) ∧ (∃ l, K.inAspect user = .ok l) ∧ (∃ l, K.inDiffusion user = .ok l) ∧
    ∃ l, K.unclosedTerms user = .ok l := by
  obtain ⟨r, hr⟩ := hr
  obtain ⟨s1, s2, s3, s4⟩ := h.systems_ok r hr user
  obtain ⟨vs, hv, -⟩ := h.variance_ok r hr
  obtain ⟨es, he, -⟩ := h.epsilon_ok r hr
  obtain ⟨ms, hm, -⟩ := h.metric_ok r hr
  exact ⟨h.expectation_ok r hr, h.error_ok r hr, ⟨vs, hv⟩, ⟨es, he⟩, ⟨ms, hm⟩, h.cross_ok r hr, s1, s2, s3, s4⟩

/-- Two-dimensional advection of `c` by a given velocity field, with a diffusion of spatially varying, possibly negative,
coefficient: `Derivative(c, t) = - a Derivative(c, x) - b Derivative(c, y) + Derivative(k Derivative(c, x), x)`. -/
def tracer : Pkf where
  fields := [⟨"c".toList, ["t".toList, "x".toList, "y".toList]⟩]
  equations := [(Pkf.dt (.fn "c".toList ["t".toList, "x".toList, "y".toList]),
    .add (.add (.mul (.num (-1)) (.mul (.fn "a".toList ["x".toList, "y".toList]) (.deriv (.fn "c".toList ["t".toList, "x".toList, "y".toList]) [("x".toList, 1)])))
      (.mul (.num (-1)) (.mul (.fn "b".toList ["x".toList, "y".toList]) (.deriv (.fn "c".toList ["t".toList, "x".toList, "y".toList]) [("y".toList, 1)]))))
      (.deriv (.mul (.fn "k".toList ["x".toList, "y".toList]) (.deriv (.fn "c".toList ["t".toList, "x".toList, "y".toList]) [("x".toList, 1)])) [("x".toList, 1)]))]

theorem tracer_det : DetSystem tracer ["t".toList, "x".toList, "y".toList] where
  order := fun _ _ => List.Perm.refl _
  arrange := fun _ => List.Perm.refl _
  same := by decide +kernel
  nodup := by decide +kernel
  noise := by decide +kernel
  space := by decide +kernel
  equations := by
    intro q hq
    rw [tracer, List.mem_singleton] at hq
    subst hq
    simp [Deterministic, Pkf.dt, omega, time]

example (user : Dict Ex Ex) : ∃ l, tracer.inMetric user = .ok l := by
  have hr : ∃ r, tracer.reynolds = .ok r := by
    have h : tracer.reynolds.toOption.isSome = true := by decide +kernel
    generalize tracer.reynolds = r at h
    cases r with
    | error e => cases h
    | ok x => exact ⟨x, rfl⟩
  exact (C57_never_raises tracer_det hr user).2.2.2.2.2.2.1

/-- A random forcing: `Derivative(u, t) = f Derivative(f, x)`, with a random function `f(t, x, omega)`. -/
def forcing : Ex := .fn "f".toList ["t".toList, "x".toList, omega]

/-- The system with the random forcing. -/
def forced : Pkf where
  fields := [fieldU]
  equations := [(Pkf.dt fieldU.value, .mul forcing (.deriv forcing [("x".toList, 1)]))]

/-- **C57** With a random forcing the internal closure meets a univariate term whose function is not the normalised error of a
field: `variance_system` raises RuntimeError. -/
theorem C57_counterexample : forced.varianceSystem = .error .runtimeError := by
  have key : ∀ r : Except PyErr (List Eqn), (match r with | .error e => decide (e = PyErr.runtimeError) | _ => false) = true →
      r = .error .runtimeError := by
    intro r h
    cases r with
    | error e => simpa using h
    | ok x => simp at h
  exact key _ (by decide +kernel)

/-- A product of two univariate terms of a field: `E[eps d_x^2 eps] E[d_x eps d_x eps]`. -/
example : ∃ c r, burgers2.closure = .ok c ∧ burgers2.applyInternal c (.mul (.ex (.mul fieldU.epsilon (.deriv fieldU.epsilon [("x".toList, 2)])))
    (.ex (.mul (.deriv fieldU.epsilon [("x".toList, 1)]) (.deriv fieldU.epsilon [("x".toList, 1)])))) = .ok r := by
  obtain ⟨c, hc⟩ := burgers2_setting.closure_ok
  have h0 : ∀ x : List Str, omega ∈ x ++ [omega] := by simp
  have e0 := burgers2_setting.regular_epsilon fieldU (by decide +kernel)
  have hx : "x".toList ∈ coordSet := .inr rfl
  obtain ⟨r, hr⟩ := (C57_apply_internal_partial burgers2_setting c hc (.mul (.ex (.mul fieldU.epsilon (.deriv fieldU.epsilon [("x".toList, 2)])))
    (.ex (.mul (.deriv fieldU.epsilon [("x".toList, 1)]) (.deriv fieldU.epsilon [("x".toList, 1)]))))
    ⟨.inl ⟨e0, e0, by simpa using hx⟩, .inl ⟨⟨e0, by simpa using hx⟩, e0, by simpa using hx⟩⟩).2.2 (by decide +kernel)
  exact ⟨c, r, hc, hr⟩

end Sympkf.PKF
