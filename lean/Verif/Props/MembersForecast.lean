import Verif.Spec.MembersFilm
import Verif.Props.MembersCases
import Verif.Props.PkfForecast

/-!
# C110: the forecasts of the generated model and the statistics of an ensemble of solutions
-/

set_option autoImplicit false

namespace Sympkf.PKF

open Text Rand Spec Smooth Members

variable {space : List Str} {Ω : Type}

namespace Ens

/-! ## Translations -/

section shift

variable {V : Type} [NormedAddCommGroup V] [NormedSpace ℝ V]

/-- The translated function. -/
def shift (v : V) : F V →+* F V where
  toFun r := ⟨fun p => (r : V → ℝ) (p + v), by
    show ContDiff ℝ (↑(⊤ : ℕ∞)) (fun p : V => (r : V → ℝ) (p + v))
    exact (contDiff r).comp (contDiff_id.add contDiff_const)⟩
  map_one' := rfl
  map_mul' _ _ := rfl
  map_zero' := rfl
  map_add' _ _ := rfl

theorem shift_apply (v : V) (r : F V) (p : V) : (shift v r : V → ℝ) p = (r : V → ℝ) (p + v) := rfl

theorem shift_dir (v w : V) (r : F V) : shift v (dir w r) = dir w (shift v r) := by
  apply Smooth.ext; intro p
  rw [shift_apply, dir_apply, dir_apply]
  show _ = fderiv ℝ (fun p : V => (r : V → ℝ) (p + v)) p w
  rw [fderiv_comp_add_right]

theorem shift_power (v : V) (r : F V) (hr : shift v r = r) (q : ℚ) : shift v (power r q) = power r q := by
  have hv : ∀ p, (r : V → ℝ) (p + v) = (r : V → ℝ) p := fun p => by rw [← shift_apply, hr]
  unfold power
  split_ifs with h1 h2
  · rw [map_pow, hr]
  · apply Smooth.ext; intro p
    show (r : V → ℝ) (p + v) ^ (q : ℝ) = (r : V → ℝ) p ^ (q : ℝ)
    rw [hv]
  · exact map_zero _

end shift

variable [Fintype Ω] {coords : List Str} {e : Ensemble coords Ω} {v : Point coords}

theorem shift_average (r : Ω → F (Point coords)) (hr : ∀ ω, shift v (r ω) = r ω) : shift v (e.average r) = e.average r := by
  unfold Ensemble.average
  rw [map_sum]
  refine Finset.sum_congr rfl fun ω _ => ?_
  rw [map_mul, hr]
  rfl

section statistics

variable {fields : List Field} (hm : ∀ f ∈ fields, ∀ ω, shift v (e.member f ω) = e.member f ω) {f g : Field} (hf : f ∈ fields)
include hm hf

theorem shift_mean : shift v (e.mean f) = e.mean f := shift_average _ (hm f hf)

theorem shift_anomaly (ω : Ω) : shift v (e.anomaly f ω) = e.anomaly f ω := by
  unfold Ensemble.anomaly
  rw [map_sub, hm f hf, shift_mean hm hf]

theorem shift_variance : shift v (e.variance f) = e.variance f :=
  shift_average _ fun ω => by rw [map_pow, shift_anomaly hm hf]

theorem shift_covariance (hg : g ∈ fields) : shift v (e.covariance f g) = e.covariance f g :=
  shift_average _ fun ω => by rw [map_mul, shift_anomaly hm hf, shift_anomaly hm hg]

theorem shift_normalised (ω : Ω) : shift v (e.normalised f ω) = e.normalised f ω := by
  unfold Ensemble.normalised
  rw [map_mul, shift_anomaly hm hf, shift_power _ _ (shift_variance hm hf)]

theorem shift_metric (x y : Str) : shift v (e.metric f x y) = e.metric f x y :=
  shift_average _ fun ω => by
    unfold Members.D
    rw [map_mul, shift_dir, shift_dir, shift_normalised hm hf]

theorem shift_matrix : (shift v).mapMatrix (e.metricMatrix f) = e.metricMatrix f :=
  Matrix.ext fun _ _ => shift_metric hm hf _ _

theorem shift_aspect (i j : ℕ) : shift v (e.aspect f i j) = e.aspect f i j := by
  unfold Ensemble.aspect
  split_ifs with h
  · have h1 : shift v (e.metricMatrix f).det = (e.metricMatrix f).det := by rw [RingHom.map_det, shift_matrix hm hf]
    have h2 := (RingHom.map_adjugate (shift v) (e.metricMatrix f)).trans (congrArg _ (shift_matrix hm hf))
    rw [map_mul, shift_power _ _ h1]
    congr 1
    exact congrFun (congrFun h2 _) _
  · exact map_zero _

omit hf in
theorem shift_meaning {t : Ex} {r : Ω → F (Point coords)} (h : e.Meaning fields t r) (ω : Ω) : shift v (r ω) = r ω := by
  cases h with
  | random hf => exact hm _ hf _
  | mean hf => exact shift_mean hm hf
  | error hf => exact shift_anomaly hm hf _
  | epsilon hf => exact shift_normalised hm hf _
  | variance hf => exact shift_variance hm hf
  | std hf => exact shift_power _ _ (shift_variance hm hf) _
  | metric hf _ _ => exact shift_metric hm hf _ _
  | aspect hf _ _ => exact shift_aspect hm hf _ _
  | diffusion hf _ _ =>
    show shift v (Members.const (1 / 2) * _) = Members.const (1 / 2) * _
    rw [map_mul, shift_aspect hm hf]
    rfl
  | covariance hf hg => exact shift_covariance hm hf hg

omit hf in
theorem shift_function (hg : ∀ u args, shift v (e.given u args) = e.given u args) (u : Str) (args : List Str) (ω : Ω) :
    shift v (e.function fields u args ω) = e.function fields u args ω := by
  unfold Ensemble.function
  split_ifs with h
  · exact shift_meaning hm h.choose_spec ω
  · exact hg _ _

end statistics

/-! ## Observations -/

omit [Fintype Ω] in
theorem cyclic_iff {ℓ : Fin space.length → ℝ} {r : F (Point (time :: space))} :
    Cyclic ℓ r ↔ ∀ i, shift (ℓ i • axis (time :: space) space[i]) r = r :=
  ⟨fun h i => Smooth.ext fun q => h i q, fun h i q => by
    have := congrArg (fun r : F (Point (time :: space)) => (r : Point (time :: space) → ℝ) q) (h i)
    exact this⟩

section place

theorem place_time (τ : ℝ) (p : Fin space.length → ℝ) (h : time ∈ time :: space) : place τ p ⟨time, h⟩ = τ := if_pos rfl

theorem place_space (hnd : (time :: space).Nodup) (τ : ℝ) (p : Fin space.length → ℝ) (i : Fin space.length) (h : space[i] ∈ time :: space) :
    place τ p ⟨space[i], h⟩ = p i := by
  obtain ⟨h1, h2⟩ := List.nodup_cons.1 hnd
  have hi : space.idxOf space[i] = i.1 := h2.idxOf_getElem _ _
  unfold place
  rw [if_neg (fun he : space[i] = time => h1 (he ▸ List.getElem_mem _)), dif_pos (by rw [hi]; exact i.2)]
  congr 1
  exact Fin.ext hi

theorem point_cases (x : {x // x ∈ time :: space}) : x.1 = time ∨ ∃ i : Fin space.length, x.1 = space[i] := by
  rcases List.mem_cons.1 x.2 with h | h
  · exact .inl h
  · obtain ⟨i, hi, h⟩ := List.getElem_of_mem h
    exact .inr ⟨⟨i, hi⟩, h.symm⟩

theorem axis_space (hnd : (time :: space).Nodup) (i j : Fin space.length) (h : space[i] ∈ time :: space) :
    axis (time :: space) space[j] ⟨space[i], h⟩ = if i = j then 1 else 0 := by
  have h2 := (List.nodup_cons.1 hnd).2
  unfold axis
  refine if_congr ⟨fun he => ?_, fun he => he ▸ rfl⟩ rfl rfl
  exact Fin.ext ((h2.getElem_inj_iff).1 he)

theorem space_ne_time (hnd : (time :: space).Nodup) (i : Fin space.length) : space[i] ≠ time :=
  fun he => (List.nodup_cons.1 hnd).1 (he ▸ List.getElem_mem _)

theorem place_update (hnd : (time :: space).Nodup) (τ : ℝ) (p : Fin space.length → ℝ) (i : Fin space.length) :
    HasDerivAt (fun s => place τ (Function.update p i s) : ℝ → Point (time :: space)) (axis (time :: space) space[i]) (p i) := by
  rw [hasDerivAt_pi]
  rintro ⟨x, hx⟩
  rcases point_cases ⟨x, hx⟩ with h | ⟨j, h⟩
  · obtain rfl : x = time := h
    simp only [place_time]
    have : axis (time :: space) space[i] ⟨time, hx⟩ = 0 := if_neg fun he => space_ne_time hnd i he.symm
    rw [this]
    exact hasDerivAt_const _ _
  · obtain rfl : x = space[j] := h
    simp only [place_space hnd]
    rw [axis_space hnd]
    by_cases hij : j = i
    · subst hij
      simp only [Function.update_self, if_true]
      exact hasDerivAt_id _
    · simp only [Function.update_of_ne hij, if_neg hij]
      exact hasDerivAt_const _ _

theorem place_clock (hnd : (time :: space).Nodup) (τ : ℝ) (p : Fin space.length → ℝ) :
    HasDerivAt (fun s => place s p : ℝ → Point (time :: space)) (axis (time :: space) time) τ := by
  rw [hasDerivAt_pi]
  rintro ⟨x, hx⟩
  rcases point_cases ⟨x, hx⟩ with h | ⟨j, h⟩
  · obtain rfl : x = time := h
    simp only [place_time]
    have : axis (time :: space) time ⟨time, hx⟩ = 1 := if_pos rfl
    rw [this]
    exact hasDerivAt_id _
  · obtain rfl : x = space[j] := h
    simp only [place_space hnd]
    have : axis (time :: space) time ⟨space[j], hx⟩ = 0 := if_neg (space_ne_time hnd j)
    rw [this]
    exact hasDerivAt_const _ _

theorem place_single (hnd : (time :: space).Nodup) (τ : ℝ) (p : Fin space.length → ℝ) (i : Fin space.length) (c : ℝ) :
    (place τ (p + Pi.single i c) : Point (time :: space)) = place τ p + c • axis (time :: space) space[i] := by
  funext ⟨x, hx⟩
  rw [Pi.add_apply, Pi.smul_apply, smul_eq_mul]
  rcases point_cases ⟨x, hx⟩ with h | ⟨j, h⟩
  · obtain rfl : x = time := h
    have : axis (time :: space) space[i] ⟨time, hx⟩ = 0 := if_neg fun he => space_ne_time hnd i he.symm
    rw [place_time, place_time, this, mul_zero, add_zero]
  · obtain rfl : x = space[j] := h
    rw [place_space hnd, place_space hnd, axis_space hnd, Pi.add_apply, Pi.single_apply]
    split_ifs <;> simp

theorem place_smooth (hnd : (time :: space).Nodup) :
    ContDiff ℝ (⊤ : ℕ∞) (fun q : ℝ × (Fin space.length → ℝ) => (place q.1 q.2 : Point (time :: space))) := by
  rw [contDiff_pi]
  rintro ⟨x, hx⟩
  rcases point_cases ⟨x, hx⟩ with h | ⟨j, h⟩
  · obtain rfl : x = time := h
    simp only [place_time]
    exact contDiff_fst
  · obtain rfl : x = space[j] := h
    simp only [place_space hnd]
    exact (contDiff_apply ℝ ℝ j).comp contDiff_snd

end place

section filmed

variable (e : Ensemble (time :: space) Ω) (K : Pkf) (ω : Ω) (hnd : (time :: space).Nodup)
include hnd

theorem observation (τ : ℝ) : Observation (e.interp K.fields) (positives (time :: space) Ω) space (Function.update e.param time τ) (seen ω τ) := by
  refine ⟨fun s hs => ?_, fun i r => ?_, fun r hr p => hr ω _, fun r hr q => ?_⟩
  · funext p
    show ((symbol e.param s : F (Point (time :: space))) : Point (time :: space) → ℝ) (place τ p) = _
    unfold symbol
    by_cases ht : s = time
    · subst ht
      rw [dif_pos (List.mem_cons_self ..), Function.update_self]
      exact place_time τ p (List.mem_cons_self ..)
    · rw [dif_neg (fun h => (List.mem_cons.1 h).elim ht hs), Function.update_of_ne ht]
      rfl
  · funext p
    have h1 := (differentiable (r ω) (place τ p)).hasFDerivAt
    have h2 := place_update hnd τ p i
    have e0 : (place τ (Function.update p i (p i)) : Point (time :: space)) = place τ p := by rw [Function.update_eq_self]
    rw [← e0] at h1
    have h3 := (HasFDerivAt.comp_hasDerivAt (p i) h1 h2).deriv
    refine Eq.trans ?_ h3.symm
    rw [e0]
    rfl
  · funext p
    show (power (r ω) q : Point (time :: space) → ℝ) (place τ p) = (r ω : Point (time :: space) → ℝ) (place τ p) ^ (q : ℝ)
    unfold power
    rw [dif_pos (hr ω)]
    split_ifs with h
    · have hq : (q : ℝ) = ((q.num.toNat : ℕ) : ℝ) := by
        have h1 : ((q.num.toNat : ℕ) : ℤ) = q.num := Int.toNat_of_nonneg h.2
        have h2 : q = (q.num : ℚ) := (Rat.den_eq_one_iff q).1 h.1 |>.symm
        calc (q : ℝ) = ((q.num : ℚ) : ℝ) := by rw [← h2]
          _ = (q.num : ℝ) := by push_cast; rfl
          _ = (((q.num.toNat : ℕ) : ℤ) : ℝ) := by rw [h1]
          _ = _ := by push_cast; rfl
      rw [hq, Real.rpow_natCast]
      rfl
    · rfl

theorem evolves (r : Ω → F (Point (time :: space))) (τ : ℝ) (p : Fin space.length → ℝ) :
    HasDerivAt (fun s => seen ω s r p) (seen ω τ ((e.interp K.fields).D time r) p) τ :=
  HasFDerivAt.comp_hasDerivAt τ (differentiable (r ω) (place τ p)).hasFDerivAt (place_clock hnd τ p)

omit [Fintype Ω] in
theorem smoothFamily (r : Ω → F (Point (time :: space))) : Spec.PDE.SmoothFamily (fun τ => seen ω τ r) :=
  (contDiff (r ω)).comp (place_smooth hnd)

omit [Fintype Ω] in
theorem periodic {ℓ : Fin space.length → ℝ} (r : Ω → F (Point (time :: space))) (h : Cyclic ℓ (r ω)) (τ : ℝ) : Spec.PDE.Periodic ℓ (seen ω τ r) := by
  intro i p
  show (r ω : Point (time :: space) → ℝ) (place τ (p + Pi.single i (ℓ i))) = _
  rw [place_single hnd]
  exact h i _

/-- An ensemble of periodic members is a random state that is followed in time. -/
theorem filmed (user : Dict Ex Ex) (T : Field → ℕ → ℕ → Ex) (ℓ : Fin space.length → ℝ) (hℓ : ∀ i, 0 < ℓ i)
    (hm : ∀ f ∈ K.fields, ∀ ω, Cyclic ℓ (e.member f ω)) (hg : ∀ u args, Cyclic ℓ (e.given u args))
    (hargs : ∀ u args, Given K user u args → args.filter (· ≠ time) = space) :
    Filmed (e.interp K.fields) (positives (time :: space) Ω) {x | x ∈ time :: space} K user T space e.param (seen ω) ℓ := by
  have hc : ∀ u args, Cyclic ℓ (e.function K.fields u args ω) := fun u args =>
    cyclic_iff.2 fun i => shift_function (fun f hf ω => cyclic_iff.1 (hm f hf ω) i) (fun u args => cyclic_iff.1 (hg u args) i) _ _ ω
  exact ⟨fun τ => ⟨observation e K ω hnd τ, fun x hx => hx, hℓ, hargs, fun u args _ =>
      ⟨(contDiff (e.function K.fields u args ω)).comp ((place_smooth hnd).comp (contDiff_const.prodMk contDiff_id)),
        periodic ω hnd ((e.interp K.fields).fn u args) (hc u args) τ⟩⟩,
    fun r τ p => evolves e K ω hnd r τ p, fun u args _ => smoothFamily ω hnd _⟩

end filmed

end Ens

variable [Fintype Ω] {K : Pkf} {user : Dict Ex Ex} {e : Ensemble (time :: space) Ω} {ℓ : Fin space.length → ℝ}

/-! ## The dynamics -/

namespace Ens

theorem rhs_without {fields : List Field} {coords : List Str} (he : Pkf.epsSym ∉ coords) : ∀ t, Rhs fields coords t → Without "\\varepsilon".toList t
  | .num _, _ => trivial
  | .sym _, h => h.1
  | .fn _ _, h => h.1
  | .func _ a, h => rhs_without he a h.2.2
  | .add a b, h => ⟨rhs_without he a h.1, rhs_without he b h.2⟩
  | .mul a b, h => ⟨rhs_without he a h.1, rhs_without he b h.2⟩
  | .pow a _, h => rhs_without he a h.2
  | .deriv a _, h => ⟨rhs_without he a h.1, fun v hv e => he (by have := h.2 v hv; rwa [e] at this)⟩
  | .integ _ _, h => h.elim
  | .ex _, h => h.elim
  | .other _, h => h.elim

theorem rhs_deterministic {fields : List Field} {coords : List Str} (ho : omega ∉ coords) : ∀ t, Rhs fields coords t → Deterministic t
  | .num _, _ => trivial
  | .sym _, h => h.2
  | .fn _ _, h => h.2.1
  | .func _ a, h => rhs_deterministic ho a h.2.2
  | .add a b, h => ⟨rhs_deterministic ho a h.1, rhs_deterministic ho b h.2⟩
  | .mul a b, h => ⟨rhs_deterministic ho a h.1, rhs_deterministic ho b h.2⟩
  | .pow a _, h => rhs_deterministic ho a h.2
  | .deriv a _, h => ⟨rhs_deterministic ho a h.1, fun v hv e => ho (e ▸ h.2 v hv)⟩
  | .integ _ _, h => h.elim
  | .ex _, h => h.elim
  | .other _, h => h.elim

theorem parameterFree {coords : List Str} {n : ℕ} (h : Polynomial K coords n) : ParameterFree K := fun q hq => rhs_without h.eps _ (h.rhs q hq).1

theorem evolutionSystem {coords : List Str} {n : ℕ} (h : Polynomial K coords n) (ht : ∀ q ∈ K.equations, TimeFree q.2) : EvolutionSystem K coords where
  det :=
    { order := h.order
      arrange := h.arrange
      same := h.same
      nodup := h.nodup
      noise := h.noise
      space := h.space
      equations := by
        intro q hq
        refine ⟨?_, rhs_deterministic h.noise _ (h.rhs q hq).1⟩
        have : q.1 ∈ K.fields.map (fun f => Pkf.dt f.value) := h.lhs ▸ List.mem_map_of_mem hq
        obtain ⟨f, hf, e⟩ := List.mem_map.1 this
        rw [← e]
        refine ⟨?_, ?_⟩
        · show omega ∉ f.coordinates
          rw [h.same f hf]
          exact h.noise
        · intro v hv
          obtain rfl := List.mem_singleton.1 hv
          exact fun e => h.noise (e ▸ h.time_mem) }
  time_mem := h.time_mem
  evolution := ⟨h.lhs.trans (by rw [List.map_map]; rfl), ht⟩
  codes := h.names.codes
  clash f hf g _ := by
    refine ⟨fun e => ?_, fun e => ?_⟩
    · obtain ⟨u, args, e'⟩ := kind_brace g .error
      injection e.trans e' with e1
      exact h.names.brace f hf (by rw [show f.name = _ from e1]; rfl)
    · obtain ⟨u, args, e'⟩ := kind_brace g .epsilon
      injection e.trans e' with e1
      exact h.names.brace f hf (by rw [show f.name = _ from e1]; rfl)

end Ens

/-! ## The theorems -/

/-- An ensemble of solutions, all with the periods `ℓ` in space, and a closure for them that gives a finite-difference model: the closure is true
of the ensemble; no right-hand side has a trend; the functions that occur depend on all the coordinates of space. -/
structure Experiment (e : Ensemble (time :: space) Ω) (K : Pkf) (user : Dict Ex Ex) (ℓ : Fin space.length → ℝ) : Prop where
  linear : Polynomial K (time :: space) 1
  solves : Solves e K
  trendless : ∀ q ∈ K.equations, TimeFree q.2
  closure : TrueClosure (e.interp K.fields) (Ens.positives (time :: space) Ω) {x | x ∈ time :: space} user
  userClosure : UserClosure user
  generates : Generates K (time :: space) user
  args : ∀ u args, Given K user u args → args.filter (· ≠ time) = space
  lengths : ∀ i, 0 < ℓ i
  members : ∀ f ∈ K.fields, ∀ ω, Cyclic ℓ (e.member f ω)
  given : ∀ u args, Cyclic ℓ (e.given u args)

/-- **C110** From the members of an ensemble to the arrays of the forecast.  Let the members of an ensemble solve linear dynamics and be periodic in
space.  When no unclosed term is left, the forecasts with the finite-difference model generated from `in_metric`, started near the statistics of the
ensemble, converge to the statistics of the ensemble (means, variances, covariances, metric tensors), where the steps are stable. -/
theorem C110_metric (h : Experiment e K user ℓ) (hclosed : K.unclosedTerms user = .ok []) (iter : List PDE.Sy → List PDE.Sy)
    (hi : ∀ l, (iter l).Perm l) (ω : Ω) (a b : ℝ) (hab : a ≤ b) :
    ∃ l, K.inMetric user = .ok l ∧ Predicts iter (e.interp K.fields) e.param (seen ω) ℓ a b ((moments e K.fields ++ cross e K.fields ++
      tensors K.fields fun f i j => e.metric f (f.spatial.getD i []) (f.spatial.getD j [])).map (fun r _ => r)) l := by
  obtain ⟨h1, h2, h3, h4, h5, -⟩ := C109_setting h.linear h.solves
  obtain ⟨ht, hmt, -⟩ := C108_linear h1 h2 h4 h3
  obtain ⟨l, hl, hP⟩ := C101_metric h1 h2 ht hmt h5 h.closure (Ens.evolutionSystem h.linear h.trendless) (Ens.parameterFree h.linear) h.userClosure
    h.generates hclosed iter hi e.param (seen ω) ℓ (Ens.filmed e K ω h.linear.nodup user Field.metric ℓ h.lengths h.members h.given h.args) a b hab
  refine ⟨l, hl, ?_⟩
  rwa [moments_eq h.linear, cross_eq h.linear, tensors_eq Field.metric (fun f i j => e.metric f (f.spatial.getD i []) (f.spatial.getD j []))
    (fun f hf i j hi hj => (Ens.den_tensor h.linear hf hi hj).1), ← List.map_append, ← List.map_append] at hP

/-- **C110** The same for the models generated from `in_aspect` and `in_diffusion`, when the metric tensors of the ensemble can be inverted and every
expectation is a mean or given by the closure. -/
theorem C110_tensors (h : Experiment e K user ℓ) (hcov : Covered K user)
    (hp : ∀ f ∈ K.fields, ∀ p, 0 < ((e.metricMatrix f).det : Point (time :: space) → ℝ) p) (iter : List PDE.Sy → List PDE.Sy)
    (hi : ∀ l, (iter l).Perm l) (ω : Ω) (a b : ℝ) (hab : a ≤ b) :
    (∃ l, K.inAspect user = .ok l ∧ Predicts iter (e.interp K.fields) e.param (seen ω) ℓ a b
      ((moments e K.fields ++ cross e K.fields ++ tensors K.fields e.aspect).map (fun r _ => r)) l) ∧
    ∃ l, K.inDiffusion user = .ok l ∧ Predicts iter (e.interp K.fields) e.param (seen ω) ℓ a b
      ((moments e K.fields ++ tensors K.fields e.diffusion).map (fun r _ => r)) l := by
  obtain ⟨h1, h2, h3, h4, h5, -⟩ := C109_setting h.linear h.solves
  obtain ⟨ht, hmt, -⟩ := C108_linear h1 h2 h4 h3
  have hev := Ens.evolutionSystem h.linear h.trendless
  have hpf := Ens.parameterFree h.linear
  have hfilm := fun T => Ens.filmed e K ω h.linear.nodup user T ℓ h.lengths h.members h.given h.args
  obtain ⟨l, hl, hP⟩ := C101_aspect h1 h2 ht hmt h5 (fun f hf => Ens.tensor_of h.linear hf (hp f hf) 1 one_pos _ fun i j hi hj => by
    rw [(Ens.den_tensor h.linear hf hi hj).2.1]
    funext ω
    rw [show (Members.const ((1 : ℚ) : ℝ) : F (Point (time :: space))) = 1 by rw [Rat.cast_one]; rfl, one_mul]) h.closure hev hpf h.userClosure
    h.generates hcov iter hi e.param (seen ω) ℓ (hfilm _) a b hab
  obtain ⟨m, hm, hQ⟩ := C101_diffusion h1 h2 ht hmt h5 (fun f hf => Ens.tensor_of h.linear hf (hp f hf) (1 / 2) (by norm_num) _ fun i j hi hj => by
    rw [(Ens.den_tensor h.linear hf hi hj).2.2]
    funext ω
    rw [show ((1 / 2 : ℚ) : ℝ) = 1 / 2 by norm_num]
    rfl) h.closure hev hpf h.userClosure h.generates hcov iter hi e.param (seen ω) ℓ (hfilm _) a b hab
  refine ⟨⟨l, hl, ?_⟩, m, hm, ?_⟩
  · rwa [moments_eq h.linear, cross_eq h.linear, tensors_eq Field.aspect e.aspect (fun f hf i j hi hj => (Ens.den_tensor h.linear hf hi hj).2.1),
      ← List.map_append, ← List.map_append] at hP
  · rwa [moments_eq h.linear, tensors_eq Field.diffusion e.diffusion (fun f hf i j hi hj => (Ens.den_tensor h.linear hf hi hj).2.2),
      ← List.map_append] at hQ

end Sympkf.PKF
