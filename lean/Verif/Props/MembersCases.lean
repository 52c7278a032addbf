import Verif.Props.Members
import Verif.Props.Logistic

/-!
# C109: two ensembles
-/

set_option autoImplicit false

namespace Sympkf.PKF

open Text Rand Spec Smooth Members

namespace Ens

variable {coords : List Str}

/-- A function of one coordinate. -/
def along (x : {x // x ∈ coords}) (g : F ℝ) : F (Point coords) :=
  ⟨fun p => (g : ℝ → ℝ) (p x), by
    show ContDiff ℝ (↑(⊤ : ℕ∞)) (fun p : Point coords => (g : ℝ → ℝ) (p x))
    exact (contDiff g).comp (contDiff_apply ℝ ℝ x)⟩

theorem D_along (s : Str) (x : {x // x ∈ coords}) (g : F ℝ) : Members.D s (along x g) = if x.1 = s then along x (dir 1 g) else 0 := by
  apply Smooth.ext; intro p
  unfold Members.D
  rw [dir_apply]
  have h1 : HasFDerivAt (fun p : Point coords => p x) (ContinuousLinearMap.proj (R := ℝ) (φ := fun _ : {x // x ∈ coords} => ℝ) x) p :=
    (ContinuousLinearMap.proj (R := ℝ) (φ := fun _ : {x // x ∈ coords} => ℝ) x).hasFDerivAt
  have h2 := (differentiable g (p x)).hasFDerivAt.comp p h1
  have h3 : ((along x g : F (Point coords)) : Point coords → ℝ) = (g : ℝ → ℝ) ∘ fun p : Point coords => p x := rfl
  rw [h3, h2.fderiv]
  show fderiv ℝ (g : ℝ → ℝ) (p x) (if x.1 = s then 1 else 0) = _
  split
  · rfl
  · rw [map_zero]; rfl

/-- A function with a known derivative. -/
theorem dir_of {g g' : F ℝ} (h : ∀ z, HasDerivAt (g : ℝ → ℝ) ((g' : ℝ → ℝ) z) z) : dir 1 g = g' := by
  apply Smooth.ext; intro z
  rw [dir_apply, (h z).hasFDerivAt.fderiv]
  simp

theorem power_two (f : F (Point coords)) : power f 2 = f ^ 2 := by
  simp [power]

theorem average_apply {Ω : Type} [Fintype Ω] (e : Ensemble coords Ω) (r : Ω → F (Point coords)) (p : Point coords) :
    (e.average r : Point coords → ℝ) p = ∑ ω, e.weight ω * (r ω : Point coords → ℝ) p := by
  unfold Ensemble.average
  rw [AddSubmonoidClass.coe_finsetSum, Finset.sum_apply]
  rfl

end Ens

/-! ## Heat -/

/-- The heat equation `Derivative(u, t) = kappa * Derivative(u, (x, 2))`. -/
def diffuse : Pkf where
  fields := [fieldU]
  equations := [(Pkf.dt fieldU.value, .mul (.sym "kappa".toList) (.deriv fieldU.value [("x".toList, 2)]))]

/-- The coordinates. -/
abbrev plane : List Str := ["t".toList, "x".toList]
abbrev timeAxis : {x // x ∈ plane} := ⟨"t".toList, by decide⟩
abbrev spaceAxis : {x // x ∈ plane} := ⟨"x".toList, by decide⟩

theorem diffuse_polynomial : Polynomial diffuse plane 1 where
  order _ _ := .refl _
  arrange _ := .refl _
  same := by decide +kernel
  nodup := by decide +kernel
  time_mem := by decide +kernel
  space := by decide +kernel
  noise := by decide +kernel
  eps := by decide +kernel
  names := ⟨by decide +kernel, by decide +kernel, by decide +kernel, by decide +kernel, by decide +kernel, by decide +kernel⟩
  lhs := rfl
  rhs q hq := by
    obtain rfl := List.mem_singleton.1 hq
    exact ⟨⟨⟨by decide +kernel, by decide +kernel⟩, ⟨⟨by decide +kernel, by decide +kernel, by decide +kernel, by decide +kernel⟩,
      by decide +kernel⟩⟩, by decide +kernel⟩

noncomputable def decay (k : ℝ) : F ℝ := ⟨fun z => Real.exp (-k * z), by
  show ContDiff ℝ (↑(⊤ : ℕ∞)) (fun z : ℝ => Real.exp (-k * z))
  exact Real.contDiff_exp.comp (contDiff_const.mul contDiff_id)⟩
def idF : F ℝ := ⟨fun z => z, by
  show ContDiff ℝ (↑(⊤ : ℕ∞)) (fun z : ℝ => z)
  exact contDiff_id⟩

/-- The members: the temperature `x` plus or minus `exp(-kappa t) cos(x)`, plus or minus `exp(-kappa t) sin(x)`. -/
noncomputable def warm (k : ℝ) (ω : Bool × Bool) : F (Point plane) :=
  Ens.along spaceAxis idF + Members.const (if ω.1 then 1 else -1) *
    (Ens.along timeAxis (decay k) * Ens.along spaceAxis (if ω.2 then cosF else sinF))

noncomputable def warmth (k : ℝ) : Ensemble plane (Bool × Bool) where
  weight _ := 1 / 4
  member _ ω := warm k ω
  param _ := k
  given _ _ := 1

theorem warm_trend (k : ℝ) (ω : Bool × Bool) :
    Members.D "t".toList (warm k ω) = Members.const k * Members.D "x".toList (Members.D "x".toList (warm k ω)) := by
  have c1 : dir 1 cosF = -sinF := Ens.dir_of fun z => Real.hasDerivAt_cos z
  have c2 : dir 1 sinF = cosF := Ens.dir_of fun z => Real.hasDerivAt_sin z
  have c3 : dir 1 idF = 1 := Ens.dir_of fun z => hasDerivAt_id z
  have c4 : dir 1 (-sinF) = -cosF := Ens.dir_of fun z => (Real.hasDerivAt_sin z).neg
  have c5 : ∀ z, (dir 1 (decay k) : ℝ → ℝ) z = -k * (decay k : ℝ → ℝ) z := fun z => by
    have : HasDerivAt (fun z : ℝ => Real.exp (-k * z)) (Real.exp (-k * z) * (-k * 1)) z := ((hasDerivAt_id z).const_mul (-k)).exp
    rw [dir_apply]
    show fderiv ℝ (fun z : ℝ => Real.exp (-k * z)) z 1 = -k * Real.exp (-k * z)
    rw [this.hasFDerivAt.fderiv]
    simp
    ring
  have hD : ∀ x (a b : F (Point plane)), Members.D x (a + b) = Members.D x a + Members.D x b := fun x a b => Smooth.dir_add _ a b
  have hM : ∀ x (a b : F (Point plane)), Members.D x (a * b) = Members.D x a * b + a * Members.D x b := fun x a b => Smooth.dir_mul _ a b
  have hC : ∀ x c, Members.D x (Members.const c : F (Point plane)) = 0 := fun x c => Ens.dir_constant _ c
  have n1 : ("x".toList = "t".toList) = False := by simp
  have n2 : ("t".toList = "x".toList) = False := by simp
  unfold warm
  simp only [hD, hM, hC, Ens.D_along, n1, n2, if_true, if_false, c3]
  have z1 : Ens.along spaceAxis (dir 1 (1 : F ℝ)) = 0 := by
    rw [show dir 1 (1 : F ℝ) = 0 from Ens.dir_of fun z => hasDerivAt_const z 1]
    rfl
  have z0 : Members.D "x".toList (0 : F (Point plane)) = 0 := Smooth.dir_zero _
  have d1 : Ens.along timeAxis (dir 1 (decay k)) = -(Members.const k * Ens.along timeAxis (decay k)) := by
    apply Smooth.ext; intro p
    refine (c5 (p timeAxis)).trans ?_
    show -k * (decay k : ℝ → ℝ) (p timeAxis) = -(k * (decay k : ℝ → ℝ) (p timeAxis))
    ring
  have an : ∀ g : F ℝ, Ens.along spaceAxis (-g) = -Ens.along spaceAxis g := fun g => rfl
  obtain ⟨a, b⟩ := ω
  cases b <;> simp only [if_true, Bool.false_eq_true, if_false, c1, c2, c4, z1, z0, d1, an] <;> ring

theorem warm_mean (k : ℝ) (f : Field) : (warmth k).mean f = Ens.along spaceAxis idF := by
  apply Smooth.ext; intro p
  unfold Ensemble.mean
  rw [Ens.average_apply, Fintype.sum_prod_type, Fintype.sum_bool, Fintype.sum_bool, Fintype.sum_bool]
  show 1 / 4 * (idF.1 (p spaceAxis) + 1 * _) + 1 / 4 * (idF.1 (p spaceAxis) + 1 * _) + (1 / 4 * (idF.1 (p spaceAxis) + -1 * _) +
    1 / 4 * (idF.1 (p spaceAxis) + -1 * _)) = idF.1 (p spaceAxis)
  ring

/-- The variance is `exp(-2 kappa t) / 2`. -/
theorem warm_variance (k : ℝ) (f : Field) (p : Point plane) :
    ((warmth k).variance f : Point plane → ℝ) p = Real.exp (-k * p timeAxis) ^ 2 / 2 := by
  unfold Ensemble.variance Ensemble.anomaly
  rw [Ens.average_apply, warm_mean, Fintype.sum_prod_type, Fintype.sum_bool, Fintype.sum_bool, Fintype.sum_bool]
  have h := Real.sin_sq_add_cos_sq (p spaceAxis)
  have e1 : ∀ a b, (((warmth k).member f (a, b) - Ens.along spaceAxis idF) ^ 2 : F (Point plane)).1 p =
      (Real.exp (-k * p timeAxis) * (if b then Real.cos (p spaceAxis) else Real.sin (p spaceAxis))) ^ 2 := by
    intro a b
    show (p spaceAxis + (if a = true then 1 else -1) * (Real.exp (-k * p timeAxis) *
      ((if b = true then cosF else sinF : F ℝ) : ℝ → ℝ) (p spaceAxis)) - p spaceAxis) ^ 2 = _
    have e2 : ((if b = true then cosF else sinF : F ℝ) : ℝ → ℝ) (p spaceAxis) = if b then Real.cos (p spaceAxis) else Real.sin (p spaceAxis) := by
      cases b <;> rfl
    rw [e2]
    cases a <;> simp
  rw [e1, e1, e1, e1]
  simp only [if_true, Bool.false_eq_true, if_false]
  show 1 / 4 * _ + 1 / 4 * _ + (1 / 4 * _ + 1 / 4 * _) = _
  linear_combination (Real.exp (-k * p timeAxis) ^ 2 / 2) * h

theorem warm_solves (k : ℝ) : Solves (warmth k) diffuse where
  total := by
    show ∑ _ : Bool × Bool, (1 / 4 : ℝ) = 1
    simp
  spread f _ p := by
    rw [warm_variance]
    positivity
  args _ _ x _ _ := Ens.dir_constant _ 1
  positive _ _ _ _ := one_pos
  trend ω fq hfq := by
    obtain rfl := List.mem_singleton.1 hfq
    have h := warm_trend k ω
    have e1 : ((warmth k).state diffuse.fields ω).fn fieldU.name fieldU.coordinates = warm k ω := by
      show (if (⟨fieldU.name, fieldU.coordinates⟩ : Field) ∈ diffuse.fields then warm k ω else 1) = _
      rw [if_pos (by decide +kernel)]
    have e2 : ((warmth k).state diffuse.fields ω).sym "kappa".toList = Members.const k := by
      show symbol (fun _ => k) "kappa".toList = _
      unfold symbol
      rw [dif_neg (by decide +kernel)]
    show Members.D "t".toList (warm k ω) = ((warmth k).state diffuse.fields ω).sym "kappa".toList *
      Members.D "x".toList (Members.D "x".toList (((warmth k).state diffuse.fields ω).fn fieldU.name fieldU.coordinates))
    rw [e1, e2]
    exact h

/-- The normalised deviations are plus or minus `√2 cos(x)` and `√2 sin(x)`. -/
theorem warm_normalised (k : ℝ) (f : Field) (ω : Bool × Bool) : (warmth k).normalised f ω =
    Members.const (if ω.1 then Real.sqrt 2 else -Real.sqrt 2) * Ens.along spaceAxis (if ω.2 then cosF else sinF) := by
  apply Smooth.ext; intro p
  have hV : ∀ p, 0 < ((warmth k).variance f : Point plane → ℝ) p := fun p => by
    rw [warm_variance]
    positivity
  have hE : 0 < Real.exp (-k * p timeAxis) := Real.exp_pos _
  have hP : (power ((warmth k).variance f) (-1 / 2) : Point plane → ℝ) p = Real.sqrt 2 * (Real.exp (-k * p timeAxis))⁻¹ := by
    rw [power_pos _ hV, warm_variance, show ((-1 / 2 : ℚ) : ℝ) = -(1 / 2) by norm_num, Real.rpow_neg (by positivity), ← Real.sqrt_eq_rpow,
      Real.sqrt_div (by positivity), Real.sqrt_sq hE.le, inv_div, div_eq_mul_inv]
  unfold Ensemble.normalised Ensemble.anomaly
  rw [warm_mean]
  show (p spaceAxis + (if ω.1 = true then 1 else -1) * (Real.exp (-k * p timeAxis) *
      ((if ω.2 = true then cosF else sinF : F ℝ) : ℝ → ℝ) (p spaceAxis)) - p spaceAxis) * (power ((warmth k).variance f) (-1 / 2) : Point plane → ℝ) p =
    (if ω.1 = true then Real.sqrt 2 else -Real.sqrt 2) * ((if ω.2 = true then cosF else sinF : F ℝ) : ℝ → ℝ) (p spaceAxis)
  rw [hP]
  generalize ((if ω.2 = true then cosF else sinF : F ℝ) : ℝ → ℝ) (p spaceAxis) = z
  field_simp
  split <;> ring

/-- The metric is `1`. -/
theorem warm_metric (k : ℝ) (f : Field) : (warmth k).metric f "x".toList "x".toList = 1 := by
  have c1 : dir 1 cosF = -sinF := Ens.dir_of fun z => Real.hasDerivAt_cos z
  have c2 : dir 1 sinF = cosF := Ens.dir_of fun z => Real.hasDerivAt_sin z
  have hD : ∀ ω, Members.D "x".toList ((warmth k).normalised f ω) =
      Members.const (if ω.1 then Real.sqrt 2 else -Real.sqrt 2) * Ens.along spaceAxis (if ω.2 then -sinF else cosF) := by
    intro ω
    rw [warm_normalised]
    refine (Smooth.dir_mul _ _ _).trans ?_
    rw [Ens.dir_constant, zero_mul, zero_add]
    refine (congrArg _ (Ens.D_along "x".toList spaceAxis _)).trans ?_
    rw [if_pos rfl]
    obtain ⟨a, b⟩ := ω
    cases b <;> simp only [if_true, Bool.false_eq_true, if_false, c1, c2]
  apply Smooth.ext; intro p
  unfold Ensemble.metric
  rw [Ens.average_apply, Fintype.sum_prod_type, Fintype.sum_bool, Fintype.sum_bool, Fintype.sum_bool]
  simp only [hD]
  have h := Real.sin_sq_add_cos_sq (p spaceAxis)
  have h2 : Real.sqrt 2 * Real.sqrt 2 = 2 := Real.mul_self_sqrt (by norm_num)
  show 1 / 4 * ((Real.sqrt 2 * -Real.sin (p spaceAxis)) * (Real.sqrt 2 * -Real.sin (p spaceAxis))) +
    1 / 4 * ((Real.sqrt 2 * Real.cos (p spaceAxis)) * (Real.sqrt 2 * Real.cos (p spaceAxis))) +
    (1 / 4 * ((-Real.sqrt 2 * -Real.sin (p spaceAxis)) * (-Real.sqrt 2 * -Real.sin (p spaceAxis))) +
    1 / 4 * ((-Real.sqrt 2 * Real.cos (p spaceAxis)) * (-Real.sqrt 2 * Real.cos (p spaceAxis)))) = 1
  linear_combination ((Real.sin (p spaceAxis) ^ 2 + Real.cos (p spaceAxis) ^ 2) / 2) * h2 + h

/-- The three equations are true of the mean `x`, of the variance `exp(-2 kappa t) / 2` and of the metric. -/
example (k : ℝ) : ∃ l, diffuse.inMetric [] = .ok l ∧
    List.Forall₂ (fun r q => ∀ ω, den ((warmth k).interp diffuse.fields) q.1 ω = Members.D time r ∧
      den ((warmth k).interp diffuse.fields) q.2 ω = Members.D time r)
      [(warmth k).mean fieldU, (warmth k).variance fieldU, (warmth k).metric fieldU "x".toList "x".toList] l :=
  C109_linear diffuse_polynomial (warm_solves k) [] (fun _ h => by cases h)

/-- The metric can be inverted; the equations in terms of the aspect and diffusion tensors are true. -/
example (k : ℝ) : (∃ l, diffuse.inAspect [] = .ok l ∧
    List.Forall₂ (fun r q => ∀ ω, den ((warmth k).interp diffuse.fields) q.1 ω = Members.D time r ∧
      den ((warmth k).interp diffuse.fields) q.2 ω = Members.D time r)
      [(warmth k).mean fieldU, (warmth k).variance fieldU, (warmth k).aspect fieldU 0 0] l) ∧
    ∃ l, diffuse.inDiffusion [] = .ok l ∧
    List.Forall₂ (fun r q => ∀ ω, den ((warmth k).interp diffuse.fields) q.1 ω = Members.D time r ∧
      den ((warmth k).interp diffuse.fields) q.2 ω = Members.D time r)
      [(warmth k).mean fieldU, (warmth k).variance fieldU, (warmth k).diffusion fieldU 0 0] l :=
  C109_tensors diffuse_polynomial (warm_solves k) (fun f hf p => by
    obtain rfl := List.mem_singleton.1 hf
    have e1 : ((warmth k).metricMatrix fieldU) = 1 := by
      refine Matrix.ext fun i j => ?_
      have hl : fieldU.spatial.length = 1 := by decide +kernel
      obtain rfl : i = ⟨0, by omega⟩ := Fin.ext (by omega)
      obtain rfl : j = ⟨0, by omega⟩ := Fin.ext (by omega)
      rw [Matrix.one_apply_eq]
      exact warm_metric k fieldU
    rw [e1, Matrix.det_one]
    exact one_pos) [] (fun _ h => by cases h)

/-! ## Growth -/

theorem logistic_polynomial : Polynomial logistic plane 2 where
  order _ _ := .refl _
  arrange _ := .refl _
  same := by decide +kernel
  nodup := by decide +kernel
  time_mem := by decide +kernel
  space := by decide +kernel
  noise := by decide +kernel
  eps := by decide +kernel
  names := ⟨by decide +kernel, by decide +kernel, by decide +kernel, by decide +kernel, by decide +kernel, by decide +kernel⟩
  lhs := rfl
  rhs q hq := by
    obtain rfl := List.mem_singleton.1 hq
    exact ⟨⟨⟨by decide +kernel, by decide +kernel, by decide +kernel, by decide +kernel⟩,
      ⟨trivial, ⟨by decide +kernel, by decide +kernel, by decide +kernel, by decide +kernel, by decide +kernel⟩⟩⟩, by decide +kernel⟩

noncomputable def sigmoidF (c : ℝ) : F ℝ := ⟨fun z => Real.sigmoid (z - c), by
  show ContDiff ℝ (↑(⊤ : ℕ∞)) (fun z : ℝ => Real.sigmoid (z - c))
  exact (contDiff_sigmoid.of_le le_top).comp (contDiff_id.sub contDiff_const)⟩

theorem sigmoidF_trend (c : ℝ) : dir 1 (sigmoidF c) = sigmoidF c - sigmoidF c ^ 2 := Ens.dir_of fun z => by
  have h := (Real.hasDerivAt_sigmoid (z - c)).comp z ((hasDerivAt_id z).sub_const c)
  refine h.congr_deriv ?_
  show Real.sigmoid (z - c) * (1 - Real.sigmoid (z - c)) * 1 = Real.sigmoid (z - c) - Real.sigmoid (z - c) ^ 2
  ring

/-- Two populations that grow, one later than the other; their weights are one and two thirds. -/
noncomputable def populations : Ensemble plane Bool where
  weight ω := if ω then 1 / 3 else 2 / 3
  member _ ω := Ens.along timeAxis (sigmoidF (if ω then 0 else 1))
  param _ := 0
  given _ _ := 1

/-- The two populations at a point. -/
noncomputable def early (p : Point plane) : ℝ := Real.sigmoid (p timeAxis - 0)
noncomputable def late (p : Point plane) : ℝ := Real.sigmoid (p timeAxis - 1)

theorem late_lt (p : Point plane) : late p < early p := Real.sigmoid_strictMono (by linarith)

theorem populations_mean (f : Field) (p : Point plane) : (populations.mean f : Point plane → ℝ) p = (early p + 2 * late p) / 3 := by
  unfold Ensemble.mean
  rw [Ens.average_apply, Fintype.sum_bool]
  show 1 / 3 * early p + 2 / 3 * late p = _
  ring

theorem populations_variance (f : Field) (p : Point plane) :
    (populations.variance f : Point plane → ℝ) p = 2 / 9 * (early p - late p) ^ 2 := by
  unfold Ensemble.variance
  rw [Ens.average_apply, Fintype.sum_bool]
  show 1 / 3 * (early p - (populations.mean f : Point plane → ℝ) p) ^ 2 + 2 / 3 * (late p - (populations.mean f : Point plane → ℝ) p) ^ 2 = _
  rw [populations_mean]
  ring

theorem populations_solve : Solves populations logistic where
  total := by
    rw [Fintype.sum_bool]
    show (1 / 3 : ℝ) + 2 / 3 = 1
    norm_num
  spread f _ p := by
    rw [populations_variance]
    have := sub_pos.2 (late_lt p)
    positivity
  args _ _ x _ _ := Ens.dir_constant _ 1
  positive _ _ _ _ := one_pos
  trend ω fq hfq := by
    obtain rfl := List.mem_singleton.1 hfq
    have e1 : (populations.state logistic.fields ω).fn fieldU.name fieldU.coordinates = populations.member fieldU ω := by
      show (if (⟨fieldU.name, fieldU.coordinates⟩ : Field) ∈ logistic.fields then populations.member fieldU ω else 1) = _
      rw [if_pos (by decide +kernel)]
    show Members.D "t".toList (populations.member fieldU ω) = (populations.state logistic.fields ω).fn fieldU.name fieldU.coordinates +
      algebraMap ℚ _ (-1) * power ((populations.state logistic.fields ω).fn fieldU.name fieldU.coordinates) 2
    rw [e1]
    show Members.D "t".toList (Ens.along timeAxis _) = Ens.along timeAxis _ + algebraMap ℚ _ (-1) * power (Ens.along timeAxis _) 2
    rw [Ens.D_along, if_pos rfl, sigmoidF_trend, Ens.power_two]
    apply Smooth.ext; intro p
    show (sigmoidF _ : ℝ → ℝ) (p timeAxis) - (sigmoidF _ : ℝ → ℝ) (p timeAxis) ^ 2 =
      (sigmoidF _ : ℝ → ℝ) (p timeAxis) + ((-1 : ℚ) : ℝ) * (sigmoidF _ : ℝ → ℝ) (p timeAxis) ^ 2
    push_cast
    ring

/-- The equation of the variance that is generated: `Derivative(V, t) = 2 V - 4 u V`. -/
def logisticVariance : Eqn :=
  (Pkf.dt fieldU.variance, .add (.mul (.num (-4)) (.mul fieldU.value fieldU.variance)) (.mul (.num 2) fieldU.variance))

theorem logistic_variance : ∃ l, logistic.inMetric [] = .ok l ∧ logisticVariance ∈ l := by
  have h : (match logistic.inMetric [] with | .ok l => decide (logisticVariance ∈ l) | .error _ => false) = true := by
    decide +kernel
  revert h
  cases logistic.inMetric [] with
  | error e => simp
  | ok l => exact fun h => ⟨l, rfl, of_decide_eq_true h⟩

theorem populations_trend (p : Point plane) : (Members.D "t".toList (populations.variance fieldU) : Point plane → ℝ) p =
    4 / 9 * (early p - late p) ^ 2 * (1 - early p - late p) := by
  have e : populations.variance fieldU = Members.const (2 / 9) * ((Ens.along timeAxis (sigmoidF 0) - Ens.along timeAxis (sigmoidF 1)) *
      (Ens.along timeAxis (sigmoidF 0) - Ens.along timeAxis (sigmoidF 1))) := by
    apply Smooth.ext; intro p
    rw [populations_variance]
    show 2 / 9 * (early p - late p) ^ 2 = 2 / 9 * ((early p - late p) * (early p - late p))
    ring
  have hA : ∀ c, Members.D "t".toList (Ens.along timeAxis (sigmoidF c)) = Ens.along timeAxis (sigmoidF c - sigmoidF c ^ 2) := fun c => by
    rw [Ens.D_along, if_pos rfl, sigmoidF_trend]
  have hS : Members.D "t".toList (Ens.along timeAxis (sigmoidF 0) - Ens.along timeAxis (sigmoidF 1)) =
      Ens.along timeAxis (sigmoidF 0 - sigmoidF 0 ^ 2) - Ens.along timeAxis (sigmoidF 1 - sigmoidF 1 ^ 2) := by
    have := Smooth.dir_add (axis plane "t".toList) (Ens.along timeAxis (sigmoidF 0) - Ens.along timeAxis (sigmoidF 1)) (Ens.along timeAxis (sigmoidF 1))
    rw [sub_add_cancel] at this
    rw [← hA, ← hA]
    exact eq_sub_of_add_eq this.symm
  have hM : ∀ a b : F (Point plane), Members.D "t".toList (a * b) = Members.D "t".toList a * b + a * Members.D "t".toList b := fun a b => Smooth.dir_mul _ a b
  rw [e, hM, hM, hS, show Members.D "t".toList (Members.const (2 / 9) : F (Point plane)) = 0 from Ens.dir_constant _ _]
  show 0 * _ + 2 / 9 * (((early p - early p ^ 2) - (late p - late p ^ 2)) * (early p - late p) +
    (early p - late p) * ((early p - early p ^ 2) - (late p - late p ^ 2))) = _
  ring

/-- **C109** For quadratic dynamics the equations of the variances are not true of all ensembles of solutions: the third moments of the errors
are dropped, and those of two populations with different weights are not zero. -/
theorem C109_counterexample : Polynomial logistic plane 2 ∧ Solves populations logistic ∧
    ∃ l, logistic.inMetric [] = .ok l ∧ ∃ q ∈ l, ∀ ω p, (den (populations.interp logistic.fields) q.1 ω : Point plane → ℝ) p ≠
      (den (populations.interp logistic.fields) q.2 ω : Point plane → ℝ) p := by
  refine ⟨logistic_polynomial, populations_solve, ?_⟩
  obtain ⟨l, hl, hq⟩ := logistic_variance
  refine ⟨l, hl, _, hq, fun ω p h => ?_⟩
  have hV := Ens.den_of logistic_polynomial (.variance (e := populations) (List.mem_singleton_self fieldU))
  have hu := Ens.den_of logistic_polynomial (.mean (e := populations) (List.mem_singleton_self fieldU))
  have e1 : (den (populations.interp logistic.fields) logisticVariance.1 ω : Point plane → ℝ) p =
      4 / 9 * (early p - late p) ^ 2 * (1 - early p - late p) := by
    show (Members.D "t".toList (den (populations.interp logistic.fields) fieldU.variance ω) : Point plane → ℝ) p = _
    rw [hV, populations_trend]
  have e2 : (den (populations.interp logistic.fields) logisticVariance.2 ω : Point plane → ℝ) p =
      -4 * ((early p + 2 * late p) / 3 * (2 / 9 * (early p - late p) ^ 2)) + 2 * (2 / 9 * (early p - late p) ^ 2) := by
    show ((-4 : ℚ) : ℝ) * ((den (populations.interp logistic.fields) fieldU.value ω : Point plane → ℝ) p *
      (den (populations.interp logistic.fields) fieldU.variance ω : Point plane → ℝ) p) +
      ((2 : ℚ) : ℝ) * (den (populations.interp logistic.fields) fieldU.variance ω : Point plane → ℝ) p = _
    rw [hV, hu, populations_mean, populations_variance]
    push_cast
    ring
  rw [e1, e2] at h
  have h3 : (early p - late p) ^ 3 = 0 := by linear_combination (-27 / 4) * h
  exact absurd (pow_eq_zero_iff (by norm_num) |>.1 h3) (sub_pos.2 (late_lt p)).ne'

/-- The equation of the mean is true of the two populations. -/
example : ∃ l, logistic.expectationSystem = .ok l ∧ l.length = 1 ∧
    ∀ q ∈ l, den (populations.interp logistic.fields) q.1 = den (populations.interp logistic.fields) q.2 :=
  C109_mean logistic_polynomial populations_solve

end Sympkf.PKF
