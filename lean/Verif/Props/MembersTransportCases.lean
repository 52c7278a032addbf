import Verif.Props.MembersTransport

/-!
# C110: an ensemble of waves
-/

set_option autoImplicit false

namespace Sympkf.PKF

open Text Rand Spec Smooth Members

/-- A function of `x - c t`. -/
def riding (c : ℝ) (g : F ℝ) : F (Point plane) :=
  ⟨fun p => (g : ℝ → ℝ) (p spaceAxis - c * p timeAxis), by
    show ContDiff ℝ (↑(⊤ : ℕ∞)) (fun p : Point plane => (g : ℝ → ℝ) (p spaceAxis - c * p timeAxis))
    exact (contDiff g).comp ((contDiff_apply ℝ ℝ spaceAxis).sub (contDiff_const.mul (contDiff_apply ℝ ℝ timeAxis)))⟩

theorem D_riding (c : ℝ) (g : F ℝ) :
    Members.D "x".toList (riding c g) = riding c (dir 1 g) ∧ Members.D "t".toList (riding c g) = Members.const (-c) * riding c (dir 1 g) := by
  have h1 : ∀ (y : {x // x ∈ plane}) (p : Point plane), HasFDerivAt (fun p : Point plane => p y)
      (ContinuousLinearMap.proj (R := ℝ) (φ := fun _ : {x // x ∈ plane} => ℝ) y) p :=
    fun y p => (ContinuousLinearMap.proj (R := ℝ) (φ := fun _ : {x // x ∈ plane} => ℝ) y).hasFDerivAt
  have h3 : ((riding c g : F (Point plane)) : Point plane → ℝ) = (g : ℝ → ℝ) ∘ fun p : Point plane => p spaceAxis - c * p timeAxis := rfl
  have h2 : ∀ p v, fderiv ℝ ((riding c g : F (Point plane)) : Point plane → ℝ) p v =
      (dir 1 g : ℝ → ℝ) (p spaceAxis - c * p timeAxis) * (v spaceAxis - c * v timeAxis) := by
    intro p v
    have h4 : HasDerivAt (g : ℝ → ℝ) ((dir 1 g : ℝ → ℝ) (p spaceAxis - c * p timeAxis)) (p spaceAxis - c * p timeAxis) :=
      (differentiable g _).hasFDerivAt.hasDerivAt
    have h5 := h4.comp_hasFDerivAt p ((h1 spaceAxis p).sub ((h1 timeAxis p).const_mul c))
    rw [h3]
    exact congrArg (fun L : Point plane →L[ℝ] ℝ => L v) h5.fderiv
  constructor
  · apply Smooth.ext; intro p
    unfold Members.D
    rw [dir_apply, h2]
    show (dir 1 g : ℝ → ℝ) (p spaceAxis - c * p timeAxis) * (1 - c * 0) = (dir 1 g : ℝ → ℝ) (p spaceAxis - c * p timeAxis)
    ring
  · apply Smooth.ext; intro p
    unfold Members.D
    rw [dir_apply, h2]
    show (dir 1 g : ℝ → ℝ) (p spaceAxis - c * p timeAxis) * (0 - c * 1) = -c * (dir 1 g : ℝ → ℝ) (p spaceAxis - c * p timeAxis)
    ring

/-- The members: `cos(x - c t)` plus or minus `cos(x - c t)`, and plus or minus `sin(x - c t)`. -/
noncomputable def ripple (c : ℝ) (ω : Bool × Bool) : F (Point plane) :=
  riding c cosF + Members.const (if ω.1 then 1 else -1) * riding c (if ω.2 then cosF else sinF)

noncomputable def ripples (c : ℝ) : Ensemble plane (Bool × Bool) where
  weight _ := 1 / 4
  member _ ω := ripple c ω
  param _ := c
  given _ _ := 1

theorem ripple_trend (c : ℝ) (ω : Bool × Bool) :
    Members.D "t".toList (ripple c ω) = Members.const (-c) * Members.D "x".toList (ripple c ω) := by
  have hD : ∀ x (a b : F (Point plane)), Members.D x (a + b) = Members.D x a + Members.D x b := fun x a b => Smooth.dir_add _ a b
  have hM : ∀ x (a b : F (Point plane)), Members.D x (a * b) = Members.D x a * b + a * Members.D x b := fun x a b => Smooth.dir_mul _ a b
  have hC : ∀ x c, Members.D x (Members.const c : F (Point plane)) = 0 := fun x c => Ens.dir_constant _ c
  unfold ripple
  simp only [hD, hM, hC, (D_riding c _).1, (D_riding c _).2]
  ring

theorem ripple_mean (c : ℝ) (f : Field) : (ripples c).mean f = riding c cosF := by
  apply Smooth.ext; intro p
  unfold Ensemble.mean
  rw [Ens.average_apply, Fintype.sum_prod_type, Fintype.sum_bool, Fintype.sum_bool, Fintype.sum_bool]
  show 1 / 4 * ((riding c cosF).1 p + 1 * _) + 1 / 4 * ((riding c cosF).1 p + 1 * _) + (1 / 4 * ((riding c cosF).1 p + -1 * _) +
    1 / 4 * ((riding c cosF).1 p + -1 * _)) = (riding c cosF).1 p
  ring

/-- The variance is `1/2`. -/
theorem ripple_variance (c : ℝ) (f : Field) : (ripples c).variance f = Members.const (1 / 2) := by
  apply Smooth.ext; intro p
  unfold Ensemble.variance Ensemble.anomaly
  rw [Ens.average_apply, ripple_mean, Fintype.sum_prod_type, Fintype.sum_bool, Fintype.sum_bool, Fintype.sum_bool]
  have h := Real.sin_sq_add_cos_sq (p spaceAxis - c * p timeAxis)
  have e1 : ∀ a b, (((ripples c).member f (a, b) - riding c cosF) ^ 2 : F (Point plane)).1 p =
      (if b then Real.cos (p spaceAxis - c * p timeAxis) else Real.sin (p spaceAxis - c * p timeAxis)) ^ 2 := by
    intro a b
    show ((riding c cosF).1 p + (if a = true then 1 else -1) * ((if b = true then cosF else sinF : F ℝ) : ℝ → ℝ) (p spaceAxis - c * p timeAxis) -
      (riding c cosF).1 p) ^ 2 = _
    have e2 : ((if b = true then cosF else sinF : F ℝ) : ℝ → ℝ) (p spaceAxis - c * p timeAxis) =
        if b then Real.cos (p spaceAxis - c * p timeAxis) else Real.sin (p spaceAxis - c * p timeAxis) := by
      cases b <;> rfl
    rw [e2]
    cases a <;> simp
  rw [e1, e1, e1, e1]
  simp only [if_true, Bool.false_eq_true, if_false]
  show 1 / 4 * _ + 1 / 4 * _ + (1 / 4 * _ + 1 / 4 * _) = (1 / 2 : ℝ)
  linear_combination (1 / 2) * h

theorem ripple_solves (c : ℝ) : Members.Solves (ripples c) advection where
  total := by
    show ∑ _ : Bool × Bool, (1 / 4 : ℝ) = 1
    simp
  spread f _ p := by
    rw [ripple_variance]
    exact one_half_pos
  args _ _ x _ _ := Ens.dir_constant _ 1
  positive _ _ _ _ := one_pos
  trend ω fq hfq := by
    obtain rfl := List.mem_singleton.1 hfq
    have e1 : ((ripples c).state advection.fields ω).fn fieldU.name fieldU.coordinates = ripple c ω := by
      show (if (⟨fieldU.name, fieldU.coordinates⟩ : Field) ∈ advection.fields then ripple c ω else 1) = _
      rw [if_pos (by decide +kernel)]
    have e2 : ((ripples c).state advection.fields ω).sym "c".toList = Members.const c := by
      show symbol (fun _ => c) "c".toList = _
      unfold symbol
      rw [dif_neg (by decide +kernel)]
    show Members.D "t".toList (ripple c ω) = algebraMap ℚ (F (Point plane)) (-1) * (((ripples c).state advection.fields ω).sym "c".toList *
      Members.D "x".toList (((ripples c).state advection.fields ω).fn fieldU.name fieldU.coordinates))
    rw [e1, e2, ripple_trend, ← mul_assoc]
    congr 1
    apply Smooth.ext; intro p
    show -c = ((-1 : ℚ) : ℝ) * c
    push_cast
    ring

theorem ripple_cyclic (c : ℝ) (ω : Bool × Bool) : Cyclic (space := ["x".toList]) (fun _ => 2 * Real.pi) (ripple c ω) := by
  intro i (q : Point plane)
  have e : ∀ g : F ℝ, (∀ z, (g : ℝ → ℝ) (z + 2 * Real.pi) = (g : ℝ → ℝ) z) →
      (riding c g : Point plane → ℝ) (q + (2 * Real.pi) • axis plane ["x".toList][i]) = (riding c g : Point plane → ℝ) q := by
    intro g hg
    obtain rfl : i = ⟨0, by decide⟩ := Subsingleton.elim (α := Fin 1) _ _
    have e1 : (q + (2 * Real.pi) • axis plane "x".toList) spaceAxis = q spaceAxis + 2 * Real.pi := by
      show q spaceAxis + (2 * Real.pi) * 1 = _
      ring
    have e2 : (q + (2 * Real.pi) • axis plane "x".toList) timeAxis = q timeAxis := by
      show q timeAxis + (2 * Real.pi) * 0 = _
      ring
    show (g : ℝ → ℝ) ((q + (2 * Real.pi) • axis plane "x".toList) spaceAxis - c * (q + (2 * Real.pi) • axis plane "x".toList) timeAxis) =
      (g : ℝ → ℝ) (q spaceAxis - c * q timeAxis)
    rw [e1, e2, ← hg (q spaceAxis - c * q timeAxis)]
    ring_nf
  have e1 := e cosF Real.cos_add_two_pi
  have e2 := e sinF Real.sin_add_two_pi
  obtain ⟨a, b⟩ := ω
  cases b
  · exact congrArg₂ (fun u v => u + (if a = true then 1 else -1) * v) e1 e2
  · exact congrArg₂ (fun u v => u + (if a = true then 1 else -1) * v) e1 e1

/-- The case of C110_transport: four waves that travel with the velocity `3`. -/
example (iter : List Sympkf.PDE.Sy → List Sympkf.PDE.Sy) (hi : ∀ l, (iter l).Perm l) :
    ∃ l eqs s, advection.inMetric [] = .ok l ∧ Sympkf.PDE.ofEqns l = some eqs ∧ Sympkf.PDE.System.build iter eqs = .ok s ∧ s.prognostic.length = 3 := by
  obtain ⟨l, eqs, s, h1, h2, h3, h4, -⟩ := C110_transport (ripple_solves 3) (2 * Real.pi) Real.two_pi_pos (ripple_cyclic 3) iter hi 0 1 one_pos
  exact ⟨l, eqs, s, h1, h2, h3, h4⟩

/-- The statistics to which the forecasts converge: the mean `cos(x - c t)`, the variance `1/2`. -/
example (c τ : ℝ) (z : ℝ) : ((advected (ripples c)).getD 0 0 : Point plane → ℝ) (place (space := ["x".toList]) τ fun _ => z) = Real.cos (z - c * τ) ∧
    ((advected (ripples c)).getD 1 0 : Point plane → ℝ) (place (space := ["x".toList]) τ fun _ => z) = 1 / 2 := by
  constructor
  · show ((ripples c).mean fieldU : Point plane → ℝ) _ = _
    rw [ripple_mean]
    rfl
  · show ((ripples c).variance fieldU : Point plane → ℝ) _ = _
    rw [ripple_variance]
    rfl

/-- The hypotheses of C110_metric and C110_tensors, without closure. -/
theorem ripple_experiment (c : ℝ) : Experiment (space := ["x".toList]) (ripples c) advection [] (fun _ => 2 * Real.pi) where
  linear := advection_polynomial
  solves := ripple_solves c
  trendless q hq := by
    obtain rfl := List.mem_singleton.1 hq
    simp [TimeFree, time, Field.value]
  closure _ h := by cases h
  userClosure _ h := by cases h
  generates :=
    { fields := by simp [advection]
      first := rfl
      equations := by
        intro q hq
        obtain rfl := List.mem_singleton.1 hq
        simp [Codable, Field.value, fieldU, time]
      values := by
        intro kv hkv
        cases hkv }
  args u args h := by
    rcases h with ⟨q, hq, h⟩ | ⟨kv, hkv, -⟩
    · obtain rfl := List.mem_singleton.1 hq
      have hv : ∀ u args, Within (.fn u args) fieldU.value → args = ["t".toList, "x".toList] := fun u args h => by cases h; rfl
      have : args = ["t".toList, "x".toList] := by
        cases h with
        | mulL h => cases h
        | mulR h =>
          cases h with
          | mulL h => cases h
          | mulR h =>
            cases h with
            | deriv h => exact hv u args h
      rw [this]
      decide +kernel
    · cases hkv
  lengths _ := Real.two_pi_pos
  members f _ ω := ripple_cyclic c ω
  given _ _ _ _ := rfl

/-- The case of C110_metric. -/
example (iter : List Sympkf.PDE.Sy → List Sympkf.PDE.Sy) (hi : ∀ l, (iter l).Perm l) (c : ℝ) : ∃ l, advection.inMetric [] = .ok l ∧
    Predicts iter ((ripples c).interp advection.fields) (fun _ => c) (seen (space := ["x".toList]) (true, true)) (fun _ => 2 * Real.pi) 0 1
      ([(ripples c).mean fieldU, (ripples c).variance fieldU, (ripples c).metric fieldU "x".toList "x".toList].map (fun r _ => r)) l :=
  C110_metric (ripple_experiment c) (eq_ok _ _ (by decide +kernel)) iter hi (true, true) 0 1 zero_le_one

/-- The metric is `1`. -/
theorem ripple_metric (c : ℝ) (f : Field) : (ripples c).metric f "x".toList "x".toList = 1 := by
  have c1 : dir 1 cosF = -sinF := Ens.dir_of fun z => Real.hasDerivAt_cos z
  have c2 : dir 1 sinF = cosF := Ens.dir_of fun z => Real.hasDerivAt_sin z
  have hP : power ((ripples c).variance f) (-1 / 2) = Members.const (Real.sqrt 2) := by
    apply Smooth.ext; intro p
    have hV : ∀ p, 0 < ((ripples c).variance f : Point plane → ℝ) p := fun p => by
      rw [ripple_variance]
      exact one_half_pos
    rw [power_pos _ hV, ripple_variance]
    show (1 / 2 : ℝ) ^ ((-1 / 2 : ℚ) : ℝ) = Real.sqrt 2
    rw [show ((-1 / 2 : ℚ) : ℝ) = -(1 / 2) by norm_num, Real.rpow_neg (by norm_num), ← Real.sqrt_eq_rpow, one_div, Real.sqrt_inv, inv_inv]
  have hN : ∀ ω, (ripples c).normalised f ω = Members.const (if ω.1 then Real.sqrt 2 else -Real.sqrt 2) * riding c (if ω.2 then cosF else sinF) := by
    intro ω
    unfold Ensemble.normalised Ensemble.anomaly
    rw [hP, ripple_mean]
    apply Smooth.ext; intro p
    show ((riding c cosF).1 p + (if ω.1 = true then 1 else -1) * (riding c (if ω.2 then cosF else sinF)).1 p - (riding c cosF).1 p) * Real.sqrt 2 =
      (if ω.1 = true then Real.sqrt 2 else -Real.sqrt 2) * (riding c (if ω.2 then cosF else sinF)).1 p
    split <;> ring
  have hD : ∀ ω, Members.D "x".toList ((ripples c).normalised f ω) =
      Members.const (if ω.1 then Real.sqrt 2 else -Real.sqrt 2) * riding c (if ω.2 then -sinF else cosF) := by
    intro ω
    rw [hN]
    refine (Smooth.dir_mul _ _ _).trans ?_
    rw [Ens.dir_constant, zero_mul, zero_add]
    refine (congrArg _ (D_riding c _).1).trans ?_
    obtain ⟨a, b⟩ := ω
    cases b <;> simp only [if_true, Bool.false_eq_true, if_false, c1, c2]
  apply Smooth.ext; intro p
  unfold Ensemble.metric
  rw [Ens.average_apply, Fintype.sum_prod_type, Fintype.sum_bool, Fintype.sum_bool, Fintype.sum_bool]
  simp only [hD]
  have h := Real.sin_sq_add_cos_sq (p spaceAxis - c * p timeAxis)
  have h2 : Real.sqrt 2 * Real.sqrt 2 = 2 := Real.mul_self_sqrt (by norm_num)
  generalize hz : p spaceAxis - c * p timeAxis = z at h
  have e1 : ∀ g : F ℝ, (riding c g).1 p = (g : ℝ → ℝ) z := fun g => by rw [← hz]; rfl
  show 1 / 4 * ((Real.sqrt 2 * (riding c (-sinF)).1 p) * (Real.sqrt 2 * (riding c (-sinF)).1 p)) +
    1 / 4 * ((Real.sqrt 2 * (riding c cosF).1 p) * (Real.sqrt 2 * (riding c cosF).1 p)) +
    (1 / 4 * ((-Real.sqrt 2 * (riding c (-sinF)).1 p) * (-Real.sqrt 2 * (riding c (-sinF)).1 p)) +
    1 / 4 * ((-Real.sqrt 2 * (riding c cosF).1 p) * (-Real.sqrt 2 * (riding c cosF).1 p))) = 1
  rw [e1, e1]
  show 1 / 4 * ((Real.sqrt 2 * -Real.sin z) * (Real.sqrt 2 * -Real.sin z)) + 1 / 4 * ((Real.sqrt 2 * Real.cos z) * (Real.sqrt 2 * Real.cos z)) +
    (1 / 4 * ((-Real.sqrt 2 * -Real.sin z) * (-Real.sqrt 2 * -Real.sin z)) + 1 / 4 * ((-Real.sqrt 2 * Real.cos z) * (-Real.sqrt 2 * Real.cos z))) = 1
  linear_combination (Real.sqrt 2 * Real.sqrt 2 / 2) * h + (1 / 2) * h2

theorem advection_covered : Covered advection [] := by
  have hc : (match advection.expectationSystem, advection.varianceSystem, advection.crossSystem, advection.metricSystem with
      | .ok ms, .ok vs, .ok cs, .ok gs => (ms ++ vs ++ cs.getD [] ++ gs).all (fun q => (Pkf.exAtoms q.2).all (fun t =>
          advection.fields.any (fun f => t = .ex f.random)))
      | _, _, _, _ => false) = true := by decide +kernel
  intro ms vs cs gs h1 h2 h3 h4 q hq a ha
  rw [h1, h2, h3, h4] at hc
  have := List.all_eq_true.1 (List.all_eq_true.1 hc q hq) _ ((mem_exAtoms _ _).2 ⟨⟨a, rfl⟩, ha⟩)
  obtain ⟨f, hf, e⟩ := List.any_eq_true.1 this
  exact .inl ⟨f, hf, by injection of_decide_eq_true e⟩

/-- The case of C110_tensors. -/
example (iter : List Sympkf.PDE.Sy → List Sympkf.PDE.Sy) (hi : ∀ l, (iter l).Perm l) (c : ℝ) : ∃ l, advection.inDiffusion [] = .ok l ∧
    Predicts iter ((ripples c).interp advection.fields) (fun _ => c) (seen (space := ["x".toList]) (true, true)) (fun _ => 2 * Real.pi) 0 1
      ([(ripples c).mean fieldU, (ripples c).variance fieldU, (ripples c).diffusion fieldU 0 0].map (fun r _ => r)) l :=
  (C110_tensors (ripple_experiment c) advection_covered (fun f hf p => by
    obtain rfl := List.mem_singleton.1 hf
    have e1 : ((ripples c).metricMatrix fieldU) = 1 := by
      refine Matrix.ext fun i j => ?_
      have hl : fieldU.spatial.length = 1 := by decide +kernel
      obtain rfl : i = ⟨0, by omega⟩ := Fin.ext (by omega)
      obtain rfl : j = ⟨0, by omega⟩ := Fin.ext (by omega)
      rw [Matrix.one_apply_eq]
      exact ripple_metric c fieldU
    have e2 : ((ripples c).metricMatrix fieldU).det = 1 := by rw [e1, Matrix.det_one]
    show 0 < (((ripples c).metricMatrix fieldU).det : Point plane → ℝ) p
    rw [e2]
    exact one_pos) iter hi (true, true) 0 1 zero_le_one).2

end Sympkf.PKF
