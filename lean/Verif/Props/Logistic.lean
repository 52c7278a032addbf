import Mathlib.Analysis.SpecialFunctions.Sigmoid
import Verif.Props.PkfForecast
import Verif.Props.MaximumPrinciple

/-!
# C101: a random population with a logistic growth
-/

set_option autoImplicit false

namespace Sympkf.PKF

open Text Rand Spec Smooth

/-- The logistic growth `Derivative(u, t) = u - u^2`. -/
def logistic : Pkf where
  fields := [fieldU]
  equations := [(Pkf.dt fieldU.value, .add fieldU.value (.mul (.num (-1)) (.pow fieldU.value 2)))]

/-! ## The state -/

/-- The growth with delay `c`, a solution of the equation: `1 / (1 + exp(c + sin(x) - t))`. -/
noncomputable def popGrowth (c : ℝ) : F (ℝ × ℝ) :=
  ⟨fun z => Real.sigmoid (z.1 - Real.sin z.2 - c),
    by
      show ContDiff ℝ (↑(⊤ : ℕ∞)) (fun z : ℝ × ℝ => Real.sigmoid (z.1 - Real.sin z.2 - c))
      exact (contDiff_sigmoid.of_le le_top).comp ((contDiff_fst.sub (Real.contDiff_sin.comp contDiff_snd)).sub contDiff_const)⟩

theorem popGrowth_trend (c : ℝ) : dir ((1, 0) : ℝ × ℝ) (popGrowth c) = popGrowth c - popGrowth c ^ 2 := by
  apply Smooth.ext; intro z
  rw [dir_apply]
  have h1 : HasFDerivAt (fun z : ℝ × ℝ => z.1 - Real.sin z.2 - c) (ContinuousLinearMap.fst ℝ ℝ ℝ - Real.cos z.2 • ContinuousLinearMap.snd ℝ ℝ ℝ) z :=
    (hasFDerivAt_fst.sub ((Real.hasDerivAt_sin z.2).comp_hasFDerivAt z hasFDerivAt_snd)).sub_const c
  have h2 := (Real.hasDerivAt_sigmoid (z.1 - Real.sin z.2 - c)).comp_hasFDerivAt z h1
  have h3 : ((popGrowth c : F (ℝ × ℝ)) : ℝ × ℝ → ℝ) = Real.sigmoid ∘ fun z : ℝ × ℝ => z.1 - Real.sin z.2 - c := rfl
  rw [h3, h2.fderiv]
  show Real.sigmoid _ * (1 - Real.sigmoid _) * (1 - Real.cos z.2 * 0) = Real.sigmoid _ - Real.sigmoid _ ^ 2
  ring

/-- The mean of the population and its standard deviation. -/
noncomputable def popMean : F (ℝ × ℝ) := algebraMap ℚ _ (1 / 2) * (popGrowth 0 + popGrowth 1)
noncomputable def popDev : F (ℝ × ℝ) := algebraMap ℚ _ (1 / 2) * (popGrowth 0 - popGrowth 1)

theorem half_half : algebraMap ℚ (F (ℝ × ℝ)) (1 / 2) + algebraMap ℚ (F (ℝ × ℝ)) (1 / 2) = 1 := by
  rw [← map_add, ← map_one (algebraMap ℚ (F (ℝ × ℝ)))]
  norm_num

theorem popMean_apply (z : ℝ × ℝ) : (popMean : ℝ × ℝ → ℝ) z = ((popGrowth 0 : ℝ × ℝ → ℝ) z + (popGrowth 1 : ℝ × ℝ → ℝ) z) / 2 := by
  show ((1 / 2 : ℚ) : ℝ) * (_ + _) = _
  push_cast
  ring

theorem popDev_apply (z : ℝ × ℝ) : (popDev : ℝ × ℝ → ℝ) z = ((popGrowth 0 : ℝ × ℝ → ℝ) z - (popGrowth 1 : ℝ × ℝ → ℝ) z) / 2 := by
  show ((1 / 2 : ℚ) : ℝ) * (_ - _) = _
  push_cast
  ring

theorem popGrowth_bounds (c : ℝ) (z : ℝ × ℝ) : 0 < (popGrowth c : ℝ × ℝ → ℝ) z ∧ (popGrowth c : ℝ × ℝ → ℝ) z < 1 :=
  ⟨Real.sigmoid_pos _, Real.sigmoid_lt_one _⟩

theorem popDev_pos (z : ℝ × ℝ) : 0 < (popDev : ℝ × ℝ → ℝ) z := by
  have : (popGrowth 1 : ℝ × ℝ → ℝ) z < (popGrowth 0 : ℝ × ℝ → ℝ) z := Real.sigmoid_strictMono (by linarith)
  rw [popDev_apply]
  linarith

theorem dir_sub (v : ℝ × ℝ) (f g : F (ℝ × ℝ)) : dir v (f - g) = dir v f - dir v g := by
  have := dir_add v (f - g) g
  rw [sub_add_cancel] at this
  exact eq_sub_of_add_eq this.symm

theorem popMean_trend : dir ((1, 0) : ℝ × ℝ) popMean = popMean - popMean ^ 2 - popDev ^ 2 := by
  have e : dir ((1, 0) : ℝ × ℝ) popMean = algebraMap ℚ _ (1 / 2) * ((popGrowth 0 - popGrowth 0 ^ 2) + (popGrowth 1 - popGrowth 1 ^ 2)) := by
    rw [popMean, dir_mul, dir_const, dir_add, popGrowth_trend, popGrowth_trend]
    ring
  apply Smooth.ext; intro z
  rw [e]
  show ((1 / 2 : ℚ) : ℝ) * (((popGrowth 0 : ℝ × ℝ → ℝ) z - (popGrowth 0 : ℝ × ℝ → ℝ) z ^ 2) + ((popGrowth 1 : ℝ × ℝ → ℝ) z - (popGrowth 1 : ℝ × ℝ → ℝ) z ^ 2)) =
    (popMean : ℝ × ℝ → ℝ) z - (popMean : ℝ × ℝ → ℝ) z ^ 2 - (popDev : ℝ × ℝ → ℝ) z ^ 2
  rw [popMean_apply, popDev_apply]
  push_cast
  ring

theorem popDev_trend : dir ((1, 0) : ℝ × ℝ) popDev = popDev - (popMean + popMean) * popDev := by
  have e : dir ((1, 0) : ℝ × ℝ) popDev = algebraMap ℚ _ (1 / 2) * ((popGrowth 0 - popGrowth 0 ^ 2) - (popGrowth 1 - popGrowth 1 ^ 2)) := by
    rw [popDev, dir_mul, dir_const, dir_sub, popGrowth_trend, popGrowth_trend]
    ring
  apply Smooth.ext; intro z
  rw [e]
  show ((1 / 2 : ℚ) : ℝ) * (((popGrowth 0 : ℝ × ℝ → ℝ) z - (popGrowth 0 : ℝ × ℝ → ℝ) z ^ 2) - ((popGrowth 1 : ℝ × ℝ → ℝ) z - (popGrowth 1 : ℝ × ℝ → ℝ) z ^ 2)) =
    (popDev : ℝ × ℝ → ℝ) z - ((popMean : ℝ × ℝ → ℝ) z + (popMean : ℝ × ℝ → ℝ) z) * (popDev : ℝ × ℝ → ℝ) z
  rw [popMean_apply, popDev_apply]
  push_cast
  ring

theorem popDev_power : power (popDev ^ 2) (1 / 2) = popDev := by
  apply Smooth.ext; intro z
  have hp : ∀ z, 0 < ((popDev ^ 2 : F (ℝ × ℝ)) : ℝ × ℝ → ℝ) z := fun z => pow_pos (popDev_pos z) 2
  rw [power_pos _ hp]
  show ((popDev : ℝ × ℝ → ℝ) z ^ 2) ^ (((1 / 2 : ℚ)) : ℝ) = _
  rw [← Real.rpow_natCast, ← Real.rpow_mul (popDev_pos z).le]
  norm_num

/-- A function of `x` alone. -/
def lift (g : F ℝ) : F (ℝ × ℝ) := ⟨fun z => (g : ℝ → ℝ) z.2, (contDiff g).comp contDiff_snd⟩

theorem dir_lift (v z : ℝ × ℝ) (g : F ℝ) : (dir v (lift g) : ℝ × ℝ → ℝ) z = fderiv ℝ (g : ℝ → ℝ) z.2 v.2 := by
  rw [dir_apply]
  have h2 := (differentiable g z.2).hasFDerivAt.comp z (hasFDerivAt_snd (𝕜 := ℝ) (p := z))
  have h3 : ((lift g : F (ℝ × ℝ)) : ℝ × ℝ → ℝ) = (g : ℝ → ℝ) ∘ Prod.snd := rfl
  rw [h3, h2.fderiv]
  rfl

theorem dir_lift_t (g : F ℝ) : dir ((1, 0) : ℝ × ℝ) (lift g) = 0 := by
  apply Smooth.ext; intro z
  rw [dir_lift]
  exact map_zero _

theorem dir_lift_x (g : F ℝ) : dir ((0, 1) : ℝ × ℝ) (lift g) = lift (dir 1 g) := by
  apply Smooth.ext; intro z
  rw [dir_lift]
  rfl

/-- The normalised error. -/
noncomputable def popEps (ω : Bool × Bool) : F (ℝ × ℝ) := lift (epsF ω)

/-- The functions of the state. -/
noncomputable def popFn (u : Str) (args : List Str) : Bool × Bool → F (ℝ × ℝ) :=
  if "t".toList ∈ args ∧ "x".toList ∈ args then
    if positiveFn (.fn u args) = true then fun _ =>
      if u = "{V_{u}}".toList then popDev ^ 2 else if u = "{\\sigma_{u}}".toList then popDev else 1
    else if omega ∈ args then
      if u = "u".toList then fun ω => popMean + popEps ω * popDev
      else if u = "{e_{u}}".toList then fun ω => popEps ω * popDev
      else popEps
    else if u = "u".toList then fun _ => popMean
    else if "{\\nu_{".toList.isPrefixOf u = true then algebraMap ℚ _ (1 / 2)
    else 1
  else 1

/-- The random population. -/
noncomputable def pop : Interp (Bool × Bool → F (ℝ × ℝ)) :=
  interp (fun _ => algebraMap ℚ (F (ℝ × ℝ)) (1 / 4)) dirs (fun s _ => coordF s) popFn elementary

theorem pop_stochastic : Stochastic pop Smooth.det := by
  apply stochastic
  · rw [Finset.sum_const, Finset.card_univ]
    simp only [Fintype.card_prod, Fintype.card_bool]
    rw [← map_nsmul, show (2 * 2) • (1 / 4 : ℚ) = 1 by norm_num, map_one]
  · intro v ω; exact dir_const v _
  · intro s _ ω ω'; rfl
  · intro u args h ω ω'
    unfold popFn
    rw [if_neg h]
    split_ifs <;> rfl

theorem pop_calculus : Calculus pop posSet coordSet where
  omega_notMem := travel_calculus.omega_notMem
  D_sym := travel_calculus.D_sym
  D_fn x hx u args h := by
    have : popFn u args = 1 := by
      unfold popFn
      rw [if_neg]
      rintro ⟨h1, h2⟩
      rcases hx with rfl | rfl
      · exact h h1
      · exact h h2
    funext ω
    show dir (dirs x) (popFn u args ω) = 0
    rw [this]
    have := dir_const (dirs x) 1
    rwa [map_one] at this
  pw_add := travel_calculus.pw_add
  pw_mul := travel_calculus.pw_mul
  D_pw := travel_calculus.D_pw
  positive u args h := by
    intro ω p
    show 0 < (popFn u args ω : ℝ × ℝ → ℝ) p
    unfold popFn
    rw [if_pos h]
    split
    · split
      · exact pow_pos (popDev_pos p) 2
      · split
        · exact popDev_pos p
        · exact one_pos
    · exact one_pos
  zero_notMem := travel_calculus.zero_notMem
  D_exp := travel_calculus.D_exp
  D_sin := travel_calculus.D_sin
  D_cos := travel_calculus.D_cos
  D_sinh := travel_calculus.D_sinh
  D_cosh := travel_calculus.D_cosh
  D_tanh := travel_calculus.D_tanh
  D_tan := travel_calculus.D_tan
  D_log := travel_calculus.D_log
  D_atan := travel_calculus.D_atan

theorem pop_E_lift (r : Bool × Bool → F ℝ) : pop.E (fun ω => lift (r ω)) = fun ω => lift (waves.E r ω) := by
  funext ω
  rw [waves_E]
  simp only [pop, interp, Fintype.sum_prod_type, Fintype.sum_bool]
  apply Smooth.ext; intro z
  show (((1 / 4 : ℚ) : ℝ) * _ + ((1 / 4 : ℚ) : ℝ) * _) + (((1 / 4 : ℚ) : ℝ) * _ + ((1 / 4 : ℚ) : ℝ) * _) = ((1 / 4 : ℚ) : ℝ) * (_ + _ + _ + _)
  show (((1 / 4 : ℚ) : ℝ) * (r (true, true) : ℝ → ℝ) z.2 + ((1 / 4 : ℚ) : ℝ) * (r (true, false) : ℝ → ℝ) z.2) +
    (((1 / 4 : ℚ) : ℝ) * (r (false, true) : ℝ → ℝ) z.2 + ((1 / 4 : ℚ) : ℝ) * (r (false, false) : ℝ → ℝ) z.2) =
    ((1 / 4 : ℚ) : ℝ) * ((r (true, true) : ℝ → ℝ) z.2 + (r (true, false) : ℝ → ℝ) z.2 + (r (false, true) : ℝ → ℝ) z.2 + (r (false, false) : ℝ → ℝ) z.2)
  ring

theorem pop_epsilon : den pop fieldU.epsilon = popEps := by
  simp only [Field.epsilon, den, pop, interp]
  unfold popFn
  rw [if_pos (by decide +kernel), if_neg (by decide +kernel), if_pos (by decide +kernel), if_neg (by decide +kernel), if_neg (by decide +kernel)]

theorem pop_error : den pop fieldU.error = fun ω => popEps ω * popDev := by
  simp only [Field.error, den, pop, interp]
  unfold popFn
  rw [if_pos (by decide +kernel), if_neg (by decide +kernel), if_pos (by decide +kernel), if_neg (by decide +kernel), if_pos (by decide +kernel)]

theorem pop_random : den pop fieldU.random = fun ω => popMean + popEps ω * popDev := by
  simp only [Field.random, den, pop, interp]
  unfold popFn
  rw [if_pos (by decide +kernel), if_neg (by decide +kernel), if_pos (by decide +kernel), if_pos (by decide +kernel)]

theorem pop_value : den pop fieldU.value = fun _ => popMean := by
  simp only [Field.value, den, pop, interp]
  unfold popFn
  rw [if_pos (by decide +kernel), if_neg (by decide +kernel), if_neg (by decide +kernel), if_pos (by decide +kernel)]

theorem pop_variance : den pop fieldU.variance = fun _ => popDev ^ 2 := by
  simp only [Field.variance, den, pop, interp]
  unfold popFn
  rw [if_pos (by decide +kernel), if_pos (by decide +kernel), if_pos (by decide +kernel)]

theorem pop_metric : den pop (fieldU.metric 0 0) = 1 := by
  simp only [Field.metric, den, pop, interp]
  unfold popFn
  rw [if_pos (by decide +kernel), if_neg (by decide +kernel), if_neg (by decide +kernel), if_neg (by decide +kernel), if_neg (by decide +kernel)]

theorem pop_centred : pop.E popEps = 0 := by
  have := waves_normalised.centred
  rw [waves_eps fieldU (.inl rfl)] at this
  show pop.E (fun ω => lift (epsF ω)) = 0
  rw [pop_E_lift, this]
  rfl

theorem pop_normed : pop.E (popEps ^ 2) = 1 := by
  have := waves_normalised.normed
  rw [waves_eps fieldU (.inl rfl)] at this
  have e : popEps ^ 2 = fun ω => lift ((epsF ^ 2) ω) := by
    funext ω
    apply Smooth.ext; intro z
    rfl
  rw [e, pop_E_lift, this]
  rfl

theorem pop_normalised : Normalised pop fieldU where
  centred := by rw [pop_epsilon, pop_centred]
  normed := by rw [pop_epsilon, pop_normed]
  sqrt_sq := by
    rw [pop_variance]
    funext ω
    show power (popDev ^ 2) (1 / 2) ^ 2 = _
    rw [popDev_power]
  sqrt_inv := by
    rw [pop_variance]
    have hp : (fun _ => popDev ^ 2 : Bool × Bool → F (ℝ × ℝ)) ∈ posSet := fun _ z => pow_pos (popDev_pos z) 2
    rw [← pop_calculus.pw_add _ hp]
    have := pop_stochastic.pw_nat (fun _ => popDev ^ 2) 0
    rw [pow_zero] at this
    rw [← this]
    norm_num
  error := by
    rw [pop_error, pop_epsilon, pop_variance]
    funext ω
    show _ = popEps ω * power (popDev ^ 2) (1 / 2)
    rw [popDev_power]
  metric := by
    intro i j hij hj
    have hl : fieldU.spatial = ["x".toList] := by decide +kernel
    rw [hl] at hj ⊢
    have hj0 : j = 0 := by simpa using hj
    have hi0 : i = 0 := by omega
    subst hj0 hi0
    have h := waves_normalised.metric 0 0 le_rfl (by rw [hl]; simp)
    rw [hl, waves_eps fieldU (.inl rfl), waves_metric fieldU (.inl rfl)] at h
    rw [pop_metric, pop_epsilon]
    have e : pop.D "x".toList popEps * pop.D "x".toList popEps = fun ω => lift ((waves.D "x".toList epsF * waves.D "x".toList epsF) ω) := by
      have e1 : pop.D "x".toList popEps = fun ω => lift (waves.D "x".toList epsF ω) := by
        funext ω
        show dir (dirs "x".toList) (lift (epsF ω)) = lift (dir (if "x".toList = "x".toList then 1 else 0) (epsF ω))
        have e2 : dirs "x".toList = (0, 1) := by unfold dirs; rw [if_neg (by decide), if_pos rfl]
        rw [if_pos rfl, e2, dir_lift_x]
      rw [e1]
      rfl
    show 1 = pop.E (pop.D "x".toList popEps * pop.D "x".toList popEps)
    rw [e, pop_E_lift]
    have h' : 1 = waves.E (waves.D "x".toList epsF * waves.D "x".toList epsF) := h
    rw [← h']
    rfl

theorem pop_mean : pop.E (den pop fieldU.random) = fun _ => popMean := by
  have e : den pop fieldU.random = (fun _ => popMean) + (fun _ => popDev) * popEps := by
    rw [pop_random]
    funext ω
    show popMean + popEps ω * popDev = popMean + popDev * popEps ω
    rw [mul_comm]
  rw [e, pop_stochastic.E_add, pop_stochastic.E_mul _ _ (fun _ _ => rfl), pop_centred, mul_zero, add_zero]
  exact pop_stochastic.E_const _ (fun _ _ => rfl)

theorem logistic_mem (f : Field) (h : f ∈ logistic.fields) : f = fieldU := by simpa [logistic] using h

theorem logistic_setting : Setting pop Smooth.det posSet coordSet logistic ["t".toList, "x".toList] where
  stoch := pop_stochastic
  calculus := pop_calculus
  order := fun _ _ => List.Perm.refl _
  arrange := fun _ => List.Perm.refl _
  same := by decide +kernel
  nodup := by decide +kernel
  sub := by
    intro x hx
    simpa [coordSet] using hx
  time_mem := .inl rfl
  space := by decide +kernel
  names := by decide +kernel
  normal := by
    intro f hf
    rw [logistic_mem f hf]
    exact pop_normalised
  cov := by
    intro f g hs
    have := hs.length_le
    simp [logistic] at this

theorem logistic_dynamics : Dynamics pop posSet coordSet logistic where
  eps := eps_notMem
  lhs := rfl
  rhs := by
    intro q hq
    simp only [logistic, List.mem_cons, List.not_mem_nil, or_false] at hq
    subst hq
    have hv : Expandable pop posSet coordSet logistic.fields fieldU.value := ⟨by decide +kernel, by decide +kernel⟩
    exact ⟨hv, trivial, hv, .inl (by decide +kernel)⟩

/-- The Taylor expansion of the right-hand side. -/
theorem logistic_jet : den (perturbed pop logistic.fields) (.add fieldU.value (.mul (.num (-1)) (.pow fieldU.value 2))) =
    ⟨(fun _ => popMean) - (fun _ => popMean) * (fun _ => popMean), den pop fieldU.error - ((fun _ => popMean) * den pop fieldU.error +
      den pop fieldU.error * (fun _ => popMean)), - (den pop fieldU.error * den pop fieldU.error)⟩ := by
  have hj : den (perturbed pop logistic.fields) fieldU.value = ⟨fun _ => popMean, den pop fieldU.error, 0⟩ := by
    have e0 : den (perturbed pop logistic.fields) fieldU.value = if (⟨fieldU.name, fieldU.coordinates⟩ : Field) ∈ logistic.fields then
        ⟨pop.E (den pop fieldU.random), den pop fieldU.error, 0⟩ else .const (pop.fn fieldU.name fieldU.coordinates) := rfl
    rw [e0, if_pos (by decide +kernel)]
    exact congrArg (fun r => (⟨r, den pop fieldU.error, 0⟩ : Jet _)) pop_mean
  have e : den (perturbed pop logistic.fields) (.add fieldU.value (.mul (.num (-1)) (.pow fieldU.value 2))) =
      den (perturbed pop logistic.fields) fieldU.value + algebraMap ℚ _ (-1) * Jet.pw pop (den (perturbed pop logistic.fields) fieldU.value) 2 := rfl
  have e2 : ∀ j : Jet (Bool × Bool → F (ℝ × ℝ)), Jet.pw pop j 2 = j * j := fun j => by
    unfold Jet.pw
    rw [if_pos (by decide +kernel)]
    exact pow_two j
  generalize den pop fieldU.error = d at hj ⊢
  rw [e, e2, hj, map_neg, map_one]
  have e3 : ∀ j : Jet (Bool × Bool → F (ℝ × ℝ)), -1 * j = -j := fun j => neg_one_mul j
  rw [e3]
  ext1 <;> simp [sub_eq_add_neg]

theorem pop_time (r : Bool × Bool → F (ℝ × ℝ)) : pop.D time r = fun ω => dir ((1, 0) : ℝ × ℝ) (r ω) := by
  have e : dirs "t".toList = (1, 0) := by unfold dirs; rw [if_pos rfl]
  funext ω
  show dir (dirs "t".toList) (r ω) = _
  rw [e]

theorem logistic_tangent : Tangent pop logistic := by
  intro fq hfq
  have : fq = (fieldU, (Pkf.dt fieldU.value, .add fieldU.value (.mul (.num (-1)) (.pow fieldU.value 2)))) := by
    simpa [logistic] using hfq
  subst this
  rw [logistic_jet, pop_error, pop_time]
  funext ω
  show dir ((1, 0) : ℝ × ℝ) (popEps ω * popDev) = popEps ω * popDev - (popMean * (popEps ω * popDev) + popEps ω * popDev * popMean)
  rw [dir_mul, popEps, dir_lift_t, popDev_trend]
  ring

theorem logistic_meanTrend : MeanTrend pop logistic := by
  intro fq hfq
  have : fq = (fieldU, (Pkf.dt fieldU.value, .add fieldU.value (.mul (.num (-1)) (.pow fieldU.value 2)))) := by
    simpa [logistic] using hfq
  subst this
  rw [logistic_jet, pop_time, pop_mean]
  have hc : pop.E (den pop fieldU.error) = 0 := by
    have e : den pop fieldU.error = (fun _ => popDev) * popEps := by
      rw [pop_error]
      funext ω
      exact mul_comm _ _
    rw [e, pop_stochastic.E_mul _ _ (fun _ _ => rfl), pop_centred, mul_zero]
  have hv : pop.E (den pop fieldU.error * den pop fieldU.error) = fun _ => popDev ^ 2 := by
    have e : den pop fieldU.error * den pop fieldU.error = (fun _ => popDev ^ 2) * popEps ^ 2 := by
      rw [pop_error]
      funext ω
      show popEps ω * popDev * (popEps ω * popDev) = popDev ^ 2 * popEps ω ^ 2
      ring
    rw [e, pop_stochastic.E_mul _ _ (fun _ _ => rfl), pop_normed, mul_one]
  generalize den pop fieldU.error = e at hc hv ⊢
  have e1 : Jet.second (⟨(fun _ => popMean) - (fun _ => popMean) * (fun _ => popMean), e - ((fun _ => popMean) * e + e * (fun _ => popMean)), - (e * e)⟩ :
      Jet (Bool × Bool → F (ℝ × ℝ))) = ((fun _ => popMean) - (fun _ => popMean) * (fun _ => popMean)) +
        (((1 : Bool × Bool → F (ℝ × ℝ)) - (fun _ => popMean) - (fun _ => popMean)) * e + (-1 : Bool × Bool → F (ℝ × ℝ)) * (e * e)) := by
    unfold Jet.second
    ring
  rw [e1, pop_stochastic.E_add, pop_stochastic.E_add, pop_stochastic.E_mul _ _ (fun _ _ => rfl), pop_stochastic.E_mul _ _ (fun _ _ => rfl), hc, hv,
    pop_stochastic.E_const _ (fun _ _ => rfl)]
  funext ω
  show dir ((1, 0) : ℝ × ℝ) popMean = popMean - popMean * popMean + ((1 - popMean - popMean) * 0 + -1 * popDev ^ 2)
  rw [popMean_trend]
  show popMean - popMean ^ 2 - popDev ^ 2 = popMean - popMean * popMean + ((1 - popMean - popMean) * 0 + -1 * popDev ^ 2)
  ring

theorem logistic_means : Means pop logistic := by
  intro f hf
  rw [logistic_mem f hf, pop_value, pop_mean]

/-! ## The generated model -/

theorem logistic_evolution : EvolutionSystem logistic ["t".toList, "x".toList] where
  det := logistic_setting.detSystem logistic_dynamics
  time_mem := by decide +kernel
  evolution := by
    refine ⟨rfl, fun q hq => ?_⟩
    simp only [logistic, List.mem_cons, List.not_mem_nil, or_false] at hq
    subst hq
    simp [TimeFree, Field.value]
  codes := by decide +kernel
  clash := by decide +kernel

theorem logistic_parameter : ParameterFree logistic := by
  intro q hq
  simp only [logistic, List.mem_cons, List.not_mem_nil, or_false] at hq
  subst hq
  have : Pkf.epsSym ∉ fieldU.coordinates := by decide +kernel
  exact ⟨this, trivial, this⟩

theorem logistic_generates : Generates logistic ["t".toList, "x".toList] [] where
  fields := by simp [logistic]
  first := rfl
  equations := by
    intro q hq
    simp only [logistic, List.mem_cons, List.not_mem_nil, or_false] at hq
    subst hq
    simp [Codable, Field.value, fieldU]
  values := by simp

theorem logistic_closed : logistic.unclosedTerms [] = .ok [] := eq_ok _ _ (by decide +kernel)

theorem logistic_given (u : Str) (args : List Str) (h : Given logistic [] u args) : args = ["t".toList, "x".toList] := by
  rcases h with ⟨q, hq, hw⟩ | ⟨kv, hkv, hw⟩
  · simp only [logistic, List.mem_cons, List.not_mem_nil, or_false] at hq
    subst hq
    have hv : ∀ e, Within e fieldU.value → e = fieldU.value := fun e h => by cases h; rfl
    have : Ex.fn u args = fieldU.value := by
      cases hw with
      | addL hw => exact hv _ hw
      | addR hw =>
        cases hw with
        | mulL hw => cases hw
        | mulR hw =>
          cases hw with
          | pow hw => exact hv _ hw
    cases this
    rfl
  · simp at hkv

/-- The population at the time `τ`, in one of the events. -/
theorem pop_observation (τ : ℝ) :
    Observation pop posSet ["x".toList] (Function.update (fun _ => 1) time τ) (atTime τ) where
  sym s hs := by
    refine ((atTime_observation τ).sym s hs).trans ?_
    funext _
    by_cases h : s = time
    · subst h
      rw [Function.update_self]
      rfl
    · rw [Function.update_of_ne h]
      exact if_neg h
  partials := (atTime_observation τ).partials
  positive := (atTime_observation τ).positive
  power := (atTime_observation τ).power

/-- The functions of the state are smooth, and periodic in space. -/
theorem popFn_periodic (u : Str) (args : List Str) (h : omega ∉ args) :
    ∃ g : F (ℝ × ℝ), (∀ t x, (g : ℝ × ℝ → ℝ) (t, x + 2 * Real.pi) = (g : ℝ × ℝ → ℝ) (t, x)) ∧ popFn u args = fun _ => g := by
  have hg : ∀ c t x, (popGrowth c : ℝ × ℝ → ℝ) (t, x + 2 * Real.pi) = (popGrowth c : ℝ × ℝ → ℝ) (t, x) := fun c t x => by
    show Real.sigmoid (t - Real.sin (x + 2 * Real.pi) - c) = Real.sigmoid (t - Real.sin x - c)
    rw [Real.sin_add_two_pi]
  have hm : ∀ t x, (popMean : ℝ × ℝ → ℝ) (t, x + 2 * Real.pi) = (popMean : ℝ × ℝ → ℝ) (t, x) := fun t x => by
    rw [popMean_apply, popMean_apply, hg, hg]
  have hd : ∀ t x, (popDev : ℝ × ℝ → ℝ) (t, x + 2 * Real.pi) = (popDev : ℝ × ℝ → ℝ) (t, x) := fun t x => by
    rw [popDev_apply, popDev_apply, hg, hg]
  unfold popFn
  rw [if_neg h]
  split_ifs
  · refine ⟨_, fun t x => ?_, rfl⟩
    show (popDev : ℝ × ℝ → ℝ) (t, x + 2 * Real.pi) ^ 2 = (popDev : ℝ × ℝ → ℝ) (t, x) ^ 2
    rw [hd]
  · exact ⟨_, hd, rfl⟩
  · exact ⟨1, fun _ _ => rfl, rfl⟩
  · exact ⟨_, hm, rfl⟩
  · exact ⟨algebraMap ℚ _ (1 / 2), fun _ _ => rfl, rfl⟩
  · exact ⟨1, fun _ _ => rfl, rfl⟩
  · exact ⟨1, fun _ _ => rfl, rfl⟩

theorem pop_smooth (u : Str) (args : List Str) (h : omega ∉ args) : Spec.PDE.SmoothFamily (fun τ => atTime τ (pop.fn u args)) ∧
    ∀ τ, Spec.PDE.Periodic (fun _ => 2 * Real.pi) (atTime τ (pop.fn u args)) := by
  obtain ⟨g, hg, e⟩ := popFn_periodic u args h
  have e' : ∀ τ, atTime τ (pop.fn u args) = fun p => (g : ℝ × ℝ → ℝ) (τ, p 0) := by
    intro τ
    show atTime τ (popFn u args) = _
    rw [e]
    rfl
  constructor
  · unfold Spec.PDE.SmoothFamily
    simp only [e']
    exact (contDiff g).comp (contDiff_fst.prodMk ((contDiff_apply ℝ ℝ (0 : Fin ["x".toList].length)).comp contDiff_snd))
  · intro τ i p
    rw [e']
    obtain rfl : i = 0 := by
      ext
      have := i.2
      simp only [List.length_cons, List.length_nil] at this
      show i.1 = 0
      omega
    simp only [Pi.add_apply, Pi.single_eq_same]
    exact hg _ _

theorem logistic_filmed : Filmed pop posSet coordSet logistic [] Field.metric ["x".toList] (fun _ => 1) atTime (fun _ => 2 * Real.pi) := by
  have hargs : ∀ u args, .fn u args ∈ logistic.fields.map Field.value ++ logistic.fields.map Field.variance ++
      crossCovariances (time :: ["x".toList]) logistic.fields ++ tensorComponents logistic.fields Field.metric ∨ Given logistic [] u args →
      omega ∉ args := by
    intro u args h
    have : args = ["t".toList, "x".toList] := by
      rcases h with h | h
      · obtain ⟨u', e⟩ := functions_coords logistic_evolution Field.metric (fun _ _ _ => ⟨_, rfl⟩) _ h
        cases e
        rfl
      · exact logistic_given u args h
    rw [this]
    decide +kernel
  refine ⟨fun τ => ⟨pop_observation τ, ?_, fun _ => Real.two_pi_pos, ?_, fun u args h => ?_⟩, fun r τ p => ?_, fun u args h => (pop_smooth u args (hargs u args h)).1⟩
  · rintro x (rfl | rfl)
    · exact List.mem_cons_self
    · exact List.mem_cons_of_mem _ List.mem_cons_self
  · intro u args h
    rw [logistic_given u args h]
    decide +kernel
  · refine ⟨?_, (pop_smooth u args (hargs u args h)).2 τ⟩
    have := (pop_smooth u args (hargs u args h)).1
    exact this.comp (contDiff_const.prodMk contDiff_id)
  · rw [pop_time]
    show HasDerivAt (fun s => (r (true, true) : ℝ × ℝ → ℝ) (s, p 0)) ((dir ((1, 0) : ℝ × ℝ) (r (true, true)) : ℝ × ℝ → ℝ) (τ, p 0)) τ
    rw [dir_apply]
    have h1 : HasDerivAt (fun s : ℝ => (s, p 0)) ((1 : ℝ), (0 : ℝ)) τ := (hasDerivAt_id _).prodMk (hasDerivAt_const _ _)
    exact (differentiable (r (true, true)) (τ, p 0)).hasFDerivAt.comp_hasDerivAt τ h1

/-! ## The forecasts -/

/-- The equations of the mean, the variance and the metric. -/
def logisticEquations : List PDE.Equation :=
  let u := PDE.Sy.fn "u".toList ["t".toList, "x".toList]
  let v := PDE.Sy.fn "{V_{u}}".toList ["t".toList, "x".toList]
  let g := PDE.Sy.fn "{g_{u,xx}}".toList ["t".toList, "x".toList]
  [⟨.deriv u [("t".toList, 1)], .add u (.add (.mul (.num (-1)) (.pow u (.num 2))) (.mul (.num (-1)) v))⟩,
    ⟨.deriv v [("t".toList, 1)], .add (.mul (.num (-4)) (.mul u v)) (.mul (.num 2) v)⟩,
    ⟨.deriv g [("t".toList, 1)], .num 0⟩]

theorem logistic_equations : ∃ l, logistic.inMetric [] = .ok l ∧ PDE.ofEqns l = some logisticEquations := by
  have h : (match logistic.inMetric [] with | .ok l => decide (PDE.ofEqns l = some logisticEquations) | .error _ => false) = true := by
    decide +kernel
  revert h
  cases logistic.inMetric [] with
  | error e => simp
  | ok l => exact fun h => ⟨l, rfl, of_decide_eq_true h⟩

/-- The right-hand sides, as a vector field. -/
noncomputable def logisticField (U : Fin 3 → PDE.Arr 1 ℝ) : Fin 3 → PDE.Arr 1 ℝ :=
  ![fun idx => U 0 idx - U 0 idx ^ 2 - U 1 idx, fun idx => 2 * U 1 idx - 4 * (U 0 idx * U 1 idx), fun _ => 0]

/-- The true mean, variance and metric on the grid of `n` points, at the time `τ`. -/
noncomputable def logisticTruth (n : ℕ) (τ : ℝ) : Fin 3 → PDE.Arr 1 ℝ :=
  ![fun idx => (popMean : ℝ × ℝ → ℝ) (τ, idx 0 * (2 * Real.pi / n)), fun idx => (popDev : ℝ × ℝ → ℝ) (τ, idx 0 * (2 * Real.pi / n)) ^ 2, fun _ => 1]

/-- Euler's method is stable along the truth, whatever the grid. -/
theorem logistic_stable (n : ℕ) (t dt : ℝ) (hdt : 0 ≤ dt) :
    Spec.PDE.StableAt (fun _ : Fin 1 => n) logisticField (logisticTruth n t) dt 14 1 := by
  intro U e he hUV k idx hidx
  have h0 := hUV 0 idx hidx
  have h1 := hUV 1 idx hidx
  have h2 := hUV 2 idx hidx
  have b0 : 0 ≤ logisticTruth n t 0 idx ∧ logisticTruth n t 0 idx ≤ 1 := by
    show 0 ≤ (popMean : ℝ × ℝ → ℝ) _ ∧ (popMean : ℝ × ℝ → ℝ) _ ≤ 1
    rw [popMean_apply]
    have k0 := popGrowth_bounds 0 (t, idx 0 * (2 * Real.pi / n))
    have k1 := popGrowth_bounds 1 (t, idx 0 * (2 * Real.pi / n))
    constructor <;> linarith [k0.1, k0.2, k1.1, k1.2]
  have b1 : 0 ≤ logisticTruth n t 1 idx ∧ logisticTruth n t 1 idx ≤ 1 := by
    show 0 ≤ (popDev : ℝ × ℝ → ℝ) _ ^ 2 ∧ (popDev : ℝ × ℝ → ℝ) _ ^ 2 ≤ 1
    refine ⟨sq_nonneg _, ?_⟩
    have k2 := popDev_pos (t, idx 0 * (2 * Real.pi / n))
    have k3 : (popDev : ℝ × ℝ → ℝ) (t, idx 0 * (2 * Real.pi / n)) ≤ 1 := by
      rw [popDev_apply]
      have k0 := popGrowth_bounds 0 (t, idx 0 * (2 * Real.pi / n))
      have k1 := popGrowth_bounds 1 (t, idx 0 * (2 * Real.pi / n))
      linarith [k0.1, k0.2, k1.1, k1.2]
    nlinarith
  have he0 : 0 ≤ e := (abs_nonneg _).trans h0
  generalize logisticTruth n t = V at *
  have hm0 : |U 0 idx - V 0 idx| ≤ e := h0
  have hm1 : |U 1 idx - V 1 idx| ≤ e := h1
  have hm2 : |U 2 idx - V 2 idx| ≤ e := h2
  have key : ∀ d f g : ℝ, |d| ≤ e → |f - g| ≤ 14 * e → |(d + dt * f) - dt * g| ≤ (1 + 14 * dt) * e := by
    intro d f g hd hfg
    have e1 : (d + dt * f) - dt * g = d + dt * (f - g) := by ring
    rw [e1]
    refine (abs_add_le _ _).trans ?_
    rw [abs_mul, abs_of_nonneg hdt]
    nlinarith [mul_le_mul_of_nonneg_left hfg hdt]
  have fin : ∀ (a b f g : ℝ), |a - b| ≤ e → |f - g| ≤ 14 * e → |(a + dt * f) - (b + dt * g)| ≤ (1 + 14 * dt) * e := by
    intro a b f g h1 h2
    have := key (a - b) f g h1 h2
    rwa [show (a + dt * f) - (b + dt * g) = (a - b + dt * f) - dt * g by ring]
  have hk : k = 0 ∨ k = 1 ∨ k = 2 := by fin_cases k <;> simp
  rcases hk with rfl | rfl | rfl
  · refine fin _ _ _ _ hm0 ?_
    show |(U 0 idx - U 0 idx ^ 2 - U 1 idx) - (V 0 idx - V 0 idx ^ 2 - V 1 idx)| ≤ 14 * e
    rw [abs_le] at hm0 hm1 ⊢
    have e1 : U 0 idx - U 0 idx ^ 2 - U 1 idx - (V 0 idx - V 0 idx ^ 2 - V 1 idx) =
        (U 0 idx - V 0 idx) * (1 - (U 0 idx - V 0 idx) - 2 * V 0 idx) - (U 1 idx - V 1 idx) := by ring
    rw [e1]
    generalize U 0 idx - V 0 idx = p at hm0 ⊢
    generalize U 1 idx - V 1 idx = q at hm1 ⊢
    have hp : |p * (1 - p - 2 * V 0 idx)| ≤ e * 3 := by
      rw [abs_mul]
      refine mul_le_mul (abs_le.2 hm0) ?_ (abs_nonneg _) he0
      rw [abs_le]
      constructor <;> linarith [hm0.1, hm0.2, b0.1, b0.2]
    rw [abs_le] at hp
    constructor <;> linarith [hp.1, hp.2, hm1.1, hm1.2]
  · refine fin _ _ _ _ hm1 ?_
    show |(2 * U 1 idx - 4 * (U 0 idx * U 1 idx)) - (2 * V 1 idx - 4 * (V 0 idx * V 1 idx))| ≤ 14 * e
    rw [abs_le] at hm0 hm1
    have e1 : (2 * U 1 idx - 4 * (U 0 idx * U 1 idx)) - (2 * V 1 idx - 4 * (V 0 idx * V 1 idx)) =
        (U 1 idx - V 1 idx) * (2 - 4 * V 0 idx - 4 * (U 0 idx - V 0 idx)) - (U 0 idx - V 0 idx) * (4 * V 1 idx) := by ring
    rw [e1]
    generalize U 0 idx - V 0 idx = p at hm0 ⊢
    generalize U 1 idx - V 1 idx = q at hm1 ⊢
    have hp : |q * (2 - 4 * V 0 idx - 4 * p)| ≤ e * 6 := by
      rw [abs_mul]
      refine mul_le_mul (abs_le.2 hm1) ?_ (abs_nonneg _) he0
      rw [abs_le]
      constructor <;> linarith [hm0.1, hm0.2, b0.1, b0.2]
    have hq : |p * (4 * V 1 idx)| ≤ e * 4 := by
      rw [abs_mul]
      refine mul_le_mul (abs_le.2 hm0) ?_ (abs_nonneg _) he0
      rw [abs_le]
      constructor <;> linarith [b1.1, b1.2]
    refine (abs_sub _ _).trans ?_
    linarith
  · refine fin _ _ _ _ hm2 ?_
    show |(0 : ℝ) - 0| ≤ 14 * e
    rw [sub_zero, abs_zero]
    positivity

/-- **C101** The growth of a random population: the forecasts with the model that is generated for the logistic equation `u_t = u - u²`
converge to the true mean and the true variance of the population, on every bounded interval of time and with no condition between the steps.
(The population is `m + eps s`, where `m` and `s` are half the sum and half the difference of two solutions of the equation, and `eps` is a
normalised error with the metric `1`.) -/
theorem C101_logistic (iter : List PDE.Sy → List PDE.Sy) (hi : ∀ l, (iter l).Perm l) :
    ∃ l s, logistic.inMetric [] = .ok l ∧ PDE.ofEqns l = some logisticEquations ∧ PDE.System.build iter logisticEquations = .ok s ∧
      (∀ n O, Spec.PDE.Implements s (PDE.fdArith ["x".toList] (fun _ => n) (fun _ => 2 * Real.pi / n)) (fun _ => O) (fun _ => logisticField)) ∧
      ∀ a b : ℝ, a ≤ b → ∃ c δ : ℝ, 0 < δ ∧ ∀ n : ℕ, 0 < n → 2 * Real.pi / n ≤ δ →
        ∀ η window, 0 ≤ η → η ≤ δ → Spec.Partition a b η window →
        ∀ U0 e0, 0 ≤ e0 → e0 ≤ δ → Spec.PDE.Within (fun _ => n) e0 U0 (logisticTruth n a) → ∀ saved,
        ∃ fc, Integrator.forecast (Integrator.step .euler (.fn fun _ => logisticField)) window (.single U0) (.list saved) = .ok fc ∧
          ∀ τ ∈ window, τ ∈ saved → ∃ U, fc.get? τ = some (.single U) ∧
            Spec.PDE.Within (fun _ => n) (c * (η + (2 * Real.pi / n) ^ 2 + e0)) U (logisticTruth n τ) := by
  obtain ⟨s, h1, h2, h3, h4, h5, h6, h7⟩ := Dynamics.system_order logisticEquations _ rfl (by decide +kernel) (by decide +kernel) (by decide +kernel) iter hi
  obtain ⟨l, hl, hl'⟩ := logistic_equations
  have himp : ∀ n O, Spec.PDE.Implements s (PDE.fdArith ["x".toList] (fun _ => n) (fun _ => 2 * Real.pi / n)) (fun _ => O) (fun _ => logisticField) := by
    intro n O t U
    obtain ⟨m, hm, hout, -⟩ := Props.C64_trend_partial iter hi _ s h1 h6 h7 (PDE.fdArith ["x".toList] (fun _ => n) (fun _ => 2 * Real.pi / n)) O
      (fun _ => t) (List.ofFn U) ⟨fun f => if f = .fn "u".toList ["t".toList, "x".toList] then U 0 else
        if f = .fn "{V_{u}}".toList ["t".toList, "x".toList] then U 1 else U 2, fun _ _ => t⟩
      (by
        rw [h2]
        rfl) rfl
      (by
        intro f hf
        have := h3.mem_iff.1 hf
        cases this)
      (by
        intro z hz
        have := h4.mem_iff.1 hz
        cases this) (.inl h5)
    refine ⟨m, hm, hout.trans ?_⟩
    have e : List.ofFn (logisticField U) = [logisticField U 0, logisticField U 1, logisticField U 2] := rfl
    rw [e]
    simp only [logisticEquations, List.map_cons, List.map_nil, Spec.PDE.rhsValue, List.cons.injEq, and_true]
    refine ⟨?_, ?_, ?_⟩ <;> funext idx
    · show U 0 idx + (((-1 : ℚ) : ℝ) * U 0 idx ^ (((2 : ℚ)) : ℝ) + ((-1 : ℚ) : ℝ) * U 1 idx) = U 0 idx - U 0 idx ^ 2 - U 1 idx
      have : U 0 idx ^ (((2 : ℚ)) : ℝ) = U 0 idx ^ 2 := by rw [Rat.cast_ofNat, Real.rpow_two]
      rw [this]
      push_cast
      ring
    · show ((-4 : ℚ) : ℝ) * (U 0 idx * U 1 idx) + ((2 : ℚ) : ℝ) * U 1 idx = 2 * U 1 idx - 4 * (U 0 idx * U 1 idx)
      push_cast
      ring
    · show ((0 : ℚ) : ℝ) = 0
      push_cast
      rfl
  refine ⟨l, s, hl, hl', h1, himp, fun a b hab => ?_⟩
  obtain ⟨l', hl2, hP⟩ := C101_metric logistic_setting logistic_dynamics logistic_tangent logistic_meanTrend logistic_means
    (by intro kv hkv; cases hkv) logistic_evolution logistic_parameter (by intro kv hkv; cases hkv) logistic_generates logistic_closed iter hi _ atTime _
    logistic_filmed a b hab
  have hus : logistic.fields.map (fun f => pop.E (den pop f.random)) ++ logistic.fields.map (fun f => pop.E (den pop f.error ^ 2)) ++
      crossList pop logistic.fields ++ components pop logistic.fields Field.metric = [fun _ => popMean, fun _ => popDev ^ 2, (1 : Bool × Bool → F (ℝ × ℝ))] := by
    have e : logistic.fields.map (fun f => pop.E (den pop f.random)) ++ logistic.fields.map (fun f => pop.E (den pop f.error ^ 2)) ++
      crossList pop logistic.fields ++ components pop logistic.fields Field.metric =
        [pop.E (den pop fieldU.random), pop.E (den pop fieldU.error ^ 2), den pop (fieldU.metric 0 0)] := rfl
    rw [e, pop_mean, pop_metric, logistic_setting.error_var fieldU (by simp [logistic]), pop_variance]
  rw [hus] at hP
  obtain ⟨eqs, s', g1, g2, g3, g4⟩ := hP
  rw [hl] at hl2
  injection hl2 with hl2
  subst hl2
  rw [hl'] at g1
  injection g1 with g1
  subst g1
  rw [h1] at g2
  injection g2 with g2
  subst g2
  obtain ⟨c, δ, hδ, H⟩ := g4 h7 h6.roots 14 1 (by norm_num) one_pos
  refine ⟨c, δ, hδ, fun n hn hle η window hη hη' hw U0 e0 he0 he0' hU0 saved => ?_⟩
  have htruth : ∀ τ, truth atTime (fun _ => 2 * Real.pi) [fun _ => popMean, fun _ => popDev ^ 2, (1 : Bool × Bool → F (ℝ × ℝ))] (fun _ => n) τ = logisticTruth n τ := by
    intro τ
    funext k
    fin_cases k <;> rfl
  have := H (fun _ => n) (fun _ => hn) (fun _ => hle) (fun _ => ⟨fun _ _ => 0, none⟩)
    (fun t _ => ⟨fun f hf => (by cases h3.mem_iff.1 hf), fun k hk => (by cases h4.mem_iff.1 hk), .inl h5⟩) (fun _ => logisticField)
    (himp n _) η window hη hη' hw
    (fun i t t' k1 k2 => by
      rw [htruth]
      exact logistic_stable n t _ (by linarith [(hw.step i t t' k1 k2).1])) U0 e0 he0 he0' (by rw [htruth]; exact hU0) saved
  obtain ⟨fc, hfc, hfc'⟩ := this
  refine ⟨fc, hfc, fun τ hτ hτ' => ?_⟩
  obtain ⟨U, hU, hU'⟩ := hfc' τ hτ hτ'
  rw [htruth] at hU'
  refine ⟨U, hU, ?_⟩
  have e : ∑ i : Fin ["x".toList].length, (2 * Real.pi / (n : ℝ)) ^ 2 = (2 * Real.pi / n) ^ 2 := by simp
  rw [e] at hU'
  exact hU'

end Sympkf.PKF
