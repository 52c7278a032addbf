import Mathlib.Analysis.Analytic.Constructions
import Mathlib.Analysis.InnerProductSpace.l2Space
import Mathlib.Analysis.SpecialFunctions.Pow.Real
import Mathlib.Analysis.SpecificLimits.Normed
import Verif.Props.Truth

/-!
# A random field with the Gaussian correlation (cases of C104)

`e(x) = exp(-x^2/2) (1, x, x^2/√2!, x^3/√3!, ..)` in `ℓ²`: the random field `∑ ξ_n e(x)_n` for independent normalised `ξ_n`.
-/

set_option autoImplicit false

namespace Sympkf.Clo

open Text POD Rand PKF Spec Spec.Clo Spec.Truth Sympkf.Cor
open scoped RealInnerProductSpace

/-- The space of the square-summable sequences. -/
abbrev L2 := lp (fun _ : ℕ => ℝ) 2

theorem memMonomials (x : ℝ) : Memℓp (fun n : ℕ => x ^ n / √(n.factorial : ℝ)) 2 := by
  refine memℓp_gen ?_
  have h : (fun n : ℕ => ‖x ^ n / √(n.factorial : ℝ)‖ ^ (2 : ENNReal).toReal) = fun n : ℕ => (x ^ 2) ^ n / n.factorial := by
    funext n
    rw [ENNReal.toReal_ofNat, Real.rpow_ofNat, Real.norm_eq_abs, sq_abs, div_pow, Real.sq_sqrt (Nat.cast_nonneg _), ← pow_mul, ← pow_mul,
      mul_comm]
  rw [h]
  exact Real.summable_pow_div_factorial _

/-- `(1, x, x^2/√2!, ..)`. -/
noncomputable def monomials (x : ℝ) : L2 := ⟨fun n => x ^ n / √(n.factorial : ℝ), memMonomials x⟩

theorem monomials_inner (x y : ℝ) : ⟪monomials x, monomials y⟫ = Real.exp (x * y) := by
  have h := lp.hasSum_inner (𝕜 := ℝ) (monomials x) (monomials y)
  have h2 : (fun n : ℕ => ⟪(monomials x) n, (monomials y) n⟫) = fun n : ℕ => (x * y) ^ n / n.factorial := by
    funext n
    show ⟪x ^ n / √(n.factorial : ℝ), y ^ n / √(n.factorial : ℝ)⟫ = _
    have h3 : √(n.factorial : ℝ) * √(n.factorial : ℝ) = n.factorial := Real.mul_self_sqrt (Nat.cast_nonneg _)
    rw [real_inner_eq_re_inner, RCLike.inner_apply, mul_pow]
    simp only [conj_trivial, RCLike.re_to_real]
    rw [div_mul_div_comm, h3, mul_comm (y ^ n)]
  rw [h2] at h
  have h4 := NormedSpace.expSeries_div_hasSum_exp (𝔸 := ℝ) (x * y)
  rw [← Real.exp_eq_exp_ℝ] at h4
  exact h.unique h4

/-- The power series of `monomials`. -/
noncomputable def monomialSeries : FormalMultilinearSeries ℝ ℝ L2 := fun n =>
  ContinuousMultilinearMap.mkPiRing ℝ (Fin n) (lp.single 2 n (1 / √(n.factorial : ℝ)))

theorem monomialSeries_radius : monomialSeries.radius = ⊤ := by
  refine FormalMultilinearSeries.radius_eq_top_of_summable_norm _ fun r => ?_
  have h1 := Real.summable_pow_div_factorial (4 * (r : ℝ) ^ 2)
  have h2 := summable_geometric_of_lt_one (r := (1 / 4 : ℝ)) (by norm_num) (by norm_num)
  refine Summable.of_nonneg_of_le (fun n => by positivity) (fun n => ?_) (h1.add h2)
  rw [monomialSeries, ContinuousMultilinearMap.norm_mkPiRing, lp.norm_single (by norm_num), Real.norm_of_nonneg (by positivity)]
  have h3 : √(n.factorial : ℝ) ^ 2 = n.factorial := Real.sq_sqrt (Nat.cast_nonneg _)
  have h4 : 0 < √(n.factorial : ℝ) := Real.sqrt_pos.2 (Nat.cast_pos.2 n.factorial_pos)
  have h5 : (4 * (r : ℝ) ^ 2) ^ n / n.factorial = ((2 * r) ^ n / √(n.factorial : ℝ)) ^ 2 := by
    rw [div_pow, h3, ← pow_mul, mul_comm n 2, pow_mul]
    congr 2
    ring
  have h6 : (1 / 4 : ℝ) ^ n = ((1 / 2) ^ n) ^ 2 := by
    rw [← pow_mul, mul_comm n 2, pow_mul]
    norm_num
  have h7 : 1 / √(n.factorial : ℝ) * (r : ℝ) ^ n = ((2 * r) ^ n / √(n.factorial : ℝ)) * (1 / 2) ^ n := by
    rw [mul_pow, one_div_pow]
    field_simp
  rw [h5, h6, h7]
  nlinarith [sq_nonneg ((2 * (r : ℝ)) ^ n / √(n.factorial : ℝ) - (1 / 2) ^ n), sq_nonneg ((2 * (r : ℝ)) ^ n / √(n.factorial : ℝ)),
    sq_nonneg ((1 / 2 : ℝ) ^ n)]

theorem monomials_contDiff : ContDiff ℝ (⊤ : ℕ∞) monomials := by
  have h1 := monomialSeries.hasFPowerSeriesOnBall (by rw [monomialSeries_radius]; exact ENNReal.zero_lt_top)
  have h2 : monomialSeries.sum = monomials := by
    funext x
    have h3 := lp.hasSum_single (p := 2) (by norm_num) (monomials x)
    unfold FormalMultilinearSeries.sum
    rw [← h3.tsum_eq]
    refine tsum_congr fun n => ?_
    rw [monomialSeries, ContinuousMultilinearMap.mkPiRing_apply, Finset.prod_const, Finset.card_univ, Fintype.card_fin, ← lp.single_smul]
    congr 1
    show x ^ n * (1 / √(n.factorial : ℝ)) = x ^ n / √(n.factorial : ℝ)
    ring
  rw [h2, monomialSeries_radius] at h1
  refine AnalyticOnNhd.contDiff ?_
  have h4 := h1.analyticOnNhd
  rwa [Metric.eball_top] at h4

/-- The field. -/
noncomputable def wave (x : ℝ) : L2 := Real.exp (-(x ^ 2 / 2)) • monomials x

theorem wave_contDiff : ContDiff ℝ (⊤ : ℕ∞) wave :=
  ContDiff.smul (((contDiff_id.pow 2).div_const 2).neg.exp) monomials_contDiff

theorem wave_inner (x y : ℝ) : ⟪wave x, wave y⟫ = Real.exp (-(1 / 2 * (x - y) ^ 2)) := by
  unfold wave
  rw [real_inner_smul_left, real_inner_smul_right, monomials_inner, ← Real.exp_add, ← Real.exp_add]
  congr 1
  ring

/-- An object whose Taylor coefficients are those of `rho`. -/
noncomputable def taylorParams {d : ℕ} (rho : (Fin d → ℝ) → (Fin d → ℝ) → ℝ) : Params ((Fin d → ℝ) → ℝ) where
  order _ l := l
  correlation a x := partials a (fun dx => rho x (x + dx)) 0 / (a.map Nat.factorial).prod
  ofEx _ := 0
  dropDerivatives c := c
  solve _ _ := .error .typeError

theorem taylorParams_taylorOf {d : ℕ} (rho : (Fin d → ℝ) → (Fin d → ℝ) → ℝ) : TaylorOf rho (taylorParams rho).correlation := by
  intro a _ x
  have h : ((a.map Nat.factorial).prod : ℝ) ≠ 0 := by
    refine Nat.cast_ne_zero.2 (List.prod_pos ?_).ne'
    intro n hn
    obtain ⟨m, -, rfl⟩ := List.mem_map.1 hn
    exact Nat.factorial_pos _
  exact mul_div_cancel₀ _ h

/-- In one dimension. -/
noncomputable def wave1 : (Fin 1 → ℝ) → L2 := fun p => wave (p 0)

theorem wave1_contDiff : ContDiff ℝ (⊤ : ℕ∞) wave1 := wave_contDiff.comp (contDiff_apply ℝ ℝ (0 : Fin 1))

/-- The field has the correlation of the default prototype, for the aspect tensor `1`. -/
theorem wave1_correlated : Correlated wave1 (correlation (fun _ => 1)) := by
  intro x y
  simp only [wave1]; rw [wave_inner]
  simp only [correlation]
  have h : ((1 / 2 : ℝ) • ((1 : Matrix (Fin 1) (Fin 1) ℝ) + 1)).det = 1 := by
    rw [Matrix.det_fin_one]
    simp
    norm_num
  rw [quad_one, inv_one, h]
  simp
  norm_num

theorem wave1_second : moment wave1 [2] = fun _ => -1 := by
  funext x
  have h := partials_correlation wave1_contDiff (rho := fun x y => Real.exp (-(1 / 2 * (x 0 - y 0) ^ 2)))
    (fun x y => wave_inner _ _) [2] x
  rw [← h, partials_one]
  have h2 : (fun dx : Fin 1 → ℝ => Real.exp (-(1 / 2 * (x 0 - (x + dx) 0) ^ 2))) = fun dx =>
      (fun t : ℝ => Real.exp (-(1 / 2 * t ^ 2))) (dx 0) := by
    funext dx
    simp only [Pi.add_apply]
    congr 2
    ring
  rw [h2, iterate_one (fun t : ℝ => Real.exp (-(1 / 2 * t ^ 2))) 2]
  simp only [Pi.zero_apply, (gauss_deriv (1 / 2)).2.1]
  norm_num

theorem wave_deriv (t : ℝ) : ⟪deriv wave t, deriv wave t⟫ = 1 := by
  have h1 : ∀ x, ⟪wave1 x, wave1 x⟫ = 1 := by
    intro x
    simp only [wave1]; rw [wave_inner]
    simp
  have h := (moments wave1_contDiff h1 0 (fun _ => t)).2.1
  have h2 := congrFun wave1_second (fun _ => t)
  simp only [moment, partials_one] at h2
  rw [h2] at h
  have h3 : part (0 : Fin 1) wave1 (fun _ => t) = deriv wave t := by
    show part (0 : Fin 1) (fun p => wave (p 0)) _ = _
    rw [part_one]
  rw [h3] at h
  linarith

/-- Case of `C104_pure`: the closure of order four, for the default prototype with the aspect tensor `1` in one dimension; the second-order
expectation is `-1`. -/
example : ∃ c s, closure (taylorParams (correlation (d := 1) (fun _ => 1))) ⟨"u".toList, ["t".toList, "x".toList]⟩ 4 init = (.ok c, s) ∧
    c.get? (epsTerm ⟨"u".toList, ["t".toList, "x".toList]⟩ [2]) = some (fun _ => -1) := by
  obtain ⟨c, s, h1, h2⟩ := C104_pure (f := ⟨"u".toList, ["t".toList, "x".toList]⟩) (P := taylorParams (correlation (d := 1) (fun _ => 1)))
    (by decide +kernel) (fun _ l => List.Perm.refl l) (by decide +kernel) one_ne_zero _ (taylorParams_taylorOf _) wave1 wave1_contDiff
    wave1_correlated 4
  refine ⟨c, s, h1, ?_⟩
  rw [h2 2 (by norm_num) [2] ⟨rfl, by simp, by simp⟩ ⟨0, fun j hj => by
    obtain ⟨j, rfl⟩ : ∃ k, j = k + 1 := ⟨j - 1, by omega⟩
    simp⟩]
  exact congrArg some wave1_second

/-- In two dimensions: a field that varies along the diagonal. -/
noncomputable def wave2 : (Fin 2 → ℝ) → L2 := fun p => wave (p 0 + p 1)

theorem wave2_contDiff : ContDiff ℝ (⊤ : ℕ∞) wave2 :=
  wave_contDiff.comp ((contDiff_apply ℝ ℝ (0 : Fin 2)).add (contDiff_apply ℝ ℝ (1 : Fin 2)))

theorem part_diagonal {G : Type} [NormedAddCommGroup G] [NormedSpace ℝ G] (phi : ℝ → G) (i : Fin 2) :
    part i (fun p : Fin 2 → ℝ => phi (p 0 + p 1)) = fun p => deriv phi (p 0 + p 1) := by
  funext p
  have h := deriv_comp_const_add (f := phi) (p 0 + p 1) 0
  rw [add_zero] at h
  rw [← h]
  simp only [part]
  congr 1
  funext s
  fin_cases i <;> simp <;> congr 1 <;> ring

theorem wave2_mixed (x : Fin 2 → ℝ) : moment wave2 [1, 1] x = -1 := by
  have h : partials [1, 1] wave2 = fun p => deriv (deriv wave) (p 0 + p 1) := by
    show part (0 : Fin 2) (part (1 : Fin 2) (fun p => wave (p 0 + p 1))) = _
    rw [part_diagonal, part_diagonal]
  have h2 := congrFun wave1_second (fun _ => x 0 + x 1)
  simp only [moment, partials_one] at h2
  have h3 : (part (0 : Fin 1))^[2] wave1 = fun p => deriv (deriv wave) (p 0) := iterate_one wave 2
  rw [h3] at h2
  simp only [moment, h]
  exact h2

/-- Case of `C104_mixed`: in two dimensions, the expectation `E[eps d_x d_y eps]` is `-1`, and the closure gives `-2`. -/
example : ∃ c s, closure (taylorParams (fun x y : Fin 2 → ℝ => Real.exp (-(1 / 2 * ((x 0 + x 1) - (y 0 + y 1)) ^ 2))))
      ⟨"u".toList, ["t".toList, "x".toList, "y".toList]⟩ 2 init = (.ok c, s) ∧
    c.get? (epsTerm ⟨"u".toList, ["t".toList, "x".toList, "y".toList]⟩ [1, 1]) = some (fun _ => -2) ∧
      ∀ x, moment wave2 [1, 1] x = -1 := by
  obtain ⟨c, s, h1, h2⟩ := C104_closure (f := ⟨"u".toList, ["t".toList, "x".toList, "y".toList]⟩)
    (P := taylorParams (fun x y : Fin 2 → ℝ => Real.exp (-(1 / 2 * ((x 0 + x 1) - (y 0 + y 1)) ^ 2))))
    (by decide +kernel) (fun _ l => List.Perm.refl l) (by decide +kernel) two_ne_zero _ (taylorParams_taylorOf _) wave2 wave2_contDiff
    (fun x y => wave_inner _ _) 2
  refine ⟨c, s, h1, ?_, wave2_mixed⟩
  rw [h2 2 le_rfl [1, 1] ⟨rfl, by simp, by simp⟩]
  congr 1
  funext x
  have h3 : ([1, 1] : List ℤ).map Int.toNat = [1, 1] := rfl
  rw [h3, wave2_mixed]
  simp [factorial]

/-- A field with a metric that varies: `wave` after the change of coordinate `x + x^3`. -/
noncomputable def wave3 : (Fin 1 → ℝ) → L2 := fun p => wave (p 0 + p 0 ^ 3)

theorem wave3_contDiff : ContDiff ℝ (⊤ : ℕ∞) wave3 :=
  wave_contDiff.comp ((contDiff_apply ℝ ℝ (0 : Fin 1)).add ((contDiff_apply ℝ ℝ (0 : Fin 1)).pow 3))

theorem wave3_metric (x : Fin 1 → ℝ) : ⟪part 0 wave3 x, part 0 wave3 x⟫ = (1 + 3 * x 0 ^ 2) ^ 2 := by
  have h : part (0 : Fin 1) wave3 x = (1 + 3 * x 0 ^ 2) • deriv wave (x 0 + x 0 ^ 3) := by
    have h1 : part (0 : Fin 1) wave3 = fun p => deriv (fun t : ℝ => wave (t + t ^ 3)) (p 0) := part_one (fun t => wave (t + t ^ 3))
    rw [h1]
    have h2 : HasDerivAt (fun t : ℝ => t + t ^ 3) (1 + 3 * x 0 ^ 2) (x 0) := by
      have := (hasDerivAt_id (x 0)).add (hasDerivAt_pow 3 (x 0))
      refine this.congr_deriv ?_
      norm_num
    exact ((wave_contDiff.differentiable (by simp) _).hasDerivAt.scomp (x 0) h2).deriv
  rw [h, real_inner_smul_left, real_inner_smul_right, wave_deriv]
  ring

/-- Case of `C104_local`: the third-order expectation of the local Gaussian closure is not the true one at `x = 1`. -/
example : ∃ c st, closure (taylorParams (locGaussian (d := 1) false (fun _ => 1) (fun x => !![((1 + 3 * x 0 ^ 2) ^ 2)⁻¹])))
      ⟨"u".toList, ["t".toList, "x".toList]⟩ 3 init = (.ok c, st) ∧
    ∃ v, c.get? (epsTerm ⟨"u".toList, ["t".toList, "x".toList]⟩ [3]) = some v ∧ v ![1] ≠ moment wave3 [3] ![1] := by
  obtain ⟨c, st, h1, -, v, h2, h3⟩ := C104_local (f := ⟨"u".toList, ["t".toList, "x".toList]⟩)
    (Q := taylorParams (locGaussian (d := 1) false (fun _ => 1) (fun x => !![((1 + 3 * x 0 ^ 2) ^ 2)⁻¹]))) (y := "x".toList)
    (by decide +kernel) (fun _ l => List.Perm.refl l) _ _ (taylorParams_taylorOf _) wave3 wave3_contDiff
    (fun x => by simp only [wave3]; rw [wave_inner]; simp) (fun x => by rw [wave3_metric]; simp) 3 le_rfl
  refine ⟨c, st, h1, v, h2, ?_⟩
  rw [Ne, h3]
  have h4 : (fun x : Fin 1 → ℝ => ((!![((1 + 3 * x 0 ^ 2) ^ 2)⁻¹] : Matrix (Fin 1) (Fin 1) ℝ) 0 0)⁻¹) =
      fun x => (fun t : ℝ => (1 + 3 * t ^ 2) ^ 2) (x 0) := by
    funext x
    simp
  rw [h4, part_one (fun t : ℝ => (1 + 3 * t ^ 2) ^ 2)]
  have h5 : HasDerivAt (fun t : ℝ => (1 + 3 * t ^ 2) ^ 2) 48 1 := by
    have := (((hasDerivAt_pow 2 (1 : ℝ)).const_mul 3).const_add 1).pow 2
    refine this.congr_deriv ?_
    norm_num
  show deriv (fun t : ℝ => (1 + 3 * t ^ 2) ^ 2) 1 ≠ 0
  rw [h5.deriv]
  norm_num

/-- Case of `C104_local_metric`: with `metric=True` the second-order expectation is `-2` instead of `-1`. -/
example : ∃ c st, closure (taylorParams (locGaussian (d := 1) true (fun _ => 1) (fun _ => 1)))
      ⟨"u".toList, ["t".toList, "x".toList]⟩ 2 init = (.ok c, st) ∧
    c.get? (epsTerm ⟨"u".toList, ["t".toList, "x".toList]⟩ [2]) = some (fun _ => -2) := by
  obtain ⟨c, st, h1, h2, h3⟩ := C104_local_metric (f := ⟨"u".toList, ["t".toList, "x".toList]⟩)
    (Q := taylorParams (locGaussian (d := 1) true (fun _ => 1) (fun _ => 1))) (y := "x".toList)
    (by decide +kernel) (fun _ l => List.Perm.refl l) _ _ (taylorParams_taylorOf _) wave1 wave1_contDiff
    (fun x => by simp only [wave1]; rw [wave_inner]; simp) (fun x => by
      have h : part (0 : Fin 1) wave1 = fun p => deriv wave (p 0) := part_one wave
      rw [h, wave_deriv]
      simp) 2 le_rfl
  refine ⟨c, st, h1, ?_⟩
  rw [h2]
  congr 1
  funext x
  rw [h3]
  simp

end Sympkf.Clo
