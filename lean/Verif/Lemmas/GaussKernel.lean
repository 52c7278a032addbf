import Mathlib.Analysis.SpecialFunctions.Gaussian.GaussianIntegral
import Mathlib.MeasureTheory.Integral.Pi
import Mathlib.MeasureTheory.Measure.Lebesgue.Basic
import Verif.Lemmas.Correlation

/-!
# Products of Gaussian functions

`∫ exp(-A[u - x]) exp(-B[u - y]) du` in every dimension, `A[v]` being the quadratic form.
-/

set_option autoImplicit false

namespace Sympkf.Cor

open Matrix MeasureTheory

variable {d : ℕ}

theorem quad_add {S : Matrix (Fin d) (Fin d) ℝ} (hS : Sᵀ = S) (v w : Fin d → ℝ) :
    (v + w) ⬝ᵥ S *ᵥ (v + w) = v ⬝ᵥ S *ᵥ v + 2 * (v ⬝ᵥ S *ᵥ w) + w ⬝ᵥ S *ᵥ w := by
  have h : w ⬝ᵥ S *ᵥ v = v ⬝ᵥ S *ᵥ w := by
    rw [dotProduct_mulVec, ← mulVec_transpose, hS, dotProduct_comm]
  rw [mulVec_add, add_dotProduct, dotProduct_add, dotProduct_add, h]
  ring

theorem posDef_symm {S : Matrix (Fin d) (Fin d) ℝ} (h : S.PosDef) : Sᵀ = S := by
  have := h.isHermitian
  rwa [IsHermitian, conjTranspose_eq_transpose_of_trivial] at this

/-- Completing the square. -/
theorem complete_square {A B : Matrix (Fin d) (Fin d) ℝ} (hA : A.PosDef) (hB : B.PosDef) (u x y : Fin d → ℝ) :
    (u - x) ⬝ᵥ A *ᵥ (u - x) + (u - y) ⬝ᵥ B *ᵥ (u - y) =
      (u - (x - (A + B)⁻¹ *ᵥ B *ᵥ (x - y))) ⬝ᵥ (A + B) *ᵥ (u - (x - (A + B)⁻¹ *ᵥ B *ᵥ (x - y))) +
        (x - y) ⬝ᵥ (A⁻¹ + B⁻¹)⁻¹ *ᵥ (x - y) := by
  have hM := hA.add hB
  have uM : IsUnit (A + B).det := isUnit_iff_ne_zero.2 hM.det_pos.ne'
  have uA : IsUnit A.det := isUnit_iff_ne_zero.2 hA.det_pos.ne'
  have uB : IsUnit B.det := isUnit_iff_ne_zero.2 hB.det_pos.ne'
  have hN : (A⁻¹ + B⁻¹)⁻¹ = B - B * (A + B)⁻¹ * B := by
    refine Matrix.inv_eq_right_inv ?_
    have h1 : A⁻¹ + B⁻¹ = A⁻¹ * (A + B) * B⁻¹ := by
      rw [Matrix.mul_add, Matrix.nonsing_inv_mul _ uA, Matrix.add_mul, Matrix.one_mul, Matrix.mul_assoc, Matrix.mul_nonsing_inv _ uB,
        Matrix.mul_one, add_comm]
    have h2 : B - B * (A + B)⁻¹ * B = B * (A + B)⁻¹ * A := by
      have : B = B * (A + B)⁻¹ * (A + B) := by rw [Matrix.mul_assoc, Matrix.nonsing_inv_mul _ uM, Matrix.mul_one]
      nth_rw 1 [this]
      rw [← Matrix.mul_sub, add_sub_cancel_right]
    rw [h1, h2]
    calc A⁻¹ * (A + B) * B⁻¹ * (B * (A + B)⁻¹ * A) = A⁻¹ * ((A + B) * ((B⁻¹ * B) * ((A + B)⁻¹ * A))) := by simp only [Matrix.mul_assoc]
      _ = A⁻¹ * (((A + B) * (A + B)⁻¹) * A) := by rw [Matrix.nonsing_inv_mul _ uB, Matrix.one_mul, Matrix.mul_assoc]
      _ = 1 := by rw [Matrix.mul_nonsing_inv _ uM, Matrix.one_mul, Matrix.nonsing_inv_mul _ uA]
  have e1 : u - y = (u - x) + (x - y) := by abel
  have e2 : u - (x - (A + B)⁻¹ *ᵥ B *ᵥ (x - y)) = (u - x) + (A + B)⁻¹ *ᵥ B *ᵥ (x - y) := by abel
  have e3 : (A + B) *ᵥ (A + B)⁻¹ *ᵥ B *ᵥ (x - y) = B *ᵥ (x - y) := by
    rw [mulVec_mulVec, Matrix.mul_nonsing_inv _ uM, one_mulVec]
  rw [e2, quad_add (posDef_symm hM), e3, e1, quad_add (posDef_symm hB), hN, add_mulVec, dotProduct_add, sub_mulVec, dotProduct_sub]
  have e4 : ((A + B)⁻¹ *ᵥ B *ᵥ (x - y)) ⬝ᵥ B *ᵥ (x - y) = (x - y) ⬝ᵥ (B * (A + B)⁻¹ * B) *ᵥ (x - y) := by
    rw [dotProduct_comm, ← mulVec_mulVec, ← mulVec_mulVec]
    have h5 : B *ᵥ (x - y) = (x - y) ᵥ* B := by rw [← mulVec_transpose, posDef_symm hB]
    conv_lhs => rw [h5]
    rw [← dotProduct_mulVec, h5]
  rw [e4]
  ring

/-- `∫ exp(-|w|^2) dw`. -/
noncomputable def gaussTotal (d : ℕ) : ℝ := ∫ w : Fin d → ℝ, Real.exp (-(w ⬝ᵥ w))

theorem integrable_gauss : Integrable (fun w : Fin d → ℝ => Real.exp (-(w ⬝ᵥ w))) := by
  have h : (fun w : Fin d → ℝ => Real.exp (-(w ⬝ᵥ w))) = fun w => ∏ i, (fun t : ℝ => Real.exp (-1 * t ^ 2)) (w i) := by
    funext w
    rw [← Real.exp_sum]
    congr 1
    rw [dotProduct, ← Finset.sum_neg_distrib]
    refine Finset.sum_congr rfl fun i _ => ?_
    ring
  rw [h]
  exact Integrable.fintype_prod (fun _ => integrable_exp_neg_mul_sq one_pos)

theorem gaussTotal_pos : 0 < gaussTotal d := integral_exp_pos integrable_gauss

theorem gauss_comp (C : Matrix (Fin d) (Fin d) ℝ) (hC : C.det ≠ 0) :
    Integrable (fun u : Fin d → ℝ => Real.exp (-((C *ᵥ u) ⬝ᵥ (C *ᵥ u)))) ∧
      ∫ u : Fin d → ℝ, Real.exp (-((C *ᵥ u) ⬝ᵥ (C *ᵥ u))) = |C.det|⁻¹ * gaussTotal d := by
  have hmap := Real.map_matrix_volume_pi_eq_smul_volume_pi hC
  have hcont : Continuous (fun w : Fin d → ℝ => Real.exp (-(w ⬝ᵥ w))) := by
    unfold dotProduct
    fun_prop
  have hm : AEMeasurable (toLin' C) (volume : Measure (Fin d → ℝ)) :=
    (LinearMap.continuous_of_finiteDimensional (toLin' C)).measurable.aemeasurable
  constructor
  · have h := (integrable_map_measure (f := toLin' C) (g := fun w : Fin d → ℝ => Real.exp (-(w ⬝ᵥ w))) hcont.aestronglyMeasurable hm).1
      (by rw [hmap]; exact integrable_gauss.smul_measure ENNReal.ofReal_ne_top)
    exact h
  · have h := integral_map (f := fun w : Fin d → ℝ => Real.exp (-(w ⬝ᵥ w))) hm hcont.aestronglyMeasurable
    rw [hmap, integral_smul_measure, ENNReal.toReal_ofReal (abs_nonneg _), abs_inv, smul_eq_mul] at h
    exact h.symm

/-- The Gaussian integral of a positive definite form. -/
theorem gauss_integral {M : Matrix (Fin d) (Fin d) ℝ} (hM : M.PosDef) (m : Fin d → ℝ) :
    Integrable (fun u : Fin d → ℝ => Real.exp (-((u - m) ⬝ᵥ M *ᵥ (u - m)))) ∧
      ∫ u : Fin d → ℝ, Real.exp (-((u - m) ⬝ᵥ M *ᵥ (u - m))) = M.det ^ (-(1 / 2) : ℝ) * gaussTotal d := by
  obtain ⟨C, hC, hMC⟩ := exists_factor M hM
  have hdet : C.det ≠ 0 := isUnit_iff_ne_zero.1 ((Matrix.isUnit_iff_isUnit_det _).1 hC)
  have hq : ∀ u : Fin d → ℝ, u ⬝ᵥ M *ᵥ u = (C *ᵥ u) ⬝ᵥ (C *ᵥ u) := by
    intro u
    rw [hMC, ← mulVec_mulVec, dotProduct_mulVec, vecMul_transpose]
  obtain ⟨h1, h2⟩ := gauss_comp C hdet
  simp only [← hq] at h1 h2
  refine ⟨h1.comp_sub_right m, ?_⟩
  rw [integral_sub_right_eq_self (fun u : Fin d → ℝ => Real.exp (-(u ⬝ᵥ M *ᵥ u))) m, h2]
  congr 1
  have h3 : M.det = |C.det| ^ 2 := by rw [hMC, det_mul, det_transpose, sq_abs, sq]
  rw [h3, Real.rpow_neg (sq_nonneg _), ← Real.sqrt_eq_rpow, Real.sqrt_sq (abs_nonneg _)]

/-- The Gaussian function of the point `x`. -/
noncomputable def bump (s : Tensor d) (x u : Fin d → ℝ) : ℝ := (s x).det ^ (-(1 / 4) : ℝ) * Real.exp (-((u - x) ⬝ᵥ (s x)⁻¹ *ᵥ (u - x)))

/-- The default prototype is the scalar product of two Gaussian functions, up to a constant. -/
theorem bump_inner (s : Tensor d) (hs : ∀ x, (s x).PosDef) (x y : Fin d → ℝ) :
    Integrable (fun u => bump s x u * bump s y u) ∧
      ∫ u, bump s x u * bump s y u = gaussTotal d * ((1 / 2 : ℝ) ^ d) ^ (1 / 2 : ℝ) * correlation s x y := by
  have hA := (hs x).inv
  have hB := (hs y).inv
  have ux : IsUnit (s x).det := isUnit_iff_ne_zero.2 (hs x).det_pos.ne'
  have uy : IsUnit (s y).det := isUnit_iff_ne_zero.2 (hs y).det_pos.ne'
  set m := x - ((s x)⁻¹ + (s y)⁻¹)⁻¹ *ᵥ (s y)⁻¹ *ᵥ (x - y) with hm
  have hf : (fun u => bump s x u * bump s y u) = fun u => ((s x).det ^ (-(1 / 4) : ℝ) * (s y).det ^ (-(1 / 4) : ℝ) *
      Real.exp (-((x - y) ⬝ᵥ (s x + s y)⁻¹ *ᵥ (x - y)))) * Real.exp (-((u - m) ⬝ᵥ ((s x)⁻¹ + (s y)⁻¹) *ᵥ (u - m))) := by
    funext u
    have h := complete_square hA hB u x y
    rw [Matrix.nonsing_inv_nonsing_inv _ ux, Matrix.nonsing_inv_nonsing_inv _ uy, ← hm] at h
    unfold bump
    rw [mul_mul_mul_comm, ← Real.exp_add, mul_assoc _ _ (Real.exp (-((u - m) ⬝ᵥ _))), ← Real.exp_add]
    congr 2
    linarith
  obtain ⟨h1, h2⟩ := gauss_integral (hA.add hB) m
  rw [hf]
  refine ⟨h1.const_mul _, ?_⟩
  rw [integral_const_mul, h2]
  have hdet : ((s x)⁻¹ + (s y)⁻¹).det = (s x + s y).det * ((s x).det⁻¹ * (s y).det⁻¹) := by
    have h3 : (s x)⁻¹ + (s y)⁻¹ = (s x)⁻¹ * (s x + s y) * (s y)⁻¹ := by
      rw [Matrix.mul_add, Matrix.nonsing_inv_mul _ ux, Matrix.add_mul, Matrix.one_mul, Matrix.mul_assoc, Matrix.mul_nonsing_inv _ uy,
        Matrix.mul_one, add_comm]
    rw [h3, det_mul, det_mul, det_nonsing_inv, det_nonsing_inv, Ring.inverse_eq_inv']
    ring
  have px := (hs x).det_pos
  have py := (hs y).det_pos
  have ps := ((hs x).add (hs y)).det_pos
  have hhalf : ((1 / 2 : ℝ) • (s x + s y)).det = (1 / 2 : ℝ) ^ d * (s x + s y).det := by rw [det_smul, Fintype.card_fin]
  simp only [correlation]
  rw [hdet, hhalf, Real.mul_rpow (by positivity) ps.le, Real.mul_rpow ps.le (by positivity), Real.mul_rpow (by positivity) (by positivity),
    Real.inv_rpow px.le, Real.inv_rpow py.le, Real.rpow_neg px.le (1 / 2), Real.rpow_neg py.le (1 / 2), inv_inv, inv_inv,
    Real.rpow_neg ps.le, Real.rpow_neg px.le, Real.rpow_neg py.le]
  have q : ∀ a : ℝ, 0 < a → a ^ (1 / 2 : ℝ) = a ^ (1 / 4 : ℝ) * a ^ (1 / 4 : ℝ) := by
    intro a ha
    rw [← Real.rpow_add ha]
    norm_num
  rw [q _ px, q _ py]
  have a1 : (s x).det ^ (1 / 4 : ℝ) ≠ 0 := (Real.rpow_pos_of_pos px _).ne'
  have a2 : (s y).det ^ (1 / 4 : ℝ) ≠ 0 := (Real.rpow_pos_of_pos py _).ne'
  have a3 : (s x + s y).det ^ (1 / 2 : ℝ) ≠ 0 := (Real.rpow_pos_of_pos ps _).ne'
  have a4 : ((1 / 2 : ℝ) ^ d) ^ (1 / 2 : ℝ) ≠ 0 := (Real.rpow_pos_of_pos (by positivity) _).ne'
  field_simp

end Sympkf.Cor
