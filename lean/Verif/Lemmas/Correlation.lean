import Mathlib.Analysis.Matrix.PosDef
import Mathlib.Algebra.Order.Star.Real
import Mathlib.Analysis.SpecialFunctions.ExpDeriv
import Mathlib.Analysis.Calculus.Deriv.Pow
import Mathlib.Tactic.LinearCombination
import Verif.Model.Correlation

/-! # Lemmas on correlations -/

set_option autoImplicit false

namespace Sympkf.Cor

open Matrix

variable {d : ℕ}

/-- A positive definite real matrix is `C^T C`. -/
theorem exists_factor (A : Matrix (Fin d) (Fin d) ℝ) (hA : A.PosDef) : ∃ C : Matrix (Fin d) (Fin d) ℝ, IsUnit C ∧ A = Cᵀ * C := by
  have hs := hA.isHermitian.spectral_theorem
  rw [Unitary.conjStarAlgAut_apply] at hs
  set U : Matrix (Fin d) (Fin d) ℝ := (hA.isHermitian.eigenvectorUnitary : Matrix (Fin d) (Fin d) ℝ) with hU
  set l := hA.isHermitian.eigenvalues with hl
  have hpos : ∀ i, 0 < l i := hA.eigenvalues_pos
  have hUU : star U * U = 1 := Unitary.coe_star_mul_self hA.isHermitian.eigenvectorUnitary
  refine ⟨diagonal (fun i => √(l i)) * star U, ?_, ?_⟩
  · have hdet : (diagonal (fun i => √(l i)) * star U).det ≠ 0 := by
      rw [det_mul, det_diagonal]
      refine mul_ne_zero (Finset.prod_ne_zero_iff.2 (fun i _ => (Real.sqrt_pos.2 (hpos i)).ne')) ?_
      intro h0
      have := congrArg Matrix.det hUU
      rw [det_mul, h0, zero_mul, det_one] at this
      exact zero_ne_one this
    rw [Matrix.isUnit_iff_isUnit_det]
    exact isUnit_iff_ne_zero.2 hdet
  · rw [hs, transpose_mul, diagonal_transpose]
    have h1 : (star U)ᵀ = U := by
      ext i j; simp [star_apply]
    rw [h1]
    simp only [Matrix.mul_assoc]
    congr 1
    rw [← Matrix.mul_assoc, diagonal_mul_diagonal]
    congr 2
    funext i
    simp only [Function.comp_apply, RCLike.ofReal_real_eq_id, id_eq]
    exact (Real.mul_self_sqrt (hpos i).le).symm

theorem det_one_add (M : Matrix (Fin d) (Fin d) ℝ) (hM : M.PosDef) : M.det ≤ ((1 / 2 : ℝ) • (1 + M)).det ^ 2 := by
  have hs := hM.isHermitian.spectral_theorem
  rw [Unitary.conjStarAlgAut_apply] at hs
  set U : Matrix (Fin d) (Fin d) ℝ := (hM.isHermitian.eigenvectorUnitary : Matrix (Fin d) (Fin d) ℝ) with hU
  set l := hM.isHermitian.eigenvalues with hl
  have hpos : ∀ i, 0 < l i := hM.eigenvalues_pos
  have hUU : star U * U = 1 := Unitary.coe_star_mul_self hM.isHermitian.eigenvectorUnitary
  have hUU' : U * star U = 1 := Unitary.coe_mul_star_self hM.isHermitian.eigenvectorUnitary
  have h1 : (1 / 2 : ℝ) • (1 + M) = U * diagonal (fun i => (1 + l i) / 2) * star U := by
    have : diagonal (fun i => (1 + l i) / 2) = (1 / 2 : ℝ) • (1 + diagonal (RCLike.ofReal ∘ l)) := by
      rw [← diagonal_one, diagonal_add, ← diagonal_smul]
      congr 1
      funext i
      simp [Pi.smul_apply]
      ring
    rw [this, Matrix.mul_smul, Matrix.smul_mul, Matrix.mul_add, Matrix.add_mul, Matrix.mul_one, hUU', ← hs]
  have hdU : U.det * (star U).det = 1 := by rw [← det_mul, hUU', det_one]
  have e1 : ((1 / 2 : ℝ) • (1 + M)).det = ∏ i, (1 + l i) / 2 := by
    rw [h1, det_mul, det_mul, det_diagonal]
    linear_combination (∏ i, (1 + l i) / 2) * hdU
  have e2 : M.det = ∏ i, l i := by
    rw [hs, det_mul, det_mul, det_diagonal]
    have : ∏ i, (RCLike.ofReal ∘ l) i = ∏ i, l i := by simp
    rw [this]
    linear_combination (∏ i, l i) * hdU
  rw [e1, e2, ← Finset.prod_pow]
  refine Finset.prod_le_prod (fun i _ => (hpos i).le) (fun i _ => ?_)
  nlinarith [sq_nonneg (1 - l i)]

/-- `det A det B <= det((A + B)/2)^2` for positive definite matrices. -/
theorem det_mul_le (A B : Matrix (Fin d) (Fin d) ℝ) (hA : A.PosDef) (hB : B.PosDef) :
    A.det * B.det ≤ ((1 / 2 : ℝ) • (A + B)).det ^ 2 := by
  obtain ⟨C, hC, rfl⟩ := exists_factor A hA
  have hCd : C.det ≠ 0 := isUnit_iff_ne_zero.1 ((Matrix.isUnit_iff_isUnit_det C).1 hC)
  have hinv : C⁻¹ * C = 1 := Matrix.nonsing_inv_mul C ((Matrix.isUnit_iff_isUnit_det C).1 hC)
  have hM : ((C⁻¹)ᵀ * B * C⁻¹).PosDef := by
    have := hB.conjTranspose_mul_mul_same (B := C⁻¹) (Matrix.mulVec_injective_of_isUnit (by
      rw [Matrix.isUnit_nonsing_inv_iff]; exact hC))
    simpa [conjTranspose_eq_transpose_of_trivial] using this
  have hBM : B = Cᵀ * ((C⁻¹)ᵀ * B * C⁻¹) * C := by
    have h1 : Cᵀ * (C⁻¹)ᵀ = 1 := by rw [← transpose_mul, hinv, transpose_one]
    calc B = (Cᵀ * (C⁻¹)ᵀ) * B * (C⁻¹ * C) := by rw [h1, hinv, Matrix.one_mul, Matrix.mul_one]
      _ = _ := by simp only [Matrix.mul_assoc]
  set M := (C⁻¹)ᵀ * B * C⁻¹ with hMdef
  have hle := det_one_add M hM
  have hsum : (1 / 2 : ℝ) • (Cᵀ * C + B) = Cᵀ * ((1 / 2 : ℝ) • (1 + M)) * C := by
    rw [hBM, Matrix.mul_smul, Matrix.smul_mul, Matrix.mul_add, Matrix.add_mul, Matrix.mul_one]
  rw [hsum, hBM]
  simp only [det_mul, det_transpose]
  have : 0 ≤ C.det ^ 4 := by positivity
  nlinarith [mul_le_mul_of_nonneg_left hle this]

/-- The normalisation is one for equal tensors. -/
theorem norm_self (A : Matrix (Fin d) (Fin d) ℝ) (hA : 0 < A.det) :
    A.det ^ (1 / 4 : ℝ) * A.det ^ (1 / 4 : ℝ) / ((1 / 2 : ℝ) • (A + A)).det ^ (1 / 2 : ℝ) = 1 := by
  have h1 : (1 / 2 : ℝ) • (A + A) = A := by rw [← two_smul ℝ A, smul_smul]; norm_num
  rw [h1, ← Real.rpow_add hA, show (1 / 4 + 1 / 4 : ℝ) = 1 / 2 by norm_num]
  exact div_self (Real.rpow_pos_of_pos hA _).ne'

theorem posDef_mean (A B : Matrix (Fin d) (Fin d) ℝ) (hA : A.PosDef) (hB : B.PosDef) : ((1 / 2 : ℝ) • (A + B)).PosDef :=
  (hA.add hB).smul (by norm_num)

/-- The normalisation is positive and at most one. -/
theorem norm_le (A B : Matrix (Fin d) (Fin d) ℝ) (hA : A.PosDef) (hB : B.PosDef) :
    0 < A.det ^ (1 / 4 : ℝ) * B.det ^ (1 / 4 : ℝ) / ((1 / 2 : ℝ) • (A + B)).det ^ (1 / 2 : ℝ) ∧
    A.det ^ (1 / 4 : ℝ) * B.det ^ (1 / 4 : ℝ) / ((1 / 2 : ℝ) • (A + B)).det ^ (1 / 2 : ℝ) ≤ 1 := by
  have a := hA.det_pos
  have b := hB.det_pos
  have c := (posDef_mean A B hA hB).det_pos
  refine ⟨by positivity, ?_⟩
  rw [div_le_one (by positivity), ← Real.mul_rpow a.le b.le]
  calc (A.det * B.det) ^ (1 / 4 : ℝ) ≤ (((1 / 2 : ℝ) • (A + B)).det ^ 2) ^ (1 / 4 : ℝ) :=
        Real.rpow_le_rpow (by positivity) (det_mul_le A B hA hB) (by norm_num)
    _ = _ := by
        rw [← Real.rpow_natCast _ 2, ← Real.rpow_mul c.le]
        norm_num

theorem quad_neg (M : Matrix (Fin d) (Fin d) ℝ) (v : Fin d → ℝ) : (-v) ⬝ᵥ M *ᵥ (-v) = v ⬝ᵥ M *ᵥ v := by
  rw [mulVec_neg, neg_dotProduct, dotProduct_neg, neg_neg]

theorem quad_nonneg (M : Matrix (Fin d) (Fin d) ℝ) (hM : M.PosSemidef) (v : Fin d → ℝ) : 0 ≤ v ⬝ᵥ M *ᵥ v := by
  have := hM.dotProduct_mulVec_nonneg v
  simpa using this

/-- The mixed second derivative of `exp(-q(a e_i + b e_j))` at the origin. -/
theorem deriv_exp_quad (M : Matrix (Fin d) (Fin d) ℝ) (i j : Fin d) :
    deriv (fun a : ℝ => deriv (fun b : ℝ => Real.exp (-((Pi.single i a + Pi.single j b) ⬝ᵥ M *ᵥ (Pi.single i a + Pi.single j b))))
      0) 0 = -(M i j + M j i) := by
  have hq : ∀ a b : ℝ, (Pi.single i a + Pi.single j b) ⬝ᵥ M *ᵥ (Pi.single i a + Pi.single j b) =
      M i i * a ^ 2 + (M i j + M j i) * (a * b) + M j j * b ^ 2 := by
    intro a b
    simp only [mulVec_add, dotProduct_add, add_dotProduct, single_dotProduct, mulVec_single]
    simp
    ring
  have h1 : ∀ a : ℝ, deriv (fun b : ℝ => Real.exp (-((Pi.single i a + Pi.single j b) ⬝ᵥ M *ᵥ (Pi.single i a + Pi.single j b)))) 0 =
      Real.exp (-(M i i * a ^ 2)) * (-((M i j + M j i) * a)) := by
    intro a
    simp only [hq]
    have hd : HasDerivAt (fun b : ℝ => -(M i i * a ^ 2 + (M i j + M j i) * (a * b) + M j j * b ^ 2))
        (-((M i j + M j i) * a)) 0 := by
      have h := ((((hasDerivAt_id (0 : ℝ)).const_mul a).const_mul (M i j + M j i)).const_add (M i i * a ^ 2)).add
        (((hasDerivAt_id (0 : ℝ)).pow 2).const_mul (M j j))
      have h := h.neg
      exact h.congr_deriv (by simp)
    have := hd.exp.deriv
    simpa using this
  simp only [h1]
  have hd : HasDerivAt (fun a : ℝ => Real.exp (-(M i i * a ^ 2)) * (-((M i j + M j i) * a))) (-(M i j + M j i)) 0 := by
    have e1 : HasDerivAt (fun a : ℝ => -(M i i * a ^ 2)) 0 0 := by
      have h := (((hasDerivAt_id (0 : ℝ)).pow 2).const_mul (M i i)).neg
      exact h.congr_deriv (by simp)
    have e2 : HasDerivAt (fun a : ℝ => -((M i j + M j i) * a)) (-(M i j + M j i)) 0 := by
      have h := ((hasDerivAt_id (0 : ℝ)).const_mul (M i j + M j i)).neg
      exact h.congr_deriv (by simp)
    have h := e1.exp.mul e2
    exact h.congr_deriv (by simp)
  exact hd.deriv

end Sympkf.Cor
