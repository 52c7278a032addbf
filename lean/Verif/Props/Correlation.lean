import Mathlib.LinearAlgebra.Matrix.Notation
import Verif.Spec.Correlation
import Verif.Lemmas.Correlation
import Verif.Lemmas.GaussKernel

/-!
# Properties of the prototypes of correlation functions (C61)
-/

set_option autoImplicit false

namespace Sympkf.Cor

open Matrix Spec.Cor

variable {d : ℕ}

/-! ## `Closure.correlation` -/

/-- **C61** for the aspect tensor: for every field of positive definite tensors the prototype is one at zero separation, symmetric,
positive and bounded by one. -/
theorem C61_aspect (s : Tensor d) (hs : ∀ x, (s x).PosDef) :
    Spec.Cor.Unit (correlation s) ∧ Symmetric (correlation s) ∧ Spec.Cor.Bounded (correlation s) := by
  refine ⟨fun x => ?_, fun x y => ?_, fun x y => ?_⟩
  · simp only [correlation]
    rw [norm_self _ (hs x).det_pos, sub_self]
    simp
  · simp only [correlation]
    rw [add_comm (s y) (s x), mul_comm ((s y).det ^ (1 / 4 : ℝ)), ← neg_sub y x, quad_neg]
  · simp only [correlation]
    obtain ⟨h1, h2⟩ := norm_le (s x) (s y) (hs x) (hs y)
    have hq := quad_nonneg _ ((hs x).add (hs y)).inv.posSemidef (x - y)
    refine ⟨mul_pos h1 (Real.exp_pos _), ?_⟩
    exact mul_le_one₀ h2 (Real.exp_pos _).le (Real.exp_le_one_iff.2 (by linarith))

/-- **C61** for a homogeneous aspect tensor `g^-1`: the second derivative at the origin is minus the metric `g`. -/
theorem C61_aspect_metric (g : Matrix (Fin d) (Fin d) ℝ) (hg : g.PosDef) : HasMetric (correlation (fun _ => g⁻¹)) g := by
  intro x i j
  have hu : IsUnit g.det := isUnit_iff_ne_zero.2 hg.det_pos.ne'
  have hsym : g j i = g i j := by have := hg.isHermitian.apply i j; simpa using this
  have h2 : (g⁻¹ + g⁻¹)⁻¹ = (1 / 2 : ℝ) • g := by
    rw [← two_smul ℝ (g⁻¹)]
    refine Matrix.inv_eq_right_inv ?_
    rw [Matrix.smul_mul, Matrix.mul_smul, Matrix.nonsing_inv_mul _ hu, smul_smul]
    norm_num
  have hf : ∀ a b : ℝ, correlation (fun _ => g⁻¹) x (x + (Pi.single i a + Pi.single j b)) =
      Real.exp (-((Pi.single i a + Pi.single j b) ⬝ᵥ ((1 / 2 : ℝ) • g) *ᵥ (Pi.single i a + Pi.single j b))) := by
    intro a b
    simp only [correlation]
    rw [norm_self _ hg.inv.det_pos, one_mul, h2, sub_add_cancel_left, quad_neg]
  simp only [hf]
  rw [deriv_exp_quad]
  simp only [Matrix.smul_apply, smul_eq_mul, hsym]
  ring

/-! ## `Closure.correlation_in_diffusion` -/

/-- **C61** for the diffusion tensor. -/
theorem C61_diffusion (nu : Tensor d) (hs : ∀ x, (nu x).PosDef) :
    Spec.Cor.Unit (correlationInDiffusion nu) ∧ Symmetric (correlationInDiffusion nu) ∧
      Spec.Cor.Bounded (correlationInDiffusion nu) := by
  refine ⟨fun x => ?_, fun x y => ?_, fun x y => ?_⟩
  · simp only [correlationInDiffusion]
    rw [norm_self _ (hs x).det_pos, sub_self]
    simp
  · simp only [correlationInDiffusion]
    rw [add_comm (nu y) (nu x), mul_comm ((nu y).det ^ (1 / 4 : ℝ)), ← neg_sub y x, quad_neg]
  · simp only [correlationInDiffusion]
    obtain ⟨h1, h2⟩ := norm_le (nu x) (nu y) (hs x) (hs y)
    have hq := quad_nonneg _ ((hs x).add (hs y)).inv.posSemidef (x - y)
    refine ⟨mul_pos h1 (Real.exp_pos _), ?_⟩
    exact mul_le_one₀ h2 (Real.exp_pos _).le (Real.exp_le_one_iff.2 (by linarith))

/-- **C61** for a homogeneous diffusion tensor `nu`, related to the metric by `nu g = 1/2` (pkfcas.py 481). -/
theorem C61_diffusion_metric (nu g : Matrix (Fin d) (Fin d) ℝ) (hn : nu.PosDef) (h : nu * g = (1 / 2 : ℝ) • 1) :
    HasMetric (correlationInDiffusion (fun _ => nu)) g := by
  intro x i j
  have h2 : (nu + nu)⁻¹ = g := by
    rw [← two_smul ℝ nu]
    refine Matrix.inv_eq_right_inv ?_
    rw [Matrix.smul_mul, h, smul_smul]
    norm_num
  have hsym : g j i = g i j := by
    have := (hn.add hn).inv.isHermitian.apply i j
    rw [h2] at this
    simpa using this
  have hf : ∀ a b : ℝ, correlationInDiffusion (fun _ => nu) x (x + (Pi.single i a + Pi.single j b)) =
      Real.exp (-((Pi.single i a + Pi.single j b) ⬝ᵥ ((1 / 2 : ℝ) • g) *ᵥ (Pi.single i a + Pi.single j b))) := by
    intro a b
    simp only [correlationInDiffusion]
    rw [norm_self _ hn.det_pos, one_mul, h2, sub_add_cancel_left, quad_neg, smul_mulVec, dotProduct_smul, smul_eq_mul]
    congr 1
    ring
  simp only [hf]
  rw [deriv_exp_quad]
  simp only [Matrix.smul_apply, smul_eq_mul, hsym]
  ring

/-! ## `LocGaussianClosure.correlation` -/

/-- **C61** for the local Gaussian: one at zero separation, positive and bounded by one. -/
theorem C61_local (m : Bool) (g s : Tensor d) (hg : ∀ x, (g x).PosDef) (hs : ∀ x, (s x).PosDef) :
    Spec.Cor.Unit (locGaussian m g s) ∧ Spec.Cor.Bounded (locGaussian m g s) := by
  refine ⟨fun x => ?_, fun x y => ⟨Real.exp_pos _, Real.exp_le_one_iff.2 ?_⟩⟩
  · cases m <;> simp [locGaussian]
  · cases m
    · have := quad_nonneg _ ((hs x).smul (show (0 : ℝ) < 2 by norm_num)).inv.posSemidef (x - y)
      simpa using this
    · have := quad_nonneg _ (hg x).posSemidef (x - y)
      simpa using this

/-- **C61** for the local Gaussian of homogeneous tensors: symmetric.  What is missing: heterogeneous tensors, see
`C61_counterexample_local_symmetric`. -/
theorem C61_local_symmetric_partial (m : Bool) (g s : Matrix (Fin d) (Fin d) ℝ) :
    Symmetric (locGaussian m (fun _ => g) (fun _ => s)) := by
  intro x y
  simp only [locGaussian]
  rw [← neg_sub y x, quad_neg, quad_neg]

/-- **C61** for the local Gaussian of a homogeneous aspect tensor: the second derivative at the origin is minus the metric.  What is
missing: the option `metric=True`, see `C61_counterexample_local_metric`. -/
theorem C61_local_metric_partial (g : Matrix (Fin d) (Fin d) ℝ) (hg : g.PosDef) (g' : Tensor d) :
    HasMetric (locGaussian false g' (fun _ => g⁻¹)) g := by
  intro x i j
  have hu : IsUnit g.det := isUnit_iff_ne_zero.2 hg.det_pos.ne'
  have hsym : g j i = g i j := by have := hg.isHermitian.apply i j; simpa using this
  have h2 : ((2 : ℝ) • g⁻¹)⁻¹ = (1 / 2 : ℝ) • g := by
    refine Matrix.inv_eq_right_inv ?_
    rw [Matrix.smul_mul, Matrix.mul_smul, Matrix.nonsing_inv_mul _ hu, smul_smul]
    norm_num
  have hf : ∀ a b : ℝ, locGaussian false g' (fun _ => g⁻¹) x (x + (Pi.single i a + Pi.single j b)) =
      Real.exp (-((Pi.single i a + Pi.single j b) ⬝ᵥ ((1 / 2 : ℝ) • g) *ᵥ (Pi.single i a + Pi.single j b))) := by
    intro a b
    simp only [locGaussian, Bool.false_eq_true, if_false]
    rw [h2, sub_add_cancel_left, quad_neg]
  simp only [hf]
  rw [deriv_exp_quad]
  simp only [Matrix.smul_apply, smul_eq_mul, hsym]
  ring

/-- With `metric=True` (the default) the second derivative of the local Gaussian is `- 2 g`: the factor `1/2` of
`exp(-||dx||_g^2 / 2)` is missing. -/
theorem C61_local_twice (g : Matrix (Fin d) (Fin d) ℝ) (hg : g.PosDef) (s : Tensor d) :
    HasMetric (locGaussian true (fun _ => g) s) ((2 : ℝ) • g) := by
  intro x i j
  have hsym : g j i = g i j := by have := hg.isHermitian.apply i j; simpa using this
  have hf : ∀ a b : ℝ, locGaussian true (fun _ => g) s x (x + (Pi.single i a + Pi.single j b)) =
      Real.exp (-((Pi.single i a + Pi.single j b) ⬝ᵥ g *ᵥ (Pi.single i a + Pi.single j b))) := by
    intro a b
    simp only [locGaussian, if_true]
    rw [sub_add_cancel_left, quad_neg]
  simp only [hf]
  rw [deriv_exp_quad]
  simp only [Matrix.smul_apply, smul_eq_mul, hsym]
  ring

/-- The property C61 is false for the local Gaussian with `metric=True`, in every dimension. -/
theorem C61_counterexample_local_metric (hd : 0 < d) (g : Matrix (Fin d) (Fin d) ℝ) (hg : g.PosDef) (s : Tensor d) :
    ¬ HasMetric (locGaussian true (fun _ => g) s) g := by
  intro h
  have h1 := h 0 ⟨0, hd⟩ ⟨0, hd⟩
  rw [C61_local_twice g hg s 0 ⟨0, hd⟩ ⟨0, hd⟩] at h1
  simp only [Matrix.smul_apply, smul_eq_mul] at h1
  have h2 : 0 < g ⟨0, hd⟩ ⟨0, hd⟩ := hg.diag_pos
  linarith

/-- Symmetry is false for the local Gaussian of heterogeneous tensors: in one dimension with the metric `1 + x^2`. -/
theorem C61_counterexample_local_symmetric :
    ¬ Symmetric (locGaussian (d := 1) true (fun x => !![1 + x 0 ^ 2]) (fun _ => 1)) := by
  intro h
  have := h ![0] ![1]
  simp only [locGaussian, if_true, Real.exp_eq_exp] at this
  simp [dotProduct, mulVec] at this

/-! ## Positive semidefinite -/

/-- **C61** The default prototype is positive semidefinite, for every field of positive definite tensors in every dimension: it is the
scalar product of Gaussian functions. -/
theorem C61_aspect_semidefinite (s : Tensor d) (hs : ∀ x, (s x).PosDef) : Semidefinite (correlation s) := by
  intro n x c
  have hk : 0 < gaussTotal d * ((1 / 2 : ℝ) ^ d) ^ (1 / 2 : ℝ) := mul_pos gaussTotal_pos (Real.rpow_pos_of_pos (by positivity) _)
  have h : (gaussTotal d * ((1 / 2 : ℝ) ^ d) ^ (1 / 2 : ℝ)) * ∑ i, ∑ j, c i * c j * correlation s (x i) (x j) =
      ∫ u, (∑ i, c i * bump s (x i) u) ^ 2 := by
    have h1 : ∀ u, (∑ i, c i * bump s (x i) u) ^ 2 = ∑ i, ∑ j, c i * c j * (bump s (x i) u * bump s (x j) u) := by
      intro u
      rw [sq, Finset.sum_mul_sum]
      refine Finset.sum_congr rfl fun i _ => Finset.sum_congr rfl fun j _ => ?_
      ring
    have hint : ∀ i j, MeasureTheory.Integrable (fun u => c i * c j * (bump s (x i) u * bump s (x j) u)) :=
      fun i j => (bump_inner s hs (x i) (x j)).1.const_mul _
    simp only [h1]
    rw [MeasureTheory.integral_finsetSum _ fun i _ => MeasureTheory.integrable_finsetSum _ fun j _ => hint i j, Finset.mul_sum]
    refine Finset.sum_congr rfl fun i _ => ?_
    rw [MeasureTheory.integral_finsetSum _ fun j _ => hint i j, Finset.mul_sum]
    refine Finset.sum_congr rfl fun j _ => ?_
    rw [MeasureTheory.integral_const_mul, (bump_inner s hs (x i) (x j)).2]
    ring
  refine nonneg_of_mul_nonneg_right ?_ hk
  rw [h]
  exact MeasureTheory.integral_nonneg fun u => sq_nonneg _

theorem diffusion_eq (nu : Tensor d) (hs : ∀ x, (nu x).PosDef) : correlationInDiffusion nu = correlation (fun x => (2 : ℝ) • nu x) := by
  funext x y
  have px := (hs x).det_pos
  have py := (hs y).det_pos
  have ps := ((hs x).add (hs y)).det_pos
  have hinv : ((2 : ℝ) • nu x + (2 : ℝ) • nu y)⁻¹ = (1 / 2 : ℝ) • (nu x + nu y)⁻¹ := by
    refine Matrix.inv_eq_right_inv ?_
    rw [← smul_add, Matrix.smul_mul, Matrix.mul_smul, Matrix.mul_nonsing_inv _ (isUnit_iff_ne_zero.2 ps.ne'), smul_smul]
    norm_num
  simp only [correlationInDiffusion, correlation]
  rw [hinv, ← smul_add, smul_smul, smul_mulVec, dotProduct_smul, smul_eq_mul]
  have e1 : ((1 / 2 : ℝ) * 2) • (nu x + nu y) = (2 : ℝ) • ((1 / 2 : ℝ) • (nu x + nu y)) := by rw [smul_smul]; norm_num
  have hp : 0 < ((1 / 2 : ℝ) • (nu x + nu y)).det := (((hs x).add (hs y)).smul (by norm_num : (0 : ℝ) < 1 / 2)).det_pos
  have a1 : (((1 / 2 : ℝ) • (nu x + nu y)).det) ^ (1 / 2 : ℝ) ≠ 0 := (Real.rpow_pos_of_pos hp _).ne'
  rw [e1]
  generalize (1 / 2 : ℝ) • (nu x + nu y) = T at hp a1 ⊢
  rw [det_smul, det_smul, det_smul, Fintype.card_fin, Real.mul_rpow (by positivity) px.le, Real.mul_rpow (by positivity) py.le,
    Real.mul_rpow (by positivity) hp.le]
  have q : ((2 : ℝ) ^ d) ^ (1 / 2 : ℝ) = ((2 : ℝ) ^ d) ^ (1 / 4 : ℝ) * ((2 : ℝ) ^ d) ^ (1 / 4 : ℝ) := by
    rw [← Real.rpow_add (by positivity)]
    norm_num
  rw [q]
  have a0 : ((2 : ℝ) ^ d) ^ (1 / 4 : ℝ) ≠ 0 := (Real.rpow_pos_of_pos (by positivity) _).ne'
  rw [neg_mul]
  congr 1
  field_simp

/-- **C61** The same for the prototype made with the diffusion tensor. -/
theorem C61_diffusion_semidefinite (nu : Tensor d) (hs : ∀ x, (nu x).PosDef) : Semidefinite (correlationInDiffusion nu) := by
  rw [diffusion_eq nu hs]
  exact C61_aspect_semidefinite _ fun x => (hs x).smul (by norm_num)

theorem local_eq (s : Matrix (Fin d) (Fin d) ℝ) (hs : s.PosDef) (x y : Fin d → ℝ) :
    correlation (fun _ => s) x y = Real.exp (-((x - y) ⬝ᵥ ((2 : ℝ) • s)⁻¹ *ᵥ (x - y))) := by
  simp only [correlation]
  rw [norm_self _ hs.det_pos, one_mul, ← two_smul ℝ s]

/-- **C61** The local Gaussian prototype of a homogeneous tensor is positive semidefinite.  What is missing: tensors that vary, for which
the prototype is not symmetric (`C61_counterexample_local_symmetric`). -/
theorem C61_local_semidefinite_partial (m : Bool) (g s : Matrix (Fin d) (Fin d) ℝ) (hg : g.PosDef) (hs : s.PosDef) :
    Semidefinite (locGaussian m (fun _ => g) (fun _ => s)) := by
  cases m
  · have h : locGaussian false (fun _ => g) (fun _ => s) = correlation (fun _ => s) := by
      funext x y
      rw [local_eq s hs]
      simp [locGaussian]
    rw [h]
    exact C61_aspect_semidefinite _ fun _ => hs
  · have hp : ((2 : ℝ) • g)⁻¹.PosDef := (hg.smul (by norm_num : (0 : ℝ) < 2)).inv
    have hinv : ((2 : ℝ) • ((2 : ℝ) • g)⁻¹)⁻¹ = g := by
      refine Matrix.inv_eq_right_inv ?_
      rw [Matrix.smul_mul, ← Matrix.mul_smul, Matrix.nonsing_inv_mul]
      exact isUnit_iff_ne_zero.2 (hg.smul (by norm_num : (0 : ℝ) < 2)).det_pos.ne'
    have h : locGaussian true (fun _ => g) (fun _ => s) = correlation (fun _ => ((2 : ℝ) • g)⁻¹) := by
      funext x y
      rw [local_eq _ hp, hinv]
      simp [locGaussian]
    rw [h]
    exact C61_aspect_semidefinite _ fun _ => hp

/-! ## Examples -/

theorem posDef_demo : (!![2, 1; 1, 2] : Matrix (Fin 2) (Fin 2) ℝ).PosDef := by
  refine Matrix.PosDef.of_dotProduct_mulVec_pos ?_ ?_
  · ext i j; fin_cases i <;> fin_cases j <;> simp [conjTranspose_apply]
  · intro v hv
    have hne : v 0 ≠ 0 ∨ v 1 ≠ 0 := by
      by_contra h
      push Not at h
      exact hv (by ext i; fin_cases i <;> simp [h.1, h.2])
    simp [dotProduct, mulVec, Fin.sum_univ_two]
    rcases hne with h | h
    · nlinarith [sq_nonneg (v 0 + 2 * v 1), sq_pos_of_ne_zero h]
    · nlinarith [sq_nonneg (v 1 + 2 * v 0), sq_pos_of_ne_zero h]

/-- A heterogeneous field of tensors, correlated. -/
example : Symmetric (correlation (d := 2) (fun x => (1 + x 0 ^ 2) • !![2, 1; 1, 2])) :=
  (C61_aspect _ (fun x => posDef_demo.smul (by positivity))).2.1

example : HasMetric (correlation (fun _ => (!![2, 1; 1, 2] : Matrix (Fin 2) (Fin 2) ℝ)⁻¹)) !![2, 1; 1, 2] :=
  C61_aspect_metric _ posDef_demo

example : HasMetric (correlationInDiffusion (fun _ => (1 / 2 : ℝ) • (!![2, 1; 1, 2] : Matrix (Fin 2) (Fin 2) ℝ)⁻¹))
    !![2, 1; 1, 2] :=
  C61_diffusion_metric _ _ (posDef_demo.inv.smul (by norm_num)) (by
    rw [Matrix.smul_mul, Matrix.nonsing_inv_mul _ (isUnit_iff_ne_zero.2 posDef_demo.det_pos.ne')])

example : ¬ HasMetric (locGaussian true (fun _ => !![2, 1; 1, 2]) (fun _ => 1)) (!![2, 1; 1, 2] : Matrix (Fin 2) (Fin 2) ℝ) :=
  C61_counterexample_local_metric (by norm_num) _ posDef_demo _

end Sympkf.Cor
