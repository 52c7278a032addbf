import Verif.Props.Consistency

/-!
# Lemmas: the first two differences of the generated code, and Euler's method for advection and diffusion
-/

set_option autoImplicit false

namespace Sympkf.Props

open Text PDE Spec.PDE FinDiff

theorem unitWeight_one : unitWeight ℝ 1 0 = -(1/2) ∧ unitWeight ℝ 1 1 = 1/2 := by
  have h0 := unit_moment (K := ℝ) 1 0 (by norm_num)
  have h1 := unit_moment (K := ℝ) 1 1 (by norm_num)
  simp [Finset.sum_range_succ, off] at h0 h1
  constructor <;> linarith

theorem unitWeight_two : unitWeight ℝ 2 0 = 1 ∧ unitWeight ℝ 2 1 = -2 ∧ unitWeight ℝ 2 2 = 1 := by
  have h0 := unit_moment (K := ℝ) 2 0 (by norm_num)
  have h1 := unit_moment (K := ℝ) 2 1 (by norm_num)
  have h2 := unit_moment (K := ℝ) 2 2 (by norm_num)
  simp [Finset.sum_range_succ, off] at h0 h1 h2
  refine ⟨?_, ?_, ?_⟩ <;> linarith

section
variable {coords : List Str} (hc : coords.Nodup) (ht : time ∉ coords) (n : Fin coords.length → ℕ) (h : Fin coords.length → ℝ)
  (hh : ∀ i, h i ≠ 0) (a : Arr coords.length ℝ) (i : Fin coords.length) (idx : Fin coords.length → ℕ) (hidx : ∀ i, idx i < n i)
include hc ht hh hidx

theorem fdDiff_one_axis (o : ℕ) : fdDiff coords n h [(coords[i], o)] a idx = gridDeriv n h i o a idx := by
  have hbox : idx ∈ box n := (mem_box n idx).2 hidx
  unfold fdDiff
  rw [shifted_zero]
  refine (codeValue_fdExpr n h hh hc ht a [] [(i, o)] (fun _ => 0) idx hbox).trans ?_
  refine gridMixed_congr n h hh [(i, o)] _ _ (fun j hj => ?_) idx hbox
  congr 1
  funext i
  exact gridIndex_zero _ _ ((mem_box n j).1 hj i)

/-- The centred first difference. -/
theorem fdDiff_first : fdDiff coords n h [(coords[i], 1)] a idx = (a (sh n i 1 idx) - a (sh n i (-1) idx)) / (2 * h i) := by
  rw [fdDiff_one_axis hc ht n h hh a i idx hidx, gridDeriv_eq_sum n h i 1 (hh i)]
  have := hh i
  simp [Finset.sum_range_succ, unitWeight_one, off]
  field_simp
  ring

/-- The centred second difference. -/
theorem fdDiff_second :
    fdDiff coords n h [(coords[i], 2)] a idx = (a (sh n i 1 idx) - 2 * a idx + a (sh n i (-1) idx)) / h i ^ 2 := by
  rw [fdDiff_one_axis hc ht n h hh a i idx hidx, gridDeriv_eq_sum n h i 2 (hh i)]
  have := hh i
  simp [Finset.sum_range_succ, unitWeight_two, off, sh_zero n i idx (hidx i)]
  field_simp
  ring

end

/-- Euler's method for `U' = - c U U_x + κ U_xx`, centred: the distance between two states is amplified by at most `1 + c L dt` when
`2 κ dt ≤ h²` and `c h |U| ≤ 2 κ`, where `L` bounds the differences of the second state. -/
theorem centred_stable (c κ h dt L e U U₁ U₂ V V₁ V₂ : ℝ) (hh : 0 < h) (hdt : 0 ≤ dt) (hc : 0 ≤ c)
    (hcfl : 2 * κ * dt ≤ h ^ 2) (hpe : c * h * |U| ≤ 2 * κ) (h0 : |U - V| ≤ e) (h1 : |U₁ - V₁| ≤ e) (h2 : |U₂ - V₂| ≤ e)
    (hL : |(V₁ - V₂) / (2 * h)| ≤ L) :
    |(U + dt * (-1 * (c * (U * ((U₁ - U₂) / (2 * h)))) + κ * ((U₁ - 2 * U + U₂) / h ^ 2))) -
      (V + dt * (-1 * (c * (V * ((V₁ - V₂) / (2 * h)))) + κ * ((V₁ - 2 * V + V₂) / h ^ 2)))| ≤ (1 + c * L * dt) * e := by
  set p := dt * (κ / h ^ 2 - c * U / (2 * h)) with hp
  set q := dt * (κ / h ^ 2 + c * U / (2 * h)) with hq
  have hcU := abs_le.1 (le_of_eq_of_le (by rw [abs_mul, abs_of_nonneg (by positivity)]) hpe : |c * h * U| ≤ 2 * κ)
  have e1 : κ / h ^ 2 - c * U / (2 * h) = (2 * κ - c * h * U) / (2 * h ^ 2) := by field_simp
  have e2 : κ / h ^ 2 + c * U / (2 * h) = (2 * κ + c * h * U) / (2 * h ^ 2) := by field_simp
  have hp0 : 0 ≤ p := by rw [hp, e1]; exact mul_nonneg hdt (div_nonneg (by linarith) (by positivity))
  have hq0 : 0 ≤ q := by rw [hq, e2]; exact mul_nonneg hdt (div_nonneg (by linarith) (by positivity))
  have hpq : p + q = 2 * κ * dt / h ^ 2 := by rw [hp, hq]; field_simp; ring
  have hpq1 : p + q ≤ 1 := by rw [hpq, div_le_one (by positivity)]; exact hcfl
  have e3 : (U + dt * (-1 * (c * (U * ((U₁ - U₂) / (2 * h)))) + κ * ((U₁ - 2 * U + U₂) / h ^ 2))) -
      (V + dt * (-1 * (c * (V * ((V₁ - V₂) / (2 * h)))) + κ * ((V₁ - 2 * V + V₂) / h ^ 2))) =
      (1 - (p + q)) * (U - V) + p * (U₁ - V₁) + q * (U₂ - V₂) - dt * (c * ((V₁ - V₂) / (2 * h))) * (U - V) := by
    rw [hp, hq]; field_simp; ring
  have he : 0 ≤ e := (abs_nonneg _).trans h0
  have hL0 : 0 ≤ L := (abs_nonneg _).trans hL
  rw [e3]
  have k1 : |(1 - (p + q)) * (U - V)| ≤ (1 - (p + q)) * e := by
    rw [abs_mul, abs_of_nonneg (by linarith)]; exact mul_le_mul_of_nonneg_left h0 (by linarith)
  have k2 : |p * (U₁ - V₁)| ≤ p * e := by rw [abs_mul, abs_of_nonneg hp0]; exact mul_le_mul_of_nonneg_left h1 hp0
  have k3 : |q * (U₂ - V₂)| ≤ q * e := by rw [abs_mul, abs_of_nonneg hq0]; exact mul_le_mul_of_nonneg_left h2 hq0
  have k4 : |dt * (c * ((V₁ - V₂) / (2 * h))) * (U - V)| ≤ dt * (c * L) * e := by
    rw [abs_mul, abs_mul, abs_mul, abs_of_nonneg hdt, abs_of_nonneg hc]
    gcongr
  have := abs_sub ((1 - (p + q)) * (U - V) + p * (U₁ - V₁) + q * (U₂ - V₂)) (dt * (c * ((V₁ - V₂) / (2 * h))) * (U - V))
  have := abs_add_three ((1 - (p + q)) * (U - V)) (p * (U₁ - V₁)) (q * (U₂ - V₂))
  linarith

end Sympkf.Props
