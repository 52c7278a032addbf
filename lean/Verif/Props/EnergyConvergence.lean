import Verif.Spec.EnergyConvergence
import Verif.Spec.Convergence
import Verif.Props.Energy
import Verif.Lemmas.OneStep

/-!
# C102: convergence of `rk4` for skew-symmetric dynamics
-/

set_option autoImplicit false

namespace Sympkf.Integrator

open Spec

section

variable {S : Type} [AddCommGroup S] [Module ℝ S] (B : LinearMap.BilinForm ℝ S) (hB : ∀ u v, B u v = B v u) (hp : ∀ u, 0 ≤ energy B u)
include hB

theorem size_congr (u v : S) (h : ∀ x, B u x = B v x) : size B u = size B v := by
  unfold size energy
  rw [h u, hB v u, h v]

omit hB in
theorem size_smul (c : ℝ) (u : S) : size B (c • u) = |c| * size B u := by
  unfold size energy
  simp only [map_smul, LinearMap.smul_apply, smul_eq_mul]
  rw [← mul_assoc, Real.sqrt_mul (mul_self_nonneg c), Real.sqrt_mul_self_eq_abs]

include hp

theorem product_le (u v : S) : B u v ≤ size B u * size B v := by
  have h := hp (size B v • u - size B u • v)
  unfold energy at h
  have hu : size B u * size B u = B u u := Real.mul_self_sqrt (hp u)
  have hv : size B v * size B v = B v v := Real.mul_self_sqrt (hp v)
  simp only [map_sub, map_smul, LinearMap.sub_apply, LinearMap.smul_apply, smul_eq_mul, hB v u, ← hu, ← hv] at h
  by_cases h0 : size B u * size B v = 0
  · have key : ∀ k : ℝ, 0 ≤ B u u - 2 * k * B u v + k ^ 2 * B v v := by
      intro k
      have := hp (u - k • v)
      unfold energy at this
      simp only [map_sub, map_smul, LinearMap.sub_apply, LinearMap.smul_apply, smul_eq_mul, hB v u] at this
      nlinarith
    have key' : ∀ k : ℝ, 0 ≤ k ^ 2 * B u u - 2 * k * B u v + B v v := by
      intro k
      have := hp (k • u - v)
      unfold energy at this
      simp only [map_sub, map_smul, LinearMap.sub_apply, LinearMap.smul_apply, smul_eq_mul, hB v u] at this
      nlinarith
    rw [h0]
    by_contra hc
    rw [not_le] at hc
    rcases mul_eq_zero.1 h0 with h1 | h1
    · have e : B u u = 0 := by rw [← hu, h1, zero_mul]
      have := key' ((B v v + 1) / (2 * B u v))
      rw [e, show 2 * ((B v v + 1) / (2 * B u v)) * B u v = B v v + 1 by field_simp] at this
      linarith
    · have e : B v v = 0 := by rw [← hv, h1, zero_mul]
      have := key ((B u u + 1) / (2 * B u v))
      rw [e, show 2 * ((B u u + 1) / (2 * B u v)) * B u v = B u u + 1 by field_simp] at this
      linarith
  · have hpos : 0 < size B u * size B v := lt_of_le_of_ne (mul_nonneg (Real.sqrt_nonneg _) (Real.sqrt_nonneg _)) (Ne.symm h0)
    have : 0 ≤ 2 * (size B u * size B v) * (size B u * size B v - B u v) := by nlinarith
    by_contra hc
    rw [not_le] at hc
    nlinarith

theorem size_add (u v : S) : size B (u + v) ≤ size B u + size B v := by
  have h := product_le B hB hp u v
  have hu : size B u * size B u = B u u := Real.mul_self_sqrt (hp u)
  have hv : size B v * size B v = B v v := Real.mul_self_sqrt (hp v)
  refine Real.sqrt_le_iff.2 ⟨add_nonneg (Real.sqrt_nonneg _) (Real.sqrt_nonneg _), ?_⟩
  unfold energy
  simp only [map_add, LinearMap.add_apply, hB v u]
  nlinarith

variable (f : ℝ → S → S) (hf : Skew B f)
include hf

/-- One step of `rk4` from a state near `w 0 t`. -/
theorem rk4_near (w : ℕ → ℝ → S) {a b ρ M : ℝ} (hw : NearlySolves B f w a b ρ M) (t t' : ℝ) (h1 : a ≤ t) (h2 : t ≤ t') (h3 : t' ≤ b)
    (h4 : t' - t ≤ 1) (hcfl : ∀ u, (t' - t) ^ 2 * energy B (f t u) ≤ 8 * energy B u) (u : S) :
    size B (rk4 f t u (t' - t) - w 0 t') ≤ size B (u - w 0 t) + (t' - t) * (7 * ρ) + M * (t' - t) ^ 5 := by
  set dt := t' - t with hdt
  have hdt0 : 0 ≤ dt := by linarith
  have ht : t ∈ Set.Icc a b := ⟨h1, h2.trans h3⟩
  have hρ : 0 ≤ ρ := (Real.sqrt_nonneg _).trans (hw.trend 0 (by norm_num) t ht)
  set d : ℕ → S := fun j => (f t)^[j] (w 0 t) - w j t with hd
  have hcfl' : ∀ v, dt * size B (f t v) ≤ 3 * size B v := by
    intro v
    have := Real.sqrt_le_sqrt ((hcfl v).trans (show 8 * energy B v ≤ 3 ^ 2 * energy B v by linarith [hp v]))
    rwa [Real.sqrt_mul (sq_nonneg _), Real.sqrt_mul (by norm_num), Real.sqrt_sq hdt0, Real.sqrt_sq (by norm_num)] at this
  have hnext : ∀ j < 4, size B (d (j + 1)) ≤ size B (f t (d j)) + ρ := by
    intro j hj
    have e : size B (d (j + 1)) = size B (f t (d j) + (f t (w j t) - w (j + 1) t)) := by
      refine size_congr B hB _ _ fun x => ?_
      simp only [hd, Function.iterate_succ_apply', map_add, map_sub, LinearMap.add_apply, LinearMap.sub_apply, hf t t]
      ring
    rw [e]
    exact (size_add B hB hp _ _).trans (add_le_add le_rfl (hw.trend j hj t ht))
  have hd0 : size B (d 0) = 0 := by simp [hd, size, energy]
  have x1 : dt * size B (d 1) ≤ dt * ρ := by
    have := mul_le_mul_of_nonneg_left (hnext 0 (by norm_num)) hdt0
    have := hcfl' (d 0)
    rw [hd0] at this
    linarith
  have hdd : dt ^ 2 ≤ dt := by nlinarith
  have x2 : dt ^ 2 * size B (d 2) ≤ 4 * (dt * ρ) := by
    have k1 := mul_le_mul_of_nonneg_left (hnext 1 (by norm_num)) (sq_nonneg dt)
    have k2 := mul_le_mul_of_nonneg_left (hcfl' (d 1)) hdt0
    have k3 := mul_le_mul_of_nonneg_right hdd hρ
    norm_num at k1
    nlinarith
  have hd3 : dt ^ 3 ≤ dt := by nlinarith
  have x3 : dt ^ 3 * size B (d 3) ≤ 13 * (dt * ρ) := by
    have k1 := mul_le_mul_of_nonneg_left (hnext 2 (by norm_num)) (pow_nonneg hdt0 3)
    have k2 := mul_le_mul_of_nonneg_left (hcfl' (d 2)) (sq_nonneg dt)
    have k3 := mul_le_mul_of_nonneg_right hd3 hρ
    norm_num at k1
    nlinarith
  have hd4 : dt ^ 4 ≤ dt := by nlinarith
  have x4 : dt ^ 4 * size B (d 4) ≤ 40 * (dt * ρ) := by
    have k1 := mul_le_mul_of_nonneg_left (hnext 3 (by norm_num)) (pow_nonneg hdt0 4)
    have k2 := mul_le_mul_of_nonneg_left (hcfl' (d 3)) (pow_nonneg hdt0 3)
    have k3 := mul_le_mul_of_nonneg_right hd4 hρ
    norm_num at k1
    nlinarith
  set r : S := w 0 t' - ∑ j ∈ Finset.range 5, (dt ^ j / (Nat.factorial j : ℝ)) • w j t with hr
  have e : size B (rk4 f t u dt - w 0 t') = size B (rk4 f t (u - w 0 t) dt + (dt • d 1 + ((dt ^ 2 / 2) • d 2 + ((dt ^ 3 / 6) • d 3 +
      ((dt ^ 4 / 24) • d 4 + (-1 : ℝ) • r))))) := by
    refine size_congr B hB _ _ fun x => ?_
    simp only [map_add, map_sub, LinearMap.add_apply, LinearMap.sub_apply, rk4_seen B f hf, hr, hd, Finset.sum_range_succ, Finset.sum_range_zero,
      Function.iterate_succ_apply', Function.iterate_zero, id, hf t t, map_smul, LinearMap.smul_apply, smul_eq_mul, Nat.factorial, zero_add]
    push_cast
    ring
  rw [e]
  have hst : size B (rk4 f t (u - w 0 t) dt) ≤ size B (u - w 0 t) := by
    refine Real.sqrt_le_sqrt ?_
    rw [(C99_step B hB f hf t dt _).2.2]
    have := mul_le_mul_of_nonneg_left (hcfl (f t (f t (f t (u - w 0 t))))) (show (0 : ℝ) ≤ dt ^ 6 / 576 by positivity)
    nlinarith
  have hr' : size B r ≤ M * dt ^ 5 := hw.taylor t t' h1 h2 h3
  have s1 := size_add B hB hp (rk4 f t (u - w 0 t) dt) (dt • d 1 + ((dt ^ 2 / 2) • d 2 + ((dt ^ 3 / 6) • d 3 + ((dt ^ 4 / 24) • d 4 + (-1 : ℝ) • r))))
  have s2 := size_add B hB hp (dt • d 1) ((dt ^ 2 / 2) • d 2 + ((dt ^ 3 / 6) • d 3 + ((dt ^ 4 / 24) • d 4 + (-1 : ℝ) • r)))
  have s3 := size_add B hB hp ((dt ^ 2 / 2) • d 2) ((dt ^ 3 / 6) • d 3 + ((dt ^ 4 / 24) • d 4 + (-1 : ℝ) • r))
  have s4 := size_add B hB hp ((dt ^ 3 / 6) • d 3) ((dt ^ 4 / 24) • d 4 + (-1 : ℝ) • r)
  have s5 := size_add B hB hp ((dt ^ 4 / 24) • d 4) ((-1 : ℝ) • r)
  rw [size_smul] at s2
  rw [size_smul] at s3
  rw [size_smul] at s4
  rw [size_smul, size_smul] at s5
  rw [abs_of_nonneg hdt0] at s2
  rw [abs_of_nonneg (by positivity)] at s3
  rw [abs_of_nonneg (by positivity)] at s4
  rw [abs_of_nonneg (by positivity), abs_neg, abs_one, one_mul] at s5
  have : 0 ≤ dt * ρ := mul_nonneg hdt0 hρ
  linarith

/-- **C102** `rk4` on skew-symmetric dynamics converges: if `w 0` and its derivatives nearly solve the equations and the steps are at most `1` and
such that `dt² E(f u) ≤ 8 E(u)`, the errors of the forecast, measured by the root of the energy, are at most the initial error plus the time
elapsed times `7 ρ + M η⁴`. -/
theorem C102_rk4 (w : ℕ → ℝ → S) {a b ρ M η : ℝ} (hM : 0 ≤ M) (hη : η ≤ 1) (hw : NearlySolves B f w a b ρ M) (window saved : List ℝ)
    (hpart : Spec.Partition a b η window)
    (hcfl : ∀ (i : ℕ) t t', window[i]? = some t → window[i + 1]? = some t' → ∀ u, (t' - t) ^ 2 * energy B (f t u) ≤ 8 * energy B u) (u0 : S) :
    ∃ fc, forecast (step .rk4 (.fn f)) window (.single u0) (.list saved) = .ok fc ∧
      ∀ τ ∈ window, τ ∈ saved → ∃ u, fc.get? τ = some (.single u) ∧
        size B (u - w 0 τ) ≤ size B (u0 - w 0 a) + (τ - a) * (7 * ρ + M * η ^ 4) := by
  obtain ⟨fc, xs, hfc, hxs, hval⟩ := C01_forecast_scheme .rk4 rk4 rfl f window
    (by rintro rfl; simpa using hpart.start) u0 saved
  have hmain : ∀ (i : ℕ) t x, window[i]? = some t → xs[i]? = some x →
      size B (x - w 0 t) ≤ size B (u0 - w 0 a) + (t - a) * (7 * ρ + M * η ^ 4) := by
    intro i
    induction i with
    | zero =>
      intro t x k1 k2
      obtain rfl : a = t := by simpa [hpart.start] using k1
      obtain rfl : u0 = x := by simpa [hxs.start] using k2
      simp
    | succ i ih =>
      intro t' x' k1 k2
      obtain ⟨t, k3⟩ := Order.exists_getElem? window i (by have := Order.lt_of_getElem? k1; omega)
      obtain ⟨x, k4⟩ := Order.exists_getElem? xs i (by have := Order.lt_of_getElem? k2; omega)
      obtain ⟨x'', k5, k6⟩ := hxs.next i t t' x k3 k1 k4
      obtain rfl : x' = x'' := by simpa [k2] using k5
      simp only [Except.ok.injEq] at k6
      have hmem := Order.partition_mem hpart i t k3
      have hmem' := Order.partition_mem hpart (i + 1) t' k1
      obtain ⟨g1, g2⟩ := hpart.step i t t' k3 k1
      have h1 := ih t x k3 k4
      have h2 := rk4_near B hB hp f hf w hw t t' hmem.1 g1 hmem'.2 (g2.trans hη) (hcfl i t t' k3 k1) x
      rw [k6] at h2
      have h3 : M * (t' - t) ^ 5 ≤ (t' - t) * (M * η ^ 4) := by
        have : (t' - t) ^ 4 ≤ η ^ 4 := pow_le_pow_left₀ (by linarith) g2 4
        have h0 : 0 ≤ t' - t := by linarith
        calc M * (t' - t) ^ 5 = (t' - t) * (M * (t' - t) ^ 4) := by ring
          _ ≤ _ := mul_le_mul_of_nonneg_left (mul_le_mul_of_nonneg_left this hM) h0
      nlinarith
  refine ⟨fc, hfc, fun τ hτ hsv => ?_⟩
  obtain ⟨x, hx⟩ := exists_stateAt window xs hxs.length_eq τ hτ
  refine ⟨x, (hval τ x).2 ⟨hsv, hx⟩, ?_⟩
  obtain ⟨i, hi1, hi2, _⟩ := hx
  exact hmain i τ x hi1 hi2

end

end Sympkf.Integrator
