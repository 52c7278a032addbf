import Verif.Lemmas.Order
import Verif.Model.Integrator
import Mathlib.Analysis.Calculus.Deriv.Inv

/-!
# Property C15: nominal orders of the time schemes on nonlinear dynamics
-/

set_option autoImplicit false

namespace Sympkf.Integrator

open Asymptotics Filter Topology Sympkf.Order

variable {E : Type} [NormedAddCommGroup E] [NormedSpace ℝ E]

/-- `y` solves `y' = f(s, y)` at every time near `t`. -/
def SolvesNear (f : ℝ → E → E) (y : ℝ → E) (t : ℝ) : Prop := ∀ᶠ s in 𝓝 t, HasDerivAt y (f s (y s)) s

/-- The vector field as a function of the pair (time, state). -/
def joint (f : ℝ → E → E) : ℝ × E → E := fun p => f p.1 p.2

section
variable {f : ℝ → E → E} {y : ℝ → E} {t : ℝ}

theorem SolvesNear.contDiffAt {n : ℕ} (hy : SolvesNear f y t) (hf : ContDiffAt ℝ n (joint f) (t, y t)) :
    ContDiffAt ℝ (n + 1 : ℕ) y t := by
  exact_mod_cast solution_contDiffAt (f := joint f) hf hy

theorem SolvesNear.deriv_contDiffAt {n : ℕ} (hy : SolvesNear f y t) (hf : ContDiffAt ℝ n (joint f) (t, y t)) :
    ContDiffAt ℝ (n : ℕ) (deriv y) t := by
  have h1 : ContDiffAt ℝ n y t := (hy.contDiffAt hf).of_le (by exact_mod_cast Nat.le_succ n)
  have h2 : ContDiffAt ℝ n (fun s => joint f (s, y s)) t :=
    ContDiffAt.comp (g := joint f) (f := fun s => (s, y s)) t hf (contDiffAt_id.prodMk h1)
  refine h2.congr_of_eventuallyEq ?_
  filter_upwards [hy] with s hs
  exact hs.deriv

theorem tendsto_shift (t c : ℝ) : Tendsto (fun h : ℝ => t + c * h) (𝓝 0) (𝓝 t) := by
  have : Tendsto (fun h : ℝ => t + c * h) (𝓝 0) (𝓝 (t + c * 0)) :=
    (continuous_const.add (continuous_const.mul continuous_id)).tendsto 0
  simpa using this

/-- Expansion of the vector field near the solution. -/
theorem SolvesNear.field_expand (hy : SolvesNear f y t) (hf : ContDiffAt ℝ 2 (joint f) (t, y t)) (c : ℝ) {n : ℕ}
    (hn : 0 < n) {δ : ℝ → E} (hδ : O n δ) :
    O (2 * n) (fun h => f (t + c * h) (y (t + c * h) - δ h) -
      (deriv y (t + c * h) - fderiv ℝ (joint f) (t + c * h, y (t + c * h)) (0, δ h))) := by
  have hyc : ContinuousAt y t := hy.self_of_nhds.continuousAt
  have hp : Tendsto (fun h : ℝ => (t + c * h, y (t + c * h))) (𝓝 0) (𝓝 (t, y t)) :=
    (tendsto_shift t c).prodMk_nhds (hyc.tendsto.comp (tendsto_shift t c))
  have hv : O n (fun h => ((0 : ℝ), -δ h)) := by
    refine IsBigO.trans (IsBigO.of_bound 1 (Eventually.of_forall (fun h => ?_))) hδ
    simp [Prod.norm_def]
  have h1 := fderiv_expand hf hp hn hv
  refine h1.congr' ?_ (EventuallyEq.refl _ _)
  filter_upwards [(tendsto_shift t c).eventually hy] with h hh
  have e1 : fderiv ℝ (joint f) (t + c * h, y (t + c * h)) ((0 : ℝ), -δ h) =
      - fderiv ℝ (joint f) (t + c * h, y (t + c * h)) (0, δ h) := by
    rw [← map_neg]; simp
  rw [e1, hh.deriv]
  simp only [joint, Prod.mk_add_mk, add_zero, ← sub_eq_add_neg]
  abel

theorem SolvesNear.path_O (hy : SolvesNear f y t) (c : ℝ) :
    O 1 (fun h => (t + c * h, y (t + c * h)) - (t, y t)) := by
  have h1 : O 1 (fun h : ℝ => (t + c * h) - t) := by
    have := (O.monomial 1 c (1 : ℝ))
    exact this.congr (fun h => by simp)
  have h2 : O 1 (fun h : ℝ => y (t + c * h) - y t) := by
    have := hy.self_of_nhds.differentiableAt.isBigO_sub.comp_tendsto (tendsto_shift t c)
    refine this.trans ?_
    exact h1
  have h3 : (fun h => (t + c * h, y (t + c * h)) - (t, y t)) = (fun h => ((t + c * h) - t, y (t + c * h) - y t)) := rfl
  rw [h3]
  unfold O
  exact h1.prod_left h2

/-- The Jacobian of the vector field with respect to the state, along the solution. -/
noncomputable def jac (f : ℝ → E → E) (y : ℝ → E) (t c h : ℝ) : E →L[ℝ] E :=
  (fderiv ℝ (joint f) (t + c * h, y (t + c * h))).comp (ContinuousLinearMap.inr ℝ ℝ E)

theorem SolvesNear.jac_expand (hy : SolvesNear f y t) (hf : ContDiffAt ℝ 2 (joint f) (t, y t)) (c : ℝ) {n : ℕ}
    (hn : 0 < n) {δ : ℝ → E} (hδ : O n δ) :
    O (2 * n) (fun h => f (t + c * h) (y (t + c * h) - δ h) - (deriv y (t + c * h) - jac f y t c h (δ h))) :=
  (hy.field_expand hf c hn hδ).congr (fun h => by simp [jac])

theorem SolvesNear.jac_sub (hy : SolvesNear f y t) (hf : ContDiffAt ℝ 2 (joint f) (t, y t)) (c : ℝ) :
    O 1 (fun h => jac f y t c h - jac f y t 0 0) := by
  have h1 := lip_along (hf.fderiv_right (m := 1) (by norm_num)) one_pos (hy.path_O c) (hy.path_O 0)
  have h2 : (fun h => jac f y t c h - jac f y t 0 0) =O[𝓝 0]
      (fun h => fderiv ℝ (joint f) (t + c * h, y (t + c * h)) - fderiv ℝ (joint f) (t + 0 * h, y (t + 0 * h))) := by
    refine IsBigO.of_bound (‖ContinuousLinearMap.inr ℝ ℝ E‖) (Eventually.of_forall (fun h => ?_))
    have e : jac f y t c h - jac f y t 0 0 = (fderiv ℝ (joint f) (t + c * h, y (t + c * h)) -
        fderiv ℝ (joint f) (t + 0 * h, y (t + 0 * h))).comp (ContinuousLinearMap.inr ℝ ℝ E) := by
      ext v; simp [jac]
    rw [e]
    refine le_trans ?_ (mul_comm _ _).le
    exact ContinuousLinearMap.opNorm_comp_le (fderiv ℝ (joint f) (t + c * h, y (t + c * h)) -
        fderiv ℝ (joint f) (t + 0 * h, y (t + 0 * h))) (ContinuousLinearMap.inr ℝ ℝ E)
  exact h2.trans h1

theorem SolvesNear.jac_tendsto (hy : SolvesNear f y t) (hf : ContDiffAt ℝ 2 (joint f) (t, y t)) (c : ℝ) :
    Tendsto (jac f y t c) (𝓝 0) (𝓝 (jac f y t 0 0)) := by
  have := ((hy.jac_sub hf c).tendsto_zero one_pos).add_const (jac f y t 0 0)
  simpa using this

/-- Taylor expansions of the solution and of its derivative, in the form used below. -/
theorem SolvesNear.taylor (hy : SolvesNear f y t) {n : ℕ} (hf : ContDiffAt ℝ n (joint f) (t, y t)) (c : ℝ) :
    O (n + 1) (fun h => y (t + c * h) -
      ∑ k ∈ Finset.range (n + 1), ((k.factorial : ℝ)⁻¹ * (c * h) ^ k) • iteratedDeriv k y t) ∧
    O n (fun h => deriv y (t + c * h) -
      ∑ k ∈ Finset.range n, ((k.factorial : ℝ)⁻¹ * (c * h) ^ k) • iteratedDeriv (k + 1) y t) := by
  refine ⟨(taylor_O (hy.contDiffAt hf)).scale c, ?_⟩
  have := (taylor_O (hy.deriv_contDiffAt hf)).scale c
  refine this.congr (fun h => ?_)
  simp only [iteratedDeriv_succ']

theorem SolvesNear.deriv_eq (hy : SolvesNear f y t) : iteratedDeriv 1 y t = f t (y t) := by
  rw [_root_.iteratedDeriv_one]; exact hy.self_of_nhds.deriv

end

/-- **C15**, euler: one step started on a solution misses it by `O(dt²)`. -/
theorem C15_euler_order (f : ℝ → E → E) (y : ℝ → E) (t : ℝ) (hy : SolvesNear f y t)
    (hf : ContDiffAt ℝ 1 (joint f) (t, y t)) :
    (fun dt => y (t + dt) - euler f t (y t) dt) =O[𝓝 0] (fun dt => dt ^ 2) := by
  have h1 := (hy.taylor (n := 1) (by exact_mod_cast hf) 1).1
  refine O.congr h1 (fun h => ?_)
  simp [Finset.sum_range_succ, euler, ← hy.deriv_eq]

/-- **C15**, rk2: `O(dt³)`. -/
theorem C15_rk2_order (f : ℝ → E → E) (y : ℝ → E) (t : ℝ) (hy : SolvesNear f y t)
    (hf : ContDiffAt ℝ 2 (joint f) (t, y t)) :
    (fun dt => y (t + dt) - rk2 f t (y t) dt) =O[𝓝 0] (fun dt => dt ^ 3) := by
  have hf' : ContDiffAt ℝ (2 : ℕ) (joint f) (t, y t) := by exact_mod_cast hf
  obtain ⟨T1, _⟩ := hy.taylor hf' 1
  obtain ⟨Th, Dh⟩ := hy.taylor hf' (1/2)
  have d1 := hy.deriv_eq
  set D := fun k => iteratedDeriv k y t with hD
  -- the defect of the half step
  set δ : ℝ → E := fun h => y (t + (1/2) * h) - (y t + (h * (1/2)) • f t (y t)) with hδ
  have Hδ : O 2 δ := by
    have := (Th.mono (by norm_num : 2 ≤ 3)).add (O.monomial 2 (1/8) (D 2))
    refine this.congr (fun h => ?_)
    simp only [hδ, Finset.sum_range_succ, Finset.sum_range_zero, Nat.factorial, ← d1, iteratedDeriv_zero]
    simp only [hD]
    match_scalars <;> norm_num <;> ring
  have hK := hy.field_expand hf (1/2) (by norm_num) Hδ
  have hJ : Tendsto (fun h : ℝ => fderiv ℝ (joint f) (t + (1/2) * h, y (t + (1/2) * h))) (𝓝 0)
      (𝓝 (fderiv ℝ (joint f) (t, y t))) := by
    have hc : ContinuousAt (fderiv ℝ (joint f)) (t, y t) := (hf.fderiv_right (m := 1) (by norm_num)).continuousAt
    have hyc : ContinuousAt y t := hy.self_of_nhds.continuousAt
    exact hc.tendsto.comp ((tendsto_shift t (1/2)).prodMk_nhds (hyc.tendsto.comp (tendsto_shift t (1/2))))
  have Hδ' : O 2 (fun h => ((0 : ℝ), δ h)) := by
    refine IsBigO.trans (IsBigO.of_bound 1 (Eventually.of_forall (fun h => ?_))) Hδ
    simp [Prod.norm_def]
  have hJδ := O.clm hJ Hδ'
  have hk2 : O 2 (fun h => f (t + (1/2) * h) (y (t + (1/2) * h) - δ h) - deriv y (t + (1/2) * h)) :=
    ((hK.mono (by norm_num)).sub hJδ).congr (fun h => by abel)
  have main := (T1.sub (Dh.h_smul)).sub hk2.h_smul
  refine O.congr main (fun h => ?_)
  have harg : y (t + (1/2) * h) - δ h = y t + (h * (1/2)) • f t (y t) := by simp [hδ]
  simp only [harg, rk2, Finset.sum_range_succ, Finset.sum_range_zero, Nat.factorial, iteratedDeriv_zero, d1, one_mul]
  set k2 := f (t + 1 / 2 * h) (y t + (h * (1 / 2)) • f t (y t))
  match_scalars <;> norm_num <;> ring

/-- **C15**, leapfrog: started on two exact values, the new value is within `O(dt³)` of the solution. -/
theorem C15_leapfrog_order (f : ℝ → E → E) (y : ℝ → E) (t : ℝ) (hy : SolvesNear f y t)
    (hf : ContDiffAt ℝ 2 (joint f) (t, y t)) :
    (fun dt => y (t + dt) - (leapfrog f t (y (t - dt), y t) dt).2) =O[𝓝 0] (fun dt => dt ^ 3) := by
  have hf' : ContDiffAt ℝ (2 : ℕ) (joint f) (t, y t) := by exact_mod_cast hf
  obtain ⟨T1, _⟩ := hy.taylor hf' 1
  obtain ⟨T2, _⟩ := hy.taylor hf' (-1)
  have d1 := hy.deriv_eq
  refine O.congr (T1.sub T2) (fun h => ?_)
  have : t - h = t + -1 * h := by ring
  simp only [leapfrog, Finset.sum_range_succ, Finset.sum_range_zero, Nat.factorial, iteratedDeriv_zero, d1, this,
    one_mul]
  match_scalars <;> norm_num <;> ring

/-- **C15**, rk4: `O(dt⁵)`. -/
theorem C15_rk4_order (f : ℝ → E → E) (y : ℝ → E) (t : ℝ) (hy : SolvesNear f y t)
    (hf : ContDiffAt ℝ 4 (joint f) (t, y t)) :
    (fun dt => y (t + dt) - rk4 f t (y t) dt) =O[𝓝 0] (fun dt => dt ^ 5) := by
  have hf' : ContDiffAt ℝ (4 : ℕ) (joint f) (t, y t) := by exact_mod_cast hf
  have hf2 : ContDiffAt ℝ 2 (joint f) (t, y t) := hf.of_le (by norm_num)
  obtain ⟨T1, D1⟩ := hy.taylor hf' 1
  obtain ⟨Th, Dh⟩ := hy.taylor hf' (1/2)
  have d1 := hy.deriv_eq
  have d0 : iteratedDeriv 0 y t = y t := by simp
  simp only [Finset.sum_range_succ, Finset.sum_range_zero, Nat.factorial, d0, d1] at T1 D1 Th Dh
  norm_num at T1 D1 Th Dh
  have J0h := fun c => hy.jac_sub hf2 c
  have Jt := fun c => hy.jac_tendsto hf2 c
  set B0 := jac f y t 0 0
  set k1 := f t (y t) with hk1
  set y2 := iteratedDeriv 2 y t
  set y3 := iteratedDeriv 3 y t
  set y4 := iteratedDeriv 4 y t
  -- second stage
  set δ2 : ℝ → E := fun h => y (t + (1/2) * h) - (y t + (h * (1/2)) • k1) with hδ2
  have E2 : O 4 (fun h => δ2 h - ((1/8 * h ^ 2) • y2 + (1/48 * h ^ 3) • y3)) := by
    refine ((Th.mono (by norm_num : 4 ≤ 5)).add (O.monomial 4 (1/384) y4)).congr (fun h => ?_)
    simp only [hδ2]
    match_scalars <;> norm_num <;> ring
  have O2 : O 2 δ2 :=
    (((E2.mono (by norm_num : 2 ≤ 4)).add (O.monomial 2 (1/8) y2)).add
      ((O.monomial 3 (1/48) y3).mono (by norm_num : 2 ≤ 3))).congr (fun h => by module)
  have K2 := hy.jac_expand hf2 (1/2) (by norm_num) O2
  set k2 : ℝ → E := fun h => f (t + (1/2) * h) (y (t + (1/2) * h) - δ2 h) with hk2
  -- `J(τ) δ2 = h²/8 J y'' + O(h³)`
  have JE2 : O 3 (fun h => jac f y t (1/2) h (δ2 h) - (1/8 * h ^ 2) • B0 y2) := by
    have a1 : O 3 (fun h => (jac f y t (1/2) h - B0) (δ2 h)) := O.clm_sub (J0h (1/2)) O2
    have a2 : O 3 (fun h => B0 (δ2 h - ((1/8 * h ^ 2) • y2 + (1/48 * h ^ 3) • y3))) :=
      O.clm tendsto_const_nhds (E2.mono (by norm_num : 3 ≤ 4))
    refine ((a1.add a2).add (O.monomial 3 (1/48) (B0 y3))).congr (fun h => ?_)
    simp only [_root_.sub_apply, map_sub, map_add, map_smul]
    module
  -- third stage
  set δ3 : ℝ → E := fun h => y (t + (1/2) * h) - (y t + (h * (1/2)) • k2 h) with hδ3
  have E3 : O 4 (fun h => δ3 h - ((-1/8 * h ^ 2) • y2 + (-1/24 * h ^ 3) • y3 + (1/16 * h ^ 3) • B0 y2)) := by
    have a1 := ((Th.mono (by norm_num : 4 ≤ 5)).add (O.monomial 4 (1/384) y4))
    have a2 := (Dh.mono (by norm_num : 3 ≤ 4)).h_smul.const_smul (1/2)
    have a3 := JE2.h_smul.const_smul (1/2)
    have a4 := (K2.mono (by norm_num : 3 ≤ 2 * 2)).h_smul.const_smul (1/2)
    refine ((((a1.sub a2).add a3).sub a4).sub (O.monomial 4 (1/96) y4)).congr (fun h => ?_)
    simp only [hδ3]
    match_scalars <;> norm_num <;> ring
  have O3 : O 2 δ3 :=
    ((((E3.mono (by norm_num : 2 ≤ 4)).add (O.monomial 2 (-1/8) y2)).add
      ((O.monomial 3 (-1/24) y3).mono (by norm_num : 2 ≤ 3))).add
      ((O.monomial 3 (1/16) (B0 y2)).mono (by norm_num : 2 ≤ 3))).congr (fun h => by module)
  have K3 := hy.jac_expand hf2 (1/2) (by norm_num) O3
  set k3 : ℝ → E := fun h => f (t + (1/2) * h) (y (t + (1/2) * h) - δ3 h) with hk3
  have JE3 : O 3 (fun h => jac f y t (1/2) h (δ3 h) - (-1/8 * h ^ 2) • B0 y2) := by
    have a1 : O 3 (fun h => (jac f y t (1/2) h - B0) (δ3 h)) := O.clm_sub (J0h (1/2)) O3
    have a2 : O 3 (fun h => B0 (δ3 h - ((-1/8 * h ^ 2) • y2 + (-1/24 * h ^ 3) • y3 + (1/16 * h ^ 3) • B0 y2))) :=
      O.clm tendsto_const_nhds (E3.mono (by norm_num : 3 ≤ 4))
    refine (((a1.add a2).add (O.monomial 3 (-1/24) (B0 y3))).add (O.monomial 3 (1/16) (B0 (B0 y2)))).congr (fun h => ?_)
    simp only [_root_.sub_apply, map_sub, map_add, map_smul]
    module
  -- fourth stage
  set δ4 : ℝ → E := fun h => y (t + 1 * h) - (y t + h • k3 h) with hδ4
  have E4 : O 4 (fun h => δ4 h - ((1/24 * h ^ 3) • y3 + (-1/8 * h ^ 3) • B0 y2)) := by
    have a1 := ((T1.mono (by norm_num : 4 ≤ 5)).add (O.monomial 4 (1/24) y4))
    have a2 := (Dh.mono (by norm_num : 3 ≤ 4)).h_smul
    have a3 := JE3.h_smul
    have a4 := (K3.mono (by norm_num : 3 ≤ 2 * 2)).h_smul
    refine ((((a1.sub a2).add a3).sub a4).sub (O.monomial 4 (1/48) y4)).congr (fun h => ?_)
    simp only [hδ4, one_mul]
    match_scalars <;> norm_num <;> ring
  have O4 : O 3 δ4 :=
    (((E4.mono (by norm_num : 3 ≤ 4)).add (O.monomial 3 (1/24) y3)).add
      (O.monomial 3 (-1/8) (B0 y2))).congr (fun h => by module)
  have K4 := hy.jac_expand hf2 1 (by norm_num) O4
  set k4 : ℝ → E := fun h => f (t + 1 * h) (y (t + 1 * h) - δ4 h) with hk4
  -- cancellation of the third-order terms
  have O23 : O 3 (fun h => δ2 h + δ3 h) :=
    ((((E2.add E3).mono (by norm_num : 3 ≤ 4)).add (O.monomial 3 (-1/48) y3)).add (O.monomial 3 (1/16) (B0 y2))).congr
      (fun h => by module)
  have C4 : O 4 (fun h => (2 : ℝ) • (δ2 h + δ3 h) + δ4 h) :=
    (((E2.add E3).const_smul 2).add E4).congr (fun h => by module)
  have JC : O 4 (fun h => (2 : ℝ) • jac f y t (1/2) h (δ2 h + δ3 h) + jac f y t 1 h (δ4 h)) := by
    have a1 : O 4 (fun h => B0 ((2 : ℝ) • (δ2 h + δ3 h) + δ4 h)) := O.clm tendsto_const_nhds C4
    have a2 : O 4 (fun h => (jac f y t (1/2) h - B0) (δ2 h + δ3 h)) := O.clm_sub (J0h (1/2)) O23
    have a3 : O 4 (fun h => (jac f y t 1 h - B0) (δ4 h)) := O.clm_sub (J0h 1) O4
    refine ((a1.add (a2.const_smul 2)).add a3).congr (fun h => ?_)
    simp only [_root_.sub_apply, map_add, map_smul]
    module
  -- Simpson's rule on the solution
  have SI : O 5 (fun h => y (t + h) - y t - (h / 6) • (k1 + (4 : ℝ) • deriv y (t + (1/2) * h) + deriv y (t + 1 * h))) := by
    refine ((T1.sub (Dh.h_smul.const_smul (4/6))).sub (D1.h_smul.const_smul (1/6))).congr (fun h => ?_)
    simp only [one_mul]
    match_scalars <;> norm_num <;> ring
  have main := (((SI.add (JC.h_smul.const_smul (1/6))).sub ((K2.mono (by norm_num : 4 ≤ 2 * 2)).h_smul.const_smul (1/3))).sub
    ((K3.mono (by norm_num : 4 ≤ 2 * 2)).h_smul.const_smul (1/3))).sub ((K4.mono (by norm_num : 4 ≤ 2 * 3)).h_smul.const_smul (1/6))
  refine O.congr main (fun h => ?_)
  have e2 : y (t + (1/2) * h) - δ2 h = y t + (h * (1/2)) • k1 := by simp [hδ2]
  have e3 : y (t + (1/2) * h) - δ3 h = y t + (h * (1/2)) • k2 h := by simp [hδ3]
  have e4 : y (t + 1 * h) - δ4 h = y t + h • k3 h := by simp [hδ4]
  have q2 : f (t + h * (1/2)) (y t + (h * (1/2)) • k1) = k2 h := by
    simp only [hk2, e2]; congr 1; ring
  have q3 : f (t + h * (1/2)) (y t + (h * (1/2)) • k2 h) = k3 h := by
    simp only [hk3, e3]; congr 1; ring
  have q4 : f (t + h) (y t + h • k3 h) = k4 h := by
    simp only [hk4, e4]; simp only [one_mul]
  simp only [rk4, ← hk1, q2, q3, q4, map_add]
  module

/-- Non-vacuity: `y(s) = 1/(1-s)` solves `y' = y²` near `0` (and blows up at 1); all four schemes have their order
there. -/
example : SolvesNear (fun _ (u : ℝ) => u ^ 2) (fun s => (1 - s)⁻¹) 0 ∧
    ContDiffAt ℝ 4 (joint (fun _ (u : ℝ) => u ^ 2)) (0, ((1 : ℝ) - 0)⁻¹) := by
  constructor
  · have : ∀ᶠ s : ℝ in 𝓝 0, s < 1 := eventually_lt_nhds one_pos
    filter_upwards [this] with s hs
    have h1 : HasDerivAt (fun s : ℝ => 1 - s) (-1) s := by
      simpa using (hasDerivAt_id s).const_sub 1
    have h2 := h1.inv (by linarith : (1 : ℝ) - s ≠ 0)
    have e : - -1 / (1 - s) ^ 2 = (1 - s)⁻¹ ^ 2 := by
      rw [neg_neg, inv_pow, one_div]
    rw [e] at h2
    exact h2
  · have : ContDiff ℝ 4 (fun p : ℝ × ℝ => p.2 ^ 2) := contDiff_snd.pow 2
    exact this.contDiffAt

end Sympkf.Integrator
