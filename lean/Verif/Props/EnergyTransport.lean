import Verif.Props.EnergyForecast
import Verif.Props.EnergyCases
import Verif.Props.BurgersConvergence

/-!
# C102: transport with a constant velocity
-/

set_option autoImplicit false

namespace Sympkf.Dynamics

open Text PDE Spec.PDE FinDiff Props Spec

theorem gridTotal_line (n : ℕ) (f : Arr 1 ℝ) : gridTotal (line n) f = ∑ j ∈ Finset.range n, f (fun _ => j) := by
  show ∑ idx ∈ box (line n), f idx = _
  refine Finset.sum_nbij' (fun idx => idx 0) (fun j _ => j) ?_ ?_ ?_ ?_ ?_
  · intro idx h
    exact Finset.mem_range.2 ((mem_box _ idx).1 h 0)
  · intro j h
    exact (mem_box _ _).2 fun _ => Finset.mem_range.1 h
  · intro idx _
    funext i
    fin_cases i
    rfl
  · intro j _
    rfl
  · intro idx _
    congr 1
    funext i
    fin_cases i
    rfl

/-- **C102** Transport with the velocity `c` on a circle of length `ℓ`: for every smooth periodic `v`, the forecasts with `rk4` started at
`v(x - c a)`, on a grid with `n` points and windows with steps at most `η` such that `(c η)² ≤ 8 (ℓ/n)²`, are at all the saved times `τ`
close to `v(x - c τ)`: the root mean square of the difference is at most `C (η⁴ + (ℓ/n)²)`. -/
theorem C102_transport (iter : List Sy → List Sy) (hi : ∀ l, (iter l).Perm l) (ℓ c a b : ℝ) (hℓ : 0 < ℓ) (hab : a < b)
    (v : ℝ → ℝ) (hv : ContDiff ℝ (⊤ : ℕ∞) v) (hp : ∀ y, v (y + ℓ) = v y) :
    ∃ s, System.build iter transport = .ok s ∧ s.prognostic = [u1] ∧ ∃ C δ : ℝ, 0 < δ ∧ ∀ n : ℕ, 0 < n → ℓ / n ≤ δ →
      ∃ F : ℝ → (Fin s.prognostic.length → Arr 1 ℝ) → Fin s.prognostic.length → Arr 1 ℝ,
      Implements s (fdArith ["x".toList] (line n) (fun _ => ℓ / n)) (fun _ => speed c) F ∧
      ∀ η window, 0 ≤ η → η ≤ 1 → (c * η) ^ 2 ≤ 8 * (ℓ / n) ^ 2 → Spec.Partition a b η window →
      ∀ U0, (∀ k, ∀ j < n, U0 k (fun _ => j) = v (j * (ℓ / n) - c * a)) → ∀ saved,
      ∃ fc, Integrator.forecast (Integrator.step .rk4 (.fn F)) window (.single U0) (.list saved) = .ok fc ∧
        ∀ τ ∈ window, τ ∈ saved → ∃ U, fc.get? τ = some (.single U) ∧ ∀ k,
          ∑ j ∈ Finset.range n, (U k (fun _ => j) - v (j * (ℓ / n) - c * τ)) ^ 2 ≤ n * (C * (η ^ 4 + (ℓ / n) ^ 2)) ^ 2 := by
  obtain ⟨s, h1, h2, -, h4, h5, h6, h7⟩ := system_order transport _ rfl (by decide +kernel) (by decide +kernel) (by decide +kernel) iter hi
  obtain ⟨s1, g1, g2, -, -, -, -, g7⟩ := trend_one transport u1 _ rfl (by decide +kernel) (by decide +kernel) (by decide +kernel)
    (by decide +kernel) (by decide +kernel) (by decide +kernel) iter hi
  rw [h1] at g1
  injection g1 with g1
  subst g1
  have hsm : ContDiff ℝ (⊤ : ℕ∞) (fun q : ℝ × ℝ => (fun t y => v (y - c * t)) q.1 q.2) :=
    hv.comp (contDiff_snd.sub (contDiff_const.mul contDiff_fst))
  have hpp : ∀ t y, (fun t y => v (y - c * t)) t (y + ℓ) = (fun t y => v (y - c * t)) t y := by
    intro t y
    show v (y + ℓ - c * t) = v (y - c * t)
    rw [← hp (y - c * t)]
    congr 1
    ring
  have hd : ∀ y, HasDerivAt v (deriv v y) y := fun y => (hv.differentiable (by simp) y).hasDerivAt
  have hsol : Solves ["x".toList] transport (fun _ => family (fun t y => v (y - c * t))) (fun _ => c) a b := by
    intro e hee f hf τ hτ p
    rw [transport, List.mem_singleton] at hee
    subst hee
    have e1 : HasDerivAt (fun s => v (p 0 - c * s)) (deriv v (p 0 - c * τ) * (0 - c * 1)) τ :=
      (hd _).comp τ ((hasDerivAt_const τ (p 0)).sub ((hasDerivAt_id τ).const_mul c))
    refine HasDerivAt.congr_deriv e1 ?_
    have e2 := congrFun (pd_x (fun y => v (y - c * τ))) p
    have e3 : deriv (fun y => v (y - c * τ)) (p 0) = deriv v (p 0 - c * τ) * (1 - 0) :=
      ((hd _).comp (p 0) ((hasDerivAt_id (p 0)).sub (hasDerivAt_const (p 0) (c * τ)))).deriv
    show _ = ((-1 : ℚ) : ℝ) * (Function.update (fun _ => c) "t".toList τ "c".toList *
      pdMixed (axesOf [x] [(x, 1)]) (fun p : Fin 1 → ℝ => v (p 0 - c * τ)) p)
    rw [Function.update_of_ne (by decide), e2, e3]
    push_cast
    ring
  obtain ⟨C, δ, hδ, hconv⟩ := C102_converges iter hi transport s h1 h6 h7 ["x".toList] (by decide) (by decide) transportRows transport_skew
    (by
      intro r hr u args hu
      rw [transportRows, List.mem_singleton] at hr
      subst hr
      injection hu with _ hu
      subst hu
      decide)
    (fun _ => ℓ) (fun _ => hℓ) (fun _ => family (fun t y => v (y - c * t))) (fun _ => c) hab
    (fun _ _ => ⟨family_smooth hsm, family_periodic hpp⟩) hsol
  refine ⟨s, h1, g2, C, δ, hδ, fun n hn hs => ?_⟩
  obtain ⟨F, hF⟩ := C88_vector_field iter hi transport s h1 h6 h7 (fdArith ["x".toList] (line n) (fun _ => ℓ / n)) (fun _ => speed c) (.inl h5)
  refine ⟨F, hF, fun η window hη hη1 hcfl hpart U0 hU0 saved => ?_⟩
  have hn' : (0 : ℝ) < n := by exact_mod_cast hn
  have hpt : ∀ j : ℕ, point (fun _ : Fin 1 => ℓ) (line n) (fun _ => j) 0 = j * (ℓ / n) := by
    intro j
    simp [point, line]
  have hsamp : ∀ τ k (j : ℕ), sampled (fun _ : Fin 1 => ℓ) (fun _ => family (fun t y => v (y - c * t))) s (line n) τ k (fun _ => j) =
      v (j * (ℓ / n) - c * τ) := by
    intro τ k j
    show v (point (fun _ : Fin 1 => ℓ) (line n) (fun _ => j) 0 - c * τ) = _
    rw [hpt]
  obtain ⟨fc, hfc, hval⟩ := hconv (line n) (fun _ => hn) (fun _ => hs) (fun _ => speed c) (fun _ _ _ => rfl) F hF η window hη hη1 hpart
    (fun i t t' ht ht' V => transport_cfl iter hi n (ℓ / n) c (div_pos hℓ hn') s h1 F hF t t' (by
      obtain ⟨k1, k2⟩ := hpart.step i t t' ht ht'
      refine le_trans ?_ hcfl
      rw [mul_pow, mul_pow]
      exact mul_le_mul_of_nonneg_left (pow_le_pow_left₀ (by linarith) k2 2) (sq_nonneg c)) V)
    U0 0 (le_refl _) (by
      unfold MeanSquare
      refine le_of_eq ?_
      rw [zero_pow two_ne_zero, mul_zero]
      refine Finset.sum_eq_zero fun k _ => ?_
      rw [gridTotal_line]
      refine Finset.sum_eq_zero fun j hj => ?_
      have e := hsamp a k j
      have e' := hU0 k j (Finset.mem_range.1 hj)
      refine pow_eq_zero_iff two_ne_zero |>.2 (sub_eq_zero.2 (e'.trans e.symm))) saved
  refine ⟨fc, hfc, fun τ hτ hsv => ?_⟩
  obtain ⟨U, hU, hb⟩ := hval τ hτ hsv
  refine ⟨U, hU, fun k => ?_⟩
  unfold MeanSquare at hb
  have e1 : ∑ j ∈ Finset.range n, (U k (fun _ => j) - v (j * (ℓ / n) - c * τ)) ^ 2 = gridTotal (line n) (fun idx =>
      (U k idx - sampled (fun _ : Fin 1 => ℓ) (fun _ => family (fun t y => v (y - c * t))) s (line n) τ k idx) ^ 2) := by
    rw [gridTotal_line]
    refine Finset.sum_congr rfl fun j _ => ?_
    have e := hsamp τ k j
    exact congrArg (fun z => (U k (fun _ => j) - z) ^ 2) e.symm
  have e2 := Finset.single_le_sum (f := fun k => gridTotal (line n) (fun idx =>
      (U k idx - sampled (fun _ : Fin 1 => ℓ) (fun _ => family (fun t y => v (y - c * t))) s (line n) τ k idx) ^ 2))
    (fun k _ => Finset.sum_nonneg fun _ _ => sq_nonneg _) (Finset.mem_univ k)
  refine e1.le.trans ((e2.trans hb).trans (le_of_eq ?_))
  simp [line]

end Sympkf.Dynamics
