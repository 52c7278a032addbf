import Verif.Props.SemiDiscrete
import Verif.Props.MaximumPrinciple

/-!
# The cases of C95
-/

set_option autoImplicit false

namespace Sympkf.Dynamics

open Text PDE Spec.PDE FinDiff Spec Props Topology

theorem scalars_smooth (s : System) (hex : s.exogenous = []) (n : Fin 1 → ℕ) (κ η : ℝ) : SmoothInTime s n (fun _ => scalars κ η) :=
  ⟨fun _ _ _ _ => contDiff_const, fun _ _ _ _ => contDiff_const, .inl hex⟩

/-- The alternating state on a grid of two points. -/
noncomputable def alternating (N : ℕ) (κ dx t : ℝ) : Fin N → Arr 1 ℝ :=
  fun _ idx => (if idx 0 = 0 then 1 else -1) * Real.exp (-(4 * κ / dx ^ 2) * t)

/-- C95, diffusion equation on two points: the alternating state decays at the rate `4 kappa / dx²`, and the forecasts with rk4 converge
to it with the order four, those with leapfrog with the order two. -/
example (iter : List Sy → List Sy) (hi : ∀ l, (iter l).Perm l) (κ dx a b : ℝ) (hdx : 0 < dx) (hab : a ≤ b) :
    ∃ s, System.build iter diffusion = .ok s ∧ ∃ F : ℝ → (Fin s.prognostic.length → Arr 1 ℝ) → Fin s.prognostic.length → Arr 1 ℝ,
      Implements s (fdArith ["x".toList] (line 2) (fun _ => dx)) (fun _ => scalars κ 0) F ∧
      (∃ C δ : ℝ, 0 < δ ∧ ∀ η, 0 ≤ η → η ≤ δ → ∀ window, Partition a b η window →
        ∀ saved, ∃ fc, Integrator.forecast (Integrator.step .rk4 (.fn F)) window (.single (alternating _ κ dx a)) (.list saved) = .ok fc ∧
          ∀ τ ∈ window, τ ∈ saved → ∃ U, fc.get? τ = some (.single U) ∧ Within (line 2) (C * η ^ 4) U (alternating _ κ dx τ)) ∧
      ∃ C δ : ℝ, 0 < δ ∧ ∀ dt, 0 ≤ dt → dt ≤ δ → ∀ window, Uniform a b dt window →
        ∀ saved, ∃ fc, Integrator.forecast (Integrator.step .leapfrog (.fn F)) window
            (.pair (alternating _ κ dx (a - dt)) (alternating _ κ dx a)) (.list saved) = .ok fc ∧
          ∀ τ ∈ window, τ ∈ saved → ∃ V U, fc.get? τ = some (.pair V U) ∧
            Within (line 2) (C * dt ^ 2) V (alternating _ κ dx (τ - dt)) ∧ Within (line 2) (C * dt ^ 2) U (alternating _ κ dx τ) := by
  obtain ⟨s, h1, h2, h3, h4, h5, h6, h7⟩ := system_order diffusion _ rfl (by decide +kernel) (by decide +kernel) (by decide +kernel) iter hi
  obtain ⟨F, hF⟩ := C88_vector_field iter hi diffusion s h1 h6 h7 (fdArith ["x".toList] (line 2) (fun _ => dx)) (fun _ => scalars κ 0)
    (.inl h5)
  have hO : (scalars κ 0).attr "kappa".toList = fun _ => κ := funext fun _ => by simp [scalars]
  have hfull : ∀ e ∈ diffusion, FullDerivatives ["x".toList] e.rhs := by
    intro e he
    rw [show diffusion = [_] from rfl, List.mem_singleton] at he
    subst he
    exact ⟨trivial, ⟨_, _, rfl, by decide⟩, by decide⟩
  have hsol : ∀ t, SolvesOnGrid (line 2) F (alternating _ κ dx) t := by
    intro t k idx hidx
    rw [diffusion_field iter hi s h1 2 dx κ hdx (scalars κ 0) hO F hF t _ k idx hidx]
    have hs : ∀ m : ℤ, m = 1 ∨ m = -1 → alternating s.prognostic.length κ dx t k (sh (line 2) 0 m idx) =
        -alternating s.prognostic.length κ dx t k idx := by
      intro m hm
      have hi2 : idx 0 < 2 := hidx 0
      have e : sh (line 2) 0 m idx 0 = 1 - idx 0 := by
        show Function.update idx 0 (gridIndex 2 m (idx 0)) 0 = _
        rw [Function.update_self]
        unfold gridIndex
        rcases hm with rfl | rfl <;> omega
      unfold alternating
      rw [e]
      have : idx 0 = 0 ∨ idx 0 = 1 := by omega
      rcases this with h0 | h0 <;> simp [h0]
    rw [hs 1 (.inl rfl), hs (-1) (.inr rfl)]
    have := ((hasDerivAt_id t).const_mul (-(4 * κ / dx ^ 2))).exp.const_mul (if idx 0 = 0 then (1 : ℝ) else -1)
    refine this.congr_deriv ?_
    simp only [alternating, id]
    field_simp
    ring
  have hpow : ∀ t, ∀ e ∈ diffusion, PowersDefined (fdArith ["x".toList] (line 2) (fun _ => dx)) (line 2)
      (reading s (scalars κ 0) t (alternating _ κ dx t)) e.rhs := by
    intro t e he
    rw [show diffusion = [_] from rfl, List.mem_singleton] at he
    subst he
    exact ⟨trivial, trivial⟩
  have hz : ∀ U : Fin s.prognostic.length → Arr 1 ℝ, Within (line 2) 0 U U := fun U k idx _ => by rw [sub_self, abs_zero]
  refine ⟨s, h1, F, hF, ?_, ?_⟩
  · obtain ⟨C, δ, hδ, H⟩ := C95_forecast iter hi diffusion s h1 h6 h7 ["x".toList] (List.nodup_singleton _) (by decide) hfull (line 2)
      (fun _ => dx) (fun _ => hdx.ne') (fun _ => scalars κ 0) (scalars_smooth s h5 _ κ 0) F hF .rk4 4 .rk4 a b hab (alternating _ κ dx)
      (fun t _ => .of_forall hsol) (fun t _ => hpow t)
    refine ⟨C, δ, hδ, fun η g1 g2 window hw saved => ?_⟩
    have := H η g1 g2 window hw 0 le_rfl hδ.le _ (hz _) saved
    simp only [add_zero] at this; exact this
  · obtain ⟨C, δ, hδ, H⟩ := C95_leapfrog iter hi diffusion s h1 h6 h7 ["x".toList] (List.nodup_singleton _) (by decide) hfull (line 2)
      (fun _ => dx) (fun _ => hdx.ne') (fun _ => scalars κ 0) (scalars_smooth s h5 _ κ 0) F hF a b hab (alternating _ κ dx)
      (fun t _ => .of_forall hsol) (fun t _ => hpow t)
    refine ⟨C, δ, hδ, fun dt g1 g2 window hw saved => ?_⟩
    have := H dt g1 g2 window hw 0 le_rfl hδ.le _ _ (hz _) (hz _) saved
    simp only [add_zero] at this; exact this

/-- A nonlinear equation with a negative power: `u_t = u_xx / u`. -/
def fast : List Equation := [⟨d u1 time 1, .mul (.pow u1 (.num (-1))) (d u1 x 2)⟩]

/-- C95 with a negative power: from a state without zeros there is a solution for some time, and the forecasts with rk2 converge to it with
the order two. -/
example (iter : List Sy → List Sy) (hi : ∀ l, (iter l).Perm l) (n : ℕ) (dx a : ℝ) (hdx : 0 < dx) :
    ∃ s, System.build iter fast = .ok s ∧ ∃ F : ℝ → (Fin s.prognostic.length → Arr 1 ℝ) → Fin s.prognostic.length → Arr 1 ℝ,
      Implements s (fdArith ["x".toList] (line n) (fun _ => dx)) (fun _ => scalars 0 0) F ∧
      ∀ U0 : Fin s.prognostic.length → Arr 1 ℝ, (∀ k idx, U0 k idx ≠ 0) → ∃ b > a, ∃ y : ℝ → Fin s.prognostic.length → Arr 1 ℝ,
        Within (line n) 0 (y a) U0 ∧ ∃ C δ : ℝ, 0 < δ ∧ ∀ η, 0 ≤ η → η ≤ δ → ∀ window, Partition a b η window →
        ∀ saved, ∃ fc, Integrator.forecast (Integrator.step .rk2 (.fn F)) window (.single U0) (.list saved) = .ok fc ∧
          ∀ τ ∈ window, τ ∈ saved → ∃ U, fc.get? τ = some (.single U) ∧ Within (line n) (C * η ^ 2) U (y τ) := by
  obtain ⟨s, h1, h2, h3, h4, h5, h6, h7⟩ := system_order fast _ rfl (by decide +kernel) (by decide +kernel) (by decide +kernel) iter hi
  obtain ⟨F, hF⟩ := C88_vector_field iter hi fast s h1 h6 h7 (fdArith ["x".toList] (line n) (fun _ => dx)) (fun _ => scalars 0 0)
    (.inl h5)
  have hfull : ∀ e ∈ fast, FullDerivatives ["x".toList] e.rhs := by
    intro e he
    rw [show fast = [_] from rfl, List.mem_singleton] at he
    subst he
    exact ⟨⟨trivial, trivial⟩, ⟨_, _, rfl, by decide⟩, by decide⟩
  refine ⟨s, h1, F, hF, fun U0 hU0 => ?_⟩
  have hmem : u1 ∈ s.prognostic := by rw [h2]; decide +kernel
  obtain ⟨b, hb, y, hy0, hy, hp⟩ := C95_solution iter hi fast s h1 h6 h7 ["x".toList] (List.nodup_singleton _) (by decide) hfull (line n)
    (fun _ => dx) (fun _ => hdx.ne') (fun _ => scalars 0 0) (scalars_smooth s h5 _ 0 0) F hF a U0 (by
      intro e he
      rw [show fast = [_] from rfl, List.mem_singleton] at he
      subst he
      refine ⟨⟨trivial, -1, rfl, .inr (.inl ⟨⟨-1, by norm_num⟩, fun idx _ => ?_⟩)⟩, trivial⟩
      show (reading s (scalars 0 0) a U0).fn u1 idx ≠ 0
      simp only [reading, dif_pos hmem]
      exact hU0 _ idx)
  obtain ⟨C, δ, hδ, H⟩ := C95_forecast iter hi fast s h1 h6 h7 ["x".toList] (List.nodup_singleton _) (by decide) hfull (line n)
    (fun _ => dx) (fun _ => hdx.ne') (fun _ => scalars 0 0) (scalars_smooth s h5 _ 0 0) F hF .rk2 2 .rk2 a b hb.le y hy hp
  refine ⟨b, hb, y, hy0, C, δ, hδ, fun η g1 g2 window hw saved => ?_⟩
  have := H η g1 g2 window hw 0 le_rfl hδ.le U0 (fun k idx hidx => by rw [abs_sub_comm]; exact hy0 k idx hidx) saved
  simp only [add_zero] at this; exact this

end Sympkf.Dynamics
