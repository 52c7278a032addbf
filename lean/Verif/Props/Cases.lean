import Verif.Props.SemiDiscreteCases
import Verif.Props.Linear
import Verif.Props.PkfObject
import Verif.Props.Closure
import Verif.Props.Correlation
import Verif.Props.Builder
import Verif.Props.Schemes

/-!
# Concrete cases of theorems that have none beside them
-/

set_option autoImplicit false

namespace Sympkf.Integrator

open Sympkf.Spec

/-- C09: the rotation `u' = v, v' = -u`, whose matrix is not symmetric, with rk4. -/
example := C09_makeM_vecMul_partial (K := ℚ) (n := 2) .rk4 rk4 rfl
  (fun t => t • Matrix.toLin' !![0, 1; -1, 0]) [0, 1, 3] (by simp) .sequential trivial

/-- C16: the logistic growth, on a window with different steps. -/
example := C16_leapfrog_forecast (K := ℚ) (S := ℚ) (fun u => u - u ^ 2) [0, 1, 3] (by simp) (1 / 2, 2 / 3)

end Sympkf.Integrator

namespace Sympkf.Props

open Text PDE Spec.PDE

/-- C66: the derivatives of `V_u` with respect to `x` and to `(x, y)` have different names. -/
example : (metaDerivative (.deriv (.fn "{V_{u}}".toList ["x".toList, "y".toList]) [("x".toList, 1)])).keyvar ≠
    (metaDerivative (.deriv (.fn "{V_{u}}".toList ["x".toList, "y".toList]) [("x".toList, 1), ("y".toList, 1)])).keyvar :=
  C66_distinct_partial _ _ _ _ _ _ (by decide) (by decide) (by decide) (by decide) (by decide) (by decide)
    (not_endsInGroup ['V'] 'u' [] (by decide) (by decide)) (not_endsInGroup ['V'] 'u' [] (by decide) (by decide)) (.inr (by decide))

/-- C66: the derivative of `V_u` does not have the name of the metric. -/
example : (metaDerivative (.deriv (.fn "{V_{u}}".toList ["t".toList, "x".toList]) [("x".toList, 2)])).keyvar ≠ "g_u_xx".toList :=
  C66_other_names_partial _ _ _ (by decide) (by decide) (by decide) _
    (not_endsInGroup ['g', '_', 'u'] 'x' ['x'] (by decide) (by decide))

end Sympkf.Props

namespace Sympkf.Dynamics

open Text PDE Spec.PDE FinDiff Spec Props

/-- C95: the diffusion equation, on a grid of five points; the values outside of the grid do not matter. -/
example (iter : List Sy → List Sy) (hi : ∀ l, (iter l).Perm l) (κ dx : ℝ) (hdx : 0 < dx) :
    ∃ s, System.build iter diffusion = .ok s ∧ ∃ F : ℝ → (Fin s.prognostic.length → Arr 1 ℝ) → Fin s.prognostic.length → Arr 1 ℝ,
      Implements s (fdArith ["x".toList] (line 5) (fun _ => dx)) (fun _ => scalars κ 0) F ∧
      ∀ t k idx, (∀ i, idx i < line 5 i) → F t (fun _ idx => if idx 0 < 5 then (idx 0 : ℝ) else 7) k idx = F t (fun _ idx => idx 0) k idx := by
  obtain ⟨s, h1, h2, h3, h4, h5, h6, h7⟩ := system_order diffusion _ rfl (by decide +kernel) (by decide +kernel) (by decide +kernel) iter hi
  obtain ⟨F, hF⟩ := C88_vector_field iter hi diffusion s h1 h6 h7 (fdArith ["x".toList] (line 5) (fun _ => dx)) (fun _ => scalars κ 0)
    (.inl h5)
  have hfull : ∀ e ∈ diffusion, FullDerivatives ["x".toList] e.rhs := by
    intro e he
    rw [show diffusion = [_] from rfl, List.mem_singleton] at he
    subst he
    exact ⟨trivial, ⟨_, _, rfl, by decide⟩, by decide⟩
  exact ⟨s, h1, F, hF, fun t k idx hidx => C95_grid_only iter hi diffusion s h1 h6 h7 ["x".toList] (List.nodup_singleton _) (by decide) hfull
    (line 5) (fun _ => dx) (fun _ => hdx.ne') (fun _ => scalars κ 0) (scalars_smooth s h5 _ κ 0) F hF t _ _
    (fun _ idx hidx => if_pos (hidx 0)) k idx hidx⟩

end Sympkf.Dynamics

namespace Sympkf.PKF

open Text Rand Spec World Pkf

/-- C41: three fields, none of whose names is a prefix of another. -/
example (f1 f2 g1 g2 : Field) (v : Ex)
    (h : covariance "V_".toList [fieldU, fieldV, ⟨"h".toList, ["t".toList, "x".toList]⟩] f1 f2 = .ok v)
    (h' : covariance "V_".toList [fieldU, fieldV, ⟨"h".toList, ["t".toList, "x".toList]⟩] g1 g2 = .ok v) : f1 = g1 ∧ f2 = g2 :=
  C41_distinct_partial _ _ (by decide +kernel) _ _ _ _ v h h'

/-- C54: a new closure of the heat equation does not change the transport. -/
example : ((init.run twoObjects).step (.set 1 [])).closureOf 0 = (init.run twoObjects).closureOf 0 := by
  obtain ⟨o, h, -⟩ := run_heat
  exact ((C54_frame_partial twoObjects twoObjects_unshared twoObjects_computable 1 o h []).1 0 (by decide)).2

/-- C56: the closed heat equation does not depend on the other expectations. -/
example {R : Type} [CommRing R] [Algebra ℚ R] (S : Interp R) (E' : R → R) (hE : E' (den S fieldU.random) = S.E (den S fieldU.random)) :
    ∃ l, heat.inMetric closeFourth = .ok l ∧ l.length = 3 ∧ ∀ q ∈ l, den { S with E := E' } q.2 = den S q.2 := by
  obtain ⟨l, hl⟩ := ok_of_isSome (heat.inMetric closeFourth) (by decide +kernel)
  refine ⟨l, hl, (C53_count_metric _ l hl).trans (by decide +kernel), C56_autonomous heat closeFourth l hl heat_unclosed.2 S E' ?_⟩
  intro f hf
  rw [show heat.fields = [fieldU] from rfl, List.mem_singleton] at hf
  rw [hf, hE]

/-- C108: two transported waves. -/
example : ∀ fq ∈ transport2.fields.zip transport2.equations, (den (perturbed travel transport2.fields) fq.2.2).c2 ∈ Smooth.det :=
  (C108_quadratic transport2_setting transport2_dynamics transport2_solution transport2_quadratic).1
    (C108_linear transport2_setting transport2_dynamics transport2_solution transport2_linear).1

end Sympkf.PKF

namespace Sympkf.Clo

open Text Rand PKF

/-- C58: one coordinate, up to the fourth order. -/
example := C58_by_order (f := demo1) (P := demoParams) (by decide +kernel) demo_order (by decide +kernel) 4

/-- C59: after a closure of order six the second order is still there. -/
example : ∃ d, (closureByOrder demoParams demo2 2 (after demoParams demo2 [.closure 6, .taylor 1])).1 = .ok d ∧
    ∀ k ≤ 2, d.get? k = some (entry demoParams demo2 k) :=
  C59_superset_partial (by decide +kernel) demo_order (by decide +kernel) 2 [.taylor 1, .closure 6] (by
    intro c hc
    simp only [List.mem_cons, List.not_mem_nil, or_false] at hc
    rcases hc with rfl | rfl
    · exact .inl ⟨1, rfl, by decide⟩
    · exact .inr (.inr ⟨6, rfl⟩))

/-- C60: one coordinate, with a sound solver. -/
example : ∃ d e, (inMetricByOrder demoSound demo1 2 init).1 = .ok d ∧ d.get? 2 = some e ∧
    e.get? (demo1.metricTerm 0 0) = some (-demoSound.ofEx (demo1.metric 0 0)) := by
  obtain ⟨d, hd⟩ := ok_of_isSome (inMetricByOrder demoSound demo1 2 init).1 (by decide +kernel)
  obtain ⟨e, h1, h2⟩ := C60_in_metric_partial (P := demoSound) "x".toList (by decide +kernel) demo_order demoSound_sound 2 le_rfl d hd
  exact ⟨d, e, hd, h1, h2⟩

end Sympkf.Clo

namespace Sympkf.Cor

open Matrix Spec.Cor

/-- C61: the local Gaussian of an anisotropic tensor. -/
example : Symmetric (locGaussian true (fun _ => (!![2, 1; 1, 2] : Matrix (Fin 2) (Fin 2) ℝ)) (fun _ => 1)) :=
  C61_local_symmetric_partial _ _ _

example : HasMetric (locGaussian false 1 (fun _ => (!![2, 1; 1, 2] : Matrix (Fin 2) (Fin 2) ℝ)⁻¹)) !![2, 1; 1, 2] :=
  C61_local_metric_partial _ posDef_demo _

example : Semidefinite (locGaussian true (fun _ => (!![2, 1; 1, 2] : Matrix (Fin 2) (Fin 2) ℝ)) (fun _ => !![2, 1; 1, 2]⁻¹)) :=
  C61_local_semidefinite_partial _ _ _ posDef_demo posDef_demo.inv

end Sympkf.Cor
