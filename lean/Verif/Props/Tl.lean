import Verif.Lemmas.Tl
import Mathlib.Tactic.Module
import Mathlib.Algebra.Module.LinearMap.Defs
import Mathlib.Algebra.Module.Pi
import Mathlib.Algebra.BigOperators.Fin
import Mathlib.Algebra.BigOperators.Pi
import Mathlib.LinearAlgebra.Matrix.Notation
import Mathlib.Analysis.Calculus.FDeriv.Comp
import Mathlib.Analysis.Calculus.FDeriv.Add
import Mathlib.Analysis.Calculus.FDeriv.Const
import Mathlib.Analysis.Calculus.FDeriv.Pow
import Mathlib.Analysis.Calculus.LineDeriv.Basic

/-!
# Properties C07–C09, C12, C18, C19: tangent-linear forecasts, propagator matrix, invariants, spin-up
-/

set_option autoImplicit false

namespace Sympkf.Integrator

open Sympkf Sympkf.Spec

section Affine
variable {K S : Type} [Field K] [AddCommGroup S] [Module K S]

theorem scheme_affine (s : Scheme) (g : (K → S → S) → K → S → K → S) (hs : singleStep s = some g)
    (A : K → S →ₗ[K] S) (b : K → S) (t : K) (u p : S) (h dt : K) :
    g (fun t u => A t u + b t) t (u + h • p) dt =
      g (fun t u => A t u + b t) t u dt + h • g (fun t u => A t u) t p dt := by
  cases s <;> simp [singleStep] at hs <;> subst hs
  · simp only [rk4, map_add, map_smul]; module
  · simp only [rk2, map_add, map_smul]; module
  · simp only [euler, map_add, map_smul]; module

theorem advance_affine (s : Scheme) (g : (K → S → S) → K → S → K → S) (hs : singleStep s = some g)
    (A : K → S →ₗ[K] S) (b : K → S) (window : List K) (u p : S) (h : K) (i : Nat) :
    advance (g (fun t u => A t u + b t)) window (u + h • p) i =
      advance (g (fun t u => A t u + b t)) window u i + h • advance (g (fun t u => A t u)) window p i := by
  induction i with
  | zero => rfl
  | succ i ih =>
    simp only [advance]
    split
    · rw [ih, scheme_affine s g hs]
    · exact ih

end Affine

/-! ## C07 -/

section C07
variable {K S : Type} [Field K] [DecidableEq K] [AddCommGroup S] [Module K S]

/-- **C07**, for saved times without repetition (the hypothesis `hn` is needed, see `C07_counterexample_repeated`).
For an affine trend `A t u + b t`, any base state and any `h ≠ 0`, the entry of `forecast_tl` at a saved time is the
list of the forecasts, by the homogeneous linear model `A`, of the perturbations. -/
theorem C07_tl_exact_partial (s : Scheme) (g : (K → S → S) → K → S → K → S) (hs : singleStep s = some g)
    (A : K → S →ₗ[K] S) (b : K → S) (window : List K) (hw : window ≠ []) (u : S) (perts : List S)
    (saved : List K) (hn : saved.Nodup) (h : K) (hh : h ≠ 0) (mode : ExecMode) (hm : mode.Valid perts.length) :
    ∃ fc tl, forecastTl (total (g (fun t u => A t u + b t))) window u perts (.list saved) h mode = .ok (fc, tl) ∧
      forecast (total (g (fun t u => A t u + b t))) window u (.list saved) = .ok fc ∧
      (∀ τ, τ ∈ tl.keys ↔ τ ∈ saved) ∧
      (∀ τ ∈ saved, τ ∉ window → tl.get? τ = some []) ∧
      ∀ τ ∈ saved, τ ∈ window → ∃ l, tl.get? τ = some l ∧
        List.Forall₂ (fun p x => ∃ fcp, forecast (total (g (fun t u => A t u))) window p (.list saved) = .ok fcp ∧
          fcp.get? τ = some x) perts l := by
  obtain ⟨fc, tl, h1, h2, h3, h4, h5⟩ :=
    forecastTl_total (g (fun t u => A t u + b t)) window hw u perts saved hn h mode hm
  refine ⟨fc, tl, h1, h2, h3, h4, fun τ hτ hτw => ?_⟩
  obtain ⟨i, hi⟩ := exists_lastAt window τ hτw
  refine ⟨_, h5 τ i hτ hi, ?_⟩
  rw [List.forall₂_map_right_iff, List.forall₂_same]
  intro p _
  obtain ⟨fcp, hp1, _, hp3⟩ := forecast_total (g (fun t u => A t u)) window hw p saved
  refine ⟨fcp, hp1, ?_⟩
  rw [hp3 τ i hτ hi, advance_affine s g hs, add_sub_cancel_left, smul_smul, inv_mul_cancel₀ hh, one_smul]

/-- **C07** What the code computes for arbitrary saved times: a saved time that is listed `k` times holds the forecasts of the
perturbations by the homogeneous linear model, to which `x ↦ (x - forecast[τ]) / h` has been applied `k - 1` times.  With `k = 1` it
is the stated property. -/
theorem C07_tl_repeated (s : Scheme) (g : (K → S → S) → K → S → K → S) (hs : singleStep s = some g)
    (A : K → S →ₗ[K] S) (b : K → S) (window : List K) (hw : window ≠ []) (u : S) (perts : List S)
    (saved : List K) (h : K) (hh : h ≠ 0) (mode : ExecMode) (hm : mode.Valid perts.length) :
    ∃ fc tl, forecastTl (total (g (fun t u => A t u + b t))) window u perts (.list saved) h mode = .ok (fc, tl) ∧
      forecast (total (g (fun t u => A t u + b t))) window u (.list saved) = .ok fc ∧
      (∀ τ, τ ∈ tl.keys ↔ τ ∈ saved) ∧
      (∀ τ ∈ saved, τ ∉ window → tl.get? τ = some []) ∧
      ∀ τ ∈ saved, τ ∈ window → ∃ l ref, tl.get? τ = some l ∧ fc.get? τ = some ref ∧
        List.Forall₂ (fun p x => ∃ fcp y, forecast (total (g (fun t u => A t u))) window p (.list saved) = .ok fcp ∧
          fcp.get? τ = some y ∧ x = (fun z => h⁻¹ • (z - ref))^[saved.count τ - 1] y) perts l := by
  obtain ⟨fc, tl, h1, h2, h3, h4, h5⟩ :=
    forecastTl_count (g (fun t u => A t u + b t)) window hw u perts saved h mode hm
  refine ⟨fc, tl, h1, h2, h3, h4, fun τ hτ hτw => ?_⟩
  obtain ⟨i, hi⟩ := exists_lastAt window τ hτw
  obtain ⟨fc', hf1, _, hf3⟩ := forecast_total (g (fun t u => A t u + b t)) window hw u saved
  cases Except.ok.inj (h2.symm.trans hf1)
  refine ⟨_, _, h5 τ i hτ hi, hf3 τ i hτ hi, ?_⟩
  rw [List.forall₂_map_right_iff, List.forall₂_same]
  intro p _
  obtain ⟨fcp, hp1, _, hp3⟩ := forecast_total (g (fun t u => A t u)) window hw p saved
  refine ⟨fcp, _, hp1, hp3 τ i hτ hi, ?_⟩
  obtain ⟨k, hk⟩ : ∃ k, saved.count τ = k + 1 := ⟨saved.count τ - 1, by have := List.count_pos_iff.2 hτ; omega⟩
  rw [hk, Nat.add_sub_cancel, Function.iterate_succ_apply, advance_affine s g hs, add_sub_cancel_left, smul_smul,
    inv_mul_cancel₀ hh, one_smul]

end C07

/-- The code violates C07 when a saved time is requested twice: the difference quotient is taken twice at that time.
Here the dynamics is the identity (`A = 0`), the perturbation is `1`, and the result is `-1` instead of `1`. -/
theorem C07_counterexample_repeated :
    ∃ fc tl, forecastTl (total (euler (fun _ _ => (0 : ℚ)))) [(0 : ℚ), 1] 3 [1] (.list [1, 1]) 2 .sequential
      = .ok (fc, tl) ∧ tl.get? 1 = some [-1] ∧
      forecast (total (euler (fun _ _ => (0 : ℚ)))) [(0 : ℚ), 1] 1 (.list [1, 1]) = .ok [(1, 1)] := by
  refine ⟨[(1, 3)], [(1, [-1])], ?_, ?_, ?_⟩
  · norm_num [forecastTl, ensembleForecast, iterSaved, emptyForecasts, sequentialLoop, appendForecast, Dict.getItem,
      Dict.get?, forecast, checkSavedTimes, forecastLoop, isIn, euler, total, bind, Except.bind, pure, Except.pure,
      Dict.set, tlLoop]
  · rfl
  · norm_num [forecast, checkSavedTimes, forecastLoop, isIn, euler, total, bind, Except.bind, pure, Except.pure,
      Dict.set]

/-- Non-vacuity: a time listed three times. -/
example := C07_tl_repeated (K := ℚ) (S := ℚ) .rk2 rk2 rfl (fun t => t • LinearMap.id) (fun t => t + 1) [0, 1, 3]
  (by simp) 2 [1, 5] [3, 3, 1, 3] 2 (by norm_num) .sequential trivial

/-- Non-vacuity: an affine, non-autonomous trend with rk4, and an uneven window. -/
example := C07_tl_exact_partial (K := ℚ) (S := ℚ) .rk4 rk4 rfl (fun t => t • LinearMap.id) (fun t => t + 1) [0, 1, 3]
  (by simp) 5 [1, 2] [3, 1] (by decide) 7 (by norm_num) .sequential trivial

/-! ## C08 -/

section C08
variable {S : Type} [NormedAddCommGroup S] [NormedSpace ℝ S]

theorem scheme_differentiable (s : Scheme) (g : (ℝ → S → S) → ℝ → S → ℝ → S) (hs : singleStep s = some g)
    (f : ℝ → S → S) (hf : ∀ t, Differentiable ℝ (f t)) (t dt : ℝ) : Differentiable ℝ (fun u => g f t u dt) := by
  have hid : Differentiable ℝ (fun u : S => u) := differentiable_id
  cases s <;> simp [singleStep] at hs <;> subst hs
  · have k1 := hf t
    have k2 : Differentiable ℝ fun u => f (t + dt * (1/2)) (u + (dt * (1/2)) • f t u) :=
      (hf _).comp (hid.add (k1.const_smul _))
    have k3 : Differentiable ℝ fun u => f (t + dt * (1/2)) (u + (dt * (1/2)) • f (t + dt * (1/2)) (u + (dt * (1/2)) • f t u)) :=
      (hf _).comp (hid.add (k2.const_smul _))
    have k4 : Differentiable ℝ fun u => f (t + dt) (u + dt • f (t + dt * (1/2)) (u + (dt * (1/2)) • f (t + dt * (1/2)) (u + (dt * (1/2)) • f t u))) :=
      (hf _).comp (hid.add (k3.const_smul _))
    exact hid.add ((((k1.add (k2.const_smul _)).add (k3.const_smul _)).add k4).const_smul _)
  · have k2 : Differentiable ℝ fun u => f (t + (1/2) * dt) (u + (dt * (1/2)) • f t u) :=
      (hf _).comp (hid.add ((hf t).const_smul _))
    exact hid.add (k2.const_smul _)
  · exact hid.add ((hf t).const_smul _)

theorem advance_differentiable (G : ℝ → S → ℝ → S) (hG : ∀ t dt, Differentiable ℝ (fun u => G t u dt))
    (window : List ℝ) (i : Nat) : Differentiable ℝ (fun u => advance G window u i) := by
  induction i with
  | zero => exact differentiable_id
  | succ i ih =>
    simp only [advance]
    split
    · rename_i t t' _ _
      exact (hG t (t' - t)).comp ih
    · exact ih

open Filter Topology in
/-- **C08**, for a saved time that is listed once (`C08_tl_diverges` tells what happens otherwise). For a trend differentiable in the state, at every saved time `τ` of
the window the forecast map `Φ` (state at `τ` as a function of the initial state) is differentiable, and the
`i`-th perturbation returned by `forecast_tl` tends to `DΦ(u)·perts[i]` as `h → 0`. -/
theorem C08_tl_converges_partial (s : Scheme) (g : (ℝ → S → S) → ℝ → S → ℝ → S) (hs : singleStep s = some g)
    (f : ℝ → S → S) (hf : ∀ t, Differentiable ℝ (f t)) (window : List ℝ) (u : S) (perts : List S)
    (saved : List ℝ) (mode : ExecMode) (hm : mode.Valid perts.length)
    (τ : ℝ) (hn : saved.count τ = 1) (hτw : τ ∈ window) :
    ∃ Φ : S → S,
      (∀ v, ∃ fc, forecast (total (g f)) window v (.list saved) = .ok fc ∧ fc.get? τ = some (Φ v)) ∧
      Differentiable ℝ Φ ∧
      ∃ l : ℝ → List S,
        (∀ h, ∃ fc tl, forecastTl (total (g f)) window u perts (.list saved) h mode = .ok (fc, tl) ∧
          tl.get? τ = some (l h)) ∧
        ∀ (i : ℕ) p, perts[i]? = some p → ∃ y : ℝ → S, (∀ h, (l h)[i]? = some (y h)) ∧
          Tendsto y (𝓝[≠] 0) (𝓝 (fderiv ℝ Φ u p)) := by
  have hw : window ≠ [] := by rintro rfl; simp at hτw
  have hτ : τ ∈ saved := List.count_pos_iff.1 (by omega)
  obtain ⟨i, hi⟩ := exists_lastAt window τ hτw
  have hd := advance_differentiable (g f) (scheme_differentiable s g hs f hf) window i
  refine ⟨fun v => advance (g f) window v i, fun v => ?_, hd,
    fun h => perts.map (fun p => h⁻¹ • (advance (g f) window (u + h • p) i - advance (g f) window u i)), fun h => ?_, ?_⟩
  · obtain ⟨fc, h1, _, h3⟩ := forecast_total (g f) window hw v saved
    exact ⟨fc, h1, h3 τ i hτ hi⟩
  · obtain ⟨fc, tl, h1, _, _, _, h5⟩ := forecastTl_count (g f) window hw u perts saved h mode hm
    refine ⟨fc, tl, h1, (h5 τ i hτ hi).trans ?_⟩
    rw [hn]; rfl
  · intro j p hp
    refine ⟨fun h => h⁻¹ • (advance (g f) window (u + h • p) i - advance (g f) window u i), fun h => ?_, ?_⟩
    · simp [hp]
    · have := ((hd u).hasFDerivAt.hasLineDerivAt p)
      exact hasDerivAt_iff_tendsto_slope_zero.1 this |>.congr (fun h => by simp)

open Filter Topology in
theorem quotient_diverges (r L : S) (hr : L ≠ r) (y : ℝ → S) (hy : Tendsto y (𝓝[≠] 0) (𝓝 L)) (k : ℕ) :
    Tendsto (fun h => ‖(fun z => h⁻¹ • (z - r))^[k + 1] (y h)‖) (𝓝[≠] 0) atTop := by
  have hinv : Tendsto (fun h : ℝ => ‖h⁻¹‖) (𝓝[≠] 0) atTop := tendsto_norm_inv_nhdsNE_zero_atTop
  induction k with
  | zero =>
    have h1 : Tendsto (fun h => ‖y h - r‖) (𝓝[≠] 0) (𝓝 ‖L - r‖) := (hy.sub_const r).norm
    have := hinv.atTop_mul_pos (norm_pos_iff.2 (sub_ne_zero.2 hr)) h1
    exact this.congr fun h => (norm_smul _ _).symm
  | succ k ih =>
    have h1 : Tendsto (fun h => ‖(fun z => h⁻¹ • (z - r))^[k + 1] (y h) - r‖) (𝓝[≠] 0) atTop :=
      tendsto_atTop_mono (fun h => norm_sub_norm_le _ _) (tendsto_atTop_add_const_right _ (-‖r‖) ih)
    have := hinv.atTop_mul_atTop₀ h1
    exact this.congr fun h => by rw [Function.iterate_succ_apply' _ (k + 1), norm_smul]

open Filter Topology in
/-- **C08** What happens when a saved time is listed more than once: unless the derivative `DΦ(u)·p` happens to be the forecast
itself, the perturbation returned by `forecast_tl` tends to infinity as `h → 0`. -/
theorem C08_tl_diverges (s : Scheme) (g : (ℝ → S → S) → ℝ → S → ℝ → S) (hs : singleStep s = some g)
    (f : ℝ → S → S) (hf : ∀ t, Differentiable ℝ (f t)) (window : List ℝ) (u : S) (perts : List S)
    (saved : List ℝ) (mode : ExecMode) (hm : mode.Valid perts.length)
    (τ : ℝ) (hn : 2 ≤ saved.count τ) (hτw : τ ∈ window) :
    ∃ Φ : S → S,
      (∀ v, ∃ fc, forecast (total (g f)) window v (.list saved) = .ok fc ∧ fc.get? τ = some (Φ v)) ∧
      Differentiable ℝ Φ ∧
      ∃ l : ℝ → List S,
        (∀ h, ∃ fc tl, forecastTl (total (g f)) window u perts (.list saved) h mode = .ok (fc, tl) ∧
          tl.get? τ = some (l h)) ∧
        ∀ (i : ℕ) p, perts[i]? = some p → fderiv ℝ Φ u p ≠ Φ u → ∃ y : ℝ → S, (∀ h, (l h)[i]? = some (y h)) ∧
          Tendsto (fun h => ‖y h‖) (𝓝[≠] 0) atTop := by
  have hw : window ≠ [] := by rintro rfl; simp at hτw
  have hτ : τ ∈ saved := List.count_pos_iff.1 (by omega)
  obtain ⟨k, hk⟩ : ∃ k, saved.count τ = k + 2 := ⟨saved.count τ - 2, by omega⟩
  obtain ⟨i, hi⟩ := exists_lastAt window τ hτw
  have hd := advance_differentiable (g f) (scheme_differentiable s g hs f hf) window i
  refine ⟨fun v => advance (g f) window v i, fun v => ?_, hd, fun h => perts.map fun p =>
    (fun z => h⁻¹ • (z - advance (g f) window u i))^[saved.count τ] (advance (g f) window (u + h • p) i), fun h => ?_, ?_⟩
  · obtain ⟨fc, h1, _, h3⟩ := forecast_total (g f) window hw v saved
    exact ⟨fc, h1, h3 τ i hτ hi⟩
  · obtain ⟨fc, tl, h1, _, _, _, h5⟩ := forecastTl_count (g f) window hw u perts saved h mode hm
    exact ⟨fc, tl, h1, h5 τ i hτ hi⟩
  · intro j p hp hne
    refine ⟨fun h => (fun z => h⁻¹ • (z - advance (g f) window u i))^[saved.count τ] (advance (g f) window (u + h • p) i),
      fun h => by simp [hp], ?_⟩
    have h1 := ((hd u).hasFDerivAt.hasLineDerivAt p)
    have h2 : Tendsto (fun h : ℝ => h⁻¹ • (advance (g f) window (u + h • p) i - advance (g f) window u i)) (𝓝[≠] 0)
        (𝓝 (fderiv ℝ (fun v => advance (g f) window v i) u p)) :=
      hasDerivAt_iff_tendsto_slope_zero.1 h1 |>.congr (fun h => by simp)
    have := quotient_diverges (advance (g f) window u i) _ hne _ h2 k
    refine this.congr fun h => ?_
    rw [hk]; rfl

end C08

/-- Non-vacuity: a nonlinear trend and a time listed twice. -/
example := C08_tl_diverges (S := ℝ) .rk2 rk2 rfl (fun t u => t + u ^ 2) (fun t => by fun_prop) [0, 1, 3] 2 [1, 5]
  [3, 7, 3] .sequential trivial 3 (by simp) (by simp)

/-- Non-vacuity: a nonlinear trend. -/
example := C08_tl_converges_partial (S := ℝ) .rk2 rk2 rfl (fun t u => t + u ^ 2) (fun t => by fun_prop) [0, 1, 3] 2 [1, 5]
  [3, 7] .sequential trivial 3 (by simp) (by simp)

/-! ## C09 -/

section C09
variable {K : Type} [Field K] [DecidableEq K]

theorem lastAt_getLast {K : Type} (window : List K) (hw : window ≠ []) :
    LastAt window (window.getLast hw) (window.length - 1) := by
  have : 0 < window.length := List.length_pos_iff.2 hw
  refine ⟨?_, fun j hj => ?_⟩
  · rw [List.getLast_eq_getElem, List.getElem?_eq_getElem]
  · rw [List.getElem?_eq_none (by omega)]; simp

/-- `make_M` returns the list of the end states of the canonical basis vectors: `M[i] = forecast(e_i)[end]`, for any
dynamics that never raises. -/
theorem C09_makeM_rows_partial {n : ℕ} (g : K → (Fin n → K) → K → (Fin n → K)) (window : List K) (hw : window ≠ [])
    (mode : ExecMode) (hm : mode.Valid n) :
    ∃ M, makeM (total g) window mode = .ok M ∧ M.length = n ∧
      ∀ i : Fin n, ∃ fc, forecast (total g) window (Pi.single i 1) (.list [window.getLast hw]) = .ok fc ∧
        fc.get? (window.getLast hw) = M[i]? := by
  set τ := window.getLast hw with hτ
  have hi : LastAt window τ (window.length - 1) := lastAt_getLast window hw
  obtain ⟨D, hD, _, _, hv⟩ := ensemble_total g window hw ((List.finRange n).map (dirac n)) [τ] mode (by simpa using hm)
  refine ⟨((List.finRange n).map (dirac n)).map (fun u => advance g window u (window.length - 1)), ?_, by simp, fun i => ?_⟩
  · simp only [makeM, List.getLast?_eq_some_getLast hw, ← hτ, bind, Except.bind, hD]
    rw [Dict.getItem_eq_ok]
    exact hv τ _ (by simp) hi
  · obtain ⟨fc, h1, _, h3⟩ := forecast_total g window hw (Pi.single i 1) [τ]
    refine ⟨fc, h1, ?_⟩
    rw [h3 τ _ (by simp) hi]
    have : dirac n i = (Pi.single i 1 : Fin n → K) := by
      ext j; simp [dirac, Pi.single_apply]
    simp [this]

omit [DecidableEq K] in
theorem advance_linear {S : Type} [AddCommGroup S] [Module K S] (g : K → S → K → S)
    (hadd : ∀ t u v dt, g t (u + v) dt = g t u dt + g t v dt) (hsmul : ∀ t (a : K) u dt, g t (a • u) dt = a • g t u dt)
    (window : List K) (i : ℕ) : ∃ L : S →ₗ[K] S, ∀ u, advance g window u i = L u := by
  refine ⟨⟨⟨fun u => advance g window u i, ?_⟩, ?_⟩, fun u => rfl⟩
  · induction i with
    | zero => intro u v; rfl
    | succ i ih =>
      intro u v
      simp only [advance]
      split
      · rw [ih, hadd]
      · exact ih u v
  · induction i with
    | zero => intro a v; rfl
    | succ i ih =>
      intro a v
      have ih' : advance g window (a • v) i = a • advance g window v i := ih a v
      simp only [advance, RingHom.id_apply]
      split
      · rw [ih', hsmul]
      · exact ih'

/-- What C09 becomes with the matrix actually returned: `forecast(u)[end] = u @ M`, i.e.
`forecast(u)[end]_j = Σ_i u_i M[i][j]`. The stated property (`M @ u`) holds when `M` is symmetric and fails in
general, see `C09_counterexample_transposed`. -/
theorem C09_makeM_vecMul_partial {n : ℕ} (s : Scheme) (g : (K → (Fin n → K) → Fin n → K) → K → (Fin n → K) → K → Fin n → K)
    (hs : singleStep s = some g) (A : K → (Fin n → K) →ₗ[K] (Fin n → K)) (window : List K) (hw : window ≠ [])
    (mode : ExecMode) (hm : mode.Valid n) :
    ∃ M : Fin n → Fin n → K, makeM (total (g (fun t u => A t u))) window mode = .ok (List.ofFn M) ∧
      ∀ u, ∃ fc, forecast (total (g (fun t u => A t u))) window u (.list [window.getLast hw]) = .ok fc ∧
        fc.get? (window.getLast hw) = some (fun j => ∑ i, u i * M i j) := by
  have haff := scheme_affine s g hs A (fun _ => 0)
  simp only [add_zero] at haff
  have hz : ∀ t dt, g (fun t u => A t u) t 0 dt = 0 := by
    intro t dt
    have := haff t 0 0 1 dt
    simpa using this
  obtain ⟨L, hL⟩ := advance_linear (g (fun t u => A t u))
    (fun t u v dt => by simpa using haff t u v 1 dt)
    (fun t a u dt => by simpa [hz] using haff t 0 u a dt) window (window.length - 1)
  obtain ⟨M, hM, hlen, hrow⟩ := C09_makeM_rows_partial (g (fun t u => A t u)) window hw mode hm
  have hi := lastAt_getLast window hw
  have hrow' : ∀ i : Fin n, M[i]? = some (L (Pi.single i 1)) := by
    intro i
    obtain ⟨fc, h1, h2⟩ := hrow i
    obtain ⟨fc', h1', _, h3⟩ := forecast_total (g (fun t u => A t u)) window hw (Pi.single i 1) [window.getLast hw]
    rw [h1] at h1'
    simp only [Except.ok.injEq] at h1'
    subst h1'
    rw [← h2, h3 _ _ (by simp) hi, hL]
  refine ⟨fun i => L (Pi.single i 1), ?_, fun u => ?_⟩
  · rw [hM]
    congr 1
    apply List.ext_getElem?
    intro i
    by_cases hin : i < n
    · rw [show M[i]? = some (L (Pi.single ⟨i, hin⟩ 1)) from hrow' ⟨i, hin⟩]
      simp [hin]
    · rw [List.getElem?_eq_none (by omega), List.getElem?_eq_none (by simp; omega)]
  · obtain ⟨fc, h1, _, h3⟩ := forecast_total (g (fun t u => A t u)) window hw u [window.getLast hw]
    refine ⟨fc, h1, ?_⟩
    rw [h3 _ _ (by simp) hi, hL]
    congr 1
    conv_lhs => rw [← Finset.univ_sum_single u]
    rw [map_sum]
    funext j
    rw [Finset.sum_apply]
    refine Finset.sum_congr rfl (fun i _ => ?_)
    have : (Pi.single i (u i) : Fin n → K) = u i • Pi.single i 1 := by
      ext k; simp [Pi.single_apply]
    rw [this, map_smul, Pi.smul_apply, smul_eq_mul]

end C09

/-- The trend `(u, v) ↦ (v, 0)`. -/
def shiftTrend : ℚ → (Fin 2 → ℚ) → Fin 2 → ℚ := fun _ u => ![u 1, 0]

/-- The code violates C09 as stated: for the linear model `u' = v, v' = 0` (one euler step of length 1),
`make_M` returns `[[1,0],[1,1]]`, and `M @ (0,1) = (0,1)` while the forecast of `(0,1)` is `(1,1)`. -/
theorem C09_counterexample_transposed :
    makeM (total (euler shiftTrend)) [0, 1] .sequential = .ok [![1, 0], ![1, 1]] ∧
    forecast (total (euler shiftTrend)) [0, 1] ![0, 1] (.list [1]) = .ok [(1, ![1, 1])] ∧
    Matrix.mulVec !![(1 : ℚ), 0; 1, 1] ![0, 1] = ![0, 1] := by
  refine ⟨?_, ?_, ?_⟩
  · have hr : List.finRange 2 = [0, 1] := by decide
    norm_num [makeM, hr, ensembleForecast, iterSaved, emptyForecasts, sequentialLoop, appendForecast,
      Dict.getItem, Dict.get?, forecast, checkSavedTimes, forecastLoop, isIn, euler, total, bind, Except.bind, pure,
      Except.pure, Dict.set, shiftTrend]
    simp [dirac, Matrix.vecHead, Matrix.vecTail]
  · norm_num [forecast, checkSavedTimes, forecastLoop, isIn, euler, total, bind, Except.bind, pure, Except.pure,
      Dict.set, shiftTrend]
  · ext i; fin_cases i <;> simp [Matrix.mulVec, dotProduct]

/-! ## C12 -/

section C12
variable {K S : Type} [Field K] [DecidableEq K] [AddCommGroup S] [Module K S]

/-- **C12**. The identity model keeps its initial state, for euler, rk2 and rk4. -/
theorem C12_identity (s : Scheme) (g : (K → S → S) → K → S → K → S) (hs : singleStep s = some g)
    (window : List K) (hw : window ≠ []) (u0 : S) (saved : List K) :
    ∃ fc, forecast (step s (.fn identityTrend)) window (.single u0) (.list saved) = .ok fc ∧
      (∀ τ, τ ∈ fc.keys ↔ τ ∈ window ∧ τ ∈ saved) ∧ ∀ kv ∈ fc, kv.2 = .single u0 := by
  obtain ⟨fc, xs, h1, h2, h3⟩ := C01_forecast_scheme s g hs identityTrend window hw u0 saved
  obtain ⟨ys, _, hnd, hk, hys⟩ := C01_forecast_sound _ _ _ _ _ h1
  have hg : ∀ t (u : S) dt, g (identityTrend (K := K)) t u dt = u := by
    intro t u dt
    cases s <;> simp [singleStep] at hs <;> subst hs <;> simp [rk4, rk2, euler, identityTrend]
  have hadv : ∀ i, advance (g (identityTrend (K := K))) window u0 i = u0 := by
    intro i
    induction i with
    | zero => rfl
    | succ i ih => simp only [advance]; split <;> simp [ih, hg]
  refine ⟨fc, h1, hk, ?_⟩
  rintro ⟨τ, v⟩ hkv
  have hmem : τ ∈ fc.keys := by simp only [Dict.keys, List.mem_map]; exact ⟨_, hkv, rfl⟩
  obtain ⟨hτw, hτ⟩ := (hk τ).1 hmem
  have hget : fc.get? τ = some v := Dict.get?_of_mem hnd hkv
  obtain ⟨i, hi⟩ := exists_lastAt window τ hτw
  have : fc.get? τ = some (.single u0) := by
    rw [h3 τ u0]
    refine ⟨hτ, i, hi.1, ?_, hi.2⟩
    have hlt : i < window.length := by
      by_contra hlt
      have := hi.1
      rw [List.getElem?_eq_none (by omega)] at this; simp at this
    rw [isTrajectory_total (g (identityTrend (K := K))) window u0 xs h2 i hlt, hadv]
  rw [hget] at this
  simpa using this

omit [DecidableEq K] in
/-- With leapfrog the identity model swaps the pair at every step, with splitting it raises `TypeError`
(`IdentityModel.trend` is not a list). -/
theorem C12_identity_other_schemes (t dt : K) (u v : S) :
    step .leapfrog (.fn identityTrend) t (.pair u v) dt = .ok (.pair v u) ∧
    step .splitting (.fn identityTrend) t (.single u) dt = .error .typeError := by
  constructor
  · simp [step, leapfrog, identityTrend]
  · rfl

end C12

example := C12_identity (K := ℚ) (S := ℚ) .rk4 rk4 rfl [0, 1, 3] (by simp) 5 [3]

/-! ## C18 -/

section C18
variable {K S V : Type} [Field K] [DecidableEq K] [AddCommGroup S] [Module K S] [AddCommGroup V] [Module K V]

/-- **C18** for euler, rk2, rk4: a linear map that vanishes on the trend keeps its initial value. -/
theorem C18_linear_invariant (s : Scheme) (g : (K → S → S) → K → S → K → S) (hs : singleStep s = some g)
    (f : K → S → S) (φ : S →ₗ[K] V) (hφ : ∀ t u, φ (f t u) = 0) (window : List K) (u0 : S) (saved : List K)
    (fc : Dict K S) (hfc : forecast (total (g f)) window u0 (.list saved) = .ok fc) (τ : K) (x : S)
    (hx : fc.get? τ = some x) : φ x = φ u0 := by
  have hg : ∀ t u dt, φ (g f t u dt) = φ u := by
    intro t u dt
    cases s <;> simp [singleStep] at hs <;> subst hs <;> simp [rk4, rk2, euler, hφ]
  have hadv : ∀ i, φ (advance (g f) window u0 i) = φ u0 := by
    intro i
    induction i with
    | zero => rfl
    | succ i ih => simp only [advance]; split <;> simp [ih, hg]
  obtain ⟨xs, hxs, _, _, h4⟩ := C01_forecast_sound _ _ _ _ _ hfc
  obtain ⟨_, i, h1, h2, _⟩ := (h4 τ x).1 hx
  have hlt : i < window.length := by
    by_contra hlt
    rw [List.getElem?_eq_none (by omega)] at h1; simp at h1
  rw [isTrajectory_total _ _ _ _ hxs i hlt] at h2
  simp only [Option.some.injEq] at h2
  rw [← h2, hadv]

/-- **C18** for leapfrog, when the two initial states agree on the functional. -/
theorem C18_linear_invariant_leapfrog (f : K → S → S) (φ : S →ₗ[K] V) (hφ : ∀ t u, φ (f t u) = 0) (window : List K)
    (u0 v0 : S) (h0 : φ u0 = φ v0) (saved : List K) (fc : Dict K (S × S))
    (hfc : forecast (total (leapfrog f)) window (u0, v0) (.list saved) = .ok fc) (τ : K) (x y : S)
    (hx : fc.get? τ = some (x, y)) : φ x = φ u0 ∧ φ y = φ u0 := by
  have hadv : ∀ i, φ (advance (leapfrog f) window (u0, v0) i).1 = φ u0 ∧
      φ (advance (leapfrog f) window (u0, v0) i).2 = φ u0 := by
    intro i
    induction i with
    | zero => exact ⟨rfl, h0.symm⟩
    | succ i ih =>
      simp only [advance]
      split
      · refine ⟨ih.2, ?_⟩
        simp [leapfrog, hφ, ih.1]
      · exact ih
  obtain ⟨xs, hxs, _, _, h4⟩ := C01_forecast_sound _ _ _ _ _ hfc
  obtain ⟨_, i, h1, h2, _⟩ := (h4 τ (x, y)).1 hx
  have hlt : i < window.length := by
    by_contra hlt
    rw [List.getElem?_eq_none (by omega)] at h1; simp at h1
  rw [isTrajectory_total _ _ _ _ hxs i hlt] at h2
  simp only [Option.some.injEq] at h2
  have := hadv i
  rw [h2] at this
  exact this

end C18

/-- Non-vacuity: the sum of the two components is an invariant of `(u, v) ↦ (-(u-v)^3, (u-v)^3)`, a nonlinear trend. -/
example : ∀ t (u : ℚ × ℚ), (LinearMap.fst ℚ ℚ ℚ + LinearMap.snd ℚ ℚ ℚ)
    ((fun (_ : ℚ) (u : ℚ × ℚ) => (-(u.1 - u.2) ^ 3, (u.1 - u.2) ^ 3)) t u) = 0 := by
  intro t u; simp

/-! ## C19 -/

section C19
variable {K X : Type} [Field K] [DecidableEq K]

/-- **C19**. `randstate` is the state after `nstart - 1` steps of length `dt` from the draw, over the times
`0, dt, 2dt, …`; it is the forecast at the last of these times; without any point it raises `IndexError`. -/
theorem C19_randstate (g : K → X → K → X) (n : ℕ) (dt : K) (xo : X) :
    randstate (total g) (n + 1) dt xo =
      .ok (advance g ((List.range (n + 1)).map (fun i : ℕ => (i : K) * dt)) xo n) ∧
    (∃ fc, forecast (total g) ((List.range (n + 1)).map (fun i : ℕ => (i : K) * dt)) xo (.list [(n : K) * dt]) = .ok fc ∧
      randstate (total g) (n + 1) dt xo = Dict.getItem fc ((n : K) * dt)) ∧
    randstate (total g) 0 dt xo = .error .indexError := by
  set w := (List.range (n + 1)).map (fun i : ℕ => (i : K) * dt) with hwdef
  have hw : w ≠ [] := by simp [hwdef]
  have hlast : w.getLast? = some ((n : K) * dt) := by simp [hwdef, List.range_succ]
  have hi : LastAt w ((n : K) * dt) n := by
    refine ⟨by simp [hwdef], fun j hj => ?_⟩
    rw [List.getElem?_eq_none (by simp [hwdef]; omega)]; simp
  obtain ⟨fc, h1, _, h3⟩ := forecast_total g w hw xo [(n : K) * dt]
  have hr : randstate (total g) (n + 1) dt xo = Dict.getItem fc ((n : K) * dt) := by
    simp only [randstate, ← hwdef, hlast, bind, Except.bind, h1]
  refine ⟨?_, ⟨fc, h1, hr⟩, rfl⟩
  rw [hr, Dict.getItem_eq_ok, h3 _ n (by simp) hi]

end C19

end Sympkf.Integrator
