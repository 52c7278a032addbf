import Verif.Props.Translate
import Verif.Props.Conservation
import Verif.Props.Dynamics
import Verif.Lemmas.CentredDiff

/-!
# C93: discrete maximum principle; the cases of C91 and C92
-/

set_option autoImplicit false

namespace Sympkf.Dynamics

open Text PDE Spec.PDE FinDiff Props Spec

/-- What is true of the initial state and preserved by the steps of the window is true of all the saved states. -/
theorem euler_induct {S : Type} [AddCommGroup S] [Module ℝ S] (F : ℝ → S → S) (P : S → Prop) (window : List ℝ)
    (hstep : ∀ (i : ℕ) t t', window[i]? = some t → window[i + 1]? = some t' → ∀ u, P u → P (u + (t' - t) • F t u))
    (u0 : S) (h0 : P u0) (saved : List ℝ) (fc : Dict ℝ (Integrator.StateObj S))
    (hfc : Integrator.forecast (Integrator.step .euler (.fn F)) window (.single u0) (.list saved) = .ok fc) (τ : ℝ) (u : S)
    (hu : fc.get? τ = some (.single u)) : P u := by
  have hw : window ≠ [] := by
    rintro rfl
    simp [Integrator.forecast, Integrator.forecastLoop, bind, Except.bind] at hfc
  obtain ⟨fc', xs, hfc', hxs, hval⟩ := Integrator.C01_forecast_scheme .euler Integrator.euler rfl F window hw u0 saved
  rw [hfc] at hfc'
  injection hfc' with hfc'
  subst hfc'
  obtain ⟨-, i, h1, h2, -⟩ := (hval τ u).1 hu
  clear hval hu
  induction i generalizing τ u with
  | zero =>
    rw [hxs.start] at h2
    injection h2 with h2
    exact h2 ▸ h0
  | succ i ih =>
    have hlt : i + 1 < window.length := (List.getElem?_eq_some_iff.1 h1).1
    obtain ⟨t, ht⟩ : ∃ t, window[i]? = some t := ⟨_, List.getElem?_eq_getElem (by omega)⟩
    obtain ⟨x, hx⟩ : ∃ x, xs[i]? = some x := ⟨_, List.getElem?_eq_getElem (by rw [hxs.length_eq]; omega)⟩
    obtain ⟨x', h3, h4⟩ := hxs.next i t τ x ht h1 hx
    rw [h2] at h3
    injection h3 with h3
    injection h4 with h4
    rw [h3, ← h4]
    exact hstep i t τ ht h1 x (ih t x ht hx)

/-- The step of Euler's method is a mean of the neighbouring values. -/
theorem centred_mean (c κ h dt lo up U U₁ U₂ : ℝ) (hh : 0 < h) (hdt : 0 ≤ dt) (hcfl : 2 * κ * dt ≤ h ^ 2)
    (hpe : c * h * |U| ≤ 2 * κ) (hc : 0 ≤ c) (h0 : lo ≤ U ∧ U ≤ up) (h1 : lo ≤ U₁ ∧ U₁ ≤ up) (h2 : lo ≤ U₂ ∧ U₂ ≤ up) :
    lo ≤ U + dt * (-1 * (c * (U * ((U₁ - U₂) / (2 * h)))) + κ * ((U₁ - 2 * U + U₂) / h ^ 2)) ∧
      U + dt * (-1 * (c * (U * ((U₁ - U₂) / (2 * h)))) + κ * ((U₁ - 2 * U + U₂) / h ^ 2)) ≤ up := by
  set p := dt * (κ / h ^ 2 - c * U / (2 * h)) with hp
  set q := dt * (κ / h ^ 2 + c * U / (2 * h)) with hq
  have hcU := abs_le.1 (le_of_eq_of_le (by rw [abs_mul, abs_of_nonneg (by positivity)]) hpe : |c * h * U| ≤ 2 * κ)
  have e1 : κ / h ^ 2 - c * U / (2 * h) = (2 * κ - c * h * U) / (2 * h ^ 2) := by field_simp
  have e2 : κ / h ^ 2 + c * U / (2 * h) = (2 * κ + c * h * U) / (2 * h ^ 2) := by field_simp
  have hp0 : 0 ≤ p := by rw [hp, e1]; exact mul_nonneg hdt (div_nonneg (by linarith) (by positivity))
  have hq0 : 0 ≤ q := by rw [hq, e2]; exact mul_nonneg hdt (div_nonneg (by linarith) (by positivity))
  have hpq : p + q = 2 * κ * dt / h ^ 2 := by rw [hp, hq]; field_simp; ring
  have hpq1 : p + q ≤ 1 := by rw [hpq, div_le_one (by positivity)]; exact hcfl
  have e3 : U + dt * (-1 * (c * (U * ((U₁ - U₂) / (2 * h)))) + κ * ((U₁ - 2 * U + U₂) / h ^ 2)) =
      (1 - (p + q)) * U + p * U₁ + q * U₂ := by
    rw [hp, hq]; field_simp; ring
  rw [e3]
  constructor <;> nlinarith [mul_nonneg (sub_nonneg.2 hpq1) (sub_nonneg.2 h0.1), mul_nonneg (sub_nonneg.2 hpq1) (sub_nonneg.2 h0.2),
    mul_nonneg hp0 (sub_nonneg.2 h1.1), mul_nonneg hp0 (sub_nonneg.2 h1.2), mul_nonneg hq0 (sub_nonneg.2 h2.1),
    mul_nonneg hq0 (sub_nonneg.2 h2.2)]

/-- The grid of one coordinate. -/
abbrev line (n : ℕ) : Fin (["x".toList] : List Str).length → ℕ := fun _ => n

theorem one_field (s : System) (hs : s.prognostic.length = 1) (A : Arith (Arr 1 ℝ)) (O : Obj (Arr 1 ℝ)) (g : Arr 1 ℝ → Arr 1 ℝ)
    (htr : ∀ (time a : Arr 1 ℝ), ∃ m, s.trend A O time [a] = .ok m ∧ m.out = [g a])
    (F : ℝ → (Fin s.prognostic.length → Arr 1 ℝ) → Fin s.prognostic.length → Arr 1 ℝ) (hF : Implements s A (fun _ => O) F)
    (t : ℝ) (U : Fin s.prognostic.length → Arr 1 ℝ) (k : Fin s.prognostic.length) : F t U k = g (U k) := by
  obtain ⟨m, hm, hout⟩ := hF t U
  have hsub : ∀ k' : Fin s.prognostic.length, k' = k := fun k' => Fin.ext (by omega)
  have e : ∀ V : Fin s.prognostic.length → Arr 1 ℝ, List.ofFn V = [V k] := by
    intro V
    refine List.ext_getElem (by simp [hs]) (fun i h1 h2 => ?_)
    rw [List.getElem_ofFn, List.getElem_singleton]
    exact congrArg V (hsub _)
  obtain ⟨m', hm', hout'⟩ := htr (fun _ => t) (U k)
  rw [e, hm'] at hm
  injection hm with hm
  rw [← hm, hout', e] at hout
  exact (List.cons.inj hout).1.symm

section

variable {n : ℕ} {dx : ℝ} (hdx : dx ≠ 0) (a : Arr 1 ℝ) (idx : Fin 1 → ℕ) (hidx : ∀ i, idx i < n)
include hdx hidx

theorem line_first : fdDiff ["x".toList] (line n) (fun _ => dx) [("x".toList, 1)] a idx =
    (a (sh (line n) 0 1 idx) - a (sh (line n) 0 (-1) idx)) / (2 * dx) :=
  fdDiff_first (coords := ["x".toList]) (List.nodup_singleton _) (by decide) (line n) (fun _ => dx) (fun _ => hdx) a 0 idx hidx

theorem line_second : fdDiff ["x".toList] (line n) (fun _ => dx) [("x".toList, 2)] a idx =
    (a (sh (line n) 0 1 idx) - 2 * a idx + a (sh (line n) 0 (-1) idx)) / dx ^ 2 :=
  fdDiff_second (coords := ["x".toList]) (List.nodup_singleton _) (by decide) (line n) (fun _ => dx) (fun _ => hdx) a 0 idx hidx

end

theorem sh_line_lt {n : ℕ} (m : ℤ) (idx : Fin 1 → ℕ) (hidx : ∀ i, idx i < n) (i : Fin 1) : sh (line n) 0 m idx i < n := by
  fin_cases i
  simpa [sh] using gridIndex_lt n m (idx 0) (hidx 0)

theorem line_index (idx : Fin 1 → ℕ) : (fun _ => idx 0) = idx := by
  funext i; fin_cases i; rfl

/-- The vector field of the class generated from `diffusion`. -/
theorem diffusion_field (iter : List Sy → List Sy) (hi : ∀ l, (iter l).Perm l) (s : System) (hs : System.build iter diffusion = .ok s)
    (n : ℕ) (dx κ : ℝ) (hdx : 0 < dx) (O : Obj (Arr 1 ℝ)) (hO : O.attr "kappa".toList = fun _ => κ)
    (F : ℝ → (Fin s.prognostic.length → Arr 1 ℝ) → Fin s.prognostic.length → Arr 1 ℝ)
    (hF : Implements s (fdArith ["x".toList] (line n) (fun _ => dx)) (fun _ => O) F) (t : ℝ) (U : Fin s.prognostic.length → Arr 1 ℝ)
    (k : Fin s.prognostic.length) (idx : Fin 1 → ℕ) (hidx : ∀ i, idx i < n) :
    F t U k idx = κ * ((U k (sh (line n) 0 1 idx) - 2 * U k idx + U k (sh (line n) 0 (-1) idx)) / dx ^ 2) := by
  obtain ⟨s', hs', h1, -, -, -, -, h2⟩ := C78_diffusion iter hi
  rw [hs] at hs'
  injection hs' with hs'
  subst hs'
  rw [one_field s (by rw [h1]; rfl) _ O _ (fun time a => h2 (fdArith ["x".toList] (line n) (fun _ => dx)) O time a) F hF t U k]
  show O.attr _ idx * fdDiff ["x".toList] (line n) (fun _ => dx) [("x".toList, 2)] (U k) idx = _
  rw [hO, line_second hdx.ne' _ _ hidx]

/-- The vector field of the class generated from `burgers`. -/
theorem burgers_field (iter : List Sy → List Sy) (hi : ∀ l, (iter l).Perm l) (s : System) (hs : System.build iter burgers = .ok s)
    (n : ℕ) (dx κ : ℝ) (hdx : 0 < dx) (O : Obj (Arr 1 ℝ)) (hO : O.attr "kappa".toList = fun _ => κ)
    (F : ℝ → (Fin s.prognostic.length → Arr 1 ℝ) → Fin s.prognostic.length → Arr 1 ℝ)
    (hF : Implements s (fdArith ["x".toList] (line n) (fun _ => dx)) (fun _ => O) F) (t : ℝ) (U : Fin s.prognostic.length → Arr 1 ℝ)
    (k : Fin s.prognostic.length) (idx : Fin 1 → ℕ) (hidx : ∀ i, idx i < n) :
    F t U k idx = -1 * (1 * (U k idx * ((U k (sh (line n) 0 1 idx) - U k (sh (line n) 0 (-1) idx)) / (2 * dx)))) +
      κ * ((U k (sh (line n) 0 1 idx) - 2 * U k idx + U k (sh (line n) 0 (-1) idx)) / dx ^ 2) := by
  obtain ⟨s', hs', h1, -, -, -, -, h2⟩ := C78_burgers iter hi
  rw [hs] at hs'
  injection hs' with hs'
  subst hs'
  rw [one_field s (by rw [h1]; rfl) _ O _ (fun time a => h2 (fdArith ["x".toList] (line n) (fun _ => dx)) O time a) F hF t U k]
  show ((-1 : ℚ) : ℝ) * (U k idx * fdDiff ["x".toList] (line n) (fun _ => dx) [("x".toList, 1)] (U k) idx) +
    O.attr _ idx * fdDiff ["x".toList] (line n) (fun _ => dx) [("x".toList, 2)] (U k) idx = _
  rw [hO, line_first hdx.ne' _ _ hidx, line_second hdx.ne' _ _ hidx]
  norm_num

/-- **C93** The discrete maximum principle: the forecasts with the scheme `euler` of the class generated from `diffusion` stay between
the bounds of the initial state, when the steps of the window satisfy `2 kappa dt ≤ dx²`. -/
theorem C93_diffusion (iter : List Sy → List Sy) (hi : ∀ l, (iter l).Perm l) (s : System) (hs : System.build iter diffusion = .ok s)
    (n : ℕ) (dx κ : ℝ) (hdx : 0 < dx) (hκ : 0 ≤ κ) (O : Obj (Arr 1 ℝ)) (hO : O.attr "kappa".toList = fun _ => κ)
    (F : ℝ → (Fin s.prognostic.length → Arr 1 ℝ) → Fin s.prognostic.length → Arr 1 ℝ)
    (hF : Implements s (fdArith ["x".toList] (line n) (fun _ => dx)) (fun _ => O) F) (window : List ℝ)
    (hw : ∀ (i : ℕ) t t', window[i]? = some t → window[i + 1]? = some t' → t ≤ t' ∧ 2 * κ * (t' - t) ≤ dx ^ 2)
    (lo up : ℝ) (U0 : Fin s.prognostic.length → Arr 1 ℝ) (h0 : ∀ k, ∀ j < n, lo ≤ U0 k (fun _ => j) ∧ U0 k (fun _ => j) ≤ up)
    (saved : List ℝ) (fc) (hfc : Integrator.forecast (Integrator.step .euler (.fn F)) window (.single U0) (.list saved) = .ok fc)
    (τ : ℝ) (U) (hU : fc.get? τ = some (.single U)) : ∀ k, ∀ j < n, lo ≤ U k (fun _ => j) ∧ U k (fun _ => j) ≤ up := by
  refine euler_induct F (fun U => ∀ k, ∀ j < n, lo ≤ U k (fun _ => j) ∧ U k (fun _ => j) ≤ up) window ?_ U0 h0 saved fc hfc τ U hU
  intro i t t' ht ht' V hV k j hj
  obtain ⟨g1, g2⟩ := hw i t t' ht ht'
  have hV' : ∀ idx : Fin 1 → ℕ, (∀ i, idx i < n) → lo ≤ V k idx ∧ V k idx ≤ up := by
    intro idx hidx
    rw [← line_index idx]
    exact hV k (idx 0) (hidx 0)
  have hj' : ∀ i : Fin 1, (fun _ : Fin 1 => j) i < n := fun _ => hj
  have := centred_mean 0 κ dx (t' - t) lo up (V k (fun _ => j)) _ _ hdx (by linarith) g2 (by simpa using hκ) le_rfl (hV k j hj)
    (hV' _ (sh_line_lt 1 _ hj')) (hV' _ (sh_line_lt (-1) _ hj'))
  show lo ≤ V k _ + (t' - t) * F t V k _ ∧ V k _ + (t' - t) * F t V k _ ≤ up
  rw [diffusion_field iter hi s hs n dx κ hdx O hO F hF t V k _ hj']
  simpa using this

/-- **C93** The same for the class generated from `burgers`, when moreover the grid resolves the diffusion: `dx |u| ≤ 2 kappa`. -/
theorem C93_burgers (iter : List Sy → List Sy) (hi : ∀ l, (iter l).Perm l) (s : System) (hs : System.build iter burgers = .ok s)
    (n : ℕ) (dx κ : ℝ) (hdx : 0 < dx) (O : Obj (Arr 1 ℝ)) (hO : O.attr "kappa".toList = fun _ => κ)
    (F : ℝ → (Fin s.prognostic.length → Arr 1 ℝ) → Fin s.prognostic.length → Arr 1 ℝ)
    (hF : Implements s (fdArith ["x".toList] (line n) (fun _ => dx)) (fun _ => O) F) (window : List ℝ)
    (hw : ∀ (i : ℕ) t t', window[i]? = some t → window[i + 1]? = some t' → t ≤ t' ∧ 2 * κ * (t' - t) ≤ dx ^ 2)
    (lo up : ℝ) (hlo : dx * |lo| ≤ 2 * κ) (hup : dx * |up| ≤ 2 * κ)
    (U0 : Fin s.prognostic.length → Arr 1 ℝ) (h0 : ∀ k, ∀ j < n, lo ≤ U0 k (fun _ => j) ∧ U0 k (fun _ => j) ≤ up)
    (saved : List ℝ) (fc) (hfc : Integrator.forecast (Integrator.step .euler (.fn F)) window (.single U0) (.list saved) = .ok fc)
    (τ : ℝ) (U) (hU : fc.get? τ = some (.single U)) : ∀ k, ∀ j < n, lo ≤ U k (fun _ => j) ∧ U k (fun _ => j) ≤ up := by
  refine euler_induct F (fun U => ∀ k, ∀ j < n, lo ≤ U k (fun _ => j) ∧ U k (fun _ => j) ≤ up) window ?_ U0 h0 saved fc hfc τ U hU
  intro i t t' ht ht' V hV k j hj
  obtain ⟨g1, g2⟩ := hw i t t' ht ht'
  have hV' : ∀ idx : Fin 1 → ℕ, (∀ i, idx i < n) → lo ≤ V k idx ∧ V k idx ≤ up := by
    intro idx hidx
    rw [← line_index idx]
    exact hV k (idx 0) (hidx 0)
  have hj' : ∀ i : Fin 1, (fun _ : Fin 1 => j) i < n := fun _ => hj
  have habs : |V k (fun _ => j)| ≤ max |lo| |up| := abs_le_max_abs_abs (hV k j hj).1 (hV k j hj).2
  have hpe : 1 * dx * |V k (fun _ => j)| ≤ 2 * κ := by
    rw [one_mul]
    refine (mul_le_mul_of_nonneg_left habs hdx.le).trans ?_
    rcases max_choice |lo| |up| with e | e <;> rw [e] <;> assumption
  have := centred_mean 1 κ dx (t' - t) lo up (V k (fun _ => j)) _ _ hdx (by linarith) g2 hpe zero_le_one (hV k j hj)
    (hV' _ (sh_line_lt 1 _ hj')) (hV' _ (sh_line_lt (-1) _ hj'))
  show lo ≤ V k _ + (t' - t) * F t V k _ ∧ V k _ + (t' - t) * F t V k _ ≤ up
  rw [burgers_field iter hi s hs n dx κ hdx O hO F hF t V k _ hj']
  exact this

/-- **C93** The condition on the steps is needed: if `2 kappa dt > dx²`, on every grid with at least two points, one step from a state
with values zero and one gives a negative value. -/
theorem C93_sharp (iter : List Sy → List Sy) (hi : ∀ l, (iter l).Perm l) (s : System) (hs : System.build iter diffusion = .ok s)
    (n : ℕ) (hn : 2 ≤ n) (dx κ dt : ℝ) (hdx : 0 < dx) (hbad : dx ^ 2 < 2 * κ * dt) (O : Obj (Arr 1 ℝ))
    (hO : O.attr "kappa".toList = fun _ => κ)
    (F : ℝ → (Fin s.prognostic.length → Arr 1 ℝ) → Fin s.prognostic.length → Arr 1 ℝ)
    (hF : Implements s (fdArith ["x".toList] (line n) (fun _ => dx)) (fun _ => O) F) :
    ∃ U0 : Fin s.prognostic.length → Arr 1 ℝ, (∀ k idx, 0 ≤ U0 k idx ∧ U0 k idx ≤ 1) ∧
      ∃ fc U, Integrator.forecast (Integrator.step .euler (.fn F)) [0, dt] (.single U0) (.list [dt]) = .ok fc ∧
        fc.get? dt = some (.single U) ∧ ∀ k, U k (fun _ => 0) < 0 := by
  have hw : ([0, dt] : List ℝ) ≠ [] := by simp
  have hdt : dt ≠ 0 := by rintro rfl; nlinarith [sq_nonneg dx]
  let U0 : Fin s.prognostic.length → Arr 1 ℝ := fun _ idx => if idx 0 = 0 then 1 else 0
  obtain ⟨fc, xs, hfc, hxs, hval⟩ := Integrator.C01_forecast_scheme .euler Integrator.euler rfl F [0, dt] hw U0 [dt]
  obtain ⟨x', h3, h4⟩ := hxs.next 0 0 dt U0 rfl rfl hxs.start
  injection h4 with h4
  refine ⟨U0, fun k idx => ?_, fc, x', hfc, (hval dt x').2 ⟨by simp, 1, rfl, h3, ?_⟩, fun k => ?_⟩
  · show 0 ≤ (if idx 0 = 0 then (1 : ℝ) else 0) ∧ (if idx 0 = 0 then (1 : ℝ) else 0) ≤ 1
    split <;> norm_num
  · intro j hj h
    have : j < 2 := (List.getElem?_eq_some_iff.1 h).1
    omega
  · rw [← h4]
    show U0 k (fun _ => 0) + (dt - 0) * F 0 U0 k (fun _ => 0) < 0
    have hz : ∀ i : Fin 1, (fun _ : Fin 1 => 0) i < n := fun _ => by show 0 < n; omega
    have e1 : sh (line n) 0 1 (fun _ => 0) 0 = 1 := by
      show gridIndex n 1 0 = 1
      unfold gridIndex
      have : ((0 : ℕ) : ℤ) + 1 = 1 := by norm_num
      rw [this, Int.emod_eq_of_lt (by norm_num) (by omega)]
      rfl
    have e2 : sh (line n) 0 (-1) (fun _ => 0) 0 ≠ 0 := by
      show gridIndex n (-1) 0 ≠ 0
      unfold gridIndex
      have : (((0 : ℕ) : ℤ) + -1) % (n : ℤ) = (n : ℤ) - 1 := by
        rw [← Int.add_emod_right, Int.emod_eq_of_lt] <;> push_cast <;> omega
      rw [this]
      omega
    rw [diffusion_field iter hi s hs n dx κ hdx O hO F hF 0 U0 k _ hz]
    have u0 : U0 k (fun _ => 0) = 1 := if_pos rfl
    have u1 : U0 k (sh (line n) 0 1 (fun _ => 0)) = 0 := if_neg (fun h => absurd (e1.symm.trans h) one_ne_zero)
    have u2 : U0 k (sh (line n) 0 (-1) (fun _ => 0)) = 0 := if_neg e2
    rw [u0, u1, u2]
    have : 1 + (dt - 0) * (κ * ((0 - 2 * 1 + 0) / dx ^ 2)) = (dx ^ 2 - 2 * κ * dt) / dx ^ 2 := by field_simp; ring
    rw [this]
    exact div_neg_of_neg_of_pos (by linarith) (by positivity)

/-! ## Cases -/

/-- The attributes of an object with the coefficients `kappa` and `eta`. -/
def scalars (κ η : ℝ) : Obj (Arr 1 ℝ) := ⟨fun name _ => if name = "kappa".toList then κ else η, none⟩

/-- What the cases need of a system that is computed with the sets in a given order. -/
theorem system_order (eqs : List Equation) (s0 : System) (hs0 : System.build id eqs = .ok s0)
    (he : (eqs.all (fun e => lhsB e.lhs && supportedB s0.coordinates e.rhs) && decide (eqs.map (fun e => e.lhs)).Nodup) = true)
    (hn : WellNamed s0) (hex : s0.exogenous = []) (iter : List Sy → List Sy) (hi : ∀ l, (iter l).Perm l) :
    ∃ s, System.build iter eqs = .ok s ∧ s.prognostic = s0.prognostic ∧ s.constantFunctions.Perm s0.constantFunctions ∧
      s.constants.Perm s0.constants ∧ s.exogenous = [] ∧ Evolution s.coordinates eqs ∧ WellNamed s := by
  obtain ⟨s, h1, h2, -, h3, h4, h5, h6, h7, -⟩ := trend_order eqs s0 hs0 (evolution_of he) hn hex iter hi
  exact ⟨s, h1, h2, h3, h4, h5, h6, h7⟩

/-- The case of C93: on a grid of five points with `dx = 1`, `kappa = 1/2`, from a spike between `0` and `1`, over a window with steps
at most one. -/
example (iter : List Sy → List Sy) (hi : ∀ l, (iter l).Perm l) :
    ∃ s, System.build iter burgers = .ok s ∧ ∃ F : ℝ → (Fin s.prognostic.length → Arr 1 ℝ) → Fin s.prognostic.length → Arr 1 ℝ,
      Implements s (fdArith ["x".toList] (line 5) (fun _ => 1)) (fun _ => scalars (1 / 2) 0) F ∧
      ∃ fc, Integrator.forecast (Integrator.step .euler (.fn F)) [0, 1, 3 / 2, 2] (.single fun _ idx => if idx 0 = 0 then 1 else 0)
          (.list [1, 2]) = .ok fc ∧
        ∃ U, fc.get? 2 = some (.single U) ∧ ∀ k, ∀ j < 5, 0 ≤ U k (fun _ => j) ∧ U k (fun _ => j) ≤ 1 := by
  obtain ⟨s, h1, h2, h3, h4, h5, h6, h7⟩ := system_order burgers _ rfl (by decide +kernel) (by decide +kernel) (by decide +kernel) iter hi
  obtain ⟨F, hF⟩ := C88_vector_field iter hi burgers s h1 h6 h7 (fdArith ["x".toList] (line 5) (fun _ => 1)) (fun _ => scalars (1 / 2) 0)
    (.inl h5)
  refine ⟨s, h1, F, hF, ?_⟩
  obtain ⟨fc, xs, hfc, hxs, hval⟩ := Integrator.C01_forecast_scheme .euler Integrator.euler rfl F [0, 1, 3 / 2, 2] (by simp)
    (fun _ idx => if idx 0 = 0 then 1 else 0) [1, 2]
  obtain ⟨U, hU⟩ : ∃ U, xs[3]? = some U := ⟨_, List.getElem?_eq_getElem (by rw [hxs.length_eq]; decide)⟩
  have hget : fc.get? 2 = some (.single U) := by
    refine (hval 2 U).2 ⟨by simp, 3, rfl, hU, fun j hj h => ?_⟩
    have : j < 4 := (List.getElem?_eq_some_iff.1 h).1
    omega
  refine ⟨fc, hfc, U, hget, ?_⟩
  refine C93_burgers iter hi s h1 5 1 (1 / 2) one_pos (scalars (1 / 2) 0) (funext fun _ => by simp [scalars]) F hF [0, 1, 3 / 2, 2] ?_ 0 1 (by norm_num)
    (by norm_num) _ ?_ _ fc hfc 2 U hget
  · intro i t t' h h'
    have : i + 1 < 4 := (List.getElem?_eq_some_iff.1 h').1
    have : i < 3 := by omega
    interval_cases i <;> simp at h h' <;> subst h h' <;> norm_num
  · intro k j hj
    show 0 ≤ (if j = 0 then (1 : ℝ) else 0) ∧ (if j = 0 then (1 : ℝ) else 0) ≤ 1
    split <;> norm_num

/-- The case of C91: the forecasts of the Burgers equation with a scalar `kappa`, started from two states that are translated by `z`
steps of a grid of `n` points, are translated by `z` steps, with the scheme leapfrog as well as the others. -/
example (iter : List Sy → List Sy) (hi : ∀ l, (iter l).Perm l) (n : ℕ) (κ : ℝ) (z : Fin 1 → ℤ) (sch : Integrator.Scheme)
    (window : List ℝ) (saved : Integrator.SavedTimes ℝ) :
    ∃ s, System.build iter burgers = .ok s ∧ ∃ F : ℝ → (Fin s.prognostic.length → Arr 1 ℝ) → Fin s.prognostic.length → Arr 1 ℝ,
      Implements s (fdArith ["x".toList] (line n) (fun _ => 1)) (fun _ => scalars κ 0) F ∧
      ∀ x x', StateRel (translation (line n) z) x x' →
        ResultRel (DictRel (StateRel (translation (line n) z))) (Integrator.forecast (Integrator.step sch (.fn F)) window x saved)
          (Integrator.forecast (Integrator.step sch (.fn F)) window x' saved) := by
  obtain ⟨s, h1, h2, h3, h4, h5, h6, h7⟩ := system_order burgers _ rfl (by decide +kernel) (by decide +kernel) (by decide +kernel) iter hi
  obtain ⟨F, hF⟩ := C88_vector_field iter hi burgers s h1 h6 h7 (fdArith ["x".toList] (line n) (fun _ => 1)) (fun _ => scalars κ 0)
    (.inl h5)
  refine ⟨s, h1, F, hF, fun x x' hx => ?_⟩
  refine C91_forecast iter hi burgers s h1 h6 h7 ["x".toList] (by decide) (by decide) ?_ (line n) (fun _ => 1) (fun _ => one_ne_zero) z
    (fun _ => scalars κ 0) (fun _ => scalars κ 0) (fun _ => ⟨?_, ?_, .inl h5⟩) F F hF hF sch window saved x x' hx
  · intro e he
    rw [show burgers = [_] from rfl, List.mem_singleton] at he
    subst he
    refine ⟨⟨trivial, trivial, ⟨_, _, rfl, by decide⟩, by decide⟩, trivial, ⟨_, _, rfl, by decide⟩, by decide⟩
  · intro f hf
    have : f ∈ ([] : List Sy) := h3.mem_iff.1 hf
    exact absurd this List.not_mem_nil
  · intro c _ idx _
    rfl

/-- The three equations of one dimension are in conservation form. -/
theorem conservative_burgers : ∀ e ∈ burgers, Conservative ["x".toList] e.rhs := by
  intro e he
  rw [show burgers = [_] from rfl, List.mem_singleton] at he
  subst he
  exact .add (.num _ (.product _ _ _ (by decide) (by decide) (by decide))) (.sym _ (.deriv _ _ _ (by decide) (by decide) (by decide)))

theorem conservative_kuramoto : ∀ e ∈ kuramoto, Conservative ["x".toList] e.rhs := by
  intro e he
  rw [show kuramoto = [_] from rfl, List.mem_singleton] at he
  subst he
  exact .add (.num _ (.product _ _ _ (by decide) (by decide) (by decide))) (.add
    (.num _ (.sym _ (.deriv _ _ _ (by decide) (by decide) (by decide)))) (.num _ (.sym _ (.deriv _ _ _ (by decide) (by decide) (by decide)))))

theorem conservative_diffusion : ∀ e ∈ diffusion, Conservative ["x".toList] e.rhs := by
  intro e he
  rw [show diffusion = [_] from rfl, List.mem_singleton] at he
  subst he
  exact .sym _ (.deriv _ _ _ (by decide) (by decide) (by decide))

/-- **C92** for the three equations of one dimension that sympkf defines in conservation form: burgers, Kuramoto-Sivashinsky, diffusion. -/
theorem C92_one_dimension (iter : List Sy → List Sy) (hi : ∀ l, (iter l).Perm l) (eqs : List Equation)
    (heqs : eqs ∈ [burgers, kuramoto, diffusion]) (n : ℕ) (dx κ η : ℝ) (hdx : dx ≠ 0) :
    ∃ s, System.build iter eqs = .ok s ∧ ∃ F : ℝ → (Fin s.prognostic.length → Arr 1 ℝ) → Fin s.prognostic.length → Arr 1 ℝ,
      Implements s (fdArith ["x".toList] (line n) (fun _ => dx)) (fun _ => scalars κ η) F ∧
      ∀ (k : Fin s.prognostic.length) (sch : Integrator.Scheme) (window : List ℝ) (saved : Integrator.SavedTimes ℝ) (T : ℝ) (x fc),
        HasTotal (line n) k T x → Integrator.forecast (Integrator.step sch (.fn F)) window x saved = .ok fc →
        ∀ τ y, fc.get? τ = some y → HasTotal (line n) k T y := by
  have key : ∀ eqs : List Equation, eqs.length = 1 → (∀ e ∈ eqs, Conservative ["x".toList] e.rhs) → ∀ s0, System.build id eqs = .ok s0 →
      (eqs.all (fun e => lhsB e.lhs && supportedB s0.coordinates e.rhs) && decide (eqs.map (fun e => e.lhs)).Nodup) = true →
      WellNamed s0 → s0.exogenous = [] → s0.prognostic.length = 1 → ∃ s, System.build iter eqs = .ok s ∧
      ∃ F : ℝ → (Fin s.prognostic.length → Arr 1 ℝ) → Fin s.prognostic.length → Arr 1 ℝ,
      Implements s (fdArith ["x".toList] (line n) (fun _ => dx)) (fun _ => scalars κ η) F ∧
      ∀ (k : Fin s.prognostic.length) (sch : Integrator.Scheme) (window : List ℝ) (saved : Integrator.SavedTimes ℝ) (T : ℝ) (x fc),
        HasTotal (line n) k T x → Integrator.forecast (Integrator.step sch (.fn F)) window x saved = .ok fc →
        ∀ τ y, fc.get? τ = some y → HasTotal (line n) k T y := by
    intro eqs hlen hcons s0 g1 g2 g3 g4 g5
    obtain ⟨s, h1, h2, h3, h4, h5, h6, h7⟩ := system_order eqs s0 g1 g2 g3 g4 iter hi
    obtain ⟨F, hF⟩ := C88_vector_field iter hi eqs s h1 h6 h7 (fdArith ["x".toList] (line n) (fun _ => dx)) (fun _ => scalars κ η)
      (.inl h5)
    refine ⟨s, h1, F, hF, fun k sch window saved T x fc hx hfc τ y hy => ?_⟩
    have hk : (k : ℕ) < eqs.length := by have := k.2; have := congrArg List.length h2; omega
    refine C92_forecast iter hi eqs s h1 h6 h7 ["x".toList] (by decide) (by decide) (line n) (fun _ => dx) (fun _ => hdx)
      (fun _ => scalars κ η) (fun _ c _ => ⟨_, rfl⟩) (.inl h5) F hF k _ (List.getElem?_eq_getElem hk) (hcons _ (List.getElem_mem hk)) sch window
      saved T x hx fc hfc τ y hy
  simp only [List.mem_cons, List.not_mem_nil, or_false] at heqs
  rcases heqs with rfl | rfl | rfl
  · exact key _ rfl conservative_burgers _ rfl (by decide +kernel) (by decide +kernel) (by decide +kernel) (by decide +kernel)
  · exact key _ rfl conservative_kuramoto _ rfl (by decide +kernel) (by decide +kernel) (by decide +kernel) (by decide +kernel)
  · exact key _ rfl conservative_diffusion _ rfl (by decide +kernel) (by decide +kernel) (by decide +kernel) (by decide +kernel)

/-- The array that is one at the first points of the first axis and zero elsewhere. -/
def spike : Arr 2 ℝ := fun idx => if idx 0 = 0 then 1 else 0

/-- **C92** Conservation form is needed: `diffusion_in_2D` writes the divergence of the flux in expanded form, and the generated trend
does not conserve the total, although the equation does: on a grid of `3 × 1` points, with a nonnegative diffusion tensor. -/
theorem C92_counterexample_diffusion2 (iter : List Sy → List Sy) (hi : ∀ l, (iter l).Perm l) :
    ∃ eqs s O m b, diffusion2 = .ok eqs ∧ System.build iter eqs = .ok s ∧
      s.trend (fdArith ["x".toList, "y".toList] ![3, 1] (fun _ => (1 : ℝ))) O (fun _ => 0) [spike] = .ok m ∧ m.out = [b] ∧
      gridTotal ![3, 1] b = -(3 / 2) := by
  obtain ⟨s, h1, h2, h3, h4, h5, h6, h7⟩ := trend_one [⟨d (.fn "u".toList [time, x, y]) time 1, diffusion2Expanded⟩]
    (.fn "u".toList [time, x, y]) _ rfl (by decide +kernel) (by decide +kernel) (by decide +kernel)
    (by decide +kernel) (by decide +kernel) (by decide +kernel) iter hi
  let O : Obj (Arr 2 ℝ) := ⟨fun name => if name = "kappa_11".toList then spike else fun _ => 0, none⟩
  obtain ⟨m, hm, hout⟩ := h7 (fdArith ["x".toList, "y".toList] ![3, 1] (fun _ => (1 : ℝ))) O (fun _ => 0) spike
  refine ⟨_, s, O, m, _, diffusion2_eq, h1, hm, hout, ?_⟩
  have f1 : ∀ a idx, (∀ i, idx i < (![3, 1] : Fin 2 → ℕ) i) → fdDiff ["x".toList, "y".toList] ![3, 1] (fun _ => (1 : ℝ)) [("x".toList, 1)] a idx =
      (a (sh ![3, 1] 0 1 idx) - a (sh ![3, 1] 0 (-1) idx)) / (2 * 1) := fun a idx hidx =>
    fdDiff_first (coords := ["x".toList, "y".toList]) (by decide) (by decide) ![3, 1] (fun _ => 1) (fun _ => one_ne_zero) a 0 idx hidx
  have f2 : ∀ a idx, (∀ i, idx i < (![3, 1] : Fin 2 → ℕ) i) → fdDiff ["x".toList, "y".toList] ![3, 1] (fun _ => (1 : ℝ)) [("x".toList, 2)] a idx =
      (a (sh ![3, 1] 0 1 idx) - 2 * a idx + a (sh ![3, 1] 0 (-1) idx)) / 1 ^ 2 := fun a idx hidx =>
    fdDiff_second (coords := ["x".toList, "y".toList]) (by decide) (by decide) ![3, 1] (fun _ => 1) (fun _ => one_ne_zero) a 0 idx hidx
  have f3 : ∀ a idx, (∀ i, idx i < (![3, 1] : Fin 2 → ℕ) i) → fdDiff ["x".toList, "y".toList] ![3, 1] (fun _ => (1 : ℝ)) [("y".toList, 1)] a idx =
      (a (sh ![3, 1] 1 1 idx) - a (sh ![3, 1] 1 (-1) idx)) / (2 * 1) := fun a idx hidx =>
    fdDiff_first (coords := ["x".toList, "y".toList]) (by decide) (by decide) ![3, 1] (fun _ => 1) (fun _ => one_ne_zero) a 1 idx hidx
  have key : ∀ idx, (∀ i, idx i < (![3, 1] : Fin 2 → ℕ) i) → rhsValue (fdArith ["x".toList, "y".toList] ![3, 1] (fun _ => (1 : ℝ)))
      (attrVal (.fn "u".toList [time, x, y]) O (fun _ => 0) spike) diffusion2Expanded idx =
      if idx 0 = 0 then -2 else 1 / 4 := by
    intro idx hidx
    have e : rhsValue (fdArith ["x".toList, "y".toList] ![3, 1] (fun _ => (1 : ℝ)))
      (attrVal (.fn "u".toList [time, x, y]) O (fun _ => 0) spike) diffusion2Expanded idx =
      spike idx * fdDiff ["x".toList, "y".toList] ![3, 1] (fun _ => (1 : ℝ)) [("x".toList, 2)] spike idx +
      (((2 : ℚ) : ℝ) * (0 * fdDiff ["x".toList, "y".toList] ![3, 1] (fun _ => (1 : ℝ)) [("x".toList, 1), ("y".toList, 1)] spike idx) +
      (0 * fdDiff ["x".toList, "y".toList] ![3, 1] (fun _ => (1 : ℝ)) [("y".toList, 2)] spike idx +
      (fdDiff ["x".toList, "y".toList] ![3, 1] (fun _ => (1 : ℝ)) [("x".toList, 1)] spike idx *
        fdDiff ["x".toList, "y".toList] ![3, 1] (fun _ => (1 : ℝ)) [("x".toList, 1)] spike idx +
      (fdDiff ["x".toList, "y".toList] ![3, 1] (fun _ => (1 : ℝ)) [("x".toList, 1)] (fun _ => 0) idx *
        fdDiff ["x".toList, "y".toList] ![3, 1] (fun _ => (1 : ℝ)) [("y".toList, 1)] spike idx +
      (fdDiff ["x".toList, "y".toList] ![3, 1] (fun _ => (1 : ℝ)) [("y".toList, 1)] (fun _ => 0) idx *
        fdDiff ["x".toList, "y".toList] ![3, 1] (fun _ => (1 : ℝ)) [("x".toList, 1)] spike idx +
      fdDiff ["x".toList, "y".toList] ![3, 1] (fun _ => (1 : ℝ)) [("y".toList, 1)] (fun _ => 0) idx *
        fdDiff ["x".toList, "y".toList] ![3, 1] (fun _ => (1 : ℝ)) [("y".toList, 1)] spike idx))))) := rfl
    rw [e, f1 _ _ hidx, f1 _ _ hidx, f2 _ _ hidx, f3 _ _ hidx, f3 _ _ hidx]
    have s1 : ∀ z, spike (sh ![3, 1] 0 z idx) = if gridIndex 3 z (idx 0) = 0 then 1 else 0 := fun z => rfl
    have s0 : spike idx = if idx 0 = 0 then 1 else 0 := rfl
    simp only [s1, s0]
    have hlt : idx 0 < 3 := hidx 0
    clear * - hlt
    generalize idx 0 = j at *
    interval_cases j <;> norm_num [gridIndex]
  have hsum : gridTotal ![3, 1] (fun idx : Fin 2 → ℕ => if idx 0 = 0 then (-2 : ℝ) else 1 / 4) = -(3 / 2) := by
    have hp : gridPoints ![3, 1] = {![0, 0], ![1, 0], ![2, 0]} := by decide +kernel
    unfold gridTotal
    rw [hp, Finset.sum_insert (by decide), Finset.sum_insert (by decide), Finset.sum_singleton]
    norm_num
  rw [← hsum]
  exact Finset.sum_congr rfl (fun idx h => key idx (by
    intro i
    have := Fintype.mem_piFinset.1 h i
    exact Finset.mem_range.1 this))

end Sympkf.Dynamics
