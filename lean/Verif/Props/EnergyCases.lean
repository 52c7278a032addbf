import Verif.Props.SkewSystem
import Verif.Props.MaximumPrinciple

/-!
# C100: transport, rotating shallow water, diffusion
-/

set_option autoImplicit false

namespace Sympkf.Dynamics

open Text PDE Spec.PDE FinDiff Props Spec

/-! ## Transport with a constant velocity -/

/-- `u_t = - c u_x`. -/
def transport : List Equation := [⟨d u1 time 1, neg (.mul (.sym .plain "c".toList) (d u1 x 1))⟩]

/-- The term of the equation. -/
def transportRows : List (Sy × List LinTerm) := [(u1, [⟨-1 * 1, ["c".toList], u1, [(x, 1)]⟩])]

theorem transport_skew : SkewSystem ["x".toList] transport transportRows where
  linear := .cons ⟨rfl, .num _ (.sym _ (by decide) (.deriv _ _ _ (by decide)))⟩ .nil
  closed := by decide +kernel
  skew := by decide +kernel

/-- The attributes of an object with the velocity `c`. -/
def speed (c : ℝ) : Obj (Arr 1 ℝ) := ⟨fun _ _ => c, none⟩

/-- A step such that `(c dt)² ≤ 8 dx²` satisfies the bound of `rk4`. -/
theorem transport_cfl (iter : List Sy → List Sy) (hi : ∀ l, (iter l).Perm l) (n : ℕ) (dx c : ℝ) (hdx : 0 < dx) (s : System)
    (h1 : System.build iter transport = .ok s) (F : ℝ → (Fin s.prognostic.length → Arr 1 ℝ) → Fin s.prognostic.length → Arr 1 ℝ)
    (hF : Implements s (fdArith ["x".toList] (line n) (fun _ => dx)) (fun _ => speed c) F) (t t' : ℝ) (h8 : (c * (t' - t)) ^ 2 ≤ 8 * dx ^ 2)
    (V : Fin s.prognostic.length → Arr 1 ℝ) :
    (t' - t) ^ 2 * energy (gridProduct (line n) s.prognostic.length) (F t V) ≤ 8 * energy (gridProduct (line n) s.prognostic.length) V := by
  obtain ⟨s1, g1, g2, -, -, -, -, g7⟩ := trend_one transport u1 _ rfl (by decide +kernel) (by decide +kernel) (by decide +kernel)
    (by decide +kernel) (by decide +kernel) (by decide +kernel) iter hi
  rw [h1] at g1
  injection g1 with g1
  subst g1
  have hval : ∀ k idx, (∀ i, idx i < n) → F t V k idx = -1 * (c * ((V k (sh (line n) 0 1 idx) - V k (sh (line n) 0 (-1) idx)) / (2 * dx))) := by
    intro k idx hidx
    rw [one_field s (by rw [g2]; rfl) _ (speed c) (fun a => (fdArith ["x".toList] (line n) (fun _ => dx)).mul
        ((fdArith ["x".toList] (line n) (fun _ => dx)).num (-1)) ((fdArith ["x".toList] (line n) (fun _ => dx)).mul ((speed c).attr "c".toList)
          ((fdArith ["x".toList] (line n) (fun _ => dx)).diff [("x".toList, 1)] a)))
      (fun time a => g7 (fdArith ["x".toList] (line n) (fun _ => dx)) (speed c) time a) F hF t V k]
    show ((-1 : ℚ) : ℝ) * (c * fdDiff ["x".toList] (line n) (fun _ => dx) [("x".toList, 1)] (V k) idx) = _
    rw [line_first hdx.ne' _ _ hidx]
    norm_num
  have hE : ∀ k : Fin s.prognostic.length, dx ^ 2 * gridTotal (line n) (fun idx => F t V k idx * F t V k idx) ≤
      c ^ 2 * gridTotal (line n) (fun idx => V k idx * V k idx) := by
    intro k
    have e1 : ∀ m : ℤ, ∑ idx ∈ box (line n), V k (sh (line n) 0 m idx) * V k (sh (line n) 0 m idx) = ∑ idx ∈ box (line n), V k idx * V k idx :=
      fun m => sum_sh (line n) 0 m (fun idx => V k idx * V k idx)
    have e2 : c ^ 2 * gridTotal (line n) (fun idx => V k idx * V k idx) =
        ∑ idx ∈ box (line n), (c ^ 2 / 2 * (V k (sh (line n) 0 1 idx) * V k (sh (line n) 0 1 idx)) +
          c ^ 2 / 2 * (V k (sh (line n) 0 (-1) idx) * V k (sh (line n) 0 (-1) idx))) := by
      rw [Finset.sum_add_distrib, ← Finset.mul_sum, ← Finset.mul_sum, e1, e1]
      show c ^ 2 * ∑ idx ∈ box (line n), _ = _
      ring
    rw [e2]
    show dx ^ 2 * ∑ idx ∈ box (line n), _ ≤ _
    rw [Finset.mul_sum]
    refine Finset.sum_le_sum fun idx hidx => ?_
    rw [hval k idx ((mem_box _ idx).1 hidx)]
    generalize V k (sh (line n) 0 1 idx) = p
    generalize V k (sh (line n) 0 (-1) idx) = q
    have : dx ^ 2 * (-1 * (c * ((p - q) / (2 * dx))) * (-1 * (c * ((p - q) / (2 * dx))))) = c ^ 2 * (p - q) ^ 2 / 4 := by
      field_simp
      ring
    rw [this]
    nlinarith [mul_nonneg (sq_nonneg c) (sq_nonneg (p + q))]
  have hE' : dx ^ 2 * energy (gridProduct (line n) s.prognostic.length) (F t V) ≤ c ^ 2 * energy (gridProduct (line n) s.prognostic.length) V := by
    simp only [energy, gridProduct, LinearMap.mk₂_apply, Finset.mul_sum]
    exact Finset.sum_le_sum fun k _ => hE k
  have hp := gridProduct_nonneg (line n) V
  have h9 : dx ^ 2 * ((t' - t) ^ 2 * energy (gridProduct (line n) s.prognostic.length) (F t V)) ≤
      dx ^ 2 * (8 * energy (gridProduct (line n) s.prognostic.length) V) := by
    have g1 := mul_le_mul_of_nonneg_left hE' (sq_nonneg (t' - t))
    have g2 := mul_le_mul_of_nonneg_right h8 hp
    nlinarith
  exact le_of_mul_le_mul_left h9 (by positivity)

/-- **C100** Transport with the velocity `c` on `n` points with the step `dx`: with `rk4` and steps such that `(c dt)² ≤ 8 dx²`, the sum of
the squares never grows, whatever the initial state. -/
theorem C100_transport (iter : List Sy → List Sy) (hi : ∀ l, (iter l).Perm l) (n : ℕ) (dx c : ℝ) (hdx : 0 < dx) :
    ∃ s, System.build iter transport = .ok s ∧ ∃ F : ℝ → (Fin s.prognostic.length → Arr 1 ℝ) → Fin s.prognostic.length → Arr 1 ℝ,
      Implements s (fdArith ["x".toList] (line n) (fun _ => dx)) (fun _ => speed c) F ∧
      ∀ (window saved : List ℝ), (∀ (i : ℕ) t t', window[i]? = some t → window[i + 1]? = some t' → (c * (t' - t)) ^ 2 ≤ 8 * dx ^ 2) →
        ∀ U₀ fc, Integrator.forecast (Integrator.step .rk4 (.fn F)) window (.single U₀) (.list saved) = .ok fc →
        ∀ τ U, fc.get? τ = some (.single U) →
          energy (gridProduct (line n) s.prognostic.length) U ≤ energy (gridProduct (line n) s.prognostic.length) U₀ := by
  obtain ⟨s, h1, h2, -, h4, h5, h6, h7⟩ := system_order transport _ rfl (by decide +kernel) (by decide +kernel) (by decide +kernel) iter hi
  obtain ⟨F, hF⟩ := C88_vector_field iter hi transport s h1 h6 h7 (fdArith ["x".toList] (line n) (fun _ => dx)) (fun _ => speed c) (.inl h5)
  refine ⟨s, h1, F, hF, fun window saved hw U₀ fc hfc τ U hU => ?_⟩
  refine (C100_forecast iter hi transport s h1 h6 h7 ["x".toList] (by decide) (by decide) (line n) (fun _ => dx) (fun _ => hdx.ne')
    (fun _ => speed c) (fun c' _ => ⟨c, fun _ => rfl⟩) (.inl h5) F hF _ transport_skew window saved .rk4 _ fc hfc).1 U₀ τ U rfl rfl hU ?_
  exact fun i t t' ht ht' V => transport_cfl iter hi n dx c hdx s h1 F hF t t' (hw i t t' ht ht') V

/-! ## Rotating shallow water in two dimensions -/

/-- The velocities and the height. -/
def field2 (name : String) : Sy := .fn name.toList [time, x, y]

/-- `u_t = f v - c h_x`, `v_t = - f u - c h_y`, `h_t = - c u_x - c v_y`. -/
def shallow : List Equation :=
  [⟨d (field2 "u") time 1, .add (.mul (.sym .plain "f".toList) (field2 "v")) (neg (.mul (.sym .plain "c".toList) (d (field2 "h") x 1)))⟩,
   ⟨d (field2 "v") time 1, .add (neg (.mul (.sym .plain "f".toList) (field2 "u"))) (neg (.mul (.sym .plain "c".toList) (d (field2 "h") y 1)))⟩,
   ⟨d (field2 "h") time 1, .add (neg (.mul (.sym .plain "c".toList) (d (field2 "u") x 1)))
      (neg (.mul (.sym .plain "c".toList) (d (field2 "v") y 1)))⟩]

def shallowRows : List (Sy × List LinTerm) :=
  [(field2 "u", [⟨1, ["f".toList], field2 "v", []⟩, ⟨-1 * 1, ["c".toList], field2 "h", [(x, 1)]⟩]),
   (field2 "v", [⟨-1 * 1, ["f".toList], field2 "u", []⟩, ⟨-1 * 1, ["c".toList], field2 "h", [(y, 1)]⟩]),
   (field2 "h", [⟨-1 * 1, ["c".toList], field2 "u", [(x, 1)]⟩, ⟨-1 * 1, ["c".toList], field2 "v", [(y, 1)]⟩])]

theorem shallow_skew : SkewSystem ["x".toList, "y".toList] shallow shallowRows where
  linear := .cons ⟨rfl, .add (.sym _ (by decide) (.fn _ _)) (.num _ (.sym _ (by decide) (.deriv _ _ _ (by decide))))⟩ <|
    .cons ⟨rfl, .add (.num _ (.sym _ (by decide) (.fn _ _))) (.num _ (.sym _ (by decide) (.deriv _ _ _ (by decide))))⟩ <|
    .cons ⟨rfl, .add (.num _ (.sym _ (by decide) (.deriv _ _ _ (by decide)))) (.num _ (.sym _ (by decide) (.deriv _ _ _ (by decide))))⟩ .nil
  closed := by decide +kernel
  skew := by decide +kernel

/-- **C100** Rotating shallow water, three fields coupled by rotation and by gravity waves: with `euler` and `rk2` the energy never
decreases, for all grids and steps. -/
theorem C100_shallow (iter : List Sy → List Sy) (hi : ∀ l, (iter l).Perm l) (n : Fin 2 → ℕ) (dx : Fin 2 → ℝ) (hdx : ∀ i, dx i ≠ 0) (f c : ℝ) :
    ∃ s, System.build iter shallow = .ok s ∧ s.prognostic.length = 3 ∧
      ∃ F : ℝ → (Fin s.prognostic.length → Arr 2 ℝ) → Fin s.prognostic.length → Arr 2 ℝ,
      Implements s (fdArith ["x".toList, "y".toList] n dx) (fun _ => ⟨fun name _ => if name = "f".toList then f else c, none⟩) F ∧
      Skew (gridProduct n s.prognostic.length) F ∧
      ∀ (window saved : List ℝ) (sch), sch = .euler ∨ sch = .rk2 → ∀ U₀ fc,
        Integrator.forecast (Integrator.step sch (.fn F)) window (.single U₀) (.list saved) = .ok fc →
        ∀ τ U, fc.get? τ = some (.single U) →
          energy (gridProduct n s.prognostic.length) U₀ ≤ energy (gridProduct n s.prognostic.length) U := by
  obtain ⟨s, h1, h2, -, h4, h5, h6, h7⟩ := system_order shallow _ rfl (by decide +kernel) (by decide +kernel) (by decide +kernel) iter hi
  obtain ⟨F, hF⟩ := C88_vector_field iter hi shallow s h1 h6 h7 (fdArith ["x".toList, "y".toList] n dx)
    (fun _ => ⟨fun name _ => if name = "f".toList then f else c, none⟩) (.inl h5)
  have hO : ∀ c', Sy.sym .plain c' ∈ s.constants → ∃ v : ℝ, ∀ _ : ℝ,
      (⟨fun name _ => if name = "f".toList then f else c, none⟩ : Obj (Arr 2 ℝ)).attr (cleanLatexName c') = fun _ => v :=
    fun c' _ => ⟨_, fun _ => rfl⟩
  refine ⟨s, h1, by rw [← prognostic_length iter hi shallow s h1 h6]; rfl, F, hF, ?_, fun window saved sch hsch U₀ fc hfc τ U hU => ?_⟩
  · exact C100_skew iter hi shallow s h1 h6 h7 ["x".toList, "y".toList] (by decide) (by decide) n dx hdx _ hO (.inl h5) F hF _ shallow_skew
  · exact (C100_forecast iter hi shallow s h1 h6 h7 ["x".toList, "y".toList] (by decide) (by decide) n dx hdx _ hO (.inl h5) F hF _ shallow_skew
      window saved sch _ fc hfc).2.1 U₀ τ U hsch rfl hU

/-! ## Diffusion -/

/-- **C100** Diffusion is not skew-symmetric: `euler` never increases the energy when `0 ≤ kappa dt` and `2 kappa dt ≤ dx²`. -/
theorem C100_diffusion (iter : List Sy → List Sy) (hi : ∀ l, (iter l).Perm l) (s : System) (hs : System.build iter diffusion = .ok s)
    (n : ℕ) (dx κ : ℝ) (hdx : 0 < dx) (O : Obj (Arr 1 ℝ)) (hO : O.attr "kappa".toList = fun _ => κ)
    (F : ℝ → (Fin s.prognostic.length → Arr 1 ℝ) → Fin s.prognostic.length → Arr 1 ℝ)
    (hF : Implements s (fdArith ["x".toList] (line n) (fun _ => dx)) (fun _ => O) F) (window : List ℝ)
    (hw : ∀ (i : ℕ) t t', window[i]? = some t → window[i + 1]? = some t' → 0 ≤ κ * (t' - t) ∧ 2 * (κ * (t' - t)) ≤ dx ^ 2)
    (U₀ : Fin s.prognostic.length → Arr 1 ℝ) (saved : List ℝ) (fc)
    (hfc : Integrator.forecast (Integrator.step .euler (.fn F)) window (.single U₀) (.list saved) = .ok fc) (τ : ℝ) (U)
    (hU : fc.get? τ = some (.single U)) :
    energy (gridProduct (line n) s.prognostic.length) U ≤ energy (gridProduct (line n) s.prognostic.length) U₀ := by
  refine euler_induct F (fun U => energy (gridProduct (line n) s.prognostic.length) U ≤ energy (gridProduct (line n) s.prognostic.length) U₀)
    window ?_ U₀ (le_refl _) saved fc hfc τ U hU
  intro i t t' ht ht' V hV
  refine le_trans ?_ hV
  obtain ⟨k1, k2⟩ := hw i t t' ht ht'
  simp only [energy, gridProduct, LinearMap.mk₂_apply]
  refine Finset.sum_le_sum fun k _ => ?_
  have e1 : ∀ m : ℤ, ∑ idx ∈ box (line n), V k (sh (line n) 0 m idx) * V k (sh (line n) 0 m idx) = ∑ idx ∈ box (line n), V k idx * V k idx :=
    fun m => sum_sh (line n) 0 m (fun idx => V k idx * V k idx)
  set r := κ * (t' - t) / dx ^ 2 with hr
  have r0 : 0 ≤ r := div_nonneg k1 (by positivity)
  have r1 : 2 * r ≤ 1 := by rw [hr, ← mul_div_assoc, div_le_one (by positivity)]; exact k2
  have e2 : gridTotal (line n) (fun idx => V k idx * V k idx) =
      ∑ idx ∈ box (line n), ((1 - 2 * r) * (V k idx * V k idx) + r * (V k (sh (line n) 0 1 idx) * V k (sh (line n) 0 1 idx)) +
        r * (V k (sh (line n) 0 (-1) idx) * V k (sh (line n) 0 (-1) idx))) := by
    rw [Finset.sum_add_distrib, Finset.sum_add_distrib, ← Finset.mul_sum, ← Finset.mul_sum, ← Finset.mul_sum, e1, e1]
    show ∑ idx ∈ box (line n), _ = _
    ring
  rw [e2]
  show ∑ idx ∈ box (line n), _ ≤ _
  refine Finset.sum_le_sum fun idx hidx => ?_
  have e3 : (V + (t' - t) • F t V) k idx = (1 - 2 * r) * V k idx + r * V k (sh (line n) 0 1 idx) + r * V k (sh (line n) 0 (-1) idx) := by
    show V k idx + (t' - t) * F t V k idx = _
    rw [diffusion_field iter hi s hs n dx κ hdx O hO F hF t V k idx ((mem_box _ idx).1 hidx), hr]
    field_simp
    ring
  rw [e3]
  generalize V k idx = a
  generalize V k (sh (line n) 0 1 idx) = p
  generalize V k (sh (line n) 0 (-1) idx) = q
  nlinarith [mul_nonneg (mul_nonneg (sub_nonneg.2 r1) r0) (sq_nonneg (a - p)), mul_nonneg (mul_nonneg (sub_nonneg.2 r1) r0) (sq_nonneg (a - q)),
    mul_nonneg (mul_nonneg r0 r0) (sq_nonneg (p - q))]

end Sympkf.Dynamics
