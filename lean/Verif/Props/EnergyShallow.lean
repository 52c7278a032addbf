import Verif.Props.EnergyTransport

/-!
# C102: rotating shallow water
-/

set_option autoImplicit false

namespace Sympkf.Dynamics

open Text PDE Spec.PDE FinDiff Props Spec

theorem sum_three {m : ℕ} (hm : m = 3) (g : Fin m → ℝ) :
    ∑ k, g k = g ⟨0, by omega⟩ + g ⟨1, by omega⟩ + g ⟨2, by omega⟩ := by
  subst hm
  exact Fin.sum_univ_three g

theorem ofFn_three {α : Type} {m : ℕ} (hm : m = 3) (g : Fin m → α) :
    List.ofFn g = [g ⟨0, by omega⟩, g ⟨1, by omega⟩, g ⟨2, by omega⟩] := by
  subst hm
  simp [List.ofFn_succ]

/-- The attributes of an object with the rotation `f` and the velocity of the waves `c`. -/
noncomputable def rotating (f c : ℝ) : Obj (Arr 2 ℝ) := ⟨fun name _ => if name = "f".toList then f else c, none⟩

/-- The values of the three unknowns. -/
noncomputable def threeVal (O : Obj (Arr 2 ℝ)) (time a b h : Arr 2 ℝ) : Valuation (Arr 2 ℝ) where
  fn g := if g = field2 "u" then a else if g = field2 "v" then b else h
  sym n := if n = "t".toList then time else O.attr (cleanLatexName n)

/-- The centered differences. -/
theorem shallow_diff_x {n : Fin 2 → ℕ} {dx : Fin 2 → ℝ} (hdx : ∀ i, 0 < dx i) (a : Arr 2 ℝ) (idx : Fin 2 → ℕ) (hidx : ∀ i, idx i < n i) :
    fdDiff ["x".toList, "y".toList] n dx [(x, 1)] a idx = (a (sh n 0 1 idx) - a (sh n 0 (-1) idx)) / (2 * dx 0) :=
  fdDiff_first (coords := ["x".toList, "y".toList]) (by decide) (by decide) n dx (fun i => (hdx i).ne') a 0 idx hidx

theorem shallow_diff_y {n : Fin 2 → ℕ} {dx : Fin 2 → ℝ} (hdx : ∀ i, 0 < dx i) (a : Arr 2 ℝ) (idx : Fin 2 → ℕ) (hidx : ∀ i, idx i < n i) :
    fdDiff ["x".toList, "y".toList] n dx [(y, 1)] a idx = (a (sh n 1 1 idx) - a (sh n 1 (-1) idx)) / (2 * dx 1) :=
  fdDiff_first (coords := ["x".toList, "y".toList]) (by decide) (by decide) n dx (fun i => (hdx i).ne') a 1 idx hidx

/-- The vector field of the generated class. -/
theorem shallow_field (iter : List Sy → List Sy) (hi : ∀ l, (iter l).Perm l) (n : Fin 2 → ℕ) (dx : Fin 2 → ℝ) (hdx : ∀ i, 0 < dx i) (f c : ℝ)
    (s : System) (h1 : System.build iter shallow = .ok s) (h3 : s.prognostic.length = 3)
    (F : ℝ → (Fin s.prognostic.length → Arr 2 ℝ) → Fin s.prognostic.length → Arr 2 ℝ)
    (hF : Implements s (fdArith ["x".toList, "y".toList] n dx) (fun _ => rotating f c) F) (t : ℝ) (V : Fin s.prognostic.length → Arr 2 ℝ)
    (u v h : Arr 2 ℝ) (hu : V ⟨0, by omega⟩ = u) (hv : V ⟨1, by omega⟩ = v) (hh : V ⟨2, by omega⟩ = h)
    (idx : Fin 2 → ℕ) (hidx : ∀ i, idx i < n i) :
    F t V ⟨0, by omega⟩ idx = f * v idx - c * ((h (sh n 0 1 idx) - h (sh n 0 (-1) idx)) / (2 * dx 0)) ∧
    F t V ⟨1, by omega⟩ idx = - (f * u idx) - c * ((h (sh n 1 1 idx) - h (sh n 1 (-1) idx)) / (2 * dx 1)) ∧
    F t V ⟨2, by omega⟩ idx = - (c * ((u (sh n 0 1 idx) - u (sh n 0 (-1) idx)) / (2 * dx 0))) -
      c * ((v (sh n 1 1 idx) - v (sh n 1 (-1) idx)) / (2 * dx 1)) := by
  obtain ⟨s1, g1, g2, -, -, -, -, -, -, g9⟩ := trend_order shallow _ rfl (evolution_of (by decide +kernel)) (by decide +kernel)
    (by decide +kernel) iter hi
  rw [h1] at g1
  injection g1 with g1
  subst g1
  obtain ⟨m, hm, hout⟩ := hF t V
  obtain ⟨m', hm', hout', -⟩ := g9 (fdArith ["x".toList, "y".toList] n dx) (rotating f c) (threeVal (rotating f c) (fun _ => t) u v h)
    (by
      intro g hg
      exact absurd hg (by
        have : ∀ g, ¬ g ∈ ([] : List Sy) := fun g => List.not_mem_nil
        exact this g))
    (by
      intro c' hc' n' hn'
      subst hn'
      refine (if_neg ?_).symm
      intro e
      subst e
      revert hc'
      decide +kernel)
  have e : List.ofFn V = [u, v, h] := by rw [ofFn_three h3, hu, hv, hh]
  rw [e] at hm
  have hm2 := hm'.symm.trans hm
  injection hm2 with hm2
  rw [← hm2, hout', ofFn_three h3] at hout
  injection hout with o1 hout
  injection hout with o2 hout
  injection hout with o3 hout
  rw [← o1, ← o2, ← o3]
  refine ⟨?_, ?_, ?_⟩
  · show f * v idx + ((-1 : ℚ) : ℝ) * (c * fdDiff ["x".toList, "y".toList] n dx [(x, 1)] h idx) = _
    rw [shallow_diff_x hdx h idx hidx]
    push_cast
    ring
  · show ((-1 : ℚ) : ℝ) * (f * u idx) + ((-1 : ℚ) : ℝ) * (c * fdDiff ["x".toList, "y".toList] n dx [(y, 1)] h idx) = _
    rw [shallow_diff_y hdx h idx hidx]
    push_cast
    ring
  · show ((-1 : ℚ) : ℝ) * (c * fdDiff ["x".toList, "y".toList] n dx [(x, 1)] u idx) +
      ((-1 : ℚ) : ℝ) * (c * fdDiff ["x".toList, "y".toList] n dx [(y, 1)] v idx) = _
    rw [shallow_diff_x hdx u idx hidx, shallow_diff_y hdx v idx hidx]
    push_cast
    ring

/-- The centered difference of an array is bounded by the array. -/
theorem diff_bound (n : Fin 2 → ℕ) (i : Fin 2) (dx : ℝ) (hdx : 0 < dx) (a : Arr 2 ℝ) :
    ∑ idx ∈ box n, ((a (sh n i 1 idx) - a (sh n i (-1) idx)) / (2 * dx)) ^ 2 ≤ (∑ idx ∈ box n, a idx ^ 2) / dx ^ 2 := by
  have e1 : ∀ m : ℤ, ∑ idx ∈ box n, a (sh n i m idx) ^ 2 = ∑ idx ∈ box n, a idx ^ 2 := fun m => sum_sh n i m (fun idx => a idx ^ 2)
  have e2 : (∑ idx ∈ box n, a idx ^ 2) / dx ^ 2 =
      ∑ idx ∈ box n, (a (sh n i 1 idx) ^ 2 / (2 * dx ^ 2) + a (sh n i (-1) idx) ^ 2 / (2 * dx ^ 2)) := by
    rw [Finset.sum_add_distrib, ← Finset.sum_div, ← Finset.sum_div, e1, e1]
    field_simp
    ring
  rw [e2]
  refine Finset.sum_le_sum fun idx _ => ?_
  rw [← add_div, div_pow, div_le_div_iff₀ (by positivity) (by positivity)]
  nlinarith [mul_nonneg (sq_nonneg dx) (sq_nonneg (a (sh n i 1 idx) + a (sh n i (-1) idx)))]

theorem two_bound {ι : Type} (B : Finset ι) (r p q : ι → ℝ) (P Q : ℝ) (hr : ∀ j ∈ B, r j = p j + q j) (hp : ∑ j ∈ B, p j ^ 2 ≤ P)
    (hq : ∑ j ∈ B, q j ^ 2 ≤ Q) : ∑ j ∈ B, r j * r j ≤ 2 * P + 2 * Q := by
  have e : ∑ j ∈ B, r j * r j ≤ ∑ j ∈ B, (2 * p j ^ 2 + 2 * q j ^ 2) := by
    refine Finset.sum_le_sum fun j hj => ?_
    rw [hr j hj]
    nlinarith [sq_nonneg (p j - q j)]
  rw [Finset.sum_add_distrib, ← Finset.mul_sum, ← Finset.mul_sum] at e
  linarith

/-- A step such that `dt² (f² + (c/dx)² + (c/dy)²) ≤ 4` satisfies the bound of `rk4`. -/
theorem shallow_cfl (iter : List Sy → List Sy) (hi : ∀ l, (iter l).Perm l) (n : Fin 2 → ℕ) (dx : Fin 2 → ℝ) (hdx : ∀ i, 0 < dx i) (f c : ℝ)
    (s : System) (h1 : System.build iter shallow = .ok s) (h3 : s.prognostic.length = 3)
    (F : ℝ → (Fin s.prognostic.length → Arr 2 ℝ) → Fin s.prognostic.length → Arr 2 ℝ)
    (hF : Implements s (fdArith ["x".toList, "y".toList] n dx) (fun _ => rotating f c) F) (t t' : ℝ)
    (h4 : (t' - t) ^ 2 * (f ^ 2 + (c / dx 0) ^ 2 + (c / dx 1) ^ 2) ≤ 4) (V : Fin s.prognostic.length → Arr 2 ℝ) :
    (t' - t) ^ 2 * energy (gridProduct n s.prognostic.length) (F t V) ≤ 8 * energy (gridProduct n s.prognostic.length) V := by
  have hval := fun idx hidx => shallow_field iter hi n dx hdx f c s h1 h3 F hF t V _ _ _ rfl rfl rfl idx hidx
  obtain ⟨u, hu⟩ : ∃ u, V ⟨0, by omega⟩ = u := ⟨_, rfl⟩
  obtain ⟨v, hv⟩ : ∃ v, V ⟨1, by omega⟩ = v := ⟨_, rfl⟩
  obtain ⟨h, hh⟩ : ∃ h, V ⟨2, by omega⟩ = h := ⟨_, rfl⟩
  simp only [hu, hv, hh] at hval
  have hs : ∀ (k : ℝ) (a : Arr 2 ℝ), ∑ idx ∈ box n, (k * a idx) ^ 2 = k ^ 2 * ∑ idx ∈ box n, a idx ^ 2 := by
    intro k a
    rw [Finset.mul_sum]
    exact Finset.sum_congr rfl fun idx _ => mul_pow _ _ _
  have hd : ∀ (i : Fin 2) (a : Arr 2 ℝ), ∑ idx ∈ box n, (-c * ((a (sh n i 1 idx) - a (sh n i (-1) idx)) / (2 * dx i))) ^ 2 ≤
      (c / dx i) ^ 2 * ∑ idx ∈ box n, a idx ^ 2 := by
    intro i a
    rw [hs (-c) (fun idx => (a (sh n i 1 idx) - a (sh n i (-1) idx)) / (2 * dx i))]
    refine (mul_le_mul_of_nonneg_left (diff_bound n i (dx i) (hdx i) a) (sq_nonneg (-c))).trans (le_of_eq ?_)
    ring
  have b0 := two_bound (box n) (F t V ⟨0, by omega⟩) (fun idx => f * v idx) (fun idx => -c * ((h (sh n 0 1 idx) - h (sh n 0 (-1) idx)) / (2 * dx 0)))
    _ _ (fun idx hidx => by rw [(hval idx ((mem_box n idx).1 hidx)).1]; ring) (hs f v).le (hd 0 h)
  have b1 := two_bound (box n) (F t V ⟨1, by omega⟩) (fun idx => -f * u idx) (fun idx => -c * ((h (sh n 1 1 idx) - h (sh n 1 (-1) idx)) / (2 * dx 1)))
    _ _ (fun idx hidx => by rw [(hval idx ((mem_box n idx).1 hidx)).2.1]; ring) (hs (-f) u).le (hd 1 h)
  have b2 := two_bound (box n) (F t V ⟨2, by omega⟩) (fun idx => -c * ((u (sh n 0 1 idx) - u (sh n 0 (-1) idx)) / (2 * dx 0)))
    (fun idx => -c * ((v (sh n 1 1 idx) - v (sh n 1 (-1) idx)) / (2 * dx 1)))
    _ _ (fun idx hidx => by rw [(hval idx ((mem_box n idx).1 hidx)).2.2]; ring) (hd 0 u) (hd 1 v)
  simp only [energy, gridProduct, LinearMap.mk₂_apply, sum_three h3, hu, hv, hh, gridTotal, show gridPoints n = box n from rfl]
  simp only [← sq] at b0 b1 b2 ⊢
  have pu : 0 ≤ ∑ idx ∈ box n, u idx ^ 2 := Finset.sum_nonneg fun _ _ => sq_nonneg _
  have pv : 0 ≤ ∑ idx ∈ box n, v idx ^ 2 := Finset.sum_nonneg fun _ _ => sq_nonneg _
  have ph : 0 ≤ ∑ idx ∈ box n, h idx ^ 2 := Finset.sum_nonneg fun _ _ => sq_nonneg _
  generalize ∑ idx ∈ box n, u idx ^ 2 = Su at *
  generalize ∑ idx ∈ box n, v idx ^ 2 = Sv at *
  generalize ∑ idx ∈ box n, h idx ^ 2 = Sh at *
  have k0 := sq_nonneg f
  have k1 := sq_nonneg (c / dx 0)
  have k2 := sq_nonneg (c / dx 1)
  rw [neg_sq] at b1
  generalize (c / dx 0) ^ 2 = A at *
  generalize (c / dx 1) ^ 2 = B at *
  generalize f ^ 2 = G at *
  have e : (∑ idx ∈ box n, F t V ⟨0, by omega⟩ idx ^ 2) + (∑ idx ∈ box n, F t V ⟨1, by omega⟩ idx ^ 2) +
      (∑ idx ∈ box n, F t V ⟨2, by omega⟩ idx ^ 2) ≤ 2 * (G + A + B) * (Su + Sv + Sh) := by
    have := mul_nonneg k1 pv
    have := mul_nonneg k2 pu
    have := mul_nonneg k0 ph
    nlinarith
  have e' := mul_le_mul_of_nonneg_left e (sq_nonneg (t' - t))
  have e2 := mul_le_mul_of_nonneg_right h4 (add_nonneg (add_nonneg pu pv) ph)
  nlinarith

/-- The values `φ` solve the equations of rotating shallow water on `[a, b]`. -/
def RotatingWaves (φ : Sy → ℝ → (Fin 2 → ℝ) → ℝ) (f c a b : ℝ) : Prop :=
  ∀ τ ∈ Set.Icc a b, ∀ p,
    HasDerivAt (fun s => φ (field2 "u") s p) (f * φ (field2 "v") τ p - c * pd 0 (φ (field2 "h") τ) p) τ ∧
    HasDerivAt (fun s => φ (field2 "v") s p) (- f * φ (field2 "u") τ p - c * pd 1 (φ (field2 "h") τ) p) τ ∧
    HasDerivAt (fun s => φ (field2 "h") s p) (- c * (pd 0 (φ (field2 "u") τ) p + pd 1 (φ (field2 "v") τ) p)) τ

/-- **C102** Rotating shallow water on a periodic domain of size `ℓ₀ × ℓ₁`: let `φ` be smooth periodic velocities and height that solve the
equations on `[a, b]`.  On a grid with small steps `dx, dy`, on windows with steps at most `η` such that `η² (f² + (c/dx)² + (c/dy)²) ≤ 4`, the
forecasts with `rk4` started at `φ(a)` are at all the saved times at a root mean square distance at most `C (η⁴ + dx² + dy²)` of `φ`. -/
theorem C102_shallow (iter : List Sy → List Sy) (hi : ∀ l, (iter l).Perm l) (ℓ : Fin 2 → ℝ) (hℓ : ∀ i, 0 < ℓ i) (f c : ℝ) {a b : ℝ} (hab : a < b)
    (φ : Sy → ℝ → (Fin 2 → ℝ) → ℝ) (hφ : ∀ g ∈ [field2 "u", field2 "v", field2 "h"], SmoothFamily (φ g) ∧ ∀ τ, Periodic ℓ (φ g τ))
    (hsol : RotatingWaves φ f c a b) :
    ∃ s, System.build iter shallow = .ok s ∧ s.prognostic = [field2 "u", field2 "v", field2 "h"] ∧ ∃ C δ : ℝ, 0 < δ ∧
      ∀ n : Fin 2 → ℕ, (∀ i, 0 < n i) → (∀ i, ℓ i / n i ≤ δ) →
      ∃ F : ℝ → (Fin s.prognostic.length → Arr 2 ℝ) → Fin s.prognostic.length → Arr 2 ℝ,
      Implements s (fdArith ["x".toList, "y".toList] n (fun i => ℓ i / n i)) (fun _ => rotating f c) F ∧
      ∀ η window, 0 ≤ η → η ≤ 1 → η ^ 2 * (f ^ 2 + (c / (ℓ 0 / n 0)) ^ 2 + (c / (ℓ 1 / n 1)) ^ 2) ≤ 4 → Spec.Partition a b η window →
      ∀ U0, (∀ k idx, (∀ i, idx i < n i) → U0 k idx = φ s.prognostic[k] a (point ℓ n idx)) → ∀ saved,
      ∃ fc, Integrator.forecast (Integrator.step .rk4 (.fn F)) window (.single U0) (.list saved) = .ok fc ∧
        ∀ τ ∈ window, τ ∈ saved → ∃ U, fc.get? τ = some (.single U) ∧
          MeanSquare n (C * (η ^ 4 + (ℓ 0 / n 0) ^ 2 + (ℓ 1 / n 1) ^ 2)) U (fun k idx => φ s.prognostic[k] τ (point ℓ n idx)) := by
  obtain ⟨s, h1, h2, -, h4, h5, h6, h7⟩ := system_order shallow _ rfl (by decide +kernel) (by decide +kernel) (by decide +kernel) iter hi
  have hpr : s.prognostic = [field2 "u", field2 "v", field2 "h"] := h2.trans (by decide +kernel)
  have h3 : s.prognostic.length = 3 := by rw [hpr]; rfl
  have hcs : ∀ c' : Str, Sy.sym .plain c' ∈ s.constants → cleanLatexName c' = c' := by
    intro c' hc'
    have := h4.mem_iff.1 hc'
    have key : ∀ g ∈ [Sy.sym .plain "f".toList, Sy.sym .plain "c".toList], ∀ c', g = .sym .plain c' → cleanLatexName c' = c' := by
      intro g hg c' e
      fin_cases hg
      · injection e with _ e; subst e; decide +kernel
      · injection e with _ e; subst e; decide +kernel
    refine key _ ?_ c' rfl
    revert this
    generalize Sy.sym Kind.plain c' = g
    revert g
    decide +kernel
  have hS : Solves ["x".toList, "y".toList] shallow φ (fun name => if name = "f".toList then f else c) a b := by
    intro e hee g hg τ hτ p
    obtain ⟨k1, k2, k3⟩ := hsol τ hτ p
    rw [shallow] at hee
    simp only [List.mem_cons, List.not_mem_nil, or_false] at hee
    rcases hee with rfl | rfl | rfl
    · injection hg with hg
      subst hg
      refine k1.congr_deriv ?_
      show _ = Function.update (fun name => if name = "f".toList then f else c) "t".toList τ "f".toList * φ (field2 "v") τ p +
        ((-1 : ℚ) : ℝ) * (Function.update (fun name => if name = "f".toList then f else c) "t".toList τ "c".toList * pd 0 (φ (field2 "h") τ) p)
      rw [Function.update_of_ne (by decide), Function.update_of_ne (by decide), if_pos rfl, if_neg (by decide)]
      push_cast
      ring
    · injection hg with hg
      subst hg
      refine k2.congr_deriv ?_
      show _ = ((-1 : ℚ) : ℝ) * (Function.update (fun name => if name = "f".toList then f else c) "t".toList τ "f".toList * φ (field2 "u") τ p) +
        ((-1 : ℚ) : ℝ) * (Function.update (fun name => if name = "f".toList then f else c) "t".toList τ "c".toList * pd 1 (φ (field2 "h") τ) p)
      rw [Function.update_of_ne (by decide), Function.update_of_ne (by decide), if_pos rfl, if_neg (by decide)]
      push_cast
      ring
    · injection hg with hg
      subst hg
      refine k3.congr_deriv ?_
      show _ = ((-1 : ℚ) : ℝ) * (Function.update (fun name => if name = "f".toList then f else c) "t".toList τ "c".toList * pd 0 (φ (field2 "u") τ) p) +
        ((-1 : ℚ) : ℝ) * (Function.update (fun name => if name = "f".toList then f else c) "t".toList τ "c".toList * pd 1 (φ (field2 "v") τ) p)
      rw [Function.update_of_ne (by decide), if_neg (by decide)]
      push_cast
      ring
  obtain ⟨C, δ, hδ, hconv⟩ := C102_converges iter hi shallow s h1 h6 h7 ["x".toList, "y".toList] (by decide) (by decide) shallowRows shallow_skew
    (by
      intro r hr u args hu
      rw [shallowRows] at hr
      simp only [List.mem_cons, List.not_mem_nil, or_false] at hr
      rcases hr with rfl | rfl | rfl <;>
      · injection hu with _ hu
        subst hu
        decide)
    ℓ hℓ φ _ hab
    (by
      intro r hr
      rw [shallowRows] at hr
      simp only [List.mem_cons, List.not_mem_nil, or_false] at hr
      rcases hr with rfl | rfl | rfl <;> exact hφ _ (by simp)) hS
  refine ⟨s, h1, hpr, C, δ, hδ, fun n hn hs => ?_⟩
  obtain ⟨F, hF⟩ := C88_vector_field iter hi shallow s h1 h6 h7 (fdArith ["x".toList, "y".toList] n (fun i => ℓ i / n i))
    (fun _ => rotating f c) (.inl h5)
  refine ⟨F, hF, fun η window hη hη1 hcfl hpart U0 hU0 saved => ?_⟩
  have hdx : ∀ i, 0 < ℓ i / n i := fun i => div_pos (hℓ i) (by exact_mod_cast hn i)
  obtain ⟨fc, hfc, hval⟩ := hconv n hn hs (fun _ => rotating f c) (fun t c' hc' => by rw [hcs c' hc']; rfl) F hF η window hη hη1 hpart
    (fun i t t' ht ht' V => shallow_cfl iter hi n (fun i => ℓ i / n i) hdx f c s h1 h3 F hF t t' (by
      obtain ⟨k1, k2⟩ := hpart.step i t t' ht ht'
      refine le_trans ?_ hcfl
      exact mul_le_mul_of_nonneg_right (pow_le_pow_left₀ (by linarith) k2 2) (by positivity)) V)
    U0 0 (le_refl _) (by
      unfold MeanSquare
      refine le_of_eq ?_
      rw [zero_pow two_ne_zero, mul_zero]
      refine Finset.sum_eq_zero fun k _ => ?_
      refine Finset.sum_eq_zero fun idx hidx => ?_
      exact pow_eq_zero_iff two_ne_zero |>.2 (sub_eq_zero.2 (hU0 k idx ((mem_box n idx).1 hidx)))) saved
  refine ⟨fc, hfc, fun τ hτ hsv => ?_⟩
  obtain ⟨U, hU, hb⟩ := hval τ hτ hsv
  refine ⟨U, hU, ?_⟩
  have e : C * (η ^ 4 + ∑ i : Fin 2, (ℓ i / n i) ^ 2 + 0) = C * (η ^ 4 + (ℓ 0 / n 0) ^ 2 + (ℓ 1 / n 1) ^ 2) := by
    rw [Fin.sum_univ_two]
    ring
  rw [← e]
  exact hb

/-- The inertia-gravity wave with wavenumber `k` and pulsation `ω`. -/
noncomputable def gravityWave (f c k ω : ℝ) : Sy → ℝ → (Fin 2 → ℝ) → ℝ := fun g t p =>
  if g = field2 "u" then ω / (c * k) * Real.cos (k * p 0 - ω * t)
  else if g = field2 "v" then f / (c * k) * Real.sin (k * p 0 - ω * t)
  else Real.cos (k * p 0 - ω * t)

theorem gravityWave_pd0 (A k ω t : ℝ) (F F' : ℝ → ℝ) (hF : ∀ z, HasDerivAt F (F' z) z) (p : Fin 2 → ℝ) :
    pd (0 : Fin 2) (fun p : Fin 2 → ℝ => A * F (k * p 0 - ω * t)) p = A * (F' (k * p 0 - ω * t) * k) := by
  have h : HasDerivAt (fun z : ℝ => A * F (k * z - ω * t)) (A * (F' (k * p 0 - ω * t) * (k * 1 - 0))) (p 0) :=
    ((hF _).comp (p 0) (((hasDerivAt_id (p 0)).const_mul k).sub (hasDerivAt_const (p 0) (ω * t)))).const_mul A
  simp only [pd, Function.update_self]
  rw [h.deriv]
  ring

theorem gravityWave_pd1 (g : ℝ → ℝ) (p : Fin 2 → ℝ) : pd (1 : Fin 2) (fun p : Fin 2 → ℝ => g (p 0)) p = 0 := by
  simp [pd]

theorem gravityWave_time (A k ω : ℝ) (F F' : ℝ → ℝ) (hF : ∀ z, HasDerivAt F (F' z) z) (p : Fin 2 → ℝ) (τ : ℝ) :
    HasDerivAt (fun t => A * F (k * p 0 - ω * t)) (A * (F' (k * p 0 - ω * τ) * -ω)) τ := by
  have h : HasDerivAt (fun t : ℝ => A * F (k * p 0 - ω * t)) (A * (F' (k * p 0 - ω * τ) * (0 - ω * 1))) τ :=
    ((hF _).comp τ ((hasDerivAt_const τ (k * p 0)).sub ((hasDerivAt_id τ).const_mul ω))).const_mul A
  exact h.congr_deriv (by ring)

/-- The wave solves the equations when `ω² = f² + (c k)²`. -/
theorem gravityWave_solves (f c k ω : ℝ) (hck : c * k ≠ 0) (hω : ω ^ 2 = f ^ 2 + (c * k) ^ 2) (a b : ℝ) :
    RotatingWaves (gravityWave f c k ω) f c a b := by
  have eu : gravityWave f c k ω (field2 "u") = fun t p => ω / (c * k) * Real.cos (k * p 0 - ω * t) := rfl
  have ev : gravityWave f c k ω (field2 "v") = fun t p => f / (c * k) * Real.sin (k * p 0 - ω * t) := rfl
  have eh : gravityWave f c k ω (field2 "h") = fun t p => 1 * Real.cos (k * p 0 - ω * t) := by
    funext t p
    rw [one_mul]
    rfl
  have hc0 : c ≠ 0 := fun e => hck (by rw [e, zero_mul])
  have hk0 : k ≠ 0 := fun e => hck (by rw [e, mul_zero])
  intro τ _ p
  rw [eu, ev, eh]
  refine ⟨?_, ?_, ?_⟩
  · refine (gravityWave_time _ k ω Real.cos _ Real.hasDerivAt_cos p τ).congr_deriv ?_
    rw [gravityWave_pd0 1 k ω τ Real.cos _ Real.hasDerivAt_cos p]
    field_simp
    rw [hω]
    ring
  · refine (gravityWave_time _ k ω Real.sin _ Real.hasDerivAt_sin p τ).congr_deriv ?_
    rw [gravityWave_pd1 (fun z => 1 * Real.cos (k * z - ω * τ)) p]
    ring
  · refine (gravityWave_time _ k ω Real.cos _ Real.hasDerivAt_cos p τ).congr_deriv ?_
    rw [gravityWave_pd0 _ k ω τ Real.cos _ Real.hasDerivAt_cos p, gravityWave_pd1 (fun z => f / (c * k) * Real.sin (k * z - ω * τ)) p]
    field_simp
    ring

/-- The case of C102_shallow: an inertia-gravity wave with `m` wavelengths in the domain. -/
example (iter : List Sy → List Sy) (hi : ∀ l, (iter l).Perm l) (ℓ : Fin 2 → ℝ) (hℓ : ∀ i, 0 < ℓ i) (f c : ℝ) (hc : 0 < c) (m : ℕ) (hm : 0 < m)
    {a b : ℝ} (hab : a < b) (k ω : ℝ) (hk : k = 2 * Real.pi * m / ℓ 0) (hω : ω = √(f ^ 2 + (c * k) ^ 2)) :
    ∃ s, System.build iter shallow = .ok s ∧ s.prognostic = [field2 "u", field2 "v", field2 "h"] ∧ ∃ C δ : ℝ, 0 < δ ∧
      ∀ n : Fin 2 → ℕ, (∀ i, 0 < n i) → (∀ i, ℓ i / n i ≤ δ) →
      ∃ F : ℝ → (Fin s.prognostic.length → Arr 2 ℝ) → Fin s.prognostic.length → Arr 2 ℝ,
      Implements s (fdArith ["x".toList, "y".toList] n (fun i => ℓ i / n i)) (fun _ => rotating f c) F ∧
      ∀ η window, 0 ≤ η → η ≤ 1 → η ^ 2 * (f ^ 2 + (c / (ℓ 0 / n 0)) ^ 2 + (c / (ℓ 1 / n 1)) ^ 2) ≤ 4 → Spec.Partition a b η window →
      ∀ U0, (∀ j idx, (∀ i, idx i < n i) → U0 j idx = gravityWave f c k ω s.prognostic[j] a (point ℓ n idx)) → ∀ saved,
      ∃ fc, Integrator.forecast (Integrator.step .rk4 (.fn F)) window (.single U0) (.list saved) = .ok fc ∧
        ∀ τ ∈ window, τ ∈ saved → ∃ U, fc.get? τ = some (.single U) ∧
          MeanSquare n (C * (η ^ 4 + (ℓ 0 / n 0) ^ 2 + (ℓ 1 / n 1) ^ 2)) U (fun j idx => gravityWave f c k ω s.prognostic[j] τ (point ℓ n idx)) := by
  have hk0 : 0 < k := by
    have : (0 : ℝ) < m := by exact_mod_cast hm
    have := hℓ 0
    have := Real.pi_pos
    rw [hk]
    positivity
  have hper : ∀ (t : ℝ) (i : Fin 2) (p : Fin 2 → ℝ), ∃ j : ℕ, k * (p + (Pi.single i (ℓ i) : Fin 2 → ℝ)) 0 - ω * t = k * p 0 - ω * t + j * (2 * Real.pi) := by
    intro t i p
    fin_cases i
    · refine ⟨m, ?_⟩
      have := (hℓ 0).ne'
      simp only [Fin.zero_eta, Pi.add_apply, Pi.single_eq_same, hk]
      field_simp
      ring
    · exact ⟨0, by simp⟩
  refine C102_shallow iter hi ℓ hℓ f c hab (gravityWave f c k ω) ?_
    (gravityWave_solves f c k ω (mul_pos hc hk0).ne' (by rw [hω, Real.sq_sqrt (by positivity)]) a b)
  have hph : ContDiff ℝ (⊤ : ℕ∞) (fun q : ℝ × (Fin 2 → ℝ) => k * q.2 0 - ω * q.1) :=
    (contDiff_const.mul ((contDiff_apply ℝ ℝ (0 : Fin 2)).comp contDiff_snd)).sub (contDiff_const.mul contDiff_fst)
  intro g hg
  simp only [List.mem_cons, List.not_mem_nil, or_false] at hg
  rcases hg with rfl | rfl | rfl
  · have hs : ContDiff ℝ (⊤ : ℕ∞) (fun q : ℝ × (Fin 2 → ℝ) => ω / (c * k) * Real.cos (k * q.2 0 - ω * q.1)) :=
      contDiff_const.mul (Real.contDiff_cos.comp hph)
    refine ⟨hs, fun t i p => ?_⟩
    obtain ⟨j, hj⟩ := hper t i p
    show ω / (c * k) * Real.cos (k * (p + (Pi.single i (ℓ i) : Fin 2 → ℝ)) 0 - ω * t) = ω / (c * k) * Real.cos (k * p 0 - ω * t)
    rw [hj, Real.cos_add_nat_mul_two_pi]
  · have hs : ContDiff ℝ (⊤ : ℕ∞) (fun q : ℝ × (Fin 2 → ℝ) => f / (c * k) * Real.sin (k * q.2 0 - ω * q.1)) :=
      contDiff_const.mul (Real.contDiff_sin.comp hph)
    refine ⟨hs, fun t i p => ?_⟩
    obtain ⟨j, hj⟩ := hper t i p
    show f / (c * k) * Real.sin (k * (p + (Pi.single i (ℓ i) : Fin 2 → ℝ)) 0 - ω * t) = f / (c * k) * Real.sin (k * p 0 - ω * t)
    rw [hj, Real.sin_add_nat_mul_two_pi]
  · have hs : ContDiff ℝ (⊤ : ℕ∞) (fun q : ℝ × (Fin 2 → ℝ) => Real.cos (k * q.2 0 - ω * q.1)) := Real.contDiff_cos.comp hph
    refine ⟨hs, fun t i p => ?_⟩
    obtain ⟨j, hj⟩ := hper t i p
    show Real.cos (k * (p + (Pi.single i (ℓ i) : Fin 2 → ℝ)) 0 - ω * t) = Real.cos (k * p 0 - ω * t)
    rw [hj, Real.cos_add_nat_mul_two_pi]

end Sympkf.Dynamics
