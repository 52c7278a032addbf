import Verif.Props.FullyDiscrete
import Verif.Lemmas.CentredDiff
import Verif.Props.Dynamics
import Mathlib.Analysis.SpecialFunctions.SmoothTransition
import Mathlib.Analysis.SpecialFunctions.Trigonometric.Deriv
import Mathlib.Analysis.Complex.ExponentialBounds

/-!
# C89: forecasts with the generated models of the diffusion and Burgers equations converge to the solutions
-/

set_option autoImplicit false

namespace Sympkf.Dynamics

open Text PDE Spec.PDE FinDiff Props

section

variable {ℓ κ c : ℝ} {a b : ℝ} {u : ℝ → ℝ → ℝ}

/-- The function of time and space of a function of time and one coordinate. -/
def family (u : ℝ → ℝ → ℝ) : ℝ → (Fin 1 → ℝ) → ℝ := fun t p => u t (p 0)

theorem family_smooth (hu : ContDiff ℝ (⊤ : ℕ∞) (fun q : ℝ × ℝ => u q.1 q.2)) : SmoothFamily (family u) :=
  hu.comp (contDiff_fst.prodMk ((contDiff_apply ℝ ℝ (0 : Fin 1)).comp contDiff_snd))

theorem family_periodic (hp : ∀ t x, u t (x + ℓ) = u t x) (t : ℝ) : Periodic (d := 1) (fun _ => ℓ) (family u t) := by
  intro i p
  fin_cases i
  simp [family, hp]

theorem pd_family (g : ℝ → ℝ) : pd (0 : Fin 1) (fun p : Fin 1 → ℝ => g (p 0)) = fun p => deriv g (p 0) := by
  funext p
  simp [pd]

theorem axesOf_x (m : ℕ) : axesOf [x] [(x, m)] = [((0 : Fin 1), m)] := by
  simp [axesOf]

theorem pd_x (g : ℝ → ℝ) : pdMixed (axesOf [x] [(x, 1)]) (fun p : Fin 1 → ℝ => g (p 0)) = fun p => deriv g (p 0) := by
  rw [axesOf_x]
  exact pd_family g

theorem pd_xx (g : ℝ → ℝ) : pdMixed (axesOf [x] [(x, 2)]) (fun p : Fin 1 → ℝ => g (p 0)) = fun p => deriv (deriv g) (p 0) := by
  rw [axesOf_x]
  exact (congrArg (pd (0 : Fin 1)) (pd_family g)).trans (pd_family _)

end

/-- An equation `u_t = - c u u_x + kappa u_xx`, for a number `c`. -/
theorem one_dim_converges (iter : List Sy → List Sy) (hi : ∀ l, (iter l).Perm l) (rhs : Sy) (s : System)
    (hs : System.build iter [⟨d u1 time 1, rhs⟩] = .ok s) (he : Evolution s.coordinates [⟨d u1 time 1, rhs⟩])
    (hn : WellNamed s) (hsc : s.spatialCoordinates = [.sym .plain x]) (hcf : s.constantFunctions = [])
    (hcs : s.constants = [kappa]) (hex : s.exogenous = []) (hpr : s.prognostic = [u1]) (c : ℝ) (hc : 0 ≤ c)
    (hreg : ∀ (φ : Sy → (Fin 1 → ℝ) → ℝ) σ, Regular [x] φ σ rhs)
    (hval : ∀ (n : Fin 1 → ℕ) (h : Fin 1 → ℝ) (ρ : Valuation (Arr 1 ℝ)) idx, rhsValue (fdArith [x] n h) ρ rhs idx =
      -1 * (c * (ρ.fn u1 idx * fdDiff [x] n h [(x, 1)] (ρ.fn u1) idx)) +
        ρ.sym "\\kappa".toList idx * fdDiff [x] n h [(x, 2)] (ρ.fn u1) idx)
    (hexact : ∀ (v : ℝ → ℝ) σ p, exact [x] (fun _ p => v (p 0)) σ rhs p =
      -(c * (v (p 0) * deriv v (p 0))) + σ "\\kappa".toList * deriv (deriv v) (p 0))
    (ℓ κ a b : ℝ) (hℓ : 0 < ℓ) (hκ : 0 < κ) (hab : a ≤ b) (u : ℝ → ℝ → ℝ)
    (hu : ContDiff ℝ (⊤ : ℕ∞) (fun q : ℝ × ℝ => u q.1 q.2)) (hp : ∀ t y, u t (y + ℓ) = u t y)
    (hsol : ∀ t ∈ Set.Icc a b, ∀ y, HasDerivAt (fun r => u r y)
      (-(c * (u t y * deriv (u t) y)) + κ * deriv (deriv (u t)) y) t) :
    ∃ C δ : ℝ, 0 < δ ∧ ∀ n : ℕ, 0 < n → ℓ / n ≤ δ → ∀ O : Obj (Arr 1 ℝ), O.attr "kappa".toList = (fun _ => κ) →
      ∃ F : ℝ → (Fin s.prognostic.length → Arr 1 ℝ) → Fin s.prognostic.length → Arr 1 ℝ,
        Implements s (fdArith ["x".toList] (fun _ => n) (fun _ => ℓ / n)) (fun _ => O) F ∧
        ∀ η window, 0 ≤ η → 2 * κ * η ≤ (ℓ / n) ^ 2 → Spec.Partition a b η window →
        ∀ U0 e0, 0 ≤ e0 → e0 ≤ δ → (∀ k, ∀ j < n, |U0 k (fun _ => j) - u a (j * (ℓ / n))| ≤ e0) → ∀ saved,
        ∃ fc, Integrator.forecast (Integrator.step .euler (.fn F)) window (.single U0) (.list saved) = .ok fc ∧
          ∀ τ ∈ window, τ ∈ saved → ∃ U, fc.get? τ = some (.single U) ∧
            ∀ k, ∀ j < n, |U k (fun _ => j) - u τ (j * (ℓ / n))| ≤ C * ((ℓ / n) ^ 2 + e0) := by
  have hT : IsCompact (Set.Icc a b) := isCompact_Icc
  have hsm := family_smooth hu
  have hper := family_periodic (u := u) hp
  have hnd : ([x] : List Str).Nodup := List.nodup_singleton _
  have htx : time ∉ [x] := by decide
  have hℓ' : ∀ i : Fin 1, 0 < (fun _ : Fin 1 => ℓ) i := fun _ => hℓ
  -- bounds on the solution and its differences
  obtain ⟨M, hM, hbound⟩ := bounded_family hT (contOn_of_smooth hsm) ‖fun _ : Fin 1 => ℓ‖
  obtain ⟨hcd, C₂, δ₂, hC₂, hδ₂, hdiff⟩ := closeOn_rhs (coords := [x]) hnd htx hT hℓ' (fun _ => family u) (fun _ _ => κ)
    (fun _ => continuousOn_const) (.deriv u1 [(x, 1)]) (fun _ _ => ⟨hsm, hper⟩) (fun _ _ => ⟨⟨_, _, rfl, by decide⟩, by decide⟩)
  obtain ⟨M₁, hM₁, hbound₁⟩ := bounded_family hT hcd ‖fun _ : Fin 1 => ℓ‖
  set L := M₁ + C₂ with hL
  have hL0 : 0 ≤ L := by positivity
  obtain ⟨C, δ₁, hδ₁, hconv⟩ := C88_converges iter hi _ s hs he hn [x] (by rw [hsc]; rfl) hnd htx (fun _ => ℓ) hℓ'
    (fun _ => family u) (fun _ => κ) hab (fun _ _ _ => ⟨hsm, hper⟩)
    (fun τ _ e hee => by rw [List.mem_singleton] at hee; subst hee; exact hreg _ _)
    (by
      intro e hee f hf τ hτ p
      rw [List.mem_singleton] at hee
      subst hee
      have := hexact (u τ) (Function.update (fun _ => κ) "t".toList τ) p
      rw [Function.update_of_ne (by decide)] at this
      refine HasDerivAt.congr_deriv (hsol τ hτ (p 0)) ?_
      exact this.symm)
    (c * L) 1 (by positivity) one_pos
  set δ := min (min δ₁ δ₂) (min 1 (min (2 * κ / (c * (M + 1) + 1)) (2 * κ * δ₁))) with hδ
  have hδ0 : 0 < δ := by positivity
  refine ⟨|C| * (1 / (2 * κ) + 1), δ, hδ0, fun n hn0 hle O hO => ?_⟩
  have hn0' : (0 : ℝ) < n := by exact_mod_cast hn0
  obtain ⟨F, hF⟩ := C88_vector_field iter hi _ s hs he hn (fdArith [x] (fun _ => n) (fun _ => ℓ / n)) (fun _ => O) (.inl hex)
  refine ⟨F, hF, fun η window hη hcfl hw U0 e0 he0 he0δ hU0 saved => ?_⟩
  set h := ℓ / n with hh
  have hh0 : 0 < h := div_pos hℓ hn0'
  have hd1 : h ≤ 1 := hle.trans ((min_le_right _ _).trans (min_le_left _ _))
  have hd2 : h ≤ 2 * κ / (c * (M + 1) + 1) := hle.trans ((min_le_right _ _).trans ((min_le_right _ _).trans (min_le_left _ _)))
  have hd3 : h ≤ 2 * κ * δ₁ := hle.trans ((min_le_right _ _).trans ((min_le_right _ _).trans (min_le_right _ _)))
  have hηδ : η ≤ δ₁ := by
    have : 2 * κ * η ≤ 2 * κ * δ₁ := hcfl.trans (le_trans (by nlinarith) hd3)
    exact le_of_mul_le_mul_left this (by positivity)
  have hpe : c * h * (M + 1) ≤ 2 * κ := by
    rw [le_div_iff₀ (by positivity)] at hd2
    nlinarith
  have hhne : ∀ i : Fin 1, (fun _ : Fin 1 => h) i ≠ 0 := fun _ => hh0.ne'
  -- the generated vector field
  have hsub : ∀ k k' : Fin s.prognostic.length, k = k' := by
    rw [hpr]; intro k k'; exact Subsingleton.elim (α := Fin 1) k k'
  have hFval : ∀ t U k idx, (∀ i, idx i < n) → F t U k idx =
      -1 * (c * (U k idx * ((U k (sh (fun _ => n) 0 1 idx) - U k (sh (fun _ => n) 0 (-1) idx)) / (2 * h)))) +
        κ * ((U k (sh (fun _ => n) 0 1 idx) - 2 * U k idx + U k (sh (fun _ => n) 0 (-1) idx)) / h ^ 2) := by
    intro t U k idx hidx
    obtain ⟨m, hm, hout⟩ := hF t U
    obtain ⟨m', hm', hout', -⟩ := C64_trend_partial iter hi _ s hs he hn (fdArith [x] (fun _ => n) (fun _ => h)) O (fun _ => t)
      (List.ofFn U) ⟨fun _ => U k, fun z => if z = "t".toList then fun _ => t else fun _ => κ⟩
      (by
        refine List.ext_getElem (by simp) (fun i h1 h2 => ?_)
        rw [List.getElem_ofFn, List.getElem_map]
        exact congrArg U (hsub _ _)) (by simp)
      (by rw [hcf]; simp)
      (by
        intro z hz
        rw [hcs, List.mem_singleton] at hz
        injection hz with _ hz
        subst hz
        exact hO) (.inl hex)
    rw [hm'] at hm
    injection hm with hm
    rw [← hm, hout'] at hout
    have hFk : F t U k = rhsValue (fdArith [x] (fun _ => n) (fun _ => h))
        ⟨fun _ => U k, fun z => if z = "t".toList then fun _ => t else fun _ => κ⟩ rhs := by
      have h0 : 0 < s.prognostic.length := by rw [hpr]; decide
      have := congrArg (fun l => l[0]?) hout
      simp only [List.map_cons, List.getElem?_cons_zero, List.getElem?_ofFn, h0, dite_true, Option.some.injEq] at this
      rw [this]
      exact congrArg (F t U) (hsub _ _)
    rw [hFk, hval]
    have f1 := fdDiff_first (coords := [x]) hnd htx (fun _ => n) (fun _ => h) hhne (U k) 0 idx hidx
    have f2 := fdDiff_second (coords := [x]) hnd htx (fun _ => n) (fun _ => h) hhne (U k) 0 idx hidx
    exact congrArg₂ (fun p q => -1 * (c * (U k idx * p)) + κ * q) f1 f2
  have hstab : ∀ (i : ℕ) t t', window[i]? = some t → window[i + 1]? = some t' →
      StableAt (fun _ => n) (F t) (sampled (fun _ => ℓ) (fun _ => family u) s (fun _ => n) t) (t' - t) (c * L) 1 := by
    intro i t t' h1 h2 U e he1 hUV k idx hidx
    obtain ⟨g1, g2⟩ := hw.step i t t' h1 h2
    have ht := Order.partition_mem hw i t h1
    have hsh : ∀ m : ℤ, ∀ i : Fin 1, sh (fun _ => n) 0 m idx i < n := by
      intro m i
      fin_cases i
      simpa [sh] using gridIndex_lt n m (idx 0) (hidx 0)
    set V := sampled (fun _ => ℓ) (fun _ => family u) s (fun _ => n) t with hV
    have hUle : |U k idx| ≤ M + 1 := by
      have k1 := hUV k idx hidx
      have k2 : |V k idx| ≤ M := hbound t ht _ (norm_point_le hℓ' (fun _ => n) (fun _ => hn0) idx hidx)
      have k3 := abs_add_le (U k idx - V k idx) (V k idx)
      rw [sub_add_cancel] at k3
      linarith
    have hLV : |(V k (sh (fun _ => n) 0 1 idx) - V k (sh (fun _ => n) 0 (-1) idx)) / (2 * h)| ≤ L := by
      have f1 := fdDiff_first (coords := [x]) hnd htx (fun _ => n) (fun _ => h) hhne (V k) 0 idx hidx
      have k1 := hdiff t ht (fun _ => n) (fun _ => hn0) (fun _ => hle.trans ((min_le_left _ _).trans (min_le_right _ _))) idx hidx
      have k2 := hbound₁ t ht _ (norm_point_le hℓ' (fun _ => n) (fun _ => hn0) idx hidx)
      have k3 : ∑ _i : Fin 1, h ^ 2 ≤ 1 := by simpa [abs_of_pos hh0] using hd1
      have k4 : C₂ * ∑ _i : Fin 1, h ^ 2 ≤ C₂ := by nlinarith
      have k1 : |(V k (sh (fun _ => n) 0 1 idx) - V k (sh (fun _ => n) 0 (-1) idx)) / (2 * h) -
          exact [x] (fun _ => family u t) (fun _ => κ) (.deriv u1 [(x, 1)]) (point (fun _ => ℓ) (fun _ => n) idx)| ≤ C₂ * ∑ _i : Fin 1, h ^ 2 :=
        le_of_eq_of_le (congrArg (fun z => |z - _|) f1.symm) k1
      have k5 := abs_add_le ((V k (sh (fun _ => n) 0 1 idx) - V k (sh (fun _ => n) 0 (-1) idx)) / (2 * h) -
          exact [x] (fun _ => family u t) (fun _ => κ) (.deriv u1 [(x, 1)]) (point (fun _ => ℓ) (fun _ => n) idx))
        (exact [x] (fun _ => family u t) (fun _ => κ) (.deriv u1 [(x, 1)]) (point (fun _ => ℓ) (fun _ => n) idx))
      rw [sub_add_cancel] at k5
      exact (k5.trans (add_le_add (k1.trans k4) k2)).trans (by rw [hL, add_comm])
    show |(U k idx + (t' - t) * F t U k idx) - (V k idx + (t' - t) * F t V k idx)| ≤ _
    rw [hFval t U k idx hidx, hFval t V k idx hidx]
    exact centred_stable c κ h (t' - t) L e _ _ _ _ _ _ hh0 (by linarith) hc (le_trans (by nlinarith) hcfl)
      (le_trans (mul_le_mul_of_nonneg_left hUle (by positivity)) hpe) (hUV k idx hidx) (hUV k _ (hsh 1)) (hUV k _ (hsh (-1))) hLV
  obtain ⟨fc, hfc, hval'⟩ := hconv (fun _ => n) (fun _ => hn0) (fun _ => hle.trans ((min_le_left _ _).trans (min_le_left _ _)))
    (fun _ => O) (fun t _ => ⟨by rw [hcf]; simp, by
        intro z hz
        rw [hcs, List.mem_singleton] at hz
        injection hz with _ hz
        subst hz
        exact hO, .inl hex⟩) F hF η window hη hηδ hw hstab U0 e0 he0 (he0δ.trans ((min_le_left _ _).trans (min_le_left _ _)))
    (by
      intro k idx hidx
      have e : idx = fun _ => idx 0 := by funext i; fin_cases i; rfl
      rw [e]
      exact hU0 k (idx 0) (hidx 0)) saved
  refine ⟨fc, hfc, fun τ hτ hsv => ?_⟩
  obtain ⟨U, hU, hwi⟩ := hval' τ hτ hsv
  refine ⟨U, hU, fun k j hj => ?_⟩
  have := hwi k (fun _ => j) (fun _ => hj)
  refine le_trans this ?_
  have e1 : ∑ _i : Fin 1, (ℓ / n) ^ 2 = h ^ 2 := by simp [hh]
  have e2 : η ≤ 1 / (2 * κ) * h ^ 2 := by
    rw [one_div, inv_mul_eq_div, le_div_iff₀ (by positivity)]; linarith
  have e3 : C * (η + h ^ 2 + e0) ≤ |C| * (η + h ^ 2 + e0) := mul_le_mul_of_nonneg_right (le_abs_self C) (by positivity)
  have e4 : η + h ^ 2 + e0 ≤ (1 / (2 * κ) + 1) * (h ^ 2 + e0) := by
    have : 0 ≤ 1 / (2 * κ) * e0 := by positivity
    nlinarith
  calc _ = C * (η + h ^ 2 + e0) := congrArg (fun q => C * (η + q + e0)) e1
    _ ≤ |C| * (η + h ^ 2 + e0) := e3
    _ ≤ |C| * ((1 / (2 * κ) + 1) * (h ^ 2 + e0)) := mul_le_mul_of_nonneg_left e4 (abs_nonneg C)
    _ = _ := by ring

/-- **C89** The diffusion equation `u_t = kappa u_xx`.  Let `u` be a smooth solution on `[a, b]`, periodic in space.  For all fine
grids and all windows whose steps satisfy `2 kappa dt ≤ dx²`, the forecasts with the scheme `euler` of the class generated from
`diffusion` differ from the solution, at all the saved times and on the whole grid, by at most `C (dx² + initial error)`. -/
theorem C89_diffusion (iter : List Sy → List Sy) (hi : ∀ l, (iter l).Perm l) (ℓ κ a b : ℝ) (hℓ : 0 < ℓ) (hκ : 0 < κ) (hab : a ≤ b)
    (u : ℝ → ℝ → ℝ) (hu : ContDiff ℝ (⊤ : ℕ∞) (fun q : ℝ × ℝ => u q.1 q.2)) (hp : ∀ t y, u t (y + ℓ) = u t y)
    (hsol : ∀ t ∈ Set.Icc a b, ∀ y, HasDerivAt (fun r => u r y) (κ * deriv (deriv (u t)) y) t) :
    ∃ s, System.build iter diffusion = .ok s ∧ s.prognostic.length = 1 ∧
    ∃ C δ : ℝ, 0 < δ ∧ ∀ n : ℕ, 0 < n → ℓ / n ≤ δ → ∀ O : Obj (Arr 1 ℝ), O.attr "kappa".toList = (fun _ => κ) →
      ∃ F : ℝ → (Fin s.prognostic.length → Arr 1 ℝ) → Fin s.prognostic.length → Arr 1 ℝ,
        Implements s (fdArith ["x".toList] (fun _ => n) (fun _ => ℓ / n)) (fun _ => O) F ∧
        ∀ η window, 0 ≤ η → 2 * κ * η ≤ (ℓ / n) ^ 2 → Spec.Partition a b η window →
        ∀ U0 e0, 0 ≤ e0 → e0 ≤ δ → (∀ k, ∀ j < n, |U0 k (fun _ => j) - u a (j * (ℓ / n))| ≤ e0) → ∀ saved,
        ∃ fc, Integrator.forecast (Integrator.step .euler (.fn F)) window (.single U0) (.list saved) = .ok fc ∧
          ∀ τ ∈ window, τ ∈ saved → ∃ U, fc.get? τ = some (.single U) ∧
            ∀ k, ∀ j < n, |U k (fun _ => j) - u τ (j * (ℓ / n))| ≤ C * ((ℓ / n) ^ 2 + e0) := by
  obtain ⟨s0, hs0, q1, q2, q3, q4, q5, q6, q7⟩ : ∃ s0, System.build id diffusion = .ok s0 ∧ s0.prognostic = [u1] ∧
      s0.constantFunctions = [] ∧ s0.exogenous = [] ∧ s0.constants = [kappa] ∧
      s0.coordinates = [.sym .plain time, .sym .plain x] ∧ s0.spatialCoordinates = [.sym .plain x] ∧ WellNamed s0 := by
    refine ⟨_, rfl, ?_⟩; decide +kernel
  have hev : Evolution s0.coordinates diffusion := by rw [q5]; exact evolution_of (by decide +kernel)
  obtain ⟨s, h1, h2, h3, h4, h5, h6, h7, h8, -⟩ := trend_order _ s0 hs0 hev q7 q3 iter hi
  refine ⟨s, h1, by rw [h2, q1]; rfl, ?_⟩
  rw [q2] at h4; rw [q4] at h5
  refine one_dim_converges iter hi _ s h1 h7 h8 (by rw [h3, q6]) (List.perm_nil.1 h4) (List.perm_singleton.1 h5) h6
    (by rw [h2, q1]) 0 le_rfl ?_ ?_ ?_ ℓ κ a b hℓ hκ hab u hu hp ?_
  · intro φ σ
    exact ⟨trivial, ⟨_, _, rfl, by decide⟩, by decide⟩
  · intro n h ρ idx
    rw [zero_mul, mul_zero, zero_add]
    rfl
  · intro v σ p
    rw [zero_mul, neg_zero, zero_add]
    show σ _ * pdMixed (axesOf [x] [(x, 2)]) (fun p : Fin 1 → ℝ => v (p 0)) p = _
    rw [pd_xx]
  · intro t ht y
    rw [zero_mul, neg_zero, zero_add]
    exact hsol t ht y

/-- **C89** The Burgers equation `u_t = - u u_x + kappa u_xx`. -/
theorem C89_burgers (iter : List Sy → List Sy) (hi : ∀ l, (iter l).Perm l) (ℓ κ a b : ℝ) (hℓ : 0 < ℓ) (hκ : 0 < κ) (hab : a ≤ b)
    (u : ℝ → ℝ → ℝ) (hu : ContDiff ℝ (⊤ : ℕ∞) (fun q : ℝ × ℝ => u q.1 q.2)) (hp : ∀ t y, u t (y + ℓ) = u t y)
    (hsol : ∀ t ∈ Set.Icc a b, ∀ y, HasDerivAt (fun r => u r y) (-(u t y * deriv (u t) y) + κ * deriv (deriv (u t)) y) t) :
    ∃ s, System.build iter burgers = .ok s ∧ s.prognostic.length = 1 ∧
    ∃ C δ : ℝ, 0 < δ ∧ ∀ n : ℕ, 0 < n → ℓ / n ≤ δ → ∀ O : Obj (Arr 1 ℝ), O.attr "kappa".toList = (fun _ => κ) →
      ∃ F : ℝ → (Fin s.prognostic.length → Arr 1 ℝ) → Fin s.prognostic.length → Arr 1 ℝ,
        Implements s (fdArith ["x".toList] (fun _ => n) (fun _ => ℓ / n)) (fun _ => O) F ∧
        ∀ η window, 0 ≤ η → 2 * κ * η ≤ (ℓ / n) ^ 2 → Spec.Partition a b η window →
        ∀ U0 e0, 0 ≤ e0 → e0 ≤ δ → (∀ k, ∀ j < n, |U0 k (fun _ => j) - u a (j * (ℓ / n))| ≤ e0) → ∀ saved,
        ∃ fc, Integrator.forecast (Integrator.step .euler (.fn F)) window (.single U0) (.list saved) = .ok fc ∧
          ∀ τ ∈ window, τ ∈ saved → ∃ U, fc.get? τ = some (.single U) ∧
            ∀ k, ∀ j < n, |U k (fun _ => j) - u τ (j * (ℓ / n))| ≤ C * ((ℓ / n) ^ 2 + e0) := by
  obtain ⟨s0, hs0, q1, q2, q3, q4, q5, q6, q7⟩ : ∃ s0, System.build id burgers = .ok s0 ∧ s0.prognostic = [u1] ∧
      s0.constantFunctions = [] ∧ s0.exogenous = [] ∧ s0.constants = [kappa] ∧
      s0.coordinates = [.sym .plain time, .sym .plain x] ∧ s0.spatialCoordinates = [.sym .plain x] ∧ WellNamed s0 := by
    refine ⟨_, rfl, ?_⟩; decide +kernel
  have hev : Evolution s0.coordinates burgers := by rw [q5]; exact evolution_of (by decide +kernel)
  obtain ⟨s, h1, h2, h3, h4, h5, h6, h7, h8, -⟩ := trend_order _ s0 hs0 hev q7 q3 iter hi
  refine ⟨s, h1, by rw [h2, q1]; rfl, ?_⟩
  rw [q2] at h4; rw [q4] at h5
  refine one_dim_converges iter hi _ s h1 h7 h8 (by rw [h3, q6]) (List.perm_nil.1 h4) (List.perm_singleton.1 h5) h6
    (by rw [h2, q1]) 1 zero_le_one ?_ ?_ ?_ ℓ κ a b hℓ hκ hab u hu hp ?_
  · intro φ σ
    exact ⟨⟨trivial, trivial, ⟨_, _, rfl, by decide⟩, by decide⟩, trivial, ⟨_, _, rfl, by decide⟩, by decide⟩
  · intro n h ρ idx
    rw [one_mul]
    show ((-1 : ℚ) : ℝ) * _ + _ = _
    norm_num
    rfl
  · intro v σ p
    rw [one_mul]
    show ((-1 : ℚ) : ℝ) * (v (p 0) * pdMixed (axesOf [x] [(x, 1)]) (fun p : Fin 1 → ℝ => v (p 0)) p) +
      σ _ * pdMixed (axesOf [x] [(x, 2)]) (fun p : Fin 1 → ℝ => v (p 0)) p = _
    rw [pd_x, pd_xx]
    norm_num
  · intro t ht y
    rw [one_mul]
    exact hsol t ht y

/-! ## Solutions -/

/-- A decaying wave solves the diffusion equation. -/
noncomputable def heatWave (κ t y : ℝ) : ℝ := Real.exp (-(κ * t)) * Real.sin y

theorem heatWave_solves (κ t y : ℝ) : HasDerivAt (fun r => heatWave κ r y) (κ * deriv (deriv (heatWave κ t)) y) t := by
  have e1 : deriv (heatWave κ t) = fun y => Real.exp (-(κ * t)) * Real.cos y := by
    funext y; exact ((Real.hasDerivAt_sin y).const_mul _).deriv
  have e2 : deriv (deriv (heatWave κ t)) y = Real.exp (-(κ * t)) * -Real.sin y := by
    rw [e1]; exact ((Real.hasDerivAt_cos y).const_mul _).deriv
  rw [e2]
  have h1 : HasDerivAt (fun r : ℝ => -(κ * r)) (-(κ * 1)) t := ((hasDerivAt_id t).const_mul κ).neg
  refine (h1.exp.mul_const (Real.sin y)).congr_deriv ?_
  ring

/-- The hypotheses of `C89_diffusion` are met by the wave, which is not constant in time. -/
example (κ : ℝ) : ContDiff ℝ (⊤ : ℕ∞) (fun q : ℝ × ℝ => heatWave κ q.1 q.2) ∧ (∀ t y, heatWave κ t (y + 2 * Real.pi) = heatWave κ t y) ∧
    (∀ t ∈ Set.Icc (0 : ℝ) 1, ∀ y, HasDerivAt (fun r => heatWave κ r y) (κ * deriv (deriv (heatWave κ t)) y) t) ∧
    (κ ≠ 0 → heatWave κ 1 (Real.pi / 2) ≠ heatWave κ 0 (Real.pi / 2)) := by
  refine ⟨?_, fun t y => ?_, fun t _ y => heatWave_solves κ t y, fun h => ?_⟩
  · exact (Real.contDiff_exp.comp (contDiff_const.mul contDiff_fst).neg).mul (Real.contDiff_sin.comp contDiff_snd)
  · simp [heatWave, Real.sin_add_two_pi]
  · simp [heatWave, h]

/-- The amplitude `exp (-t)`, cut off before the time `-1`. -/
noncomputable def amplitude (t : ℝ) : ℝ := Real.smoothTransition (t + 2) * Real.exp (-t)

theorem amplitude_smooth : ContDiff ℝ (⊤ : ℕ∞) amplitude :=
  (Real.smoothTransition.contDiff.comp (contDiff_id.add contDiff_const)).mul (Real.contDiff_exp.comp contDiff_neg)

theorem amplitude_nonneg (t : ℝ) : 0 ≤ amplitude t := mul_nonneg (Real.smoothTransition.nonneg _) (Real.exp_pos _).le

theorem amplitude_lt (t : ℝ) : amplitude t < 8 := by
  unfold amplitude
  rcases le_or_gt (t + 2) 0 with h | h
  · rw [Real.smoothTransition.zero_of_nonpos h]; norm_num
  · have h1 : Real.exp (-t) ≤ Real.exp 1 * Real.exp 1 := by
      rw [← Real.exp_add]; exact Real.exp_le_exp.2 (by linarith)
    have h2 := Real.exp_one_lt_d9
    have h3 := Real.exp_pos 1
    have h4 := Real.smoothTransition.le_one (t + 2)
    have h5 := Real.exp_pos (-t)
    have h6 : Real.exp 1 * Real.exp 1 < 8 := by nlinarith
    nlinarith

theorem amplitude_pos {t : ℝ} (ht : 0 ≤ t) : amplitude t = Real.exp (-t) := by
  rw [amplitude, Real.smoothTransition.one_of_one_le (by linarith), one_mul]

theorem amplitude_deriv {t : ℝ} (ht : 0 ≤ t) : HasDerivAt amplitude (-amplitude t) t := by
  have h1 : HasDerivAt (fun r : ℝ => Real.exp (-r)) (-amplitude t) t := by
    have h := (hasDerivAt_neg t).exp
    rw [amplitude_pos ht]
    convert h using 1
    ring
  refine h1.congr_of_eventuallyEq ?_
  filter_upwards [lt_mem_nhds (show (-1 : ℝ) < t by linarith)] with r hr
  rw [amplitude, Real.smoothTransition.one_of_one_le (by linarith), one_mul]

theorem wave_pos (t y : ℝ) : 0 < 8 + amplitude t * Real.cos y := by
  have h1 := amplitude_nonneg t
  have h2 := amplitude_lt t
  have h3 := Real.neg_one_le_cos y
  nlinarith

/-- The solution of the Burgers equation with `kappa = 1` given by the Cole–Hopf transformation of `8 + exp (-t) cos x`. -/
noncomputable def shock (t y : ℝ) : ℝ := 2 * amplitude t * Real.sin y / (8 + amplitude t * Real.cos y)

theorem shock_deriv (t : ℝ) : deriv (shock t) =
    fun y => (16 * amplitude t * Real.cos y + 2 * amplitude t ^ 2) / (8 + amplitude t * Real.cos y) ^ 2 := by
  funext y
  have h0 := (wave_pos t y).ne'
  have h := (((Real.hasDerivAt_sin y).const_mul (2 * amplitude t)).div (((Real.hasDerivAt_cos y).const_mul (amplitude t)).const_add 8) h0).deriv
  refine h.trans ?_
  congr 1
  have := Real.sin_sq_add_cos_sq y
  linear_combination 2 * amplitude t ^ 2 * this

theorem shock_solves {t : ℝ} (ht : 0 ≤ t) (y : ℝ) :
    HasDerivAt (fun r => shock r y) (-(shock t y * deriv (shock t) y) + 1 * deriv (deriv (shock t)) y) t := by
  have h0 := (wave_pos t y).ne'
  have h1 := (((Real.hasDerivAt_cos y).const_mul (16 * amplitude t)).add_const (2 * amplitude t ^ 2)).div
    ((((Real.hasDerivAt_cos y).const_mul (amplitude t)).const_add 8).pow 2) (pow_ne_zero 2 h0)
  have h2 := (((amplitude_deriv ht).const_mul 2).mul_const (Real.sin y)).div
    (((amplitude_deriv ht).mul_const (Real.cos y)).const_add 8) h0
  have e2 : deriv (deriv (shock t)) y = (16 * amplitude t * -Real.sin y * (8 + amplitude t * Real.cos y) ^ 2 -
      (16 * amplitude t * Real.cos y + 2 * amplitude t ^ 2) *
        (((2 : ℕ) : ℝ) * (8 + amplitude t * Real.cos y) ^ (2 - 1) * (amplitude t * -Real.sin y))) /
      ((8 + amplitude t * Real.cos y) ^ 2) ^ 2 := by rw [shock_deriv]; exact h1.deriv
  rw [e2, shock_deriv]
  refine h2.congr_deriv ?_
  unfold shock
  field_simp
  push_cast
  ring

/-- The hypotheses of `C89_burgers` are met. -/
theorem shock_smooth : ContDiff ℝ (⊤ : ℕ∞) (fun q : ℝ × ℝ => shock q.1 q.2) := by
  have h1 : ContDiff ℝ (⊤ : ℕ∞) (fun q : ℝ × ℝ => amplitude q.1) := amplitude_smooth.comp contDiff_fst
  exact ((contDiff_const.mul h1).mul (Real.contDiff_sin.comp contDiff_snd)).div
    (contDiff_const.add (h1.mul (Real.contDiff_cos.comp contDiff_snd))) (fun q => (wave_pos q.1 q.2).ne')

theorem shock_periodic (t y : ℝ) : shock t (y + 2 * Real.pi) = shock t y := by
  simp [shock, Real.sin_add_two_pi, Real.cos_add_two_pi]

/-- The class generated from `burgers` computes this solution, with an error of order `dx²`. -/
example (iter : List Sy → List Sy) (hi : ∀ l, (iter l).Perm l) :=
  C89_burgers iter hi (2 * Real.pi) 1 0 1 Real.two_pi_pos one_pos zero_le_one shock shock_smooth shock_periodic
    (fun _ ht y => shock_solves ht.1 y)

/-- On a grid of four points, a window with steps at most one fourth satisfies the condition. -/
example : 2 * (1 : ℝ) * (1 / 4) ≤ (2 * Real.pi / (4 : ℕ)) ^ 2 ∧ Spec.Partition 0 1 (1 / 4) [0, 1 / 8, 3 / 8, 1 / 2, 3 / 4, 1] := by
  refine ⟨?_, rfl, fun i t h => ?_, fun i t t' h h' => ?_⟩
  · have := Real.two_le_pi
    push_cast
    nlinarith
  · have : i < 6 := (List.getElem?_eq_some_iff.1 h).1
    interval_cases i <;> simp at h <;> subst h <;> norm_num
  · have : i + 1 < 6 := (List.getElem?_eq_some_iff.1 h').1
    have : i < 5 := by omega
    interval_cases i <;> simp at h h' <;> subst h h' <;> norm_num

end Sympkf.Dynamics
