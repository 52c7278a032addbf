import Verif.Props.Rounding

/-!
# C113: time splitting in rounded arithmetic
-/

set_option autoImplicit false

namespace Sympkf.Integrator

open Asymptotics Filter Topology Sympkf.Order Sympkf.Spec

variable {E : Type} [NormedAddCommGroup E] [NormedSpace ℝ E]

/-- The entry `'scheme'` of a fraction step, in rounded arithmetic. -/
noncomputable def schemeR (rd : Rounding ℝ E) : Scheme → Option ((ℝ → E → E) → ℝ → E → ℝ → E)
  | .euler => some (eulerR rd)
  | .rk2 => some (rk2R rd)
  | .rk4 => some (rk4R rd)
  | _ => none

/-- The list of fraction steps with the trends `fs` and the schemes `ss`, in rounded arithmetic. -/
noncomputable def fractionsR (rd : Rounding ℝ E) (ss : List Scheme) (fs : List (ℝ → E → E)) : List (FractionStep ℝ E) :=
  List.zipWith (fun s f => ⟨none, some f, schemeR rd s⟩) ss fs

omit [NormedSpace ℝ E] in
theorem accurate_mono {rd : Rounding ℝ E} {ε R R' : ℝ} (h : Accurate rd ε R') (hR : R ≤ R') : Accurate rd ε R :=
  ⟨fun x hx => h.num x (hx.trans hR), fun v hv => h.arr v (hv.trans hR)⟩

/-- One fraction step. -/
theorem fraction_constants {s : Scheme} {p : ℕ} (hs : Nominal s p) {f : ℝ → E → E} {y : ℝ → E} {a b r : ℝ} (hr : 0 < r)
    (hy : ContinuousOn y (Set.Icc a b)) (hf : ∀ t ∈ Set.Icc a b, ContDiffAt ℝ 2 (joint f) (t, y t)) :
    ∃ (G : Rounding ℝ E → (ℝ → E → E) → ℝ → E → ℝ → E) (inc : ℝ × E × ℝ → E), (∀ rd, schemeR rd s = some (G rd)) ∧
      (∀ t u, inc (t, u, 0) = f t u) ∧ (∀ t ∈ Set.Icc a b, ContDiffAt ℝ 2 inc (t, y t, 0)) ∧
      ∃ D ρ R : ℝ, 0 ≤ D ∧ 0 < ρ ∧ ∀ rd f' ε κ, 0 ≤ ε → 0 ≤ κ → Accurate rd ε R → TrendNear f' f y a b r κ →
        ∀ t ∈ Set.Icc a b, ∀ u h, ε + κ + |h| + ‖u - y t‖ < ρ →
          ‖G rd f' t u (rd.num h) - (u + h • inc (t, u, h))‖ ≤ D * (ε + |h| * κ) := by
  have hf1 : ∀ t ∈ Set.Icc a b, ContDiffAt ℝ 1 (joint f) (t, y t) := fun t ht => (hf t ht).of_le (by norm_num)
  have hf2 : ∀ t ∈ Set.Icc a b, ContDiffAt ℝ (2 : ℕ) (joint f) (t, y t) := fun t ht => by exact_mod_cast hf t ht
  cases hs with
  | euler =>
    exact ⟨eulerR, eulerInc f, fun _ => rfl, (euler_method f).consistent,
      fun t ht => by exact_mod_cast (euler_method f).smooth 2 _ _ (hf2 t ht),
      constants_of_scheme hr hy hf1 (g := fun t u h => u + h • eulerInc f (t, u, h))
        (gR := fun rd f' t u h => eulerR rd f' t u (rd.num h))
        (fun H => by simpa only [(euler_method f).form] using H.euler_close)⟩
  | rk2 =>
    exact ⟨rk2R, rk2Inc f, fun _ => rfl, (rk2_method f).consistent,
      fun t ht => by exact_mod_cast (rk2_method f).smooth 2 _ _ (hf2 t ht),
      constants_of_scheme hr hy hf1 (g := fun t u h => u + h • rk2Inc f (t, u, h))
        (gR := fun rd f' t u h => rk2R rd f' t u (rd.num h))
        (fun H => by simpa only [(rk2_method f).form] using H.rk2_close)⟩
  | rk4 =>
    exact ⟨rk4R, rk4Inc f, fun _ => rfl, (rk4_method f).consistent,
      fun t ht => by exact_mod_cast (rk4_method f).smooth 2 _ _ (hf2 t ht),
      constants_of_scheme hr hy hf1 (g := fun t u h => u + h • rk4Inc f (t, u, h))
        (gR := fun rd f' t u h => rk4R rd f' t u (rd.num h))
        (fun H => by simpa only [(rk4_method f).form] using H.rk4_close)⟩

/-- Increments are bounded around the trajectory. -/
theorem increment_bounded {a b : ℝ} {y : ℝ → E} (hy : ContinuousOn y (Set.Icc a b)) {inc : ℝ × E × ℝ → E}
    (hi : ∀ t ∈ Set.Icc a b, ContDiffAt ℝ 2 inc (t, y t, 0)) :
    ∃ B r : ℝ, 0 ≤ B ∧ 0 < r ∧ ∀ t ∈ Set.Icc a b, ∀ u h, ‖u - y t‖ < r → |h| < r → ‖inc (t, u, h)‖ ≤ B := by
  set K : Set (ℝ × E × ℝ) := (fun t => (t, y t, (0 : ℝ))) '' Set.Icc a b with hKd
  have hK : IsCompact K := isCompact_Icc.image_of_continuousOn
    (continuousOn_id.prodMk (hy.prodMk continuousOn_const))
  obtain ⟨B, hB0, hB⟩ := bounded_near hK (g := inc) (by
    rintro _ ⟨t, ht, rfl⟩
    exact (hi t ht).continuousAt)
  obtain ⟨r, hr, hb⟩ := uniform_near hK hB
  refine ⟨B, r, hB0, hr, fun t ht u h hu hh => hb _ ⟨t, ht, rfl⟩ (t, u, h) ?_⟩
  rw [Prod.dist_eq, Prod.dist_eq]
  simp only [dist_self, dist_eq_norm, sub_zero, Real.norm_eq_abs]
  exact max_lt hr (max_lt hu hh)

/-- The whole list. -/
theorem splitting_constants {y : ℝ → E} {a b r : ℝ} (hr : 0 < r) (hy : ContinuousOn y (Set.Icc a b)) :
    ∀ (ss : List Scheme) (fs : List (ℝ → E → E)), List.Forall₂ (fun s f => (∃ p, Nominal s p) ∧
      ∀ t ∈ Set.Icc a b, ContDiffAt ℝ 2 (joint f) (t, y t)) ss fs →
    ∃ (G : Rounding ℝ E → List (ℝ → E → E) → ℝ → E → ℝ → E) (inc : ℝ × E × ℝ → E),
      (∀ rd fs', fs'.length = ss.length → ∀ t u h, timeSplitting (fractionsR rd ss fs') t u h = .ok (G rd fs' t u h)) ∧
      (∀ t u, inc (t, u, 0) = totalTrend fs t u) ∧ (∀ t ∈ Set.Icc a b, ContDiffAt ℝ 2 inc (t, y t, 0)) ∧
      ∃ D ρ R : ℝ, 0 ≤ D ∧ 0 < ρ ∧ ∀ rd fs' ε κ, 0 ≤ ε → 0 ≤ κ → Accurate rd ε R →
        List.Forall₂ (fun f' f => TrendNear f' f y a b r κ) fs' fs →
        ∀ t ∈ Set.Icc a b, ∀ u h, ε + κ + |h| + ‖u - y t‖ < ρ →
          ‖G rd fs' t u (rd.num h) - (u + h • inc (t, u, h))‖ ≤ D * (ε + |h| * κ) := by
  intro ss fs hl
  induction hl with
  | nil =>
    refine ⟨fun _ _ _ u _ => u, fun _ => 0, fun rd fs' _ t u h => by simp [fractionsR, timeSplitting]; rfl,
      fun t u => by simp [totalTrend], fun t _ => contDiffAt_const, 0, 1, 0, le_rfl, one_pos, ?_⟩
    intro rd fs' ε κ _ _ _ _ t _ u h _
    simp
  | @cons s f ss fs hs _ ih =>
    obtain ⟨⟨p, hs⟩, hf⟩ := hs
    obtain ⟨G1, i1, a1, a2, a3, D1, ρ1, R1, hD1, hρ1, h1⟩ := fraction_constants hs hr hy hf
    obtain ⟨G2, i2, b1, b2, b3, D2, ρ2, R2, hD2, hρ2, h2⟩ := ih
    obtain ⟨B, r1, hB0, hr1, hB⟩ := increment_bounded hy a3
    obtain ⟨L, r2, hL0, hr2, hL⟩ := uniform_lipschitz hy (inc := i2) (fun t ht => (b3 t ht).of_le (by norm_num))
    refine ⟨fun rd fs' t u h => match fs' with
        | [] => u
        | f' :: fs' => G2 rd fs' t (G1 rd f' t u h) h,
      fun q => i1 q + i2 (q.1, q.2.1 + q.2.2 • i1 q, q.2.2), ?_, ?_, ?_, ?_⟩
    · intro rd fs' hlen t u h
      cases fs' with
      | nil => simp at hlen
      | cons f' fs' =>
        simp only [List.length_cons, Nat.add_right_cancel_iff] at hlen
        have := (C17_splitting t u h (fractionsR rd ss fs') [] ⟨none, some f', schemeR rd s⟩).2.1
        simp only [fractionsR, List.zipWith_cons_cons] at this ⊢
        rw [this]
        simp only [FractionStep.apply, a1, Except.bind]
        exact b1 rd fs' hlen t _ h
    · intro t u
      simp only [zero_smul, add_zero, a2, b2, totalTrend, List.map_cons, List.sum_cons]
    · intro t ht
      refine (a3 t ht).add ?_
      have hu : ContDiffAt ℝ 2 (fun q : ℝ × E × ℝ => q.2.1) (t, y t, (0 : ℝ)) := contDiffAt_fst.comp _ contDiffAt_snd
      have hh : ContDiffAt ℝ 2 (fun q : ℝ × E × ℝ => q.2.2) (t, y t, (0 : ℝ)) := contDiffAt_snd.comp _ contDiffAt_snd
      exact ContDiffAt.comp (g := i2) (f := fun q : ℝ × E × ℝ => (q.1, q.2.1 + q.2.2 • i1 q, q.2.2))
        (t, y t, (0 : ℝ)) (by simpa using b3 t ht) (contDiffAt_fst.prodMk ((hu.add (hh.smul (a3 t ht))).prodMk hh))
    · set c := min (min ρ1 ρ2) (min (min r1 r2) 1) with hc
      have hc0 : 0 < c := by positivity
      set ρ := c / (3 + D1 + B) with hρ
      have hden : 0 < 3 + D1 + B := by positivity
      have hρc : ρ * (3 + D1 + B) = c := by rw [hρ]; field_simp
      have hρ0 : 0 < ρ := by positivity
      refine ⟨D2 + (1 + L) * D1, ρ, max R1 R2, by positivity, hρ0, ?_⟩
      intro rd fs' ε κ hε hκ hacc htr t ht u h hsm
      cases htr with
      | @cons f' _ fs' _ t1 t2 =>
        have c1 : c ≤ ρ1 := (min_le_left _ _).trans (min_le_left _ _)
        have c2 : c ≤ ρ2 := (min_le_left _ _).trans (min_le_right _ _)
        have c3 : c ≤ r1 := (min_le_right _ _).trans ((min_le_left _ _).trans (min_le_left _ _))
        have c4 : c ≤ r2 := (min_le_right _ _).trans ((min_le_left _ _).trans (min_le_right _ _))
        have c5 : c ≤ 1 := (min_le_right _ _).trans (min_le_right _ _)
        have hh0 := abs_nonneg h
        have hu0 := norm_nonneg (u - y t)
        have hρle : ρ ≤ c := by nlinarith
        have hhρ : |h| ≤ ρ := by linarith
        have hloc : ε + |h| * κ ≤ ρ := by
          have : |h| * κ ≤ 1 * κ := mul_le_mul_of_nonneg_right (by linarith) hκ
          linarith
        have hloc0 : 0 ≤ ε + |h| * κ := by positivity
        have e1 := h1 rd f' ε κ hε hκ (accurate_mono hacc (le_max_left _ _)) t1 t ht u h (by linarith)
        have eB := hB t ht u h (by linarith) (by linarith)
        set x := u + h • i1 (t, u, h) with hx
        set x' := G1 rd f' t u (rd.num h) with hx'
        have n1 : ‖x - y t‖ ≤ ‖u - y t‖ + |h| * B := by
          have : x - y t = (u - y t) + h • i1 (t, u, h) := by rw [hx]; abel
          rw [this]
          refine (norm_add_le _ _).trans (add_le_add le_rfl ?_)
          rw [norm_smul, Real.norm_eq_abs]
          exact mul_le_mul_of_nonneg_left eB hh0
        have n2 : ‖x' - y t‖ ≤ D1 * (ε + |h| * κ) + (‖u - y t‖ + |h| * B) := by
          have : x' - y t = (x' - x) + (x - y t) := by abel
          rw [this]
          exact (norm_add_le _ _).trans (add_le_add e1 n1)
        have m1 : |h| * B ≤ ρ * B := mul_le_mul_of_nonneg_right hhρ hB0
        have m2 : D1 * (ε + |h| * κ) ≤ D1 * ρ := mul_le_mul_of_nonneg_left hloc hD1
        have m3 : 0 ≤ D1 * ρ := by positivity
        have e2 := h2 rd fs' ε κ hε hκ (accurate_mono hacc (le_max_right _ _)) t2 t ht x' h (by nlinarith)
        have e3 := hL t ht x' x h (by nlinarith) (by nlinarith) (by linarith)
        have e4 : ‖(x' + h • i2 (t, x', h)) - (x + h • i2 (t, x, h))‖ ≤ (1 + L) * (D1 * (ε + |h| * κ)) := by
          have : (x' + h • i2 (t, x', h)) - (x + h • i2 (t, x, h)) =
              (x' - x) + h • (i2 (t, x', h) - i2 (t, x, h)) := by rw [smul_sub]; abel
          rw [this]
          refine (norm_add_le _ _).trans ?_
          rw [norm_smul, Real.norm_eq_abs]
          have q1 : |h| * ‖i2 (t, x', h) - i2 (t, x, h)‖ ≤ 1 * (L * ‖x' - x‖) :=
            mul_le_mul (by linarith) e3 (norm_nonneg _) zero_le_one
          have q2 : L * ‖x' - x‖ ≤ L * (D1 * (ε + |h| * κ)) := mul_le_mul_of_nonneg_left e1 hL0
          linarith
        have e5 : u + h • (i1 (t, u, h) + i2 (t, u + h • i1 (t, u, h), h)) = x + h • i2 (t, x, h) := by
          rw [smul_add, ← add_assoc]
        show ‖G2 rd fs' t x' (rd.num h) - (u + h • (i1 (t, u, h) + i2 (t, u + h • i1 (t, u, h), h)))‖ ≤ _
        rw [e5]
        have e6 : G2 rd fs' t x' (rd.num h) - (x + h • i2 (t, x, h)) =
            (G2 rd fs' t x' (rd.num h) - (x' + h • i2 (t, x', h))) +
              ((x' + h • i2 (t, x', h)) - (x + h • i2 (t, x, h))) := by abel
        rw [e6]
        refine (norm_add_le _ _).trans ((add_le_add e2 e4).trans (le_of_eq ?_))
        ring

/-- **C113**, splitting. With fraction steps for the vector fields `fs`, solved with the schemes `ss` in rounded
arithmetic and with trends `fs'` that differ from `fs` by at most `κ` near the trajectory, the state saved after `i` steps
differs from the solution of `y' = Σ fⱼ(t, y)` by at most `C (η + initial error + κ + i ε)`. -/
theorem C113_splitting_rounded (ss : List Scheme) (fs : List (ℝ → E → E)) (y : ℝ → E) {a b r : ℝ} (hab : a ≤ b)
    (hr : 0 < r) (hy : ∀ t ∈ Set.Icc a b, SolvesNear (totalTrend fs) y t) (hs : ∀ s ∈ ss, ∃ p, Nominal s p)
    (hlen : ss.length = fs.length) (hf : ∀ f ∈ fs, ∀ t ∈ Set.Icc a b, ContDiffAt ℝ 2 (joint f) (t, y t)) :
    ∃ R C δ : ℝ, 0 < δ ∧ ∀ (rd : Rounding ℝ E) (fs' : List (ℝ → E → E)) ε κ, 0 ≤ ε → 0 ≤ κ → κ ≤ δ → Accurate rd ε R →
      List.Forall₂ (fun f' f => TrendNear f' f y a b r κ) fs' fs → ∀ η, 0 ≤ η → η ≤ δ →
      ∀ window, Partition a b η window → window.length * ε ≤ δ → ∀ u0, ‖u0 - y a‖ ≤ δ → ∀ saved,
      ∃ fc, forecast (stepR rd .splitting (.steps (fractionsR rd ss fs'))) window (.single u0) (.list saved) = .ok fc ∧
        ∀ (i : ℕ) τ, LastAt window τ i → τ ∈ saved →
          ∃ x, fc.get? τ = some (.single x) ∧ ‖x - y τ‖ ≤ C * (η + ‖u0 - y a‖ + κ + i * ε) := by
  have hF : ∀ t ∈ Set.Icc a b, ContDiffAt ℝ (2 : ℕ) (joint (totalTrend fs)) (t, y t) := fun t ht => by
    exact_mod_cast totalTrend_smooth fs _ (fun f hf' => hf f hf' t ht)
  have hyc : ∀ t ∈ Set.Icc a b, ContDiffAt ℝ (1 + 1 : ℕ) y t := fun t ht =>
    ((hy t ht).contDiffAt (hF t ht)).of_le (by norm_num)
  have hyc' : ContinuousOn y (Set.Icc a b) := fun t ht => (hyc t ht).continuousAt.continuousWithinAt
  have hl : List.Forall₂ (fun s f => (∃ p, Nominal s p) ∧ ∀ t ∈ Set.Icc a b, ContDiffAt ℝ 2 (joint f) (t, y t)) ss fs := by
    refine List.forall₂_iff_get.2 ⟨hlen, fun i h1 h2 => ⟨hs _ (List.get_mem _ _), hf _ (List.get_mem _ _)⟩⟩
  obtain ⟨G, inc, g1, g2, g3, hrnd⟩ := splitting_constants hr hyc' ss fs hl
  obtain ⟨R, C, δ, _, hδ, h⟩ := rounded_convergence hab le_rfl (g := fun t u h => u + h • inc (t, u, h))
    (gR := fun rd fs' t u h => G rd fs' t u (rd.num h))
    (near := fun fs' κ => List.Forall₂ (fun f' f => TrendNear f' f y a b r κ) fs' fs)
    (fun _ _ _ => rfl) hyc (fun t ht => by exact_mod_cast g3 t ht)
    (fun t ht => increment_order_one (hy t ht) (hF t ht) g2 (g3 t ht)) hrnd
  refine ⟨R, C, δ, hδ, fun rd fs' ε κ hε hκ hκδ hacc htr η h0 h1 window hw hN u0 hu saved => ?_⟩
  have hl' : fs'.length = ss.length := by rw [hlen]; exact htr.length_eq
  have hstep : ∀ t (u : E) dt, stepR rd .splitting (.steps (fractionsR rd ss fs')) t (.single u) dt =
      .ok (.single (G rd fs' t u (rd.num dt))) := by
    intro t u dt
    simp only [stepR, g1 rd fs' hl', Except.map]
  obtain ⟨fc, xs, hfc, hxs, hval⟩ := single_forecast (g := fun t u dt => G rd fs' t u (rd.num dt)) hstep window
    (partition_ne_nil hw) u0 saved
  refine ⟨fc, hfc, fun i τ hi hτ => ?_⟩
  obtain ⟨x, hx⟩ := exists_getElem? xs i (by rw [hxs.length_eq]; exact lt_of_getElem? hi.1)
  refine ⟨x, (hval τ x).2 ⟨hτ, i, hi.1, hx, hi.2⟩, ?_⟩
  simpa using h rd fs' ε κ hε hκ hκδ hacc htr η h0 h1 window hw hN u0 xs hxs hu i τ x hi.1 hx

/-- The solution `(1 - t)⁻¹` of `y' = y²`, split into twice `y²/2`, with `rk2` then `euler`, in fixed-point arithmetic with
quantum `q`. -/
example : ∃ C δ : ℝ, 0 < δ ∧ ∀ q, 0 < q → ∀ η, 0 ≤ η → η ≤ δ → ∀ window, Partition 0 (1 / 2) η window →
    window.length * q ≤ δ → ∀ saved,
    ∃ fc, forecast (stepR ⟨fixedPoint q, fixedPoint q⟩ .splitting (.steps (fractionsR ⟨fixedPoint q, fixedPoint q⟩
        [.rk2, .euler] [fun _ u => fixedPoint q (u ^ 2 / 2), fun _ u => fixedPoint q (u ^ 2 / 2)]))) window
        (.single (1 : ℝ)) (.list saved) = .ok fc ∧
      ∀ (i : ℕ) τ, LastAt window τ i → τ ∈ saved →
        ∃ x, fc.get? τ = some (.single x) ∧ ‖x - (1 - τ)⁻¹‖ ≤ C * (η + q + i * q) := by
  have hT : totalTrend [fun _ (u : ℝ) => u ^ 2 / 2, fun _ (u : ℝ) => u ^ 2 / 2] = fun (_ : ℝ) (u : ℝ) => u ^ 2 := by
    funext t u; simp [totalTrend]
  obtain ⟨R, C, δ, hδ, h⟩ := C113_splitting_rounded [.rk2, .euler]
    [fun _ (u : ℝ) => u ^ 2 / 2, fun _ (u : ℝ) => u ^ 2 / 2] (fun s => (1 - s)⁻¹) (a := 0)
    (b := 1 / 2) (by norm_num) one_pos (fun t ht => by rw [hT]; exact blowup_solves t (by linarith [ht.2]))
    (by simp only [List.mem_cons, List.not_mem_nil, or_false]; rintro s (rfl | rfl); exacts [⟨2, .rk2⟩, ⟨1, .euler⟩]) rfl
    (by
      intro f hf t _
      have : f = fun _ u => u ^ 2 / 2 := by simpa using hf
      subst this
      exact ((contDiff_snd.pow 2).div_const 2).contDiffAt)
  refine ⟨C, δ, hδ, fun q hq η h0 h1 window hw hN saved => ?_⟩
  have hqδ : q ≤ δ := by
    refine le_trans ?_ hN
    have : (1 : ℝ) ≤ window.length := by exact_mod_cast lt_of_getElem? hw.start
    exact le_mul_of_one_le_left hq.le this
  obtain ⟨fc, hfc, hval⟩ := h ⟨fixedPoint q, fixedPoint q⟩
    [fun _ u => fixedPoint q (u ^ 2 / 2), fun _ u => fixedPoint q (u ^ 2 / 2)] q q hq.le hq.le hqδ
    (fixedPoint_accurate hq R)
    (.cons (fun t _ s v _ _ => fixedPoint_near hq _) (.cons (fun t _ s v _ _ => fixedPoint_near hq _) .nil))
    η h0 h1 window hw hN 1 (by simpa using hδ.le) saved
  refine ⟨fc, hfc, fun i τ hi hτ => ?_⟩
  obtain ⟨x, e1, e2⟩ := hval i τ hi hτ
  exact ⟨x, e1, by simpa using e2⟩

end Sympkf.Integrator
