import Verif.Lemmas.Order
import Mathlib.Topology.MetricSpace.Thickening
import Mathlib.Analysis.SpecialFunctions.Exp

/-!
Uniform local errors along a compact piece of a solution, and the propagation of the errors of a one-step method.
-/

set_option autoImplicit false

namespace Sympkf.Order

open Asymptotics Filter Topology

variable {E F : Type} [NormedAddCommGroup E] [NormedSpace ℝ E] [NormedAddCommGroup F] [NormedSpace ℝ F]

/-- A property that holds near each point of a compact set holds within a uniform distance of it. -/
theorem uniform_near {X : Type} [PseudoMetricSpace X] {K : Set X} (hK : IsCompact K) {P : X → Prop}
    (h : ∀ x ∈ K, ∀ᶠ q in 𝓝 x, P q) : ∃ δ : ℝ, 0 < δ ∧ ∀ x ∈ K, ∀ q, dist q x < δ → P q := by
  have h1 : {q | P q} ∈ 𝓝ˢ K := by
    have : ∀ᶠ q in 𝓝ˢ K, P q := eventually_nhdsSet_iff_forall.2 h
    exact this
  obtain ⟨δ, hδ, hs⟩ := hK.exists_thickening_subset_open isOpen_interior
    (subset_interior_iff_mem_nhdsSet.2 h1)
  refine ⟨δ, hδ, fun x hx q hq => ?_⟩
  exact interior_subset (hs (Metric.mem_thickening_iff.2 ⟨x, hx, hq⟩))

omit [NormedSpace ℝ E] in
/-- A function continuous at each point of a compact set is bounded near it. -/
theorem bounded_near {X : Type} [PseudoMetricSpace X] {K : Set X} (hK : IsCompact K) {g : X → E}
    (hg : ∀ x ∈ K, ContinuousAt g x) : ∃ M : ℝ, 0 ≤ M ∧ ∀ x ∈ K, ∀ᶠ q in 𝓝 x, ‖g q‖ ≤ M := by
  obtain ⟨M, hM⟩ := hK.exists_bound_of_continuousOn (f := g) (fun x hx => (hg x hx).continuousWithinAt)
  refine ⟨max M 0 + 1, by positivity, fun x hx => ?_⟩
  have h1 : ‖g x‖ < max M 0 + 1 := by
    have := hM x hx
    have := le_max_left M 0
    linarith
  filter_upwards [(hg x hx).norm.eventually (gt_mem_nhds h1)] with q hq
  exact hq.le

theorem O.sum {n : ℕ} {ι : Type} (s : Finset ι) (u : ι → ℝ → E) (h : ∀ i ∈ s, O n (u i)) :
    O n (fun x => ∑ i ∈ s, u i x) := by
  classical
  induction s using Finset.induction_on with
  | empty => exact (O.zero n).congr (fun x => by simp)
  | insert i s hi ih =>
    refine ((h i (by simp)).add (ih (fun j hj => h j (by simp [hj])))).congr (fun x => ?_)
    rw [Finset.sum_insert hi]

/-- The coefficients of a polynomial that is `O(h^n)` vanish below `n`. -/
theorem coeff_zero {n : ℕ} (c : ℕ → E) (h : O n (fun h => ∑ k ∈ Finset.range n, h ^ k • c k)) :
    ∀ k, k < n → c k = 0 := by
  intro k
  induction k using Nat.strong_induction_on with
  | _ k ih =>
    intro hk
    -- the sum starts at `k`
    have h0 : O (k + 1) (fun h : ℝ => h ^ k • c k) := by
      have h1 := h.mono (by omega : k + 1 ≤ n)
      have h2 : O (k + 1) (fun h : ℝ => ∑ j ∈ Finset.range n, if k < j then h ^ j • c j else 0) := by
        refine O.sum _ (fun j h => if k < j then h ^ j • c j else 0) (fun j _ => ?_)
        by_cases hj : k < j
        · simp only [hj, if_true]
          have := (O.monomial j 1 (c j)).mono (by omega : k + 1 ≤ j)
          exact this.congr (fun h => by simp)
        · simp only [hj, if_false]; exact O.zero _
      refine (h1.sub h2).congr (fun h => ?_)
      rw [← Finset.sum_sub_distrib, Finset.sum_eq_single k]
      · simp
      · intro j hj hjk
        rcases Nat.lt_or_ge j k with hlt | hge
        · rw [ih j hlt (by omega)]; simp
        · have : k < j := by omega
          simp [this]
      · intro hk'; exact absurd (Finset.mem_range.2 hk) hk'
    obtain ⟨C, hC⟩ := h0.bound
    obtain ⟨ε, hε, hb⟩ := Metric.eventually_nhds_iff.1 hC
    by_contra hne
    have hpos : 0 < ‖c k‖ := norm_pos_iff.2 hne
    set η := min (ε / 2) (‖c k‖ / (2 * (|C| + 1))) with hη
    have hη0 : 0 < η := by positivity
    have h3 := hb (y := η) (by
      rw [dist_zero_right, Real.norm_of_nonneg hη0.le]
      have := min_le_left (ε / 2) (‖c k‖ / (2 * (|C| + 1)))
      linarith)
    rw [norm_smul, norm_pow, norm_pow, Real.norm_of_nonneg hη0.le, pow_succ] at h3
    have h4 : ‖c k‖ ≤ C * η := by
      have hp : 0 < η ^ k := by positivity
      have : η ^ k * ‖c k‖ ≤ η ^ k * (C * η) := by linarith
      exact le_of_mul_le_mul_left this hp
    have h5 : η ≤ ‖c k‖ / (2 * (|C| + 1)) := min_le_right _ _
    have h6 : C * η ≤ (|C| + 1) * η := mul_le_mul_of_nonneg_right (by linarith [le_abs_self C]) hη0.le
    have h7 : (|C| + 1) * η ≤ ‖c k‖ / 2 := by
      have h8 : (0 : ℝ) < |C| + 1 := by positivity
      calc (|C| + 1) * η ≤ (|C| + 1) * (‖c k‖ / (2 * (|C| + 1))) := mul_le_mul_of_nonneg_left h5 h8.le
        _ = ‖c k‖ / 2 := by field_simp
    linarith

/-- The derivative of a function of class `C^(n+1)` that is `O(h^(n+1))` is `O(h^n)`. -/
theorem O.deriv {n : ℕ} {g : ℝ → E} (hg : ContDiffAt ℝ (n + 1 : ℕ) g 0) (h : O (n + 1) g) : O n (deriv g) := by
  have h1 := taylor_O hg
  have h2 : O (n + 1) (fun h => ∑ k ∈ Finset.range (n + 1), h ^ k • ((k.factorial : ℝ)⁻¹ • iteratedDeriv k g 0)) := by
    refine (h.sub h1).congr (fun h => ?_)
    rw [zero_add, sub_sub_cancel]
    exact Finset.sum_congr rfl (fun k _ => by rw [smul_smul, mul_comm])
  have h3 := coeff_zero _ h2
  have hz : ∀ k, k < n + 1 → iteratedDeriv k g 0 = 0 := fun k hk => by
    have := h3 k hk
    exact (smul_eq_zero.1 this).resolve_left (inv_ne_zero (by exact_mod_cast Nat.factorial_ne_zero k))
  have hd : ContDiffAt ℝ (n : ℕ) (_root_.deriv g) 0 := by
    have := hg.fderiv_right (m := (n : ℕ)) (by exact_mod_cast le_rfl)
    exact this.clm_apply contDiffAt_const
  refine (taylor_O hd).congr (fun h => ?_)
  rw [Finset.sum_eq_zero, sub_zero, zero_add]
  intro k hk
  rw [← iteratedDeriv_succ', hz (k + 1) (by have := Finset.mem_range.1 hk; omega), smul_zero]

/-- **Uniform local error.** A jointly smooth family of functions of `h`, each one `O(h^n)`, is `O(h^n)` uniformly over
a compact interval of times. -/
theorem uniform_local_error {a b : ℝ} : ∀ (n : ℕ) (G : ℝ × ℝ → E),
    (∀ t ∈ Set.Icc a b, ContDiffAt ℝ (n : ℕ) G (t, 0)) → (∀ t ∈ Set.Icc a b, O n (fun h => G (t, h))) →
    ∃ M δ : ℝ, 0 ≤ M ∧ 0 < δ ∧ ∀ t ∈ Set.Icc a b, ∀ h, |h| < δ → ‖G (t, h)‖ ≤ M * |h| ^ n := by
  have hK : IsCompact (Set.Icc a b ×ˢ ({0} : Set ℝ)) := isCompact_Icc.prod isCompact_singleton
  have hmem : ∀ t ∈ Set.Icc a b, (t, (0 : ℝ)) ∈ Set.Icc a b ×ˢ ({0} : Set ℝ) := fun t ht => ⟨ht, rfl⟩
  have hdist : ∀ t h δ : ℝ, |h| < δ → dist (t, h) (t, (0 : ℝ)) < δ := fun t h δ hh => by
    simpa [Prod.dist_eq] using hh
  intro n
  induction n with
  | zero =>
    intro G hG _
    obtain ⟨M, hM0, hM⟩ := bounded_near hK (g := G) (by
      rintro ⟨t, z⟩ ⟨ht, hz⟩
      obtain rfl : z = 0 := hz
      exact (hG t ht).continuousAt)
    obtain ⟨δ, hδ, hb⟩ := uniform_near hK hM
    exact ⟨M, δ, hM0, hδ, fun t ht h hh => by simpa using hb _ (hmem t ht) _ (hdist t h δ hh)⟩
  | succ n ih =>
    intro G hG hO
    set G' : ℝ × ℝ → E := fun q => fderiv ℝ G q (0, 1) with hG'
    have hdiff : ∀ x ∈ Set.Icc a b ×ˢ ({0} : Set ℝ), ∀ᶠ q in 𝓝 x, DifferentiableAt ℝ G q := by
      rintro ⟨t, z⟩ ⟨ht, hz⟩
      obtain rfl : z = 0 := hz
      filter_upwards [(hG t ht).eventually (by simp)] with q hq
      exact hq.differentiableAt (by simp)
    obtain ⟨δ₁, hδ₁, hd⟩ := uniform_near hK hdiff
    have hder : ∀ t ∈ Set.Icc a b, ∀ h, |h| < δ₁ → HasDerivAt (fun h => G (t, h)) (G' (t, h)) h := by
      intro t ht h hh
      have h1 := (hd _ (hmem t ht) _ (hdist t h δ₁ hh)).hasFDerivAt
      have h2 : HasDerivAt (fun h : ℝ => (t, h)) ((0 : ℝ), (1 : ℝ)) h := (hasDerivAt_const h t).prodMk (hasDerivAt_id h)
      exact h1.comp_hasDerivAt h h2
    obtain ⟨M, δ₂, hM0, hδ₂, hb⟩ := ih G'
      (fun t ht => by
        have := (hG t ht).fderiv_right (m := (n : ℕ)) (by exact_mod_cast le_rfl)
        exact this.clm_apply contDiffAt_const)
      (fun t ht => by
        have h1 : ContDiffAt ℝ (n + 1 : ℕ) (fun h : ℝ => G (t, h)) 0 :=
          ContDiffAt.comp (g := G) (f := fun h : ℝ => (t, h)) 0 (hG t ht) (contDiffAt_const.prodMk contDiffAt_id)
        have h2 := O.deriv h1 (hO t ht)
        refine h2.congr' ?_ (EventuallyEq.refl _ _)
        have : ∀ᶠ h : ℝ in 𝓝 0, |h| < δ₁ := by
          have := (continuous_abs.tendsto (0 : ℝ)).eventually (gt_mem_nhds (by simpa using hδ₁))
          exact this
        filter_upwards [this] with h hh
        exact (hder t ht h hh).deriv)
    refine ⟨M, min δ₁ δ₂, hM0, lt_min hδ₁ hδ₂, fun t ht h hh => ?_⟩
    have h0 : G (t, 0) = 0 := by
      have h1 := (hO t ht).tendsto_zero (Nat.succ_pos n)
      have h2 := (hder t ht 0 (by simpa using hδ₁)).continuousAt.tendsto
      exact tendsto_nhds_unique h2 h1
    have hseg : ∀ x ∈ Metric.closedBall (0 : ℝ) |h|, |x| ≤ |h| := fun x hx => by
      simpa [Metric.mem_closedBall, dist_zero_right] using hx
    have hmv := (convex_closedBall (0 : ℝ) |h|).norm_image_sub_le_of_norm_hasDerivWithin_le
      (f := fun h => G (t, h)) (f' := fun h => G' (t, h)) (C := M * |h| ^ n)
      (fun x hx => (hder t ht x (lt_of_le_of_lt (hseg x hx) (lt_of_lt_of_le hh (min_le_left _ _)))).hasDerivWithinAt)
      (fun x hx => by
        have h1 := hb t ht x (lt_of_le_of_lt (hseg x hx) (lt_of_lt_of_le hh (min_le_right _ _)))
        exact h1.trans (mul_le_mul_of_nonneg_left (pow_le_pow_left₀ (abs_nonneg x) (hseg x hx) n) hM0))
      (x := 0) (y := h) (by simp) (by simp [Metric.mem_closedBall, dist_zero_right])
    rw [h0, sub_zero, sub_zero, Real.norm_eq_abs] at hmv
    rw [pow_succ, ← mul_assoc]
    exact hmv

/-- **Uniform Lipschitz bound** of a smooth increment in a tube around a continuous curve. -/
theorem uniform_lipschitz {a b : ℝ} {y : ℝ → E} (hy : ContinuousOn y (Set.Icc a b)) {inc : ℝ × E × ℝ → F}
    (hi : ∀ t ∈ Set.Icc a b, ContDiffAt ℝ 1 inc (t, y t, 0)) :
    ∃ L r : ℝ, 0 ≤ L ∧ 0 < r ∧ ∀ t ∈ Set.Icc a b, ∀ u v h, ‖u - y t‖ < r → ‖v - y t‖ < r → |h| < r →
      ‖inc (t, u, h) - inc (t, v, h)‖ ≤ L * ‖u - v‖ := by
  set K : Set (ℝ × E × ℝ) := (fun t => (t, y t, (0 : ℝ))) '' Set.Icc a b with hKd
  have hK : IsCompact K := isCompact_Icc.image_of_continuousOn
    (continuousOn_id.prodMk (hy.prodMk continuousOn_const))
  obtain ⟨L, hL0, hL⟩ := bounded_near hK (g := fderiv ℝ inc) (by
    rintro _ ⟨t, ht, rfl⟩
    exact ((hi t ht).fderiv_right (m := 0) (by norm_num)).continuousAt)
  have hdiff : ∀ x ∈ K, ∀ᶠ q in 𝓝 x, ‖fderiv ℝ inc q‖ ≤ L ∧ DifferentiableAt ℝ inc q := by
    rintro _ ⟨t, ht, rfl⟩
    filter_upwards [(hi t ht).eventually (by simp), hL _ ⟨t, ht, rfl⟩] with q hq hq'
    exact ⟨hq', hq.differentiableAt (by simp)⟩
  obtain ⟨r, hr, hb⟩ := uniform_near hK hdiff
  refine ⟨L, r, hL0, hr, fun t ht u v h hu hv hh => ?_⟩
  have hin : ∀ w, ‖w - y t‖ < r → (t, w, h) ∈ Metric.ball (t, y t, (0 : ℝ)) r := fun w hw => by
    rw [Metric.mem_ball, Prod.dist_eq, Prod.dist_eq]
    simp only [dist_self, dist_zero_right, Real.norm_eq_abs]
    rw [dist_eq_norm]
    exact max_lt hr (max_lt hw hh)
  have hmv := (convex_ball (t, y t, (0 : ℝ)) r).norm_image_sub_le_of_norm_fderiv_le (f := inc) (C := L)
    (fun x hx => (hb _ ⟨t, ht, rfl⟩ x hx).2) (fun x hx => (hb _ ⟨t, ht, rfl⟩ x hx).1) (hin v hv) (hin u hu)
  refine hmv.trans (le_of_eq ?_)
  have : (t, u, h) - (t, v, h) = ((0 : ℝ), u - v, (0 : ℝ)) := by simp
  rw [this, Prod.norm_def, Prod.norm_def]
  simp

/-- **Propagation of errors.** Errors that grow at most by the factor `1 + hL` and by a local error `M h^(p+1)` at each
step, as long as they stay below `r`, stay within `C (η^p + initial error)` over the interval `[a, b]`, for steps at
most `η` and `η`, initial error at most `δ`. -/
theorem error_propagation {L M r a b : ℝ} (hL : 0 ≤ L) (hM : 0 ≤ M) (hr : 0 < r) (hab : a ≤ b) {p : ℕ} (hp : 1 ≤ p) :
    ∃ C δ : ℝ, 0 ≤ C ∧ 0 < δ ∧ ∀ (η : ℝ), η ≤ δ → ∀ (n : ℕ) (e t : ℕ → ℝ), t 0 = a → (∀ i, i ≤ n → t i ≤ b) →
      (∀ i, i < n → t i ≤ t (i + 1) ∧ t (i + 1) - t i ≤ η) → 0 ≤ η → (∀ i, 0 ≤ e i) → e 0 ≤ δ →
      (∀ i, i < n → e i < r →
        e (i + 1) ≤ (1 + (t (i + 1) - t i) * L) * e i + M * (t (i + 1) - t i) ^ (p + 1)) →
      ∀ i, i ≤ n → e i < r ∧ e i ≤ C * (η ^ p + e 0) := by
  set A := Real.exp (L * (b - a)) with hA
  have hA0 : 0 < A := Real.exp_pos _
  have hba : 0 ≤ b - a := by linarith
  set C := A * (1 + M * (b - a)) with hC
  have hMb : 0 ≤ M * (b - a) := by positivity
  have hC0 : 0 ≤ C := by positivity
  refine ⟨C, min 1 (r / (4 * (C + 1))), hC0, by positivity, ?_⟩
  intro η hη n e t ht0 htb hstep hη0 he he0 hrec
  have hη1 : η ≤ 1 := hη.trans (min_le_left _ _)
  have hη2 : η ≤ r / (4 * (C + 1)) := hη.trans (min_le_right _ _)
  have he2 : e 0 ≤ r / (4 * (C + 1)) := he0.trans (min_le_right _ _)
  have hpow : η ^ p ≤ η := by
    calc η ^ p ≤ η ^ 1 := pow_le_pow_of_le_one hη0 hη1 hp
      _ = η := pow_one η
  have hsmall : C * (η ^ p + e 0) < r := by
    have h1 : η ^ p + e 0 ≤ r / (2 * (C + 1)) := by
      have : r / (2 * (C + 1)) = r / (4 * (C + 1)) + r / (4 * (C + 1)) := by field_simp; ring
      linarith
    have h2 : C * (η ^ p + e 0) ≤ C * (r / (2 * (C + 1))) := mul_le_mul_of_nonneg_left h1 hC0
    have h3 : C * (r / (2 * (C + 1))) = (r / 2) * (C / (C + 1)) := by field_simp
    have h4 : C / (C + 1) ≤ 1 := by rw [div_le_one (by linarith)]; linarith
    have h5 : (r / 2) * (C / (C + 1)) ≤ (r / 2) * 1 := mul_le_mul_of_nonneg_left h4 (by linarith)
    linarith
  have hta : ∀ i, i ≤ n → a ≤ t i := by
    intro i
    induction i with
    | zero => intro _; rw [ht0]
    | succ i ih => intro hi; linarith [ih (by omega), (hstep i (by omega)).1]
  -- the bound implies the two conclusions
  have hfin : ∀ i, i ≤ n → e i ≤ Real.exp (L * (t i - a)) * (e 0 + M * η ^ p * (t i - a)) →
      e i < r ∧ e i ≤ C * (η ^ p + e 0) := by
    intro i hi hb
    have h1 : Real.exp (L * (t i - a)) ≤ A :=
      Real.exp_le_exp.2 (mul_le_mul_of_nonneg_left (by linarith [htb i hi]) hL)
    have hηp : 0 ≤ η ^ p := by positivity
    have h2 : e 0 + M * η ^ p * (t i - a) ≤ (1 + M * (b - a)) * (η ^ p + e 0) := by
      have h3 : M * η ^ p * (t i - a) ≤ M * η ^ p * (b - a) :=
        mul_le_mul_of_nonneg_left (by linarith [htb i hi]) (by positivity)
      have h4 : 0 ≤ M * (b - a) * e 0 := mul_nonneg hMb (he 0)
      nlinarith
    have h5 : 0 ≤ e 0 + M * η ^ p * (t i - a) :=
      add_nonneg (he 0) (mul_nonneg (by positivity) (by linarith [hta i hi]))
    have h6 : e i ≤ C * (η ^ p + e 0) := by
      refine hb.trans ((mul_le_mul h1 h2 h5 hA0.le).trans (le_of_eq ?_))
      rw [hC]; ring
    exact ⟨lt_of_le_of_lt h6 hsmall, h6⟩
  have key : ∀ i, i ≤ n → e i ≤ Real.exp (L * (t i - a)) * (e 0 + M * η ^ p * (t i - a)) := by
    intro i
    induction i with
    | zero => intro _; rw [ht0]; simp
    | succ i ih =>
      intro hi
      have hb := ih (by omega)
      have hlt := (hfin i (by omega) hb).1
      obtain ⟨hs0, hs1⟩ := hstep i (by omega)
      set h := t (i + 1) - t i with hh
      have hh0 : 0 ≤ h := by linarith
      have h1 := hrec i (by omega) hlt
      have h2 : 1 + h * L ≤ Real.exp (L * h) := by
        have := Real.add_one_le_exp (L * h); linarith [mul_comm L h]
      have h3 : M * h ^ (p + 1) ≤ M * η ^ p * h := by
        rw [pow_succ, ← mul_assoc]
        exact mul_le_mul_of_nonneg_right (mul_le_mul_of_nonneg_left (pow_le_pow_left₀ hh0 hs1 p) hM) hh0
      have h4 : Real.exp (L * (t (i + 1) - a)) = Real.exp (L * h) * Real.exp (L * (t i - a)) := by
        rw [← Real.exp_add]; congr 1; rw [hh]; ring
      have h5 : 1 ≤ Real.exp (L * (t (i + 1) - a)) := Real.one_le_exp (mul_nonneg hL (by linarith [hta (i + 1) hi]))
      have h6 : (1 + h * L) * e i ≤ Real.exp (L * h) * (Real.exp (L * (t i - a)) * (e 0 + M * η ^ p * (t i - a))) :=
        mul_le_mul h2 hb (he i) (Real.exp_pos _).le
      have h7 : M * η ^ p * h ≤ Real.exp (L * (t (i + 1) - a)) * (M * η ^ p * h) :=
        le_mul_of_one_le_left (by positivity) h5
      have h8 : Real.exp (L * (t (i + 1) - a)) * (e 0 + M * η ^ p * (t (i + 1) - a)) =
          Real.exp (L * h) * (Real.exp (L * (t i - a)) * (e 0 + M * η ^ p * (t i - a))) +
            Real.exp (L * (t (i + 1) - a)) * (M * η ^ p * h) := by
        rw [h4, hh]; ring
      rw [h8]
      linarith
  exact fun i hi => hfin i hi (key i hi)

end Sympkf.Order
