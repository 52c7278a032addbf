import Mathlib.Analysis.Calculus.ContDiff.RCLike
import Mathlib.Analysis.SpecialFunctions.Pow.Deriv
import Mathlib.Analysis.SpecialFunctions.Pow.Continuity
import Verif.Spec.Consistency
import Verif.Lemmas.FDBuilder
import Verif.Props.FiniteDiffOrder

/-!
# Lemmas: consistency of the arrays of a finite-difference model
-/

set_option autoImplicit false

namespace Sympkf.Spec.PDE

open Text Sympkf.PDE FinDiff

variable {d : ℕ}

theorem Periodic.int {ℓ : Fin d → ℝ} {f : (Fin d → ℝ) → ℝ} (hf : Periodic ℓ f) (i : Fin d) (m : ℤ) (p : Fin d → ℝ) :
    f (p + Pi.single i ((m : ℝ) * ℓ i)) = f p := by
  induction m using Int.induction_on with
  | zero => simp
  | succ m ih =>
    rw [← ih, ← hf i (p + (Pi.single i (((m : ℤ) : ℝ) * ℓ i) : Fin d → ℝ))]
    congr 1
    rw [add_assoc, ← Pi.single_add]
    push_cast
    rw [add_mul, one_mul]
  | pred m ih =>
    rw [← ih, ← hf i (p + (Pi.single i (((-(m : ℤ) - 1 : ℤ) : ℝ) * ℓ i) : Fin d → ℝ))]
    congr 1
    rw [add_assoc, ← Pi.single_add]
    congr 2
    push_cast
    ring

theorem Periodic.fdAlong {ℓ : Fin d → ℝ} {f : (Fin d → ℝ) → ℝ} (hf : Periodic ℓ f) (h : Fin d → ℝ) (i : Fin d) (o : ℕ)
    (hh : h i ≠ 0) : Periodic ℓ (FinDiff.fdAlong h i o f) := by
  intro j p
  rw [fdAlong_eq_sum h i o hh, fdAlong_eq_sum h i o hh]
  refine Finset.sum_congr rfl (fun ν _ => ?_)
  rw [add_right_comm, hf j]

/-- The discrete derivative of the samples of a periodic function is the finite difference of the function. -/
theorem gridDeriv_sample (ℓ : Fin d → ℝ) (n : Fin d → ℕ) (hn : ∀ i, 0 < n i) (hh : ∀ i, ℓ i / n i ≠ 0) (f : (Fin d → ℝ) → ℝ)
    (hf : Periodic ℓ f) (i : Fin d) (o : ℕ) (idx : Fin d → ℕ) :
    gridDeriv n (fun i => ℓ i / n i) i o (sample ℓ n f) idx = sample ℓ n (fdAlong (fun i => ℓ i / n i) i o f) idx := by
  unfold sample
  rw [gridDeriv_eq_sum n _ i o (hh i), fdAlong_eq_sum _ i o (hh i)]
  refine Finset.sum_congr rfl (fun ν _ => ?_)
  rw [smul_eq_mul]
  congr 1
  set k := off o ν
  have hnp : (0 : ℤ) < n i := by exact_mod_cast hn i
  have hn0 : (n i : ℝ) ≠ 0 := by exact_mod_cast (hn i).ne'
  -- `(j + k) % n = j + k - n * ((j + k) / n)`
  rw [← hf.int i (((idx i : ℤ) + k) / (n i : ℤ))]
  congr 1
  funext j
  by_cases hj : j = i
  · subst hj
    have h1 : ((gridIndex (n j) k (idx j) : ℕ) : ℝ) = (idx j : ℝ) + k - (n j : ℝ) * ((((idx j : ℤ) + k) / (n j : ℤ) : ℤ) : ℝ) := by
      have h2 : ((gridIndex (n j) k (idx j) : ℕ) : ℤ) = (idx j : ℤ) + k - (n j : ℤ) * (((idx j : ℤ) + k) / (n j : ℤ)) := by
        unfold gridIndex
        rw [Int.toNat_of_nonneg (Int.emod_nonneg _ hnp.ne'), Int.emod_def]
      have := congrArg (fun z : ℤ => (z : ℝ)) h2
      push_cast at this ⊢
      exact this
    simp only [point, sh, Function.update_self, Pi.add_apply, Pi.single_eq_same, h1]
    field_simp
    ring
  · simp [point, sh, Function.update_of_ne hj, Pi.single_eq_of_ne hj]

theorem gridMixed_sample (ℓ : Fin d → ℝ) (n : Fin d → ℕ) (hn : ∀ i, 0 < n i) (hh : ∀ i, ℓ i / n i ≠ 0) (f : (Fin d → ℝ) → ℝ)
    (hf : Periodic ℓ f) (L : List (Fin d × ℕ)) (idx : Fin d → ℕ) (hidx : idx ∈ box n) :
    gridMixed n (fun i => ℓ i / n i) L (sample ℓ n f) idx = fdMixed (fun i => ℓ i / n i) L f (point ℓ n idx) := by
  induction L generalizing f with
  | nil => rfl
  | cons p L ih =>
    obtain ⟨i, o⟩ := p
    show gridMixed n _ L (gridDeriv n _ i o _) idx = fdMixed _ L (fdAlong _ i o f) _
    rw [← ih _ (hf.fdAlong _ i o (hh i))]
    exact gridMixed_congr n _ hh L _ _ (fun j _ => gridDeriv_sample ℓ n hn hh f hf i o j) idx hidx

/-! ## Families of arrays close to a function -/

/-- For fine grids the arrays differ from the values of `f` by at most a constant times the sum of the squares of the steps. -/
def Close (ℓ : Fin d → ℝ) (F : (Fin d → ℕ) → Arr d ℝ) (f : (Fin d → ℝ) → ℝ) : Prop :=
  ∃ C δ : ℝ, 0 ≤ C ∧ 0 < δ ∧ ∀ n : Fin d → ℕ, (∀ i, 0 < n i) → (∀ i, ℓ i / n i ≤ δ) → ∀ idx, (∀ i, idx i < n i) →
    |F n idx - f (point ℓ n idx)| ≤ C * ∑ i, (ℓ i / n i) ^ 2

variable {ℓ : Fin d → ℝ} (hℓ : ∀ i, 0 < ℓ i)

include hℓ

theorem norm_point_le (n : Fin d → ℕ) (hn : ∀ i, 0 < n i) (idx : Fin d → ℕ) (hidx : ∀ i, idx i < n i) :
    ‖point ℓ n idx‖ ≤ ‖ℓ‖ := by
  refine (pi_norm_le_iff_of_nonneg (norm_nonneg _)).2 (fun i => ?_)
  have h0 : (0 : ℝ) < n i := by exact_mod_cast hn i
  have h1 : (idx i : ℝ) ≤ n i := by exact_mod_cast (hidx i).le
  have h2 : point ℓ n idx i ≤ ℓ i := by
    show (idx i : ℝ) * (ℓ i / n i) ≤ ℓ i
    rw [mul_div_assoc', div_le_iff₀ h0, mul_comm]
    exact mul_le_mul_of_nonneg_left h1 (hℓ i).le
  have h3 : 0 ≤ point ℓ n idx i := mul_nonneg (by positivity) (div_nonneg (hℓ i).le h0.le)
  rw [Real.norm_eq_abs, abs_of_nonneg h3]
  refine h2.trans ?_
  have := norm_le_pi_norm ℓ i
  rw [Real.norm_eq_abs, abs_of_pos (hℓ i)] at this
  exact this

theorem sum_sq_le (n : Fin d → ℕ) (hn : ∀ i, 0 < n i) (δ : ℝ) (hδ : ∀ i, ℓ i / n i ≤ δ) :
    ∑ i, (ℓ i / n i) ^ 2 ≤ d * δ ^ 2 := by
  have : ∑ i : Fin d, (ℓ i / n i) ^ 2 ≤ ∑ _i : Fin d, δ ^ 2 := by
    refine Finset.sum_le_sum (fun i _ => ?_)
    have h0 : (0 : ℝ) < n i := by exact_mod_cast hn i
    have : 0 ≤ ℓ i / n i := div_nonneg (hℓ i).le h0.le
    exact pow_le_pow_left₀ this (hδ i) 2
  simpa using this

omit hℓ in
theorem Close.sample (f : (Fin d → ℝ) → ℝ) : Close ℓ (fun n => Spec.PDE.sample ℓ n f) f :=
  ⟨0, 1, le_rfl, one_pos, fun n _ _ idx _ => by simp [Spec.PDE.sample]⟩

omit hℓ in
theorem Close.const (c : ℝ) : Close ℓ (fun _ _ => c) (fun _ => c) :=
  ⟨0, 1, le_rfl, one_pos, fun n _ _ idx _ => by simp⟩

omit hℓ in
theorem Close.add {F G : (Fin d → ℕ) → Arr d ℝ} {f g : (Fin d → ℝ) → ℝ} (hF : Close ℓ F f) (hG : Close ℓ G g) :
    Close ℓ (fun n idx => F n idx + G n idx) (fun p => f p + g p) := by
  obtain ⟨C, δ, hC, hδ, hF⟩ := hF
  obtain ⟨C', δ', hC', hδ', hG⟩ := hG
  refine ⟨C + C', min δ δ', by positivity, lt_min hδ hδ', fun n hn hs idx hidx => ?_⟩
  have h1 := hF n hn (fun i => (hs i).trans (min_le_left _ _)) idx hidx
  have h2 := hG n hn (fun i => (hs i).trans (min_le_right _ _)) idx hidx
  calc |F n idx + G n idx - (f (point ℓ n idx) + g (point ℓ n idx))|
      = |(F n idx - f (point ℓ n idx)) + (G n idx - g (point ℓ n idx))| := by ring_nf
    _ ≤ _ := abs_add_le _ _
    _ ≤ _ := by rw [add_mul]; exact add_le_add h1 h2

theorem Close.mul {F G : (Fin d → ℕ) → Arr d ℝ} {f g : (Fin d → ℝ) → ℝ} (hF : Close ℓ F f) (hG : Close ℓ G g)
    (hf : Continuous f) (hg : Continuous g) : Close ℓ (fun n idx => F n idx * G n idx) (fun p => f p * g p) := by
  obtain ⟨C, δ, hC, hδ, hF⟩ := hF
  obtain ⟨C', δ', hC', hδ', hG⟩ := hG
  obtain ⟨M, hM, hfM⟩ := bounded_on_ball f hf ‖ℓ‖
  obtain ⟨M', hM', hgM⟩ := bounded_on_ball g hg ‖ℓ‖
  set δ₀ := min δ δ' with hδ₀
  have hδ₀p : 0 < δ₀ := lt_min hδ hδ'
  refine ⟨C * (M' + C' * (d * δ₀ ^ 2)) + M * C', δ₀, by positivity, hδ₀p, fun n hn hs idx hidx => ?_⟩
  have h1 := hF n hn (fun i => (hs i).trans (min_le_left _ _)) idx hidx
  have h2 := hG n hn (fun i => (hs i).trans (min_le_right _ _)) idx hidx
  have hp := norm_point_le hℓ n hn idx hidx
  have h3 := hfM _ hp
  have h4 := hgM _ hp
  have hS := sum_sq_le hℓ n hn δ₀ hs
  have hS0 : 0 ≤ ∑ i, (ℓ i / n i) ^ 2 := Finset.sum_nonneg (fun _ _ => sq_nonneg _)
  set S := ∑ i, (ℓ i / n i) ^ 2 with hSdef
  set a := f (point ℓ n idx)
  set b := g (point ℓ n idx)
  have hG' : |G n idx| ≤ M' + C' * (d * δ₀ ^ 2) := by
    have : |G n idx| ≤ |G n idx - b| + |b| := by
      have := abs_add_le (G n idx - b) b
      simpa using this
    have h5 : C' * S ≤ C' * (d * δ₀ ^ 2) := mul_le_mul_of_nonneg_left hS hC'
    linarith
  calc |F n idx * G n idx - a * b| = |(F n idx - a) * G n idx + a * (G n idx - b)| := by ring_nf
    _ ≤ |(F n idx - a) * G n idx| + |a * (G n idx - b)| := abs_add_le _ _
    _ = |F n idx - a| * |G n idx| + |a| * |G n idx - b| := by rw [abs_mul, abs_mul]
    _ ≤ (C * S) * (M' + C' * (d * δ₀ ^ 2)) + M * (C' * S) :=
        add_le_add (mul_le_mul h1 hG' (abs_nonneg _) (by positivity)) (mul_le_mul h3 h2 (abs_nonneg _) hM)
    _ = (C * (M' + C' * (d * δ₀ ^ 2)) + M * C') * S := by ring

/-- Composition with a function that is Lipschitz on an interval containing a neighbourhood of the values. -/
theorem Close.comp {F : (Fin d → ℕ) → Arr d ℝ} {f : (Fin d → ℝ) → ℝ} (hF : Close ℓ F f) (g : ℝ → ℝ) (lo hi η k : ℝ) (hη : 0 < η)
    (hk : 0 ≤ k) (hfr : ∀ p, ‖p‖ ≤ ‖ℓ‖ → lo + η ≤ f p ∧ f p ≤ hi - η)
    (hg : ∀ x y, lo ≤ x → x ≤ hi → lo ≤ y → y ≤ hi → |g x - g y| ≤ k * |x - y|) :
    Close ℓ (fun n idx => g (F n idx)) (fun p => g (f p)) := by
  obtain ⟨C, δ, hC, hδ, hF⟩ := hF
  set δ₀ := min δ (min 1 (η / (C * d + 1))) with hδ₀
  have hpos : 0 < C * d + 1 := by positivity
  have hδ₀p : 0 < δ₀ := lt_min hδ (lt_min one_pos (div_pos hη hpos))
  refine ⟨k * C, δ₀, by positivity, hδ₀p, fun n hn hs idx hidx => ?_⟩
  have h1 := hF n hn (fun i => (hs i).trans (min_le_left _ _)) idx hidx
  have hS := sum_sq_le hℓ n hn δ₀ hs
  have hfr := hfr _ (norm_point_le hℓ n hn idx hidx)
  set S := ∑ i, (ℓ i / n i) ^ 2 with hSdef
  have hle1 : δ₀ ≤ 1 := (min_le_right _ _).trans (min_le_left _ _)
  have hle2 : δ₀ ≤ η / (C * d + 1) := (min_le_right _ _).trans (min_le_right _ _)
  have hsmall : C * S ≤ η := by
    have h2 : C * S ≤ C * (d * δ₀ ^ 2) := mul_le_mul_of_nonneg_left hS hC
    have h3 : δ₀ ^ 2 ≤ δ₀ := by nlinarith
    have h4 : C * (d * δ₀ ^ 2) ≤ (C * d) * δ₀ := by
      rw [← mul_assoc]; exact mul_le_mul_of_nonneg_left h3 (by positivity)
    have h5 : (C * d) * δ₀ ≤ (C * d + 1) * δ₀ := by nlinarith
    have h6 : (C * d + 1) * δ₀ ≤ η := by
      rw [le_div_iff₀ hpos] at hle2; linarith
    linarith
  have habs := abs_le.1 (h1.trans hsmall)
  refine (hg _ _ (by linarith) (by linarith) (by linarith) (by linarith)).trans ?_
  rw [mul_assoc]
  exact mul_le_mul_of_nonneg_left h1 hk

omit hℓ in
theorem lipschitz_on (g g' : ℝ → ℝ) (lo hi : ℝ) (hd : ∀ x, lo ≤ x → x ≤ hi → HasDerivAt g (g' x) x)
    (hc : ContinuousOn g' (Set.Icc lo hi)) :
    ∃ k, 0 ≤ k ∧ ∀ x y, lo ≤ x → x ≤ hi → lo ≤ y → y ≤ hi → |g x - g y| ≤ k * |x - y| := by
  obtain ⟨k, hk⟩ := isCompact_Icc.exists_bound_of_continuousOn hc
  refine ⟨max k 0, le_max_right _ _, fun x y hx hx' hy hy' => ?_⟩
  have := Convex.norm_image_sub_le_of_norm_hasDerivWithin_le (f := g) (f' := g') (s := Set.Icc lo hi) (C := max k 0) (x := y) (y := x)
    (fun z hz => (hd z hz.1 hz.2).hasDerivWithinAt) (fun z hz => (hk z hz).trans (le_max_left _ _)) (convex_Icc _ _) ⟨hy, hy'⟩ ⟨hx, hx'⟩
  simpa [Real.norm_eq_abs] using this

theorem Close.pow_nat {F : (Fin d → ℕ) → Arr d ℝ} {f : (Fin d → ℝ) → ℝ} (hF : Close ℓ F f) (hf : Continuous f) (k : ℕ) :
    Close ℓ (fun n idx => F n idx ^ k) (fun p => f p ^ k) := by
  obtain ⟨M, hM, hfM⟩ := bounded_on_ball f hf ‖ℓ‖
  obtain ⟨c, hc, hl⟩ := lipschitz_on (fun x => x ^ k) (fun x => k * x ^ (k - 1)) (-(M + 1)) (M + 1) (fun x _ _ => hasDerivAt_pow k x)
    (by fun_prop)
  refine hF.comp hℓ (fun x => x ^ k) _ _ 1 c one_pos hc (fun p hp => ?_) hl
  have := abs_le.1 (hfM p hp)
  constructor <;> linarith

theorem Close.rpow {F : (Fin d → ℕ) → Arr d ℝ} {f : (Fin d → ℝ) → ℝ} (hF : Close ℓ F f) (hf : Continuous f) (hpos : ∀ p, 0 < f p)
    (q : ℝ) : Close ℓ (fun n idx => F n idx ^ q) (fun p => f p ^ q) := by
  obtain ⟨M, hM, hfM⟩ := bounded_on_ball f hf ‖ℓ‖
  obtain ⟨p₀, -, hmin⟩ := (isCompact_closedBall (0 : Fin d → ℝ) ‖ℓ‖).exists_isMinOn
    ⟨0, by simp⟩ hf.continuousOn
  have h0 := hpos p₀
  obtain ⟨c, hc, hl⟩ := lipschitz_on (fun x => x ^ q) (fun x => q * x ^ (q - 1)) (f p₀ / 2) (M + f p₀ / 2)
    (fun x hx _ => Real.hasDerivAt_rpow_const (Or.inl (by linarith)))
    (continuousOn_const.mul (continuousOn_id.rpow_const (fun x hx => Or.inl (by
      have := hx.1
      show x ≠ 0
      linarith))))
  refine hF.comp hℓ (fun x => x ^ q) _ _ (f p₀ / 2) c (by linarith) hc (fun p hp => ?_) hl
  have h1 := abs_le.1 (hfM p hp)
  have h2 : f p₀ ≤ f p := hmin (by simpa using hp)
  constructor <;> linarith

end Sympkf.Spec.PDE
