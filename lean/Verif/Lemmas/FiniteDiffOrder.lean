import Mathlib.Analysis.Calculus.IteratedDeriv.Lemmas
import Mathlib.Analysis.Calculus.MeanValue
import Mathlib.Analysis.Calculus.ContDiff.Basic
import Mathlib.Analysis.Calculus.Deriv.Pow
import Mathlib.Analysis.Calculus.Deriv.Pi
import Mathlib.Analysis.Calculus.FDeriv.Symmetric
import Mathlib.Algebra.Order.BigOperators.Group.List
import Verif.Lemmas.FiniteDiff

/-!
# Truncation error of the finite differences
-/

set_option autoImplicit false

namespace Sympkf.FinDiff

/-- Taylor polynomial of `f` at `x`, as a function of the increment. -/
noncomputable def tay (f : ℝ → ℝ) (x : ℝ) (n : ℕ) (s : ℝ) : ℝ :=
  ∑ j ∈ Finset.range n, s ^ j / (j.factorial : ℝ) * iteratedDeriv j f x

theorem tay_hasDerivAt (f : ℝ → ℝ) (x : ℝ) (n : ℕ) (s : ℝ) : HasDerivAt (tay f x (n + 1)) (tay (deriv f) x n s) s := by
  unfold tay
  have h1 : ∀ s, (∑ j ∈ Finset.range (n + 1), s ^ j / (j.factorial : ℝ) * iteratedDeriv j f x)
      = (∑ j ∈ Finset.range n, s ^ (j + 1) / ((j + 1).factorial : ℝ) * iteratedDeriv (j + 1) f x) + f x := by
    intro s
    rw [Finset.sum_range_succ']
    simp
  have h2 : (fun s => ∑ j ∈ Finset.range (n + 1), s ^ j / (j.factorial : ℝ) * iteratedDeriv j f x)
      = fun s => (∑ j ∈ Finset.range n, s ^ (j + 1) / ((j + 1).factorial : ℝ) * iteratedDeriv (j + 1) f x) + f x := funext h1
  rw [h2]
  refine HasDerivAt.add_const _ ?_
  refine HasDerivAt.fun_sum (fun j _ => ?_)
  rw [iteratedDeriv_succ']
  refine HasDerivAt.mul_const ?_ _
  have h3 : s ^ j / (j.factorial : ℝ) = ((j + 1 : ℕ) : ℝ) * s ^ j / ((j + 1).factorial : ℝ) := by
    rw [Nat.factorial_succ]; push_cast
    have : (j.factorial : ℝ) ≠ 0 := by positivity
    field_simp
  rw [h3]
  exact (hasDerivAt_pow (j + 1) s).div_const _

/-- Taylor's formula with a uniform bound. -/
theorem taylor_bound (n : ℕ) (f : ℝ → ℝ) (hf : ContDiff ℝ (n : ℕ∞) f) (x r B : ℝ)
    (hB : ∀ y, |y - x| ≤ r → |iteratedDeriv n f y| ≤ B) (s : ℝ) (hs : |s| ≤ r) :
    |f (x + s) - tay f x n s| ≤ B * |s| ^ n := by
  induction n generalizing f s with
  | zero =>
    simp only [tay, Finset.range_zero, Finset.sum_empty, sub_zero, pow_zero, mul_one]
    simpa using hB (x + s) (by simpa using hs)
  | succ n ih =>
    have hB0 : 0 ≤ B := le_trans (abs_nonneg _) (hB x (by simpa using le_trans (abs_nonneg s) hs))
    have hd : ContDiff ℝ (n : ℕ∞) (deriv f) := by
      have : ContDiff ℝ ((n : ℕ∞) + 1) f := by exact_mod_cast hf
      exact (contDiff_succ_iff_deriv.1 this).2.2
    have hdf : Differentiable ℝ f := hf.differentiable (by simp)
    have key := Convex.norm_image_sub_le_of_norm_hasDerivWithin_le
      (f := fun y => f (x + y) - tay f x (n + 1) y) (f' := fun y => deriv f (x + y) - tay (deriv f) x n y)
      (s := Set.uIcc 0 s) (x := 0) (y := s) (C := B * |s| ^ n) ?_ ?_ (convex_uIcc 0 s) Set.left_mem_uIcc Set.right_mem_uIcc
    · have h0 : tay f x (n + 1) 0 = f x := by
        unfold tay
        rw [Finset.sum_range_succ']
        simp
      simp only [add_zero, h0, sub_self, sub_zero, Real.norm_eq_abs] at key
      rw [pow_succ, ← mul_assoc]; exact key
    · intro y _
      refine HasDerivAt.hasDerivWithinAt (HasDerivAt.sub ?_ (tay_hasDerivAt f x n y))
      exact HasDerivAt.comp_const_add x y (hdf (x + y)).hasDerivAt
    · intro y hy
      have hy' : |y| ≤ |s| := by
        have := Set.abs_sub_left_of_mem_uIcc hy
        simpa using this
      have := ih (deriv f) hd (by intro z hz; rw [← iteratedDeriv_succ']; exact hB z hz) y (le_trans hy' hs)
      refine le_trans this ?_
      gcongr

/-- Quantitative consistency: the constant depends on the order only. -/
noncomputable def fdConst (o : ℕ) : ℝ := ∑ ν ∈ Finset.range (o + 1), |unitWeight ℝ o ν| * |(off o ν : ℝ)| ^ (o + 2)

theorem fdConst_nonneg (o : ℕ) : 0 ≤ fdConst o := Finset.sum_nonneg (fun _ _ => by positivity)

theorem off_abs_le (o ν : ℕ) (h : ν ≤ o) : |(off o ν : ℝ)| ≤ o := by
  have : |off o ν| ≤ (o : ℤ) := by
    rw [abs_le]; unfold off; split <;> omega
  exact_mod_cast this

theorem fd_bound (o : ℕ) (f : ℝ → ℝ) (hf : ContDiff ℝ ((o + 2 : ℕ) : ℕ∞) f) (x h B : ℝ) (hh : h ≠ 0)
    (hB : ∀ y, |y - x| ≤ o * |h| → |iteratedDeriv (o + 2) f y| ≤ B) :
    |fd o h f x - iteratedDeriv o f x| ≤ fdConst o * B * h ^ 2 := by
  have hT : ∑ ν ∈ Finset.range (o + 1), (unitWeight ℝ o ν / h ^ o) * tay f x (o + 2) ((off o ν : ℝ) * h)
      = iteratedDeriv o f x := by
    unfold tay
    simp only [Finset.mul_sum]
    rw [Finset.sum_comm]
    have h2 : ∀ j ∈ Finset.range (o + 2),
        ∑ ν ∈ Finset.range (o + 1), (unitWeight ℝ o ν / h ^ o) * ((((off o ν : ℝ) * h) ^ j / (j.factorial : ℝ)) * iteratedDeriv j f x)
          = if j = o then iteratedDeriv o f x else 0 := by
      intro j hj
      rw [Finset.mem_range] at hj
      have h3 : ∀ ν ∈ Finset.range (o + 1),
          (unitWeight ℝ o ν / h ^ o) * ((((off o ν : ℝ) * h) ^ j / (j.factorial : ℝ)) * iteratedDeriv j f x)
            = (h ^ j / h ^ o / (j.factorial : ℝ) * iteratedDeriv j f x) * (unitWeight ℝ o ν * (off o ν : ℝ) ^ j) := by
        intro ν _
        rw [mul_pow]; ring
      rw [Finset.sum_congr rfl h3, ← Finset.mul_sum, unit_moment o j (by omega)]
      split
      · rename_i e; subst e
        have : (j.factorial : ℝ) ≠ 0 := by positivity
        field_simp
      · simp
    rw [Finset.sum_congr rfl h2, Finset.sum_ite_eq' (Finset.range (o + 2)) o, if_pos (by simp)]
  rw [fd_eq_sum o h x hh, ← hT, ← Finset.sum_sub_distrib]
  refine le_trans (Finset.abs_sum_le_sum_abs _ _) ?_
  unfold fdConst
  rw [Finset.sum_mul, Finset.sum_mul]
  refine Finset.sum_le_sum (fun ν hν => ?_)
  rw [Finset.mem_range] at hν
  rw [smul_eq_mul, ← mul_sub, abs_mul, abs_div, abs_pow]
  have hle : |(off o ν : ℝ) * h| ≤ o * |h| := by
    rw [abs_mul]
    exact mul_le_mul_of_nonneg_right (off_abs_le o ν (by omega)) (abs_nonneg h)
  have h1 := taylor_bound (o + 2) f hf x (o * |h|) B hB ((off o ν : ℝ) * h) hle
  have hh' : 0 < |h| := abs_pos.2 hh
  calc |unitWeight ℝ o ν| / |h| ^ o * |f (x + (off o ν : ℝ) * h) - tay f x (o + 2) ((off o ν : ℝ) * h)|
      ≤ |unitWeight ℝ o ν| / |h| ^ o * (B * |(off o ν : ℝ) * h| ^ (o + 2)) := by gcongr
    _ = |unitWeight ℝ o ν| * |(off o ν : ℝ)| ^ (o + 2) * B * h ^ 2 := by
        rw [abs_mul, mul_pow, pow_add |h| o 2, sq_abs]
        field_simp

/-! ## Several coordinates -/

section multi

variable {ι : Type} [DecidableEq ι]

section algebra

variable {K V : Type} [Field K] [AddCommGroup V] [Module K V]

theorem update_eq_add_single (x : ι → K) (i : ι) (c : K) : Function.update x i (x i + c) = x + Pi.single i c := by
  funext j
  by_cases h : j = i
  · subst h; simp
  · simp [h]

theorem fdAlong_eq_sum (h : ι → K) (i : ι) (o : ℕ) (hh : h i ≠ 0) (u : (ι → K) → V) (x : ι → K) :
    fdAlong h i o u x = ∑ ν ∈ Finset.range (o + 1),
      (unitWeight K o ν / h i ^ o) • u (x + Pi.single i ((off o ν : K) * h i)) := by
  unfold fdAlong
  rw [fd_eq_sum o (h i) (x i) hh]
  simp only [update_eq_add_single]

theorem fdAlong_comm (h : ι → K) (i j : ι) (o p : ℕ) (hi : h i ≠ 0) (hj : h j ≠ 0) (u : (ι → K) → V) :
    fdAlong h i o (fdAlong h j p u) = fdAlong h j p (fdAlong h i o u) := by
  funext x
  simp only [fdAlong_eq_sum _ _ _ hi, fdAlong_eq_sum _ _ _ hj, Finset.smul_sum]
  rw [Finset.sum_comm]
  refine Finset.sum_congr rfl (fun ν _ => Finset.sum_congr rfl (fun μ _ => ?_))
  rw [smul_comm, add_right_comm]

theorem fdMixed_fdAlong (h : ι → K) (hh : ∀ i, h i ≠ 0) (L : List (ι × ℕ)) (i : ι) (o : ℕ) (u : (ι → K) → V) :
    fdMixed h L (fdAlong h i o u) = fdAlong h i o (fdMixed h L u) := by
  induction L generalizing u with
  | nil => rfl
  | cons p L ih =>
    obtain ⟨j, p⟩ := p
    unfold fdMixed
    rw [fdAlong_comm h j i p o (hh j) (hh i), ih]

theorem fdMixed_perm (h : ι → K) (hh : ∀ i, h i ≠ 0) (L L' : List (ι × ℕ)) (hp : L.Perm L') (u : (ι → K) → V) :
    fdMixed h L u = fdMixed h L' u := by
  induction hp generalizing u with
  | nil => rfl
  | cons p _ ih => obtain ⟨i, o⟩ := p; exact ih _
  | swap p q L =>
    obtain ⟨i, o⟩ := p; obtain ⟨j, p⟩ := q
    unfold fdMixed; unfold fdMixed
    rw [fdAlong_comm h i j o p (hh i) (hh j)]
  | trans _ _ ih1 ih2 => rw [ih1, ih2]

end algebra

/-- Partial derivative with respect to the coordinate `i`. -/
noncomputable def pd (i : ι) (u : (ι → ℝ) → ℝ) (x : ι → ℝ) : ℝ := deriv (fun s => u (Function.update x i s)) (x i)

/-- Mixed partial derivative, one variable after the other. -/
noncomputable def pdMixed : List (ι × ℕ) → ((ι → ℝ) → ℝ) → (ι → ℝ) → ℝ
  | [], u => u
  | (i, o) :: rest, u => pdMixed rest ((pd i)^[o] u)

variable [Fintype ι]

theorem pd_eq_fderiv (i : ι) (u : (ι → ℝ) → ℝ) (hu : Differentiable ℝ u) (x : ι → ℝ) :
    pd i u x = fderiv ℝ u x (Pi.single i 1) := by
  unfold pd
  have h1 : HasDerivAt (Function.update x i) (Pi.single i (1 : ℝ)) (x i) := hasDerivAt_update x i (x i)
  have h2 : HasFDerivAt u (fderiv ℝ u x) (Function.update x i (x i)) := by
    rw [Function.update_eq_self]; exact (hu x).hasFDerivAt
  exact (h2.comp_hasDerivAt (x i) h1).deriv

theorem pd_smooth (i : ι) (u : (ι → ℝ) → ℝ) (hu : ContDiff ℝ (⊤ : ℕ∞) u) : ContDiff ℝ (⊤ : ℕ∞) (pd i u) := by
  have : pd i u = fun x => fderiv ℝ u x (Pi.single i 1) := funext (pd_eq_fderiv i u (hu.differentiable (by simp)))
  rw [this]
  exact (hu.fderiv_right (m := (⊤ : ℕ∞)) (by simp)).clm_apply contDiff_const

theorem pd_iter_smooth (i : ι) (o : ℕ) (u : (ι → ℝ) → ℝ) (hu : ContDiff ℝ (⊤ : ℕ∞) u) :
    ContDiff ℝ (⊤ : ℕ∞) ((pd i)^[o] u) := by
  induction o generalizing u with
  | zero => exact hu
  | succ o ih => rw [Function.iterate_succ_apply]; exact ih _ (pd_smooth i u hu)

theorem pdMixed_smooth (L : List (ι × ℕ)) (u : (ι → ℝ) → ℝ) (hu : ContDiff ℝ (⊤ : ℕ∞) u) :
    ContDiff ℝ (⊤ : ℕ∞) (pdMixed L u) := by
  induction L generalizing u with
  | nil => exact hu
  | cons p L ih => obtain ⟨i, o⟩ := p; exact ih _ (pd_iter_smooth i o u hu)

theorem pd_comm (i j : ι) (u : (ι → ℝ) → ℝ) (hu : ContDiff ℝ (⊤ : ℕ∞) u) : pd i (pd j u) = pd j (pd i u) := by
  funext x
  have hd : Differentiable ℝ u := hu.differentiable (by simp)
  have hd2 : Differentiable ℝ (fderiv ℝ u) :=
    (hu.fderiv_right (m := (⊤ : ℕ∞)) (by simp)).differentiable (by simp)
  have e : ∀ k, pd k u = fun x => fderiv ℝ u x (Pi.single k 1) := fun k => funext (pd_eq_fderiv k u hd)
  rw [pd_eq_fderiv i _ ((pd_smooth j u hu).differentiable (by simp)), pd_eq_fderiv j _ ((pd_smooth i u hu).differentiable (by simp)),
    e j, e i]
  rw [fderiv_clm_apply (hd2 x) (by fun_prop), fderiv_clm_apply (hd2 x) (by fun_prop)]
  simp only [fderiv_fun_const, Pi.zero_apply, ContinuousLinearMap.comp_zero, zero_add, ContinuousLinearMap.flip_apply]
  have hs : IsSymmSndFDerivAt ℝ u x := (hu.contDiffAt).isSymmSndFDerivAt (by
    simp only [minSmoothness_of_isRCLikeNormedField]
    have : ((2 : ℕ∞) : WithTop ℕ∞) ≤ ((⊤ : ℕ∞) : WithTop ℕ∞) := WithTop.coe_le_coe.2 le_top
    exact this)
  exact hs _ _

omit [Fintype ι] in
theorem iteratedDeriv_line (i : ι) (n : ℕ) (u : (ι → ℝ) → ℝ) (x : ι → ℝ) (s : ℝ) :
    iteratedDeriv n (fun s => u (Function.update x i s)) s = (pd i)^[n] u (Function.update x i s) := by
  induction n generalizing u s with
  | zero => simp
  | succ n ih =>
    rw [iteratedDeriv_succ', Function.iterate_succ_apply, ← ih]
    congr 1
    funext s
    unfold pd
    simp

theorem line_smooth (i : ι) (u : (ι → ℝ) → ℝ) (hu : ContDiff ℝ (⊤ : ℕ∞) u) (x : ι → ℝ) :
    ContDiff ℝ (⊤ : ℕ∞) (fun s => u (Function.update x i s)) :=
  hu.comp (contDiff_update _ x i)

theorem pd_fdAlong (h : ι → ℝ) (i j : ι) (o : ℕ) (hh : h i ≠ 0) (u : (ι → ℝ) → ℝ) (hu : ContDiff ℝ (⊤ : ℕ∞) u) :
    pd j (fdAlong h i o u) = fdAlong h i o (pd j u) := by
  funext x
  have hd : Differentiable ℝ u := hu.differentiable (by simp)
  have e : fdAlong h i o u = fun x => ∑ ν ∈ Finset.range (o + 1),
      (unitWeight ℝ o ν / h i ^ o) • u (x + Pi.single i ((off o ν : ℝ) * h i)) := funext (fdAlong_eq_sum h i o hh u)
  have hd1 : ∀ ν, Differentiable ℝ (fun x : ι → ℝ => (unitWeight ℝ o ν / h i ^ o) • u (x + Pi.single i ((off o ν : ℝ) * h i))) := by
    intro ν
    have h3 : Differentiable ℝ (fun x : ι → ℝ => u (x + Pi.single i ((off o ν : ℝ) * h i))) :=
      hd.comp (differentiable_id.add_const _)
    exact h3.const_smul (unitWeight ℝ o ν / h i ^ o)
  rw [fdAlong_eq_sum h i o hh, e, pd_eq_fderiv j]
  · rw [fderiv_fun_sum (fun ν _ => hd1 ν x), _root_.sum_apply]
    refine Finset.sum_congr rfl (fun ν _ => ?_)
    have h2 : DifferentiableAt ℝ (fun x : ι → ℝ => u (x + Pi.single i ((off o ν : ℝ) * h i))) x :=
      (hd.comp (differentiable_id.add_const _)) x
    rw [fderiv_fun_const_smul h2, fderiv_comp_add_right, pd_eq_fderiv j u hd]
    rfl
  · exact Differentiable.fun_sum (fun ν _ => hd1 ν)

theorem fdAlong_smooth (h : ι → ℝ) (i : ι) (o : ℕ) (hh : h i ≠ 0) (u : (ι → ℝ) → ℝ) (hu : ContDiff ℝ (⊤ : ℕ∞) u) :
    ContDiff ℝ (⊤ : ℕ∞) (fdAlong h i o u) := by
  have e : fdAlong h i o u = fun x => ∑ ν ∈ Finset.range (o + 1),
      (unitWeight ℝ o ν / h i ^ o) • u (x + Pi.single i ((off o ν : ℝ) * h i)) := funext (fdAlong_eq_sum h i o hh u)
  rw [e]
  exact ContDiff.sum (fun ν _ => (hu.comp (contDiff_id.add contDiff_const)).const_smul _)

theorem fdMixed_smooth (h : ι → ℝ) (hh : ∀ i, h i ≠ 0) (L : List (ι × ℕ)) (u : (ι → ℝ) → ℝ) (hu : ContDiff ℝ (⊤ : ℕ∞) u) :
    ContDiff ℝ (⊤ : ℕ∞) (fdMixed h L u) := by
  induction L generalizing u with
  | nil => exact hu
  | cons p L ih => obtain ⟨i, o⟩ := p; exact ih _ (fdAlong_smooth h i o (hh i) u hu)

theorem pd_fdMixed (h : ι → ℝ) (hh : ∀ i, h i ≠ 0) (L : List (ι × ℕ)) (j : ι) (u : (ι → ℝ) → ℝ) (hu : ContDiff ℝ (⊤ : ℕ∞) u) :
    pd j (fdMixed h L u) = fdMixed h L (pd j u) := by
  induction L generalizing u with
  | nil => rfl
  | cons p L ih =>
    obtain ⟨i, o⟩ := p
    unfold fdMixed
    rw [ih _ (fdAlong_smooth h i o (hh i) u hu), pd_fdAlong h i j o (hh i) u hu]

theorem pd_iter_fdMixed (h : ι → ℝ) (hh : ∀ i, h i ≠ 0) (L : List (ι × ℕ)) (j : ι) (n : ℕ) (u : (ι → ℝ) → ℝ)
    (hu : ContDiff ℝ (⊤ : ℕ∞) u) : (pd j)^[n] (fdMixed h L u) = fdMixed h L ((pd j)^[n] u) := by
  induction n generalizing u with
  | zero => rfl
  | succ n ih => rw [Function.iterate_succ_apply, pd_fdMixed h hh L j u hu, ih _ (pd_smooth j u hu), Function.iterate_succ_apply]

theorem norm_update_le (x : ι → ℝ) (i : ι) (y R r : ℝ) (hR : ‖x‖ ≤ R) (hy : |y - x i| ≤ r) :
    ‖Function.update x i y‖ ≤ R + r := by
  have : Function.update x i y = x + Pi.single i (y - x i) := by
    rw [← update_eq_add_single]; simp
  rw [this]
  refine le_trans (norm_add_le _ _) (add_le_add hR ?_)
  rw [Pi.norm_single]; exact hy

omit [DecidableEq ι] in
theorem bounded_on_ball (v : (ι → ℝ) → ℝ) (hv : Continuous v) (R : ℝ) : ∃ C, 0 ≤ C ∧ ∀ x, ‖x‖ ≤ R → |v x| ≤ C := by
  obtain ⟨C, hC⟩ := (isCompact_closedBall (0 : ι → ℝ) R).exists_bound_of_continuousOn hv.continuousOn
  refine ⟨max C 0, le_max_right _ _, fun x hx => le_trans ?_ (le_max_left _ _)⟩
  exact hC x (by simpa using hx)

/-- The error of the mixed finite difference is bounded, uniformly on balls, by the sum of the squares of the steps. -/
theorem fdMixed_bound (L : List (ι × ℕ)) (u : (ι → ℝ) → ℝ) (hu : ContDiff ℝ (⊤ : ℕ∞) u) (R : ℝ) :
    ∃ C, 0 ≤ C ∧ ∀ h : ι → ℝ, (∀ i, h i ≠ 0) → (∀ i, |h i| ≤ 1) → ∀ x, ‖x‖ ≤ R →
      |fdMixed h L u x - pdMixed L u x| ≤ C * (L.map (fun p => h p.1 ^ 2)).sum := by
  induction L generalizing u R with
  | nil => exact ⟨0, le_rfl, by intro h _ _ x _; simp [fdMixed, pdMixed]⟩
  | cons p L ih =>
    obtain ⟨i, o⟩ := p
    obtain ⟨C1, hC1, h1⟩ := ih ((pd i)^[o] u) (pd_iter_smooth i o u hu) R
    obtain ⟨C2, hC2, h2⟩ := ih ((pd i)^[o + 2] u) (pd_iter_smooth i _ u hu) (R + o)
    obtain ⟨C3, hC3, h3⟩ := bounded_on_ball _ (pdMixed_smooth L _ (pd_iter_smooth i (o + 2) u hu)).continuous (R + o)
    refine ⟨C1 + fdConst o * (C2 * L.length + C3), by have := fdConst_nonneg o; positivity, ?_⟩
    intro h hh hle x hx
    have hsum : (L.map (fun p => h p.1 ^ 2)).sum ≤ L.length := by
      have := List.sum_le_card_nsmul (L.map (fun p => h p.1 ^ 2)) 1 (by
        intro y hy
        rw [List.mem_map] at hy
        obtain ⟨p, -, rfl⟩ := hy
        have := hle p.1
        rw [← sq_abs]
        exact pow_le_one₀ (abs_nonneg _) this)
      simpa using this
    have hsum0 : 0 ≤ (L.map (fun p => h p.1 ^ 2)).sum := List.sum_nonneg (by
      intro y hy
      rw [List.mem_map] at hy
      obtain ⟨p, -, rfl⟩ := hy
      positivity)
    have ha := h1 h hh hle x hx
    have hb : |fdAlong h i o (fdMixed h L u) x - (pd i)^[o] (fdMixed h L u) x|
        ≤ fdConst o * (C2 * L.length + C3) * h i ^ 2 := by
      have hw := fdMixed_smooth h hh L u hu
      have := fd_bound o (fun s => fdMixed h L u (Function.update x i s))
        ((line_smooth i _ hw x).of_le (by exact_mod_cast le_top)) (x i) (h i) (C2 * L.length + C3) (hh i) (by
          intro y hy
          rw [iteratedDeriv_line, pd_iter_fdMixed h hh L i _ u hu]
          have hn : ‖Function.update x i y‖ ≤ R + o := by
            refine norm_update_le x i y R o hx (le_trans hy ?_)
            have := hle i
            have ho : (0 : ℝ) ≤ o := by positivity
            nlinarith
          have e1 := h2 h hh hle _ hn
          have e2 := h3 _ hn
          have e3 : C2 * (L.map (fun p => h p.1 ^ 2)).sum ≤ C2 * L.length := mul_le_mul_of_nonneg_left hsum hC2
          have e4 := abs_sub_abs_le_abs_sub (fdMixed h L ((pd i)^[o + 2] u) (Function.update x i y))
            (pdMixed L ((pd i)^[o + 2] u) (Function.update x i y))
          linarith)
      rw [iteratedDeriv_line, Function.update_eq_self] at this
      exact this
    have hsplit : fdMixed h ((i, o) :: L) u x - pdMixed ((i, o) :: L) u x
        = (fdAlong h i o (fdMixed h L u) x - (pd i)^[o] (fdMixed h L u) x)
          + (fdMixed h L ((pd i)^[o] u) x - pdMixed L ((pd i)^[o] u) x) := by
      show fdMixed h L (fdAlong h i o u) x - pdMixed L ((pd i)^[o] u) x = _
      rw [fdMixed_fdAlong h hh, pd_iter_fdMixed h hh L i o u hu]; ring
    rw [hsplit]
    refine le_trans (abs_add_le _ _) ?_
    rw [List.map_cons, List.sum_cons]
    have hk : 0 ≤ fdConst o * (C2 * L.length + C3) := by have := fdConst_nonneg o; positivity
    have hi2 : 0 ≤ h i ^ 2 := by positivity
    nlinarith [mul_nonneg hC1 hi2, mul_nonneg hk hsum0]

end multi

end Sympkf.FinDiff
