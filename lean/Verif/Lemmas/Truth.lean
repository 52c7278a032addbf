import Mathlib.Analysis.Calculus.Deriv.Comp
import Mathlib.Analysis.Calculus.Deriv.Add
import Mathlib.Analysis.Calculus.Deriv.Linear
import Mathlib.Analysis.SpecialFunctions.ExpDeriv
import Mathlib.Analysis.Calculus.FDeriv.Linear
import Mathlib.Analysis.Calculus.FDeriv.Add
import Mathlib.Analysis.Calculus.ContDiff.Operations
import Mathlib.Analysis.InnerProductSpace.Calculus
import Verif.Spec.Truth

/-!
# Derivatives in mean square
-/

set_option autoImplicit false

namespace Sympkf.Spec.Truth

open scoped RealInnerProductSpace

variable {d : ℕ} {G : Type} [NormedAddCommGroup G] [NormedSpace ℝ G] {K : Type} [NormedAddCommGroup K] [NormedSpace ℝ K]
  {H : Type} [NormedAddCommGroup H] [InnerProductSpace ℝ H]

/-- The line through `p` along the coordinate `i`. -/
theorem hasDerivAt_line (p : Fin d → ℝ) (i : Fin d) (s : ℝ) : HasDerivAt (fun s : ℝ => p + Pi.single i s) (Pi.single i 1) s := by
  have h := ((ContinuousLinearMap.single ℝ (fun _ : Fin d => ℝ) i).hasDerivAt (x := s)).const_add p
  exact h

theorem part_eq (i : Fin d) {e : (Fin d → ℝ) → G} (he : ContDiff ℝ (⊤ : ℕ∞) e) (p : Fin d → ℝ) :
    part i e p = fderiv ℝ e p (Pi.single i 1) := by
  have h1 : HasFDerivAt e (fderiv ℝ e p) (p + Pi.single i (0 : ℝ)) := by
    rw [Pi.single_zero, add_zero]
    exact (he.differentiable (by simp) p).hasFDerivAt
  exact (h1.comp_hasDerivAt (0 : ℝ) (hasDerivAt_line p i 0)).deriv

theorem contDiff_part (i : Fin d) {e : (Fin d → ℝ) → G} (he : ContDiff ℝ (⊤ : ℕ∞) e) : ContDiff ℝ (⊤ : ℕ∞) (part i e) := by
  have h : part i e = fun p => fderiv ℝ e p (Pi.single i 1) := funext (part_eq i he)
  rw [h]
  exact (he.fderiv_right (by simp)).clm_apply contDiff_const

theorem contDiff_iterate (i : Fin d) {e : (Fin d → ℝ) → G} (he : ContDiff ℝ (⊤ : ℕ∞) e) (n : ℕ) :
    ContDiff ℝ (⊤ : ℕ∞) ((part i)^[n] e) := by
  induction n with
  | zero => exact he
  | succ n ih => rw [Function.iterate_succ_apply']; exact contDiff_part i ih

/-- Partial derivatives commute with continuous linear maps. -/
theorem part_clm (L : G →L[ℝ] K) (i : Fin d) {e : (Fin d → ℝ) → G} (he : ContDiff ℝ (⊤ : ℕ∞) e) :
    part i (fun p => L (e p)) = fun p => L (part i e p) := by
  funext p
  have h1 : HasFDerivAt e (fderiv ℝ e p) (p + Pi.single i (0 : ℝ)) := by
    rw [Pi.single_zero, add_zero]
    exact (he.differentiable (by simp) p).hasFDerivAt
  have h2 := h1.comp_hasDerivAt (0 : ℝ) (hasDerivAt_line p i 0)
  rw [part_eq i he]
  exact (L.hasFDerivAt.comp_hasDerivAt (0 : ℝ) h2).deriv

theorem iterate_clm (L : G →L[ℝ] K) (i : Fin d) {e : (Fin d → ℝ) → G} (he : ContDiff ℝ (⊤ : ℕ∞) e) (n : ℕ) :
    (part i)^[n] (fun p => L (e p)) = fun p => L ((part i)^[n] e p) := by
  induction n with
  | zero => rfl
  | succ n ih =>
    rw [Function.iterate_succ_apply', Function.iterate_succ_apply', ih, part_clm L i (contDiff_iterate i he n)]

/-- Partial derivatives commute with translations. -/
theorem part_shift (q : Fin d → ℝ) (i : Fin d) (e : (Fin d → ℝ) → G) : part i (fun p => e (q + p)) = fun p => part i e (q + p) := by
  funext p
  simp only [part, add_assoc]

theorem iterate_shift (q : Fin d → ℝ) (i : Fin d) (e : (Fin d → ℝ) → G) (n : ℕ) :
    (part i)^[n] (fun p => e (q + p)) = fun p => (part i)^[n] e (q + p) := by
  induction n with
  | zero => rfl
  | succ n ih => rw [Function.iterate_succ_apply', Function.iterate_succ_apply', ih, part_shift]

theorem foldr_contDiff (a : List ℕ) (l : List (Fin d)) {e : (Fin d → ℝ) → G} (he : ContDiff ℝ (⊤ : ℕ∞) e) :
    ContDiff ℝ (⊤ : ℕ∞) (l.foldr (fun i h => (part i)^[a.getD i 0] h) e) := by
  induction l with
  | nil => exact he
  | cons i l ih => exact contDiff_iterate i ih _

theorem partials_clm (L : G →L[ℝ] K) (a : List ℕ) {e : (Fin d → ℝ) → G} (he : ContDiff ℝ (⊤ : ℕ∞) e) :
    partials a (fun p => L (e p)) = fun p => L (partials a e p) := by
  unfold partials
  induction List.finRange d with
  | nil => rfl
  | cons i l ih =>
    rw [List.foldr_cons, ih, List.foldr_cons, iterate_clm L i (foldr_contDiff a l he)]

theorem partials_shift (q : Fin d → ℝ) (a : List ℕ) (e : (Fin d → ℝ) → G) :
    partials a (fun p => e (q + p)) = fun p => partials a e (q + p) := by
  unfold partials
  induction List.finRange d with
  | nil => rfl
  | cons i l ih => rw [List.foldr_cons, ih, List.foldr_cons, iterate_shift]

/-- The derivatives of the correlation with respect to the second point are the expectations `E[eps D^a eps]`. -/
theorem partials_correlation {e : (Fin d → ℝ) → H} (he : ContDiff ℝ (⊤ : ℕ∞) e) {rho : (Fin d → ℝ) → (Fin d → ℝ) → ℝ}
    (h : Correlated e rho) (a : List ℕ) (x : Fin d → ℝ) :
    partials a (fun dx => rho x (x + dx)) 0 = moment e a x := by
  have h1 : (fun dx => rho x (x + dx)) = fun dx => innerSL ℝ (e x) ((fun p => e (x + p)) dx) := by
    funext dx
    rw [innerSL_apply_apply, h]
  rw [h1, partials_clm (innerSL ℝ (e x)) a (e := fun p => e (x + p)) (he.comp (contDiff_const.add contDiff_id)),
    partials_shift]
  show innerSL ℝ (e x) (partials a e (x + 0)) = _
  rw [add_zero, innerSL_apply_apply]
  rfl

/-- The product rule. -/
theorem part_inner (i : Fin d) {a b : (Fin d → ℝ) → H} (ha : ContDiff ℝ (⊤ : ℕ∞) a) (hb : ContDiff ℝ (⊤ : ℕ∞) b) (p : Fin d → ℝ) :
    part i (fun p => ⟪a p, b p⟫) p = ⟪a p, part i b p⟫ + ⟪part i a p, b p⟫ := by
  have key : ∀ {e : (Fin d → ℝ) → H}, ContDiff ℝ (⊤ : ℕ∞) e → HasDerivAt (fun s : ℝ => e (p + Pi.single i s)) (part i e p) 0 := by
    intro e he
    have h1 : HasFDerivAt e (fderiv ℝ e p) (p + Pi.single i (0 : ℝ)) := by
      rw [Pi.single_zero, add_zero]
      exact (he.differentiable (by simp) p).hasFDerivAt
    rw [part_eq i he]
    exact h1.comp_hasDerivAt (0 : ℝ) (hasDerivAt_line p i 0)
  have h := ((key ha).inner ℝ (key hb)).deriv
  simp only [Pi.single_zero, add_zero] at h
  exact h

/-- The expectations of a normalised field: along one coordinate. -/
theorem moments {e : (Fin d → ℝ) → H} (he : ContDiff ℝ (⊤ : ℕ∞) e) (h1 : ∀ x, ⟪e x, e x⟫ = 1) (i : Fin d) (x : Fin d → ℝ) :
    ⟪e x, part i e x⟫ = 0 ∧ ⟪e x, (part i)^[2] e x⟫ = -⟪part i e x, part i e x⟫ ∧
      ⟪e x, (part i)^[3] e x⟫ = -(3 / 2) * part i (fun y => ⟪part i e y, part i e y⟫) x := by
  have e1 := contDiff_part i he
  have e2 := contDiff_part i e1
  have h2 : ∀ x, ⟪e x, part i e x⟫ = 0 := by
    intro x
    have h := part_inner i he he x
    have h' : (fun p => ⟪e p, e p⟫) = fun _ => (1 : ℝ) := funext h1
    rw [h', real_inner_comm (e x) (part i e x)] at h
    simp only [part, deriv_const] at h ⊢
    linarith
  have h3 : ∀ x, ⟪e x, part i (part i e) x⟫ = -⟪part i e x, part i e x⟫ := by
    intro x
    have h := part_inner i he e1 x
    have h' : (fun p => ⟪e p, part i e p⟫) = fun _ => (0 : ℝ) := funext h2
    rw [h'] at h
    have h0 : part i (fun _ : Fin d → ℝ => (0 : ℝ)) x = 0 := by simp [part]
    linarith
  refine ⟨h2 x, h3 x, ?_⟩
  have h := part_inner i he e2 x
  have h' : (fun p => ⟪e p, part i (part i e) p⟫) = fun p => -⟪part i e p, part i e p⟫ := funext h3
  have hn : part i (fun p => -⟪part i e p, part i e p⟫) x = -part i (fun p => ⟪part i e p, part i e p⟫) x := by
    simp only [part, deriv.fun_neg]
  have hg := part_inner i e1 e1 x
  rw [h', hn] at h
  show ⟪e x, part i (part i (part i e)) x⟫ = _
  have hs := real_inner_comm (part i (part i e) x) (part i e x)
  linarith

/-- One variable. -/
theorem part_one (phi : ℝ → G) : part (0 : Fin 1) (fun p => phi (p 0)) = fun p => deriv phi (p 0) := by
  funext p
  simp only [part, Pi.add_apply, Pi.single_eq_same]
  have := deriv_comp_const_add (f := phi) (p 0) 0
  rw [add_zero] at this
  exact this

theorem iterate_one (phi : ℝ → G) (n : ℕ) : (part (0 : Fin 1))^[n] (fun p => phi (p 0)) = fun p => deriv^[n] phi (p 0) := by
  induction n with
  | zero => rfl
  | succ n ih => rw [Function.iterate_succ_apply', Function.iterate_succ_apply', ih, part_one]

theorem partials_one (k : ℕ) (e : (Fin 1 → ℝ) → G) : partials [k] e = (part 0)^[k] e := rfl

/-- The first derivatives of `exp(-(q t^2))` at zero. -/
theorem gauss_deriv (q : ℝ) : deriv^[1] (fun t : ℝ => Real.exp (-(q * t ^ 2))) 0 = 0 ∧
    deriv^[2] (fun t : ℝ => Real.exp (-(q * t ^ 2))) 0 = -(2 * q) ∧ deriv^[3] (fun t : ℝ => Real.exp (-(q * t ^ 2))) 0 = 0 := by
  have hq : ∀ t : ℝ, HasDerivAt (fun t : ℝ => Real.exp (-(q * t ^ 2))) (Real.exp (-(q * t ^ 2)) * -(q * (2 * t))) t := by
    intro t
    have h := (((hasDerivAt_pow 2 t).const_mul q).neg).exp
    simpa using h
  have d1 : deriv (fun t : ℝ => Real.exp (-(q * t ^ 2))) = fun t => Real.exp (-(q * t ^ 2)) * -(q * (2 * t)) := funext fun t => (hq t).deriv
  have hq2 : ∀ t : ℝ, HasDerivAt (fun t : ℝ => Real.exp (-(q * t ^ 2)) * -(q * (2 * t)))
      (Real.exp (-(q * t ^ 2)) * (4 * q ^ 2 * t ^ 2 - 2 * q)) t := by
    intro t
    have h := (hq t).mul ((((hasDerivAt_id t).const_mul 2).const_mul q).neg)
    refine h.congr_deriv ?_
    simp only [id, Pi.neg_apply]
    ring
  have d2 : deriv (fun t : ℝ => Real.exp (-(q * t ^ 2)) * -(q * (2 * t))) =
      fun t => Real.exp (-(q * t ^ 2)) * (4 * q ^ 2 * t ^ 2 - 2 * q) := funext fun t => (hq2 t).deriv
  have hq3 : HasDerivAt (fun t : ℝ => Real.exp (-(q * t ^ 2)) * (4 * q ^ 2 * t ^ 2 - 2 * q)) 0 0 := by
    have h := (hq 0).mul (((hasDerivAt_pow 2 (0 : ℝ)).const_mul (4 * q ^ 2)).sub_const (2 * q))
    refine h.congr_deriv ?_
    simp
  refine ⟨?_, ?_, ?_⟩
  · simp [d1]
  · show deriv (deriv _) 0 = _
    rw [d1, d2]
    simp
  · show deriv (deriv (deriv _)) 0 = _
    rw [d1, d2]
    exact hq3.deriv

end Sympkf.Spec.Truth
