import Verif.Props.FullyDiscrete
import Verif.Props.SkewSystem

/-!
The derivatives in time of the solutions of a linear system are solutions; Taylor's formula, uniformly on a ball.
-/

set_option autoImplicit false

namespace Sympkf.Props

open Text PDE Spec.PDE FinDiff Spec

section
variable {d : ℕ}

theorem dtime_iter_smooth {φ : ℝ → (Fin d → ℝ) → ℝ} (h : SmoothFamily φ) (j : ℕ) : SmoothFamily (dtime^[j] φ) := by
  induction j generalizing φ with
  | zero => exact h
  | succ j ih => exact ih (dtime_smooth h)

theorem dtime_periodic {ℓ : Fin d → ℝ} {φ : ℝ → (Fin d → ℝ) → ℝ} (h : ∀ τ, Periodic ℓ (φ τ)) (τ : ℝ) : Periodic ℓ (dtime φ τ) := by
  intro i p
  unfold dtime
  congr 1
  funext s
  exact h s i p

theorem dtime_iter_periodic {ℓ : Fin d → ℝ} {φ : ℝ → (Fin d → ℝ) → ℝ} (h : ∀ τ, Periodic ℓ (φ τ)) (j : ℕ) (τ : ℝ) :
    Periodic ℓ (dtime^[j] φ τ) := by
  induction j generalizing φ with
  | zero => exact h τ
  | succ j ih => exact ih (dtime_periodic h)

theorem pd_none_lift (φ : ℝ → (Fin d → ℝ) → ℝ) : pd none (lift φ) = lift (dtime φ) := by
  funext q
  unfold pd lift dtime
  congr 1

theorem lift_injective {φ ψ : ℝ → (Fin d → ℝ) → ℝ} (h : lift φ = lift ψ) : φ = ψ := by
  funext τ p
  exact congrFun h (join τ p)

theorem smooth_of_lift {φ : ℝ → (Fin d → ℝ) → ℝ} (h : ContDiff ℝ (⊤ : ℕ∞) (lift φ)) : SmoothFamily φ := by
  have h1 : ContDiff ℝ (⊤ : ℕ∞) (fun q : ℝ × (Fin d → ℝ) => join q.1 q.2) :=
    contDiff_pi.2 (fun o => by
      cases o with
      | none => exact contDiff_fst
      | some i => exact (contDiff_apply ℝ ℝ i).comp contDiff_snd)
  exact h.comp h1

theorem pd_none_pdMixed (L : List (Fin d × ℕ)) (u : (Option (Fin d) → ℝ) → ℝ) (hu : ContDiff ℝ (⊤ : ℕ∞) u) :
    pd none (pdMixed (L.map (fun p => (some p.1, p.2))) u) = pdMixed (L.map (fun p => (some p.1, p.2))) (pd none u) := by
  induction L generalizing u with
  | nil => rfl
  | cons p L ih =>
    show pd none (pdMixed _ ((pd (some p.1))^[p.2] u)) = pdMixed _ ((pd (some p.1))^[p.2] (pd none u))
    rw [ih _ (pd_iter_smooth _ _ _ hu)]
    congr 1
    generalize p.2 = o
    induction o generalizing u with
    | zero => rfl
    | succ o ih2 => rw [Function.iterate_succ_apply, Function.iterate_succ_apply, ih2 _ (pd_smooth _ _ hu), pd_comm _ _ _ hu]

/-- Derivatives in time and in space commute. -/
theorem dtime_pdMixed {φ : ℝ → (Fin d → ℝ) → ℝ} (h : SmoothFamily φ) (L : List (Fin d × ℕ)) :
    SmoothFamily (fun τ => pdMixed L (φ τ)) ∧ dtime (fun τ => pdMixed L (φ τ)) = fun τ => pdMixed L (dtime φ τ) := by
  constructor
  · refine smooth_of_lift ?_
    rw [← pdMixed_lift]
    exact pdMixed_smooth _ _ h.lift
  · refine lift_injective ?_
    rw [← pd_none_lift, ← pdMixed_lift, ← pdMixed_lift, ← pd_none_lift, pd_none_pdMixed L _ h.lift]

/-- Taylor's formula, uniformly on a ball. -/
theorem taylor_family {φ : ℝ → (Fin d → ℝ) → ℝ} (h : SmoothFamily φ) (a b R : ℝ) (n : ℕ) :
    ∃ M, 0 ≤ M ∧ ∀ p, ‖p‖ ≤ R → ∀ τ τ', a ≤ τ → τ ≤ τ' → τ' ≤ b →
      |φ τ' p - ∑ j ∈ Finset.range n, (τ' - τ) ^ j / (Nat.factorial j : ℝ) * dtime^[j] φ τ p| ≤ M * (τ' - τ) ^ n := by
  induction n generalizing φ with
  | zero =>
    obtain ⟨M, hM, hb⟩ := bounded_family (isCompact_Icc (a := a) (b := b)) (contOn_of_smooth h) R
    refine ⟨M, hM, fun p hp τ τ' h1 h2 h3 => ?_⟩
    simpa using hb τ' ⟨h1.trans h2, h3⟩ p hp
  | succ n ih =>
    obtain ⟨M, hM, hb⟩ := ih (dtime_smooth h)
    refine ⟨M, hM, fun p hp τ τ' h1 h2 h3 => ?_⟩
    have hder : ∀ s, HasDerivAt (fun s => φ s p - ∑ j ∈ Finset.range (n + 1), (s - τ) ^ j / (Nat.factorial j : ℝ) * dtime^[j] φ τ p)
        (dtime φ s p - ∑ j ∈ Finset.range n, (s - τ) ^ j / (Nat.factorial j : ℝ) * dtime^[j] (dtime φ) τ p) s := by
      intro s
      refine (hasDerivAt_dtime h s p).sub ?_
      have e : (fun s => ∑ j ∈ Finset.range (n + 1), (s - τ) ^ j / (Nat.factorial j : ℝ) * dtime^[j] φ τ p) =
          fun s => (∑ j ∈ Finset.range n, (s - τ) ^ (j + 1) / (Nat.factorial (j + 1) : ℝ) * dtime^[j + 1] φ τ p) + φ τ p := by
        funext s
        rw [Finset.sum_range_succ']
        simp
      rw [e]
      have : HasDerivAt (fun s => ∑ j ∈ Finset.range n, (s - τ) ^ (j + 1) / (Nat.factorial (j + 1) : ℝ) * dtime^[j + 1] φ τ p)
          (∑ j ∈ Finset.range n, (s - τ) ^ j / (Nat.factorial j : ℝ) * dtime^[j] (dtime φ) τ p) s := by
        refine HasDerivAt.fun_sum fun j _ => ?_
        have h4 := ((((hasDerivAt_id s).sub_const τ).pow (j + 1)).div_const (Nat.factorial (j + 1) : ℝ)).mul_const (dtime^[j + 1] φ τ p)
        refine h4.congr_deriv ?_
        rw [Nat.factorial_succ]
        have : (Nat.factorial j : ℝ) ≠ 0 := by positivity
        have : (j : ℝ) + 1 ≠ 0 := by positivity
        simp only [id, Nat.add_sub_cancel, mul_one, Nat.cast_mul, Nat.cast_add, Nat.cast_one, Function.iterate_succ_apply]
        field_simp
      exact this.add_const _
    have := (convex_Icc τ τ').norm_image_sub_le_of_norm_hasDerivWithin_le (C := M * (τ' - τ) ^ n) (fun s _ => (hder s).hasDerivWithinAt)
      (fun s hs => by
        refine (hb p hp τ s h1 hs.1 (hs.2.trans h3)).trans (mul_le_mul_of_nonneg_left ?_ hM)
        exact pow_le_pow_left₀ (by linarith [hs.1]) (by linarith [hs.2]) n) (Set.left_mem_Icc.2 h2) (Set.right_mem_Icc.2 h2)
    have e0 : φ τ p - ∑ j ∈ Finset.range (n + 1), (τ - τ) ^ j / (Nat.factorial j : ℝ) * dtime^[j] φ τ p = 0 := by
      rw [Finset.sum_range_succ']
      simp
    rw [e0, sub_zero, Real.norm_eq_abs, Real.norm_of_nonneg (by linarith)] at this
    rw [pow_succ, ← mul_assoc]
    exact this

end

theorem linear_functions {coords : List Str} {e : Sy} {l : List LinTerm} (he : Linear coords e l) (f : Sy) (hf : f ∈ e.functions) :
    ∃ x ∈ l, x.field = f := by
  induction he with
  | fn u args =>
    simp only [Sy.functions, List.mem_singleton] at hf
    exact ⟨_, List.mem_singleton_self _, hf.symm⟩
  | deriv u args vars hv =>
    simp only [Sy.functions, List.mem_singleton] at hf
    exact ⟨_, List.mem_singleton_self _, hf.symm⟩
  | num q _ ih =>
    simp only [Sy.functions, List.nil_append] at hf
    obtain ⟨x, hx, rfl⟩ := ih hf
    exact ⟨_, List.mem_map_of_mem hx, rfl⟩
  | sym c _ _ ih =>
    simp only [Sy.functions, List.nil_append] at hf
    obtain ⟨x, hx, rfl⟩ := ih hf
    exact ⟨_, List.mem_map_of_mem hx, rfl⟩
  | add _ _ ih1 ih2 =>
    rcases List.mem_append.1 hf with hf | hf
    · obtain ⟨x, hx, rfl⟩ := ih1 hf
      exact ⟨x, List.mem_append_left _ hx, rfl⟩
    · obtain ⟨x, hx, rfl⟩ := ih2 hf
      exact ⟨x, List.mem_append_right _ hx, rfl⟩

theorem linear_regular {coords : List Str} {e : Sy} {l : List LinTerm} (he : Linear coords e l)
    (hargs : ∀ x ∈ l, ∀ u args, x.field = .fn u args → args.filter (· ≠ "t".toList) = coords)
    (φ : Sy → (Fin coords.length → ℝ) → ℝ) (σ : Str → ℝ) : Regular coords φ σ e := by
  induction he with
  | fn u args => trivial
  | deriv u args vars hv => exact ⟨⟨u, args, rfl, hargs _ (List.mem_singleton_self _) u args rfl⟩, hv⟩
  | num q _ ih => exact ⟨trivial, ih fun x hx => hargs { x with coef := q * x.coef } (List.mem_map_of_mem (f := fun x : LinTerm => { x with coef := q * x.coef }) hx)⟩
  | sym c _ _ ih => exact ⟨trivial, ih fun x hx => hargs { x with consts := c :: x.consts } (List.mem_map_of_mem (f := fun x : LinTerm => { x with consts := c :: x.consts }) hx)⟩
  | add _ _ ih1 ih2 =>
    exact ⟨ih1 fun x hx => hargs x (List.mem_append_left _ hx), ih2 fun x hx => hargs x (List.mem_append_right _ hx)⟩

/-- The derivative in time of a linear right-hand side. -/
theorem linear_dtime {coords : List Str} {e : Sy} {l : List LinTerm} (he : Linear coords e l)
    (φ : Sy → ℝ → (Fin coords.length → ℝ) → ℝ) (σ : Str → ℝ) (hφ : ∀ x ∈ l, SmoothFamily (φ x.field)) (τ : ℝ) (p : Fin coords.length → ℝ) :
    HasDerivAt (fun s => exact coords (fun g => φ g s) (Function.update σ "t".toList s) e p)
      (exact coords (fun g => dtime (φ g) τ) (Function.update σ "t".toList τ) e p) τ := by
  induction he with
  | fn u args => exact hasDerivAt_dtime (hφ _ (List.mem_singleton_self _)) τ p
  | deriv u args vars hv =>
    obtain ⟨h1, h2⟩ := dtime_pdMixed (hφ _ (List.mem_singleton_self _)) (axesOf coords vars)
    have := hasDerivAt_dtime h1 τ p
    rw [h2] at this
    exact this
  | num q _ ih => exact (ih fun x hx => hφ { x with coef := q * x.coef } (List.mem_map_of_mem (f := fun x : LinTerm => { x with coef := q * x.coef }) hx)).const_mul (q : ℝ)
  | @sym c e' l' hc _ ih =>
    have h1 := (ih fun x hx => hφ { x with consts := c :: x.consts } (List.mem_map_of_mem (f := fun x : LinTerm => { x with consts := c :: x.consts }) hx)).const_mul (σ c)
    have e1 : ∀ s, (Function.update σ "t".toList s) c = σ c := fun s => Function.update_of_ne hc _ _
    show HasDerivAt (fun s => Function.update σ "t".toList s c * exact coords (fun g => φ g s) (Function.update σ "t".toList s) e' p)
      (Function.update σ "t".toList τ c * exact coords (fun g => dtime (φ g) τ) (Function.update σ "t".toList τ) e' p) τ
    simp only [e1]
    exact h1
  | add _ _ ih1 ih2 =>
    exact (ih1 fun x hx => hφ x (List.mem_append_left _ hx)).add (ih2 fun x hx => hφ x (List.mem_append_right _ hx))

/-- The derivatives in time of the solutions of a linear system are solutions. -/
theorem dtime_solves {coords : List Str} {eqs : List Equation} {rows : List (Sy × List LinTerm)} {φ : Sy → ℝ → (Fin coords.length → ℝ) → ℝ}
    {σ : Str → ℝ} {a b : ℝ} (hab : a < b)
    (hlin : List.Forall₂ (fun e r => e.lhs = .deriv r.1 [("t".toList, 1)] ∧ Linear coords e.rhs r.2) eqs rows)
    (hφ : ∀ r ∈ rows, SmoothFamily (φ r.1) ∧ ∀ x ∈ r.2, SmoothFamily (φ x.field)) (hsol : Solves coords eqs φ σ a b) :
    Solves coords eqs (fun f => dtime (φ f)) σ a b := by
  intro e he f hlhs τ hτ p
  obtain ⟨i, hi, rfl⟩ := List.getElem_of_mem he
  have hi' : i < rows.length := by rw [← hlin.length_eq]; exact hi
  have h1 := (List.forall₂_iff_get.1 hlin).2 i hi hi'
  simp only [List.get_eq_getElem] at h1
  obtain ⟨h2, h3⟩ := h1
  have hff : f = rows[i].1 := by
    rw [hlhs] at h2
    injection h2
  obtain ⟨k1, k2⟩ := hφ _ (List.getElem_mem hi')
  rw [← hff] at k1
  have hd := hasDerivAt_dtime (dtime_smooth k1) τ p
  have hl := linear_dtime h3 φ σ k2 τ p
  have heq : ∀ s ∈ Set.Icc a b, dtime (φ f) s p = exact coords (fun g => φ g s) (Function.update σ "t".toList s) eqs[i].rhs p :=
    fun s hs => (hsol _ he f hlhs s hs p).deriv
  have hu : UniqueDiffWithinAt ℝ (Set.Icc a b) τ := uniqueDiffOn_Icc hab τ hτ
  have hl' := hl.hasDerivWithinAt.congr (s := Set.Icc a b) heq (heq τ hτ)
  have := hu.eq_deriv _ hd.hasDerivWithinAt hl'
  rw [this] at hd
  exact hd

theorem dtime_iter_solves {coords : List Str} {eqs : List Equation} {rows : List (Sy × List LinTerm)} {φ : Sy → ℝ → (Fin coords.length → ℝ) → ℝ}
    {σ : Str → ℝ} {a b : ℝ} (hab : a < b)
    (hlin : List.Forall₂ (fun e r => e.lhs = .deriv r.1 [("t".toList, 1)] ∧ Linear coords e.rhs r.2) eqs rows)
    (hφ : ∀ r ∈ rows, SmoothFamily (φ r.1) ∧ ∀ x ∈ r.2, SmoothFamily (φ x.field)) (hsol : Solves coords eqs φ σ a b) (j : ℕ) :
    Solves coords eqs (fun f => dtime^[j] (φ f)) σ a b := by
  induction j generalizing φ with
  | zero => exact hsol
  | succ j ih =>
    exact ih (φ := fun f => dtime (φ f)) (fun r hr => ⟨dtime_smooth (hφ r hr).1, fun x hx => dtime_smooth ((hφ r hr).2 x hx)⟩)
      (dtime_solves hab hlin hφ hsol)

end Sympkf.Props
