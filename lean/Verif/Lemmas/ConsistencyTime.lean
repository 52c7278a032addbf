import Verif.Lemmas.Consistency
import Verif.Props.Consistency
import Verif.Spec.FullyDiscrete

/-!
# Lemmas: consistency of the arrays of a finite-difference model, uniformly in time

Time is a coordinate that the discretisation does not touch: a family of functions of space indexed by time is a function
of one more variable, and the bounds on balls are uniform in time.
-/

set_option autoImplicit false

namespace Sympkf.Spec.PDE

open Text Sympkf.PDE FinDiff

section Slice
variable {ι : Type} [DecidableEq ι]

/-- Time and space together. -/
def join (τ : ℝ) (p : ι → ℝ) : Option ι → ℝ := fun o => o.elim τ p

/-- A family of functions of space, as one function. -/
def lift (φ : ℝ → (ι → ℝ) → ℝ) : (Option ι → ℝ) → ℝ := fun q => φ (q none) (fun i => q (some i))

omit [DecidableEq ι] in
theorem lift_join (φ : ℝ → (ι → ℝ) → ℝ) (τ : ℝ) (p : ι → ℝ) : lift φ (join τ p) = φ τ p := rfl

theorem lift_update (φ : ℝ → (ι → ℝ) → ℝ) (q : Option ι → ℝ) (i : ι) (s : ℝ) :
    lift φ (Function.update q (some i) s) = φ (q none) (Function.update (fun j => q (some j)) i s) := by
  unfold lift
  congr 1
  funext j
  by_cases h : j = i
  · subst h; simp
  · simp [Function.update_of_ne h, Function.update_of_ne (fun e => h (Option.some.inj e))]

theorem pd_lift (φ : ℝ → (ι → ℝ) → ℝ) (i : ι) : pd (some i) (lift φ) = lift (fun τ => pd i (φ τ)) := by
  funext q
  unfold pd
  simp only [lift_update]
  rfl

theorem pd_iter_lift (i : ι) (o : ℕ) (φ : ℝ → (ι → ℝ) → ℝ) :
    (pd (some i))^[o] (lift φ) = lift (fun τ => (pd i)^[o] (φ τ)) := by
  induction o generalizing φ with
  | zero => rfl
  | succ o ih => rw [Function.iterate_succ_apply, pd_lift, ih]; rfl

theorem pdMixed_lift (L : List (ι × ℕ)) (φ : ℝ → (ι → ℝ) → ℝ) :
    pdMixed (L.map (fun p => (some p.1, p.2))) (lift φ) = lift (fun τ => pdMixed L (φ τ)) := by
  induction L generalizing φ with
  | nil => rfl
  | cons p L ih =>
    rw [List.map_cons]
    show pdMixed _ ((pd (some p.1))^[p.2] (lift φ)) = _
    rw [pd_iter_lift, ih]
    rfl

theorem fdAlong_lift (h : Option ι → ℝ) (i : ι) (o : ℕ) (φ : ℝ → (ι → ℝ) → ℝ) :
    fdAlong h (some i) o (lift φ) = lift (fun τ => fdAlong (fun j => h (some j)) i o (φ τ)) := by
  funext q
  unfold fdAlong
  simp only [lift_update]
  rfl

theorem fdMixed_lift (h : Option ι → ℝ) (L : List (ι × ℕ)) (φ : ℝ → (ι → ℝ) → ℝ) :
    fdMixed h (L.map (fun p => (some p.1, p.2))) (lift φ) = lift (fun τ => fdMixed (fun j => h (some j)) L (φ τ)) := by
  induction L generalizing φ with
  | nil => rfl
  | cons p L ih =>
    rw [List.map_cons]
    show fdMixed h _ (fdAlong h (some p.1) p.2 (lift φ)) = _
    rw [fdAlong_lift, ih]
    rfl

end Slice

variable {d : ℕ}

theorem SmoothFamily.lift {φ : ℝ → (Fin d → ℝ) → ℝ} (h : SmoothFamily φ) : ContDiff ℝ (⊤ : ℕ∞) (lift φ) := by
  have h1 : ContDiff ℝ (⊤ : ℕ∞) (fun q : Option (Fin d) → ℝ => (q none, fun i => q (some i))) :=
    (contDiff_apply ℝ ℝ none).prodMk (contDiff_pi.2 (fun i => contDiff_apply ℝ ℝ (some i)))
  exact h.comp h1

theorem SmoothFamily.at {φ : ℝ → (Fin d → ℝ) → ℝ} (h : SmoothFamily φ) (τ : ℝ) : ContDiff ℝ (⊤ : ℕ∞) (φ τ) :=
  h.comp (contDiff_const.prodMk contDiff_id)

/-- For fine grids, and times in `T`, the arrays differ from the values of `f` by at most a constant times the sum of the
squares of the steps. -/
def CloseOn (T : Set ℝ) (ℓ : Fin d → ℝ) (F : ℝ → (Fin d → ℕ) → Arr d ℝ) (f : ℝ → (Fin d → ℝ) → ℝ) : Prop :=
  ∃ C δ : ℝ, 0 ≤ C ∧ 0 < δ ∧ ∀ τ ∈ T, ∀ n : Fin d → ℕ, (∀ i, 0 < n i) → (∀ i, ℓ i / n i ≤ δ) →
    ∀ idx, (∀ i, idx i < n i) → |F τ n idx - f τ (point ℓ n idx)| ≤ C * ∑ i, (ℓ i / n i) ^ 2

/-- The family is continuous in time and space, for the times in `T`. -/
def ContOn (T : Set ℝ) (f : ℝ → (Fin d → ℝ) → ℝ) : Prop :=
  ContinuousOn (fun q : ℝ × (Fin d → ℝ) => f q.1 q.2) (T ×ˢ Set.univ)

theorem bounded_family {T : Set ℝ} (hT : IsCompact T) {f : ℝ → (Fin d → ℝ) → ℝ} (hf : ContOn T f) (R : ℝ) :
    ∃ C, 0 ≤ C ∧ ∀ τ ∈ T, ∀ x, ‖x‖ ≤ R → |f τ x| ≤ C := by
  obtain ⟨C, hC⟩ := (hT.prod (isCompact_closedBall (0 : Fin d → ℝ) R)).exists_bound_of_continuousOn
    (hf.mono (Set.prod_mono_right (Set.subset_univ _)))
  refine ⟨max C 0, le_max_right _ _, fun τ hτ x hx => le_trans ?_ (le_max_left _ _)⟩
  exact hC (τ, x) ⟨hτ, by simpa using hx⟩

variable {T : Set ℝ} {ℓ : Fin d → ℝ} (hℓ : ∀ i, 0 < ℓ i)

theorem CloseOn.sample (f : ℝ → (Fin d → ℝ) → ℝ) : CloseOn T ℓ (fun τ n => Spec.PDE.sample ℓ n (f τ)) f :=
  ⟨0, 1, le_rfl, one_pos, fun τ _ n _ _ idx _ => by simp [Spec.PDE.sample]⟩

theorem CloseOn.const (c : ℝ → ℝ) : CloseOn T ℓ (fun τ _ _ => c τ) (fun τ _ => c τ) :=
  ⟨0, 1, le_rfl, one_pos, fun τ _ n _ _ idx _ => by simp⟩

theorem CloseOn.add {F G : ℝ → (Fin d → ℕ) → Arr d ℝ} {f g : ℝ → (Fin d → ℝ) → ℝ} (hF : CloseOn T ℓ F f)
    (hG : CloseOn T ℓ G g) : CloseOn T ℓ (fun τ n idx => F τ n idx + G τ n idx) (fun τ p => f τ p + g τ p) := by
  obtain ⟨C, δ, hC, hδ, hF⟩ := hF
  obtain ⟨C', δ', hC', hδ', hG⟩ := hG
  refine ⟨C + C', min δ δ', by positivity, lt_min hδ hδ', fun τ hτ n hn hs idx hidx => ?_⟩
  have h1 := hF τ hτ n hn (fun i => (hs i).trans (min_le_left _ _)) idx hidx
  have h2 := hG τ hτ n hn (fun i => (hs i).trans (min_le_right _ _)) idx hidx
  calc |F τ n idx + G τ n idx - (f τ (point ℓ n idx) + g τ (point ℓ n idx))|
      = |(F τ n idx - f τ (point ℓ n idx)) + (G τ n idx - g τ (point ℓ n idx))| := by ring_nf
    _ ≤ _ := abs_add_le _ _
    _ ≤ _ := by rw [add_mul]; exact add_le_add h1 h2

include hℓ

theorem CloseOn.mul (hT : IsCompact T) {F G : ℝ → (Fin d → ℕ) → Arr d ℝ} {f g : ℝ → (Fin d → ℝ) → ℝ}
    (hF : CloseOn T ℓ F f) (hG : CloseOn T ℓ G g) (hf : ContOn T f) (hg : ContOn T g) :
    CloseOn T ℓ (fun τ n idx => F τ n idx * G τ n idx) (fun τ p => f τ p * g τ p) := by
  obtain ⟨C, δ, hC, hδ, hF⟩ := hF
  obtain ⟨C', δ', hC', hδ', hG⟩ := hG
  obtain ⟨M, hM, hfM⟩ := bounded_family hT hf ‖ℓ‖
  obtain ⟨M', hM', hgM⟩ := bounded_family hT hg ‖ℓ‖
  set δ₀ := min δ δ' with hδ₀
  have hδ₀p : 0 < δ₀ := lt_min hδ hδ'
  refine ⟨C * (M' + C' * (d * δ₀ ^ 2)) + M * C', δ₀, by positivity, hδ₀p, fun τ hτ n hn hs idx hidx => ?_⟩
  have h1 := hF τ hτ n hn (fun i => (hs i).trans (min_le_left _ _)) idx hidx
  have h2 := hG τ hτ n hn (fun i => (hs i).trans (min_le_right _ _)) idx hidx
  have hp := norm_point_le hℓ n hn idx hidx
  have h3 := hfM τ hτ _ hp
  have h4 := hgM τ hτ _ hp
  have hS := sum_sq_le hℓ n hn δ₀ hs
  have hS0 : 0 ≤ ∑ i, (ℓ i / n i) ^ 2 := Finset.sum_nonneg (fun _ _ => sq_nonneg _)
  set S := ∑ i, (ℓ i / n i) ^ 2 with hSdef
  set a := f τ (point ℓ n idx)
  set b := g τ (point ℓ n idx)
  have hG' : |G τ n idx| ≤ M' + C' * (d * δ₀ ^ 2) := by
    have : |G τ n idx| ≤ |G τ n idx - b| + |b| := by
      have := abs_add_le (G τ n idx - b) b
      simpa using this
    have h5 : C' * S ≤ C' * (d * δ₀ ^ 2) := mul_le_mul_of_nonneg_left hS hC'
    linarith
  calc |F τ n idx * G τ n idx - a * b| = |(F τ n idx - a) * G τ n idx + a * (G τ n idx - b)| := by ring_nf
    _ ≤ |(F τ n idx - a) * G τ n idx| + |a * (G τ n idx - b)| := abs_add_le _ _
    _ = |F τ n idx - a| * |G τ n idx| + |a| * |G τ n idx - b| := by rw [abs_mul, abs_mul]
    _ ≤ (C * S) * (M' + C' * (d * δ₀ ^ 2)) + M * (C' * S) :=
        add_le_add (mul_le_mul h1 hG' (abs_nonneg _) (by positivity)) (mul_le_mul h3 h2 (abs_nonneg _) hM)
    _ = (C * (M' + C' * (d * δ₀ ^ 2)) + M * C') * S := by ring

/-- Composition with a function that is Lipschitz on an interval containing a neighbourhood of the values. -/
theorem CloseOn.comp {F : ℝ → (Fin d → ℕ) → Arr d ℝ} {f : ℝ → (Fin d → ℝ) → ℝ} (hF : CloseOn T ℓ F f) (g : ℝ → ℝ)
    (lo hi η k : ℝ) (hη : 0 < η) (hk : 0 ≤ k) (hfr : ∀ τ ∈ T, ∀ p, ‖p‖ ≤ ‖ℓ‖ → lo + η ≤ f τ p ∧ f τ p ≤ hi - η)
    (hg : ∀ x y, lo ≤ x → x ≤ hi → lo ≤ y → y ≤ hi → |g x - g y| ≤ k * |x - y|) :
    CloseOn T ℓ (fun τ n idx => g (F τ n idx)) (fun τ p => g (f τ p)) := by
  obtain ⟨C, δ, hC, hδ, hF⟩ := hF
  set δ₀ := min δ (min 1 (η / (C * d + 1))) with hδ₀
  have hpos : 0 < C * d + 1 := by positivity
  have hδ₀p : 0 < δ₀ := lt_min hδ (lt_min one_pos (div_pos hη hpos))
  refine ⟨k * C, δ₀, by positivity, hδ₀p, fun τ hτ n hn hs idx hidx => ?_⟩
  have h1 := hF τ hτ n hn (fun i => (hs i).trans (min_le_left _ _)) idx hidx
  have hS := sum_sq_le hℓ n hn δ₀ hs
  have hfr := hfr τ hτ _ (norm_point_le hℓ n hn idx hidx)
  set S := ∑ i, (ℓ i / n i) ^ 2 with hSdef
  have hle1 : δ₀ ≤ 1 := (min_le_right _ _).trans (min_le_left _ _)
  have hle2 : δ₀ ≤ η / (C * d + 1) := (min_le_right _ _).trans (min_le_right _ _)
  have hsmall : C * S ≤ η := by
    have h2 : C * S ≤ C * (d * δ₀ ^ 2) := mul_le_mul_of_nonneg_left hS hC
    have h3 : δ₀ ^ 2 ≤ δ₀ := by nlinarith
    have h4 : C * (d * δ₀ ^ 2) ≤ (C * d) * δ₀ := by
      rw [← mul_assoc]; exact mul_le_mul_of_nonneg_left h3 (by positivity)
    have h5 : (C * d) * δ₀ ≤ (C * d + 1) * δ₀ := by nlinarith
    have h6 : (C * d + 1) * δ₀ ≤ η := by
      rw [le_div_iff₀ hpos] at hle2; linarith
    linarith
  have habs := abs_le.1 (h1.trans hsmall)
  refine (hg _ _ (by linarith) (by linarith) (by linarith) (by linarith)).trans ?_
  rw [mul_assoc]
  exact mul_le_mul_of_nonneg_left h1 hk

theorem CloseOn.pow_nat (hT : IsCompact T) {F : ℝ → (Fin d → ℕ) → Arr d ℝ} {f : ℝ → (Fin d → ℝ) → ℝ}
    (hF : CloseOn T ℓ F f) (hf : ContOn T f) (k : ℕ) :
    CloseOn T ℓ (fun τ n idx => F τ n idx ^ k) (fun τ p => f τ p ^ k) := by
  obtain ⟨M, hM, hfM⟩ := bounded_family hT hf ‖ℓ‖
  obtain ⟨c, hc, hl⟩ := lipschitz_on (fun x => x ^ k) (fun x => k * x ^ (k - 1)) (-(M + 1)) (M + 1) (fun x _ _ => hasDerivAt_pow k x)
    (by fun_prop)
  refine hF.comp hℓ (fun x => x ^ k) _ _ 1 c one_pos hc (fun τ hτ p hp => ?_) hl
  have := abs_le.1 (hfM τ hτ p hp)
  constructor <;> linarith

theorem CloseOn.rpow (hT : IsCompact T) {F : ℝ → (Fin d → ℕ) → Arr d ℝ} {f : ℝ → (Fin d → ℝ) → ℝ}
    (hF : CloseOn T ℓ F f) (hf : ContOn T f) (hpos : ∀ τ ∈ T, ∀ p, 0 < f τ p) (q : ℝ) :
    CloseOn T ℓ (fun τ n idx => F τ n idx ^ q) (fun τ p => f τ p ^ q) := by
  rcases T.eq_empty_or_nonempty with rfl | ⟨τ₁, hτ₁⟩
  · exact ⟨0, 1, le_rfl, one_pos, fun τ hτ => absurd hτ (Set.notMem_empty τ)⟩
  obtain ⟨M, hM, hfM⟩ := bounded_family hT hf ‖ℓ‖
  obtain ⟨⟨τ₀, p₀⟩, ⟨hτ₀, hp₀⟩, hmin⟩ := (hT.prod (isCompact_closedBall (0 : Fin d → ℝ) ‖ℓ‖)).exists_isMinOn
    ⟨(τ₁, 0), hτ₁, by simp⟩ (hf.mono (Set.prod_mono_right (Set.subset_univ _)))
  have h0 := hpos τ₀ hτ₀ p₀
  obtain ⟨c, hc, hl⟩ := lipschitz_on (fun x => x ^ q) (fun x => q * x ^ (q - 1)) (f τ₀ p₀ / 2) (M + f τ₀ p₀ / 2)
    (fun x hx _ => Real.hasDerivAt_rpow_const (Or.inl (by linarith)))
    (continuousOn_const.mul (continuousOn_id.rpow_const (fun x hx => Or.inl (by
      have := hx.1
      show x ≠ 0
      linarith))))
  refine hF.comp hℓ (fun x => x ^ q) _ _ (f τ₀ p₀ / 2) c (by linarith) hc (fun τ hτ p hp => ?_) hl
  have h1 := abs_le.1 (hfM τ hτ p hp)
  have h2 : f τ₀ p₀ ≤ f τ p := hmin (a := (τ, p)) ⟨hτ, by simpa using hp⟩
  constructor <;> linarith

end Sympkf.Spec.PDE

namespace Sympkf.Props

open Text PDE Spec.PDE FinDiff

/-- The generated code of a derivative is close to the derivative, uniformly in time. -/
theorem closeOn_fdDiff {coords : List Str} (hc : coords.Nodup) (ht : time ∉ coords) {T : Set ℝ} (hT : IsCompact T)
    {ℓ : Fin coords.length → ℝ} (hℓ : ∀ i, 0 < ℓ i)
    (f : ℝ → (Fin coords.length → ℝ) → ℝ) (hs : SmoothFamily f) (hp : ∀ τ, Periodic ℓ (f τ)) (vars : List (Str × ℕ))
    (hv : ∀ v ∈ vars, v.1 ∈ coords) :
    CloseOn T ℓ (fun τ n => fdDiff coords n (fun i => ℓ i / n i) vars (sample ℓ n (f τ)))
      (fun τ => pdMixed (axesOf coords vars) (f τ)) := by
  obtain ⟨B, hB⟩ := hT.isBounded.exists_norm_le
  obtain ⟨C, hC⟩ := C30_mixed_second_order ((axesOf coords vars).map (fun p => (some p.1, p.2))) (lift f) hs.lift (max ‖ℓ‖ B)
  refine ⟨|C| * (axesOf coords vars).length, 1, by positivity, one_pos, fun τ hτ n hn hs' idx hidx => ?_⟩
  have hn0 : ∀ i, (0 : ℝ) < n i := fun i => by exact_mod_cast hn i
  have hpos : ∀ i, 0 < ℓ i / n i := fun i => div_pos (hℓ i) (hn0 i)
  have hbox : idx ∈ box n := (mem_box n idx).2 hidx
  have e : fdDiff coords n (fun i => ℓ i / n i) vars (sample ℓ n (f τ)) idx
      = fdMixed (fun i => ℓ i / n i) (axesOf coords vars) (f τ) (point ℓ n idx) := by
    unfold fdDiff
    rw [shifted_zero]
    conv_lhs => rw [← axesOf_map coords vars hv]
    rw [codeValue_fdExpr n _ (fun i => (hpos i).ne') hc ht,
      ← gridMixed_sample ℓ n hn (fun i => (hpos i).ne') (f τ) (hp τ) _ idx hbox]
    · refine gridMixed_congr n _ (fun i => (hpos i).ne') _ _ _ (fun j hj => ?_) idx hbox
      congr 1
      funext i
      exact gridIndex_zero _ _ ((mem_box n j).1 hj i)
    · exact hbox
  show |fdDiff coords n (fun i => ℓ i / n i) vars (sample ℓ n (f τ)) idx - _| ≤ _
  rw [e]
  have hnorm : ‖join τ (point ℓ n idx)‖ ≤ max ‖ℓ‖ B := by
    refine (pi_norm_le_iff_of_nonneg (le_max_of_le_left (norm_nonneg _))).2 (fun o => ?_)
    cases o with
    | none => exact (hB τ hτ).trans (le_max_right _ _)
    | some i => exact (norm_le_pi_norm (point ℓ n idx) i).trans ((norm_point_le hℓ n hn idx hidx).trans (le_max_left _ _))
  have h2 := hC (fun o => o.elim 1 (fun i => ℓ i / n i)) (fun o => by cases o with
      | none => exact one_ne_zero
      | some i => exact (hpos i).ne')
    (fun o => by cases o with
      | none => simp
      | some i => simp only [Option.elim_some]; rw [abs_of_pos (hpos i)]; exact hs' i)
    (join τ (point ℓ n idx)) hnorm
  rw [fdMixed_lift, pdMixed_lift, lift_join, lift_join, List.map_map] at h2
  simp only [Function.comp_def, Option.elim_some] at h2
  refine h2.trans ?_
  have h1 := sum_axes_le (axesOf coords vars) (fun i => ℓ i / n i)
  have h0 : 0 ≤ ((axesOf coords vars).map (fun p => (ℓ p.1 / n p.1) ^ 2)).sum :=
    List.sum_nonneg (by intro x hx; obtain ⟨p, -, rfl⟩ := List.mem_map.1 hx; exact sq_nonneg _)
  calc C * ((axesOf coords vars).map (fun p => (ℓ p.1 / n p.1) ^ 2)).sum
      ≤ |C| * ((axesOf coords vars).map (fun p => (ℓ p.1 / n p.1) ^ 2)).sum := mul_le_mul_of_nonneg_right (le_abs_self C) h0
    _ ≤ |C| * ((axesOf coords vars).length * ∑ i, (ℓ i / n i) ^ 2) := mul_le_mul_of_nonneg_left h1 (abs_nonneg C)
    _ = _ := by ring

theorem contOn_of_smooth {d : ℕ} {T : Set ℝ} {f : ℝ → (Fin d → ℝ) → ℝ} (h : SmoothFamily f) : ContOn T f :=
  h.continuous.continuousOn

theorem closeOn_rhs {coords : List Str} (hc : coords.Nodup) (ht : time ∉ coords) {T : Set ℝ} (hT : IsCompact T)
    {ℓ : Fin coords.length → ℝ} (hℓ : ∀ i, 0 < ℓ i)
    (φ : Sy → ℝ → (Fin coords.length → ℝ) → ℝ) (σ : ℝ → Str → ℝ) (hσ : ∀ s, ContinuousOn (fun τ => σ τ s) T) (e : Sy)
    (hφ : ∀ f ∈ e.functions, SmoothFamily (φ f) ∧ ∀ τ, Periodic ℓ (φ f τ))
    (hr : ∀ τ ∈ T, Regular coords (fun f => φ f τ) (σ τ) e) :
    ContOn T (fun τ => exact coords (fun f => φ f τ) (σ τ) e) ∧
    CloseOn T ℓ (fun τ n => rhsValue (fdArith coords n (fun i => ℓ i / n i)) (gridVal ℓ (fun f => φ f τ) (σ τ) n) e)
      (fun τ => exact coords (fun f => φ f τ) (σ τ) e) := by
  rcases T.eq_empty_or_nonempty with rfl | ⟨τ₁, hτ₁⟩
  · exact ⟨by simp [ContOn], 0, 1, le_rfl, one_pos, fun τ hτ => absurd hτ (Set.notMem_empty τ)⟩
  induction e with
  | num q => exact ⟨continuousOn_const, CloseOn.const (fun _ => (q : ℝ))⟩
  | sym k s => exact ⟨(hσ s).comp continuousOn_fst (fun q hq => hq.1), CloseOn.const (fun τ => σ τ s)⟩
  | fn u args => exact ⟨contOn_of_smooth (hφ _ (by simp [Sy.functions])).1, CloseOn.sample _⟩
  | func g a => exact ⟨contOn_of_smooth (hφ _ (by simp [Sy.functions])).1, CloseOn.sample _⟩
  | add a b iha ihb =>
    obtain ⟨h1, h2⟩ := iha (fun f hf => hφ f (by simp [Sy.functions, hf])) (fun τ hτ => (hr τ hτ).1)
    obtain ⟨h3, h4⟩ := ihb (fun f hf => hφ f (by simp [Sy.functions, hf])) (fun τ hτ => (hr τ hτ).2)
    exact ⟨ContinuousOn.add h1 h3, h2.add h4⟩
  | mul a b iha ihb =>
    obtain ⟨h1, h2⟩ := iha (fun f hf => hφ f (by simp [Sy.functions, hf])) (fun τ hτ => (hr τ hτ).1)
    obtain ⟨h3, h4⟩ := ihb (fun f hf => hφ f (by simp [Sy.functions, hf])) (fun τ hτ => (hr τ hτ).2)
    exact ⟨ContinuousOn.mul h1 h3, h2.mul hℓ hT h4 h1 h3⟩
  | pow a b iha _ =>
    obtain ⟨h1, h2⟩ := iha (fun f hf => hφ f (by simp [Sy.functions, hf])) (fun τ hτ => (hr τ hτ).1)
    obtain ⟨-, q, rfl, -⟩ := hr τ₁ hτ₁
    by_cases hk : ∃ k : ℕ, q = k
    · obtain ⟨k, rfl⟩ := hk
      have e1 : (fun τ => exact coords (fun f => φ f τ) (σ τ) (.pow a (.num (k : ℚ)))) =
          fun τ p => exact coords (fun f => φ f τ) (σ τ) a p ^ k := by
        funext τ p
        show exact coords (fun f => φ f τ) (σ τ) a p ^ (((k : ℚ) : ℝ)) = _
        rw [Rat.cast_natCast, Real.rpow_natCast]
      have e2 : (fun τ n => rhsValue (fdArith coords n (fun i => ℓ i / n i)) (gridVal ℓ (fun f => φ f τ) (σ τ) n)
            (.pow a (.num (k : ℚ))))
          = fun τ n idx => rhsValue (fdArith coords n (fun i => ℓ i / n i)) (gridVal ℓ (fun f => φ f τ) (σ τ) n) a idx ^ k := by
        funext τ n idx
        show _ ^ (((k : ℚ) : ℝ)) = _
        rw [Rat.cast_natCast, Real.rpow_natCast]
      rw [e1, e2]
      exact ⟨ContinuousOn.pow h1 k, h2.pow_nat hℓ hT h1 k⟩
    · have hpos : ∀ τ ∈ T, ∀ p, 0 < exact coords (fun f => φ f τ) (σ τ) a p := by
        intro τ hτ
        obtain ⟨-, q', hq', h⟩ := hr τ hτ
        obtain rfl : q = q' := by injection hq'
        exact h.resolve_left hk
      exact ⟨ContinuousOn.rpow_const h1 (fun x hx => Or.inl (hpos x.1 hx.1 x.2).ne'), h2.rpow hℓ hT h1 hpos (q : ℝ)⟩
  | deriv a vars _ =>
    obtain ⟨⟨u, args, rfl, hargs⟩, hv⟩ := hr τ₁ hτ₁
    obtain ⟨h1, h2⟩ := hφ (.fn u args) (by simp [Sy.functions])
    refine ⟨?_, closeOn_fdDiff hc ht hT hℓ _ h1 h2 vars hv⟩
    have h3 := (pdMixed_smooth ((axesOf coords vars).map (fun p => (some p.1, p.2))) _ h1.lift).continuous
    rw [pdMixed_lift] at h3
    have h4 : Continuous (fun q : ℝ × (Fin coords.length → ℝ) => join q.1 q.2) :=
      continuous_pi (fun o => by cases o with
        | none => exact continuous_fst
        | some i => exact (continuous_apply i).comp continuous_snd)
    exact (h3.comp h4).continuousOn

end Sympkf.Props
