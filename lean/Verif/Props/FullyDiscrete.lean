import Verif.Lemmas.ConsistencyTime
import Verif.Lemmas.OneStep
import Verif.Props.Forecast

/-!
# C88: forecasts with the generated finite-difference models converge in space and time
-/

set_option autoImplicit false

namespace Sympkf.Props

open Text PDE Spec.PDE FinDiff

section Time
variable {d : ℕ}

/-- The time derivative of a family. -/
noncomputable def dtime (φ : ℝ → (Fin d → ℝ) → ℝ) : ℝ → (Fin d → ℝ) → ℝ := fun s p => deriv (fun s => φ s p) s

theorem hasDerivAt_time {φ : ℝ → (Fin d → ℝ) → ℝ} (h : SmoothFamily φ) (s : ℝ) (p : Fin d → ℝ) :
    HasDerivAt (fun s => φ s p) (fderiv ℝ (fun q : ℝ × (Fin d → ℝ) => φ q.1 q.2) (s, p) (1, 0)) s := by
  have h1 : HasFDerivAt (fun q : ℝ × (Fin d → ℝ) => φ q.1 q.2) _ (s, p) := (h.differentiable (by simp) (s, p)).hasFDerivAt
  exact h1.comp_hasDerivAt (f := fun s => (s, p)) s ((hasDerivAt_id s).prodMk (hasDerivAt_const s p))

theorem dtime_smooth {φ : ℝ → (Fin d → ℝ) → ℝ} (h : SmoothFamily φ) : SmoothFamily (dtime φ) := by
  have e : (fun q : ℝ × (Fin d → ℝ) => dtime φ q.1 q.2) =
      fun q => fderiv ℝ (fun q : ℝ × (Fin d → ℝ) => φ q.1 q.2) q (1, 0) :=
    funext (fun q => (hasDerivAt_time h q.1 q.2).deriv)
  unfold SmoothFamily
  rw [e]
  exact (h.fderiv_right (m := (⊤ : ℕ∞)) (by simp)).clm_apply contDiff_const

theorem hasDerivAt_dtime {φ : ℝ → (Fin d → ℝ) → ℝ} (h : SmoothFamily φ) (s : ℝ) (p : Fin d → ℝ) :
    HasDerivAt (fun s => φ s p) (dtime φ s p) s := (hasDerivAt_time h s p).differentiableAt.hasDerivAt

/-- One step of Euler's method, uniformly on a ball. -/
theorem time_taylor {φ : ℝ → (Fin d → ℝ) → ℝ} (h : SmoothFamily φ) (a b R : ℝ) :
    ∃ M, 0 ≤ M ∧ ∀ p, ‖p‖ ≤ R → ∀ τ τ', a ≤ τ → τ ≤ τ' → τ' ≤ b → ∀ D, HasDerivAt (fun s => φ s p) D τ →
      |φ τ' p - φ τ p - (τ' - τ) * D| ≤ M * (τ' - τ) ^ 2 := by
  obtain ⟨M, hM, hb⟩ := bounded_family (isCompact_Icc (a := a) (b := b)) (contOn_of_smooth (dtime_smooth (dtime_smooth h))) R
  refine ⟨M, hM, fun p hp τ τ' h1 h2 h3 D hD => ?_⟩
  have h4 : ∀ s ∈ Set.Icc τ τ', |dtime φ s p - D| ≤ M * (τ' - τ) := by
    intro s hs
    rw [hD.unique (hasDerivAt_dtime h τ p)]
    have := (convex_Icc τ τ').norm_image_sub_le_of_norm_hasDerivWithin_le (f := fun s => dtime φ s p)
      (f' := fun s => dtime (dtime φ) s p) (C := M)
      (fun s _ => (hasDerivAt_dtime (dtime_smooth h) s p).hasDerivWithinAt)
      (fun s hs => hb s ⟨h1.trans hs.1, hs.2.trans h3⟩ p hp) (Set.left_mem_Icc.2 h2) hs
    refine this.trans (mul_le_mul_of_nonneg_left ?_ hM)
    rw [Real.norm_of_nonneg (by linarith [hs.1])]
    linarith [hs.2]
  have := (convex_Icc τ τ').norm_image_sub_le_of_norm_hasDerivWithin_le (f := fun s => φ s p - s * D)
      (f' := fun s => dtime φ s p - 1 * D) (C := M * (τ' - τ))
      (fun s _ => ((hasDerivAt_dtime h s p).sub ((hasDerivAt_id s).mul_const D)).hasDerivWithinAt)
      (fun s hs => by rw [one_mul]; exact h4 s hs) (Set.left_mem_Icc.2 h2) (Set.right_mem_Icc.2 h2)
  rw [Real.norm_of_nonneg (by linarith : 0 ≤ τ' - τ)] at this
  calc |φ τ' p - φ τ p - (τ' - τ) * D| = ‖φ τ' p - τ' * D - (φ τ p - τ * D)‖ := by rw [Real.norm_eq_abs]; congr 1; ring
    _ ≤ _ := this
    _ = _ := by ring

end Time

/-- Finitely many families: common constants. -/
theorem closeOn_all {d : ℕ} {T : Set ℝ} {ℓ : Fin d → ℝ} {α : Type} (l : List α) (F : α → ℝ → (Fin d → ℕ) → Arr d ℝ)
    (f : α → ℝ → (Fin d → ℝ) → ℝ) (h : ∀ a ∈ l, CloseOn T ℓ (F a) (f a)) :
    ∃ C δ : ℝ, 0 ≤ C ∧ 0 < δ ∧ ∀ τ ∈ T, ∀ n : Fin d → ℕ, (∀ i, 0 < n i) → (∀ i, ℓ i / n i ≤ δ) → ∀ idx, (∀ i, idx i < n i) →
      ∀ a ∈ l, |F a τ n idx - f a τ (point ℓ n idx)| ≤ C * ∑ i, (ℓ i / n i) ^ 2 := by
  induction l with
  | nil => exact ⟨0, 1, le_rfl, one_pos, fun _ _ _ _ _ _ _ a ha => by simp at ha⟩
  | cons a l ih =>
    obtain ⟨C, δ, hC, hδ, h1⟩ := ih (fun b hb => h b (List.mem_cons_of_mem _ hb))
    obtain ⟨C', δ', -, hδ', h2⟩ := h a List.mem_cons_self
    refine ⟨max C C', min δ δ', le_max_of_le_left hC, lt_min hδ hδ', fun τ hτ n hn hs idx hidx b hb => ?_⟩
    have hS0 : 0 ≤ ∑ i, (ℓ i / n i) ^ 2 := Finset.sum_nonneg (fun _ _ => sq_nonneg _)
    rcases List.mem_cons.1 hb with rfl | hb
    · exact (h2 τ hτ n hn (fun i => (hs i).trans (min_le_right _ _)) idx hidx).trans
        (mul_le_mul_of_nonneg_right (le_max_right _ _) hS0)
    · exact (h1 τ hτ n hn (fun i => (hs i).trans (min_le_left _ _)) idx hidx b hb).trans
        (mul_le_mul_of_nonneg_right (le_max_left _ _) hS0)

theorem taylor_all {d : ℕ} {α : Type} (l : List α) (φ : α → ℝ → (Fin d → ℝ) → ℝ) (h : ∀ f ∈ l, SmoothFamily (φ f)) (a b R : ℝ) :
    ∃ M, 0 ≤ M ∧ ∀ f ∈ l, ∀ p, ‖p‖ ≤ R → ∀ τ τ', a ≤ τ → τ ≤ τ' → τ' ≤ b → ∀ D, HasDerivAt (fun s => φ f s p) D τ →
      |φ f τ' p - φ f τ p - (τ' - τ) * D| ≤ M * (τ' - τ) ^ 2 := by
  induction l with
  | nil => exact ⟨0, le_rfl, fun f hf => by simp at hf⟩
  | cons g l ih =>
    obtain ⟨M, hM, h1⟩ := ih (fun f hf => h f (List.mem_cons_of_mem _ hf))
    obtain ⟨M', -, h2⟩ := time_taylor (h g List.mem_cons_self) a b R
    refine ⟨max M M', le_max_of_le_left hM, fun f hf p hp τ τ' k1 k2 k3 D hD => ?_⟩
    rcases List.mem_cons.1 hf with rfl | hf
    · exact (h2 p hp τ τ' k1 k2 k3 D hD).trans (mul_le_mul_of_nonneg_right (le_max_right _ _) (sq_nonneg _))
    · exact (h1 f hf p hp τ τ' k1 k2 k3 D hD).trans (mul_le_mul_of_nonneg_right (le_max_left _ _) (sq_nonneg _))

/-- The values of the unknowns on the grid. -/
noncomputable def sampled {d : ℕ} (ℓ : Fin d → ℝ) (φ : Sy → ℝ → (Fin d → ℝ) → ℝ) (s : System) (n : Fin d → ℕ) (τ : ℝ) :
    Fin s.prognostic.length → Arr d ℝ := fun k => sample ℓ n (φ s.prognostic[k] τ)

theorem exists_values {α β : Type} [Inhabited β] (l : List α) (hl : l.Nodup) (v : List β) (h : l.length = v.length) :
    ∃ ρ : α → β, l.map ρ = v := by
  classical
  induction l generalizing v with
  | nil => exact ⟨fun _ => default, by cases v with
      | nil => rfl
      | cons b v => simp at h⟩
  | cons a l ih =>
    cases v with
    | nil => simp at h
    | cons b v =>
      obtain ⟨ρ, hρ⟩ := ih (List.nodup_cons.1 hl).2 v (by simpa using h)
      refine ⟨Function.update ρ a b, ?_⟩
      rw [List.map_cons, Function.update_self, ← hρ]
      congr 1
      refine List.map_congr_left (fun c hc => Function.update_of_ne ?_ _ _)
      rintro rfl
      exact (List.nodup_cons.1 hl).1 hc

theorem time_not_constant (iter : List Sy → List Sy) (hi : ∀ l, (iter l).Perm l) (eqs : List Equation) (s : System)
    (h : System.build iter eqs = .ok s) : Sy.sym .plain "t".toList ∉ s.constants := by
  intro hc
  obtain ⟨k, n, -, -, h1, -⟩ := (C63_constants iter hi eqs s h _).1 hc
  rw [(C63_coordinates iter eqs s h).2] at h1
  exact h1 List.mem_cons_self

theorem prognostic_length (iter : List Sy → List Sy) (hi : ∀ l, (iter l).Perm l) (eqs : List Equation) (s : System)
    (h : System.build iter eqs = .ok s) (he : Evolution s.coordinates eqs) : eqs.length = s.prognostic.length := by
  have := congrArg List.length (C64_slots iter hi eqs s h he.toEvolves)
  simpa using this.symm

/-- **C88** The generated method `trend` is a vector field on the states: it never raises, whatever the state, the time and the
attributes of the object. -/
theorem C88_vector_field {d : ℕ} (iter : List Sy → List Sy) (hi : ∀ l, (iter l).Perm l) (eqs : List Equation) (s : System)
    (h : System.build iter eqs = .ok s) (he : Evolution s.coordinates eqs) (hn : WellNamed s)
    (A : Arith (Arr d ℝ)) (O : ℝ → Obj (Arr d ℝ))
    (hex : s.exogenous = [] ∨ ∀ t, ∃ l, (O t).exogenous = some l ∧ l.length = s.exogenous.length) :
    ∃ F : ℝ → (Fin s.prognostic.length → Arr d ℝ) → Fin s.prognostic.length → Arr d ℝ, Implements s A O F := by
  have hlen := prognostic_length iter hi eqs s h he
  have key : ∀ (t : ℝ) (U : Fin s.prognostic.length → Arr d ℝ), ∃ V : Fin s.prognostic.length → Arr d ℝ, ∃ m, s.trend A (O t) (fun _ => t) (List.ofFn U) = .ok m ∧
      m.out = List.ofFn V := by
    intro t U
    obtain ⟨ex, hex1, hex2⟩ : ∃ ex : List (Arr d ℝ), s.exogenous.length = ex.length ∧
        (s.exogenous = [] ∨ (O t).exogenous = some ex) := by
      rcases hex with hex | hex
      · exact ⟨[], by rw [hex]; rfl, .inl hex⟩
      · obtain ⟨l, h1, h2⟩ := hex t
        exact ⟨l, h2.symm, .inr h1⟩
    have hnd : (s.prognostic ++ s.constantFunctions ++ s.exogenous).Nodup := by
      refine List.Nodup.of_map Sy.keyvar (List.Nodup.sublist ?_ hn.1)
      unfold localNames
      rw [List.map_append, List.map_append]
      refine .cons _ (.trans (.append ?_ (.refl _)) (List.sublist_append_left _ _))
      exact .trans (.append (List.sublist_append_right _ _) (.refl _)) (List.sublist_append_left _ _)
    obtain ⟨ρ, hρ⟩ := exists_values _ hnd (List.ofFn U ++ s.constantFunctions.map (fun f => (O t).attr f.keyvar) ++ ex)
      (by simp [hex1])
    rw [List.map_append, List.map_append] at hρ
    obtain ⟨hρ1, hρ3⟩ := List.append_inj hρ (by simp)
    obtain ⟨hρ1, hρ2⟩ := List.append_inj hρ1 (by simp)
    obtain ⟨m, hm, hout, -⟩ := C64_trend_partial iter hi eqs s h he hn A (O t) (fun _ => t) (List.ofFn U)
      ⟨ρ, fun n => if n = "t".toList then fun _ => t else (O t).attr (cleanLatexName n)⟩ hρ1.symm (by simp)
      (fun f hf => (List.map_inj_left.1 hρ2 f hf).symm)
      (fun n hc => (if_neg (fun e : n = "t".toList => time_not_constant iter hi eqs s h (e ▸ hc))).symm)
      (by rw [hρ3]; exact hex2)
    have hl : m.out.length = s.prognostic.length := by rw [hout, List.length_map, hlen]
    refine ⟨fun k => m.out[k]'(by rw [hl]; exact k.2), m, hm, ?_⟩
    refine List.ext_getElem (hl.trans List.length_ofFn.symm) (fun i h1 h2 => ?_)
    rw [List.getElem_ofFn]
    rfl
  choose F m hF using key
  exact ⟨F, fun t U => ⟨m t U, hF t U⟩⟩

theorem ofFn_sampled {d : ℕ} (ℓ : Fin d → ℝ) (φ : Sy → ℝ → (Fin d → ℝ) → ℝ) (s : System) (n : Fin d → ℕ) (τ : ℝ) :
    List.ofFn (sampled ℓ φ s n τ) = s.prognostic.map (fun f => sample ℓ n (φ f τ)) := by
  refine List.ext_getElem (by simp) (fun i h1 h2 => ?_)
  rw [List.getElem_ofFn, List.getElem_map]
  rfl

theorem local_error (iter : List Sy → List Sy) (hi : ∀ l, (iter l).Perm l) (eqs : List Equation) (s : System)
    (h : System.build iter eqs = .ok s) (he : Evolution s.coordinates eqs) (hn : WellNamed s)
    (coords : List Str) (_hcoords : s.spatialCoordinates = coords.map (Sy.sym .plain)) (hc : coords.Nodup) (ht : "t".toList ∉ coords)
    (ℓ : Fin coords.length → ℝ) (hℓ : ∀ i, 0 < ℓ i) (φ : Sy → ℝ → (Fin coords.length → ℝ) → ℝ) (σ : Str → ℝ) {a b : ℝ}
    (hφ : ∀ f, IsFunction f → InSystem eqs f → SmoothFamily (φ f) ∧ ∀ τ, Periodic ℓ (φ f τ))
    (hr : ∀ τ ∈ Set.Icc a b, ∀ e ∈ eqs, Regular coords (fun f => φ f τ) (Function.update σ "t".toList τ) e.rhs)
    (hsol : Solves coords eqs φ σ a b) :
    ∃ M C₁ δ₁ : ℝ, 0 ≤ M ∧ 0 ≤ C₁ ∧ 0 < δ₁ ∧ ∀ n : Fin coords.length → ℕ, (∀ i, 0 < n i) → (∀ i, ℓ i / n i ≤ δ₁) →
      ∀ O : ℝ → Obj (Arr coords.length ℝ),
      (∀ t ∈ Set.Icc a b, (∀ f ∈ s.constantFunctions, (O t).attr f.keyvar = sample ℓ n (φ f t)) ∧
        (∀ c, Sy.sym .plain c ∈ s.constants → (O t).attr (cleanLatexName c) = fun _ => σ c) ∧
        (s.exogenous = [] ∨ (O t).exogenous = some (s.exogenous.map (fun f => sample ℓ n (φ f t))))) →
      ∀ F : ℝ → (Fin s.prognostic.length → Arr coords.length ℝ) → Fin s.prognostic.length → Arr coords.length ℝ,
      Implements s (fdArith coords n (fun i => ℓ i / n i)) O F →
      ∀ η τ τ', a ≤ τ → τ ≤ τ' → τ' ≤ b → τ' - τ ≤ η → ∀ k idx, (∀ i, idx i < n i) →
      |sampled ℓ φ s n τ k idx + (τ' - τ) * F τ (sampled ℓ φ s n τ) k idx - sampled ℓ φ s n τ' k idx| ≤
        (τ' - τ) * (M * η + C₁ * ∑ i, (ℓ i / n i) ^ 2) := by
  have hlen := prognostic_length iter hi eqs s h he
  have hslots := C64_slots iter hi eqs s h he.toEvolves
  have hprog : ∀ f ∈ s.prognostic, SmoothFamily (φ f) := by
    intro f hf
    have hm := List.mem_map_of_mem (f := fun f => Sy.deriv f [("t".toList, 1)]) hf
    rw [hslots] at hm
    obtain ⟨e, hee, hlhs⟩ := List.mem_map.1 hm
    obtain ⟨u, args, hu⟩ := he.lhs e hee
    rw [hu] at hlhs
    injection hlhs with hf'
    subst hf'
    exact (hφ (.fn u args) trivial ⟨e, hee, .inl (by rw [hu]; exact .deriv _ .refl)⟩).1
  obtain ⟨C₁, δ₁, hC₁, hδ₁, hclose⟩ := closeOn_all (T := Set.Icc a b) (ℓ := ℓ) eqs
    (fun e τ n => rhsValue (fdArith coords n (fun i => ℓ i / n i)) (gridVal ℓ (fun f => φ f τ) (Function.update σ "t".toList τ) n) e.rhs)
    (fun e τ => exact coords (fun f => φ f τ) (Function.update σ "t".toList τ) e.rhs)
    (fun e hee => (closeOn_rhs hc ht isCompact_Icc hℓ φ (fun τ => Function.update σ "t".toList τ)
      (fun s => by
        by_cases hs : s = "t".toList
        · subst hs; simp only [Function.update_self]; exact continuousOn_id
        · simp only [Function.update_of_ne hs]; exact continuousOn_const) e.rhs
      (fun f hf => by
        obtain ⟨h1, h2⟩ := (mem_functions_iff f _).1 hf
        exact hφ f h1 ⟨e, hee, .inr h2⟩) (fun τ hτ => hr τ hτ e hee)).2)
  obtain ⟨M, hM, htay⟩ := taylor_all s.prognostic φ hprog a b ‖ℓ‖
  refine ⟨M, C₁, δ₁, hM, hC₁, hδ₁, fun n hn' hs O hO F hF η τ τ' h1 h2 h3 h4 k idx hidx => ?_⟩
  set S := ∑ i, (ℓ i / n i) ^ 2 with hS
  have hτ : τ ∈ Set.Icc a b := ⟨h1, h2.trans h3⟩
  obtain ⟨o1, o2, o3⟩ := hO τ hτ
  obtain ⟨m, hm, hout⟩ := hF τ (sampled ℓ φ s n τ)
  obtain ⟨m', hm', hout', -⟩ := C64_trend_partial iter hi eqs s h he hn (fdArith coords n (fun i => ℓ i / n i)) (O τ)
    (fun _ => τ) (s.prognostic.map (fun f => sample ℓ n (φ f τ)))
    (gridVal ℓ (fun f => φ f τ) (Function.update σ "t".toList τ) n) rfl (by simp [gridVal]) o1
    (fun c hc' => by
      rw [o2 c hc']
      have : c ≠ "t".toList := fun e => time_not_constant iter hi eqs s h (e ▸ hc')
      show (fun _ => σ c) = fun _ => Function.update σ "t".toList τ c
      rw [Function.update_of_ne this]) o3
  rw [ofFn_sampled, hm'] at hm
  injection hm with hm
  rw [← hm, hout'] at hout
  have hk : (k : ℕ) < eqs.length := by rw [hlen]; exact k.2
  have hFk : F τ (sampled ℓ φ s n τ) k = rhsValue (fdArith coords n (fun i => ℓ i / n i))
      (gridVal ℓ (fun f => φ f τ) (Function.update σ "t".toList τ) n) eqs[(k : ℕ)].rhs := by
    have := congrArg (fun l => l[(k : ℕ)]?) hout
    simp only [List.getElem?_map, List.getElem?_eq_getElem hk, Option.map_some, List.getElem?_ofFn, k.2, dite_true,
      Option.some.injEq] at this
    exact this.symm
  have hlhs : eqs[(k : ℕ)].lhs = .deriv s.prognostic[(k : ℕ)] [("t".toList, 1)] := by
    have := congrArg (fun l => l[(k : ℕ)]?) hslots
    simp only [List.getElem?_map, List.getElem?_eq_getElem hk, List.getElem?_eq_getElem k.2, Option.map_some,
      Option.some.injEq] at this
    exact this.symm
  have hee : eqs[(k : ℕ)] ∈ eqs := List.getElem_mem hk
  have hp := norm_point_le hℓ n hn' idx hidx
  have l1 := hclose τ hτ n hn' hs idx hidx _ hee
  have l2 := htay s.prognostic[(k : ℕ)] (List.getElem_mem _) (point ℓ n idx) hp τ τ' h1 h2 h3 _
    (hsol _ hee _ hlhs τ hτ (point ℓ n idx))
  rw [hFk]
  set D := exact coords (fun g => φ g τ) (Function.update σ "t".toList τ) eqs[(k : ℕ)].rhs (point ℓ n idx)
  set G := rhsValue (fdArith coords n (fun i => ℓ i / n i)) (gridVal ℓ (fun f => φ f τ) (Function.update σ "t".toList τ) n)
    eqs[(k : ℕ)].rhs idx
  have hh : 0 ≤ τ' - τ := by linarith
  show |φ s.prognostic[(k : ℕ)] τ (point ℓ n idx) + (τ' - τ) * G - φ s.prognostic[(k : ℕ)] τ' (point ℓ n idx)| ≤ _
  calc |φ s.prognostic[(k : ℕ)] τ (point ℓ n idx) + (τ' - τ) * G - φ s.prognostic[(k : ℕ)] τ' (point ℓ n idx)|
      = |(τ' - τ) * (G - D) - (φ s.prognostic[(k : ℕ)] τ' (point ℓ n idx) - φ s.prognostic[(k : ℕ)] τ (point ℓ n idx)
          - (τ' - τ) * D)| := by congr 1; ring
    _ ≤ |(τ' - τ) * (G - D)| + M * (τ' - τ) ^ 2 := (abs_sub _ _).trans (add_le_add le_rfl l2)
    _ = (τ' - τ) * |G - D| + M * (τ' - τ) ^ 2 := by rw [abs_mul, abs_of_nonneg hh]
    _ ≤ (τ' - τ) * (C₁ * S) + M * ((τ' - τ) * η) := by
        refine add_le_add (mul_le_mul_of_nonneg_left l1 hh) (mul_le_mul_of_nonneg_left ?_ hM)
        rw [sq]; exact mul_le_mul_of_nonneg_left h4 hh
    _ = _ := by ring

/-- A stable method with small local errors converges. -/
theorem lax {d N : ℕ} (n : Fin d → ℕ) (F : ℝ → (Fin N → Arr d ℝ) → Fin N → Arr d ℝ) (V : ℝ → Fin N → Arr d ℝ) {a b η K r B e0 : ℝ}
    (hK : 0 ≤ K) (hB0 : 0 ≤ B) (he0 : 0 ≤ e0)
    (hloc : ∀ τ τ', a ≤ τ → τ ≤ τ' → τ' ≤ b → τ' - τ ≤ η → ∀ k idx, (∀ i, idx i < n i) →
      |V τ k idx + (τ' - τ) * F τ (V τ) k idx - V τ' k idx| ≤ (τ' - τ) * B)
    (hsmall : Real.exp (K * (b - a)) * (e0 + B * (b - a)) ≤ r) (window : List ℝ) (hw : Spec.Partition a b η window)
    (hst : ∀ (i : ℕ) t t', window[i]? = some t → window[i + 1]? = some t' → StableAt n (F t) (V t) (t' - t) K r)
    (U0 : Fin N → Arr d ℝ) (hU0 : Within n e0 U0 (V a)) (saved : List ℝ) :
    ∃ fc, Integrator.forecast (Integrator.step .euler (.fn F)) window (.single U0) (.list saved) = .ok fc ∧
      ∀ τ ∈ window, τ ∈ saved → ∃ U, fc.get? τ = some (.single U) ∧
        Within n (Real.exp (K * (b - a)) * (e0 + B * (b - a))) U (V τ) := by
  obtain ⟨fc, xs, hfc, hxs, hval⟩ := Integrator.C01_forecast_scheme .euler Integrator.euler rfl F window
    (by rintro rfl; simpa using hw.start) U0 saved
  set err : ℝ → ℝ := fun t => Real.exp (K * (t - a)) * (e0 + B * (t - a)) with herr
  have herr_le : ∀ t ∈ Set.Icc a b, err t ≤ err b := by
    intro t htt
    have h1 : Real.exp (K * (t - a)) ≤ Real.exp (K * (b - a)) :=
      Real.exp_le_exp.2 (mul_le_mul_of_nonneg_left (by linarith [htt.2]) hK)
    have h3 : B * (t - a) ≤ B * (b - a) := mul_le_mul_of_nonneg_left (by linarith [htt.2]) hB0
    have h6 : 0 ≤ e0 + B * (t - a) := by have := mul_nonneg hB0 (by linarith [htt.1] : 0 ≤ t - a); linarith
    exact mul_le_mul h1 (by linarith) h6 (Real.exp_pos _).le
  have hmain : ∀ (i : ℕ) t x, window[i]? = some t → xs[i]? = some x → Within n (err t) x (V t) := by
    intro i
    induction i with
    | zero =>
      intro t x h1 h2
      obtain rfl : a = t := by simpa [hw.start] using h1
      obtain rfl : U0 = x := by simpa [hxs.start] using h2
      simpa [herr] using hU0
    | succ i ih =>
      intro t' x' h1 h2
      obtain ⟨t, h3⟩ := Order.exists_getElem? window i (by have := Order.lt_of_getElem? h1; omega)
      obtain ⟨x, h4⟩ := Order.exists_getElem? xs i (by have := Order.lt_of_getElem? h2; omega)
      obtain ⟨x'', h5, h6⟩ := hxs.next i t t' x h3 h1 h4
      obtain rfl : x' = x'' := by simpa [h2] using h5
      simp only [Except.ok.injEq] at h6
      have hmem := Order.partition_mem hw i t h3
      have hmem' := Order.partition_mem hw (i + 1) t' h1
      obtain ⟨g1, g2⟩ := hw.step i t t' h3 h1
      have hsta := hst i t t' h3 h1 x (err t) ((herr_le t hmem).trans hsmall) (ih t x h3 h4)
      intro k idx hidx
      have e1 := hsta k idx hidx
      have e2 := hloc t t' hmem.1 g1 hmem'.2 g2 k idx hidx
      have e3 : x' k idx = x k idx + (t' - t) * F t x k idx := by rw [← h6]; rfl
      have hh : 0 ≤ t' - t := by linarith
      rw [e3]
      have e4 : (1 + K * (t' - t)) * err t + (t' - t) * B ≤ err t' := by
        have k1 : 1 + K * (t' - t) ≤ Real.exp (K * (t' - t)) := by
          have := Real.add_one_le_exp (K * (t' - t)); linarith
        have k0 : 0 ≤ err t := by
          have := mul_nonneg hB0 (by linarith [hmem.1] : 0 ≤ t - a)
          rw [herr]; positivity
        have k2 : (1 + K * (t' - t)) * err t ≤ Real.exp (K * (t' - t)) * err t := mul_le_mul_of_nonneg_right k1 k0
        have k3 : Real.exp (K * (t' - t)) * err t = Real.exp (K * (t' - a)) * (e0 + B * (t - a)) := by
          rw [herr, ← mul_assoc, ← Real.exp_add]; congr 2; ring
        have k4 : 1 ≤ Real.exp (K * (t' - a)) := Real.one_le_exp (mul_nonneg hK (by linarith [hmem'.1]))
        have k5 : (t' - t) * B ≤ Real.exp (K * (t' - a)) * ((t' - t) * B) := le_mul_of_one_le_left (mul_nonneg hh hB0) k4
        calc _ ≤ Real.exp (K * (t' - a)) * (e0 + B * (t - a)) + Real.exp (K * (t' - a)) * ((t' - t) * B) := by
              rw [← k3]; exact add_le_add k2 k5
          _ = err t' := by rw [herr]; ring
      refine le_trans ?_ e4
      have := abs_add_le (x k idx + (t' - t) * F t x k idx - (V t k idx + (t' - t) * F t (V t) k idx))
        (V t k idx + (t' - t) * F t (V t) k idx - V t' k idx)
      rw [sub_add_sub_cancel] at this
      exact this.trans (add_le_add e1 e2)
  refine ⟨fc, hfc, fun τ hτ hsv => ?_⟩
  obtain ⟨x, hx⟩ := Integrator.exists_stateAt window xs hxs.length_eq τ hτ
  refine ⟨x, (hval τ x).2 ⟨hsv, hx⟩, ?_⟩
  obtain ⟨i, hi1, hi2, _⟩ := hx
  intro k idx hidx
  exact (hmain i τ x hi1 hi2 k idx hidx).trans (herr_le τ (Order.partition_mem hw i τ hi1))

/-- **C88** Consistency and stability give convergence, for the forecasts with the scheme `euler` of a generated finite-difference
class.  Let the functions of the system have smooth periodic values `φ` that solve the equations for the times of `[a, b]`.  If on the
windows considered the steps of Euler's method are stable along the solution, with constants `K` and `r` that depend neither on the grid
nor on the window, then the forecasts differ from the solution, at all the saved times and on the whole grid, by at most
`C (η + sum of squares of the steps in space + initial error)`, where `η` is the largest step in time and `C` depends neither on the
grid, nor on the window, nor on the initial state.  The hypotheses on the system are those of C76. -/
theorem C88_converges (iter : List Sy → List Sy) (hi : ∀ l, (iter l).Perm l) (eqs : List Equation) (s : System)
    (h : System.build iter eqs = .ok s) (he : Evolution s.coordinates eqs) (hn : WellNamed s)
    (coords : List Str) (_hcoords : s.spatialCoordinates = coords.map (Sy.sym .plain)) (hc : coords.Nodup) (ht : "t".toList ∉ coords)
    (ℓ : Fin coords.length → ℝ) (hℓ : ∀ i, 0 < ℓ i) (φ : Sy → ℝ → (Fin coords.length → ℝ) → ℝ) (σ : Str → ℝ) {a b : ℝ} (hab : a ≤ b)
    (hφ : ∀ f, IsFunction f → InSystem eqs f → SmoothFamily (φ f) ∧ ∀ τ, Periodic ℓ (φ f τ))
    (hr : ∀ τ ∈ Set.Icc a b, ∀ e ∈ eqs, Regular coords (fun f => φ f τ) (Function.update σ "t".toList τ) e.rhs)
    (hsol : Solves coords eqs φ σ a b) (K r : ℝ) (hK : 0 ≤ K) (hr0 : 0 < r) :
    ∃ C δ : ℝ, 0 < δ ∧ ∀ n : Fin coords.length → ℕ, (∀ i, 0 < n i) → (∀ i, ℓ i / n i ≤ δ) →
      ∀ O : ℝ → Obj (Arr coords.length ℝ),
      (∀ t ∈ Set.Icc a b, (∀ f ∈ s.constantFunctions, (O t).attr f.keyvar = sample ℓ n (φ f t)) ∧
        (∀ c, Sy.sym .plain c ∈ s.constants → (O t).attr (cleanLatexName c) = fun _ => σ c) ∧
        (s.exogenous = [] ∨ (O t).exogenous = some (s.exogenous.map (fun f => sample ℓ n (φ f t))))) →
      ∀ F : ℝ → (Fin s.prognostic.length → Arr coords.length ℝ) → Fin s.prognostic.length → Arr coords.length ℝ,
      Implements s (fdArith coords n (fun i => ℓ i / n i)) O F →
      ∀ η window, 0 ≤ η → η ≤ δ → Spec.Partition a b η window →
      (∀ (i : ℕ) t t', window[i]? = some t → window[i + 1]? = some t' →
        StableAt n (F t) (sampled ℓ φ s n t) (t' - t) K r) →
      ∀ U0 e0, 0 ≤ e0 → e0 ≤ δ → Within n e0 U0 (sampled ℓ φ s n a) → ∀ saved,
      ∃ fc, Integrator.forecast (Integrator.step .euler (.fn F)) window (.single U0) (.list saved) = .ok fc ∧
        ∀ τ ∈ window, τ ∈ saved → ∃ U, fc.get? τ = some (.single U) ∧
          Within n (C * (η + ∑ i, (ℓ i / n i) ^ 2 + e0)) U (sampled ℓ φ s n τ) := by
  obtain ⟨M, C₁, δ₁, hM, hC₁, hδ₁, hloc⟩ := local_error iter hi eqs s h he hn coords _hcoords hc ht ℓ hℓ φ σ hφ hr hsol
  have hba : 0 ≤ b - a := by linarith
  set A := Real.exp (K * (b - a)) with hA
  have hA0 : 0 < A := Real.exp_pos _
  set C := A * (1 + (M + C₁) * (b - a)) with hC
  have hC0 : 0 ≤ C := by positivity
  set dd : ℝ := (coords.length : ℝ) with hdd
  have hdd0 : 0 ≤ dd := Nat.cast_nonneg _
  refine ⟨C, min δ₁ (min 1 (r / ((C + 1) * (dd + 2)))), by positivity, ?_⟩
  set δ := min δ₁ (min 1 (r / ((C + 1) * (dd + 2)))) with hδ
  have hδ0 : 0 < δ := by positivity
  intro n hn' hs O hO F hF η window hη0 hη hw hst U0 e0 he0 he0δ hU0 saved
  have hsum := sum_sq_le hℓ n hn' δ hs
  set S := ∑ i, (ℓ i / n i) ^ 2 with hS
  have hS0 : 0 ≤ S := Finset.sum_nonneg (fun _ _ => sq_nonneg _)
  have hsmall : C * (η + S + e0) ≤ r := by
    have h1 : δ ≤ 1 := (min_le_right _ _).trans (min_le_left _ _)
    have h2 : δ ≤ r / ((C + 1) * (dd + 2)) := (min_le_right _ _).trans (min_le_right _ _)
    rw [le_div_iff₀ (by positivity)] at h2
    have h3 : S ≤ dd * δ := hsum.trans (mul_le_mul_of_nonneg_left (by nlinarith) hdd0)
    have h4 : C * (η + S + e0) ≤ C * ((dd + 2) * δ) := mul_le_mul_of_nonneg_left (by linarith) hC0
    have h5 : 0 ≤ (dd + 2) * δ := by positivity
    nlinarith
  have hB0 : 0 ≤ M * η + C₁ * S := by positivity
  have hle : A * (e0 + (M * η + C₁ * S) * (b - a)) ≤ C * (η + S + e0) := by
    have h2 : e0 + (M * η + C₁ * S) * (b - a) ≤ (1 + (M + C₁) * (b - a)) * (η + S + e0) := by
      have h4 : M * η + C₁ * S ≤ (M + C₁) * (η + S + e0) := by
        nlinarith [mul_nonneg hM hS0, mul_nonneg hM he0, mul_nonneg hC₁ hη0, mul_nonneg hC₁ he0]
      have h5 := mul_le_mul_of_nonneg_right h4 hba
      nlinarith
    calc _ ≤ A * ((1 + (M + C₁) * (b - a)) * (η + S + e0)) := mul_le_mul_of_nonneg_left h2 hA0.le
      _ = _ := by rw [hC]; ring
  obtain ⟨fc, hfc, hval⟩ := lax n F (sampled ℓ φ s n) hK hB0 he0
    (hloc n hn' (fun i => (hs i).trans (min_le_left _ _)) O hO F hF η) (hle.trans hsmall) window hw hst U0 hU0 saved
  refine ⟨fc, hfc, fun τ hτ hsv => ?_⟩
  obtain ⟨U, hU, hwi⟩ := hval τ hτ hsv
  exact ⟨U, hU, fun k idx hidx => (hwi k idx hidx).trans hle⟩

end Sympkf.Props
