import Verif.Lemmas.TimeDerivatives
import Verif.Props.EnergyConvergence

/-!
# C102: forecasts of skew-symmetric linear systems with `rk4` converge
-/

set_option autoImplicit false

namespace Sympkf.Props

open Text PDE Spec.PDE FinDiff Spec

theorem gridTotal_card {d : ℕ} (n : Fin d → ℕ) : ((box n).card : ℝ) = ∏ i, (n i : ℝ) := by
  unfold box
  rw [Fintype.card_piFinset]
  simp

theorem size_le {d N : ℕ} (n : Fin d → ℕ) (V : Fin N → Arr d ℝ) (e : ℝ) (he : 0 ≤ e) (h : ∀ k idx, (∀ i, idx i < n i) → |V k idx| ≤ e) :
    size (gridProduct n N) V ≤ √(∏ i, (n i : ℝ)) * (√N * e) := by
  have h1 : energy (gridProduct n N) V ≤ (∏ i, (n i : ℝ)) * (N * e ^ 2) := by
    simp only [energy, gridProduct, LinearMap.mk₂_apply]
    calc ∑ k, gridTotal n (fun idx => V k idx * V k idx) ≤ ∑ _k : Fin N, ∑ _idx ∈ box n, e ^ 2 := by
          refine Finset.sum_le_sum fun k _ => Finset.sum_le_sum fun idx hidx => ?_
          have := h k idx ((mem_box n idx).1 hidx)
          rw [← sq, ← sq_abs]
          exact pow_le_pow_left₀ (abs_nonneg _) this 2
      _ = _ := by
          rw [Finset.sum_const, Finset.sum_const, Finset.card_univ, Fintype.card_fin, nsmul_eq_mul, nsmul_eq_mul, gridTotal_card]
          ring
  refine (Real.sqrt_le_sqrt h1).trans (le_of_eq ?_)
  rw [Real.sqrt_mul (Finset.prod_nonneg fun i _ => Nat.cast_nonneg _), Real.sqrt_mul (Nat.cast_nonneg _), Real.sqrt_sq he]

theorem meanSquare_iff {d N : ℕ} (n : Fin d → ℕ) (e : ℝ) (U V : Fin N → Arr d ℝ) (he : 0 ≤ e) :
    MeanSquare n e U V ↔ size (gridProduct n N) (U - V) ≤ √(∏ i, (n i : ℝ)) * e := by
  have e1 : energy (gridProduct n N) (U - V) = ∑ k, gridTotal n (fun idx => (U k idx - V k idx) ^ 2) := by
    simp only [energy, gridProduct, LinearMap.mk₂_apply, Pi.sub_apply, sq]
  have e2 : √(∏ i, (n i : ℝ)) * e = √((∏ i, (n i : ℝ)) * e ^ 2) := by
    rw [Real.sqrt_mul (Finset.prod_nonneg fun i _ => Nat.cast_nonneg _), Real.sqrt_sq he]
  unfold MeanSquare size
  rw [e2, ← e1]
  exact (Real.sqrt_le_sqrt_iff (mul_nonneg (Finset.prod_nonneg fun i _ => Nat.cast_nonneg _) (sq_nonneg _))).symm

/-- A closed linear system has only unknowns. -/
theorem linear_only (iter : List Sy → List Sy) (hi : ∀ l, (iter l).Perm l) (eqs : List Equation) (s : System)
    (h : System.build iter eqs = .ok s) (he : Evolution s.coordinates eqs) (coords : List Str) (rows : List (Sy × List LinTerm))
    (hlin : List.Forall₂ (fun e r => e.lhs = .deriv r.1 [("t".toList, 1)] ∧ Linear coords e.rhs r.2) eqs rows)
    (hclosed : ∀ r ∈ rows, ∀ x ∈ r.2, x.field ∈ rows.map Prod.fst) :
    s.prognostic = rows.map Prod.fst ∧ s.constantFunctions = [] ∧ s.exogenous = [] ∧ ∀ f, IsFunction f → InSystem eqs f → f ∈ s.prognostic := by
  have hslots := C64_slots iter hi eqs s h he.toEvolves
  have hrows : s.prognostic = rows.map Prod.fst := by
    have e : eqs.map (fun e => e.lhs) = rows.map (fun r => Sy.deriv r.1 [("t".toList, 1)]) := by
      clear hslots hclosed h he
      induction hlin with
      | nil => rfl
      | cons h _ ih => rw [List.map_cons, List.map_cons, h.1, ih]
    rw [e] at hslots
    have hinj : Function.Injective (fun f => Sy.deriv f [("t".toList, 1)]) := fun a b hab => by injection hab
    refine (List.map_injective_iff.2 hinj) ?_
    simp only [List.map_map]
    exact hslots
  have hall : ∀ f, IsFunction f → InSystem eqs f → f ∈ s.prognostic := by
    rintro f hf ⟨e, hee, hocc⟩
    obtain ⟨i, hi', rfl⟩ := List.getElem_of_mem hee
    have hi2 : i < rows.length := by rw [← hlin.length_eq]; exact hi'
    have h1 := (List.forall₂_iff_get.1 hlin).2 i hi' hi2
    simp only [List.get_eq_getElem] at h1
    rw [hrows]
    rcases hocc with hocc | hocc
    · have hl := (mem_functions_iff f _).2 ⟨hf, hocc⟩
      obtain ⟨u, args, hu⟩ := he.lhs _ hee
      rw [h1.1] at hu
      injection hu with hu
      rw [h1.1, hu] at hl
      simp only [Sy.functions, List.mem_singleton] at hl
      rw [hl, ← hu]
      exact List.mem_map_of_mem (List.getElem_mem hi2)
    · obtain ⟨x, hx, rfl⟩ := linear_functions h1.2 f ((mem_functions_iff f _).2 ⟨hf, hocc⟩)
      exact hclosed _ (List.getElem_mem hi2) x hx
  have hfun : ∀ f, f ∈ s.prognostic ∨ f ∈ s.constantFunctions ∨ f ∈ s.exogenous → IsFunction f := by
    refine C62_only_functions iter hi eqs s h ?_
    rintro a vars ⟨e, hee, hocc⟩
    obtain ⟨i, hi', rfl⟩ := List.getElem_of_mem hee
    have hi2 : i < rows.length := by rw [← hlin.length_eq]; exact hi'
    have h1 := (List.forall₂_iff_get.1 hlin).2 i hi' hi2
    simp only [List.get_eq_getElem] at h1
    rcases hocc with hocc | hocc
    · obtain ⟨u, args, hu⟩ := he.lhs _ hee
      rw [hu] at hocc
      cases hocc with
      | refl => trivial
      | deriv _ h2 => cases h2 with
        | arg _ _ _ _ h3 => cases h3
      | var _ _ _ _ _ h3 => cases h3
    · revert hocc
      have h2 := h1.2
      clear h1
      generalize eqs[i].rhs = e at h2
      generalize rows[i].2 = l at h2
      intro hocc
      induction h2 with
      | fn u args => cases hocc with
        | arg _ _ _ _ h3 => cases h3
      | deriv u args vars' hv => cases hocc with
        | refl => trivial
        | deriv _ h2 => cases h2 with
          | arg _ _ _ _ h3 => cases h3
        | var _ _ _ _ _ h3 => cases h3
      | num q _ ih => cases hocc with
        | mulL _ h2 => cases h2
        | mulR _ h2 => exact ih h2
      | sym c _ _ ih => cases hocc with
        | mulL _ h2 => cases h2
        | mulR _ h2 => exact ih h2
      | add _ _ ih1 ih2 => cases hocc with
        | addL _ h2 => exact ih1 h2
        | addR _ h2 => exact ih2 h2
  refine ⟨hrows, ?_, ?_, hall⟩
  · refine List.eq_nil_iff_forall_not_mem.2 fun f hf => ?_
    have hff := hfun f (.inr (.inl hf))
    obtain ⟨h1, h2, -⟩ := C62_partition iter hi eqs s h f hff
    exact h2 ⟨hall f hff (h1.2 (.inr (.inl hf))), hf⟩
  · refine List.eq_nil_iff_forall_not_mem.2 fun f hf => ?_
    have hff := hfun f (.inr (.inr hf))
    obtain ⟨h1, -, h2, -⟩ := C62_partition iter hi eqs s h f hff
    exact h2 ⟨hall f hff (h1.2 (.inr (.inr hf))), hf⟩

/-- The trend at sampled values is close to the right-hand sides. -/
theorem trend_close (iter : List Sy → List Sy) (hi : ∀ l, (iter l).Perm l) (eqs : List Equation) (s : System)
    (h : System.build iter eqs = .ok s) (he : Evolution s.coordinates eqs) (hn : WellNamed s)
    (coords : List Str) (hc : coords.Nodup) (ht : "t".toList ∉ coords)
    (ℓ : Fin coords.length → ℝ) (hℓ : ∀ i, 0 < ℓ i) (φ : Sy → ℝ → (Fin coords.length → ℝ) → ℝ) (σ : Str → ℝ) {a b : ℝ}
    (hφ : ∀ f, IsFunction f → InSystem eqs f → SmoothFamily (φ f) ∧ ∀ τ, Periodic ℓ (φ f τ))
    (hr : ∀ τ ∈ Set.Icc a b, ∀ e ∈ eqs, Regular coords (fun f => φ f τ) (Function.update σ "t".toList τ) e.rhs)
    (hcf : s.constantFunctions = []) (hex : s.exogenous = []) :
    ∃ C δ : ℝ, 0 ≤ C ∧ 0 < δ ∧ ∀ n : Fin coords.length → ℕ, (∀ i, 0 < n i) → (∀ i, ℓ i / n i ≤ δ) →
      ∀ O : ℝ → Obj (Arr coords.length ℝ), (∀ t c, Sy.sym .plain c ∈ s.constants → (O t).attr (cleanLatexName c) = fun _ => σ c) →
      ∀ F : ℝ → (Fin s.prognostic.length → Arr coords.length ℝ) → Fin s.prognostic.length → Arr coords.length ℝ,
      Implements s (fdArith coords n (fun i => ℓ i / n i)) O F → ∀ τ ∈ Set.Icc a b, ∀ (k : Fin s.prognostic.length) idx, (∀ i, idx i < n i) →
      ∃ (hk : (k : ℕ) < eqs.length), eqs[(k : ℕ)].lhs = .deriv s.prognostic[(k : ℕ)] [("t".toList, 1)] ∧
      |F τ (sampled ℓ φ s n τ) k idx - exact coords (fun g => φ g τ) (Function.update σ "t".toList τ) eqs[(k : ℕ)].rhs (point ℓ n idx)| ≤
        C * ∑ i, (ℓ i / n i) ^ 2 := by
  have hlen := prognostic_length iter hi eqs s h he
  have hslots := C64_slots iter hi eqs s h he.toEvolves
  obtain ⟨C₁, δ₁, hC₁, hδ₁, hclose⟩ := closeOn_all (T := Set.Icc a b) (ℓ := ℓ) eqs
    (fun e τ n => rhsValue (fdArith coords n (fun i => ℓ i / n i)) (gridVal ℓ (fun f => φ f τ) (Function.update σ "t".toList τ) n) e.rhs)
    (fun e τ => exact coords (fun f => φ f τ) (Function.update σ "t".toList τ) e.rhs)
    (fun e hee => (closeOn_rhs hc ht isCompact_Icc hℓ φ (fun τ => Function.update σ "t".toList τ)
      (fun s => by
        by_cases hs : s = "t".toList
        · subst hs; simp only [Function.update_self]; exact continuousOn_id
        · simp only [Function.update_of_ne hs]; exact continuousOn_const) e.rhs
      (fun f hf => by
        obtain ⟨h1, h2⟩ := (mem_functions_iff f _).1 hf
        exact hφ f h1 ⟨e, hee, .inr h2⟩) (fun τ hτ => hr τ hτ e hee)).2)
  refine ⟨C₁, δ₁, hC₁, hδ₁, fun n hn' hs O hO F hF τ hτ k idx hidx => ?_⟩
  obtain ⟨m, hm, hout⟩ := hF τ (sampled ℓ φ s n τ)
  obtain ⟨m', hm', hout', -⟩ := C64_trend_partial iter hi eqs s h he hn (fdArith coords n (fun i => ℓ i / n i)) (O τ)
    (fun _ => τ) (s.prognostic.map (fun f => sample ℓ n (φ f τ)))
    (gridVal ℓ (fun f => φ f τ) (Function.update σ "t".toList τ) n) rfl (by simp [gridVal]) (by rw [hcf]; simp)
    (fun c hc' => by
      rw [hO τ c hc']
      have : c ≠ "t".toList := fun e => time_not_constant iter hi eqs s h (e ▸ hc')
      show (fun _ => σ c) = fun _ => Function.update σ "t".toList τ c
      rw [Function.update_of_ne this]) (.inl hex)
  rw [ofFn_sampled, hm'] at hm
  injection hm with hm
  rw [← hm, hout'] at hout
  have hk : (k : ℕ) < eqs.length := by rw [hlen]; exact k.2
  have hFk : F τ (sampled ℓ φ s n τ) k = rhsValue (fdArith coords n (fun i => ℓ i / n i))
      (gridVal ℓ (fun f => φ f τ) (Function.update σ "t".toList τ) n) eqs[(k : ℕ)].rhs := by
    have := congrArg (fun l => l[(k : ℕ)]?) hout
    simp only [List.getElem?_map, List.getElem?_eq_getElem hk, Option.map_some, List.getElem?_ofFn, k.2, dite_true,
      Option.some.injEq] at this
    exact this.symm
  have hlhs : eqs[(k : ℕ)].lhs = .deriv s.prognostic[(k : ℕ)] [("t".toList, 1)] := by
    have := congrArg (fun l => l[(k : ℕ)]?) hslots
    simp only [List.getElem?_map, List.getElem?_eq_getElem hk, List.getElem?_eq_getElem k.2, Option.map_some,
      Option.some.injEq] at this
    exact this.symm
  refine ⟨hk, hlhs, ?_⟩
  rw [hFk]
  exact hclose τ hτ n hn' hs idx hidx _ (List.getElem_mem hk)

/-- **C102** The forecasts with `rk4` and the class generated from a skew-symmetric linear system (C100) converge to the solutions.  Let the
unknowns have smooth periodic values `φ` that solve the equations for the times of `[a, b]`.  On every grid with small steps, on every window
with steps at most `η` such that `dt² E(F U) ≤ 8 E(U)`, the root mean square, over the grid, of the difference between the forecast and the
solution is at all the saved times at most `C (η⁴ + sum of the squares of the steps in space + initial error)`, where `C` depends neither on
the grid, nor on the window, nor on the initial state. -/
theorem C102_converges (iter : List Sy → List Sy) (hi : ∀ l, (iter l).Perm l) (eqs : List Equation) (s : System)
    (h : System.build iter eqs = .ok s) (he : Evolution s.coordinates eqs) (hn : WellNamed s)
    (coords : List Str) (hc : coords.Nodup) (ht : "t".toList ∉ coords) (rows : List (Sy × List LinTerm)) (hskew : SkewSystem coords eqs rows)
    (hargs : ∀ r ∈ rows, ∀ u args, r.1 = .fn u args → args.filter (· ≠ "t".toList) = coords)
    (ℓ : Fin coords.length → ℝ) (hℓ : ∀ i, 0 < ℓ i) (φ : Sy → ℝ → (Fin coords.length → ℝ) → ℝ) (σ : Str → ℝ) {a b : ℝ} (hab : a < b)
    (hφ : ∀ r ∈ rows, SmoothFamily (φ r.1) ∧ ∀ τ, Periodic ℓ (φ r.1 τ)) (hsol : Solves coords eqs φ σ a b) :
    ∃ C δ : ℝ, 0 < δ ∧ ∀ n : Fin coords.length → ℕ, (∀ i, 0 < n i) → (∀ i, ℓ i / n i ≤ δ) →
      ∀ O : ℝ → Obj (Arr coords.length ℝ), (∀ t c, Sy.sym .plain c ∈ s.constants → (O t).attr (cleanLatexName c) = fun _ => σ c) →
      ∀ F : ℝ → (Fin s.prognostic.length → Arr coords.length ℝ) → Fin s.prognostic.length → Arr coords.length ℝ,
      Implements s (fdArith coords n (fun i => ℓ i / n i)) O F →
      ∀ η window, 0 ≤ η → η ≤ 1 → Spec.Partition a b η window →
      (∀ (i : ℕ) t t', window[i]? = some t → window[i + 1]? = some t' →
        ∀ V, (t' - t) ^ 2 * energy (gridProduct n s.prognostic.length) (F t V) ≤ 8 * energy (gridProduct n s.prognostic.length) V) →
      ∀ U0 e0, 0 ≤ e0 → MeanSquare n e0 U0 (sampled ℓ φ s n a) → ∀ saved,
      ∃ fc, Integrator.forecast (Integrator.step .rk4 (.fn F)) window (.single U0) (.list saved) = .ok fc ∧
        ∀ τ ∈ window, τ ∈ saved → ∃ U, fc.get? τ = some (.single U) ∧
          MeanSquare n (C * (η ^ 4 + ∑ i, (ℓ i / n i) ^ 2 + e0)) U (sampled ℓ φ s n τ) := by
  obtain ⟨hrows, hcf, hex, hall⟩ := linear_only iter hi eqs s h he coords rows hskew.linear hskew.closed
  have hφ' : ∀ f ∈ rows.map Prod.fst, SmoothFamily (φ f) ∧ ∀ τ, Periodic ℓ (φ f τ) := by
    intro f hf
    obtain ⟨r, hr, rfl⟩ := List.mem_map.1 hf
    exact hφ r hr
  set N := s.prognostic.length with hN
  set φj : ℕ → Sy → ℝ → (Fin coords.length → ℝ) → ℝ := fun j f => dtime^[j] (φ f) with hφj
  have hsolj : ∀ j, Solves coords eqs (φj j) σ a b := fun j =>
    dtime_iter_solves hab hskew.linear (fun r hr => ⟨(hφ r hr).1, fun x hx => (hφ' _ (hskew.closed r hr x hx)).1⟩) hsol j
  have hreg : ∀ (ψ : Sy → (Fin coords.length → ℝ) → ℝ) (σ' : Str → ℝ), ∀ e ∈ eqs, Regular coords ψ σ' e.rhs := by
    intro ψ σ' e hee
    obtain ⟨i, hi', rfl⟩ := List.getElem_of_mem hee
    have hi2 : i < rows.length := by rw [← hskew.linear.length_eq]; exact hi'
    have h1 := (List.forall₂_iff_get.1 hskew.linear).2 i hi' hi2
    simp only [List.get_eq_getElem] at h1
    refine linear_regular h1.2 (fun x hx u args hxu => ?_) ψ σ'
    obtain ⟨r, hr, hrx⟩ := List.mem_map.1 (hskew.closed _ (List.getElem_mem hi2) x hx)
    exact hargs r hr u args (hrx.trans hxu)
  have hclose : ∀ j, _ := fun j => trend_close iter hi eqs s h he hn coords hc ht ℓ hℓ (φj j) σ (a := a) (b := b)
    (fun f hf hin => ⟨dtime_iter_smooth (hφ' f (hrows ▸ hall f hf hin)).1 j, dtime_iter_periodic (hφ' f (hrows ▸ hall f hf hin)).2 j⟩)
    (fun τ _ => hreg _ _) hcf hex
  choose Cj δj hCj hδj hbound using hclose
  have htay : ∀ k : Fin N, _ := fun k => taylor_family (hφ' s.prognostic[(k : ℕ)] (by rw [← hrows]; exact List.getElem_mem k.2)).1 a b ‖ℓ‖ 5
  choose Mk hMk htaylor using htay
  set C₁ := ∑ j ∈ Finset.range 4, Cj j with hC₁
  set M₁ := ∑ k, Mk k with hM₁
  have hC₁0 : 0 ≤ C₁ := Finset.sum_nonneg fun j _ => hCj j
  have hM₁0 : 0 ≤ M₁ := Finset.sum_nonneg fun k _ => hMk k
  set δ := min (min (δj 0) (δj 1)) (min (δj 2) (δj 3)) with hδ
  have hδle : ∀ j < 4, δ ≤ δj j := by
    intro j hj
    interval_cases j
    · exact (min_le_left _ _).trans (min_le_left _ _)
    · exact (min_le_left _ _).trans (min_le_right _ _)
    · exact (min_le_right _ _).trans (min_le_left _ _)
    · exact (min_le_right _ _).trans (min_le_right _ _)
  refine ⟨1 + (b - a) * (√N * (7 * C₁ + M₁)), δ, lt_min (lt_min (hδj 0) (hδj 1)) (lt_min (hδj 2) (hδj 3)),
    fun n hn' hs O hO F hF η window hη hη1 hpart hcfl U0 e0 he0 hU0 saved => ?_⟩
  set dx2 := ∑ i, (ℓ i / n i) ^ 2 with hdx2
  have hdx20 : 0 ≤ dx2 := Finset.sum_nonneg fun _ _ => sq_nonneg _
  set P := √(∏ i, (n i : ℝ)) with hP
  have hP0 : 0 ≤ P := Real.sqrt_nonneg _
  have hsk := C100_skew iter hi eqs s h he hn coords hc ht n (fun i => ℓ i / n i)
    (fun i => (div_pos (hℓ i) (by exact_mod_cast hn' i)).ne') O (fun c hcc => ⟨σ c, fun t => hO t c hcc⟩) (.inl hex) F hF rows hskew
  have hnear : NearlySolves (gridProduct n N) F (fun j => sampled ℓ (φj j) s n) a b (P * (√N * (C₁ * dx2))) (P * (√N * M₁)) := by
    constructor
    · intro j hj τ hτ
      refine size_le n _ _ (mul_nonneg hC₁0 hdx20) fun k idx hidx => ?_
      obtain ⟨hk, hlhs, hb⟩ := hbound j n hn' (fun i => (hs i).trans (hδle j hj)) O hO F hF τ hτ k idx hidx
      have e1 : sampled ℓ (φj (j + 1)) s n τ k idx =
          exact coords (fun g => φj j g τ) (Function.update σ "t".toList τ) eqs[(k : ℕ)].rhs (point ℓ n idx) := by
        have h1 := (hsolj j _ (List.getElem_mem hk) _ hlhs τ hτ (point ℓ n idx)).deriv
        rw [← h1]
        show dtime^[j + 1] (φ s.prognostic[(k : ℕ)]) τ (point ℓ n idx) = _
        rw [Function.iterate_succ_apply']
        rfl
      rw [Pi.sub_apply, Pi.sub_apply, e1]
      refine hb.trans (mul_le_mul_of_nonneg_right ?_ hdx20)
      exact Finset.single_le_sum (f := Cj) (fun j _ => hCj j) (Finset.mem_range.2 hj)
    · intro τ τ' h1 h2 h3
      have h0 : 0 ≤ τ' - τ := by linarith
      have := size_le n (sampled ℓ (φj 0) s n τ' - ∑ j ∈ Finset.range 5, ((τ' - τ) ^ j / (Nat.factorial j : ℝ)) • sampled ℓ (φj j) s n τ)
        (M₁ * (τ' - τ) ^ 5) (mul_nonneg hM₁0 (pow_nonneg h0 5)) (fun k idx hidx => by
          have hb := htaylor k (point ℓ n idx) (norm_point_le hℓ n hn' idx hidx) τ τ' h1 h2 h3
          have e1 : (sampled ℓ (φj 0) s n τ' - ∑ j ∈ Finset.range 5, ((τ' - τ) ^ j / (Nat.factorial j : ℝ)) • sampled ℓ (φj j) s n τ) k idx =
              φ s.prognostic[(k : ℕ)] τ' (point ℓ n idx) - ∑ j ∈ Finset.range 5, (τ' - τ) ^ j / (Nat.factorial j : ℝ) *
                dtime^[j] (φ s.prognostic[(k : ℕ)]) τ (point ℓ n idx) := by
            simp only [Pi.sub_apply, Finset.sum_apply, Pi.smul_apply, smul_eq_mul]
            rfl
          rw [e1]
          refine hb.trans (mul_le_mul_of_nonneg_right ?_ (pow_nonneg h0 5))
          exact Finset.single_le_sum (f := Mk) (fun k _ => hMk k) (Finset.mem_univ k))
      refine this.trans (le_of_eq ?_)
      ring
  obtain ⟨fc, hfc, hval⟩ := Integrator.C102_rk4 (gridProduct n N) (gridProduct_comm n) (gridProduct_nonneg n) F hsk _
    (mul_nonneg hP0 (mul_nonneg (Real.sqrt_nonneg _) hM₁0)) hη1 hnear window saved hpart hcfl U0
  refine ⟨fc, hfc, fun τ hτ hsv => ?_⟩
  obtain ⟨U, hU, hb⟩ := hval τ hτ hsv
  refine ⟨U, hU, ?_⟩
  have hK0 : 0 ≤ (b - a) * (√N * (7 * C₁ + M₁)) := mul_nonneg (by linarith) (mul_nonneg (Real.sqrt_nonneg _) (by linarith))
  have hη4 : 0 ≤ η ^ 4 := by positivity
  rw [meanSquare_iff n _ _ _ (mul_nonneg (by linarith) (by linarith))]
  refine hb.trans ?_
  have h1 := (meanSquare_iff n e0 U0 _ he0).1 hU0
  obtain ⟨i, hi1⟩ := List.getElem?_of_mem hτ
  have hmem := Order.partition_mem hpart i τ hi1
  have hN0 : 0 ≤ √(N : ℝ) := Real.sqrt_nonneg _
  have h2 : (τ - a) * (7 * (P * (√N * (C₁ * dx2))) + P * (√N * M₁) * η ^ 4) ≤
      (b - a) * (7 * (P * (√N * (C₁ * dx2))) + P * (√N * M₁) * η ^ 4) :=
    mul_le_mul_of_nonneg_right (by linarith [hmem.2]) (by positivity)
  have h3 : 7 * (P * (√N * (C₁ * dx2))) + P * (√N * M₁) * η ^ 4 ≤ P * (√N * (7 * C₁ + M₁) * (η ^ 4 + dx2 + e0)) := by
    have g1 : 0 ≤ P * √N * C₁ := by positivity
    have g2 : 0 ≤ P * √N * M₁ := by positivity
    nlinarith [mul_nonneg g1 hη4, mul_nonneg g1 he0, mul_nonneg g2 hdx20, mul_nonneg g2 he0]
  have h4 := mul_le_mul_of_nonneg_left h3 (show 0 ≤ b - a by linarith)
  have h5 : P * e0 ≤ P * (η ^ 4 + dx2 + e0) := mul_le_mul_of_nonneg_left (by linarith) hP0
  calc _ ≤ P * e0 + (b - a) * (P * (√N * (7 * C₁ + M₁) * (η ^ 4 + dx2 + e0))) := add_le_add h1 (h2.trans h4)
    _ ≤ P * (η ^ 4 + dx2 + e0) + (b - a) * (P * (√N * (7 * C₁ + M₁) * (η ^ 4 + dx2 + e0))) := add_le_add h5 le_rfl
    _ = _ := by ring

end Sympkf.Props
