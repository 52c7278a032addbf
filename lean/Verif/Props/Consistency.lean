import Verif.Lemmas.Consistency
import Verif.Props.Trend

/-!
# C76: the generated finite-difference model is a second-order discretisation of the system
-/

set_option autoImplicit false

namespace Sympkf.Props

open Text PDE Spec.PDE FinDiff

theorem axesOf_map (coords : List Str) (vars : List (Str × ℕ)) (hv : ∀ v ∈ vars, v.1 ∈ coords) :
    (axesOf coords vars).map (fun p => (coords[p.1], p.2)) = vars := by
  induction vars with
  | nil => rfl
  | cons v vars ih =>
    have hx : coords.idxOf v.1 < coords.length := List.idxOf_lt_length_iff.2 (hv v List.mem_cons_self)
    unfold axesOf
    rw [List.filterMap_cons, dif_pos hx]
    simp only [List.map_cons]
    have ih := ih (fun v hv' => hv v (List.mem_cons_of_mem _ hv'))
    unfold axesOf at ih
    rw [ih]
    simp

theorem shifted_zero (coords : List Str) : coords.map (fun x => (x, (0 : ℤ))) = shifted coords (fun _ => 0) := by
  unfold shifted
  refine List.ext_getElem (by simp) (fun i h1 h2 => ?_)
  simp

theorem sum_axes_le {d : ℕ} (L : List (Fin d × ℕ)) (h : Fin d → ℝ) :
    (L.map (fun p => h p.1 ^ 2)).sum ≤ L.length * ∑ i, h i ^ 2 := by
  induction L with
  | nil => simp
  | cons p L ih =>
    rw [List.map_cons, List.sum_cons, List.length_cons]
    push_cast
    have : h p.1 ^ 2 ≤ ∑ i, h i ^ 2 := Finset.single_le_sum (f := fun i => h i ^ 2) (fun i _ => sq_nonneg _) (Finset.mem_univ p.1)
    linarith

/-- The generated code of a derivative is close to the derivative. -/
theorem close_fdDiff {coords : List Str} (hc : coords.Nodup) (ht : time ∉ coords) {ℓ : Fin coords.length → ℝ} (hℓ : ∀ i, 0 < ℓ i)
    (f : (Fin coords.length → ℝ) → ℝ) (hs : ContDiff ℝ (⊤ : ℕ∞) f) (hp : Periodic ℓ f) (vars : List (Str × ℕ))
    (hv : ∀ v ∈ vars, v.1 ∈ coords) :
    Close ℓ (fun n => fdDiff coords n (fun i => ℓ i / n i) vars (sample ℓ n f)) (pdMixed (axesOf coords vars) f) := by
  obtain ⟨C, hC⟩ := C30_mixed_second_order (axesOf coords vars) f hs ‖ℓ‖
  refine ⟨|C| * (axesOf coords vars).length, 1, by positivity, one_pos, fun n hn hs' idx hidx => ?_⟩
  have hn0 : ∀ i, (0 : ℝ) < n i := fun i => by exact_mod_cast hn i
  have hpos : ∀ i, 0 < ℓ i / n i := fun i => div_pos (hℓ i) (hn0 i)
  have hbox : idx ∈ box n := (mem_box n idx).2 hidx
  have e : fdDiff coords n (fun i => ℓ i / n i) vars (sample ℓ n f) idx
      = fdMixed (fun i => ℓ i / n i) (axesOf coords vars) f (point ℓ n idx) := by
    unfold fdDiff
    rw [shifted_zero]
    conv_lhs => rw [← axesOf_map coords vars hv]
    rw [codeValue_fdExpr n _ (fun i => (hpos i).ne') hc ht, ← gridMixed_sample ℓ n hn (fun i => (hpos i).ne') f hp _ idx hbox]
    · refine gridMixed_congr n _ (fun i => (hpos i).ne') _ _ _ (fun j hj => ?_) idx hbox
      congr 1
      funext i
      exact gridIndex_zero _ _ ((mem_box n j).1 hj i)
    · exact hbox
  show |fdDiff coords n (fun i => ℓ i / n i) vars (sample ℓ n f) idx - _| ≤ _
  rw [e]
  refine (hC _ (fun i => (hpos i).ne') (fun i => by rw [abs_of_pos (hpos i)]; exact hs' i) _ (norm_point_le hℓ n hn idx hidx)).trans ?_
  have h1 := sum_axes_le (axesOf coords vars) (fun i => ℓ i / n i)
  have h0 : 0 ≤ ((axesOf coords vars).map (fun p => (ℓ p.1 / n p.1) ^ 2)).sum :=
    List.sum_nonneg (by intro x hx; obtain ⟨p, -, rfl⟩ := List.mem_map.1 hx; exact sq_nonneg _)
  calc C * ((axesOf coords vars).map (fun p => (ℓ p.1 / n p.1) ^ 2)).sum
      ≤ |C| * ((axesOf coords vars).map (fun p => (ℓ p.1 / n p.1) ^ 2)).sum := mul_le_mul_of_nonneg_right (le_abs_self C) h0
    _ ≤ |C| * ((axesOf coords vars).length * ∑ i, (ℓ i / n i) ^ 2) := mul_le_mul_of_nonneg_left h1 (abs_nonneg C)
    _ = _ := by ring

/-- The values of the functions and symbols on the grid. -/
noncomputable def gridVal {coords : List Str} (ℓ : Fin coords.length → ℝ) (φ : Sy → (Fin coords.length → ℝ) → ℝ) (σ : Str → ℝ)
    (n : Fin coords.length → ℕ) : Valuation (Arr coords.length ℝ) :=
  ⟨fun f => sample ℓ n (φ f), fun s _ => σ s⟩

theorem close_rhs {coords : List Str} (hc : coords.Nodup) (ht : time ∉ coords) {ℓ : Fin coords.length → ℝ} (hℓ : ∀ i, 0 < ℓ i)
    (φ : Sy → (Fin coords.length → ℝ) → ℝ) (σ : Str → ℝ) (e : Sy)
    (hφ : ∀ f ∈ e.functions, ContDiff ℝ (⊤ : ℕ∞) (φ f) ∧ Periodic ℓ (φ f)) (hr : Regular coords φ σ e) :
    Continuous (exact coords φ σ e) ∧
    Close ℓ (fun n => rhsValue (fdArith coords n (fun i => ℓ i / n i)) (gridVal ℓ φ σ n) e) (exact coords φ σ e) := by
  induction e with
  | num q => exact ⟨continuous_const, Close.const (q : ℝ)⟩
  | sym k s => exact ⟨continuous_const, Close.const (σ s)⟩
  | fn u args => exact ⟨(hφ _ (by simp [Sy.functions])).1.continuous, Close.sample _⟩
  | func g a => exact ⟨(hφ _ (by simp [Sy.functions])).1.continuous, Close.sample _⟩
  | add a b iha ihb =>
    obtain ⟨h1, h2⟩ := iha (fun f hf => hφ f (by simp [Sy.functions, hf])) hr.1
    obtain ⟨h3, h4⟩ := ihb (fun f hf => hφ f (by simp [Sy.functions, hf])) hr.2
    exact ⟨h1.add h3, h2.add h4⟩
  | mul a b iha ihb =>
    obtain ⟨h1, h2⟩ := iha (fun f hf => hφ f (by simp [Sy.functions, hf])) hr.1
    obtain ⟨h3, h4⟩ := ihb (fun f hf => hφ f (by simp [Sy.functions, hf])) hr.2
    exact ⟨h1.mul h3, h2.mul hℓ h4 h1 h3⟩
  | pow a b iha _ =>
    obtain ⟨hra, q, rfl, hq⟩ := hr
    obtain ⟨h1, h2⟩ := iha (fun f hf => hφ f (by simp [Sy.functions, hf])) hra
    rcases hq with ⟨k, rfl⟩ | hpos
    · have e1 : exact coords φ σ (.pow a (.num (k : ℚ))) = fun p => exact coords φ σ a p ^ k := by
        funext p
        show exact coords φ σ a p ^ (((k : ℚ) : ℝ)) = _
        rw [Rat.cast_natCast, Real.rpow_natCast]
      rw [e1]
      refine ⟨h1.pow k, ?_⟩
      have e2 : (fun n => rhsValue (fdArith coords n (fun i => ℓ i / n i)) (gridVal ℓ φ σ n) (.pow a (.num (k : ℚ))))
          = fun n idx => rhsValue (fdArith coords n (fun i => ℓ i / n i)) (gridVal ℓ φ σ n) a idx ^ k := by
        funext n idx
        show _ ^ (((k : ℚ) : ℝ)) = _
        rw [Rat.cast_natCast, Real.rpow_natCast]
      rw [e2]
      exact h2.pow_nat hℓ h1 k
    · refine ⟨h1.rpow_const (fun p => Or.inl (hpos p).ne'), ?_⟩
      exact h2.rpow hℓ h1 hpos (q : ℝ)
  | deriv a vars _ =>
    obtain ⟨⟨u, args, rfl, hargs⟩, hv⟩ := hr
    obtain ⟨h1, h2⟩ := hφ (.fn u args) (by simp [Sy.functions])
    exact ⟨(pdMixed_smooth (axesOf coords vars) _ h1).continuous, close_fdDiff hc ht hℓ _ h1 h2 vars hv⟩

/-- Finitely many families: common constants. -/
theorem close_all {d : ℕ} {ℓ : Fin d → ℝ} {α : Type} (l : List α) (F : α → (Fin d → ℕ) → Arr d ℝ) (f : α → (Fin d → ℝ) → ℝ)
    (h : ∀ a ∈ l, Close ℓ (F a) (f a)) :
    ∃ C δ : ℝ, 0 < δ ∧ ∀ n : Fin d → ℕ, (∀ i, 0 < n i) → (∀ i, ℓ i / n i ≤ δ) → ∀ idx, (∀ i, idx i < n i) → ∀ a ∈ l,
      |F a n idx - f a (point ℓ n idx)| ≤ C * ∑ i, (ℓ i / n i) ^ 2 := by
  induction l with
  | nil => exact ⟨0, 1, one_pos, fun _ _ _ _ _ a ha => by simp at ha⟩
  | cons a l ih =>
    obtain ⟨C, δ, hδ, h1⟩ := ih (fun b hb => h b (List.mem_cons_of_mem _ hb))
    obtain ⟨C', δ', -, hδ', h2⟩ := h a List.mem_cons_self
    refine ⟨max C C', min δ δ', lt_min hδ hδ', fun n hn hs idx hidx b hb => ?_⟩
    have hS0 : 0 ≤ ∑ i, (ℓ i / n i) ^ 2 := Finset.sum_nonneg (fun _ _ => sq_nonneg _)
    rcases List.mem_cons.1 hb with rfl | hb
    · exact (h2 n hn (fun i => (hs i).trans (min_le_right _ _)) idx hidx).trans
        (mul_le_mul_of_nonneg_right (le_max_right _ _) hS0)
    · exact (h1 n hn (fun i => (hs i).trans (min_le_left _ _)) idx hidx b hb).trans
        (mul_le_mul_of_nonneg_right (le_max_left _ _) hS0)

/-- C76: the trend of the generated finite-difference class is a second-order discretisation of the right-hand sides of the system,
uniformly on the grid.  Let the functions of the system have smooth periodic values `φ`, and the constants the values `σ`.  There
are a constant `C` and a step `δ` such that on every grid with steps `ℓ i / n i ≤ δ` the method `trend`, given the state whose
rows are the values of the functions on the grid, returns an array whose row `k` differs at every point of the grid from the right-hand
side of equation `k` by at most `C` times the sum of the squares of the steps.  The hypotheses on the system are those of C64. -/
theorem C76_consistent (iter : List Sy → List Sy) (hi : ∀ l, (iter l).Perm l) (eqs : List Equation) (s : System)
    (h : System.build iter eqs = .ok s) (he : Evolution s.coordinates eqs) (hn : WellNamed s)
    (coords : List Str) (_hcoords : s.spatialCoordinates = coords.map (Sy.sym .plain)) (hc : coords.Nodup) (ht : "t".toList ∉ coords)
    (ℓ : Fin coords.length → ℝ) (hℓ : ∀ i, 0 < ℓ i) (φ : Sy → (Fin coords.length → ℝ) → ℝ) (σ : Str → ℝ)
    (hφ : ∀ f, IsFunction f → InSystem eqs f → ContDiff ℝ (⊤ : ℕ∞) (φ f) ∧ Periodic ℓ (φ f))
    (hr : ∀ e ∈ eqs, Regular coords φ σ e.rhs) :
    ∃ C δ : ℝ, 0 < δ ∧ ∀ n : Fin coords.length → ℕ, (∀ i, 0 < n i) → (∀ i, ℓ i / n i ≤ δ) →
      ∀ O : Obj (Arr coords.length ℝ),
      (∀ f ∈ s.constantFunctions, O.attr f.keyvar = sample ℓ n (φ f)) →
      (∀ c, Sy.sym .plain c ∈ s.constants → O.attr (cleanLatexName c) = fun _ => σ c) →
      (s.exogenous = [] ∨ O.exogenous = some (s.exogenous.map (fun f => sample ℓ n (φ f)))) →
      ∃ m, s.trend (fdArith coords n (fun i => ℓ i / n i)) O (fun _ => σ "t".toList) (s.prognostic.map (fun f => sample ℓ n (φ f)))
          = .ok m ∧ m.out.length = eqs.length ∧
        ∀ (k : ℕ) (e : Equation), eqs[k]? = some e → ∀ a : Arr coords.length ℝ, m.out[k]? = some a → ∀ idx, (∀ i, idx i < n i) →
          |a idx - exact coords φ σ e.rhs (point ℓ n idx)| ≤ C * ∑ i, (ℓ i / n i) ^ 2 := by
  obtain ⟨C, δ, hδ, hclose⟩ := close_all (ℓ := ℓ) eqs
    (fun e n => rhsValue (fdArith coords n (fun i => ℓ i / n i)) (gridVal ℓ φ σ n) e.rhs) (fun e => exact coords φ σ e.rhs)
    (fun e hee => (close_rhs hc ht hℓ φ σ e.rhs (fun f hf => by
      obtain ⟨h1, h2⟩ := (mem_functions_iff f _).1 hf
      exact hφ f h1 ⟨e, hee, .inr h2⟩) (hr e hee)).2)
  refine ⟨C, δ, hδ, fun n hn' hs O h1 h2 h3 => ?_⟩
  obtain ⟨m, hm, hout, -⟩ := C64_trend_partial iter hi eqs s h he hn (fdArith coords n (fun i => ℓ i / n i)) O
    (fun _ => σ "t".toList) (s.prognostic.map (fun f => sample ℓ n (φ f))) (gridVal ℓ φ σ n) rfl rfl h1 h2 h3
  refine ⟨m, hm, by rw [hout, List.length_map], fun k e hk a ha idx hidx => ?_⟩
  rw [hout, List.getElem?_map, hk] at ha
  simp only [Option.map_some, Option.some.injEq] at ha
  rw [← ha]
  exact hclose n hn' hs idx hidx e (List.mem_of_getElem? hk)

/-! ## The Burgers equation, on a sine wave -/

section Examples

private def tt : Str := "t".toList
private def x : Str := "x".toList
private def u : Sy := .fn "u".toList [tt, x]
private def k : Sy := .sym .plain "\\kappa".toList

/-- `u_t = - u u_x + kappa u_xx`. -/
private def burgers : List Equation :=
  [⟨.deriv u [(tt, 1)], .add (.mul (.num (-1)) (.mul u (.deriv u [(x, 1)]))) (.mul k (.deriv u [(x, 2)]))⟩]

private theorem burgers_evolution (coords : List Sy) (hk : k ∉ coords) : Evolution coords burgers where
  lhs := by
    intro e he
    simp only [burgers, List.mem_cons, List.not_mem_nil, or_false] at he
    subst he
    exact ⟨_, _, rfl⟩
  distinct := by decide +kernel
  rhs := by
    have hd : ∀ n : ℕ, 0 < n → ∀ p ∈ [(x, n)], 0 < p.2 ∧ p.1 ≠ "t".toList := by
      intro n hn p hp
      simp only [List.mem_singleton] at hp
      subst hp
      exact ⟨hn, show x ≠ "t".toList by decide⟩
    intro e he
    simp only [burgers, List.mem_cons, List.not_mem_nil, or_false] at he
    subst he
    exact .add (.mul (.num _) (.mul (.fn _ _) (.deriv _ _ _ (by simp) (by simp) (hd 1 (by omega)))))
      (.mul (.sym _ (.inr hk)) (.deriv _ _ _ (by simp) (by simp) (hd 2 (by omega))))
  roots := by decide +kernel

private noncomputable def wave (p : Fin [x].length → ℝ) : ℝ := Real.sin (p 0)

private theorem wave_smooth : ContDiff ℝ (⊤ : ℕ∞) wave :=
  Real.contDiff_sin.comp (contDiff_apply ℝ ℝ (0 : Fin [x].length))

private theorem wave_periodic : Periodic (fun _ : Fin [x].length => 2 * Real.pi) wave := by
  intro i p
  have : i = 0 := by ext; have := i.2; simp at this ⊢
  subst this
  simp [wave, Real.sin_add_two_pi]

private theorem pd_wave : pd 0 wave = fun p => Real.cos (p 0) := by
  funext p
  simp [pd, wave]

private theorem pd_pd_wave : pd 0 (fun p : Fin [x].length → ℝ => Real.cos (p 0)) = fun p => - Real.sin (p 0) := by
  funext p
  simp [pd]

private theorem burgers_exact (κ : ℝ) (p : Fin [x].length → ℝ) :
    exact [x] (fun _ => wave) (fun _ => κ) (.add (.mul (.num (-1)) (.mul u (.deriv u [(x, 1)]))) (.mul k (.deriv u [(x, 2)]))) p
      = - (Real.sin (p 0) * Real.cos (p 0)) - κ * Real.sin (p 0) := by
  have e1 : axesOf [x] [(x, 1)] = [(0, 1)] := by decide +kernel
  have e2 : axesOf [x] [(x, 2)] = [(0, 2)] := by decide +kernel
  simp only [exact, u, k, e1, e2, pdMixed, Function.iterate_succ, Function.iterate_zero, Function.comp_apply, id, pd_wave, pd_pd_wave]
  simp only [wave]
  push_cast
  ring

/-- The hypotheses of `C76_consistent` hold: the trend of the generated class for the Burgers equation, at the state of the samples of
`sin`, is `- sin cos - kappa sin` up to a constant times the square of the step. -/
example (κ : ℝ) : ∃ s, System.build id burgers = .ok s ∧ ∃ C δ : ℝ, 0 < δ ∧ ∀ n : ℕ, 0 < n → 2 * Real.pi / n ≤ δ →
    ∃ m, s.trend (fdArith [x] (fun _ => n) (fun _ => 2 * Real.pi / n)) ⟨fun _ _ => κ, none⟩ (fun _ => κ)
        [fun idx => Real.sin (idx 0 * (2 * Real.pi / n))] = .ok m ∧
      ∀ a : Arr 1 ℝ, m.out[0]? = some a → ∀ j < n,
        |a (fun _ => j) - (- (Real.sin (j * (2 * Real.pi / n)) * Real.cos (j * (2 * Real.pi / n))) - κ * Real.sin (j * (2 * Real.pi / n)))|
          ≤ C * (2 * Real.pi / n) ^ 2 := by
  obtain ⟨s, hs, h1, h2, h3, h4, h5, h6, h7⟩ : ∃ s, System.build id burgers = .ok s ∧ s.prognostic = [u] ∧
      s.constantFunctions = [] ∧ s.exogenous = [] ∧ s.constants = [k] ∧ s.coordinates = [.sym .plain tt, .sym .plain x] ∧
      s.spatialCoordinates = [.sym .plain x] ∧ WellNamed s := by
    refine ⟨_, rfl, ?_⟩; decide +kernel
  refine ⟨s, hs, ?_⟩
  obtain ⟨C, δ, hδ, H⟩ := C76_consistent id (fun _ => .rfl) burgers s hs (burgers_evolution _ (by rw [h5]; decide)) h7 [x]
    (by rw [h6]; rfl) (by decide) (by decide) (fun _ => 2 * Real.pi) (fun _ => Real.two_pi_pos) (fun _ => wave) (fun _ => κ)
    (fun _ _ _ => ⟨wave_smooth, wave_periodic⟩)
    (by
      intro e he
      simp only [burgers, List.mem_singleton] at he
      subst he
      have hx : ∀ o : ℕ, ∀ v ∈ [(x, o)], v.1 ∈ [x] := by
        intro o v hv
        simp only [List.mem_singleton] at hv
        subst hv
        simp
      exact ⟨⟨trivial, trivial, ⟨_, _, rfl, by decide⟩, hx 1⟩, trivial, ⟨_, _, rfl, by decide⟩, hx 2⟩)
  refine ⟨C, δ, hδ, fun n hn hs' => ?_⟩
  obtain ⟨m, hm, -, hout⟩ := H (fun _ => n) (fun _ => hn) (fun _ => hs') ⟨fun _ _ => κ, none⟩ (by rw [h2]; simp) (by simp) (.inl h3)
  rw [h1] at hm
  refine ⟨m, hm, fun a ha j hj => ?_⟩
  have := hout 0 _ rfl a ha (fun _ => j) (fun _ => hj)
  rw [burgers_exact] at this
  simpa [point] using this

end Examples

end Sympkf.Props
