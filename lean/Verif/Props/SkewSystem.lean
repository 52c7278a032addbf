import Verif.Spec.SkewSystem
import Verif.Props.Energy
import Verif.Props.Conservation

/-!
# C100: classes generated from skew-symmetric linear systems
-/

set_option autoImplicit false

namespace Sympkf.Props

open Text PDE Spec.PDE FinDiff Spec

section

variable {coords : List Str} (hc : coords.Nodup) (ht : time ∉ coords) (n : Fin coords.length → ℕ)
  (h : Fin coords.length → ℝ) (hh : ∀ i, h i ≠ 0)

/-- The value of a term. -/
noncomputable def LinTerm.value (σ : Str → ℝ) (ρ : Sy → Arr coords.length ℝ) (x : LinTerm) : Arr coords.length ℝ :=
  fun idx => (x.coef : ℝ) * (x.consts.map σ).prod * gridMixed n h (axesOf coords x.vars) (ρ x.field) idx

include hc ht hh

theorem linear_value (ρ : Valuation (Arr coords.length ℝ)) (σ : Str → ℝ) (hσ : ∀ c, c ≠ "t".toList → ρ.sym c = fun _ => σ c) (e : Sy)
    (l : List LinTerm) (he : Linear coords e l) (idx : Fin coords.length → ℕ) (hidx : ∀ i, idx i < n i) :
    rhsValue (fdArith coords n h) ρ e idx = (l.map fun x => LinTerm.value n h σ ρ.fn x idx).sum := by
  induction he with
  | fn u args => simp [LinTerm.value, rhsValue, axesOf, gridMixed]
  | deriv u args vars hv =>
    simp only [LinTerm.value, List.map_cons, List.map_nil, List.prod_nil, List.sum_cons, List.sum_nil, Rat.cast_one, mul_one, one_mul, add_zero]
    exact fdDiff_grid hc ht n h hh vars hv _ idx hidx
  | @num q e l _ ih =>
    show (q : ℝ) * rhsValue (fdArith coords n h) ρ e idx = _
    rw [ih, ← List.sum_map_mul_left, List.map_map]
    refine congrArg List.sum (List.map_congr_left fun x _ => ?_)
    simp only [LinTerm.value, Function.comp_apply, Rat.cast_mul]
    ring
  | @sym c e l hct _ ih =>
    show ρ.sym c idx * rhsValue (fdArith coords n h) ρ e idx = _
    rw [ih, hσ c hct, ← List.sum_map_mul_left, List.map_map]
    refine congrArg List.sum (List.map_congr_left fun x _ => ?_)
    simp only [LinTerm.value, Function.comp_apply, List.map_cons, List.prod_cons]
    ring
  | @add a b l m _ _ ih1 ih2 =>
    show rhsValue (fdArith coords n h) ρ a idx + rhsValue (fdArith coords n h) ρ b idx = _
    rw [ih1, ih2, List.map_append, List.sum_append]

/-- The weight of a term between two functions. -/
noncomputable def weigh (σ : Str → ℝ) (a b : Arr coords.length ℝ) (x : ℚ × List Str × List (Str × ℕ)) : ℝ :=
  (x.1 : ℝ) * (x.2.1.map σ).prod * ∑ idx ∈ box n, gridMixed n h (axesOf coords x.2.2) a idx * b idx

omit hc ht in
theorem weigh_opposite (σ : Str → ℝ) (a b : Arr coords.length ℝ) (x : ℚ × List Str × List (Str × ℕ)) (hv : ∀ v ∈ x.2.2, v.1 ∈ coords) :
    weigh n h σ a b (opposite x) = -weigh n h σ b a x := by
  have key := C33_integration_by_parts n h hh (axesOf coords x.2.2) b a
  rw [axesOf_orders coords _ hv] at key
  have e : ∀ u v : Arr coords.length ℝ, ∑ idx ∈ box n, u idx * v idx = ∑ idx ∈ box n, v idx * u idx :=
    fun u v => Finset.sum_congr rfl (fun _ _ => mul_comm _ _)
  rw [e a] at key
  unfold weigh opposite
  simp only [Rat.cast_neg, Rat.cast_mul, Rat.cast_pow, Rat.cast_one]
  rw [key]
  ring

end

theorem linear_vars {coords : List Str} {e : Sy} {l : List LinTerm} (he : Linear coords e l) : ∀ x ∈ l, ∀ v ∈ x.vars, v.1 ∈ coords := by
  induction he with
  | fn u args => simp
  | deriv u args vars hv => simpa using hv
  | num q _ ih =>
    intro x hx
    obtain ⟨y, hy, rfl⟩ := List.mem_map.1 hx
    exact ih y hy
  | sym c _ _ ih =>
    intro x hx
    obtain ⟨y, hy, rfl⟩ := List.mem_map.1 hx
    exact ih y hy
  | add _ _ ih1 ih2 =>
    intro x hx
    rcases List.mem_append.1 hx with hx | hx
    · exact ih1 x hx
    · exact ih2 x hx

/-- The terms are sorted by the functions they act on. -/
theorem sum_onto {N : ℕ} (f : Fin N → Sy) (hf : Function.Injective f) (g : Sy → ℚ × List Str × List (Str × ℕ) → ℝ) (l : List LinTerm)
    (hl : ∀ x ∈ l, ∃ j, x.field = f j) :
    (l.map fun x => g x.field (x.coef, x.consts, x.vars)).sum = ∑ j, ((onto (f j) l).map (g (f j))).sum := by
  induction l with
  | nil => simp [onto]
  | cons x l ih =>
    obtain ⟨j, hj⟩ := hl x (List.mem_cons_self ..)
    rw [List.map_cons, List.sum_cons, ih (fun y hy => hl y (List.mem_cons_of_mem _ hy))]
    have e : ∀ i, ((onto (f i) (x :: l)).map (g (f i))).sum =
        (if j = i then g x.field (x.coef, x.consts, x.vars) else 0) + ((onto (f i) l).map (g (f i))).sum := by
      intro i
      unfold onto
      by_cases hij : j = i
      · subst hij
        simp [hj]
      · have : ¬ x.field = f i := fun e => hij (hf (hj.symm.trans e))
        simp [this, hij]
    rw [Finset.sum_congr rfl (fun i _ => e i), Finset.sum_add_distrib, Finset.sum_ite_eq]
    simp

theorem gridProduct_comm {d N : ℕ} (n : Fin d → ℕ) (U V : Fin N → Arr d ℝ) : gridProduct n N U V = gridProduct n N V U := by
  simp only [gridProduct, LinearMap.mk₂_apply, mul_comm]

theorem gridProduct_nonneg {d N : ℕ} (n : Fin d → ℕ) (U : Fin N → Arr d ℝ) : 0 ≤ energy (gridProduct n N) U := by
  simp only [energy, gridProduct, LinearMap.mk₂_apply]
  exact Finset.sum_nonneg fun k _ => Finset.sum_nonneg fun idx _ => mul_self_nonneg _

/-- **C100** The vector field of the class generated from a skew-symmetric linear system, with scalar constants, is skew-symmetric for the
scalar product of the grid. -/
theorem C100_skew (iter : List Sy → List Sy) (hi : ∀ l, (iter l).Perm l) (eqs : List Equation) (s : System)
    (h : System.build iter eqs = .ok s) (he : Evolution s.coordinates eqs) (hn : WellNamed s)
    (coords : List Str) (hc : coords.Nodup) (ht : "t".toList ∉ coords)
    (n : Fin coords.length → ℕ) (dx : Fin coords.length → ℝ) (hdx : ∀ i, dx i ≠ 0)
    (O : ℝ → Obj (Arr coords.length ℝ))
    (hO : ∀ c, Sy.sym .plain c ∈ s.constants → ∃ v : ℝ, ∀ t, (O t).attr (cleanLatexName c) = fun _ => v)
    (hex : s.exogenous = [] ∨ ∀ t, ∃ l, (O t).exogenous = some l ∧ l.length = s.exogenous.length)
    (F : ℝ → (Fin s.prognostic.length → Arr coords.length ℝ) → Fin s.prognostic.length → Arr coords.length ℝ)
    (hF : Implements s (fdArith coords n dx) O F) (rows : List (Sy × List LinTerm)) (hskew : SkewSystem coords eqs rows) :
    Skew (gridProduct n s.prognostic.length) F := by
  classical
  have hlen := prognostic_length iter hi eqs s h he
  have hrows : rows.length = s.prognostic.length := by rw [← hskew.linear.length_eq, hlen]
  have hnd := functions_nodup s hn
  have hpn : s.prognostic.Nodup := (List.nodup_append.1 (List.nodup_append.1 hnd).1).1
  set f : Fin s.prognostic.length → Sy := fun k => s.prognostic[k] with hfdef
  have hfinj : Function.Injective f := fun a b hab => Fin.ext ((List.Nodup.getElem_inj_iff hpn).1 hab)
  set T : Fin s.prognostic.length → List LinTerm := fun k => (rows[(k : ℕ)]'(by have := k.2; omega)).2 with hT
  have hrow : ∀ k : Fin s.prognostic.length, rows[(k : ℕ)]'(by have := k.2; omega) = (f k, T k) ∧
      Linear coords (eqs[(k : ℕ)]'(by have := k.2; omega)).rhs (T k) := by
    intro k
    have h1 := List.forall₂_iff_get.1 hskew.linear |>.2 k (by have := k.2; omega) (by have := k.2; omega)
    refine ⟨Prod.ext ?_ rfl, h1.2⟩
    have h2 : (s.prognostic.map (fun f => Sy.deriv f [("t".toList, 1)]))[(k : ℕ)]'(by simp) =
        (eqs.map (fun e => e.lhs))[(k : ℕ)]'(by simp [hlen]) := by
      congr 1
      exact C64_slots iter hi eqs s h he.toEvolves
    simp only [List.getElem_map] at h2
    have h3 := h2.trans h1.1
    injection h3 with h3
    exact h3.symm
  have hmem : ∀ k, (f k, T k) ∈ rows := fun k => (hrow k).1 ▸ List.getElem_mem _
  choose! σ hσ using hO
  set σ' : Str → ℝ := fun c => if Sy.sym .plain c ∈ s.constants then σ c else 0 with hσ'
  have hex' : ∀ t, ∃ ex : List (Arr coords.length ℝ), s.exogenous.length = ex.length ∧
      (s.exogenous = [] ∨ (O t).exogenous = some ex) := by
    intro t
    rcases hex with hex | hex
    · exact ⟨[], by rw [hex]; rfl, .inl hex⟩
    · obtain ⟨l, k1, k2⟩ := hex t
      exact ⟨l, k2.symm, .inr k1⟩
  have key : ∀ t U V, gridProduct n s.prognostic.length (F t U) V =
      ∑ k, ∑ j, ((onto (f j) (T k)).map (weigh n dx σ' (U j) (V k))).sum := by
    intro t U V
    obtain ⟨ex, x1, x2⟩ := hex' t
    obtain ⟨ρ, hρ⟩ := exists_values _ hnd
      (List.ofFn U ++ s.constantFunctions.map (fun f => (O t).attr f.keyvar) ++ ex) (by simp [x1])
    rw [List.map_append, List.map_append] at hρ
    obtain ⟨a1, a3⟩ := List.append_inj hρ (by simp)
    obtain ⟨a1, a2⟩ := List.append_inj a1 (by simp)
    have hU : ∀ j, ρ (f j) = U j := by
      intro j
      have : (s.prognostic.map ρ)[(j : ℕ)]'(by simp) = (List.ofFn U)[(j : ℕ)]'(by simp) := by congr 1
      rw [List.getElem_map, List.getElem_ofFn] at this
      exact this
    simp only [gridProduct, LinearMap.mk₂_apply]
    refine Finset.sum_congr rfl fun k _ => ?_
    have h1 : ∀ idx ∈ box n, F t U k idx = ((T k).map fun x => LinTerm.value n dx σ' ρ x idx).sum := by
      intro idx hidx
      rw [field_value iter hi eqs s h he hn _ O F hF t ρ U ex a1 a2 a3 x2 k]
      refine linear_value hc ht n dx hdx _ σ' (fun c hct => ?_) _ _ (hrow k).2 idx ((mem_box n idx).1 hidx)
      show symbolValue s (O t) t c = _
      unfold symbolValue
      rw [if_neg hct, hσ']
      by_cases hcc : Sy.sym .plain c ∈ s.constants
      · simp only [if_pos hcc, hσ c hcc t]
      · simp only [if_neg hcc]
    have h2 : gridTotal n (fun idx => F t U k idx * V k idx) =
        ((T k).map fun x => weigh n dx σ' (ρ x.field) (V k) (x.coef, x.consts, x.vars)).sum := by
      show ∑ idx ∈ box n, F t U k idx * V k idx = _
      rw [Finset.sum_congr rfl fun idx hidx => by rw [h1 idx hidx]]
      generalize T k = l
      induction l with
      | nil => simp
      | cons x l ih =>
        simp only [List.map_cons, List.sum_cons, add_mul, Finset.sum_add_distrib, ih]
        congr 1
        simp only [LinTerm.value, weigh, Finset.mul_sum, mul_assoc]
    rw [h2, sum_onto f hfinj (fun g => weigh n dx σ' (ρ g) (V k)) (T k)]
    · simp only [hU]
    · intro x hx
      obtain ⟨r, hr, hrx⟩ := List.mem_map.1 (hskew.closed _ (hmem k) x hx)
      obtain ⟨i, hi', rfl⟩ := List.getElem_of_mem hr
      refine ⟨⟨i, hrows ▸ hi'⟩, ?_⟩
      rw [← hrx]
      exact congrArg Prod.fst (hrow ⟨i, hrows ▸ hi'⟩).1
  intro t t' U V
  rw [gridProduct_comm n U, key, key, ← Finset.sum_neg_distrib, Finset.sum_comm]
  refine Finset.sum_congr rfl fun j _ => ?_
  rw [← Finset.sum_neg_distrib]
  refine Finset.sum_congr rfl fun k _ => ?_
  rw [((hskew.skew _ (hmem k) _ (hmem j)).map _).sum_eq, List.map_map, List.sum_neg, List.map_map]
  refine congrArg List.sum (List.map_congr_left fun z hz => ?_)
  refine weigh_opposite n dx hdx σ' (U j) (V k) z ?_
  simp only [onto, List.mem_map, List.mem_filter] at hz
  obtain ⟨x, ⟨hx, -⟩, rfl⟩ := hz
  exact linear_vars (hrow j).2 x hx

/-- **C100** The energies of the forecasts: they never grow with `rk4` when the steps satisfy `dt² E(F U) ≤ 8 E(U)`, never decrease with
`euler` and `rk2`, and stay bounded with `leapfrog` and equal steps such that `dt² E(F U) ≤ c² E(U)`, `c < 1`. -/
theorem C100_forecast (iter : List Sy → List Sy) (hi : ∀ l, (iter l).Perm l) (eqs : List Equation) (s : System)
    (h : System.build iter eqs = .ok s) (he : Evolution s.coordinates eqs) (hn : WellNamed s)
    (coords : List Str) (hc : coords.Nodup) (ht : "t".toList ∉ coords)
    (n : Fin coords.length → ℕ) (dx : Fin coords.length → ℝ) (hdx : ∀ i, dx i ≠ 0)
    (O : ℝ → Obj (Arr coords.length ℝ))
    (hO : ∀ c, Sy.sym .plain c ∈ s.constants → ∃ v : ℝ, ∀ t, (O t).attr (cleanLatexName c) = fun _ => v)
    (hex : s.exogenous = [] ∨ ∀ t, ∃ l, (O t).exogenous = some l ∧ l.length = s.exogenous.length)
    (F : ℝ → (Fin s.prognostic.length → Arr coords.length ℝ) → Fin s.prognostic.length → Arr coords.length ℝ)
    (hF : Implements s (fdArith coords n dx) O F) (rows : List (Sy × List LinTerm)) (hskew : SkewSystem coords eqs rows)
    (window saved : List ℝ) (sch : Integrator.Scheme) (x : Integrator.StateObj (Fin s.prognostic.length → Arr coords.length ℝ))
    (fc : Dict ℝ (Integrator.StateObj (Fin s.prognostic.length → Arr coords.length ℝ)))
    (hfc : Integrator.forecast (Integrator.step sch (.fn F)) window x (.list saved) = .ok fc) :
    (∀ U₀ τ U, sch = .rk4 → x = .single U₀ → fc.get? τ = some (.single U) →
      (∀ (i : ℕ) t t', window[i]? = some t → window[i + 1]? = some t' →
        ∀ V, (t' - t) ^ 2 * energy (gridProduct n s.prognostic.length) (F t V) ≤ 8 * energy (gridProduct n s.prognostic.length) V) →
      energy (gridProduct n s.prognostic.length) U ≤ energy (gridProduct n s.prognostic.length) U₀) ∧
    (∀ U₀ τ U, sch = .euler ∨ sch = .rk2 → x = .single U₀ → fc.get? τ = some (.single U) →
      energy (gridProduct n s.prognostic.length) U₀ ≤ energy (gridProduct n s.prognostic.length) U) ∧
    (∀ U₀ V₀ τ U V dt c, sch = .leapfrog → x = .pair U₀ V₀ → fc.get? τ = some (.pair U V) → 0 < c → c < 1 →
      (∀ (i : ℕ) t t', window[i]? = some t → window[i + 1]? = some t' → t' - t = dt) →
      (∀ t W, dt ^ 2 * energy (gridProduct n s.prognostic.length) (F t W) ≤ c ^ 2 * energy (gridProduct n s.prognostic.length) W) →
      energy (gridProduct n s.prognostic.length) U + energy (gridProduct n s.prognostic.length) V ≤
        (1 + c) / (1 - c) * (energy (gridProduct n s.prognostic.length) U₀ + energy (gridProduct n s.prognostic.length) V₀)) := by
  have hs := C100_skew iter hi eqs s h he hn coords hc ht n dx hdx O hO hex F hF rows hskew
  refine ⟨?_, ?_, ?_⟩
  · rintro U₀ τ U rfl rfl hU hw
    exact Integrator.C99_rk4 _ (gridProduct_comm n) F hs window saved hw U₀ fc hfc τ U hU
  · rintro U₀ τ U hsch rfl hU
    exact Integrator.C99_growth _ (gridProduct_comm n) (gridProduct_nonneg n) F hs window saved sch hsch U₀ fc hfc τ U hU
  · rintro U₀ V₀ τ U V dt c rfl rfl hU hc0 hc1 hw hcfl
    exact Integrator.C99_leapfrog_bounded _ (gridProduct_comm n) (gridProduct_nonneg n) F hs window saved dt c hc0 hc1 hw hcfl U₀ V₀ fc hfc τ U V hU

end Sympkf.Props
