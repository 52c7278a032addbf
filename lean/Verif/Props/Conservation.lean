import Verif.Spec.Conservation
import Verif.Props.Translate

/-!
# C92: equations in conservation form generate classes that conserve the total
-/

set_option autoImplicit false

namespace Sympkf.Props

open Text PDE Spec.PDE FinDiff Spec

theorem axesOf_orders (coords : List Str) (vars : List (Str × ℕ)) (hv : ∀ v ∈ vars, v.1 ∈ coords) :
    (axesOf coords vars).map Prod.snd = vars.map Prod.snd := by
  conv_rhs => rw [← axesOf_map coords vars hv]
  rw [List.map_map]
  rfl

section

variable {coords : List Str} (hc : coords.Nodup) (ht : time ∉ coords) (n : Fin coords.length → ℕ)
  (h : Fin coords.length → ℝ) (hh : ∀ i, h i ≠ 0)
include hc ht hh

theorem total_zero (ρ : Valuation (Arr coords.length ℝ)) (hs : ∀ c, ∃ v : ℝ, ρ.sym c = fun _ => v) (e : Sy)
    (he : Conservative coords e) : gridTotal n (rhsValue (fdArith coords n h) ρ e) = 0 := by
  induction he with
  | deriv u args vars _ hv hpos =>
    have : gridTotal n (rhsValue (fdArith coords n h) ρ (.deriv (.fn u args) vars)) =
        ∑ idx ∈ box n, gridMixed n h (axesOf coords vars) (ρ.fn (.fn u args)) idx :=
      Finset.sum_congr rfl (fun idx hidx => fdDiff_grid hc ht n h hh vars hv _ idx ((mem_box n idx).1 hidx))
    rw [this]
    refine C33_sum_zero n h hh _ ?_ _
    obtain ⟨v, hv1, hv2⟩ := hpos
    have : v.2 ∈ (axesOf coords vars).map Prod.snd := by
      rw [axesOf_orders coords vars hv]; exact List.mem_map_of_mem hv1
    obtain ⟨p, hp, hpv⟩ := List.mem_map.1 this
    exact ⟨p, hp, by omega⟩
  | product u args vars _ hv hodd =>
    have : gridTotal n (rhsValue (fdArith coords n h) ρ (.mul (.fn u args) (.deriv (.fn u args) vars))) =
        ∑ idx ∈ box n, ρ.fn (.fn u args) idx * gridMixed n h (axesOf coords vars) (ρ.fn (.fn u args)) idx :=
      Finset.sum_congr rfl (fun idx hidx => congrArg (ρ.fn (.fn u args) idx * ·)
        (fdDiff_grid hc ht n h hh vars hv _ idx ((mem_box n idx).1 hidx)))
    rw [this]
    have key := C33_integration_by_parts n h hh (axesOf coords vars) (ρ.fn (.fn u args)) (ρ.fn (.fn u args))
    rw [axesOf_orders coords vars hv, hodd.neg_one_pow] at key
    simp only [mul_comm (gridMixed n h _ _ _)] at key
    linarith
  | num q _ ih =>
    rename_i e _
    show ∑ idx ∈ _, (q : ℝ) * rhsValue (fdArith coords n h) ρ e idx = 0
    rw [← Finset.mul_sum]
    exact mul_eq_zero_of_right _ ih
  | sym c _ ih =>
    rename_i e _
    obtain ⟨v, hv⟩ := hs c
    show ∑ idx ∈ _, ρ.sym c idx * rhsValue (fdArith coords n h) ρ e idx = 0
    rw [hv, ← Finset.mul_sum]
    exact mul_eq_zero_of_right _ ih
  | add _ _ iha ihb =>
    rename_i a b _ _
    show ∑ idx ∈ _, (rhsValue (fdArith coords n h) ρ a idx + rhsValue (fdArith coords n h) ρ b idx) = 0
    rw [Finset.sum_add_distrib]
    have h1 : ∑ idx ∈ gridPoints n, rhsValue (fdArith coords n h) ρ a idx = 0 := iha
    have h2 : ∑ idx ∈ gridPoints n, rhsValue (fdArith coords n h) ρ b idx = 0 := ihb
    rw [h1, h2, add_zero]

end

theorem gridTotal_add {d : ℕ} (n : Fin d → ℕ) (a b : Arr d ℝ) : gridTotal n (a + b) = gridTotal n a + gridTotal n b :=
  Finset.sum_add_distrib

theorem gridTotal_smul {d : ℕ} (n : Fin d → ℕ) (c : ℝ) (a : Arr d ℝ) : gridTotal n (c • a) = c * gridTotal n a :=
  (Finset.mul_sum _ _ _).symm

/-- A trend whose total is zero: the steps of the schemes conserve the total. -/
theorem step_total {d N : ℕ} (n : Fin d → ℕ) (k : Fin N) (F : ℝ → (Fin N → Arr d ℝ) → Fin N → Arr d ℝ)
    (hF : ∀ t U, gridTotal n (F t U k) = 0) (T : ℝ) (sch : Integrator.Scheme) (t dt : ℝ) (x y : Integrator.StateObj (Fin N → Arr d ℝ))
    (hx : HasTotal n k T x) (hy : Integrator.step sch (.fn F) t x dt = .ok y) : HasTotal n k T y := by
  have e : ∀ (U V : Fin N → Arr d ℝ), (U + V) k = U k + V k := fun _ _ => rfl
  have e' : ∀ (c : ℝ) (U : Fin N → Arr d ℝ), (c • U) k = c • U k := fun _ _ => rfl
  cases x with
  | single U =>
    have hx : gridTotal n (U k) = T := hx
    cases sch <;> simp only [Integrator.step, Except.ok.injEq, reduceCtorEq] at hy <;> subst hy <;>
      simp only [HasTotal, Integrator.euler, Integrator.rk2, Integrator.rk4, e, e', gridTotal_add, gridTotal_smul, hF, hx, mul_zero,
        add_zero]
  | pair U V =>
    obtain ⟨hx, hx'⟩ := hx
    cases sch <;> simp only [Integrator.step, Except.ok.injEq, reduceCtorEq] at hy
    subst hy
    simp only [HasTotal, Integrator.leapfrog, e, e', gridTotal_add, gridTotal_smul, hF, hx, hx', mul_zero, add_zero, and_self]

/-- **C92** If the right-hand side of the `k`-th equation is in conservation form and the constants of the object are scalars, the
total of the `k`-th row of the trend is zero for every state and time. -/
theorem C92_trend (iter : List Sy → List Sy) (hi : ∀ l, (iter l).Perm l) (eqs : List Equation) (s : System)
    (h : System.build iter eqs = .ok s) (he : Evolution s.coordinates eqs) (hn : WellNamed s)
    (coords : List Str) (hc : coords.Nodup) (ht : "t".toList ∉ coords)
    (n : Fin coords.length → ℕ) (dx : Fin coords.length → ℝ) (hdx : ∀ i, dx i ≠ 0)
    (O : ℝ → Obj (Arr coords.length ℝ)) (hO : ∀ t c, Sy.sym .plain c ∈ s.constants → ∃ v : ℝ, (O t).attr (cleanLatexName c) = fun _ => v)
    (hex : s.exogenous = [] ∨ ∀ t, ∃ l, (O t).exogenous = some l ∧ l.length = s.exogenous.length)
    (F : ℝ → (Fin s.prognostic.length → Arr coords.length ℝ) → Fin s.prognostic.length → Arr coords.length ℝ)
    (hF : Implements s (fdArith coords n dx) O F) (k : Fin s.prognostic.length) (e : Equation) (hk : eqs[(k : ℕ)]? = some e)
    (hcons : Conservative coords e.rhs) (t : ℝ) (U : Fin s.prognostic.length → Arr coords.length ℝ) : gridTotal n (F t U k) = 0 := by
  obtain ⟨ex, x1, x2⟩ : ∃ ex : List (Arr coords.length ℝ), s.exogenous.length = ex.length ∧
      (s.exogenous = [] ∨ (O t).exogenous = some ex) := by
    rcases hex with hex | hex
    · exact ⟨[], by rw [hex]; rfl, .inl hex⟩
    · obtain ⟨l, k1, k2⟩ := hex t
      exact ⟨l, k2.symm, .inr k1⟩
  obtain ⟨ρ, hρ⟩ := exists_values _ (functions_nodup s hn)
    (List.ofFn U ++ s.constantFunctions.map (fun f => (O t).attr f.keyvar) ++ ex) (by simp [x1])
  rw [List.map_append, List.map_append] at hρ
  obtain ⟨a1, a3⟩ := List.append_inj hρ (by simp)
  obtain ⟨a1, a2⟩ := List.append_inj a1 (by simp)
  rw [field_value iter hi eqs s h he hn _ O F hF t ρ U ex a1 a2 a3 x2 k]
  have hek : eqs[(k : ℕ)]'(by rw [prognostic_length iter hi eqs s h he]; exact k.2) = e :=
    Option.some.inj ((List.getElem?_eq_getElem _).symm.trans hk)
  rw [hek]
  refine total_zero hc ht n dx hdx _ (fun c => ?_) _ hcons
  show ∃ v : ℝ, symbolValue s (O t) t c = fun _ => v
  unfold symbolValue
  split
  · exact ⟨t, rfl⟩
  · split
    · rename_i hcc; exact hO t c hcc
    · exact ⟨0, rfl⟩

/-- **C92** The forecasts of the generated class conserve the total, with all the schemes, over every window. -/
theorem C92_forecast (iter : List Sy → List Sy) (hi : ∀ l, (iter l).Perm l) (eqs : List Equation) (s : System)
    (h : System.build iter eqs = .ok s) (he : Evolution s.coordinates eqs) (hn : WellNamed s)
    (coords : List Str) (hc : coords.Nodup) (ht : "t".toList ∉ coords)
    (n : Fin coords.length → ℕ) (dx : Fin coords.length → ℝ) (hdx : ∀ i, dx i ≠ 0)
    (O : ℝ → Obj (Arr coords.length ℝ)) (hO : ∀ t c, Sy.sym .plain c ∈ s.constants → ∃ v : ℝ, (O t).attr (cleanLatexName c) = fun _ => v)
    (hex : s.exogenous = [] ∨ ∀ t, ∃ l, (O t).exogenous = some l ∧ l.length = s.exogenous.length)
    (F : ℝ → (Fin s.prognostic.length → Arr coords.length ℝ) → Fin s.prognostic.length → Arr coords.length ℝ)
    (hF : Implements s (fdArith coords n dx) O F) (k : Fin s.prognostic.length) (e : Equation) (hk : eqs[(k : ℕ)]? = some e)
    (hcons : Conservative coords e.rhs) (sch : Integrator.Scheme) (window : List ℝ) (saved : Integrator.SavedTimes ℝ) (T : ℝ)
    (x : Integrator.StateObj (Fin s.prognostic.length → Arr coords.length ℝ)) (hx : HasTotal n k T x)
    (fc : Dict ℝ (Integrator.StateObj (Fin s.prognostic.length → Arr coords.length ℝ)))
    (hfc : Integrator.forecast (Integrator.step sch (.fn F)) window x saved = .ok fc) (τ : ℝ) (y) (hy : fc.get? τ = some y) :
    HasTotal n k T y := by
  have := Integrator.forecast_rel (fun y y' => y = y' ∧ HasTotal n k T y) (Integrator.step sch (.fn F)) (Integrator.step sch (.fn F))
    (by
      rintro t dt y _ ⟨rfl, hy⟩
      cases hs : Integrator.step sch (.fn F) t y dt with
      | error e => rfl
      | ok y' =>
        exact ⟨rfl, step_total n k F (C92_trend iter hi eqs s h he hn coords hc ht n dx hdx O hO hex F hF k e hk hcons) T sch t dt y y' hy hs⟩)
    window saved x x ⟨rfl, hx⟩
  rw [hfc] at this
  have h3 : List.Forall₂ (fun p q => p.1 = q.1 ∧ p.2 = q.2 ∧ HasTotal n k T p.2) fc fc := this
  rw [List.forall₂_same] at h3
  exact (h3 _ (Integrator.mem_of_get? hy)).2.2

end Sympkf.Props
