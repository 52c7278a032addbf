import Verif.Spec.Reflect
import Verif.Props.Translate

/-!
# C96: the generated classes commute with the reflections of the grid
-/

set_option autoImplicit false

namespace Sympkf.Props

open Text PDE Spec.PDE FinDiff Spec

section

variable {coords : List Str} (n : Fin coords.length → ℕ) (S : List Str) (z : Fin coords.length → ℤ)

theorem mirror_lt (idx : Fin coords.length → ℕ) (hidx : ∀ i, idx i < n i) (i : Fin coords.length) : mirror n S z idx i < n i := by
  unfold mirror
  split
  · have hn : (0 : ℤ) < n i := by have := hidx i; omega
    have h1 := Int.emod_nonneg (z i - (idx i : ℤ)) hn.ne'
    have h2 := Int.emod_lt_of_pos (z i - (idx i : ℤ)) hn
    omega
  · exact hidx i

theorem mirror_sh (i : Fin coords.length) (k : ℤ) (idx : Fin coords.length → ℕ) (hidx : ∀ i, idx i < n i) :
    mirror n S z (sh n i k idx) = sh n i (if coords[i] ∈ S then -k else k) (mirror n S z idx) := by
  funext j
  unfold sh
  by_cases hj : j = i
  · subst hj
    rw [Function.update_self]
    unfold mirror
    rw [Function.update_self]
    by_cases hS : coords[j] ∈ S
    · simp only [if_pos hS]
      have hn : (0 : ℤ) < n j := by have := hidx j; omega
      unfold gridIndex
      rw [Int.toNat_of_nonneg (Int.emod_nonneg _ hn.ne'), Int.toNat_of_nonneg (Int.emod_nonneg _ hn.ne'), Int.emod_add_emod,
        Int.sub_emod, Int.emod_emod, ← Int.sub_emod]
      congr 2
      ring
    · simp only [if_neg hS]
  · rw [Function.update_of_ne hj]
    unfold mirror
    rw [Function.update_of_ne hj]

/-- The sign of the derivative of order `o` along the axis `i`. -/
def axisSign (coords : List Str) (S : List Str) (p : Fin coords.length × ℕ) : ℤˣ := if coords[p.1] ∈ S then (-1) ^ p.2 else 1

theorem gridDeriv_mirror (h : Fin coords.length → ℝ) (i : Fin coords.length) (o : ℕ) (hh : h i ≠ 0) (σ : ℤˣ)
    (a b : Arr coords.length ℝ) (hab : Mirrored n S z σ a b) :
    Mirrored n S z (σ * axisSign coords S (i, o)) (gridDeriv n h i o a) (gridDeriv n h i o b) := by
  intro idx hidx
  rw [gridDeriv_eq_sum n h i o hh, gridDeriv_eq_sum n h i o hh, Finset.mul_sum]
  have hb : ∀ ν, b (sh n i (off o ν) idx) = ((σ : ℤ) : ℝ) * a (sh n i (if coords[i] ∈ S then -off o ν else off o ν) (mirror n S z idx)) := by
    intro ν
    rw [hab _ ((mem_box n _).1 (sh_mem n i _ idx ((mem_box n idx).2 hidx))), mirror_sh n S z i _ idx hidx]
  by_cases hS : coords[i] ∈ S
  · simp only [hb, if_pos hS, axisSign]
    rw [← Finset.sum_range_reflect]
    refine Finset.sum_congr rfl (fun ν hν => ?_)
    rw [Finset.mem_range] at hν
    have e1 : o + 1 - 1 - ν = o - ν := by omega
    rw [e1, unitWeight_reflect o ν (by omega), off_reflect o ν (by omega), neg_neg]
    push_cast
    ring
  · simp only [hb, if_neg hS, axisSign]
    refine Finset.sum_congr rfl (fun ν hν => ?_)
    push_cast
    ring

theorem gridMixed_mirror (h : Fin coords.length → ℝ) (hh : ∀ i, h i ≠ 0) (L : List (Fin coords.length × ℕ)) (σ : ℤˣ)
    (a b : Arr coords.length ℝ) (hab : Mirrored n S z σ a b) :
    Mirrored n S z (σ * (L.map (axisSign coords S)).prod) (gridMixed n h L a) (gridMixed n h L b) := by
  induction L generalizing a b σ with
  | nil => rw [List.map_nil, List.prod_nil, mul_one]; exact hab
  | cons p L ih =>
    obtain ⟨i, o⟩ := p
    have := ih _ _ _ (gridDeriv_mirror n S z h i o (hh i) σ a b hab)
    rw [List.map_cons, List.prod_cons, ← mul_assoc]
    exact this

theorem axisSign_prod (vars : List (Str × ℕ)) (hv : ∀ v ∈ vars, v.1 ∈ coords) :
    ((axesOf coords vars).map (axisSign coords S)).prod = derivSign S vars := by
  conv_rhs => rw [← axesOf_map coords vars hv]
  unfold derivSign
  rw [List.map_map]
  rfl

end

section

variable {coords : List Str} (hc : coords.Nodup) (ht : time ∉ coords) (n : Fin coords.length → ℕ) (S : List Str)
  (z : Fin coords.length → ℤ) (h : Fin coords.length → ℝ) (hh : ∀ i, h i ≠ 0)
include hc ht hh

theorem rhsValue_mirror (π : Sy → ℤˣ) (κ : Str → ℤˣ) (ρ ρ' : Valuation (Arr coords.length ℝ))
    (hf : ∀ f, Mirrored n S z (π f) (ρ.fn f) (ρ'.fn f)) (hs : ∀ c, Mirrored n S z (κ c) (ρ.sym c) (ρ'.sym c)) (e : Sy) (σ : ℤˣ)
    (hp : HasParity S π κ e σ) (he : FullDerivatives coords e) :
    Mirrored n S z σ (rhsValue (fdArith coords n h) ρ e) (rhsValue (fdArith coords n h) ρ' e) := by
  induction hp with
  | num q =>
    intro idx _
    show (q : ℝ) = ((1 : ℤˣ) : ℤ) * (q : ℝ)
    simp
  | sym k c => exact hs c
  | fn u args => exact hf _
  | @add a b σ _ _ iha ihb =>
    intro idx hidx
    show rhsValue _ ρ' a idx + rhsValue _ ρ' b idx = _ * (rhsValue _ ρ a _ + rhsValue _ ρ b _)
    rw [iha he.1 idx hidx, ihb he.2 idx hidx, mul_add]
  | @mul a b σ τ _ _ iha ihb =>
    intro idx hidx
    show rhsValue _ ρ' a idx * rhsValue _ ρ' b idx = _ * (rhsValue _ ρ a _ * rhsValue _ ρ b _)
    rw [iha he.1 idx hidx, ihb he.2 idx hidx]
    push_cast
    ring
  | @pow_even a b _ _ iha ihb =>
    intro idx hidx
    show rhsValue _ ρ' a idx ^ rhsValue _ ρ' b idx = _ * (rhsValue _ ρ a _ ^ rhsValue _ ρ b _)
    rw [iha he.1 idx hidx, ihb he.2 idx hidx]
    simp
  | @pow_int a σ k _ iha =>
    intro idx hidx
    show rhsValue _ ρ' a idx ^ ((k : ℚ) : ℝ) = _ * (rhsValue _ ρ a _ ^ ((k : ℚ) : ℝ))
    rw [iha he.1 idx hidx, Rat.cast_intCast, Real.rpow_intCast, Real.rpow_intCast, mul_zpow]
    congr 1
    rcases Int.units_eq_one_or σ with rfl | rfl
    · simp
    · rcases Int.even_or_odd k with hk | hk
      · rw [hk.neg_one_zpow]; simp [hk.neg_one_zpow]
      · rw [hk.neg_one_zpow]; simp [hk.neg_one_zpow]
  | deriv u args vars =>
    intro idx hidx
    obtain ⟨-, hv⟩ := he
    show fdDiff coords n h vars (rhsValue _ ρ' _) idx = _ * fdDiff coords n h vars (rhsValue _ ρ _) _
    rw [fdDiff_grid hc ht n h hh vars hv _ _ hidx, fdDiff_grid hc ht n h hh vars hv _ _ (mirror_lt n S z idx hidx),
      ← axisSign_prod S vars hv]
    exact gridMixed_mirror n S z h hh _ _ _ _ (hf _) idx hidx

end

theorem exists_values_at {α β : Type} (Q : α → β → β → Prop) (b₀ : β) (hQ : ∀ a, Q a b₀ b₀) (l : List α) (hl : l.Nodup)
    (v v' : List β) (h : l.length = v.length) (h' : l.length = v'.length)
    (hv : ∀ (i : ℕ) a b b', l[i]? = some a → v[i]? = some b → v'[i]? = some b' → Q a b b') :
    ∃ ρ ρ' : α → β, l.map ρ = v ∧ l.map ρ' = v' ∧ ∀ a, Q a (ρ a) (ρ' a) := by
  classical
  induction l generalizing v v' with
  | nil =>
    refine ⟨fun _ => b₀, fun _ => b₀, ?_, ?_, hQ⟩
    · exact (List.eq_nil_of_length_eq_zero h.symm).symm
    · exact (List.eq_nil_of_length_eq_zero h'.symm).symm
  | cons a l ih =>
    cases v with
    | nil => simp at h
    | cons b v =>
    cases v' with
    | nil => simp at h'
    | cons b' v' =>
      obtain ⟨ρ, ρ', h1, h2, h3⟩ := ih (List.nodup_cons.1 hl).2 v v' (by simpa using h) (by simpa using h')
        (fun i => by simpa using hv (i + 1))
      refine ⟨Function.update ρ a b, Function.update ρ' a b', ?_, ?_, fun c => ?_⟩
      · rw [List.map_cons, Function.update_self, ← h1]
        congr 1
        refine List.map_congr_left (fun c hc => Function.update_of_ne ?_ _ _)
        rintro rfl
        exact (List.nodup_cons.1 hl).1 hc
      · rw [List.map_cons, Function.update_self, ← h2]
        congr 1
        refine List.map_congr_left (fun c hc => Function.update_of_ne ?_ _ _)
        rintro rfl
        exact (List.nodup_cons.1 hl).1 hc
      · by_cases hc : c = a
        · subst hc; rw [Function.update_self, Function.update_self]; exact hv 0 c b b' rfl rfl rfl
        · rw [Function.update_of_ne hc, Function.update_of_ne hc]; exact h3 c

/-- **C96** If every equation `d_t f = rhs` has a right-hand side with the parity of `f`, the trend of a reflected state is the
reflected trend, for objects whose attributes are reflected. -/
theorem C96_trend (iter : List Sy → List Sy) (hi : ∀ l, (iter l).Perm l) (eqs : List Equation) (s : System)
    (h : System.build iter eqs = .ok s) (he : Evolution s.coordinates eqs) (hn : WellNamed s)
    (coords : List Str) (hc : coords.Nodup) (ht : "t".toList ∉ coords) (hd : ∀ e ∈ eqs, FullDerivatives coords e.rhs)
    (n : Fin coords.length → ℕ) (dx : Fin coords.length → ℝ) (hdx : ∀ i, dx i ≠ 0) (S : List Str) (z : Fin coords.length → ℤ)
    (π : Sy → ℤˣ) (κ : Str → ℤˣ) (hκ : κ "t".toList = 1)
    (hp : ∀ e ∈ eqs, ∀ f, e.lhs = .deriv f [("t".toList, 1)] → HasParity S π κ e.rhs (π f))
    (O O' : ℝ → Obj (Arr coords.length ℝ)) (hO : ∀ t, MirroredObj s n S z π κ (O t) (O' t))
    (F F' : ℝ → (Fin s.prognostic.length → Arr coords.length ℝ) → Fin s.prognostic.length → Arr coords.length ℝ)
    (hF : Implements s (fdArith coords n dx) O F) (hF' : Implements s (fdArith coords n dx) O' F') :
    Preserve (reflection n S z (fun k => π s.prognostic[k])) F F' := by
  classical
  intro t U V hUV k idx hidx
  obtain ⟨o1, o2, o3⟩ := hO t
  have hnd := functions_nodup s hn
  obtain ⟨ex, ex', x1, x1', x2, x3, x4⟩ : ∃ ex ex' : List (Arr coords.length ℝ), s.exogenous.length = ex.length ∧
      s.exogenous.length = ex'.length ∧
      (s.exogenous = [] ∨ (O t).exogenous = some ex) ∧ (s.exogenous = [] ∨ (O' t).exogenous = some ex') ∧
      ∀ (j : ℕ) f a a', s.exogenous[j]? = some f → ex[j]? = some a → ex'[j]? = some a' → Mirrored n S z (π f) a a' := by
    rcases o3 with o3 | ⟨l, l', k1, k2, k3, k3', k4⟩
    · exact ⟨[], [], by rw [o3]; rfl, by rw [o3]; rfl, .inl o3, .inl o3, fun j f a a' _ ha _ => by simp at ha⟩
    · exact ⟨l, l', k3.symm, k3'.symm, .inr k1, .inr k2, k4⟩
  obtain ⟨ρ, ρ', hρ, hρ', hrel⟩ := exists_values_at (fun f => Mirrored n S z (π f)) (fun _ => 0) (fun _ _ _ => by simp) _ hnd
    (List.ofFn U ++ s.constantFunctions.map (fun f => (O t).attr f.keyvar) ++ ex)
    (List.ofFn V ++ s.constantFunctions.map (fun f => (O' t).attr f.keyvar) ++ ex') (by simp [x1]) (by simp [x1'])
    (by
      intro i f b b' hf hb hb'
      rcases lt_or_ge i s.prognostic.length with h1 | h1
      · rw [List.append_assoc, List.getElem?_append_left h1] at hf
        rw [List.append_assoc, List.getElem?_append_left (by simpa using h1)] at hb hb'
        rw [List.getElem?_ofFn, dif_pos h1, Option.some.injEq] at hb hb'
        have := hUV ⟨i, h1⟩
        rw [List.getElem?_eq_getElem h1, Option.some.injEq] at hf
        subst hf hb hb'
        exact this
      · rw [List.append_assoc, List.getElem?_append_right h1] at hf
        rw [List.append_assoc, List.getElem?_append_right (by simpa using h1), List.length_ofFn] at hb hb'
        rcases lt_or_ge (i - s.prognostic.length) s.constantFunctions.length with h2 | h2
        · rw [List.getElem?_append_left h2] at hf
          rw [List.getElem?_append_left (by simpa using h2), List.getElem?_map, hf, Option.map_some, Option.some.injEq] at hb hb'
          subst hb hb'
          exact o1 f (List.mem_of_getElem? hf)
        · rw [List.getElem?_append_right h2] at hf
          rw [List.getElem?_append_right (by simpa using h2), List.length_map] at hb hb'
          exact x4 _ f b b' hf hb hb')
  rw [List.map_append, List.map_append] at hρ hρ'
  obtain ⟨a1, a3⟩ := List.append_inj hρ (by simp)
  obtain ⟨a1, a2⟩ := List.append_inj a1 (by simp)
  obtain ⟨b1, b3⟩ := List.append_inj hρ' (by simp)
  obtain ⟨b1, b2⟩ := List.append_inj b1 (by simp)
  show F' t V k idx = _ * F t U k (mirror n S z idx)
  rw [field_value iter hi eqs s h he hn _ O F hF t ρ U ex a1 a2 a3 x2 k, field_value iter hi eqs s h he hn _ O' F' hF' t ρ' V ex' b1 b2 b3 x3 k]
  have hk : (k : ℕ) < eqs.length := by rw [prognostic_length iter hi eqs s h he]; exact k.2
  have hslot := congrArg (fun l => l[(k : ℕ)]?) (C64_slots iter hi eqs s h he.toEvolves)
  simp only [List.getElem?_map, List.getElem?_eq_getElem hk, List.getElem?_eq_getElem k.2, Option.map_some, Option.some.injEq] at hslot
  refine rhsValue_mirror hc ht n S z dx hdx π κ ⟨ρ, _⟩ ⟨ρ', _⟩ hrel (fun c => ?_) _ _ (hp _ (List.getElem_mem hk) _ hslot.symm)
    (hd _ (List.getElem_mem _)) idx hidx
  show Mirrored n S z (κ c) (symbolValue s (O t) t c) (symbolValue s (O' t) t c)
  unfold symbolValue
  split
  · rename_i hct
    intro _ _
    rw [hct, hκ]
    simp
  · split
    · rename_i hcc; exact o2 c hcc
    · intro _ _; simp

/-- **C96** With every scheme, the forecast from a reflected state is the reflected forecast. -/
theorem C96_forecast (iter : List Sy → List Sy) (hi : ∀ l, (iter l).Perm l) (eqs : List Equation) (s : System)
    (h : System.build iter eqs = .ok s) (he : Evolution s.coordinates eqs) (hn : WellNamed s)
    (coords : List Str) (hc : coords.Nodup) (ht : "t".toList ∉ coords) (hd : ∀ e ∈ eqs, FullDerivatives coords e.rhs)
    (n : Fin coords.length → ℕ) (dx : Fin coords.length → ℝ) (hdx : ∀ i, dx i ≠ 0) (S : List Str) (z : Fin coords.length → ℤ)
    (π : Sy → ℤˣ) (κ : Str → ℤˣ) (hκ : κ "t".toList = 1)
    (hp : ∀ e ∈ eqs, ∀ f, e.lhs = .deriv f [("t".toList, 1)] → HasParity S π κ e.rhs (π f))
    (O O' : ℝ → Obj (Arr coords.length ℝ)) (hO : ∀ t, MirroredObj s n S z π κ (O t) (O' t))
    (F F' : ℝ → (Fin s.prognostic.length → Arr coords.length ℝ) → Fin s.prognostic.length → Arr coords.length ℝ)
    (hF : Implements s (fdArith coords n dx) O F) (hF' : Implements s (fdArith coords n dx) O' F')
    (sch : Integrator.Scheme) (window : List ℝ) (saved : Integrator.SavedTimes ℝ)
    (x x' : Integrator.StateObj (Fin s.prognostic.length → Arr coords.length ℝ))
    (hx : StateRel (reflection n S z (fun k => π s.prognostic[k])) x x') :
    ResultRel (DictRel (StateRel (reflection n S z (fun k => π s.prognostic[k]))))
      (Integrator.forecast (Integrator.step sch (.fn F)) window x saved)
      (Integrator.forecast (Integrator.step sch (.fn F')) window x' saved) :=
  Integrator.C90_forecast _ sch (.fn F) (.fn F')
    (C96_trend iter hi eqs s h he hn coords hc ht hd n dx hdx S z π κ hκ hp O O' hO F F' hF hF') window saved x x' hx

/-- **C96** Symmetric states stay symmetric: with attributes that are their own reflections, a forecast from a state that is its own
reflection only contains such states. -/
theorem C96_symmetric (iter : List Sy → List Sy) (hi : ∀ l, (iter l).Perm l) (eqs : List Equation) (s : System)
    (h : System.build iter eqs = .ok s) (he : Evolution s.coordinates eqs) (hn : WellNamed s)
    (coords : List Str) (hc : coords.Nodup) (ht : "t".toList ∉ coords) (hd : ∀ e ∈ eqs, FullDerivatives coords e.rhs)
    (n : Fin coords.length → ℕ) (dx : Fin coords.length → ℝ) (hdx : ∀ i, dx i ≠ 0) (S : List Str) (z : Fin coords.length → ℤ)
    (π : Sy → ℤˣ) (κ : Str → ℤˣ) (hκ : κ "t".toList = 1)
    (hp : ∀ e ∈ eqs, ∀ f, e.lhs = .deriv f [("t".toList, 1)] → HasParity S π κ e.rhs (π f))
    (O : ℝ → Obj (Arr coords.length ℝ)) (hO : ∀ t, MirroredObj s n S z π κ (O t) (O t))
    (F : ℝ → (Fin s.prognostic.length → Arr coords.length ℝ) → Fin s.prognostic.length → Arr coords.length ℝ)
    (hF : Implements s (fdArith coords n dx) O F)
    (sch : Integrator.Scheme) (window : List ℝ) (saved : Integrator.SavedTimes ℝ)
    (x : Integrator.StateObj (Fin s.prognostic.length → Arr coords.length ℝ))
    (hx : StateRel (reflection n S z (fun k => π s.prognostic[k])) x x)
    (fc : Dict ℝ (Integrator.StateObj (Fin s.prognostic.length → Arr coords.length ℝ)))
    (hfc : Integrator.forecast (Integrator.step sch (.fn F)) window x saved = .ok fc) (τ : ℝ) (y) (hy : fc.get? τ = some y) :
    StateRel (reflection n S z (fun k => π s.prognostic[k])) y y := by
  have key := C96_forecast iter hi eqs s h he hn coords hc ht hd n dx hdx S z π κ hκ hp O O hO F F hF hF sch window saved x x hx
  rw [hfc] at key
  have : ∀ p ∈ fc, p.1 = p.1 ∧ StateRel (reflection n S z (fun k => π s.prognostic[k])) p.2 p.2 := List.forall₂_same.1 key
  exact (this _ (Integrator.mem_of_get? hy)).2

end Sympkf.Props
