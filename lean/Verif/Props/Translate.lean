import Verif.Spec.Translate
import Verif.Props.Relation
import Verif.Props.FullyDiscrete

/-!
# C91: the generated classes commute with the translations of the grid
-/

set_option autoImplicit false

namespace Sympkf.Props

open Text PDE Spec.PDE FinDiff Spec

/-- The generated code of a derivative is the discrete derivative. -/
theorem fdDiff_grid {coords : List Str} (hc : coords.Nodup) (ht : time ∉ coords) (n : Fin coords.length → ℕ)
    (h : Fin coords.length → ℝ) (hh : ∀ i, h i ≠ 0) (vars : List (Str × ℕ)) (hv : ∀ v ∈ vars, v.1 ∈ coords)
    (a : Arr coords.length ℝ) (idx : Fin coords.length → ℕ) (hidx : ∀ i, idx i < n i) :
    fdDiff coords n h vars a idx = gridMixed n h (axesOf coords vars) a idx := by
  have hbox : idx ∈ box n := (mem_box n idx).2 hidx
  unfold fdDiff
  rw [shifted_zero]
  conv_lhs => rw [← axesOf_map coords vars hv]
  rw [codeValue_fdExpr n _ hh hc ht _ _ _ _ _ hbox]
  refine gridMixed_congr n _ hh _ _ _ (fun j hj => ?_) idx hbox
  congr 1
  funext i
  exact gridIndex_zero _ _ ((mem_box n j).1 hj i)

section

variable {d : ℕ} (n : Fin d → ℕ) (z : Fin d → ℤ)

theorem translate_lt (idx : Fin d → ℕ) (hidx : ∀ i, idx i < n i) (i : Fin d) : translate n z idx i < n i := by
  unfold translate
  have hn : (0 : ℤ) < n i := by have := hidx i; omega
  have h1 := Int.emod_nonneg ((idx i : ℤ) + z i) hn.ne'
  have h2 := Int.emod_lt_of_pos ((idx i : ℤ) + z i) hn
  omega

theorem translate_sh (i : Fin d) (k : ℤ) (idx : Fin d → ℕ) (hidx : ∀ i, idx i < n i) :
    translate n z (sh n i k idx) = sh n i k (translate n z idx) := by
  funext j
  unfold sh
  by_cases hj : j = i
  · subst hj
    rw [Function.update_self]
    show gridIndex (n j) (z j) (Function.update idx j _ j) = gridIndex (n j) k (gridIndex (n j) (z j) (idx j))
    rw [Function.update_self, gridIndex_add _ _ _ _ (hidx j), gridIndex_add _ _ _ _ (hidx j), add_comm]
  · rw [Function.update_of_ne hj]
    show gridIndex (n j) (z j) (Function.update idx i _ j) = gridIndex (n j) (z j) (idx j)
    rw [Function.update_of_ne hj]

theorem gridMixed_translate (h : Fin d → ℝ) (hh : ∀ i, h i ≠ 0) (L : List (Fin d × ℕ)) (a b : Arr d ℝ) (hab : Translated n z a b) :
    Translated n z (gridMixed n h L a) (gridMixed n h L b) := by
  induction L generalizing a b with
  | nil => exact hab
  | cons p L ih =>
    obtain ⟨i, o⟩ := p
    refine ih _ _ (fun idx hidx => ?_)
    rw [gridDeriv_eq_sum n h i o (hh i), gridDeriv_eq_sum n h i o (hh i)]
    refine Finset.sum_congr rfl (fun ν _ => ?_)
    rw [hab _ ((mem_box n _).1 (sh_mem n i _ idx ((mem_box n idx).2 hidx))), translate_sh n z i _ idx hidx]

end

section

variable {coords : List Str} (hc : coords.Nodup) (ht : time ∉ coords) (n : Fin coords.length → ℕ) (z : Fin coords.length → ℤ)
  (h : Fin coords.length → ℝ) (hh : ∀ i, h i ≠ 0)
include hc ht hh

theorem rhsValue_translate (ρ ρ' : Valuation (Arr coords.length ℝ)) (hf : ∀ f, Translated n z (ρ.fn f) (ρ'.fn f))
    (hs : ∀ c, Translated n z (ρ.sym c) (ρ'.sym c)) (e : Sy) (he : FullDerivatives coords e) :
    Translated n z (rhsValue (fdArith coords n h) ρ e) (rhsValue (fdArith coords n h) ρ' e) := by
  induction e with
  | num q => intro idx _; rfl
  | sym k c => exact hs c
  | fn u args => exact hf _
  | func g a => exact hf _
  | add a b iha ihb =>
    intro idx hidx
    show rhsValue _ ρ' a idx + rhsValue _ ρ' b idx = rhsValue _ ρ a _ + rhsValue _ ρ b _
    rw [iha he.1 idx hidx, ihb he.2 idx hidx]
  | mul a b iha ihb =>
    intro idx hidx
    show rhsValue _ ρ' a idx * rhsValue _ ρ' b idx = rhsValue _ ρ a _ * rhsValue _ ρ b _
    rw [iha he.1 idx hidx, ihb he.2 idx hidx]
  | pow a b iha ihb =>
    intro idx hidx
    show rhsValue _ ρ' a idx ^ rhsValue _ ρ' b idx = rhsValue _ ρ a _ ^ rhsValue _ ρ b _
    rw [iha he.1 idx hidx, ihb he.2 idx hidx]
  | deriv a vars ih =>
    intro idx hidx
    obtain ⟨⟨u, args, rfl, -⟩, hv⟩ := he
    show fdDiff coords n h vars (rhsValue _ ρ' _) idx = fdDiff coords n h vars (rhsValue _ ρ _) _
    rw [fdDiff_grid hc ht n h hh vars hv _ _ hidx, fdDiff_grid hc ht n h hh vars hv _ _ (translate_lt n z idx hidx)]
    exact gridMixed_translate n z h hh _ _ _ (hf _) idx hidx

end

theorem exists_values_rel {α β : Type} [Inhabited β] (Q : β → β → Prop) (hQ : Q default default) (l : List α) (hl : l.Nodup)
    (v v' : List β) (h : l.length = v.length) (hv : List.Forall₂ Q v v') :
    ∃ ρ ρ' : α → β, l.map ρ = v ∧ l.map ρ' = v' ∧ ∀ a, Q (ρ a) (ρ' a) := by
  classical
  induction l generalizing v v' with
  | nil =>
    cases hv with
    | nil => exact ⟨fun _ => default, fun _ => default, rfl, rfl, fun _ => hQ⟩
    | cons _ _ => simp at h
  | cons a l ih =>
    cases hv with
    | nil => simp at h
    | @cons b b' v v' hb hv =>
      obtain ⟨ρ, ρ', h1, h2, h3⟩ := ih (List.nodup_cons.1 hl).2 v v' (by simpa using h) hv
      refine ⟨Function.update ρ a b, Function.update ρ' a b', ?_, ?_, fun c => ?_⟩
      · rw [List.map_cons, Function.update_self, ← h1]
        congr 1
        refine List.map_congr_left (fun c hc => Function.update_of_ne ?_ _ _)
        rintro rfl
        exact (List.nodup_cons.1 hl).1 hc
      · rw [List.map_cons, Function.update_self, ← h2]
        congr 1
        refine List.map_congr_left (fun c hc => Function.update_of_ne ?_ _ _)
        rintro rfl
        exact (List.nodup_cons.1 hl).1 hc
      · by_cases hc : c = a
        · subst hc; rw [Function.update_self, Function.update_self]; exact hb
        · rw [Function.update_of_ne hc, Function.update_of_ne hc]; exact h3 c

open Classical in
/-- The values of the symbols in the method `trend`: the time, the constants of the object, nothing else. -/
noncomputable def symbolValue {d : ℕ} (s : System) (O : Obj (Arr d ℝ)) (t : ℝ) (c : Str) : Arr d ℝ :=
  if c = "t".toList then fun _ => t else if Sy.sym .plain c ∈ s.constants then O.attr (cleanLatexName c) else fun _ => 0

theorem field_value {d : ℕ} (iter : List Sy → List Sy) (hi : ∀ l, (iter l).Perm l) (eqs : List Equation) (s : System)
    (h : System.build iter eqs = .ok s) (he : Evolution s.coordinates eqs) (hn : WellNamed s) (A : Arith (Arr d ℝ))
    (O : ℝ → Obj (Arr d ℝ)) (F : ℝ → (Fin s.prognostic.length → Arr d ℝ) → Fin s.prognostic.length → Arr d ℝ)
    (hF : Implements s A O F) (t : ℝ) (ρ : Sy → Arr d ℝ) (U : Fin s.prognostic.length → Arr d ℝ) (ex : List (Arr d ℝ))
    (c1 : s.prognostic.map ρ = List.ofFn U) (c2 : s.constantFunctions.map ρ = s.constantFunctions.map (fun f => (O t).attr f.keyvar))
    (c3 : s.exogenous.map ρ = ex) (c4 : s.exogenous = [] ∨ (O t).exogenous = some ex) (k : Fin s.prognostic.length) :
    F t U k = rhsValue A ⟨ρ, symbolValue s (O t) t⟩
      (eqs[(k : ℕ)]'(by rw [prognostic_length iter hi eqs s h he]; exact k.2)).rhs := by
  obtain ⟨m, hm, hout⟩ := hF t U
  obtain ⟨m', hm', hout', -⟩ := C64_trend_partial iter hi eqs s h he hn A (O t) (fun _ => t) (List.ofFn U)
    ⟨ρ, symbolValue s (O t) t⟩ c1.symm (by simp [symbolValue]) (fun f hf => (List.map_inj_left.1 c2 f hf).symm)
    (fun c hc => by
      have : c ≠ "t".toList := fun e => time_not_constant iter hi eqs s h (e ▸ hc)
      simp only [symbolValue, if_neg this, if_pos hc])
    (by rw [c3]; exact c4)
  rw [hm'] at hm
  injection hm with hm
  rw [← hm, hout'] at hout
  have hk : (k : ℕ) < eqs.length := by rw [prognostic_length iter hi eqs s h he]; exact k.2
  have := congrArg (fun l => l[(k : ℕ)]?) hout
  simp only [List.getElem?_map, List.getElem?_eq_getElem hk, Option.map_some, List.getElem?_ofFn, k.2, dite_true,
    Option.some.injEq] at this
  exact this.symm

theorem functions_nodup (s : System) (hn : WellNamed s) : (s.prognostic ++ s.constantFunctions ++ s.exogenous).Nodup := by
  refine List.Nodup.of_map Sy.keyvar (List.Nodup.sublist ?_ hn.1)
  unfold localNames
  rw [List.map_append, List.map_append]
  refine .cons _ (.trans (.append ?_ (.refl _)) (List.sublist_append_left _ _))
  exact .trans (.append (List.sublist_append_right _ _) (.refl _)) (List.sublist_append_left _ _)

/-- **C91** The trend of a translated state is the translated trend, for objects whose attributes are translated. -/
theorem C91_trend (iter : List Sy → List Sy) (hi : ∀ l, (iter l).Perm l) (eqs : List Equation) (s : System)
    (h : System.build iter eqs = .ok s) (he : Evolution s.coordinates eqs) (hn : WellNamed s)
    (coords : List Str) (hc : coords.Nodup) (ht : "t".toList ∉ coords) (hd : ∀ e ∈ eqs, FullDerivatives coords e.rhs)
    (n : Fin coords.length → ℕ) (dx : Fin coords.length → ℝ) (hdx : ∀ i, dx i ≠ 0) (z : Fin coords.length → ℤ)
    (O O' : ℝ → Obj (Arr coords.length ℝ)) (hO : ∀ t, TranslatedObj s n z (O t) (O' t))
    (F F' : ℝ → (Fin s.prognostic.length → Arr coords.length ℝ) → Fin s.prognostic.length → Arr coords.length ℝ)
    (hF : Implements s (fdArith coords n dx) O F) (hF' : Implements s (fdArith coords n dx) O' F') :
    Preserve (translation n z) F F' := by
  classical
  intro t U V hUV k idx hidx
  obtain ⟨o1, o2, o3⟩ := hO t
  have hnd := functions_nodup s hn
  obtain ⟨ex, ex', x1, x2, x3, x4⟩ : ∃ ex ex' : List (Arr coords.length ℝ), s.exogenous.length = ex.length ∧
      (s.exogenous = [] ∨ (O t).exogenous = some ex) ∧ (s.exogenous = [] ∨ (O' t).exogenous = some ex') ∧
      List.Forall₂ (Translated n z) ex ex' := by
    rcases o3 with o3 | ⟨l, l', k1, k2, k3, k4⟩
    · exact ⟨[], [], by rw [o3]; rfl, .inl o3, .inl o3, .nil⟩
    · exact ⟨l, l', k3.symm, .inr k1, .inr k2, k4⟩
  obtain ⟨ρ, ρ', hρ, hρ', hrel⟩ := exists_values_rel (Translated n z) (fun _ _ => rfl) _ hnd
    (List.ofFn U ++ s.constantFunctions.map (fun f => (O t).attr f.keyvar) ++ ex)
    (List.ofFn V ++ s.constantFunctions.map (fun f => (O' t).attr f.keyvar) ++ ex') (by simp [x1])
    (by
      refine List.rel_append (List.rel_append ?_ ?_) x4
      · rw [List.forall₂_iff_get]
        refine ⟨by simp, fun i h1 h2 => ?_⟩
        rw [List.get_ofFn, List.get_ofFn]
        exact hUV _
      · rw [List.forall₂_map_left_iff, List.forall₂_map_right_iff, List.forall₂_same]
        exact o1)
  rw [List.map_append, List.map_append] at hρ hρ'
  obtain ⟨a1, a3⟩ := List.append_inj hρ (by simp)
  obtain ⟨a1, a2⟩ := List.append_inj a1 (by simp)
  obtain ⟨b1, b3⟩ := List.append_inj hρ' (by simp)
  obtain ⟨b1, b2⟩ := List.append_inj b1 (by simp)
  show F' t V k idx = F t U k (translate n z idx)
  rw [field_value iter hi eqs s h he hn _ O F hF t ρ U ex a1 a2 a3 x2 k, field_value iter hi eqs s h he hn _ O' F' hF' t ρ' V ex' b1 b2 b3 x3 k]
  refine rhsValue_translate hc ht n z dx hdx ⟨ρ, _⟩ ⟨ρ', _⟩ hrel (fun c => ?_) _ (hd _ (List.getElem_mem _)) idx hidx
  show Translated n z (symbolValue s (O t) t c) (symbolValue s (O' t) t c)
  unfold symbolValue
  split
  · intro _ _; rfl
  · split
    · rename_i hcc; exact o2 c hcc
    · intro _ _; rfl

/-- **C91** With every scheme, the forecast from a translated state is the translated forecast. -/
theorem C91_forecast (iter : List Sy → List Sy) (hi : ∀ l, (iter l).Perm l) (eqs : List Equation) (s : System)
    (h : System.build iter eqs = .ok s) (he : Evolution s.coordinates eqs) (hn : WellNamed s)
    (coords : List Str) (hc : coords.Nodup) (ht : "t".toList ∉ coords) (hd : ∀ e ∈ eqs, FullDerivatives coords e.rhs)
    (n : Fin coords.length → ℕ) (dx : Fin coords.length → ℝ) (hdx : ∀ i, dx i ≠ 0) (z : Fin coords.length → ℤ)
    (O O' : ℝ → Obj (Arr coords.length ℝ)) (hO : ∀ t, TranslatedObj s n z (O t) (O' t))
    (F F' : ℝ → (Fin s.prognostic.length → Arr coords.length ℝ) → Fin s.prognostic.length → Arr coords.length ℝ)
    (hF : Implements s (fdArith coords n dx) O F) (hF' : Implements s (fdArith coords n dx) O' F')
    (sch : Integrator.Scheme) (window : List ℝ) (saved : Integrator.SavedTimes ℝ)
    (x x' : Integrator.StateObj (Fin s.prognostic.length → Arr coords.length ℝ)) (hx : StateRel (translation n z) x x') :
    ResultRel (DictRel (StateRel (translation n z))) (Integrator.forecast (Integrator.step sch (.fn F)) window x saved)
      (Integrator.forecast (Integrator.step sch (.fn F')) window x' saved) :=
  Integrator.C90_forecast _ sch (.fn F) (.fn F')
    (C91_trend iter hi eqs s h he hn coords hc ht hd n dx hdx z O O' hO F F' hF hF') window saved x x' hx

end Sympkf.Props
