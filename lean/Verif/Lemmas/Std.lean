import Verif.Lemmas.Evolution
import Verif.Model.Std
import Verif.Props.Util

/-!
# Lemmas: the equations of the standard deviations
-/

set_option autoImplicit false

namespace Sympkf.Spec

open Text Rand PKF Pkf

section Lhs

variable (f : Field) (ht : time ∈ f.coordinates)

/-- The left-hand side of a variance equation after the substitution. -/
def stdLhs (f : Field) : Ex := .mul (.num 2) (.mul f.std (dt f.std))

theorem std_ne : f.std ≠ dt f.std := by simp [Field.std, dt]

theorem std_mulAtom : mulAtom f.std 1 [(dt f.std, 1)] = [(f.std, 1), (dt f.std, 1)] := by
  unfold mulAtom
  rw [if_neg (std_ne f), if_pos (by simp [code, Field.std, dt, ltNat])]

include ht in
theorem ofEx_stdLhs : ofEx (stdLhs f) = [([(f.std, 1), (dt f.std, 1)], 2)] := by
  show pmul (pconst 2) (pmul (patom f.std) (ofEx (dt f.std))) = _
  unfold Field.std
  rw [ofEx_dtFn _ _ ht, pmul_patom]
  have := std_mulAtom f
  unfold Field.std at this
  rw [this, pmul_const _ _ _ one_ne_zero, if_neg two_ne_zero, mul_one]

include ht in
theorem eval_stdLhs : eval (stdLhs f) = stdLhs f := by
  unfold eval
  rw [ofEx_stdLhs f ht]
  simp [toEx, termEx, monoEx, prod, factorEx, stdLhs]

include ht in
/-- The trend of the square of the standard deviation. -/
theorem subst_std : subst f.variance (ofEx (.pow f.std 2)) (dt f.variance) = ofEx (stdLhs f) := by
  unfold dt
  unfold subst
  rw [if_neg (by simp [Field.variance])]
  simp only [derivRest_none _ _ _ (show ∀ b vs, f.variance ≠ .deriv b vs by simp [Field.variance])]
  have e : subst f.variance (ofEx (.pow f.std 2)) f.variance = ofEx (.pow f.std 2) := by
    unfold Field.variance
    unfold subst
    rw [if_pos rfl]
  rw [e, ofEx_stdLhs f ht]
  have two : isNat 2 = true := by decide +kernel
  have e2 : ofEx (.pow f.std 2) = [([(f.std, 2)], 1)] := by
    show ppow (patom f.std) 2 = _
    unfold ppow
    rw [if_pos two, show (2 : ℚ).num.toNat = 2 from by decide +kernel]
    simp only [ppowN, pconst, one_ne_zero, if_false, patom]
    rw [pmul_single _ _ one_ne_zero _ _ one_ne_zero]
    simp only [monoMul, List.foldr_cons, List.foldr_nil, mulAtom, mul_one]
    rw [pmul_single _ _ one_ne_zero _ _ one_ne_zero]
    simp [monoMul, mulAtom]
    norm_num
  rw [e2]
  show pdiff time [([(f.std, 2)], 1)] = _
  rw [pdiff_single]
  have d : diffAtom time f.std = patom (dt f.std) := by
    simp [Field.std, diffAtom, constIn, ht, dt]
  have m : diffMono time [(f.std, 2)] = [([(f.std, 1), (dt f.std, 1)], 2)] := by
    have e : pmul (pmul (pmul (pconst 2) (if (2 : ℚ) = 1 then pconst 1 else [([(f.std, 2 - 1)], 1)])) (diffAtom time f.std)) [([], 1)] =
        [([(f.std, 1), (dt f.std, 1)], 2)] := by
      rw [if_neg (by norm_num), d]
      have : (2 : ℚ) - 1 = 1 := by norm_num
      rw [this]
      have hm := std_mulAtom f
      simp only [pconst, two_ne_zero, if_false, patom]
      rw [pmul_single _ _ two_ne_zero _ _ one_ne_zero, pmul_single _ _ (by norm_num) _ _ one_ne_zero,
        pmul_single _ _ (by norm_num) _ _ one_ne_zero]
      simp only [monoMul, List.foldr_cons, List.foldr_nil, mulAtom, mul_one] at hm ⊢
      rw [hm]
      simp only [List.foldr_cons, List.foldr_nil, mulAtom]
      rw [hm]
    show padd _ (pmul _ []) = _
    rw [e, pmul_nil]
    simp [padd, addTerm]
  rw [m]
  simp [pconst, pmul_single, monoMul, padd, addTerm]

end Lhs

namespace EvolutionSystem

variable {K : Pkf} {coords : List Str} (h : EvolutionSystem K coords)
include h

omit h in
theorem subsVariance_mem (kv : Ex × Ex) (hkv : kv ∈ K.subsVariance) : ∃ f ∈ K.fields, kv = (f.variance, .pow f.std 2) := by
  rcases Dict.mem_update _ _ _ hkv with hkv | hkv
  · cases hkv
  · obtain ⟨f, hf, rfl⟩ := List.mem_map.1 hkv
    exact ⟨f, hf, rfl⟩

theorem variance_inj (f g : Field) (hf : f ∈ K.fields) (hg : g ∈ K.fields) (e : f.variance = g.variance) : f = g := by
  refine h.codes f hf g hg ?_
  simp only [Field.variance, Ex.fn.injEq] at e
  exact List.append_cancel_left (List.append_cancel_right e.1)

theorem lhs_std (f : Field) (hf : f ∈ K.fields) : K.subs K.subsVariance (dt f.variance) = stdLhs f := by
  have ht := h.time_field f hf
  have ne : ∀ g : Field, g.std ≠ f.variance ∧ f.std ≠ g.variance := by
    intro g
    constructor <;> simp [Field.std, Field.variance]
  have e0 : ∀ g : Field, eval g.variance = g.variance := fun g => rfl
  have nd : ∀ g : Field, ∀ b vs, g.variance ≠ .deriv b vs := fun g => by simp [Field.variance]
  have work : substEx f.variance (.pow f.std 2) (dt f.variance) = stdLhs f := by
    unfold substEx
    rw [e0, show eval (dt f.variance) = dt f.variance from eval_dt _ _ ht, subst_std f ht]
    exact eval_stdLhs f ht
  refine substAll_states _ (fun e => e = dt f.variance) (fun e => e = stdLhs f) ?_ ?_ ?_ _ (eval_dt _ _ ht)
  · rintro kv hkv e rfl
    obtain ⟨g, hg, rfl⟩ := subsVariance_mem kv ((h.det.arrange _).mem_iff.1 hkv)
    refine substEx_inert _ _ _ (nd g) (eval_stdLhs f ht) ?_
    rw [e0]
    have := (ne g).2
    refine ⟨by simp [Field.variance], by simp [Inert, Field.variance], by simp [Field.variance], this, by simp [Field.variance], this⟩
  · rintro kv hkv e rfl
    obtain ⟨g, hg, rfl⟩ := subsVariance_mem kv ((h.det.arrange _).mem_iff.1 hkv)
    by_cases e : f.variance = g.variance
    · right
      rw [← h.variance_inj f g hf hg e]
      exact work
    · left
      refine substEx_inert _ _ _ (nd g) (eval_dt _ _ ht) ?_
      rw [e0]
      exact ⟨by simp [Field.variance], e⟩
  · have : f.variance ∈ Dict.keys K.subsVariance := by
      unfold Pkf.subsVariance
      rw [Dict.keys_update_iff]
      right
      exact List.mem_map.2 ⟨_, List.mem_map.2 ⟨f, hf, rfl⟩, rfl⟩
    obtain ⟨kv, hkv, e⟩ := List.mem_map.1 this
    refine ⟨kv, (h.det.arrange _).mem_iff.2 hkv, ?_⟩
    rintro e' rfl
    obtain ⟨g, hg, rfl⟩ := subsVariance_mem kv hkv
    rw [← h.variance_inj f g hf hg e.symm]
    exact work

omit h in
theorem timeFree_occurs (f : Field) (e : Ex) (he : TimeFree e) : Util.occurs (dt f.std) e = false := by
  induction e with
  | deriv a vars ih =>
    obtain ⟨h1, h2⟩ := he
    simp only [Util.occurs, ih h1, Bool.or_false, decide_eq_false_iff_not]
    rintro ⟨⟩
    exact absurd (h2 (time, 1) (by simp) rfl) one_ne_zero
  | func g a ih => simp only [Util.occurs, ih he, Bool.or_false, decide_eq_false_iff_not]; simp [dt]
  | add a b iha ihb => simp only [Util.occurs, iha he.1, ihb he.2, Bool.or_false, decide_eq_false_iff_not]; simp [dt]
  | mul a b iha ihb => simp only [Util.occurs, iha he.1, ihb he.2, Bool.or_false, decide_eq_false_iff_not]; simp [dt]
  | pow a q ih => simp only [Util.occurs, ih he, Bool.or_false, decide_eq_false_iff_not]; simp [dt]
  | integ a x ih => simp only [Util.occurs, ih he, Bool.or_false, decide_eq_false_iff_not]; simp [dt]
  | ex a ih => simp only [Util.occurs, ih he, Bool.or_false, decide_eq_false_iff_not]; simp [dt]
  | _ => simp [Util.occurs, dt]

/-- The solution, before the normal form. -/
def stdRhs (f : Field) (r : Ex) : Ex :=
  .mul (Util.neg (.add (.mul (.num 2) (.mul f.std (.num 0))) (Util.neg r)))
    (.pow (.add (.mul (.num 2) (.mul f.std (.num 1))) (.num 0)) (-1))

omit h in
theorem solve_std (f : Field) (r : Ex) (hr : TimeFree r) :
    Util.solveLinear (stdLhs f) r (dt f.std) = some [stdRhs f r] := by
  have o1 : Util.occurs (dt f.std) f.std = false := by simp [Util.occurs, Field.std, dt]
  have o2 : ∀ q, Util.occurs (dt f.std) (.num q) = false := fun q => by simp [Util.occurs, dt]
  have o3 : Util.occurs (dt f.std) (dt f.std) = true := by unfold Util.occurs; simp
  have o4 : Util.occurs (dt f.std) (.mul f.std (dt f.std)) = true := by unfold Util.occurs; simp [o3]
  have o5 : Util.occurs (dt f.std) (stdLhs f) = true := by unfold stdLhs; unfold Util.occurs; simp [o4]
  have o6 : Util.occurs (dt f.std) r = false := timeFree_occurs f r hr
  have o7 : Util.occurs (dt f.std) (Util.neg r) = false := timeFree_occurs f _ ⟨trivial, hr⟩
  have l1 : Util.linear (dt f.std) (dt f.std) = some (.num 1, .num 0) := by unfold Util.linear; simp
  have l2 : Util.linear (dt f.std) (.mul f.std (dt f.std)) = some (.mul f.std (.num 1), .mul f.std (.num 0)) := by
    unfold Util.linear
    rw [if_neg (by simp [dt]), if_neg (by simp [o4])]
    simp [o1, l1]
  have l3 : Util.linear (dt f.std) (stdLhs f) = some (.mul (.num 2) (.mul f.std (.num 1)), .mul (.num 2) (.mul f.std (.num 0))) := by
    unfold stdLhs at o5 ⊢
    unfold Util.linear
    rw [if_neg (by simp [dt]), if_neg (by simp [o5])]
    simp [o2, l2]
  have l4 : Util.linear (dt f.std) (Util.neg r) = some (.num 0, Util.neg r) := by
    unfold Util.linear
    rw [if_neg (by simp [Util.neg, dt]), if_pos o7]
  have l5 : Util.linear (dt f.std) (.add (stdLhs f) (Util.neg r)) = some (.add (.mul (.num 2) (.mul f.std (.num 1))) (.num 0),
      .add (.mul (.num 2) (.mul f.std (.num 0))) (Util.neg r)) := by
    unfold Util.linear
    rw [if_neg (by simp [dt]), if_neg (by unfold Util.occurs; simp [o5])]
    simp [l3, l4]
  unfold Util.solveLinear
  rw [l5]
  simp [o5, stdRhs]

omit h in
theorem lastTrend_std (shuffle : List Ex → List Ex) (hs : ∀ l, (shuffle l).Perm l) (previous : Option Ex) (f : Field) :
    lastTrend shuffle previous (stdLhs f) = some (dt f.std) := by
  have e : (derivAtoms (stdLhs f)).dedup = [dt f.std] := by
    simp [stdLhs, derivAtoms, dt, Field.std, List.dedup_cons_of_notMem]
  unfold lastTrend
  rw [e, List.perm_singleton.1 (hs _)]
  rfl

theorem std_loop (shuffle : List Ex → List Ex) (hs : ∀ l, (shuffle l).Perm l) (previous : Option Ex) (fs : List Field)
    (hfs : ∀ f ∈ fs, f ∈ K.fields) (vs : List Eqn) (hvs : EvolutionForm (fs.map Field.variance) vs) :
    K.stdLoop shuffle previous vs =
      .ok ((fs.zip vs).map (fun p => (dt p.1.std, eval (stdRhs p.1 (K.subs K.subsVariance p.2.2))))) := by
  induction fs generalizing vs previous with
  | nil =>
    cases vs with
    | nil => rfl
    | cons => have := hvs.1; simp at this
  | cons f fs ih =>
    cases vs with
    | nil => have := hvs.1; simp at this
    | cons q vs =>
      obtain ⟨h1, h2⟩ := hvs
      simp only [List.map_cons, List.cons.injEq] at h1
      have l : K.subs K.subsVariance q.1 = stdLhs f := by rw [h1.1]; exact h.lhs_std f (hfs f (by simp))
      have t : TimeFree (K.subs K.subsVariance q.2) := h.timeFree_subs _ (fun kv hkv => by
        obtain ⟨g, -, rfl⟩ := subsVariance_mem kv hkv
        trivial) _ (h2 q (by simp))
      have := ih (some (dt f.std)) (fun f hf => hfs f (by simp [hf])) vs ⟨h1.2, fun q hq => h2 q (by simp [hq])⟩
      unfold stdLoop
      simp only [subsEq, l, lastTrend_std shuffle hs, isolateEq, solve_std f _ t, this, bind, Except.bind, pure, Except.pure,
        List.zip_cons_cons, List.map_cons]

theorem std_system (r : List (Eqn × Eqn)) (hr : K.reynolds = .ok r) (shuffle : List Ex → List Ex) (hs : ∀ l, (shuffle l).Perm l) :
    ∃ vs, K.varianceSystem = .ok vs ∧ EvolutionForm (K.fields.map Field.variance) vs ∧
      K.stdSystem shuffle = .ok ((K.fields.zip vs).map (fun p => (dt p.1.std, eval (stdRhs p.1 (K.subs K.subsVariance p.2.2))))) := by
  obtain ⟨vs, hvs, -⟩ := h.det.variance_ok r hr
  have hv := h.variance_evolution r hr vs hvs
  refine ⟨vs, hvs, hv, ?_⟩
  unfold stdSystem
  simp only [hvs, bind, Except.bind]
  exact h.std_loop shuffle hs none K.fields (fun _ h => h) vs hv

end EvolutionSystem
end Sympkf.Spec
