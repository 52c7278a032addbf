import Verif.Lemmas.TrendValue
import Verif.Props.MembersCases
import Verif.Props.Logistic

/-!
# C112: what the equations of the second moments leave out
-/

set_option autoImplicit false

namespace Sympkf.PKF

open Text Rand Spec Pkf

variable {R : Type} [CommRing R] [Algebra ℚ R] {S : Interp R} {A : Subalgebra ℚ R} {P : Set R} {C : Set Str}
  {K : Pkf} {coords : List Str}

namespace Gap

theorem forall₂_and {α β : Type} {r s : α → β → Prop} {l : List α} {l' : List β} (h : List.Forall₂ r l l') (h' : List.Forall₂ s l l') :
    List.Forall₂ (fun a b => r a b ∧ s a b) l l' := by
  induction h with
  | nil => exact .nil
  | cons h1 _ ih => cases h' with | cons h2 h3 => exact .cons ⟨h1, h2⟩ (ih h3)

theorem error_code {f g : Field} (h : f.error = g.error) : f.code = g.code := by
  have := (Ex.fn.inj h).1
  rw [List.append_assoc, List.append_assoc] at this
  exact List.append_cancel_right (List.append_cancel_left this)

theorem zip_fst (hv : EvolutionSystem K coords) : (K.fields.zip K.equations).map Prod.fst = K.fields := by
  have := congrArg List.length hv.evolution.1
  simp only [List.length_map] at this
  exact List.map_fst_zip (by omega)

/-- The tangent-linear trend of an error. -/
noncomputable def tangent (S : Interp R) (K : Pkf) (x : Ex) : R :=
  (((K.fields.zip K.equations).find? (fun fq => fq.1.error = x)).map (fun fq => (den (perturbed S K.fields) fq.2.2).c1)).getD 0

theorem tangent_eq (hv : EvolutionSystem K coords) (hn : K.fields.Nodup) (fq : Field × Eqn) (hm : fq ∈ K.fields.zip K.equations) :
    tangent S K fq.1.error = (den (perturbed S K.fields) fq.2.2).c1 := by
  unfold tangent
  cases hf : (K.fields.zip K.equations).find? (fun gq => gq.1.error = fq.1.error) with
  | none =>
    have := List.find?_eq_none.1 hf fq hm
    simp at this
  | some gq =>
    have h1 := List.mem_of_find?_eq_some hf
    have h2 := List.find?_some hf
    simp only [decide_eq_true_eq] at h2
    have h3 : gq.1 = fq.1 := hv.codes _ (List.of_mem_zip h1).1 _ (List.of_mem_zip hm).1 (error_code h2)
    have h4 : ((K.fields.zip K.equations).map Prod.fst).Nodup := by rw [zip_fst hv]; exact hn
    rw [List.inj_on_of_nodup_map h4 h1 hm h3]
    rfl

/-- The dictionary of the trends of the errors. -/
theorem entries (h : Setting S A P C K coords) (hd : Dynamics S P C K) (hv : EvolutionSystem K coords) (hn : K.fields.Nodup)
    (es : List Eqn) (hes : K.errorSystem = .ok es) : EvolutionForm (K.fields.map Field.error) es ∧
      ∀ kv ∈ K.arrange (trends es), Entry S P C (tangent S K) kv := by
  obtain ⟨r, hr, -⟩ := h.reynolds_spec hd
  have he := hv.error_evolution r hr es hes
  refine ⟨he, fun kv hkv => ?_⟩
  have hm : kv ∈ es := Setting.mem_trends _ _ ((hv.det.arrange _).mem_iff.1 hkv)
  obtain ⟨es', h1, h2⟩ := h.error_spec hd
  rw [h1] at hes
  cases hes
  have h3 : List.Forall₂ (fun (fq : Field × Eqn) (q : Eqn) => dt fq.1.error = q.1) (K.fields.zip K.equations) es := by
    have : List.Forall₂ (· = ·) ((K.fields.zip K.equations).map (fun fq => dt fq.1.error)) (es.map Prod.fst) := by
      rw [List.forall₂_eq_eq_eq, he.1]
      conv_rhs => rw [← zip_fst hv]
      simp only [List.map_map]
      rfl
    rwa [List.forall₂_map_left_iff, List.forall₂_map_right_iff] at this
  obtain ⟨fq, hfq, h4, h5⟩ := forall₂_right (forall₂_and h2 h3) kv hm
  exact ⟨he.2 kv hm, h4.reg.2, _, _, h5.symm, time_error _ (hv.time_field _ (List.of_mem_zip hfq).1), by rw [h4.rhs]; exact (tangent_eq hv hn fq hfq).symm⟩

/-- The value of a right-hand side. -/
theorem stat_value (h : Setting S A P C K coords) (hd : Dynamics S P C K) (hv : EvolutionSystem K coords) (hn : K.fields.Nodup)
    (es : List Eqn) (hes : K.errorSystem = .ok es) (c : Dict Ex Ex) (hc : K.closure = .ok c) (e : Ex) (r : R)
    (he : Has S P C (tangent S K) (ofEx e) r) (hf : TimeFree (K.subs (trends es) e)) (x : Ex)
    (hx : K.applyInternal c (K.subs K.subsError (K.subs (trends es) e)) = .ok x) : den S x = r ∧ Regular S P C x := by
  obtain ⟨-, h1⟩ := entries h hd hv hn es hes
  obtain ⟨p, h2, h3⟩ := has_substAll h.stoch h.calculus _ h1 e r he
  have h2 : K.subs (trends es) e = toEx p := h2
  rw [h2] at hx hf
  obtain ⟨h4, h5⟩ := has_value h.stoch p r h3 hf
  obtain ⟨b1, b2⟩ := h.subs_spec _ h.subsError_valid _ h5
  obtain ⟨c1, c2⟩ := (h.applyInternal_spec c (h.closure_valid c hc) _ b2).1 x hx
  exact ⟨c1.trans (b1.trans h4), c2⟩

end Gap

/-- **C112** The right-hand sides of `variance_system` have the value `2 E[e T]`, where `T` is the tangent-linear trend of the error `e`; this
does not depend on how the errors evolve. -/
theorem C112_variance_rhs (h : Setting S A P C K coords) (hd : Dynamics S P C K) (hv : EvolutionSystem K coords) (hn : K.fields.Nodup) :
    ∃ vs, K.varianceSystem = .ok vs ∧ List.Forall₂ (fun fq q => q.1 = dt fq.1.variance ∧
      den S q.2 = 2 * S.E (den S fq.1.error * (den (perturbed S K.fields) fq.2.2).c1)) (K.fields.zip K.equations) vs := by
  obtain ⟨r, hr, -⟩ := h.reynolds_spec hd
  obtain ⟨vs, hvs, -⟩ := (h.detSystem hd).variance_ok r hr
  refine ⟨vs, hvs, ?_⟩
  obtain ⟨es, hes, -⟩ := h.error_spec hd
  obtain ⟨c, hc⟩ := h.closure_ok
  obtain ⟨he, -⟩ := Gap.entries h hd hv hn es hes
  unfold varianceSystem at hvs
  simp only [hes, hc, bind, Except.bind] at hvs
  have key : List.Forall₂ (fun f q => q.1 = dt f.variance ∧ den S q.2 = 2 * S.E (Gap.tangent S K f.error * den S f.error)) K.fields vs := by
    refine Setting.forall₂_mem (mapM_ok _ _ _ hvs) (fun f hf q hq => ?_)
    unfold varianceEq at hq
    simp only [bind, Except.bind, pure, Except.pure] at hq
    split at hq
    · cases hq
    rename_i x hx
    cases hq
    have ht := time_error f (hv.time_field f hf)
    refine ⟨rfl, (Gap.stat_value h hd hv hn es hes c hc _ _ (has_square _ _ ht (omega_error f) (h.regular_error f hf)) ?_ x hx).1⟩
    refine hv.timeFree_trends _ hv.errors_fn _ he _ ?_
    show TFP _ (pexpect (pdiff time (ppow (patom f.error) 2)))
    have e2 : ppow (patom f.error) 2 = pmul (patom f.error) (patom f.error) := by
      unfold ppow
      rw [if_pos (by decide +kernel)]
      show pmul (patom f.error) (pmul (patom f.error) (pconst 1)) = _
      simp [pconst, patom, pmul_single, monoMul, mulAtom]
    rw [e2]
    exact tf_pexpectPair _ (pair_pdiff _ _ _ _ [] [] .nil .nil (omega_error f) (omega_error f) ht ht
      (List.mem_map_of_mem hf) (List.mem_map_of_mem hf))
  rw [← Gap.zip_fst hv, List.forall₂_map_left_iff] at key
  refine Setting.forall₂_mem key (fun fq hfq q hq => ⟨hq.1, ?_⟩)
  rw [hq.2, Gap.tangent_eq hv hn fq hfq, mul_comm (Jet.c1 _)]

namespace Gap

theorem couples_map {α β : Type} (g : α → β) (l : List α) : couples (l.map g) = (couples l).map (fun p => (g p.1, g p.2)) := by
  induction l with
  | nil => rfl
  | cons a l ih => simp [couples, ih]

theorem mem_couples {α : Type} (l : List α) (p : α × α) (hp : p ∈ couples l) : [p.1, p.2].Sublist l := by
  induction l with
  | nil => cases hp
  | cons a l ih =>
    rcases List.mem_append.1 hp with h | h
    · obtain ⟨b, hb, rfl⟩ := List.mem_map.1 h
      exact (List.singleton_sublist.2 hb).cons₂ a
    · exact (ih h).cons a

end Gap

/-- **C112** The right-hand sides of `cross_covariance_system` have the values `E[T_f e_g] + E[T_g e_f]`. -/
theorem C112_cross_rhs (h : Setting S A P C K coords) (hd : Dynamics S P C K) (hv : EvolutionSystem K coords) (hn : K.fields.Nodup)
    (h1 : K.fields.length ≠ 1) :
    ∃ l, K.crossSystem = .ok (some l) ∧ List.Forall₂ (fun p q => den S q.1 = S.D time (S.E (den S p.1.1.error * den S p.2.1.error)) ∧
      den S q.2 = S.E ((den (perturbed S K.fields) p.1.2.2).c1 * den S p.2.1.error) +
        S.E ((den (perturbed S K.fields) p.2.2.2).c1 * den S p.1.1.error)) (couples (K.fields.zip K.equations)) l := by
  obtain ⟨r, hr, -⟩ := h.reynolds_spec hd
  obtain ⟨cs, hcs⟩ := (h.detSystem hd).cross_ok r hr
  obtain ⟨es, hes, -⟩ := h.error_spec hd
  obtain ⟨c, hc⟩ := h.closure_ok
  obtain ⟨he, -⟩ := Gap.entries h hd hv hn es hes
  have hcs' := hcs
  unfold crossSystem at hcs
  rw [if_neg h1] at hcs
  simp only [hes, hc, bind, Except.bind] at hcs
  split at hcs
  · cases hcs
  rename_i l hl
  cases hcs
  refine ⟨l, hcs', ?_⟩
  have key : List.Forall₂ (fun p q => den S q.1 = S.D time (S.E (den S p.1.error * den S p.2.error)) ∧
      den S q.2 = S.E (Gap.tangent S K p.1.error * den S p.2.error) + S.E (Gap.tangent S K p.2.error * den S p.1.error)) (couples K.fields) l := by
    refine Setting.forall₂_mem (mapM_ok _ _ _ hl) (fun p hp q hq => ?_)
    have hm := Gap.mem_couples _ p hp
    have m1 : p.1 ∈ K.fields := hm.subset (by simp)
    have m2 : p.2 ∈ K.fields := hm.subset (by simp)
    unfold crossEq at hq
    simp only [bind, Except.bind, pure, Except.pure] at hq
    split at hq
    · cases hq
    rename_i v hv'
    split at hq
    · cases hq
    rename_i x hx
    cases hq
    have t1 := time_error p.1 (hv.time_field _ m1)
    have t2 := time_error p.2 (hv.time_field _ m2)
    have ne : p.1.error ≠ p.2.error := by
      intro e
      have e' : p.1 = p.2 := hv.codes _ m1 _ m2 (Gap.error_code e)
      have := hm.nodup hn
      rw [e'] at this
      simp at this
    have hg := (Dict.getItem_eq_ok _ _ _).1 hv'
    have hval := h.closure_valid c hc _ (Dict.mem_of_get? _ _ _ hg)
    obtain ⟨e1, e2⟩ := Gap.stat_value h hd hv hn es hes c hc _ _
      (has_product _ _ _ _ t1 t2 (omega_error p.1) (omega_error p.2) (h.regular_error _ m1) (h.regular_error _ m2) ne)
      (hv.timeFree_trends _ hv.errors_fn _ he _ (tf_pexpectPair _ (pair_pdiff _ _ _ _ [] [] .nil .nil (omega_error p.1) (omega_error p.2) t1 t2
        (List.mem_map_of_mem m1) (List.mem_map_of_mem m2)))) x hx
    refine ⟨?_, ((eval_spec h.stoch h.calculus x e2).1).trans e1⟩
    show S.D time (den S v) = _
    rw [show den S v = S.E (den S p.1.error * den S p.2.error) from hval.2.2.symm]
  rw [← Gap.zip_fst hv, Gap.couples_map, List.forall₂_map_left_iff] at key
  refine Setting.forall₂_mem key (fun p hp q hq => ⟨hq.1, ?_⟩)
  have hm := Gap.mem_couples _ p hp
  rw [hq.2, Gap.tangent_eq hv hn p.1 (hm.subset (by simp)), Gap.tangent_eq hv hn p.2 (hm.subset (by simp))]

namespace Gap

/-- The quadratic part of the trend of a field. -/
def quadratic (S : Interp R) (K : Pkf) (fq : Field × Eqn) : R := (den (perturbed S K.fields) fq.2.2).c2

/-- Where the trend of one of the errors is replaced by the trend of the tangent-linear dynamics. -/
theorem drop (h : Setting S A P C K coords) (hd : Dynamics S P C K) (hr : RandomSolution S K) (h2 : DegreeAtMost S P C K 2)
    (fq gq : Field × Eqn) (hf : fq ∈ K.fields.zip K.equations) (hg : gq ∈ K.fields.zip K.equations) :
    S.E (S.D time (den S fq.1.error) * den S gq.1.error) - S.E ((den (perturbed S K.fields) fq.2.2).c1 * den S gq.1.error) =
      S.E (quadratic S K fq * den S gq.1.error) := by
  have e0 : S.E (den S gq.1.error) = 0 := h.error_centred gq.1 (List.of_mem_zip hg).1
  have e1 : S.E (S.E (quadratic S K fq) * den S gq.1.error) = 0 := by
    rw [h.stoch.E_mul _ _ (h.stoch.E_det _), e0, mul_zero]
  have e2 : S.D time (den S fq.1.error) * den S gq.1.error + S.E (quadratic S K fq) * den S gq.1.error =
      (den (perturbed S K.fields) fq.2.2).c1 * den S gq.1.error + quadratic S K fq * den S gq.1.error := by
    rw [error_trend h hd hr h2 fq hf]
    unfold quadratic
    ring
  have e3 := congrArg S.E e2
  rw [h.stoch.E_add, h.stoch.E_add, e1, add_zero] at e3
  rw [e3]
  ring

end Gap

open Gap in
/-- **C112** For random solutions of quadratic dynamics, the trend of the variance and the right-hand side that `variance_system` gives for it
differ by `2 E[e Q]`, where `Q` is the quadratic part of the trend of the field at the error: the third moments are what the filter leaves out. -/
theorem C112_variance (h : Setting S A P C K coords) (hd : Dynamics S P C K) (hv : EvolutionSystem K coords) (hn : K.fields.Nodup)
    (hr : RandomSolution S K) (h2 : DegreeAtMost S P C K 2) :
    ∃ vs, K.varianceSystem = .ok vs ∧ List.Forall₂ (fun fq q => q.1 = dt fq.1.variance ∧
      den S q.1 = S.D time (S.E (den S fq.1.error ^ 2)) ∧
      den S q.1 - den S q.2 = 2 * S.E (den S fq.1.error * quadratic S K fq)) (K.fields.zip K.equations) vs := by
  obtain ⟨vs, hvs, h3⟩ := C112_variance_rhs h hd hv hn
  refine ⟨vs, hvs, Setting.forall₂_mem h3 (fun fq hfq q hq => ?_)⟩
  have hf := (List.of_mem_zip hfq).1
  have e1 : den S q.1 = S.D time (S.E (den S fq.1.error ^ 2)) := by
    rw [hq.1]
    show S.D time (den S fq.1.variance) = _
    rw [h.error_var fq.1 hf]
  refine ⟨hq.1, e1, ?_⟩
  have e2 : S.D time (S.E (den S fq.1.error ^ 2)) = 2 * S.E (S.D time (den S fq.1.error) * den S fq.1.error) := by
    rw [← h.stoch.E_D _ _ h.time_ne, pow_two, h.stoch.D_mul, mul_comm (den S fq.1.error), h.stoch.E_add]
    ring
  have := drop h hd hr h2 fq fq hfq hfq
  rw [e1, hq.2, e2, mul_comm (den S fq.1.error), mul_comm (den S fq.1.error)]
  linear_combination 2 * this

open Gap in
/-- **C112** The same for the covariances of different fields: the difference is `E[Q_f e_g] + E[Q_g e_f]`. -/
theorem C112_cross (h : Setting S A P C K coords) (hd : Dynamics S P C K) (hv : EvolutionSystem K coords) (hn : K.fields.Nodup)
    (hr : RandomSolution S K) (h2 : DegreeAtMost S P C K 2) (h1 : K.fields.length ≠ 1) :
    ∃ l, K.crossSystem = .ok (some l) ∧ List.Forall₂ (fun p q => den S q.1 = S.D time (S.E (den S p.1.1.error * den S p.2.1.error)) ∧
      den S q.1 - den S q.2 = S.E (quadratic S K p.1 * den S p.2.1.error) + S.E (quadratic S K p.2 * den S p.1.1.error))
        (couples (K.fields.zip K.equations)) l := by
  obtain ⟨l, hl, h3⟩ := C112_cross_rhs h hd hv hn h1
  refine ⟨l, hl, Setting.forall₂_mem h3 (fun p hp q hq => ⟨hq.1, ?_⟩)⟩
  have hm := mem_couples _ p hp
  have m1 := hm.subset (show p.1 ∈ [p.1, p.2] by simp)
  have m2 := hm.subset (show p.2 ∈ [p.1, p.2] by simp)
  have e2 : S.D time (S.E (den S p.1.1.error * den S p.2.1.error)) = S.E (S.D time (den S p.1.1.error) * den S p.2.1.error) +
      S.E (S.D time (den S p.2.1.error) * den S p.1.1.error) := by
    rw [← h.stoch.E_D _ _ h.time_ne, h.stoch.D_mul, mul_comm (den S p.1.1.error), h.stoch.E_add]
  have d1 := drop h hd hr h2 p.1 p.2 m1 m2
  have d2 := drop h hd hr h2 p.2 p.1 m2 m1
  rw [hq.1, hq.2, e2]
  linear_combination d1 + d2

open Gap in
/-- **C112** Hence the equation of a variance is true exactly when the mean of the product of the error and the quadratic part is zero. -/
theorem C112_true_iff (h : Setting S A P C K coords) (hd : Dynamics S P C K) (hv : EvolutionSystem K coords) (hn : K.fields.Nodup)
    (hr : RandomSolution S K) (h2 : DegreeAtMost S P C K 2) :
    ∃ vs, K.varianceSystem = .ok vs ∧ List.Forall₂ (fun fq q => (den S q.1 = den S q.2 ↔ S.E (den S fq.1.error * quadratic S K fq) = 0))
      (K.fields.zip K.equations) vs := by
  obtain ⟨vs, hvs, h3⟩ := C112_variance h hd hv hn hr h2
  refine ⟨vs, hvs, h3.imp (fun fq q hq => ?_)⟩
  rw [← sub_eq_zero, hq.2.2]
  constructor
  · intro h0
    have : algebraMap ℚ R (1 / 2) * 2 = 1 := by
      rw [show (2 : R) = algebraMap ℚ R 2 from (map_ofNat _ 2).symm, ← map_mul, show (1 / 2 : ℚ) * 2 = 1 by norm_num, map_one]
    linear_combination algebraMap ℚ R (1 / 2) * h0 - S.E (den S fq.1.error * quadratic S K fq) * this
  · intro h0
    rw [h0, mul_zero]

/-! ## A case -/

open Gap

/-- The quadratic part of the logistic growth is `-e^2`. -/
theorem growth_quadratic (S : Interp R) (K : Pkf) (f : Field) (hf : f ∈ K.fields) :
    quadratic S K (f, (dt f.value, .add f.value (.mul (.num (-1)) (.pow f.value 2)))) = -(den S f.error ^ 2) := by
  have hj : den (perturbed S K.fields) f.value = ⟨S.E (den S f.random), den S f.error, 0⟩ := by
    have e0 : den (perturbed S K.fields) f.value = if (⟨f.name, f.coordinates⟩ : Field) ∈ K.fields then
        ⟨S.E (den S f.random), den S f.error, 0⟩ else .const (S.fn f.name f.coordinates) := rfl
    rw [e0, if_pos hf]
  have e : den (perturbed S K.fields) (.add f.value (.mul (.num (-1)) (.pow f.value 2))) =
      den (perturbed S K.fields) f.value + algebraMap ℚ _ (-1) * Jet.pw S (den (perturbed S K.fields) f.value) 2 := rfl
  have e2 : ∀ j : Jet R, Jet.pw S j 2 = j * j := fun j => by
    unfold Jet.pw
    rw [if_pos (by decide +kernel)]
    exact pow_two j
  unfold quadratic
  show (den (perturbed S K.fields) (.add f.value (.mul (.num (-1)) (.pow f.value 2)))).c2 = _
  rw [e, e2, hj, map_neg, map_one, neg_one_mul]
  simp [pow_two]

open Members Smooth in
/-- The two populations of `C109_counterexample`: the equation of the variance leaves out `-2` times the third moment. -/
example : ∃ vs, logistic.varianceSystem = .ok vs ∧ vs.length = 1 ∧ ∀ q ∈ vs, ∀ ω p,
    (den (populations.interp logistic.fields) q.1 ω : Point plane → ℝ) p - (den (populations.interp logistic.fields) q.2 ω : Point plane → ℝ) p =
      -(4 / 27) * (early p - late p) ^ 3 := by
  obtain ⟨h1, h2, h3, h4, -, h6⟩ := C109_setting logistic_polynomial populations_solve
  obtain ⟨vs, hvs, h7⟩ := C112_variance h1 h2 logistic_evolution (by decide +kernel) h4 h3
  refine ⟨vs, hvs, h7.length_eq.symm, fun q hq ω p => ?_⟩
  obtain ⟨fq, hfq, -, -, h8⟩ := forall₂_right h7 q hq
  obtain rfl := List.mem_singleton.1 hfq
  rw [growth_quadratic _ logistic fieldU (List.mem_singleton_self _), h6 _ _ (.error (List.mem_singleton_self _))] at h8
  have h9 := congrArg (fun r : Bool → F (Point plane) => (r ω : Point plane → ℝ) p) h8
  refine h9.trans ?_
  show 2 * ((populations.average fun ω => populations.anomaly fieldU ω * -(populations.anomaly fieldU ω ^ 2)) : Point plane → ℝ) p = _
  rw [Ens.average_apply, Fintype.sum_bool]
  show 2 * (1 / 3 * ((early p - (populations.mean fieldU : Point plane → ℝ) p) * -((early p - (populations.mean fieldU : Point plane → ℝ) p) ^ 2)) +
    2 / 3 * ((late p - (populations.mean fieldU : Point plane → ℝ) p) * -((late p - (populations.mean fieldU : Point plane → ℝ) p) ^ 2))) = _
  rw [populations_mean]
  ring

/-- Two species that grow independently of each other. -/
def species : Pkf where
  fields := [fieldU, fieldV]
  equations := [(dt fieldU.value, .add fieldU.value (.mul (.num (-1)) (.pow fieldU.value 2))),
    (dt fieldV.value, .add fieldV.value (.mul (.num (-1)) (.pow fieldV.value 2)))]

open Members Smooth

theorem species_polynomial : Polynomial species plane 2 where
  order _ _ := .refl _
  arrange _ := .refl _
  same := by decide +kernel
  nodup := by decide +kernel
  time_mem := by decide +kernel
  space := by decide +kernel
  noise := by decide +kernel
  eps := by decide +kernel
  names := ⟨by decide +kernel, by decide +kernel, by decide +kernel, by decide +kernel, by decide +kernel, by decide +kernel⟩
  lhs := rfl
  rhs q hq := by
    simp only [species, List.mem_cons, List.not_mem_nil, or_false] at hq
    rcases hq with rfl | rfl
    · exact ⟨⟨⟨by decide +kernel, by decide +kernel, by decide +kernel, by decide +kernel⟩,
        ⟨trivial, ⟨by decide +kernel, by decide +kernel, by decide +kernel, by decide +kernel, by decide +kernel⟩⟩⟩, by decide +kernel⟩
    · exact ⟨⟨⟨by decide +kernel, by decide +kernel, by decide +kernel, by decide +kernel⟩,
        ⟨trivial, ⟨by decide +kernel, by decide +kernel, by decide +kernel, by decide +kernel, by decide +kernel⟩⟩⟩, by decide +kernel⟩

theorem species_solve : Members.Solves populations species where
  total := populations_solve.total
  spread f _ p := by
    rw [populations_variance]
    have := sub_pos.2 (late_lt p)
    positivity
  args _ _ x _ _ := Ens.dir_constant _ 1
  positive _ _ _ _ := one_pos
  trend ω fq hfq := by
    have key : ∀ f ∈ species.fields, Members.D "t".toList (populations.member f ω) = (populations.state species.fields ω).fn f.name f.coordinates +
        algebraMap ℚ _ (-1) * power ((populations.state species.fields ω).fn f.name f.coordinates) 2 := by
      intro f hf
      have e1 : (populations.state species.fields ω).fn f.name f.coordinates = populations.member f ω := by
        show (if (⟨f.name, f.coordinates⟩ : Field) ∈ species.fields then populations.member f ω else 1) = _
        rw [if_pos hf]
      rw [e1]
      show Members.D "t".toList (Ens.along timeAxis _) = Ens.along timeAxis _ + algebraMap ℚ _ (-1) * power (Ens.along timeAxis _) 2
      rw [Ens.D_along, if_pos rfl, sigmoidF_trend, Ens.power_two]
      apply Smooth.ext; intro p
      show (sigmoidF _ : ℝ → ℝ) (p timeAxis) - (sigmoidF _ : ℝ → ℝ) (p timeAxis) ^ 2 =
        (sigmoidF _ : ℝ → ℝ) (p timeAxis) + ((-1 : ℚ) : ℝ) * (sigmoidF _ : ℝ → ℝ) (p timeAxis) ^ 2
      push_cast
      ring
    simp only [species, List.zip_cons_cons, List.zip_nil_right, List.mem_cons, List.not_mem_nil, or_false] at hfq
    rcases hfq with rfl | rfl
    · exact key fieldU (by decide +kernel)
    · exact key fieldV (by decide +kernel)

theorem species_evolution : EvolutionSystem species plane where
  det := (C109_setting species_polynomial species_solve).1.detSystem (C109_setting species_polynomial species_solve).2.1
  time_mem := by decide +kernel
  evolution := by
    refine ⟨rfl, fun q hq => ?_⟩
    simp only [species, List.mem_cons, List.not_mem_nil, or_false] at hq
    rcases hq with rfl | rfl <;> simp [TimeFree, Field.value]
  codes := by decide +kernel
  clash := by decide +kernel

/-- The equation of the covariance of two species of the same size leaves out the same third moment, in every member at every point. -/
example : ∃ l, species.crossSystem = .ok (some l) ∧ l.length = 1 ∧ ∀ q ∈ l, ∀ ω p,
    (den (populations.interp species.fields) q.1 ω : Point plane → ℝ) p - (den (populations.interp species.fields) q.2 ω : Point plane → ℝ) p =
      -(4 / 27) * (early p - late p) ^ 3 := by
  obtain ⟨h1, h2, h3, h4, -, h6⟩ := C109_setting species_polynomial species_solve
  obtain ⟨l, hl, h7⟩ := C112_cross h1 h2 species_evolution (by decide +kernel) h4 h3 (by decide +kernel)
  refine ⟨l, hl, h7.length_eq.symm, fun q hq ω p => ?_⟩
  obtain ⟨fq, hfq, -, h8⟩ := forall₂_right h7 q hq
  obtain rfl := List.mem_singleton.1 hfq
  have m1 : fieldU ∈ species.fields := by decide +kernel
  have m2 : fieldV ∈ species.fields := by decide +kernel
  rw [growth_quadratic _ species fieldU m1, growth_quadratic _ species fieldV m2, h6 _ _ (.error m1), h6 _ _ (.error m2)] at h8
  have h9 := congrArg (fun r : Bool → F (Point plane) => (r ω : Point plane → ℝ) p) h8
  refine h9.trans ?_
  show (populations.average (fun ω => -(populations.anomaly fieldU ω ^ 2) * populations.anomaly fieldV ω) : Point plane → ℝ) p +
    (populations.average (fun ω => -(populations.anomaly fieldV ω ^ 2) * populations.anomaly fieldU ω) : Point plane → ℝ) p = _
  rw [Ens.average_apply, Ens.average_apply, Fintype.sum_bool, Fintype.sum_bool]
  show (1 / 3 * (-((early p - (populations.mean fieldU : Point plane → ℝ) p) ^ 2) * (early p - (populations.mean fieldV : Point plane → ℝ) p)) +
    2 / 3 * (-((late p - (populations.mean fieldU : Point plane → ℝ) p) ^ 2) * (late p - (populations.mean fieldV : Point plane → ℝ) p))) +
    (1 / 3 * (-((early p - (populations.mean fieldV : Point plane → ℝ) p) ^ 2) * (early p - (populations.mean fieldU : Point plane → ℝ) p)) +
    2 / 3 * (-((late p - (populations.mean fieldV : Point plane → ℝ) p) ^ 2) * (late p - (populations.mean fieldU : Point plane → ℝ) p))) = _
  rw [populations_mean, populations_mean]
  ring

end Sympkf.PKF
