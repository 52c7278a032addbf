import Verif.Props.Pkf
import Verif.Lemmas.PkfTensor

/-!
# Properties: the complete systems of `SymbolicPKF` (C52, C53)
-/

set_option autoImplicit false

namespace Sympkf.PKF

open Text Rand Spec

variable {R : Type} [CommRing R] [Algebra ℚ R] {S : Interp R} {A : Subalgebra ℚ R} {P : Set R} {C : Set Str}
  {K : Pkf} {coords : List Str}

/-- A closure given by the user that is true: every entry replaces a regular expression by one with the same value. -/
def TrueClosure (S : Interp R) (P : Set R) (C : Set Str) (user : Dict Ex Ex) : Prop :=
  ∀ kv ∈ user, Regular S P C kv.1 ∧ Regular S P C kv.2 ∧ den S kv.1 = den S kv.2

/-- The functions of the fields stand for the means in the complete systems. -/
def Means (S : Interp R) (K : Pkf) : Prop := ∀ f ∈ K.fields, den S f.value = S.E (den S f.random)

/-- The symbols `T_ij` are the components of `c g^(-1)`, where `g` is the metric of `f`: `sum_k T_ik g_kj = c delta_ij`; the
determinant of `T` may be inverted. -/
def Tensor (S : Interp R) (P : Set R) (c : ℚ) (f : Field) (T : ℕ → ℕ → Ex) : Prop :=
  (∀ i j, i < f.spatial.length → j < f.spatial.length →
    ∑ k ∈ Finset.range f.spatial.length, den S (T i k) * den S (f.metric k j) = if i = j then algebraMap ℚ R c else 0) ∧
  (Matrix.of fun i j : Fin f.spatial.length => den S (T i j)).det ∈ P

/-- The equations are true, and their left-hand sides are the trends of the quantities of the list, in this order. -/
def Evolution (S : Interp R) (us : List R) (l : List Eqn) : Prop :=
  List.Forall₂ (fun u q => den S q.1 = S.D time u ∧ den S q.1 = den S q.2) us l

theorem Tensor.inverse {c : ℚ} {f : Field} {T : ℕ → ℕ → Ex} (h : Tensor S P c f T) : Inverse S P c f T := ⟨h.1, h.2⟩

theorem Evolution.of {us : List R} {l : List Eqn} (h : Trends S P C us l) : Evolution S us l :=
  h.imp (fun _ _ hq => ⟨hq.1, hq.2.2.2⟩)

/-- The components `i <= j` of a tensor of every field. -/
def components (S : Interp R) (fields : List Field) (T : Field → ℕ → ℕ → Ex) : List R :=
  fields.flatMap (fun f => (upper f.spatial.length).map (fun ij => den S (T f ij.1 ij.2)))

/-- The covariances of the couples; none for a single field. -/
def crossList (S : Interp R) (fields : List Field) : List R :=
  if fields.length = 1 then [] else (couples fields).map (fun p => S.E (den S p.1.error * den S p.2.error))

/-- The means follow the average of the second-order Taylor expansion of the dynamics. -/
def MeanTrend (S : Interp R) (K : Pkf) : Prop :=
  ∀ fq ∈ K.fields.zip K.equations, S.D time (S.E (den S fq.1.random)) = S.E (den (perturbed S K.fields) fq.2.2).second

/-! ## The parts -/

theorem zip_map_fst {α β γ : Type} (g : α → γ) (l : List α) (m : List β) (h : m.length = l.length) :
    (l.zip m).map (fun p => g p.1) = l.map g := by
  have := congrArg (List.map g) (List.map_fst_zip (l₁ := l) (l₂ := m) h.ge)
  rw [List.map_map] at this
  exact this

theorem mapM_length {α β : Type} (g : α → Except PyErr β) (l : List α) (l' : List β) (h : l.mapM g = .ok l') :
    l'.length = l.length := (mapM_ok g l l' h).length_eq.symm

section Parts

variable (h : Setting S A P C K coords) (hd : Dynamics S P C K)

include h hd

theorem mean_trends (hmt : MeanTrend S K) (m : List Eqn) (hm : K.expectationSystem = .ok m) :
    Trends S P C (K.fields.map (fun f => S.E (den S f.random))) m := by
  obtain ⟨m', h1, h2⟩ := h.expectation_spec hd
  rw [h1] at hm
  cases hm
  obtain ⟨m', h3, h4⟩ := C47_expectation_partial h hd
  rw [h1] at h3
  cases h3
  rw [← zip_map_fst (fun f => S.E (den S f.random)) K.fields K.equations (Setting.length_eq hd)]
  refine Trends.of _ (r := fun fq q => Setting.EqnVal S P C (S.D time (S.E (den S fq.1.random)))
      ((den (perturbed S K.fields) fq.2.2).c0 + S.E ((den (perturbed S K.fields) fq.2.2).c2)) q) h2 ?_
  intro fq hfq q hq
  refine ⟨hq.lhs, hq.reg.1, hq.reg.2, ?_⟩
  obtain ⟨s1, s2⟩ := h.split_rhs hd fq hfq
  rw [hq.lhs, hq.rhs, hmt fq hfq, Jet.second, h.stoch.E_add, h.stoch.E_add, s2, h.stoch.E_const _ s1, add_zero]

variable (ht : Tangent S K)

include ht

theorem variance_trends (vs : List Eqn) (hvs : K.varianceSystem = .ok vs) :
    Trends S P C (K.fields.map (fun f => S.E (den S f.error ^ 2))) vs := by
  refine Trends.of _ (h.variance_spec hd ht vs hvs) (fun f hf q hq => ⟨?_, hq.2.2⟩)
  rw [hq.1, h.error_var f hf]
  rfl

theorem cross_trends (cs : Option (List Eqn)) (hcs : K.crossSystem = .ok cs) :
    Trends S P C (crossList S K.fields) (cs.toList.flatMap id) := by
  obtain ⟨h1, h2⟩ := h.cross_spec hd ht cs hcs
  unfold crossList
  split
  · rename_i hl
    rw [h1 hl]
    exact .nil
  · rename_i hl
    obtain ⟨l, rfl, h3⟩ := h2 hl
    simp only [Option.toList, List.flatMap_cons, List.flatMap_nil, id, List.append_nil]
    refine Trends.of _ h3 (fun p hp q hq => ?_)
    obtain ⟨v, -, e2, e3, e4⟩ := hq
    exact ⟨by rw [e2, ← e3]; rfl, e4⟩

theorem metric_trends (ms : List Eqn) (hms : K.metricSystem = .ok ms) :
    Trends S P C (components S K.fields Field.metric) ms := by
  have := Trends.of (S := S) (P := P) (C := C) (fun p : Field × ℕ × ℕ => den S (p.1.metric p.2.1 p.2.2)) (h.metric_spec hd ht ms hms)
    (fun p hp q hq => ⟨by rw [hq.1]; rfl, hq.2⟩)
  rw [List.map_flatMap] at this
  unfold components
  rw [← pairs_eq_upper']
  simpa only [List.map_map, Function.comp_def] using this

end Parts

theorem Trends.flat {us : List (List R)} {ls : List (List Eqn)} (h : List.Forall₂ (Trends S P C) us ls) :
    Trends S P C us.flatten ls.flatten := by
  induction h with
  | nil => exact .nil
  | cons h1 _ ih => exact Trends.append h1 ih

theorem trends_flatMap {α : Type} (l : List α) (v : α → List R) (g : α → List Eqn) (h : ∀ a ∈ l, Trends S P C (v a) (g a)) :
    Trends S P C (l.flatMap v) (l.flatMap g) := by
  induction l with
  | nil => exact .nil
  | cons a l ih => exact Trends.append (h a (by simp)) (ih (fun a ha => h a (by simp [ha])))

/-! ## `in_metric` -/

theorem inMetric_trends (h : Setting S A P C K coords) (hd : Dynamics S P C K) (ht : Tangent S K) (hmt : MeanTrend S K)
    (hm : Means S K) (user : Dict Ex Ex) (hu : TrueClosure S P C user) (l : List Eqn) (hl : K.inMetric user = .ok l) :
    Trends S P C (K.fields.map (fun f => S.E (den S f.random)) ++ K.fields.map (fun f => S.E (den S f.error ^ 2)) ++
      crossList S K.fields ++ components S K.fields Field.metric) l := by
  unfold Pkf.inMetric at hl
  simp only [bind, Except.bind, pure, Except.pure] at hl
  split at hl
  · cases hl
  rename_i mean h1
  split at hl
  · cases hl
  rename_i var h2
  split at hl
  · cases hl
  rename_i cross h3
  split at hl
  · cases hl
  rename_i met h4
  cases hl
  have step : ∀ us l, Trends S P C us l → Trends S P C us (K.clean (K.applyClosure user l)) :=
    fun us l hl => h.clean_spec hm us _ (h.applyClosure_spec user hu us l hl)
  have e : ([mean, var] ++ cross.toList ++ [met]).flatMap (fun s => K.clean (K.applyClosure user s)) =
      K.clean (K.applyClosure user mean) ++ K.clean (K.applyClosure user var) ++
        K.clean (K.applyClosure user (cross.toList.flatMap id)) ++ K.clean (K.applyClosure user met) := by
    cases cross with
    | none =>
      have : K.clean (K.applyClosure user []) = [] := by unfold Pkf.applyClosure Pkf.clean; split <;> rfl
      simp [this]
    | some c => simp
  rw [e]
  exact ((step _ _ (mean_trends h hd hmt mean h1)).append (step _ _ (variance_trends h hd ht var h2))).append
    (step _ _ (cross_trends h hd ht cross h3)) |>.append (step _ _ (metric_trends h hd ht met h4))

theorem inMetric_true (h : Setting S A P C K coords) (hd : Dynamics S P C K) (ht : Tangent S K) (hmt : MeanTrend S K)
    (hm : Means S K) (user : Dict Ex Ex) (hu : TrueClosure S P C user) (l : List Eqn) (hl : K.inMetric user = .ok l) :
    Evolution S (K.fields.map (fun f => S.E (den S f.random)) ++ K.fields.map (fun f => S.E (den S f.error ^ 2)) ++
      crossList S K.fields ++ components S K.fields Field.metric) l :=
  .of (inMetric_trends h hd ht hmt hm user hu l hl)

/-- **C53** (partial: as C48.)  When the errors follow the tangent-linear dynamics, the means the average of the second-order
expansion, and the closure of the user is true, `in_metric` is computed and its equations are true; they are, in this order, the
trends of the means, of the variances, of the cross-covariances and of the upper-triangular components of the metrics. -/
theorem C53_in_metric_partial (h : Setting S A P C K coords) (hd : Dynamics S P C K) (ht : Tangent S K) (hmt : MeanTrend S K)
    (hm : Means S K) (user : Dict Ex Ex) (hu : TrueClosure S P C user) :
    ∃ l, K.inMetric user = .ok l ∧ Evolution S (K.fields.map (fun f => S.E (den S f.random)) ++ K.fields.map (fun f => S.E (den S f.error ^ 2)) ++
      crossList S K.fields ++ components S K.fields Field.metric) l := by
  obtain ⟨r, hr, -⟩ := h.reynolds_spec hd
  obtain ⟨l, hl⟩ := ((h.detSystem hd).systems_ok r hr user).1
  exact ⟨l, hl, inMetric_true h hd ht hmt hm user hu l hl⟩

/-! ## Tensors -/

theorem metricTo_mem (K : Pkf) (g : Field → ℕ × ℕ → Ex × Ex) (kv : Ex × Ex)
    (hkv : kv ∈ Dict.update [] (K.fields.flatMap (fun f => (Pkf.pairs f.spatial.length).map (g f)))) :
    ∃ f ∈ K.fields, ∃ ij ∈ Pkf.pairs f.spatial.length, kv = g f ij := by
  have := Setting.mem_trends _ kv hkv
  obtain ⟨f, hf, h1⟩ := List.mem_flatMap.1 this
  obtain ⟨ij, hij, rfl⟩ := List.mem_map.1 h1
  exact ⟨f, hf, ij, hij, rfl⟩

theorem toAspect_valid (h : Setting S A P C K coords) (hT : ∀ f ∈ K.fields, Tensor S P 1 f f.aspect) :
    ∀ kv ∈ K.metricToAspect, Valid S P C kv := by
  intro kv hkv
  obtain ⟨f, hf, ij, hij, rfl⟩ := metricTo_mem K _ kv hkv
  obtain ⟨v1, v2, v3⟩ := h.metricTo_valid 1 one_ne_zero f hf f.aspect (fun i j => h.regular_coords f hf _) (hT f hf).inverse ij hij
  refine ⟨v1, v2.2, v3.trans ?_⟩
  show algebraMap ℚ R 1 * _ = _
  rw [map_one, one_mul]

theorem toDiffusion_valid (h : Setting S A P C K coords) (hT : ∀ f ∈ K.fields, Tensor S P (1 / 2) f f.diffusion) :
    ∀ kv ∈ K.metricToDiffusion, Valid S P C kv := by
  intro kv hkv
  obtain ⟨f, hf, ij, hij, rfl⟩ := metricTo_mem K _ kv hkv
  exact h.metricTo_valid (1 / 2) (by norm_num) f hf f.diffusion (fun i j => h.regular_coords f hf _) (hT f hf).inverse ij hij

/-- **C52** The equations that `in_aspect` adds to the migrated systems: whenever the metric equations `metric` are true, they
are the trends of the components of `s = g^(-1)` and they are true, in any dimension. -/
theorem C52_aspect (h : Setting S A P C K coords) (hT : ∀ f ∈ K.fields, Tensor S P 1 f f.aspect) (metric : Dict Ex Ex)
    (hmet : TrueClosure S P C metric) :
    Evolution S (components S K.fields Field.aspect)
      (K.fields.flatMap (K.tensorEqs (-1) K.metricToAspect metric Field.aspect)) := by
  unfold components
  rw [← pairs_eq_upper']
  exact .of (trends_flatMap _ _ _ (fun f hf => h.tensorEqs_spec 1 (-1) one_ne_zero (by norm_num) _ _ (toAspect_valid h hT) hmet
    Field.aspect f hf (fun i j => h.regular_coords f hf _) (hT f hf).inverse))

/-- **C52** The same for `in_diffusion` and `nu = g^(-1) / 2`. -/
theorem C52_diffusion (h : Setting S A P C K coords) (hT : ∀ f ∈ K.fields, Tensor S P (1 / 2) f f.diffusion) (metric : Dict Ex Ex)
    (hmet : TrueClosure S P C metric) :
    Evolution S (components S K.fields Field.diffusion)
      (K.fields.flatMap (K.tensorEqs (-2) K.metricToDiffusion metric Field.diffusion)) := by
  unfold components
  rw [← pairs_eq_upper']
  exact .of (trends_flatMap _ _ _ (fun f hf => h.tensorEqs_spec (1 / 2) (-2) (by norm_num) (by norm_num) _ _
    (toDiffusion_valid h hT) hmet Field.diffusion f hf (fun i j => h.regular_coords f hf _) (hT f hf).inverse))

/-- **C52** The two tensors agree: `s = 2 nu`. -/
theorem C52_agree (f : Field) (h1 : Tensor S P 1 f f.aspect) (h2 : Tensor S P (1 / 2) f f.diffusion) (i j : ℕ)
    (hi : i < f.spatial.length) (hj : j < f.spatial.length) : den S (f.aspect i j) = 2 * den S (f.diffusion i j) := by
  let s := mat S f.spatial.length f.aspect
  let ν := mat S f.spatial.length f.diffusion
  let g := mat S f.spatial.length f.metric
  have e1 : s * g = 1 := by
    ext a b
    have := h1.1 a b a.2 b.2
    rw [Finset.sum_range] at this
    rw [Matrix.mul_apply, Matrix.one_apply]
    simp only [s, g, mat, Fin.ext_iff]
    rw [this, map_one]
  have e2 : (2 • ν) * g = 1 := by
    ext a b
    have := h2.1 a b a.2 b.2
    rw [Finset.sum_range] at this
    have h3 : ((2 • ν) * g) a b = 2 * (ν * g) a b := by
      rw [two_nsmul, two_mul, add_mul, Matrix.add_apply]
    rw [h3, Matrix.mul_apply, Matrix.one_apply]
    simp only [ν, g, mat, Fin.ext_iff]
    rw [this]
    split
    · rw [show (2 : R) = algebraMap ℚ R 2 from (map_ofNat _ 2).symm, ← map_mul]
      norm_num
    · rw [mul_zero]
  have e3 : s = 2 • ν := by
    have h4 : g * s = 1 := _root_.mul_eq_one_comm.1 e1
    calc s = ((2 • ν) * g) * s := by rw [e2, one_mul]
      _ = (2 • ν) * (g * s) := mul_assoc _ _ _
      _ = 2 • ν := by rw [h4, mul_one]
  have e4 := congrFun (congrFun e3 ⟨i, hi⟩) ⟨j, hj⟩
  rw [two_nsmul, Matrix.add_apply, ← two_mul] at e4
  exact e4

/-! ## `in_aspect` and `in_diffusion` -/

theorem inAspect_trends (h : Setting S A P C K coords) (hd : Dynamics S P C K) (ht : Tangent S K) (hmt : MeanTrend S K)
    (hm : Means S K) (hT : ∀ f ∈ K.fields, Tensor S P 1 f f.aspect) (user : Dict Ex Ex) (hu : TrueClosure S P C user)
    (l : List Eqn) (hl : K.inAspect user = .ok l) :
    Trends S P C (K.fields.map (fun f => S.E (den S f.random)) ++ K.fields.map (fun f => S.E (den S f.error ^ 2)) ++
      crossList S K.fields ++ components S K.fields Field.aspect) l := by
  unfold Pkf.inAspect at hl
  simp only [bind, Except.bind, pure, Except.pure] at hl
  split at hl
  · cases hl
  rename_i met h4
  split at hl
  · cases hl
  rename_i mean h1
  split at hl
  · cases hl
  rename_i var h2
  split at hl
  · cases hl
  rename_i cross h3
  cases hl
  have hto := toAspect_valid h hT
  have step : ∀ us l, Trends S P C us l → Trends S P C us ((K.applyClosure user l).map (K.subsEq K.metricToAspect)) :=
    fun us l hl => (h.applyClosure_spec user hu us l hl).map _ (h.subsEq_spec _ hto)
  have e : ([mean, var] ++ cross.toList).flatMap (fun s => (K.applyClosure user s).map (K.subsEq K.metricToAspect)) =
      (K.applyClosure user mean).map (K.subsEq K.metricToAspect) ++ (K.applyClosure user var).map (K.subsEq K.metricToAspect) ++
        (K.applyClosure user (cross.toList.flatMap id)).map (K.subsEq K.metricToAspect) := by
    cases cross with
    | none =>
      have : (K.applyClosure user []) = [] := by unfold Pkf.applyClosure; split <;> rfl
      simp [this]
    | some c => simp
  rw [e]
  refine h.clean_spec hm _ _ ((((step _ _ (mean_trends h hd hmt mean h1)).append (step _ _ (variance_trends h hd ht var h2))).append
    (step _ _ (cross_trends h hd ht cross h3))).append ?_)
  have hmet : ∀ kv ∈ Pkf.trends (K.applyClosure user met), Valid S P C kv :=
    Setting.valid_trends _ (h.applyClosure_spec user hu _ _ (metric_trends h hd ht met h4)).valid
  unfold components
  rw [← pairs_eq_upper']
  exact trends_flatMap _ _ _ (fun f hf => h.tensorEqs_spec 1 (-1) one_ne_zero (by norm_num) _ _ hto hmet
    Field.aspect f hf (fun i j => h.regular_coords f hf _) (hT f hf).inverse)

theorem inAspect_true (h : Setting S A P C K coords) (hd : Dynamics S P C K) (ht : Tangent S K) (hmt : MeanTrend S K)
    (hm : Means S K) (hT : ∀ f ∈ K.fields, Tensor S P 1 f f.aspect) (user : Dict Ex Ex) (hu : TrueClosure S P C user)
    (l : List Eqn) (hl : K.inAspect user = .ok l) :
    Evolution S (K.fields.map (fun f => S.E (den S f.random)) ++ K.fields.map (fun f => S.E (den S f.error ^ 2)) ++
      crossList S K.fields ++ components S K.fields Field.aspect) l :=
  .of (inAspect_trends h hd ht hmt hm hT user hu l hl)

/-- **C53** (partial: as C48.)  The equations of `in_aspect`, as in `C53_in_metric_partial`. -/
theorem C53_in_aspect_partial (h : Setting S A P C K coords) (hd : Dynamics S P C K) (ht : Tangent S K) (hmt : MeanTrend S K)
    (hm : Means S K) (hT : ∀ f ∈ K.fields, Tensor S P 1 f f.aspect) (user : Dict Ex Ex) (hu : TrueClosure S P C user) :
    ∃ l, K.inAspect user = .ok l ∧ Evolution S (K.fields.map (fun f => S.E (den S f.random)) ++ K.fields.map (fun f => S.E (den S f.error ^ 2)) ++
      crossList S K.fields ++ components S K.fields Field.aspect) l := by
  obtain ⟨r, hr, -⟩ := h.reynolds_spec hd
  obtain ⟨l, hl⟩ := ((h.detSystem hd).systems_ok r hr user).2.1
  exact ⟨l, hl, inAspect_true h hd ht hmt hm hT user hu l hl⟩

theorem inDiffusion_trends (h : Setting S A P C K coords) (hd : Dynamics S P C K) (ht : Tangent S K) (hmt : MeanTrend S K)
    (hm : Means S K) (hT : ∀ f ∈ K.fields, Tensor S P (1 / 2) f f.diffusion) (user : Dict Ex Ex) (hu : TrueClosure S P C user)
    (l : List Eqn) (hl : K.inDiffusion user = .ok l) :
    Trends S P C (K.fields.map (fun f => S.E (den S f.random)) ++ K.fields.map (fun f => S.E (den S f.error ^ 2)) ++
      components S K.fields Field.diffusion) l := by
  unfold Pkf.inDiffusion at hl
  simp only [bind, Except.bind, pure, Except.pure] at hl
  split at hl
  · cases hl
  rename_i met h4
  split at hl
  · cases hl
  rename_i mean h1
  split at hl
  · cases hl
  rename_i var h2
  cases hl
  have hto := toDiffusion_valid h hT
  have step : ∀ us l, Trends S P C us l → Trends S P C us ((K.applyClosure user l).map (K.subsEq K.metricToDiffusion)) :=
    fun us l hl => (h.applyClosure_spec user hu us l hl).map _ (h.subsEq_spec _ hto)
  have e : [mean, var].flatMap (fun s => (K.applyClosure user s).map (K.subsEq K.metricToDiffusion)) =
      (K.applyClosure user mean).map (K.subsEq K.metricToDiffusion) ++ (K.applyClosure user var).map (K.subsEq K.metricToDiffusion) := by
    simp
  rw [e]
  refine h.clean_spec hm _ _ (((step _ _ (mean_trends h hd hmt mean h1)).append (step _ _ (variance_trends h hd ht var h2))).append ?_)
  have hmet : ∀ kv ∈ Pkf.trends (K.applyClosure user met), Valid S P C kv :=
    Setting.valid_trends _ (h.applyClosure_spec user hu _ _ (metric_trends h hd ht met h4)).valid
  unfold components
  rw [← pairs_eq_upper']
  exact trends_flatMap _ _ _ (fun f hf => h.tensorEqs_spec (1 / 2) (-2) (by norm_num) (by norm_num) _ _ hto hmet
    Field.diffusion f hf (fun i j => h.regular_coords f hf _) (hT f hf).inverse)

theorem inDiffusion_true (h : Setting S A P C K coords) (hd : Dynamics S P C K) (ht : Tangent S K) (hmt : MeanTrend S K)
    (hm : Means S K) (hT : ∀ f ∈ K.fields, Tensor S P (1 / 2) f f.diffusion) (user : Dict Ex Ex) (hu : TrueClosure S P C user)
    (l : List Eqn) (hl : K.inDiffusion user = .ok l) :
    Evolution S (K.fields.map (fun f => S.E (den S f.random)) ++ K.fields.map (fun f => S.E (den S f.error ^ 2)) ++
      components S K.fields Field.diffusion) l :=
  .of (inDiffusion_trends h hd ht hmt hm hT user hu l hl)

/-- **C53** (partial: the cross-covariances are missing, see `C53_counterexample`; otherwise as C48.)  The equations of
`in_diffusion`. -/
theorem C53_in_diffusion_partial (h : Setting S A P C K coords) (hd : Dynamics S P C K) (ht : Tangent S K) (hmt : MeanTrend S K)
    (hm : Means S K) (hT : ∀ f ∈ K.fields, Tensor S P (1 / 2) f f.diffusion) (user : Dict Ex Ex) (hu : TrueClosure S P C user) :
    ∃ l, K.inDiffusion user = .ok l ∧ Evolution S (K.fields.map (fun f => S.E (den S f.random)) ++ K.fields.map (fun f => S.E (den S f.error ^ 2)) ++
      components S K.fields Field.diffusion) l := by
  obtain ⟨r, hr, -⟩ := h.reynolds_spec hd
  obtain ⟨l, hl⟩ := ((h.detSystem hd).systems_ok r hr user).2.2.1
  exact ⟨l, hl, inDiffusion_true h hd ht hmt hm hT user hu l hl⟩

/-! ## Numbers of equations -/

theorem pairs_length (n : ℕ) : (Pkf.pairs n).length = n * (n + 1) / 2 := by
  unfold Pkf.pairs
  rw [List.length_flatMap]
  simp only [List.length_map, List.length_range']
  rw [sum_map_range, ← Finset.sum_range (fun i => n - i)]
  have h1 := Finset.sum_range_reflect (fun i => i) (n + 1)
  have h2 := Finset.sum_range_id_mul_two (n + 1)
  simp only [Nat.add_sub_cancel] at h1 h2
  rw [Finset.sum_range_succ, Nat.sub_self, add_zero] at h1
  rw [h1]
  rw [mul_comm n]
  omega

theorem expectation_length (m : List Eqn) (h : K.expectationSystem = .ok m) : m.length = K.equations.length := by
  unfold Pkf.expectationSystem Pkf.secondOrder Pkf.reynolds at h
  simp only [bind, Except.bind, pure, Except.pure] at h
  split at h
  · cases h
  rename_i l hl
  split at hl
  · cases hl
  rename_i r hr
  cases hl
  split at h
  · cases h
  cases h
  rw [List.length_map, List.length_map, mapM_length _ _ _ hr]

theorem variance_length (m : List Eqn) (h : K.varianceSystem = .ok m) : m.length = K.fields.length := by
  unfold Pkf.varianceSystem at h
  simp only [bind, Except.bind] at h
  split at h
  · cases h
  split at h
  · cases h
  exact mapM_length _ _ _ h

theorem cross_length (m : Option (List Eqn)) (h : K.crossSystem = .ok m) :
    (m.toList.flatMap id).length = K.fields.length.choose 2 := by
  unfold Pkf.crossSystem at h
  split at h
  · cases h
    rename_i h1
    rw [h1]
    rfl
  · simp only [bind, Except.bind] at h
    split at h
    · cases h
    split at h
    · cases h
    split at h
    · cases h
    rename_i l hl
    cases h
    simp only [Option.toList, List.flatMap_cons, List.flatMap_nil, id, List.append_nil]
    rw [mapM_length _ _ _ hl, (C41_couples K.fields).2]

theorem metric_length (m : List Eqn) (h : K.metricSystem = .ok m) :
    m.length = (K.fields.map (fun f => f.spatial.length * (f.spatial.length + 1) / 2)).sum := by
  unfold Pkf.metricSystem at h
  simp only [bind, Except.bind] at h
  split at h
  · cases h
  split at h
  · cases h
  rw [mapM_length _ _ _ h, List.length_flatMap]
  simp only [List.length_map, pairs_length]

theorem applyClosure_length (user : Dict Ex Ex) (l : List Eqn) : (K.applyClosure user l).length = l.length := by
  unfold Pkf.applyClosure
  split
  · rfl
  · exact List.length_map _

theorem clean_length (l : List Eqn) : (K.clean l).length = l.length := List.length_map _

/-- **C53** The number of equations of `in_metric`: one per equation of the dynamics, per field, per couple of fields and per
component `i <= j` of the metric. -/
theorem C53_count_metric (user : Dict Ex Ex) (l : List Eqn) (hl : K.inMetric user = .ok l) :
    l.length = K.equations.length + K.fields.length + K.fields.length.choose 2 +
      (K.fields.map (fun f => f.spatial.length * (f.spatial.length + 1) / 2)).sum := by
  unfold Pkf.inMetric at hl
  simp only [bind, Except.bind, pure, Except.pure] at hl
  split at hl
  · cases hl
  rename_i mean h1
  split at hl
  · cases hl
  rename_i var h2
  split at hl
  · cases hl
  rename_i cross h3
  split at hl
  · cases hl
  rename_i met h4
  cases hl
  rw [← cross_length cross h3, ← expectation_length mean h1, ← variance_length var h2, ← metric_length met h4]
  cases cross <;> simp [clean_length, applyClosure_length, add_assoc]

/-- **C53** The number of equations of `in_aspect`. -/
theorem C53_count_aspect (user : Dict Ex Ex) (l : List Eqn) (hl : K.inAspect user = .ok l) :
    l.length = K.equations.length + K.fields.length + K.fields.length.choose 2 +
      (K.fields.map (fun f => f.spatial.length * (f.spatial.length + 1) / 2)).sum := by
  unfold Pkf.inAspect at hl
  simp only [bind, Except.bind, pure, Except.pure] at hl
  split at hl
  · cases hl
  rename_i met h4
  split at hl
  · cases hl
  rename_i mean h1
  split at hl
  · cases hl
  rename_i var h2
  split at hl
  · cases hl
  rename_i cross h3
  cases hl
  rw [← cross_length cross h3, ← expectation_length mean h1, ← variance_length var h2]
  cases cross <;> simp [clean_length, applyClosure_length, add_assoc, List.length_flatMap, Pkf.tensorEqs, pairs_length]

/-- **C53** The number of equations of `in_diffusion`: the cross-covariances are missing. -/
theorem C53_count_diffusion (user : Dict Ex Ex) (l : List Eqn) (hl : K.inDiffusion user = .ok l) :
    l.length = K.equations.length + K.fields.length +
      (K.fields.map (fun f => f.spatial.length * (f.spatial.length + 1) / 2)).sum := by
  unfold Pkf.inDiffusion at hl
  simp only [bind, Except.bind, pure, Except.pure] at hl
  split at hl
  · cases hl
  rename_i met h4
  split at hl
  · cases hl
  rename_i mean h1
  split at hl
  · cases hl
  rename_i var h2
  cases hl
  rw [← expectation_length mean h1, ← variance_length var h2]
  simp [clean_length, applyClosure_length, add_assoc, List.length_flatMap, Pkf.tensorEqs, pairs_length]

/-- The functions of an expression. -/
def covUV : Ex := .fn "V_uv".toList ["t".toList, "x".toList]

/-- **C53** `in_diffusion` of a system of two fields: the cross-covariance occurs in the right-hand sides and has no trend. -/
theorem C53_counterexample : ∃ l, burgers2.inDiffusion [] = .ok l ∧ l.length = 6 ∧ (∃ q ∈ l, covUV ∈ Pkf.fnAtoms q.2) ∧
    ∀ q ∈ l, covUV ∉ Pkf.fnAtoms q.1 := by
  have key : ∀ r : Except PyErr (List Eqn), (match r with
      | .ok l => decide (l.length = 6) && l.any (fun q => decide (covUV ∈ Pkf.fnAtoms q.2)) &&
          l.all (fun q => decide (covUV ∉ Pkf.fnAtoms q.1))
      | _ => false) = true → ∃ l, r = .ok l ∧ l.length = 6 ∧ (∃ q ∈ l, covUV ∈ Pkf.fnAtoms q.2) ∧ ∀ q ∈ l, covUV ∉ Pkf.fnAtoms q.1 := by
    intro r h
    cases r with
    | error e => simp at h
    | ok l =>
      simp only [Bool.and_eq_true, decide_eq_true_eq, List.any_eq_true, List.all_eq_true] at h
      exact ⟨l, rfl, h.1.1, h.1.2, h.2⟩
  exact key _ (by decide +kernel)

/-! ## A concrete case -/

theorem travel_means : Means travel transport2 := by
  intro f hf
  have hf' : f = fieldU ∨ f = fieldV := by simpa [transport2] using hf
  rw [travel_mean f hf']
  rcases hf' with rfl | rfl
  · exact travelFn_metric "u".toList (by decide +kernel)
  · exact travelFn_metric "v".toList (by decide +kernel)

theorem mat_one (f : Field) (hf : f = fieldU ∨ f = fieldV) : f.spatial.length = 1 := by rcases hf with rfl | rfl <;> decide +kernel

theorem travel_tensor (c : ℚ) (hc : 0 < c) (f : Field) (T : ℕ → ℕ → Ex) (h1 : f.spatial.length = 1)
    (hT : den travel (T 0 0) = algebraMap ℚ _ c) (hm : den travel (f.metric 0 0) = 1) : Tensor travel posSet c f T := by
  constructor
  · intro i j hi hj
    have hi0 : i = 0 := by omega
    have hj0 : j = 0 := by omega
    subst hi0 hj0
    rw [h1, Finset.sum_range_one, hT, hm, mul_one, if_pos rfl]
  · have e : (Matrix.of fun i j : Fin f.spatial.length => den travel (T i j)).det = algebraMap ℚ _ c := by
      rw [← hT]
      generalize f.spatial.length = n at h1
      subst h1
      simp
    rw [e]
    intro ω p
    show (0 : ℝ) < (c : ℝ)
    exact_mod_cast hc

theorem MeanTrend.of_solution (h : Setting S A P C K coords) (hr : RandomSolution S K)
    (h2 : ∀ q ∈ K.equations, Polynomials S P C K.fields q.2 ∧ fieldDegree K.fields q.2 ≤ 2) : MeanTrend S K := by
  intro fq hm
  obtain ⟨hp, hdeg⟩ := h2 _ (List.of_mem_zip hm).2
  rw [← h.stoch.E_D _ _ h.time_ne, hr.trend fq hm, hp.exact h.stoch hr.deviation hdeg]

theorem transport2_meanTrend : MeanTrend travel transport2 :=
  .of_solution transport2_setting transport2_solution transport2_quadratic

theorem travel_metric_one (f : Field) (hf : f = fieldU ∨ f = fieldV) : den travel (f.metric 0 0) = 1 := by
  rcases hf with rfl | rfl
  · exact travelFn_metric "{g_{u,xx}}".toList (by decide +kernel)
  · exact travelFn_metric "{g_{v,xx}}".toList (by decide +kernel)

theorem travel_aspect (f : Field) (hf : f = fieldU ∨ f = fieldV) : Tensor travel posSet 1 f f.aspect := by
  refine travel_tensor 1 one_pos f _ (mat_one f hf) ?_ (travel_metric_one f hf)
  rw [map_one]
  rcases hf with rfl | rfl
  · exact travelFn_metric "{s_{u,xx}}".toList (by decide +kernel)
  · exact travelFn_metric "{s_{v,xx}}".toList (by decide +kernel)

theorem travel_diffusion (f : Field) (hf : f = fieldU ∨ f = fieldV) : Tensor travel posSet (1 / 2) f f.diffusion := by
  refine travel_tensor (1 / 2) (by norm_num) f _ (mat_one f hf) ?_ (travel_metric_one f hf)
  rcases hf with rfl | rfl
  · exact travelFn_diffusion "{\\nu_{u,xx}}".toList (by decide +kernel)
  · exact travelFn_diffusion "{\\nu_{v,xx}}".toList (by decide +kernel)

theorem transport2_mem (f : Field) (hf : f ∈ transport2.fields) : f = fieldU ∨ f = fieldV := by simpa [transport2] using hf

theorem ok_of_isSome {α : Type} (r : Except PyErr α) (h : r.toOption.isSome = true) : ∃ x, r = .ok x := by
  cases r with
  | error e => simp [Except.toOption] at h
  | ok x => exact ⟨x, rfl⟩

/-- A true closure: the metric of `u` is `1`. -/
def unitMetric : Dict Ex Ex := [(fieldU.metric 0 0, .num 1)]

theorem unitMetric_true : TrueClosure travel posSet coordSet unitMetric := by
  intro kv hkv
  rw [unitMetric, List.mem_singleton] at hkv
  subst hkv
  refine ⟨transport2_setting.regular_coords fieldU (by decide +kernel) _, trivial, ?_⟩
  show den travel (fieldU.metric 0 0) = algebraMap ℚ _ 1
  rw [travel_metric_one _ (.inl rfl), map_one]

/-- The two waves, transported, satisfy all the equations of `in_metric`, closed or not. -/
example (user : Dict Ex Ex) (hu : user = [] ∨ user = unitMetric) : ∃ l, transport2.inMetric user = .ok l ∧ l.length = 7 ∧
    ∀ q ∈ l, den travel q.1 = den travel q.2 := by
  have hu' : TrueClosure travel posSet coordSet user := by
    rcases hu with rfl | rfl
    · intro kv hkv; simp at hkv
    · exact unitMetric_true
  obtain ⟨l, hl, h⟩ := C53_in_metric_partial transport2_setting transport2_dynamics transport2_tangent
    transport2_meanTrend travel_means user hu'
  exact ⟨l, hl, (C53_count_metric _ l hl).trans (by decide +kernel), fun q hq => let ⟨_, _, h⟩ := forall₂_right h q hq; h.2⟩

example : ∃ l, transport2.inAspect unitMetric = .ok l ∧ l.length = 7 ∧ ∀ q ∈ l, den travel q.1 = den travel q.2 := by
  obtain ⟨l, hl, h⟩ := C53_in_aspect_partial transport2_setting transport2_dynamics transport2_tangent
    transport2_meanTrend travel_means (fun f hf => travel_aspect f (transport2_mem f hf)) unitMetric unitMetric_true
  exact ⟨l, hl, (C53_count_aspect _ l hl).trans (by decide +kernel), fun q hq => let ⟨_, _, h⟩ := forall₂_right h q hq; h.2⟩

example : ∃ l, transport2.inDiffusion unitMetric = .ok l ∧ l.length = 6 ∧ ∀ q ∈ l, den travel q.1 = den travel q.2 := by
  obtain ⟨l, hl, h⟩ := C53_in_diffusion_partial transport2_setting transport2_dynamics transport2_tangent
    transport2_meanTrend travel_means (fun f hf => travel_diffusion f (transport2_mem f hf)) unitMetric unitMetric_true
  exact ⟨l, hl, (C53_count_diffusion _ l hl).trans (by decide +kernel), fun q hq => let ⟨_, _, h⟩ := forall₂_right h q hq; h.2⟩

example : den travel (fieldU.aspect 0 0) = 2 * den travel (fieldU.diffusion 0 0) :=
  C52_agree fieldU (travel_aspect _ (.inl rfl)) (travel_diffusion _ (.inl rfl)) 0 0 (by decide +kernel) (by decide +kernel)

/-- Determinants and cofactors. -/
example : eval (Pkf.detEx 3 (fun i j => .num ([2, 1, 0, 1, 3, 1, 0, 1, 4].getD (3 * i + j) 0))) = .num 18 := by decide +kernel

end Sympkf.PKF
