import Verif.Lemmas.DecoupleSystem
import Verif.Props.PkfSystems
import Verif.Props.Conformance

/-!
# C105: for linear dynamics the statistics of the errors do not depend on the mean
-/

set_option autoImplicit false

namespace Sympkf.PKF

open Text Rand Spec Pkf

variable {K : Pkf} {coords : List Str}

/-- The functions that the package introduces have other names than fields whose names begin neither with a brace nor with `V_`. -/
theorem apart_of_names (hb : ∀ f ∈ K.fields, f.name.head? ≠ some '{') (hv : ∀ f ∈ K.fields, ¬ "V_".toList <+: f.name) : Apart K := by
  have brace : ∀ s : Str, s.head? = some '{' → s ∉ fieldNames K.fields := by
    intro s hs hm
    obtain ⟨f, hf, rfl⟩ := List.mem_map.1 hm
    exact hb f hf hs
  refine ⟨fun f _ => brace _ rfl, fun f _ => brace _ rfl, fun f _ => brace _ rfl, fun f _ i j => brace _ rfl, fun f _ i j => brace _ rfl,
    fun f _ i j => brace _ rfl, fun p _ hm => ?_⟩
  obtain ⟨f, hf, e⟩ := List.mem_map.1 hm
  refine hv f hf ?_
  rw [e]
  exact ⟨p.1.name ++ p.2.name, by simp [label]⟩

/-- **C105** When the right-hand sides of a deterministic system are affine in the fields, with any coefficients, no field and no
mean of a field occurs in the equations of the errors, of the variances, of the normalised errors, of the covariances and of the
metrics: the statistics of the errors decouple from the mean. -/
theorem C105_decouples (h : AffineSystem K coords) :
    (∀ es, K.errorSystem = .ok es → ∀ q ∈ es, FreeOf (fieldNames K.fields) q.2) ∧
    (∀ vs, K.varianceSystem = .ok vs → ∀ q ∈ vs, FreeOf (fieldNames K.fields) q.2) ∧
    (∀ es, K.epsilonSystem = .ok es → ∀ q ∈ es, FreeOf (fieldNames K.fields) q.2) ∧
    (∀ cs, K.crossSystem = .ok (some cs) → ∀ q ∈ cs, FreeOf (fieldNames K.fields) q.2) ∧
    (∀ ms, K.metricSystem = .ok ms → ∀ q ∈ ms, FreeOf (fieldNames K.fields) q.2) := by
  refine ⟨h.errors, fun vs hvs => ?_, fun es hes => ?_, fun cs hcs => ?_, fun ms hms => ?_⟩
  · obtain ⟨r, hr⟩ := h.reynolds_of_variance hvs
    exact h.variances r hr vs hvs
  · obtain ⟨r, hr⟩ : ∃ r, K.reynolds = .ok r := by
      unfold epsilonSystem at hes
      cases he : K.errorSystem with
      | ok es => exact h.reynolds_ok he
      | error x => simp only [he, bind, Except.bind] at hes; cases hes
    exact h.epsilons r hr es hes
  · obtain ⟨r, hr⟩ : ∃ r, K.reynolds = .ok r := by
      unfold crossSystem at hcs
      split at hcs
      · cases hcs
      cases he : K.errorSystem with
      | ok es => exact h.reynolds_ok he
      | error x => simp only [he, bind, Except.bind] at hcs; cases hcs
    exact h.crosses r hr (some cs) hcs
  · obtain ⟨r, hr⟩ : ∃ r, K.reynolds = .ok r := by
      unfold metricSystem epsilonSystem at hms
      cases he : K.errorSystem with
      | ok es => exact h.reynolds_ok he
      | error x => simp only [he, bind, Except.bind] at hms; cases hms
    exact h.metrics r hr ms hms

theorem drop_append_length {α : Type} (a b : List α) (n : ℕ) (h : a.length = n) : (a ++ b).drop n = b := by
  subst h
  exact List.drop_left

theorem mem_cross {cross : Option (List Eqn)} {q : Eqn} {l : List Eqn} (hl : l ∈ cross.toList) (hq : q ∈ l) : q ∈ cross.getD [] := by
  cases cross with
  | none => cases hl
  | some c => rw [Option.toList_some, List.mem_singleton] at hl; subst hl; exact hq

theorem metricToAspect_free (h : AffineSystem K coords) (l : List Eqn) (hl : ∀ q ∈ l, FreeOf (fieldNames K.fields) q.2) :
    ∀ q ∈ l.map (K.subsEq K.metricToAspect), FreeOf (fieldNames K.fields) q.2 := by
  intro q hq
  obtain ⟨q0, hq0, rfl⟩ := List.mem_map.1 hq
  refine h.subs _ (fun kv hkv _ => ?_) _ (hl q0 hq0)
  rcases Dict.mem_update _ _ _ hkv with hkv | hkv
  · cases hkv
  obtain ⟨f, hf, hkv⟩ := List.mem_flatMap.1 hkv
  obtain ⟨ij, -, rfl⟩ := List.mem_map.1 hkv
  exact h.inv _ _ (h.aspect f hf) _ _

theorem metricToDiffusion_free (h : AffineSystem K coords) (l : List Eqn) (hl : ∀ q ∈ l, FreeOf (fieldNames K.fields) q.2) :
    ∀ q ∈ l.map (K.subsEq K.metricToDiffusion), FreeOf (fieldNames K.fields) q.2 := by
  intro q hq
  obtain ⟨q0, hq0, rfl⟩ := List.mem_map.1 hq
  refine h.subs _ (fun kv hkv _ => ?_) _ (hl q0 hq0)
  rcases Dict.mem_update _ _ _ hkv with hkv | hkv
  · cases hkv
  obtain ⟨f, hf, hkv⟩ := List.mem_flatMap.1 hkv
  obtain ⟨ij, -, rfl⟩ := List.mem_map.1 hkv
  exact ⟨trivial, h.inv _ _ (h.diffusion f hf) _ _⟩

theorem trends_free (h : AffineSystem K coords) (l : List Eqn) (hl : ∀ q ∈ l, FreeOf (fieldNames K.fields) q.2) (e : Ex)
    (he : FreeOf (fieldNames K.fields) e) : FreeOf (fieldNames K.fields) (K.subs (trends l) e) :=
  h.subs _ (fun kv hkv _ => hl kv (Setting.mem_trends _ _ hkv)) e he

/-- **C105** In the systems that are generated in the metric, in the aspect and in the diffusion tensors, only the equations of the
means, which come first, contain the fields; the closure of the user may contain any expressions without fields. -/
theorem C105_forecast (h : AffineSystem K coords) (user : Dict Ex Ex) (hu : ∀ kv ∈ user, FreeOf (fieldNames K.fields) kv.2) :
    (∀ l, K.inMetric user = .ok l → ∀ q ∈ l.drop K.equations.length, FreeOf (fieldNames K.fields) q.2) ∧
    (∀ l, K.inAspect user = .ok l → ∀ q ∈ l.drop K.equations.length, FreeOf (fieldNames K.fields) q.2) ∧
    (∀ l, K.inDiffusion user = .ok l → ∀ q ∈ l.drop K.equations.length, FreeOf (fieldNames K.fields) q.2) := by
  refine ⟨fun l hl => ?_, fun l hl => ?_, fun l hl => ?_⟩
  · unfold Pkf.inMetric at hl
    simp only [bind, Except.bind, pure, Except.pure] at hl
    split at hl
    · cases hl
    rename_i mean h1
    split at hl
    · cases hl
    rename_i var h2
    split at hl
    · cases hl
    rename_i cross h3
    split at hl
    · cases hl
    rename_i met h4
    cases hl
    obtain ⟨r, hr⟩ := h.reynolds_of_variance h2
    have hlen : (K.clean (K.applyClosure user mean)).length = K.equations.length := by
      rw [← expectation_length mean h1]
      simp [clean_length, applyClosure_length]
    rw [show [mean, var] ++ cross.toList ++ [met] = [mean] ++ ([var] ++ cross.toList ++ [met]) by simp, List.flatMap_append]
    rw [drop_append_length _ _ _ (by simpa using hlen)]
    intro q hq
    obtain ⟨s, hs, hq⟩ := List.mem_flatMap.1 hq
    refine h.clean _ (h.applyClosure user hu s ?_) q hq
    rw [List.mem_append, List.mem_append, List.mem_singleton, List.mem_singleton] at hs
    rcases hs with (rfl | hs) | rfl
    · exact h.variances r hr _ h2
    · exact fun q hq => h.crosses r hr _ h3 q (mem_cross hs hq)
    · exact h.metrics r hr _ h4
  · unfold Pkf.inAspect at hl
    simp only [bind, Except.bind, pure, Except.pure] at hl
    split at hl
    · cases hl
    rename_i met h4
    split at hl
    · cases hl
    rename_i mean h1
    split at hl
    · cases hl
    rename_i var h2
    split at hl
    · cases hl
    rename_i cross h3
    cases hl
    obtain ⟨r, hr⟩ := h.reynolds_of_variance h2
    have hlen : (K.clean ((K.applyClosure user mean).map (K.subsEq K.metricToAspect))).length = K.equations.length := by
      rw [← expectation_length mean h1]
      simp [clean_length, applyClosure_length]
    rw [show [mean, var] ++ cross.toList = [mean] ++ ([var] ++ cross.toList) by simp, List.flatMap_append, List.append_assoc]
    unfold Pkf.clean at hlen ⊢
    rw [List.map_append, drop_append_length _ _ _ (by simpa using hlen)]
    refine h.clean _ (fun q hq => ?_)
    rcases List.mem_append.1 hq with hq | hq
    · obtain ⟨s, hs, hq⟩ := List.mem_flatMap.1 hq
      refine metricToAspect_free h _ (h.applyClosure user hu s ?_) q hq
      rw [List.mem_append, List.mem_singleton] at hs
      rcases hs with rfl | hs
      · exact h.variances r hr _ h2
      · exact fun q hq => h.crosses r hr _ h3 q (mem_cross hs hq)
    · obtain ⟨f, hf, hq⟩ := List.mem_flatMap.1 hq
      obtain ⟨ij, -, rfl⟩ := List.mem_map.1 hq
      have t := trends_free h _ (h.applyClosure user hu met (h.metrics r hr _ h4))
        (.mul (.num (-1)) (Pkf.sandwich f.spatial.length f.aspect (fun k l => dt (f.metric k l)) ij.1 ij.2))
        ⟨trivial, h.sandwich _ _ (fun k l => dt (f.metric k l)) (h.aspect f hf) (fun k l => h.metric f hf k l) _ _⟩
      exact metricToAspect_free h [(.num 0, _)] (fun q hq => by rw [List.mem_singleton] at hq; subst hq; exact t) (K.subsEq K.metricToAspect (.num 0, _)) (List.mem_singleton.2 rfl)
  · unfold Pkf.inDiffusion at hl
    simp only [bind, Except.bind, pure, Except.pure] at hl
    split at hl
    · cases hl
    rename_i met h4
    split at hl
    · cases hl
    rename_i mean h1
    split at hl
    · cases hl
    rename_i var h2
    cases hl
    obtain ⟨r, hr⟩ := h.reynolds_of_variance h2
    have hlen : (K.clean ((K.applyClosure user mean).map (K.subsEq K.metricToDiffusion))).length = K.equations.length := by
      rw [← expectation_length mean h1]
      simp [clean_length, applyClosure_length]
    rw [show [mean, var] = [mean] ++ [var] by simp, List.flatMap_append, List.append_assoc]
    unfold Pkf.clean at hlen ⊢
    rw [List.map_append, drop_append_length _ _ _ (by simpa using hlen)]
    refine h.clean _ (fun q hq => ?_)
    rcases List.mem_append.1 hq with hq | hq
    · obtain ⟨s, hs, hq⟩ := List.mem_flatMap.1 hq
      refine metricToDiffusion_free h _ (h.applyClosure user hu s ?_) q hq
      rw [List.mem_singleton] at hs
      subst hs
      exact h.variances r hr _ h2
    · obtain ⟨f, hf, hq⟩ := List.mem_flatMap.1 hq
      obtain ⟨ij, -, rfl⟩ := List.mem_map.1 hq
      have t := trends_free h _ (h.applyClosure user hu met (h.metrics r hr _ h4))
        (.mul (.num (-2)) (Pkf.sandwich f.spatial.length f.diffusion (fun k l => dt (f.metric k l)) ij.1 ij.2))
        ⟨trivial, h.sandwich _ _ (fun k l => dt (f.metric k l)) (h.diffusion f hf) (fun k l => h.metric f hf k l) _ _⟩
      exact metricToDiffusion_free h [(.num 0, _)] (fun q hq => by rw [List.mem_singleton] at hq; subst hq; exact t) (K.subsEq K.metricToDiffusion (.num 0, _)) (List.mem_singleton.2 rfl)

/-! ## A linear and a nonlinear system -/

instance decFreeOf (names : List Str) : (e : Ex) → Decidable (FreeOf names e)
  | .num _ => .isTrue trivial
  | .sym _ => .isTrue trivial
  | .fn u _ => inferInstanceAs (Decidable (u ∉ names))
  | .func _ a => decFreeOf names a
  | .add a b => @instDecidableAnd _ _ (decFreeOf names a) (decFreeOf names b)
  | .mul a b => @instDecidableAnd _ _ (decFreeOf names a) (decFreeOf names b)
  | .pow a _ => decFreeOf names a
  | .deriv a _ => decFreeOf names a
  | .integ a _ => decFreeOf names a
  | .ex a => decFreeOf names a
  | .other _ => .isTrue trivial

/-- Two waves with a source: `Derivative(u, t) = exp(a(x)) Derivative(v, x) - Derivative(u, x, x) / 2 + cos(x)` and
`Derivative(v, t) = Derivative(a(x) u, x) - v / 2`. -/
def linearWaves : Pkf where
  fields := [⟨"u".toList, ["t".toList, "x".toList]⟩, ⟨"v".toList, ["t".toList, "x".toList]⟩]
  equations := [(Pkf.dt (.fn "u".toList ["t".toList, "x".toList]),
      .add (.add (.mul (.func "exp".toList (.fn "a".toList ["x".toList])) (.deriv (.fn "v".toList ["t".toList, "x".toList]) [("x".toList, 1)]))
        (.mul (.num (-1 / 2)) (.deriv (.fn "u".toList ["t".toList, "x".toList]) [("x".toList, 2)]))) (.func "cos".toList (.sym "x".toList))),
    (Pkf.dt (.fn "v".toList ["t".toList, "x".toList]),
      .add (.deriv (.mul (.fn "a".toList ["x".toList]) (.fn "u".toList ["t".toList, "x".toList])) [("x".toList, 1)])
        (.mul (.fn "v".toList ["t".toList, "x".toList]) (.num (-1 / 2))))]

theorem linearWaves_affine : AffineSystem linearWaves ["t".toList, "x".toList] where
  order := fun _ _ => List.Perm.refl _
  arrange := fun _ => List.Perm.refl _
  same := by decide +kernel
  nodup := by decide +kernel
  noise := by decide +kernel
  space := by decide +kernel
  equations := by
    intro q hq
    rw [linearWaves, List.mem_cons, List.mem_singleton] at hq
    rcases hq with rfl | rfl <;> simp [Deterministic, Pkf.dt, omega, time]
  toApart := apart_of_names (by decide +kernel) (by decide +kernel)
  affine := by
    intro q hq
    have hu : Affine linearWaves.fields (.fn "u".toList ["t".toList, "x".toList]) := .field ⟨"u".toList, ["t".toList, "x".toList]⟩ (by decide +kernel)
    have hv : Affine linearWaves.fields (.fn "v".toList ["t".toList, "x".toList]) := .field ⟨"v".toList, ["t".toList, "x".toList]⟩ (by decide +kernel)
    rw [linearWaves, List.mem_cons, List.mem_singleton] at hq
    rcases hq with rfl | rfl
    · exact .add _ _ (.add _ _ (.mul _ _ (by decide +kernel) (.deriv _ _ hv)) (.mul _ _ (by decide +kernel) (.deriv _ _ hu))) (.free _ (by decide +kernel))
    · exact .add _ _ (.deriv _ _ (.mul _ _ (by decide +kernel) hu)) (.mulRight _ _ hv (by decide +kernel))

/-- The forecast of the linear waves: two means, two variances, one covariance, two metrics. -/
example : ∃ l, linearWaves.inMetric [] = .ok l ∧ l.length = 7 ∧ (∀ q ∈ l.drop 2, FreeOf ["u".toList, "v".toList] q.2) ∧
    ∀ q ∈ l.take 2, ¬ FreeOf ["u".toList, "v".toList] q.2 := by
  have h : (match linearWaves.inMetric [] with
      | .ok l => decide (l.length = 7 ∧ ∀ q ∈ l.take 2, ¬ FreeOf ["u".toList, "v".toList] q.2)
      | .error _ => false) = true := by decide +kernel
  cases hl : linearWaves.inMetric [] with
  | error x => rw [hl] at h; cases h
  | ok l =>
    rw [hl] at h
    obtain ⟨h1, h2⟩ := of_decide_eq_true h
    exact ⟨l, rfl, h1, (C105_forecast linearWaves_affine [] (by simp)).1 l hl, h2⟩

/-- **C105** is false for nonlinear dynamics: the equations of the error, of the variance and of the metric of the Burgers equation
contain the mean. -/
theorem C105_nonlinear : ∃ es vs ms, Conformance.burgers.errorSystem = .ok es ∧ Conformance.burgers.varianceSystem = .ok vs ∧
    Conformance.burgers.metricSystem = .ok ms ∧ (∀ q ∈ es, ¬ FreeOf ["u".toList] q.2) ∧ (∀ q ∈ vs, ¬ FreeOf ["u".toList] q.2) ∧
    (∀ q ∈ ms, ¬ FreeOf ["u".toList] q.2) ∧ es ≠ [] ∧ vs ≠ [] ∧ ms ≠ [] := by
  have h : (match Conformance.burgers.errorSystem, Conformance.burgers.varianceSystem, Conformance.burgers.metricSystem with
      | .ok es, .ok vs, .ok ms => decide ((∀ q ∈ es, ¬ FreeOf ["u".toList] q.2) ∧ (∀ q ∈ vs, ¬ FreeOf ["u".toList] q.2) ∧
          (∀ q ∈ ms, ¬ FreeOf ["u".toList] q.2) ∧ es ≠ [] ∧ vs ≠ [] ∧ ms ≠ [])
      | _, _, _ => false) = true := by decide +kernel
  cases h1 : Conformance.burgers.errorSystem with
  | error x => rw [h1] at h; cases h
  | ok es =>
    cases h2 : Conformance.burgers.varianceSystem with
    | error x => rw [h1, h2] at h; cases h
    | ok vs =>
      cases h3 : Conformance.burgers.metricSystem with
      | error x => rw [h1, h2, h3] at h; cases h
      | ok ms =>
        rw [h1, h2, h3] at h
        exact ⟨es, vs, ms, rfl, rfl, rfl, of_decide_eq_true h⟩

end Sympkf.PKF
