import Verif.Lemmas.GradedSystem
import Verif.Props.Unclosed

/-!
# C97: the order of the open expectations
-/

set_option autoImplicit false

namespace Sympkf.PKF

open Text Rand Spec Pkf

variable {K : Pkf} {coords : List Str}

/-- The derivatives in the dynamics are of order at most `p`. -/
def DynamicsOrder (K : Pkf) (p : ℕ) : Prop := ∀ q ∈ K.equations, OrderLe p q.2

open Graded in
theorem differentiated_po {p N : ℕ} {f : Field} {n : ℕ} {d : Ex} (hd : Differentiated f n d) {m : ℚ} (h : Graded.Po (grade p N) d m) :
    1 + (n : ℚ) ≤ m := by
  have fn : ∀ m, Graded.Po (grade p N) f.epsilon m → 1 ≤ m := by
    intro m hm
    have : (if omega ∈ f.coordinates ++ [omega] then (1 : ℚ) else 0) ≤ m := hm
    rwa [if_pos (by simp)] at this
  cases hd with
  | none => simpa using fn m h
  | some vars h0 hv =>
    rcases h.1 with ⟨k, hk, hkm⟩ | ⟨h0, -⟩
    · have := fn k hk
      rw [cost_space p N vars (fun v hv' => by simpa using (List.mem_filter.1 (hv v hv').1).2)] at hkm
      linarith
    · have := fn 0 h0
      norm_num at this

open Graded in
/-- The derivations of a product of two derivatives. -/
theorem product_po {p N : ℕ} {f g : Field} {m n : ℕ} {a b : Ex} (ha : Differentiated f m a) (hb : Differentiated g n b)
    (h : Graded.Po (grade p N) (.ex (.mul a b)) 0) : m + n ≤ N := by
  rcases h.2 with ⟨i, j, hij, h1, h2⟩ | ⟨_, _, e, _⟩
  · have e1 := differentiated_po ha h1
    have e2 := differentiated_po hb h2
    have : i + j ≤ 2 + (N : ℚ) := hij
    have : (m : ℚ) + n ≤ N := by linarith
    exact_mod_cast this
  · cases e

open Graded in
theorem open_upTo {p N : ℕ} {t : Ex} (h : Open K.fields t) (hp : Graded.Po (grade p N) t 0) : OpenUpTo K.fields N t := by
  cases h with
  | left f hf n hn d hd => exact .left f hf n hn (by have := product_po .none hd hp; omega) d hd
  | right f hf n hn d hd => exact .right f hf n hn (by have := product_po hd .none hp; omega) d hd
  | couple f g hf hg hfg m n hmn a b ha hb => exact .couple f g hf hg hfg m n hmn (product_po ha hb hp) a b ha hb

open Graded in
theorem openMean_upTo {p N : ℕ} {t : Ex} (h : OpenMean K.fields t) (hp : Graded.Po (grade p N) t 0) : OpenMeanUpTo K.fields N t := by
  cases h with
  | other t h => exact .other _ (open_upTo h hp)
  | product f hf m n hm hn a b ha hb => exact .product f hf m n hm hn (product_po ha hb hp) a b ha hb
  | square f hf n hn d hd =>
    refine .square f hf n hn ?_ d hd
    rcases hp.2 with h | ⟨_, _, e, _⟩
    · rcases h.2 with ⟨k, -, -, hk, hd'⟩ | h0
      · have := differentiated_po hd hd'
        have : 2 * k ≤ 2 + (N : ℚ) := hk
        have : 2 * (n : ℚ) ≤ N := by linarith
        exact_mod_cast this
      · have := differentiated_po hd h0
        have : (0 : ℚ) ≤ n := by positivity
        linarith
    · cases e

section

variable (h : EvolutionSystem K coords) (hp : ParameterFree K) {p : ℕ} (hord : DynamicsOrder K p) (r : List (Eqn × Eqn))
  (hr : K.reynolds = .ok r)
include h hp hord hr

theorem mean_upTo (ms : List Eqn) (hms : K.expectationSystem = .ok ms) (q : Eqn) (hq : q ∈ ms) :
    ∀ t ∈ exAtoms q.2, Stable t ∧ (Mean K t ∨ OpenMeanUpTo K.fields (2 * p) t) := by
  intro t ht
  obtain ⟨hs, h1⟩ := mean_left h hp r hr ms hms q hq t ht
  exact ⟨hs, h1.imp id (fun h1 => openMean_upTo h1
    (Graded.po_exAtoms _ 0 (Graded.po_mean h hp.occurs hord r hr (le_refl _) ms hms q hq) t ht))⟩

theorem variance_upTo (vs : List Eqn) (hvs : K.varianceSystem = .ok vs) (q : Eqn) (hq : q ∈ vs) :
    ∀ t ∈ exAtoms q.2, Stable t ∧ (Mean K t ∨ OpenUpTo K.fields p t) := by
  intro t ht
  obtain ⟨hs, h1⟩ := (moments_left h hp r hr).1 vs hvs q hq t ht
  exact ⟨hs, h1.imp id (fun h1 => open_upTo h1
    (Graded.po_exAtoms _ 0 (Graded.po_variance h hp.occurs hord r hr (le_refl _) vs hvs q hq) t ht))⟩

theorem cross_upTo (cs : Option (List Eqn)) (hcs : K.crossSystem = .ok cs) (q : Eqn) (hq : q ∈ cs.getD []) :
    ∀ t ∈ exAtoms q.2, Stable t ∧ (Mean K t ∨ OpenUpTo K.fields p t) := by
  intro t ht
  obtain ⟨hs, h1⟩ := (moments_left h hp r hr).2.1 cs hcs q hq t ht
  exact ⟨hs, h1.imp id (fun h1 => open_upTo h1
    (Graded.po_exAtoms _ 0 (Graded.po_cross h hp.occurs hord r hr (le_refl _) cs hcs q hq) t ht))⟩

theorem metric_upTo (gs : List Eqn) (hgs : K.metricSystem = .ok gs) (q : Eqn) (hq : q ∈ gs) :
    ∀ t ∈ exAtoms q.2, Stable t ∧ (Mean K t ∨ OpenUpTo K.fields (p + 2) t) := by
  intro t ht
  obtain ⟨hs, h1⟩ := (moments_left h hp r hr).2.2 gs hgs q hq t ht
  exact ⟨hs, h1.imp id (fun h1 => open_upTo h1
    (Graded.po_exAtoms _ 0 (Graded.po_metric h hp.occurs hord r hr (le_refl _) gs hgs q hq) t ht))⟩

end

theorem within_upTo {P : Ex → Prop} {e : Ex} (h : ∀ t ∈ exAtoms e, Stable t ∧ (Mean K t ∨ P t)) :
    ∀ a, Within (.ex a) e → (∃ f ∈ K.fields, a = f.random) ∨ P (.ex a) := by
  intro a ha
  rcases (atoms_within h a ha).2 with ⟨f, hf, e⟩ | h'
  · exact .inl ⟨f, hf, by injection e⟩
  · exact .inr h'

/-- **C97** For dynamics of order `p` the open expectations have at most `p` derivations in the equations of the variances and of the
cross-covariances, at most `p + 2` in the equations of the metrics, and at most `2 p` in the equations of the means. -/
theorem C97_order (h : EvolutionSystem K coords) (hp : ParameterFree K) (hr : ∃ r, K.reynolds = .ok r) (p : ℕ) (hord : DynamicsOrder K p) :
    (∃ l, K.expectationSystem = .ok l ∧
      ∀ q ∈ l, ∀ a, Within (.ex a) q.2 → (∃ f ∈ K.fields, a = f.random) ∨ OpenMeanUpTo K.fields (2 * p) (.ex a)) ∧
    (∃ l, K.varianceSystem = .ok l ∧ ∀ q ∈ l, ∀ a, Within (.ex a) q.2 → (∃ f ∈ K.fields, a = f.random) ∨ OpenUpTo K.fields p (.ex a)) ∧
    (∃ l, K.crossSystem = .ok l ∧
      ∀ q ∈ l.getD [], ∀ a, Within (.ex a) q.2 → (∃ f ∈ K.fields, a = f.random) ∨ OpenUpTo K.fields p (.ex a)) ∧
    ∃ l, K.metricSystem = .ok l ∧
      ∀ q ∈ l, ∀ a, Within (.ex a) q.2 → (∃ f ∈ K.fields, a = f.random) ∨ OpenUpTo K.fields (p + 2) (.ex a) := by
  obtain ⟨r, hr⟩ := hr
  obtain ⟨ms, hms⟩ := h.det.expectation_ok r hr
  obtain ⟨vs, hvs, -⟩ := h.det.variance_ok r hr
  obtain ⟨gs, hgs, -⟩ := h.det.metric_ok r hr
  obtain ⟨cs, hcs⟩ := h.det.cross_ok r hr
  exact ⟨⟨ms, hms, fun q hq => within_upTo (mean_upTo h hp hord r hr ms hms q hq)⟩,
    ⟨vs, hvs, fun q hq => within_upTo (variance_upTo h hp hord r hr vs hvs q hq)⟩,
    ⟨cs, hcs, fun q hq => within_upTo (cross_upTo h hp hord r hr cs hcs q hq)⟩,
    gs, hgs, fun q hq => within_upTo (metric_upTo h hp hord r hr gs hgs q hq)⟩

/-- **C97** What `unclosed_terms` lists: open expectations with `2 p` derivations at most, as in the equations of the means, or with `p + 2`
derivations at most. -/
theorem C97_unclosed (h : EvolutionSystem K coords) (hp : ParameterFree K) (hr : ∃ r, K.reynolds = .ok r) (p : ℕ) (hord : DynamicsOrder K p) :
    ∃ l, K.unclosedTerms [] = .ok l ∧ ∀ t ∈ l, OpenMeanUpTo K.fields (2 * p) t ∨ OpenUpTo K.fields (p + 2) t := by
  obtain ⟨r, hr⟩ := hr
  obtain ⟨⟨l, hl⟩, -, -, u, hu⟩ := h.det.systems_ok r hr []
  refine ⟨u, hu, fun t ht => ?_⟩
  obtain ⟨ms, hms⟩ := h.det.expectation_ok r hr
  obtain ⟨vs, hvs, -⟩ := h.det.variance_ok r hr
  obtain ⟨gs, hgs, -⟩ := h.det.metric_ok r hr
  obtain ⟨cs, hcs⟩ := h.det.cross_ok r hr
  obtain ⟨u', hu', -, hmem⟩ := C56_unclosed K [] l hl
  rw [hu] at hu'
  cases hu'
  obtain ⟨ha, ⟨q, hq, hw⟩, -⟩ := (hmem t).1 ht
  obtain ⟨q', hq', e⟩ := inMetric_mem [] ms vs gs cs hms hvs hcs hgs l hl q hq
  rw [if_pos rfl] at e
  have up : ∀ t, OpenUpTo K.fields p t → OpenUpTo K.fields (p + 2) t := by
    intro t ht
    cases ht with
    | left f hf n hn hN d hd => exact .left f hf n hn (by omega) d hd
    | right f hf n hn hN d hd => exact .right f hf n hn (by omega) d hd
    | couple f g hf hg hfg m n hmn hN a b ha hb => exact .couple f g hf hg hfg m n hmn (by omega) a b ha hb
  refine clean_left h q'.2 (P := fun t => OpenMeanUpTo K.fields (2 * p) t ∨ OpenUpTo K.fields (p + 2) t) ?_ t
    (by rw [← e]; exact (mem_exAtoms _ _).2 ⟨ha, hw⟩)
  rcases List.mem_append.1 hq' with hq' | hq'
  · rcases List.mem_append.1 hq' with hq' | hq'
    · rcases List.mem_append.1 hq' with hq' | hq'
      · exact fun t ht => (mean_upTo h hp hord r hr ms hms q' hq' t ht).imp id (Or.imp id .inl)
      · exact fun t ht => (variance_upTo h hp hord r hr vs hvs q' hq' t ht).imp id (Or.imp id (fun h => .inr (up t h)))
    · exact fun t ht => (cross_upTo h hp hord r hr cs hcs q' hq' t ht).imp id (Or.imp id (fun h => .inr (up t h)))
  · exact fun t ht => (metric_upTo h hp hord r hr gs hgs q' hq' t ht).imp id (Or.imp id .inr)

theorem upTo_single {f : Field} {N : ℕ} (hN : N ≤ 3) {t : Ex} (h : OpenUpTo [f] N t) : False := by
  cases h with
  | left f hf n hn hN d hd => omega
  | right f hf n hn hN d hd => omega
  | couple f g hf hg hfg => exact hfg ((List.mem_singleton.1 hf).trans (List.mem_singleton.1 hg).symm)

/-- **C97** With one field the equation of the variance is closed for dynamics of order three or less, and the equations of the metric
are closed for dynamics of order one or less: the only expectation in them is the mean of the field. -/
theorem C97_closed (h : EvolutionSystem K coords) (hp : ParameterFree K) (hr : ∃ r, K.reynolds = .ok r) (f : Field) (hf : K.fields = [f])
    (p : ℕ) (hord : DynamicsOrder K p) :
    (p ≤ 3 → ∃ l, K.varianceSystem = .ok l ∧ ∀ q ∈ l, ∀ a, Within (.ex a) q.2 → a = f.random) ∧
    (p ≤ 1 → ∃ l, K.metricSystem = .ok l ∧ ∀ q ∈ l, ∀ a, Within (.ex a) q.2 → a = f.random) := by
  obtain ⟨-, ⟨vs, hvs, h1⟩, -, gs, hgs, h2⟩ := C97_order h hp hr p hord
  rw [hf] at h1 h2
  constructor
  · refine fun hp => ⟨vs, hvs, fun q hq a ha => ?_⟩
    rcases h1 q hq a ha with ⟨g, hg, e⟩ | h'
    · rw [e, List.mem_singleton.1 hg]
    · exact (upTo_single hp h').elim
  · refine fun hp => ⟨gs, hgs, fun q hq a ha => ?_⟩
    rcases h2 q hq a ha with ⟨g, hg, e⟩ | h'
    · rw [e, List.mem_singleton.1 hg]
    · exact (upTo_single (by omega) h').elim

/-! ## Cases -/

theorem heat_order : DynamicsOrder heat 2 := by
  intro q hq
  rw [heat, List.mem_singleton] at hq
  subst hq
  simp only [OrderLe]
  exact ⟨le_refl _, trivial⟩

/-- The heat equation has the order two; the open term has four derivations, as many as C97 allows in the equation of the metric. -/
example : OpenUpTo heat.fields (2 + 2) fourth ∧ (∃ l, heat.unclosedTerms [] = .ok l ∧ fourth ∈ l) ∧
    ∃ l, heat.varianceSystem = .ok l ∧ l ≠ [] ∧ ∀ q ∈ l, ∀ a, Within (.ex a) q.2 → a = fieldU.random := by
  refine ⟨.left fieldU (by simp [heat]) 4 (le_refl _) (le_refl _) _ (.some [("x".toList, 4)] (by simp) (by decide +kernel)),
    ⟨_, heat_unclosed.1, by simp⟩, ?_⟩
  obtain ⟨l, h1, h2⟩ := (C97_closed heat_evolution heat_parameter heat_reynolds fieldU rfl 2 heat_order).1 (by norm_num)
  refine ⟨l, h1, ?_, h2⟩
  rintro rfl
  have := (heat_evolution.variance_evolution _ heat_reynolds.choose_spec [] h1).1
  simp [heat] at this

theorem carried_order : DynamicsOrder carried 1 := by
  intro q hq
  simp only [carried, List.mem_cons, List.not_mem_nil, or_false] at hq
  rcases hq with rfl | rfl
  · exact ⟨trivial, le_refl _, trivial⟩
  · trivial

/-- With two fields the bounds allow the terms of `carried`. -/
example : ∀ t ∈ carriedTerms, OpenMeanUpTo carried.fields (2 * 1) t ∨ OpenUpTo carried.fields (1 + 2) t := by
  have h1 : carried.unclosedTerms [] = .ok carriedTerms := eq_ok _ _ (by decide +kernel)
  obtain ⟨l, h2, h3⟩ := C97_unclosed carried_evolution carried_parameter (ok_of_isSome _ (by decide +kernel)) 1 carried_order
  rw [h1] at h2
  cases h2
  exact h3

/-- The bound for the means is attained: the order of the dynamics `Derivative(u, x)**2` is one, the equation of the mean keeps
`E[Derivative(eps, x)**2]`. -/
example : DynamicsOrder slope 1 ∧ slope.unclosedTerms [] = .ok [slopeSquare] ∧ OpenMeanUpTo slope.fields (2 * 1) slopeSquare ∧
    ¬ OpenMeanUpTo slope.fields (2 * 1 - 1) slopeSquare := by
  refine ⟨?_, C82_counterexample_mean.1, ?_, ?_⟩
  · intro q hq
    rw [slope, List.mem_singleton] at hq
    subst hq
    exact ⟨le_refl _, trivial⟩
  · exact .square fieldU (by simp [slope]) 1 (le_refl _) (by norm_num) _ (.some [("x".toList, 1)] (by simp) (by decide +kernel))
  · intro h
    cases h with
    | other t h => cases h
    | square f hf n hn hN d hd => omega

end Sympkf.PKF
