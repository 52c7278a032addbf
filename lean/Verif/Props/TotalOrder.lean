import Verif.Lemmas.TotalOrder
import Verif.Props.OrderBound

/-!
# C98: the number of derivations in the equations of the means, and dynamics that need no closure
-/

set_option autoImplicit false

namespace Sympkf.PKF

open Text Rand Spec Pkf

variable {K : Pkf} {coords : List Str}

/-- Each term of the dynamics contains at most `k` derivations. -/
def DynamicsTotal (K : Pkf) (k : ℕ) : Prop := ∀ q ∈ K.equations, TotalLe k q.2

theorem orderLe_up {p p' : ℕ} (e : Ex) (h : OrderLe p e) (hp : p ≤ p') : OrderLe p' e := by
  induction e generalizing p p' with
  | func g a ih => exact ih h hp
  | add a b iha ihb => exact ⟨iha h.1 hp, ihb h.2 hp⟩
  | mul a b iha ihb => exact ⟨iha h.1 hp, ihb h.2 hp⟩
  | pow a q ih => exact ih h hp
  | deriv a vars ih => exact ⟨le_trans h.1 hp, ih h.2 (by omega)⟩
  | integ a x ih => exact ih h hp
  | ex a ih => exact ih h hp
  | _ => trivial

theorem order_of_total {k : ℕ} (e : Ex) (h : TotalLe k e) : OrderLe k e := by
  induction e generalizing k with
  | func g a ih => exact orderLe_up a (ih h) (by omega)
  | add a b iha ihb => exact ⟨iha h.1, ihb h.2⟩
  | mul a b iha ihb =>
    obtain ⟨i, j, hij, ha, hb⟩ := h
    exact ⟨orderLe_up a (iha ha) (by omega), orderLe_up b (ihb hb) (by omega)⟩
  | pow a q ih =>
    rcases h with h | ⟨n, m, -, h1, h2, h3⟩
    · exact orderLe_up a (ih h) (by omega)
    · exact orderLe_up a (ih h3) (by nlinarith)
  | deriv a vars ih => exact ⟨h.1, ih h.2⟩
  | integ a x ih => exact orderLe_up a (ih h) (by omega)
  | ex a ih => exact orderLe_up a (ih h) (by omega)
  | _ => trivial

theorem mean_total (h : EvolutionSystem K coords) (hp : ParameterFree K) {k : ℕ} (htot : DynamicsTotal K k) (r : List (Eqn × Eqn))
    (hr : K.reynolds = .ok r) (ms : List Eqn) (hms : K.expectationSystem = .ok ms) (q : Eqn) (hq : q ∈ ms) :
    ∀ t ∈ exAtoms q.2, Stable t ∧ (Mean K t ∨ OpenMeanUpTo K.fields k t) := by
  intro t ht
  obtain ⟨hs, h1⟩ := mean_left h hp r hr ms hms q hq t ht
  exact ⟨hs, h1.imp id (fun h1 => openMean_upTo h1
    (Graded.po_exAtoms _ 0 (Graded.po_meanTotal h hp.occurs htot r hr ms hms q hq) t ht))⟩

/-- **C98** When the terms of the dynamics contain at most `k` derivations each, the open expectations in the equations of the means have at
most `k` derivations. -/
theorem C98_mean (h : EvolutionSystem K coords) (hp : ParameterFree K) (hr : ∃ r, K.reynolds = .ok r) (k : ℕ) (htot : DynamicsTotal K k) :
    ∃ l, K.expectationSystem = .ok l ∧
      ∀ q ∈ l, ∀ a, Within (.ex a) q.2 → (∃ f ∈ K.fields, a = f.random) ∨ OpenMeanUpTo K.fields k (.ex a) := by
  obtain ⟨r, hr⟩ := hr
  obtain ⟨ms, hms⟩ := h.det.expectation_ok r hr
  exact ⟨ms, hms, fun q hq => within_upTo (mean_total h hp htot r hr ms hms q hq)⟩

theorem meanUpTo_single {f : Field} {t : Ex} (h : OpenMeanUpTo [f] 1 t) : False := by
  cases h with
  | other _ h => exact upTo_single (by norm_num) h
  | square f hf n hn hN d hd => omega
  | product f hf m n hm hn hN a b ha hb => omega

/-- **C98** With one field, when the terms of the dynamics contain at most one derivation each, the package closes the equations alone: the
only expectation in the equations is the mean of the field, `unclosed_terms` is empty, and no expectation is left in `in_metric`. -/
theorem C98_closed (h : EvolutionSystem K coords) (hp : ParameterFree K) (hr : ∃ r, K.reynolds = .ok r) (f : Field) (hf : K.fields = [f])
    (htot : DynamicsTotal K 1) :
    (∃ l, K.expectationSystem = .ok l ∧ ∀ q ∈ l, ∀ a, Within (.ex a) q.2 → a = f.random) ∧
    (∃ l, K.varianceSystem = .ok l ∧ ∀ q ∈ l, ∀ a, Within (.ex a) q.2 → a = f.random) ∧
    (∃ l, K.metricSystem = .ok l ∧ ∀ q ∈ l, ∀ a, Within (.ex a) q.2 → a = f.random) ∧
    K.unclosedTerms [] = .ok [] ∧ ∃ l, K.inMetric [] = .ok l ∧ ∀ q ∈ l, ∀ a, ¬ Within (.ex a) q.2 := by
  have hord : DynamicsOrder K 1 := fun q hq => order_of_total _ (htot q hq)
  obtain ⟨r, hr⟩ := hr
  obtain ⟨⟨l, hl⟩, -⟩ := h.det.systems_ok r hr []
  obtain ⟨ms, hms⟩ := h.det.expectation_ok r hr
  obtain ⟨vs, hvs, -⟩ := h.det.variance_ok r hr
  obtain ⟨gs, hgs, -⟩ := h.det.metric_ok r hr
  obtain ⟨cs, hcs⟩ := h.det.cross_ok r hr
  have key : ∀ q ∈ ms ++ vs ++ cs.getD [] ++ gs, ∀ t ∈ exAtoms q.2, Stable t ∧ (Mean K t ∨ False) := by
    have up : ∀ t, OpenUpTo K.fields 3 t → False := fun t ht => by rw [hf] at ht; exact upTo_single (le_refl _) ht
    intro q hq t ht
    rcases List.mem_append.1 hq with hq | hq
    · rcases List.mem_append.1 hq with hq | hq
      · rcases List.mem_append.1 hq with hq | hq
        · exact (mean_total h hp htot r hr ms hms q hq t ht).imp id (Or.imp id (fun h => by rw [hf] at h; exact meanUpTo_single h))
        · exact (variance_upTo h hp hord r hr vs hvs q hq t ht).imp id (Or.imp id (fun h => by rw [hf] at h; exact upTo_single (by norm_num) h))
      · exact (cross_upTo h hp hord r hr cs hcs q hq t ht).imp id (Or.imp id (fun h => by rw [hf] at h; exact upTo_single (by norm_num) h))
    · exact (metric_upTo h hp hord r hr gs hgs q hq t ht).imp id (Or.imp id (up t))
  have mean : ∀ q ∈ ms ++ vs ++ cs.getD [] ++ gs, ∀ a, Within (.ex a) q.2 → a = f.random := by
    intro q hq a ha
    rcases (atoms_within (key q hq) a ha).2 with ⟨g, hg, e⟩ | h'
    · rw [hf] at hg
      rw [List.mem_singleton.1 hg] at e
      injection e
    · exact h'.elim
  have none : ∀ q ∈ l, ∀ a, ¬ Within (.ex a) q.2 := by
    intro q hq a ha
    obtain ⟨q', hq', e⟩ := inMetric_mem [] ms vs gs cs hms hvs hcs hgs l hl q hq
    rw [if_pos rfl] at e
    exact clean_left h q'.2 (P := fun _ => False) (key q' hq') (.ex a) (by rw [← e]; exact (mem_exAtoms _ _).2 ⟨⟨a, rfl⟩, ha⟩)
  exact ⟨⟨ms, hms, fun q hq => mean q (by simp [hq])⟩, ⟨vs, hvs, fun q hq => mean q (by simp [hq])⟩,
    ⟨gs, hgs, fun q hq => mean q (by simp [hq])⟩, (C56_closed K [] l hl).2 (fun q hq a ha => (none q hq a ha).elim), l, hl, none⟩

/-! ## Cases -/

/-- A field on a plane. -/
def planar : Field := ⟨"u".toList, ["t".toList, "x".toList, "y".toList]⟩

/-- A conservation law on a plane, `Derivative(u, t) = -Derivative(u**2/2, x) - exp(u)*Derivative(u, y)`. -/
def conservation : Pkf where
  fields := [planar]
  equations := [(Pkf.dt planar.value, .add
    (.mul (.num (-1)) (.deriv (.mul (.num (1/2)) (.pow planar.value 2)) [("x".toList, 1)]))
    (.mul (.num (-1)) (.mul (.func "exp".toList planar.value) (.deriv planar.value [("y".toList, 1)]))))]

theorem conservation_evolution : EvolutionSystem conservation ["t".toList, "x".toList, "y".toList] where
  det := by
    refine ⟨fun _ _ => List.Perm.refl _, fun _ => List.Perm.refl _, by decide +kernel, by decide +kernel, by decide +kernel, by decide +kernel, ?_⟩
    intro q hq
    rw [conservation, List.mem_singleton] at hq
    subst hq
    simp [Deterministic, Pkf.dt, omega, time, Field.value, planar]
  time_mem := by decide +kernel
  evolution := by
    refine ⟨rfl, fun q hq => ?_⟩
    rw [conservation, List.mem_singleton] at hq
    subst hq
    simp [TimeFree, time, Field.value]
  codes := by decide +kernel
  clash := by decide +kernel

theorem conservation_parameter : ParameterFree conservation := by
  intro q hq
  rw [conservation, List.mem_singleton] at hq
  subst hq
  have hu : Without "\\varepsilon".toList planar.value := by
    show "\\varepsilon".toList ∉ planar.coordinates
    decide +kernel
  exact ⟨⟨trivial, ⟨trivial, hu⟩, by decide +kernel⟩, trivial, hu, hu, by decide +kernel⟩

theorem conservation_reynolds : ∃ r, conservation.reynolds = .ok r := ok_of_isSome _ (by decide +kernel)

theorem conservation_total : DynamicsTotal conservation 1 := by
  intro q hq
  rw [conservation, List.mem_singleton] at hq
  subst hq
  refine ⟨⟨0, 1, le_refl _, trivial, le_refl _, 0, 0, le_refl _, trivial, .inl trivial⟩, 0, 1, le_refl _, trivial, 0, 1, le_refl _, trivial,
    le_refl _, trivial⟩

/-- The conservation law is closed. -/
example : conservation.unclosedTerms [] = .ok [] ∧ ∃ l, conservation.inMetric [] = .ok l ∧ ∀ q ∈ l, ∀ a, ¬ Within (.ex a) q.2 :=
  (C98_closed conservation_evolution conservation_parameter conservation_reynolds planar rfl conservation_total).2.2.2

/-- `Derivative(u, x)**2` contains two derivations: the equation of the mean is not closed, and the bound of C98 is attained. -/
example : DynamicsTotal slope 2 ∧ ¬ DynamicsTotal slope 1 ∧ DynamicsOrder slope 1 ∧ slope.unclosedTerms [] = .ok [slopeSquare] ∧
    OpenMeanUpTo slope.fields 2 slopeSquare := by
  refine ⟨?_, ?_, ?_, C82_counterexample_mean.1, ?_⟩
  · intro q hq
    rw [slope, List.mem_singleton] at hq
    subst hq
    exact .inr ⟨2, 1, by norm_num, by norm_num, by norm_num, le_refl _, trivial⟩
  · intro h
    rcases h _ (by rw [slope, List.mem_singleton]) with h | ⟨n, m, e, -, h2, h3, -⟩
    · have := h.1
      simp at this
    · have e' : n = 2 := by exact_mod_cast e.symm
      have h3' : 1 ≤ m := by simpa using h3
      subst e'
      omega
  · intro q hq
    rw [slope, List.mem_singleton] at hq
    subst hq
    exact ⟨le_refl _, trivial⟩
  · exact .square fieldU (by simp [slope]) 1 (le_refl _) (by norm_num) _ (.some [("x".toList, 1)] (by simp) (by decide +kernel))

/-- `Derivative(v, t) = 0` and `Derivative(u, t) = v*Derivative(u, x)` contain one derivation at most, but there are two fields: the mean of `u`
depends on `E[eps_v*Derivative(eps_u, x)]`. -/
example : DynamicsTotal carried 1 ∧ carried.unclosedTerms [] ≠ .ok [] := by
  refine ⟨?_, ?_⟩
  · intro q hq
    simp only [carried, List.mem_cons, List.not_mem_nil, or_false] at hq
    rcases hq with rfl | rfl
    · exact ⟨0, 1, le_refl _, trivial, le_refl _, trivial⟩
    · trivial
  · have h1 : carried.unclosedTerms [] = .ok carriedTerms := eq_ok _ _ (by decide +kernel)
    rw [h1]
    intro h
    cases h

end Sympkf.PKF
