import Verif.Lemmas.Std
import Verif.Props.Evolution
import Verif.Props.PkfSystems

/-!
# C75: the equations of the standard deviations
-/

set_option autoImplicit false

namespace Sympkf.PKF

open Text Rand Spec Pkf Smooth

variable {K : Pkf} {coords : List Str}

/-- **C75** `std_system` of a deterministic system of evolution equations is computed, whatever the order of the sets of derivatives:
its equations are the trends of the standard deviations, in the order of the fields, without trends on the right-hand side. -/
theorem C75_std_system (h : EvolutionSystem K coords) (hr : ∃ r, K.reynolds = .ok r) (shuffle : List Ex → List Ex)
    (hs : ∀ l, (shuffle l).Perm l) :
    ∃ l, K.stdSystem shuffle = .ok l ∧ EvolutionForm (K.fields.map Field.std) l := by
  obtain ⟨r, hr⟩ := hr
  obtain ⟨vs, -, hv, e⟩ := h.std_system r hr shuffle hs
  refine ⟨_, e, ?_, ?_⟩
  · have hl : K.fields.length = vs.length := by
      have := congrArg List.length hv.1
      simpa using this.symm
    rw [List.map_map, show (Prod.fst ∘ fun p : Field × Eqn => (dt p.1.std, eval (EvolutionSystem.stdRhs p.1 (K.subs K.subsVariance p.2.2)))) =
        (fun f : Field => dt f.std) ∘ Prod.fst from rfl, ← List.map_map, List.map_fst_zip hl.le, List.map_map]
    rfl
  · intro q hq
    obtain ⟨p, hp, rfl⟩ := List.mem_map.1 hq
    have hq : p.2 ∈ vs := (List.of_mem_zip hp).2
    refine EvolutionSystem.timeFree_eval _ ⟨⟨trivial, ⟨trivial, trivial, trivial⟩, trivial, h.timeFree_subs _ (fun kv hkv => ?_) _ (hv.2 _ hq)⟩,
      ⟨trivial, trivial, trivial⟩, trivial⟩
    obtain ⟨g, -, rfl⟩ := EvolutionSystem.subsVariance_mem kv hkv
    trivial

variable {R : Type} [CommRing R] [Algebra ℚ R] {S : Interp R} {A : Subalgebra ℚ R} {P : Set R} {C : Set Str}

/-- **C75** In every differential ring in which the squares of the standard deviations are the variances, each equation of `std_system`
is equivalent to the equation of the variance of the same field: `2 std rhs` is the right-hand side of the variance. -/
theorem C75_equivalent (h : EvolutionSystem K coords) (hr : ∃ r, K.reynolds = .ok r) (shuffle : List Ex → List Ex)
    (hs : ∀ l, (shuffle l).Perm l) (hS : Stochastic S A) (hC : Calculus S P C)
    (hsq : ∀ f ∈ K.fields, den S f.std ^ 2 = den S f.variance) (hpos : ∀ f ∈ K.fields, algebraMap ℚ R 2 * den S f.std ∈ P)
    (hreg : ∀ vs, K.varianceSystem = .ok vs → ∀ q ∈ vs, Regular S P C q.2) :
    ∃ vs l, K.varianceSystem = .ok vs ∧ K.stdSystem shuffle = .ok l ∧
      List.Forall₂ (fun fv q => algebraMap ℚ R 2 * den S fv.1.std * den S q.2 = den S fv.2.2 ∧
        (den S q.1 = den S q.2 ↔ den S fv.2.1 = den S fv.2.2)) (K.fields.zip vs) l := by
  obtain ⟨r, hr⟩ := hr
  obtain ⟨vs, e1, hv, e2⟩ := h.std_system r hr shuffle hs
  refine ⟨vs, _, e1, e2, ?_⟩
  rw [List.forall₂_map_right_iff, List.forall₂_same]
  rintro ⟨f, q⟩ hfq
  obtain ⟨hf, hq⟩ := List.of_mem_zip hfq
  have ho : ∀ g ∈ K.fields, omega ∉ g.coordinates := fun g hg => by rw [h.det.same g hg]; exact h.det.noise
  have two : isNat 2 = true := by decide +kernel
  -- the substitution of the variances
  have hsub := substAll_spec hS hC (K.arrange K.subsVariance) (fun kv hkv => by
    obtain ⟨g, hg, rfl⟩ := EvolutionSystem.subsVariance_mem kv ((h.det.arrange _).mem_iff.1 hkv)
    refine ⟨fun hh => absurd hh (ho g hg), ⟨fun hh => absurd hh (ho g hg), .inl two⟩, ?_⟩
    show den S g.variance = S.pw (den S g.std) 2
    rw [show (2 : ℚ) = ((2 : ℕ) : ℚ) by norm_num, hS.pw_nat, hsq g hg]) q.2 (hreg vs e1 q hq)
  -- the solution
  have hbase : den S (.add (.mul (.num 2) (.mul f.std (.num 1))) (.num 0)) = algebraMap ℚ R 2 * den S f.std := by
    simp [den]
  have hev := eval_spec hS hC (EvolutionSystem.stdRhs f (K.subs K.subsVariance q.2)) (by
    refine ⟨⟨trivial, ⟨trivial, ?_, trivial⟩, trivial, hsub.2⟩, ⟨⟨trivial, ?_, trivial⟩, trivial⟩, .inr ?_⟩
    · exact fun hh => absurd hh (ho f hf)
    · exact fun hh => absurd hh (ho f hf)
    · rw [hbase]; exact hpos f hf)
  have hinv : algebraMap ℚ R 2 * den S f.std * S.pw (algebraMap ℚ R 2 * den S f.std) (-1) = 1 := by
    have h1 := hC.pw_add _ (hpos f hf) 1 (-1)
    rw [show (1 : ℚ) + -1 = ((0 : ℕ) : ℚ) by norm_num, hS.pw_nat, pow_zero, show (1 : ℚ) = ((1 : ℕ) : ℚ) by norm_num, hS.pw_nat, pow_one] at h1
    exact_mod_cast h1.symm
  have hrhs : den S (eval (EvolutionSystem.stdRhs f (K.subs K.subsVariance q.2))) =
      den S q.2 * S.pw (algebraMap ℚ R 2 * den S f.std) (-1) := by
    rw [hev.1, ← hsub.1]
    show algebraMap ℚ R (-1) * (algebraMap ℚ R 2 * (den S f.std * algebraMap ℚ R 0) + algebraMap ℚ R (-1) * den S (K.subs K.subsVariance q.2)) *
      S.pw (den S (.add (.mul (.num 2) (.mul f.std (.num 1))) (.num 0))) (-1) = _
    rw [hbase, map_zero, map_neg, map_one]
    have : den S (K.subs K.subsVariance q.2) = den S (substAll (K.arrange K.subsVariance) q.2) := rfl
    rw [this]
    ring
  have hlhs : den S q.1 = algebraMap ℚ R 2 * den S f.std * den S (dt f.std) := by
    have hq1 : q.1 = dt f.variance := by
      obtain ⟨i, hi, e⟩ := List.getElem_of_mem hfq
      rw [List.getElem_zip] at e
      obtain ⟨e3, e4⟩ := Prod.mk.inj e
      have hl := congrArg (fun l => l[i]?) hv.1
      simp only [List.getElem?_map] at hl
      rw [List.length_zip] at hi
      rw [List.getElem?_eq_getElem (by omega), List.getElem?_eq_getElem (by omega)] at hl
      simp only [Option.map_some, Option.some.injEq, e3, e4] at hl
      exact hl
    rw [hq1]
    show S.D time (den S f.variance) = algebraMap ℚ R 2 * den S f.std * S.D time (den S f.std)
    rw [← hsq f hf, pow_two, hS.D_mul, map_ofNat]
    ring
  have key : algebraMap ℚ R 2 * den S f.std * den S (eval (EvolutionSystem.stdRhs f (K.subs K.subsVariance q.2))) = den S q.2 := by
    rw [hrhs]
    linear_combination den S q.2 * hinv
  refine ⟨key, ?_⟩
  show den S (dt f.std) = den S (eval (EvolutionSystem.stdRhs f (K.subs K.subsVariance q.2))) ↔ den S q.1 = den S q.2
  rw [hlhs]
  constructor
  · intro e
    rw [e]
    exact key
  · intro e
    have h1 : S.pw (algebraMap ℚ R 2 * den S f.std) (-1) * (algebraMap ℚ R 2 * den S f.std * den S (dt f.std)) =
        S.pw (algebraMap ℚ R 2 * den S f.std) (-1) * den S q.2 := by rw [e]
    rw [hrhs]
    linear_combination h1 - den S (dt f.std) * hinv

/-- **C75** For a random state that follows the tangent-linear dynamics (hypotheses of C48) the equations of the standard deviations
are true. -/
theorem C75_true (h : Setting S A P C K coords) (hd : Dynamics S P C K) (ht : Tangent S K) (hev : EvolutionSystem K coords)
    (hsq : ∀ f ∈ K.fields, den S f.std ^ 2 = den S f.variance) (hpos : ∀ f ∈ K.fields, algebraMap ℚ R 2 * den S f.std ∈ P)
    (shuffle : List Ex → List Ex) (hs : ∀ l, (shuffle l).Perm l) :
    ∃ l, K.stdSystem shuffle = .ok l ∧ List.Forall₂ (fun f q => q.1 = dt f.std ∧ den S q.1 = den S q.2) K.fields l := by
  obtain ⟨r, hr, -⟩ := h.reynolds_spec hd
  obtain ⟨vs, l, e1, e2, h2⟩ := C75_equivalent hev ⟨r, hr⟩ shuffle hs h.stoch h.calculus hsq hpos (fun vs hvs q hq => by
    obtain ⟨f, -, -, -, hv⟩ := forall₂_right (h.variance_spec hd ht vs hvs) q hq
    exact hv.2.1)
  obtain ⟨l', e3, h3⟩ := C75_std_system hev ⟨r, hr⟩ shuffle hs
  rw [e2] at e3
  cases e3
  refine ⟨l, e2, ?_⟩
  have hv := h.variance_spec hd ht vs e1
  have h4 : List.Forall₂ (fun f q => q.1 = dt f.std) K.fields l := by
    have := h3.1
    rw [List.map_map] at this
    rw [← List.forall₂_eq_eq_eq] at this
    rw [List.forall₂_map_left_iff, List.forall₂_map_right_iff] at this
    exact this.flip.imp (fun a b h => h)
  have h5 : List.Forall₂ (fun f q => den S q.1 = den S q.2) K.fields l := by
    have hz : List.Forall₂ (fun (f : Field) (fv : Field × Eqn) => fv.1 = f ∧ den S fv.2.1 = den S fv.2.2) K.fields (K.fields.zip vs) := by
      clear h2 h3 h4 e1 e2 hr
      revert hv
      generalize K.fields = fs
      intro hv
      induction hv with
      | nil => exact .nil
      | @cons f q fs vs h1 _ ih => exact .cons ⟨rfl, h1.2.2.2.2⟩ ih
    have : ∀ {fs : List Field} {zs : List (Field × Eqn)} {l : List Eqn},
        List.Forall₂ (fun (f : Field) (fv : Field × Eqn) => fv.1 = f ∧ den S fv.2.1 = den S fv.2.2) fs zs →
        List.Forall₂ (fun fv q => algebraMap ℚ R 2 * den S fv.1.std * den S q.2 = den S fv.2.2 ∧
          (den S q.1 = den S q.2 ↔ den S fv.2.1 = den S fv.2.2)) zs l →
        List.Forall₂ (fun f q => den S q.1 = den S q.2) fs l := by
      intro fs zs l h1
      induction h1 generalizing l with
      | nil => intro h2; cases h2; exact .nil
      | cons a _ ih =>
        intro h2
        cases h2 with
        | cons b h2 => exact .cons (b.2.2 a.2) (ih h2)
    exact this hz h2
  clear h2 h3 e1 e2 hv
  revert h4 h5
  generalize K.fields = fs
  intro h4 h5
  induction h4 with
  | nil => exact .nil
  | cons a _ ih =>
    cases h5 with
    | cons b h5 => exact .cons ⟨a, b⟩ (ih h5)

/-! ## The two waves -/

theorem burgers2_evolution : EvolutionSystem burgers2 ["t".toList, "x".toList] where
  det := burgers2_setting.detSystem burgers2_dynamics
  time_mem := by decide +kernel
  evolution := by
    refine ⟨rfl, fun q hq => ?_⟩
    simp only [burgers2, List.map_cons, List.map_nil, List.mem_cons, List.not_mem_nil, or_false] at hq
    rcases hq with rfl | rfl <;> simp [TimeFree, time, Field.value]
  codes := by decide +kernel
  clash := by decide +kernel

theorem travel_std (f : Field) (hf : f ∈ burgers2.fields) :
    den travel f.std ^ 2 = den travel f.variance ∧ algebraMap ℚ _ 2 * den travel f.std ∈ posSet := by
  have e : ∀ b : F ℝ, (∀ p, 0 < (b : ℝ → ℝ) p) → power b (1 / 2) ^ 2 = b := by
    intro b hb
    apply Smooth.ext; intro p
    have : ((power b (1 / 2) ^ 2 : F ℝ) : ℝ → ℝ) p = ((power b (1 / 2) : F ℝ) : ℝ → ℝ) p ^ 2 := rfl
    rw [this, power_pos b hb, ← Real.rpow_natCast, ← Real.rpow_mul (hb p).le]
    norm_num
  constructor
  · simp only [burgers2, List.mem_cons, List.not_mem_nil, or_false] at hf
    rcases hf with rfl | rfl
    · show travelFn "{\\sigma_{u}}".toList _ ^ 2 = travelFn "{V_{u}}".toList ["t".toList, "x".toList]
      rw [travelFn_variance _ (by decide +kernel), if_pos rfl]
      refine (congrArg (· ^ 2) travelFn_std.1).trans ?_
      funext ω
      show wave (power expSin (1 / 2)) ^ 2 = wave expSin
      rw [← wave_pow, e _ expSin_pos]
    · show travelFn "{\\sigma_{v}}".toList _ ^ 2 = travelFn "{V_{v}}".toList ["t".toList, "x".toList]
      rw [travelFn_variance _ (by decide +kernel), if_neg (by decide +kernel)]
      refine (congrArg (· ^ 2) travelFn_std.2).trans ?_
      funext ω
      show wave 1 ^ 2 = wave 1
      rw [wave_one, one_pow]
  · have hp : den travel f.std ∈ posSet := travel_calculus.positive _ _ (by simp [positiveFn])
    intro ω p
    show 0 < ((2 : ℚ) : ℝ) * (den travel f.std ω : ℝ × ℝ → ℝ) p
    have := hp ω p
    push_cast
    linarith

example : ∃ l, burgers2.stdSystem List.reverse = .ok l ∧ l.length = 2 ∧ ∀ q ∈ l, den travel q.1 = den travel q.2 := by
  obtain ⟨l, h1, h2⟩ := C75_true burgers2_setting burgers2_dynamics burgers2_tangent burgers2_evolution
    (fun f hf => (travel_std f hf).1) (fun f hf => (travel_std f hf).2) List.reverse List.reverse_perm
  exact ⟨l, h1, h2.length_eq.symm, fun q hq => let ⟨_, _, h⟩ := forall₂_right h2 q hq; h.2⟩

end Sympkf.PKF
