import Verif.Props.PkfSystems

/-!
# C108: for linear dynamics the parametric Kalman filter is exact
-/

set_option autoImplicit false

namespace Sympkf.PKF

open Text Rand Spec

variable {R : Type} [CommRing R] [Algebra ℚ R] {S : Interp R} {A : Subalgebra ℚ R} {P : Set R} {C : Set Str}
  {K : Pkf} {coords : List Str}

/-- The fields take the values of their means. -/
def averaged (S : Interp R) (fields : List Field) : Interp R :=
  { S with fn := fun u args => if (⟨u, args⟩ : Field) ∈ fields then S.E (den S (Field.random ⟨u, args⟩)) else S.fn u args }

/-- The right-hand sides are polynomials in the fields and their derivatives, of degree at most `n`, with any coefficients. -/
def DegreeAtMost (S : Interp R) (P : Set R) (C : Set Str) (K : Pkf) (n : ℕ) : Prop :=
  ∀ q ∈ K.equations, Polynomials S P C K.fields q.2 ∧ fieldDegree K.fields q.2 ≤ n

theorem quadratic_part (h : Setting S A P C K coords) (h1 : DegreeAtMost S P C K 1) (q : Eqn) (hq : q ∈ K.equations) :
    (den (perturbed S K.fields) q.2).c2 = 0 := by
  obtain ⟨hp, hdeg⟩ := h1 q hq
  rw [hp.jet h.stoch]
  exact Polynomial.coeff_eq_zero_of_natDegree_lt (by have := hp.natDegree h.stoch; omega)

/-- The trend of the error of a random solution of quadratic dynamics: the tangent-linear dynamics, and the quadratic part without its
mean. -/
theorem error_trend (h : Setting S A P C K coords) (hd : Dynamics S P C K) (hr : RandomSolution S K) (h2 : DegreeAtMost S P C K 2)
    (fq : Field × Eqn) (hm : fq ∈ K.fields.zip K.equations) :
    S.D time (den S fq.1.error) = (den (perturbed S K.fields) fq.2.2).c1 +
      ((den (perturbed S K.fields) fq.2.2).c2 - S.E (den (perturbed S K.fields) fq.2.2).c2) := by
  obtain ⟨hp, hdeg⟩ := h2 _ (List.of_mem_zip hm).2
  obtain ⟨s1, s2⟩ := h.split_rhs hd fq hm
  have e1 := hr.trend fq hm
  rw [hp.exact h.stoch hr.deviation hdeg] at e1
  have e2 := MeanTrend.of_solution h hr h2 fq hm
  have e3 := congrArg (S.D time) (hr.deviation fq.1 (List.of_mem_zip hm).1)
  rw [h.stoch.D_add, e1, e2, Jet.second, h.stoch.E_add, h.stoch.E_add, s2, h.stoch.E_const _ s1] at e3
  linear_combination -e3

omit [Algebra ℚ R] in
theorem jet_pow_c0 (a : Jet R) (n : ℕ) : (a ^ n).c0 = a.c0 ^ n := by
  induction n with
  | zero => rw [pow_zero, pow_zero]; rfl
  | succ n ih => rw [pow_succ, pow_succ, Jet.mul_c0, ih]

/-- The expansion starts with the value at the mean. -/
theorem perturbed_c0 (h : Stochastic S A) (fields : List Field) (e : Ex) : (den (perturbed S fields) e).c0 = den (averaged S fields) e := by
  induction e with
  | num q => rfl
  | sym s => rfl
  | fn u args =>
    show (if (⟨u, args⟩ : Field) ∈ fields then _ else _ : Jet R).c0 = if (⟨u, args⟩ : Field) ∈ fields then _ else _
    split <;> rfl
  | func g a ih =>
    show (Jet.func S g _).c0 = S.func g _
    rw [← ih]
    unfold Jet.func
    split <;> rfl
  | add a b iha ihb => show _ + _ = _ + _; rw [iha, ihb]
  | mul a b iha ihb => show _ * _ = _ * _; rw [iha, ihb]
  | pow a q ih =>
    show (Jet.pw S _ q).c0 = S.pw _ q
    rw [← ih]
    unfold Jet.pw
    split
    · next hq =>
      rw [jet_pow_c0, ← h.pw_nat]
      congr 1
      have : ((q.num.toNat : ℤ) : ℚ) = q := by rw [Int.toNat_of_nonneg hq.2]; exact Rat.coe_int_num_of_den_eq_one hq.1
      exact_mod_cast this
    · rfl
  | deriv a vars ih =>
    have key : ∀ (vars : List (Str × ℕ)) (x : Jet R), (derivs (perturbed S fields) vars x).c0 = derivs (averaged S fields) vars x.c0 := by
      intro vars
      induction vars with
      | nil => intro x; rfl
      | cons v vars ihv =>
        intro x
        have hn : ∀ n : ℕ, (((perturbed S fields).D v.1)^[n] x).c0 = ((averaged S fields).D v.1)^[n] x.c0 := by
          intro n
          induction n with
          | zero => rfl
          | succ n ihn => rw [Function.iterate_succ_apply', Function.iterate_succ_apply', ← ihn]; rfl
        exact (ihv _).trans (by rw [hn]; rfl)
    exact (key vars _).trans (by rw [ih]; rfl)
  | integ a x ih => exact congrArg (S.I x) ih
  | ex a ih => exact congrArg S.E ih
  | other b => rfl

/-- **C108** A random solution of linear dynamics satisfies the hypotheses of the parametric Kalman filter, without an approximation: the errors
follow the tangent-linear dynamics and the means follow the dynamics themselves. -/
theorem C108_linear (h : Setting S A P C K coords) (hd : Dynamics S P C K) (hr : RandomSolution S K) (h1 : DegreeAtMost S P C K 1) :
    Tangent S K ∧ MeanTrend S K ∧
    ∀ fq ∈ K.fields.zip K.equations, S.D time (S.E (den S fq.1.random)) = den (averaged S K.fields) fq.2.2 := by
  have h2 : DegreeAtMost S P C K 2 := fun q hq => ⟨(h1 q hq).1, (h1 q hq).2.trans (by decide)⟩
  refine ⟨fun fq hm => ?_, .of_solution h hr h2, fun fq hm => ?_⟩
  · have e0 : S.E (0 : R) = 0 := h.stoch.E_const 0 A.zero_mem
    rw [error_trend h hd hr h2 fq hm, quadratic_part h h1 _ (List.of_mem_zip hm).2, e0, sub_zero, add_zero]
  · obtain ⟨s1, s2⟩ := h.split_rhs hd fq hm
    rw [MeanTrend.of_solution h hr h2 fq hm, Jet.second, quadratic_part h h1 _ (List.of_mem_zip hm).2, add_zero, h.stoch.E_add, s2,
      h.stoch.E_const _ s1, add_zero, perturbed_c0 h.stoch]

/-- **C108** Hence all equations that are generated for linear dynamics are true of the statistics of every random solution, when the
closure is true. -/
theorem C108_exact (h : Setting S A P C K coords) (hd : Dynamics S P C K) (hr : RandomSolution S K) (h1 : DegreeAtMost S P C K 1)
    (hm : Means S K) (user : Dict Ex Ex) (hu : TrueClosure S P C user) :
    (∃ l, K.inMetric user = .ok l ∧ Evolution S (K.fields.map (fun f => S.E (den S f.random)) ++
      K.fields.map (fun f => S.E (den S f.error ^ 2)) ++ crossList S K.fields ++ components S K.fields Field.metric) l) ∧
    ((∀ f ∈ K.fields, Tensor S P 1 f f.aspect) → ∃ l, K.inAspect user = .ok l ∧ Evolution S (K.fields.map (fun f => S.E (den S f.random)) ++
      K.fields.map (fun f => S.E (den S f.error ^ 2)) ++ crossList S K.fields ++ components S K.fields Field.aspect) l) ∧
    ((∀ f ∈ K.fields, Tensor S P (1 / 2) f f.diffusion) → ∃ l, K.inDiffusion user = .ok l ∧
      Evolution S (K.fields.map (fun f => S.E (den S f.random)) ++ K.fields.map (fun f => S.E (den S f.error ^ 2)) ++
      components S K.fields Field.diffusion) l) := by
  obtain ⟨ht, hmt, -⟩ := C108_linear h hd hr h1
  exact ⟨C53_in_metric_partial h hd ht hmt hm user hu, fun hT => C53_in_aspect_partial h hd ht hmt hm hT user hu,
    fun hT => C53_in_diffusion_partial h hd ht hmt hm hT user hu⟩

/-- **C108** For quadratic dynamics the errors of a random solution follow the tangent-linear dynamics exactly when the quadratic parts
of the trends are not random: linearity is what makes the filter exact. -/
theorem C108_quadratic (h : Setting S A P C K coords) (hd : Dynamics S P C K) (hr : RandomSolution S K) (h2 : DegreeAtMost S P C K 2) :
    Tangent S K ↔ ∀ fq ∈ K.fields.zip K.equations, (den (perturbed S K.fields) fq.2.2).c2 ∈ A := by
  constructor
  · intro ht fq hm
    have e := ht fq hm
    rw [error_trend h hd hr h2 fq hm] at e
    have : (den (perturbed S K.fields) fq.2.2).c2 = S.E (den (perturbed S K.fields) fq.2.2).c2 := by linear_combination e
    rw [this]
    exact h.stoch.E_det _
  · intro hc fq hm
    rw [error_trend h hd hr h2 fq hm, h.stoch.E_const _ (hc fq hm), sub_self, add_zero]

/-! ## A case -/

theorem transport2_linear : DegreeAtMost travel posSet coordSet transport2 1 := fun q hq =>
  ⟨(transport2_quadratic q hq).1, (by decide +kernel : ∀ q ∈ transport2.equations, fieldDegree transport2.fields q.2 ≤ 1) q hq⟩

/-- Two correlated random waves: the seven equations of in_metric are true. -/
example : ∃ l, transport2.inMetric [] = .ok l ∧ l.length = 7 ∧ ∀ q ∈ l, den travel q.1 = den travel q.2 := by
  obtain ⟨⟨l, h1, h2⟩, -⟩ := C108_exact transport2_setting transport2_dynamics transport2_solution transport2_linear travel_means [] (fun _ h => by cases h)
  exact ⟨l, h1, (C53_count_metric _ l h1).trans (by decide +kernel), fun q hq => let ⟨_, _, h⟩ := forall₂_right h2 q hq; h.2⟩

end Sympkf.PKF
