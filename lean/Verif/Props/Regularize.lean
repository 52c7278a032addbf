import Verif.Model.Regularize
import Verif.Props.FiniteDiff
import Verif.Props.FiniteDiffOrder

/-!
# C73: regularization of staggered finite differences
-/

set_option autoImplicit false

namespace Sympkf.FinDiff

variable {K : Type} [Field K]

/-- The value of a linear combination of displaced functions of one coordinate. -/
def termsValue (h x : K) (f : K → K) (T : List (K × List ℚ)) : K :=
  (T.map (fun t => t.1 * f (x + ((t.2.getD 0 0 : ℚ) : K) * h))).sum

/-- What regularization does to one term. -/
def regTerm (t : K × List ℚ) : K × List ℚ := (t.1 * (scaling t.2 : K), newDisplacement t.2)

theorem newDisplacement_idem (d : List ℚ) : newDisplacement (newDisplacement d) = newDisplacement d := by
  unfold newDisplacement
  rw [List.map_map]
  exact List.map_congr_left (fun c _ => by simp)

theorem scaling_newDisplacement (d : List ℚ) : scaling (newDisplacement d) = 1 := by
  unfold scaling newDisplacement
  rw [List.map_map]
  refine List.prod_eq_one ?_
  intro x hx
  rw [List.mem_map] at hx
  obtain ⟨c, -, rfl⟩ := hx
  simp

theorem regTerm_idem [CharZero K] (t : K × List ℚ) : regTerm (regTerm t) = regTerm t := by
  unfold regTerm
  simp [newDisplacement_idem, scaling_newDisplacement]

/-- Whatever the order of the functions, every term is regularized once. -/
theorem regularize_eq [CharZero K] (atoms : List (List ℚ)) (T : List (K × List ℚ)) (h : ∀ t ∈ T, t.2 ∈ atoms) :
    regularize atoms T = T.map regTerm := by
  have hone : ∀ (atoms : List (List ℚ)) (T : List (K × List ℚ)), regularize atoms T
      = T.map (fun t => atoms.foldl (fun t d => if t.2 = d then (t.1 * (scaling d : K), newDisplacement d) else t) t) := by
    intro atoms
    induction atoms with
    | nil => intro T; simp [regularize]
    | cons d atoms ih =>
      intro T
      have := ih (regularizeStep T d)
      unfold regularize at this ⊢
      rw [List.foldl_cons, this]
      unfold regularizeStep
      rw [List.map_map]
      rfl
  have hstep : ∀ (d : List ℚ) (t : K × List ℚ), (if t.2 = d then (t.1 * (scaling d : K), newDisplacement d) else t)
      = if t.2 = d then regTerm t else t := by
    intro d t
    split
    · rename_i e; rw [← e]; rfl
    · rfl
  have hfix : ∀ (atoms : List (List ℚ)) (t : K × List ℚ), regTerm t = t →
      atoms.foldl (fun t d => if t.2 = d then (t.1 * (scaling d : K), newDisplacement d) else t) t = t := by
    intro atoms t ht
    induction atoms with
    | nil => rfl
    | cons d atoms ih => rw [List.foldl_cons, hstep, ht, ite_self, ih]
  rw [hone]
  refine List.map_congr_left (fun t ht => ?_)
  have hm := h t ht
  clear h ht hone
  induction atoms with
  | nil => simp at hm
  | cons d atoms ih =>
    rw [List.foldl_cons, hstep]
    by_cases hd : t.2 = d
    · rw [if_pos hd, hfix _ _ (regTerm_idem t)]
    · rw [if_neg hd]
      exact ih ((List.mem_cons.1 hm).resolve_left hd)

theorem staggered_eq (o : ℕ) : staggered o = (List.range (o + 1)).map (fun ν => (off o ν : ℚ) / (if o % 2 = 0 then 1 else 2)) := by
  unfold staggered
  split
  · rename_i h
    have : arangeZ (-(o : ℤ) / 2) ((o : ℤ) / 2 + 1) = offsets o := by unfold offsets; rw [if_neg (by omega)]
    rw [this, offsets_eq, List.map_map]
    refine List.map_congr_left (fun ν _ => ?_)
    simp
  · rename_i h
    refine List.map_congr_left (fun ν _ => ?_)
    unfold off
    rw [if_pos (by omega)]
    congr 2; ring

theorem sympyTerms_eq (o : ℕ) (h x : K) (hh : h ≠ 0) [CharZero K] :
    sympyTerms o h x = (List.range (o + 1)).map (fun ν =>
      (unitWeight K o ν / (h / (if o % 2 = 0 then 1 else 2)) ^ o, [(off o ν : ℚ) / (if o % 2 = 0 then 1 else 2)])) := by
  have hg : (if o % 2 = 0 then (1 : K) else 2) ≠ 0 := by split <;> simp
  unfold sympyTerms
  have hpts : (staggered o).map (fun d : ℚ => x + (d : K) * h) = points o (h / (if o % 2 = 0 then 1 else 2)) x := by
    rw [staggered_eq, List.map_map]
    unfold points
    rw [offsets_eq, List.map_map]
    refine List.map_congr_left (fun ν _ => ?_)
    simp only [Function.comp]
    split <;> push_cast <;> ring
  rw [hpts]
  dsimp only
  rw [weights_points o _ x (div_ne_zero hh hg), staggered_eq, List.zipWith_map, List.zipWith_self]

/-- Every odd offset of an odd order is odd. -/
theorem off_odd (o ν : ℕ) (ho : o % 2 = 1) : off o ν % 2 = 1 := by
  unfold off; rw [if_pos ho]; omega

theorem rat_half_num_den (k : ℤ) (hk : k % 2 = 1) : ((k : ℚ) / 2).num = k ∧ ((k : ℚ) / 2).den = 2 := by
  have hc : Nat.Coprime k.natAbs 2 := by
    rw [Nat.coprime_comm, Nat.prime_two.coprime_iff_not_dvd]; omega
  have h1 : ((k : ℚ) / 2) = (k : ℚ) / ((2 : ℕ) : ℤ) := by norm_num
  constructor
  · rw [h1]; exact Rat.num_div_eq_of_coprime (by norm_num) hc
  · rw [h1]
    have := Rat.den_div_eq_of_coprime (a := k) (b := ((2 : ℕ) : ℤ)) (by norm_num) hc
    exact_mod_cast this

/-- The regularized staggered scheme of order `o` is the regular one for even orders and `2^(o-1)` times the regular one
for odd orders. -/
theorem C73_regularize_value [CharZero K] (o : ℕ) (h x : K) (hh : h ≠ 0) (f : K → K) (atoms : List (List ℚ))
    (hatoms : ∀ t ∈ sympyTerms o h x, t.2 ∈ atoms) :
    termsValue h x f (regularize atoms (sympyTerms o h x)) = (if o % 2 = 0 then 1 else 2 ^ (o - 1)) * fd o h f x := by
  rw [regularize_eq atoms _ hatoms, sympyTerms_eq o h x hh, fd_eq_sum o h x hh, List.map_map]
  unfold termsValue
  rw [List.map_map, Finset.mul_sum]
  show _ = ((List.range (o + 1)).map _).sum
  congr 1
  refine List.map_congr_left (fun ν _ => ?_)
  simp only [Function.comp, regTerm, scaling, newDisplacement, List.map_cons, List.map_nil, List.prod_cons, List.prod_nil, mul_one,
    List.getD_cons_zero, smul_eq_mul]
  by_cases ho : o % 2 = 0
  · simp only [ho, if_true, div_one, one_mul]
    simp
  · simp only [ho, if_false]
    obtain ⟨h1, h2⟩ := rat_half_num_den (off o ν) (off_odd o ν (by omega))
    rw [h1, h2]
    have hp : (2 : K) ^ o = 2 * 2 ^ (o - 1) := by rw [← pow_succ']; congr 1; omega
    rw [div_pow, hp]
    push_cast
    field_simp

/-- C73, partial: for derivatives of order 1 and of even order the regularized scheme is the scheme of
`finite_difference` on the regular grid, hence consistent at second order.  For odd orders `o ≥ 3` it is `2^(o-1)` times
the derivative (`C73_regularize_value`, `C73_counterexample_third_order`). -/
theorem C73_regularize_partial (o : ℕ) (ho : o = 1 ∨ o % 2 = 0) (u : ℝ → ℝ) (hu : ContDiff ℝ ((o + 2 : ℕ) : ℕ∞) u) (x : ℝ)
    (atoms : ℝ → List (List ℚ)) (hatoms : ∀ h, ∀ t ∈ sympyTerms o h x, t.2 ∈ atoms h) :
    (fun h => termsValue h x u (regularize (atoms h) (sympyTerms o h x)) - iteratedDeriv o u x)
      =O[nhdsWithin (0 : ℝ) {0}ᶜ] (fun h => h ^ 2) := by
  refine Asymptotics.IsBigO.congr' (C29_second_order o u hu x) ?_ Filter.EventuallyEq.rfl
  filter_upwards [self_mem_nhdsWithin] with h hne
  rw [C73_regularize_value o h x hne u (atoms h) (hatoms h)]
  rcases ho with rfl | ho
  · simp
  · simp [ho]

/-- C73, counterexample: the regularized scheme for the third derivative of `x³` gives 24 instead of 6, for every step. -/
theorem C73_counterexample_third_order [CharZero K] (h x : K) (hh : h ≠ 0) (atoms : List (List ℚ))
    (hatoms : ∀ t ∈ sympyTerms 3 h x, t.2 ∈ atoms) :
    termsValue h x (fun y => y ^ 3) (regularize atoms (sympyTerms 3 h x)) = 24 := by
  rw [C73_regularize_value 3 h x hh _ atoms hatoms]
  have := C28_polynomial_exact 3 h x hh (Polynomial.X ^ 3) (by simp)
  simp only [Polynomial.eval_pow, Polynomial.eval_X] at this
  rw [this, Polynomial.iterate_derivative_X_pow_eq_natCast_mul]
  norm_num [Nat.descFactorial]

/-- Non-vacuity: the functions of the staggered first derivative, `u(x - dx/2)` and `u(x + dx/2)`. -/
example (h x : ℝ) : (sympyTerms 1 h x).map Prod.snd = [[-1/2], [1/2]] := by
  unfold sympyTerms
  have e : staggered 1 = [-1/2, 1/2] := by decide +kernel
  rw [e]
  simp [weights, List.range_succ]

/-! ## Mixed derivatives -/

/-- The value of a linear combination of displaced functions of several coordinates. -/
def mixedValue {d : ℕ} (h x : Fin d → K) (u : (Fin d → K) → K) (T : List (K × List ℚ)) : K :=
  (T.map (fun t => t.1 * u (fun i => x i + ((t.2.getD i 0 : ℚ) : K) * h i))).sum

/-- What the regularization does to the value of a mixed derivative: one factor for each variable. -/
def excess (vars : List ℕ) : ℕ := (vars.map (fun o => if o % 2 = 0 then 1 else 2 ^ (o - 1))).prod

theorem sympyMixed_inv {d : ℕ} (h x : Fin d → K) (vars : List (Fin d × ℕ)) : ∀ t ∈ sympyMixed h x vars,
    t.2.length = d ∧ ∀ i : Fin d, i ∉ vars.map Prod.fst → t.2.getD i 0 = 0 := by
  induction vars with
  | nil =>
    intro t ht
    obtain rfl : t = (1, List.replicate d 0) := by simpa [sympyMixed] using ht
    exact ⟨List.length_replicate .., fun i _ => by simp [List.getD_eq_getElem?_getD]⟩
  | cons p rest ih =>
    intro t ht
    obtain ⟨t', ht', ht⟩ := List.mem_flatMap.1 ht
    obtain ⟨s, -, rfl⟩ := List.mem_map.1 ht
    obtain ⟨h1, h2⟩ := ih t' ht'
    refine ⟨by simp [h1], fun i hi => ?_⟩
    simp only [List.map_cons, List.mem_cons, not_or] at hi
    rw [List.getD_eq_getElem?_getD, List.getElem?_set_ne (fun e => hi.1 (Fin.ext e.symm)), ← List.getD_eq_getElem?_getD]
    exact h2 i hi.2

theorem scaling_set (d : List ℚ) (i : ℕ) (q : ℚ) (h : i < d.length) (h0 : d.getD i 0 = 0) :
    scaling (d.set i q) = scaling d * (1 / (q.den : ℚ)) := by
  unfold scaling
  induction d generalizing i with
  | nil => simp at h
  | cons c d ih =>
    cases i with
    | zero =>
      simp only [List.getD_cons_zero] at h0
      subst h0
      simp [mul_comm]
    | succ i =>
      simp only [List.set_cons_succ, List.map_cons, List.prod_cons]
      rw [ih i (by simpa using h) (by simpa using h0)]
      ring

theorem newDisplacement_set (d : List ℚ) (i : ℕ) (q : ℚ) : newDisplacement (d.set i q) = (newDisplacement d).set i (q.num : ℚ) := by
  unfold newDisplacement
  rw [List.map_set]

theorem mixedValue_flatMap {d : ℕ} (h x : Fin d → K) (u : (Fin d → K) → K) (T : List (K × List ℚ)) (g : K × List ℚ → List (K × List ℚ)) :
    mixedValue h x u (T.flatMap g) = (T.map (fun t => mixedValue h x u (g t))).sum := by
  induction T with
  | nil => rfl
  | cons t T ih =>
    rw [List.flatMap_cons, List.map_cons, List.sum_cons, ← ih]
    unfold mixedValue
    rw [List.map_append, List.sum_append]

/-- The regularized staggered scheme of a mixed derivative is the regular one, times `2^(o-1)` for every variable of odd order `o`. -/
theorem C73_mixed_value [CharZero K] {d : ℕ} (h x : Fin d → K) (hh : ∀ i, h i ≠ 0) (vars : List (Fin d × ℕ))
    (hv : (vars.map Prod.fst).Nodup) (u : (Fin d → K) → K) (atoms : List (List ℚ))
    (hatoms : ∀ t ∈ sympyMixed h x vars, t.2 ∈ atoms) :
    mixedValue h x u (regularize atoms (sympyMixed h x vars)) = (excess (vars.map Prod.snd) : K) * fdMixed h vars u x := by
  rw [regularize_eq atoms _ hatoms]
  clear hatoms
  induction vars generalizing u with
  | nil => simp [sympyMixed, mixedValue, regTerm, scaling, newDisplacement, excess, fdMixed, List.getD_eq_getElem?_getD]
  | cons p rest ih =>
    obtain ⟨i, o⟩ := p
    rw [List.map_cons, List.nodup_cons] at hv
    have e : excess (((i, o) :: rest).map Prod.snd) = (if o % 2 = 0 then 1 else 2 ^ (o - 1)) * excess (rest.map Prod.snd) := by
      simp [excess]
    rw [e, fdMixed]
    push_cast
    rw [mul_assoc, ← ih hv.2, sympyMixed, List.map_flatMap, mixedValue_flatMap]
    unfold mixedValue
    rw [List.map_map, ← List.sum_map_mul_left]
    congr 1
    refine List.map_congr_left (fun t ht => ?_)
    obtain ⟨h1, h2⟩ := sympyMixed_inv h x rest t ht
    have h0 := h2 i hv.1
    have hl : (i : ℕ) < t.2.length := by rw [h1]; exact i.2
    have hc := C73_regularize_value o (h i) (x i) (hh i)
      (fun p => u (Function.update (fun j => x j + (((newDisplacement t.2).getD j 0 : ℚ) : K) * h j) i p))
      ((sympyTerms o (h i) (x i)).map Prod.snd) (fun t ht => List.mem_map_of_mem ht)
    rw [regularize_eq _ _ (fun t ht => List.mem_map_of_mem ht)] at hc
    have hx : (fun j => x j + (((newDisplacement t.2).getD j 0 : ℚ) : K) * h j) i = x i := by
      have : (newDisplacement t.2).getD i 0 = 0 := by
        unfold newDisplacement
        rw [List.getD_eq_getElem?_getD, List.getElem?_map]
        rw [List.getD_eq_getElem?_getD] at h0
        rw [List.getElem?_eq_getElem hl] at h0 ⊢
        simp only [Option.getD_some] at h0
        simp [h0]
      show x i + (((newDisplacement t.2).getD i 0 : ℚ) : K) * h i = x i
      rw [this, Rat.cast_zero, zero_mul, add_zero]
    have hf : fdAlong h i o u (fun j => x j + (((newDisplacement t.2).getD j 0 : ℚ) : K) * h j)
        = fd o (h i) (fun p => u (Function.update (fun j => x j + (((newDisplacement t.2).getD j 0 : ℚ) : K) * h j) i p)) (x i) := by
      unfold fdAlong
      rw [hx]
    have hr : ((fun t => t.1 * fdAlong h i o u (fun j => x j + ((t.2.getD j 0 : ℚ) : K) * h j)) ∘ regTerm) t
        = t.1 * (scaling t.2 : K) * fdAlong h i o u (fun j => x j + (((newDisplacement t.2).getD j 0 : ℚ) : K) * h j) := rfl
    rw [hr, hf, mul_left_comm, ← hc]
    unfold termsValue
    rw [← List.sum_map_mul_left, List.map_map, List.map_map, List.map_map]
    congr 1
    refine List.map_congr_left (fun s hs => ?_)
    have hs1 : s.2 = [s.2.getD 0 0] := by
      unfold sympyTerms at hs
      obtain ⟨k, hk⟩ := List.getElem_of_mem hs
      obtain ⟨hk, rfl⟩ := hk
      simp
    simp only [Function.comp, regTerm, scaling_set _ _ _ hl h0, newDisplacement_set]
    have hsc : scaling s.2 = 1 / ((s.2.getD 0 0).den : ℚ) := by
      rw [hs1]; simp [scaling]
    have hnd : (newDisplacement s.2).getD 0 0 = ((s.2.getD 0 0).num : ℚ) := by
      rw [hs1]; simp [newDisplacement]
    rw [hsc, hnd]
    have hp : (fun j : Fin d => x j + ((((newDisplacement t.2).set i ((s.2.getD 0 0).num : ℚ)).getD j 0 : ℚ) : K) * h j)
        = Function.update (fun j => x j + (((newDisplacement t.2).getD j 0 : ℚ) : K) * h j) i
            (x i + (((s.2.getD 0 0).num : ℚ) : K) * h i) := by
      funext j
      by_cases hj : j = i
      · subst hj
        rw [Function.update_self, List.getD_eq_getElem?_getD, List.getElem?_set_self (by unfold newDisplacement; simpa using hl)]
        rfl
      · rw [Function.update_of_ne hj, List.getD_eq_getElem?_getD, List.getElem?_set_ne (fun e => hj (Fin.ext e.symm)),
          ← List.getD_eq_getElem?_getD]
    rw [hp]
    push_cast
    ring

/-- C73, partial: for mixed derivatives whose orders are one or even the regularized scheme is consistent at second order, uniformly
on bounded sets. -/
theorem C73_mixed_partial {d : ℕ} (vars : List (Fin d × ℕ)) (hv : (vars.map Prod.fst).Nodup) (ho : ∀ p ∈ vars, p.2 = 1 ∨ p.2 % 2 = 0)
    (u : (Fin d → ℝ) → ℝ) (hu : ContDiff ℝ (⊤ : ℕ∞) u) (R : ℝ) :
    ∃ C, ∀ h : Fin d → ℝ, (∀ i, h i ≠ 0) → (∀ i, |h i| ≤ 1) → ∀ x, ‖x‖ ≤ R → ∀ atoms : List (List ℚ),
      (∀ t ∈ sympyMixed h x vars, t.2 ∈ atoms) →
      |mixedValue h x u (regularize atoms (sympyMixed h x vars)) - pdMixed vars u x| ≤ C * (vars.map (fun p => h p.1 ^ 2)).sum := by
  obtain ⟨C, hC⟩ := C30_mixed_second_order vars u hu R
  refine ⟨C, fun h hh h1 x hx atoms hat => ?_⟩
  have e : excess (vars.map Prod.snd) = 1 := by
    refine List.prod_eq_one (fun y hy => ?_)
    obtain ⟨o, ho', rfl⟩ := List.mem_map.1 hy
    obtain ⟨p, hp, rfl⟩ := List.mem_map.1 ho'
    rcases ho p hp with e | e
    · simp [e]
    · simp [e]
  rw [C73_mixed_value h x hh vars hv u atoms hat, e, Nat.cast_one, one_mul]
  exact hC h hh h1 x hx

/-- C73: the condition on the orders is needed: with a variable of odd order at least three the regularized scheme is a multiple, by at
least four, of the regular scheme. -/
theorem C73_mixed_excess (vars : List ℕ) (h : ∃ o ∈ vars, o % 2 = 1 ∧ 3 ≤ o) : 4 ≤ excess vars := by
  have hpos : ∀ vars : List ℕ, 1 ≤ excess vars := fun vars => by
    refine Nat.one_le_iff_ne_zero.2 (List.prod_ne_zero (fun hm => ?_))
    obtain ⟨o, -, ho⟩ := List.mem_map.1 hm
    split at ho <;> simp at ho
  induction vars with
  | nil => simp at h
  | cons o vars ih =>
    have e : excess (o :: vars) = (if o % 2 = 0 then 1 else 2 ^ (o - 1)) * excess vars := by simp [excess]
    rw [e]
    obtain ⟨o', ho', h1, h2⟩ := h
    rcases List.mem_cons.1 ho' with rfl | ho'
    · rw [if_neg (by omega)]
      have : 2 ^ 2 ≤ 2 ^ (o' - 1) := Nat.pow_le_pow_right (by norm_num) (by omega)
      nlinarith [hpos vars]
    · have h3 := ih ⟨o', ho', h1, h2⟩
      have : 1 ≤ (if o % 2 = 0 then 1 else 2 ^ (o - 1)) := by split <;> simp [Nat.one_le_two_pow]
      nlinarith

/-- The staggered scheme of `Derivative(u, x, y)` has the four corners of a cell. -/
example (h x : Fin 2 → ℝ) : (sympyMixed h x [(0, 1), (1, 1)]).map Prod.snd = [[-1/2, -1/2], [1/2, -1/2], [-1/2, 1/2], [1/2, 1/2]] := by
  have e : ∀ h x : ℝ, (sympyTerms 1 h x).map Prod.snd = [[-1/2], [1/2]] := fun h x => by
    unfold sympyTerms
    have e : staggered 1 = [-1/2, 1/2] := by decide +kernel
    rw [e]
    simp [weights, List.range_succ]
  have e' : ∀ h x : ℝ, ∃ a b, sympyTerms 1 h x = [(a, [-1/2]), (b, [1/2])] := fun h x => by
    have := e h x
    match hT : sympyTerms 1 h x with
    | [a, b] =>
      rw [hT] at this
      simp only [List.map_cons, List.map_nil, List.cons.injEq, and_true] at this
      exact ⟨a.1, b.1, by rw [← this.1, ← this.2]⟩
    | [] => rw [hT] at this; simp at this
    | [a] => rw [hT] at this; simp at this
    | a :: b :: c :: l => rw [hT] at this; simp at this
  obtain ⟨a, b, h1⟩ := e' (h 0) (x 0)
  obtain ⟨a', b', h2⟩ := e' (h 1) (x 1)
  simp [sympyMixed, h1, h2, List.replicate]

/-- The hypotheses of `C73_mixed_partial` hold for `Derivative(u, x, (y, 2))`. -/
example (u : (Fin 2 → ℝ) → ℝ) (hu : ContDiff ℝ (⊤ : ℕ∞) u) (R : ℝ) :
    ∃ C, ∀ h : Fin 2 → ℝ, (∀ i, h i ≠ 0) → (∀ i, |h i| ≤ 1) → ∀ x, ‖x‖ ≤ R →
      |mixedValue h x u (regularize ((sympyMixed h x [(0, 1), (1, 2)]).map Prod.snd) (sympyMixed h x [(0, 1), (1, 2)]))
        - pdMixed [(0, 1), (1, 2)] u x| ≤ C * (h 0 ^ 2 + h 1 ^ 2) := by
  obtain ⟨C, hC⟩ := C73_mixed_partial [((0 : Fin 2), 1), (1, 2)] (by decide) (by decide) u hu R
  refine ⟨C, fun h hh h1 x hx => ?_⟩
  have := hC h hh h1 x hx _ (fun t ht => List.mem_map_of_mem ht)
  simpa using this

end Sympkf.FinDiff
