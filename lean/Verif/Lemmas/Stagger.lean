import Mathlib.Algebra.BigOperators.Field
import Mathlib.Algebra.Group.ForwardDiff
import Verif.Model.Stagger
import Verif.Props.Staggered

/-!
# Central differences and the staggered schemes
-/

set_option autoImplicit false

namespace Sympkf.FinDiff

open Text Text.Spec Spec.FDSystem Polynomial

variable {K : Type} [Field K]

/-! ## The weights are binomial -/

/-- The distance between the points. -/
def spacing (o : ℕ) : ℕ := if o % 2 = 0 then 1 else 2

theorem off_spacing [CharZero K] (o ν : ℕ) : (off o ν : K) = (spacing o : K) * (ν - o / 2) := by
  unfold off spacing
  by_cases ho : o % 2 = 0
  · obtain ⟨m, rfl⟩ : ∃ m, o = 2 * m := ⟨o / 2, by omega⟩
    rw [if_neg (by omega), if_pos ho]
    have : ((2 * m : ℕ) : ℤ) / 2 = m := by omega
    rw [this]
    push_cast
    field_simp
  · rw [if_pos (by omega), if_neg ho]
    push_cast
    field_simp

theorem unitWeight_binomial [CharZero K] (o ν : ℕ) (hν : ν ∈ Finset.range (o + 1)) :
    unitWeight K o ν = (-1) ^ (o - ν) * (o.choose ν : K) / (spacing o : K) ^ o := by
  have hc : (spacing o : K) ≠ 0 := by unfold spacing; split <;> simp
  refine (unit_unique o (fun ν => (-1) ^ (o - ν) * (o.choose ν : K) / (spacing o : K) ^ o) (fun p hp => ?_) ν hν).symm
  -- the polynomial in the number of the point
  set q : K[X] := p.comp (C (spacing o : K) * (X - C ((o : K) / 2))) with hq
  have hpd : p.natDegree ≤ o := by
    by_cases h0 : p = 0
    · simp [h0]
    · exact Nat.lt_succ_iff.1 ((Polynomial.natDegree_lt_iff_degree_lt h0).2 hp)
  have hev : ∀ ν : ℕ, p.eval (off o ν : K) = q.eval (ν : K) := by
    intro ν
    rw [hq, eval_comp, off_spacing]
    simp
  have hlin : (C (spacing o : K) * (X - C ((o : K) / 2))).natDegree = 1 := by
    rw [natDegree_C_mul hc, natDegree_X_sub_C]
  have hqd : q.natDegree = p.natDegree := by rw [hq, natDegree_comp, hlin, mul_one]
  have hsum : ∑ ν ∈ Finset.range (o + 1), (-1) ^ (o - ν) * (o.choose ν : K) * q.eval (ν : K) = (fwdDiff (1 : K))^[o] (fun y => q.eval y) 0 := by
    rw [fwdDiff_iter_eq_sum_shift]
    refine Finset.sum_congr rfl fun ν _ => ?_
    rw [zero_add, nsmul_one, zsmul_eq_mul]
    push_cast
    rfl
  have hgoal : ∑ ν ∈ Finset.range (o + 1), (-1) ^ (o - ν) * (o.choose ν : K) / (spacing o : K) ^ o * p.eval (off o ν : K)
      = (fwdDiff (1 : K))^[o] (fun y => q.eval y) 0 / (spacing o : K) ^ o := by
    rw [← hsum, Finset.sum_div]
    refine Finset.sum_congr rfl fun ν _ => ?_
    rw [hev]
    ring
  rw [hgoal]
  rcases Nat.lt_or_ge p.natDegree o with hlt | hge
  · rw [Polynomial.fwdDiff_iter_eq_zero_of_degree_lt (by rw [hqd]; exact hlt), Polynomial.iterate_derivative_eq_zero hlt]
    simp
  · have he : p.natDegree = o := le_antisymm hpd hge
    have h1 := q.fwdDiff_iter_degree_eq_factorial
    rw [hqd, he] at h1
    rw [h1]
    have h2 : q.leadingCoeff = p.leadingCoeff * (spacing o : K) ^ o := by
      rw [hq, leadingCoeff_comp (by rw [hlin]; exact one_ne_zero), he]
      congr 2
      rw [leadingCoeff_mul, leadingCoeff_C, leadingCoeff_X_sub_C, mul_one]
    have h3 : (derivative^[o] p).eval 0 = (o.factorial : K) * p.coeff o := by
      rw [← coeff_zero_eq_eval_zero, coeff_iterate_derivative]
      simp [Nat.descFactorial_self]
    rw [h3, show p.coeff o = p.leadingCoeff by rw [leadingCoeff, he], Pi.smul_apply, Pi.natCast_apply, smul_eq_mul, h2]
    field_simp

/-! ## Central differences -/

/-- The central difference of `f` along the coordinate `x`. -/
def delta (h : Str → K) (x : Str) (f : (Str → K) → K) (p : Str → K) : K :=
  (f (p + Pi.single x (h x / 2)) - f (p - Pi.single x (h x / 2))) / h x

/-- The central differences along several coordinates. -/
def deltas (h : Str → K) (xs : List Str) (f : (Str → K) → K) : (Str → K) → K := xs.foldr (delta h) f

theorem delta_comm (h : Str → K) (x y : Str) (f : (Str → K) → K) : delta h x (delta h y f) = delta h y (delta h x f) := by
  funext p
  unfold delta
  simp only [sub_eq_add_neg, add_right_comm p]
  ring

theorem deltas_perm (h : Str → K) {xs ys : List Str} (hp : xs.Perm ys) (f : (Str → K) → K) : deltas h xs f = deltas h ys f := by
  induction hp generalizing f with
  | nil => rfl
  | cons x _ ih => exact congrArg (delta h x) (ih f)
  | swap x y l => exact delta_comm h _ _ _
  | trans _ _ ih1 ih2 => exact (ih1 f).trans (ih2 f)

theorem deltas_append (h : Str → K) (xs ys : List Str) (f : (Str → K) → K) : deltas h (xs ++ ys) f = deltas h xs (deltas h ys f) := by
  unfold deltas
  rw [List.foldr_append]

theorem deltas_replicate (h : Str → K) (x : Str) (o : ℕ) (f : (Str → K) → K) : deltas h (List.replicate o x) f = (delta h x)^[o] f := by
  induction o with
  | zero => rfl
  | succ o ih =>
    rw [Function.iterate_succ_apply', ← ih]
    rfl

theorem deltas_translate (h : Str → K) (xs : List Str) (f : (Str → K) → K) (c : Str → K) :
    deltas h xs (fun q => f (q + c)) = fun p => deltas h xs f (p + c) := by
  induction xs with
  | nil => rfl
  | cons x xs ih =>
    show delta h x (deltas h xs _) = fun p => delta h x (deltas h xs f) (p + c)
    rw [ih]
    funext p
    unfold delta
    beta_reduce
    rw [add_right_comm p c, show p - Pi.single x (h x / 2) + c = p + c - Pi.single x (h x / 2) by abel]

theorem delta_iter_fwdDiff [CharZero K] (h : Str → K) (x : Str) (hx : h x ≠ 0) (o : ℕ) (f : (Str → K) → K) (p : Str → K) :
    (delta h x)^[o] f p = (fwdDiff (Pi.single x (h x) : Str → K))^[o] f (p - Pi.single x ((o : K) / 2 * h x)) / h x ^ o := by
  induction o generalizing p with
  | zero => simp
  | succ o ih =>
    rw [Function.iterate_succ_apply', Function.iterate_succ_apply']
    show ((delta h x)^[o] f (p + Pi.single x (h x / 2)) - (delta h x)^[o] f (p - Pi.single x (h x / 2))) / h x = _
    rw [ih, ih]
    have e1 : p + Pi.single x (h x / 2) - Pi.single x ((o : K) / 2 * h x) =
        p - Pi.single x (((o + 1 : ℕ) : K) / 2 * h x) + Pi.single x (h x) := by
      funext y
      by_cases hy : y = x
      · subst hy
        simp
        ring
      · simp [hy]
    have e2 : p - Pi.single x (h x / 2) - Pi.single x ((o : K) / 2 * h x) = p - Pi.single x (((o + 1 : ℕ) : K) / 2 * h x) := by
      funext y
      by_cases hy : y = x
      · subst hy
        simp
        ring
      · simp [hy]
    rw [e1, e2]
    show _ = ((fwdDiff (Pi.single x (h x) : Str → K))^[o] f (_ + Pi.single x (h x)) - (fwdDiff (Pi.single x (h x) : Str → K))^[o] f _) / _
    rw [pow_succ]
    field_simp

/-- The scheme of SymPy of order `o` is the central difference iterated `o` times. -/
theorem stencil_delta [CharZero K] (h : Str → K) (x : Str) (hx : h x ≠ 0) (o : ℕ) (f : (Str → K) → K) (p : Str → K) :
    (((weights o (staggered o) (0 : ℚ)).zip (staggered o)).map
      (fun wk => (wk.1 : K) * h x ^ (-(o : ℤ)) * f (p + Pi.single x ((wk.2 : K) * h x)))).sum = (delta h x)^[o] f p := by
  rw [weights_staggered, delta_iter_fwdDiff h x hx, fwdDiff_iter_eq_sum_shift, List.map_map, Finset.sum_div]
  show ((List.range (o + 1)).map _).sum = ((List.range (o + 1)).map _).sum
  congr 1
  refine List.map_congr_left (fun ν hν => ?_)
  simp only [Function.comp]
  have hg : (if o % 2 = 0 then (1 : ℚ) else 2) = (spacing o : ℚ) := by unfold spacing; split <;> simp
  have hc : (spacing o : K) ≠ 0 := by unfold spacing; split <;> simp
  rw [hg]
  have e1 : (((off o ν : ℚ) / (spacing o : ℚ) : ℚ) : K) * h x = (ν : K) * h x - (o : K) / 2 * h x := by
    push_cast
    rw [off_spacing]
    field_simp
  have e2 : p + Pi.single x ((((off o ν : ℚ) / (spacing o : ℚ) : ℚ) : K) * h x) =
      p - Pi.single x ((o : K) / 2 * h x) + ν • (Pi.single x (h x) : Str → K) := by
    rw [e1]
    funext y
    by_cases hy : y = x
    · subst hy
      simp
      ring
    · simp [hy]
  rw [e2]
  push_cast
  rw [unitWeight_cast, unitWeight_binomial o ν (Finset.mem_range.2 (List.mem_range.1 hν)), zpow_neg, zpow_natCast, zsmul_eq_mul]
  push_cast
  rw [div_pow, one_pow]
  field_simp

end Sympkf.FinDiff
