import Mathlib.Algebra.Polynomial.Taylor
import Mathlib.Tactic.NormNum
import Verif.Lemmas.FiniteDiff

/-!
# C27, C28, C31: stencils and weights of the finite differences
-/

set_option autoImplicit false

namespace Sympkf.FinDiff

open Polynomial

/-! ## C27 -/

/-- C27: the stencil of a derivative of order `o` has `o+1` distinct offsets, symmetric about 0; for odd `o` they are the
odd integers of `[-o,o]`, for even `o` the integers of `[-o/2,o/2]`. -/
theorem C27_stencil (o : ℕ) :
    (offsets o).length = o + 1 ∧ (offsets o).Nodup ∧ (∀ k ∈ offsets o, -k ∈ offsets o)
    ∧ (∀ k ∈ offsets o, -(o : ℤ) ≤ k ∧ k ≤ o)
    ∧ (Odd o → ∀ k : ℤ, k ∈ offsets o ↔ |k| ≤ o ∧ Odd k) ∧ (Even o → ∀ k : ℤ, k ∈ offsets o ↔ 2 * |k| ≤ o) := by
  have hmem : ∀ k : ℤ, k ∈ offsets o ↔ if o % 2 = 1 then -(o : ℤ) ≤ k ∧ k ≤ o ∧ k % 2 = 1 else -(o : ℤ) ≤ 2 * k ∧ 2 * k ≤ o := by
    intro k
    unfold offsets
    split
    · rw [List.mem_filter, mem_arangeZ]
      simp only [decide_eq_true_eq]; omega
    · rw [mem_arangeZ]; omega
  refine ⟨by rw [offsets_eq]; simp, ?_, ?_, ?_, ?_, ?_⟩
  · rw [offsets_eq]
    exact List.nodup_range.map (off_injective o)
  · intro k hk
    rw [hmem] at hk ⊢
    split at hk <;> simp_all <;> omega
  · intro k hk
    rw [hmem] at hk
    split at hk <;> omega
  · intro ho k
    rw [Nat.odd_iff] at ho
    rw [hmem, if_pos ho, abs_le, Int.odd_iff]; omega
  · intro ho k
    rw [Nat.even_iff] at ho
    rw [hmem, if_neg (by omega)]
    rcases abs_cases k with ⟨h, _⟩ | ⟨h, _⟩ <;> rw [h] <;> omega

example : offsets 1 = [-1, 1] ∧ offsets 2 = [-1, 0, 1] ∧ offsets 3 = [-3, -1, 1, 3] ∧ offsets 4 = [-2, -1, 0, 1, 2] := by
  decide

variable {K : Type} [Field K] [CharZero K]

/-! ## C28 -/

omit [CharZero K] in
theorem eval_eq_sum_taylor (p : K[X]) (n : ℕ) (hp : p.natDegree ≤ n) (x s : K) :
    p.eval (x + s) = ∑ j ∈ Finset.range (n + 1), (taylor x p).coeff j * s ^ j := by
  have : p.eval (x + s) = (taylor x p).eval s := by rw [taylor_eval, add_comm]
  rw [this, eval_eq_sum_range' (n := n + 1)]
  rw [natDegree_taylor]; omega

/-- C28: the finite difference of the derivative of order `o` is exact on polynomials of degree at most `o+1`. -/
theorem C28_polynomial_exact (o : ℕ) (h x : K) (hh : h ≠ 0) (p : K[X]) (hp : p.natDegree ≤ o + 1) :
    fd o h (fun y => p.eval y) x = (derivative^[o] p).eval x := by
  rw [fd_eq_sum o h x hh]
  have h1 : ∀ ν ∈ Finset.range (o + 1), (unitWeight K o ν / h ^ o) • p.eval (x + (off o ν : K) * h)
      = ∑ j ∈ Finset.range (o + 1 + 1), ((taylor x p).coeff j * h ^ j / h ^ o) * (unitWeight K o ν * (off o ν : K) ^ j) := by
    intro ν _
    rw [eval_eq_sum_taylor p (o + 1) hp, smul_eq_mul, Finset.mul_sum]
    refine Finset.sum_congr rfl (fun j _ => ?_)
    ring
  rw [Finset.sum_congr rfl h1, Finset.sum_comm]
  have h2 : ∀ j ∈ Finset.range (o + 1 + 1),
      ∑ ν ∈ Finset.range (o + 1), ((taylor x p).coeff j * h ^ j / h ^ o) * (unitWeight K o ν * (off o ν : K) ^ j)
        = if j = o then (taylor x p).coeff o * (o.factorial : K) else 0 := by
    intro j hj
    rw [Finset.mem_range] at hj
    rw [← Finset.mul_sum, unit_moment o j (by omega)]
    split
    · rename_i e; subst e; field_simp
    · simp
  rw [Finset.sum_congr rfl h2, Finset.sum_ite_eq' (Finset.range (o + 1 + 1)) o, if_pos (by simp), taylor_coeff,
    ← factorial_smul_hasseDeriv]
  simp [nsmul_eq_mul, mul_comm]

/-- Non-vacuity and sharpness: second derivative of `X^3` exactly, of `X^4` not. -/
example : fd 2 (1 / 10 : ℚ) (fun y => (X ^ 3 : ℚ[X]).eval y) 5 = 30 := by
  rw [C28_polynomial_exact 2 (1 / 10) 5 (by norm_num) (X ^ 3) (by simp)]
  simp [iterate_derivative_X_pow_eq_natCast_mul, Nat.descFactorial]
  norm_num

example : fd 2 (1 : ℚ) (fun y => y ^ 4) 0 ≠ 0 := by
  decide +kernel

/-! ## C31 -/

/-- The sum computed by `as_finite_difference` for arbitrary weights. -/
def combine (a : List K) (pts : List K) (f : K → K) : K := (List.zipWith (fun w p => w * f p) a pts).sum

/-- C31: the weights are exact on polynomials of degree at most `o`, and they are the only ones on the stencil. -/
theorem C31_weights_unique (o : ℕ) (h x : K) (hh : h ≠ 0) (a : List K) (ha : a.length = o + 1) :
    (∀ p : K[X], p.natDegree ≤ o → combine a (points o h x) (fun y => p.eval y) = (derivative^[o] p).eval x)
      ↔ a = weights o (points o h x) x := by
  constructor
  · intro hex
    have hpts : points o h x = (List.range (o + 1)).map (fun ν => x + (off o ν : K) * h) := by
      unfold points; rw [offsets_eq, List.map_map]; rfl
    have hal : a = (List.range (o + 1)).map (fun ν => a.getD ν 0) := by
      refine List.ext_getElem (by simp [ha]) (fun i h1 h2 => ?_)
      simp [h1]
    have hw := weights_points o h x hh
    have hx : Set.InjOn (fun ν => x + (off o ν : K) * h) (Finset.range (o + 1)) := by
      intro i _ j _ hij
      have : (off o i : K) = off o j := by
        have := add_left_cancel hij
        exact mul_right_cancel₀ hh this
      exact off_injective o (Int.cast_injective this)
    rw [hal, hw]
    refine List.map_congr_left (fun ν hν => ?_)
    have hν' : ν ∈ Finset.range (o + 1) := by simpa using hν
    have hdeg := degree_basis_lt o ν hν' _ hx
    have hnd : (Lagrange.basis (Finset.range (o + 1)) (fun ν => x + (off o ν : K) * h) ν).natDegree ≤ o := by
      rw [Lagrange.natDegree_basis hx hν']; simp
    have h1 := hex _ hnd
    have h2 := C28_polynomial_exact o h x hh _ (Nat.le_succ_of_le hnd)
    rw [fd_eq_sum o h x hh] at h2
    unfold combine at h1
    rw [hal, hpts] at h1
    have h3 := list_zipWith_range_sum (V := K) (o + 1) (fun ν => a.getD ν 0) (fun ν => x + (off o ν : K) * h)
      (fun y => (Lagrange.basis (Finset.range (o + 1)) (fun ν => x + (off o ν : K) * h) ν).eval y)
    simp only [smul_eq_mul] at h3 h2
    rw [h3, sum_mul_basis_eval _ ν hν' _ hx] at h1
    rw [sum_mul_basis_eval _ ν hν' _ hx (fun ν => unitWeight K o ν / h ^ o)] at h2
    rw [h1, h2]
  · rintro rfl p hp
    exact C28_polynomial_exact o h x hh p (by omega)

/-- C31: the weights are even in the offset for even `o`, odd in the offset for odd `o`: the weight at the offset `-k` is
`(-1)^o` times the weight at `k`. -/
theorem C31_weights_parity (o : ℕ) (h x : K) (hh : h ≠ 0) (i j : ℕ) (hi : i < (offsets o).length) (hj : j < (offsets o).length)
    (hij : (offsets o)[j] = -(offsets o)[i]) :
    ∃ wi wj, (weights o (points o h x) x)[i]? = some wi ∧ (weights o (points o h x) x)[j]? = some wj
      ∧ wj = (-1) ^ o * wi := by
  have hl : (offsets o).length = o + 1 := by rw [offsets_eq]; simp
  rw [hl] at hi hj
  rw [weights_points o h x hh]
  refine ⟨unitWeight K o i / h ^ o, unitWeight K o j / h ^ o, by simp [hi], by simp [hj], ?_⟩
  have hij' : off o j = off o (o - i) := by
    rw [off_reflect o i (by omega)]
    simp only [offsets_eq, List.getElem_map, List.getElem_range] at hij
    exact hij
  rw [off_injective o hij', unitWeight_reflect o i (by omega)]
  ring

/-- The familiar centred schemes: the weights for unit steps of orders 1, 2, 3. -/
example : weights 1 (points 1 (1 : ℚ) 0) 0 = [-1/2, 1/2] ∧ weights 2 (points 2 (1 : ℚ) 0) 0 = [1, -2, 1]
    ∧ weights 3 (points 3 (1 : ℚ) 0) 0 = [-1/8, 3/8, -3/8, 1/8] := by
  decide +kernel

end Sympkf.FinDiff
