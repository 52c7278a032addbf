import Mathlib.LinearAlgebra.Lagrange
import Mathlib.Tactic.Linarith
import Mathlib.Tactic.FieldSimp
import Mathlib.Tactic.Ring
import Mathlib.Tactic.LinearCombination
import Mathlib.Data.List.Sort
import Verif.Model.FiniteDiff

/-!
# Lemmas about Fornberg's weights and the stencils
-/

set_option autoImplicit false

namespace Sympkf.FinDiff

open Polynomial

/-! ## Offsets -/

/-- Closed form of the offsets. -/
def off (o : ℕ) (ν : ℕ) : ℤ := if o % 2 = 1 then 2 * (ν : ℤ) - o else (ν : ℤ) - (o : ℤ) / 2

theorem mem_arangeZ (a b k : ℤ) : k ∈ arangeZ a b ↔ a ≤ k ∧ k < b := by
  unfold arangeZ
  rw [List.mem_map]
  constructor
  · rintro ⟨i, hi, rfl⟩
    rw [List.mem_range] at hi
    omega
  · rintro ⟨h1, h2⟩
    exact ⟨(k - a).toNat, List.mem_range.2 (by omega), by omega⟩

theorem pairwise_arangeZ (a b : ℤ) : (arangeZ a b).Pairwise (· < ·) := by
  unfold arangeZ
  rw [List.pairwise_map]
  refine List.Pairwise.imp ?_ List.pairwise_lt_range
  intro i j h; omega

theorem offsets_eq (o : ℕ) : offsets o = (List.range (o + 1)).map (off o) := by
  have hp : (offsets o).Pairwise (· < ·) := by
    unfold offsets
    split
    · exact (pairwise_arangeZ _ _).filter _
    · exact pairwise_arangeZ _ _
  have hq : ((List.range (o + 1)).map (off o)).Pairwise (· < ·) := by
    rw [List.pairwise_map]
    refine List.Pairwise.imp ?_ List.pairwise_lt_range
    intro i j h
    unfold off
    split <;> omega
  have hmem : ∀ k, k ∈ offsets o ↔ k ∈ (List.range (o + 1)).map (off o) := by
    intro k
    unfold offsets off
    rw [List.mem_map]
    split
    · rw [List.mem_filter, mem_arangeZ]
      simp only [decide_eq_true_eq, List.mem_range]
      constructor
      · rintro ⟨⟨h1, h2⟩, h3⟩
        exact ⟨((k + o) / 2).toNat, by omega, by omega⟩
      · rintro ⟨ν, h1, rfl⟩
        omega
    · rw [mem_arangeZ]
      simp only [List.mem_range]
      constructor
      · rintro ⟨h1, h2⟩
        exact ⟨(k + o / 2).toNat, by omega, by omega⟩
      · rintro ⟨ν, h1, rfl⟩
        omega
  have hperm : (offsets o).Perm ((List.range (o + 1)).map (off o)) :=
    (List.perm_ext_iff_of_nodup (hp.imp (fun h => ne_of_lt h)) (hq.imp (fun h => ne_of_lt h))).2 hmem
  exact hperm.eq_of_pairwise (fun a b _ _ h1 h2 => absurd h1 (by omega)) hp hq

theorem off_reflect (o ν : ℕ) (h : ν ≤ o) : off o (o - ν) = - off o ν := by
  unfold off
  split <;> omega

theorem off_injective (o : ℕ) : Function.Injective (off o) := by
  intro a b h
  unfold off at h
  split at h <;> omega

/-! ## Fornberg's recursion -/

variable {K : Type} [Field K]

/-- m-th derivative at `x0` of a polynomial -/
noncomputable def dv (x0 : K) (m : ℕ) (p : K[X]) : K := (derivative^[m] p).eval x0

theorem dv_X_sub_C_mul (x0 a : K) (m : ℕ) (q : K[X]) :
    dv x0 m ((X - C a) * q) = (x0 - a) * dv x0 m q + (m : K) * dv x0 (m - 1) q := by
  unfold dv
  have : (X - C a) * q = q * X - C a * q := by ring
  rw [this, iterate_derivative_sub, iterate_derivative_mul_X, iterate_derivative_C_mul]
  simp
  ring

theorem dv_C_mul (x0 a : K) (m : ℕ) (q : K[X]) : dv x0 m (C a * q) = a * dv x0 m q := by
  unfold dv; rw [iterate_derivative_C_mul]; simp

theorem fornbergC_eq (x : ℕ → K) (n : ℕ) : fornbergC x n = ∏ ν ∈ Finset.range n, (x n - x ν) := rfl

theorem basis_succ_of_le (x : ℕ → K) (n ν : ℕ) (h : ν < n + 1) :
    Lagrange.basis (Finset.range (n + 2)) x ν
      = Lagrange.basis (Finset.range (n + 1)) x ν * Lagrange.basisDivisor (x ν) (x (n + 1)) := by
  unfold Lagrange.basis
  rw [Finset.range_add_one (n := n + 1), Finset.erase_insert_of_ne (by omega), Finset.prod_insert (by simp)]
  rw [mul_comm]

theorem basis_last (x : ℕ → K) (n : ℕ) :
    Lagrange.basis (Finset.range (n + 1)) x n = C (fornbergC x n)⁻¹ * ∏ j ∈ Finset.range n, (X - C (x j)) := by
  unfold Lagrange.basis
  rw [Finset.range_add_one, Finset.erase_insert (by simp)]
  unfold Lagrange.basisDivisor
  rw [Finset.prod_mul_distrib, fornbergC_eq, ← Finset.prod_inv_distrib, map_prod]

theorem fornbergC_ne_zero (x : ℕ → K) (n : ℕ) (hx : Set.InjOn x (Finset.range (n + 1))) : fornbergC x n ≠ 0 := by
  rw [fornbergC_eq, Finset.prod_ne_zero_iff]
  intro a ha
  rw [Finset.mem_range] at ha
  rw [sub_ne_zero]
  intro h
  have := hx (by simp) (by simp; omega) h
  omega

theorem basis_succ_last (x : ℕ → K) (n : ℕ) (hx : Set.InjOn x (Finset.range (n + 2))) :
    Lagrange.basis (Finset.range (n + 2)) x (n + 1)
      = C (fornbergC x n / fornbergC x (n + 1)) * ((X - C (x n)) * Lagrange.basis (Finset.range (n + 1)) x n) := by
  have h1 : fornbergC x n ≠ 0 := fornbergC_ne_zero x n (hx.mono (by intro a; simp; omega))
  rw [basis_last x (n + 1), basis_last x n, Finset.prod_range_succ]
  have : C (fornbergC x n / fornbergC x (n + 1)) * C (fornbergC x n)⁻¹ = C (fornbergC x (n + 1))⁻¹ := by
    rw [← C_mul]; congr 1; field_simp
  rw [← this]; ring

/-- Fornberg's recursion computes the derivatives of the Lagrange basis polynomials. -/
theorem fornberg_eq (M : ℕ) (x : ℕ → K) (x0 : K) (n : ℕ) : Set.InjOn x (Finset.range (n + 1)) → ∀ m ν, m ≤ M → ν ≤ n →
    fornberg M x x0 n m ν = dv x0 m (Lagrange.basis (Finset.range (n + 1)) x ν) := by
  induction n with
  | zero =>
    intro _ m ν _ hν
    obtain rfl : ν = 0 := by omega
    have : Lagrange.basis (Finset.range (0 + 1)) x 0 = 1 := by
      rw [show Finset.range (0 + 1) = {0} from rfl, Lagrange.basis_singleton]
    rw [this]
    unfold fornberg dv
    rcases m with _ | m
    · simp
    · rw [iterate_derivative_one (by omega)]; simp
  | succ n ih =>
    intro hx m ν hm hν
    have hx' : Set.InjOn x (Finset.range (n + 1)) := hx.mono (by intro a; simp; omega)
    unfold fornberg
    by_cases hmn : m ≤ n + 1
    · rw [if_pos (by omega)]
      by_cases h1 : ν < n + 1
      · rw [if_pos h1, ih hx' m ν hm (by omega), ih hx' (m - 1) ν (by omega) (by omega), basis_succ_of_le x n ν h1]
        have hne : x ν - x (n + 1) ≠ 0 := by
          rw [sub_ne_zero]; intro h
          have := hx (by simp; omega) (by simp) h
          omega
        have hne' : x (n + 1) - x ν ≠ 0 := by rw [← neg_sub]; exact neg_ne_zero.2 hne
        have e : Lagrange.basis (Finset.range (n + 1)) x ν * Lagrange.basisDivisor (x ν) (x (n + 1))
            = C (x ν - x (n + 1))⁻¹ * ((X - C (x (n + 1))) * Lagrange.basis (Finset.range (n + 1)) x ν) := by
          unfold Lagrange.basisDivisor; ring
        rw [e, dv_C_mul, dv_X_sub_C_mul]
        field_simp
        ring
      · obtain rfl : ν = n + 1 := by omega
        rw [if_neg h1, if_pos rfl, ih hx' m n hm (by omega), ih hx' (m - 1) n (by omega) (by omega), basis_succ_last x n hx,
          dv_C_mul, dv_X_sub_C_mul]
        ring
    · rw [if_neg (by omega)]
      unfold dv
      rw [iterate_derivative_eq_zero]
      · simp
      · rw [Lagrange.natDegree_basis hx (by simp; omega)]
        simp; omega

/-- The weights applied to the values of a polynomial of small degree give its derivative. -/
theorem fornberg_exact (x : ℕ → K) (x0 : K) (n : ℕ) (hx : Set.InjOn x (Finset.range (n + 1))) (p : K[X])
    (hp : p.degree < (n + 1 : ℕ)) (m : ℕ) :
    ∑ ν ∈ Finset.range (n + 1), fornberg m x x0 n m ν * p.eval (x ν) = (derivative^[m] p).eval x0 := by
  have h1 := Lagrange.eq_interpolate hx (f := p) (by simpa using hp)
  conv_rhs => rw [h1]
  rw [Lagrange.interpolate_apply, iterate_derivative_sum, eval_finsetSum]
  refine Finset.sum_congr rfl (fun ν hν => ?_)
  rw [Finset.mem_range] at hν
  rw [fornberg_eq m x x0 n hx m ν le_rfl (by omega), iterate_derivative_C_mul]
  simp [dv, mul_comm]

/-! ## Dependence on the points -/

theorem fornberg_congr (M : ℕ) (x y : ℕ → K) (x0 : K) (n m ν : ℕ) (h : ∀ i, i ≤ n → x i = y i) :
    fornberg M x x0 n m ν = fornberg M y x0 n m ν := by
  induction n generalizing m ν with
  | zero => rfl
  | succ n ih =>
    have hC : ∀ k, k ≤ n + 1 → fornbergC x k = fornbergC y k := by
      intro k hk
      rw [fornbergC_eq, fornbergC_eq]
      refine Finset.prod_congr rfl (fun a ha => ?_)
      rw [Finset.mem_range] at ha
      rw [h k hk, h a (by omega)]
    have ih' : ∀ m ν, fornberg M x x0 n m ν = fornberg M y x0 n m ν := fun m ν => ih m ν (fun i hi => h i (by omega))
    unfold fornberg
    rw [hC n (by omega), hC (n + 1) le_rfl, h (n + 1) le_rfl, h n (by omega)]
    simp only [ih']
    split
    · split
      · rw [h ν (by omega)]
      · rfl
    · rfl

theorem fornbergC_scale (y : ℕ → K) (x0 h : K) (n : ℕ) :
    fornbergC (fun i => x0 + y i * h) n = h ^ n * fornbergC y n := by
  rw [fornbergC_eq, fornbergC_eq]
  have : ∀ ν ∈ Finset.range n, (x0 + y n * h - (x0 + y ν * h)) = h * (y n - y ν) := by intros; ring
  rw [Finset.prod_congr rfl this, Finset.prod_mul_distrib]
  simp

/-- Translation and scaling of the points. -/
theorem fornberg_scale (M : ℕ) (y : ℕ → K) (x0 h : K) (hh : h ≠ 0) (n m ν : ℕ) :
    fornberg M (fun i => x0 + y i * h) x0 n m ν = fornberg M y 0 n m ν / h ^ m := by
  induction n generalizing m ν with
  | zero =>
    unfold fornberg
    split
    · rename_i h; rw [h.1]; simp
    · simp
  | succ n ih =>
    unfold fornberg
    simp only [ih, fornbergC_scale]
    have hpow : (m : K) / h ^ (m - 1) = (m : K) * h / h ^ m := by
      rcases m with _ | m
      · simp
      · rw [Nat.add_sub_cancel, pow_succ]; field_simp
    split
    · split
      · have e1 : x0 + y (n + 1) * h - (x0 + y ν * h) = h * (y (n + 1) - y ν) := by ring
        have e2 : x0 + y (n + 1) * h - x0 = h * y (n + 1) := by ring
        rw [e1, e2, sub_zero]
        have e3 : (m : K) * (fornberg M y 0 n (m - 1) ν / h ^ (m - 1)) = (m : K) * h / h ^ m * fornberg M y 0 n (m - 1) ν := by
          rw [← hpow]; ring
        rw [e3]
        by_cases h0 : y (n + 1) - y ν = 0
        · simp [h0]
        · field_simp
      · split
        · have e2 : x0 + y n * h - x0 = h * y n := by ring
          rw [e2, sub_zero]
          have e3 : (m : K) * (fornberg M y 0 n (m - 1) n / h ^ (m - 1)) = (m : K) * h / h ^ m * fornberg M y 0 n (m - 1) n := by
            rw [← hpow]; ring
          rw [e3, pow_succ]
          by_cases h0 : fornbergC y (n + 1) = 0
          · simp [h0]
          · field_simp
        · simp
    · simp

/-- The weights for a unit step. -/
def unitWeight (K : Type) [Field K] (o ν : ℕ) : K := fornberg o (fun i => (off o i : K)) 0 o o ν

variable {V : Type} [AddCommGroup V] [Module K V]

theorem weights_points (o : ℕ) (h x : K) (hh : h ≠ 0) :
    weights o (points o h x) x = (List.range (o + 1)).map (fun ν => unitWeight K o ν / h ^ o) := by
  unfold weights
  have hl : (points o h x).length = o + 1 := by unfold points; rw [offsets_eq]; simp
  rw [hl]
  refine List.map_congr_left (fun ν _ => ?_)
  rw [Nat.add_sub_cancel]
  rw [fornberg_congr o _ (fun i => x + (off o i : K) * h) x o o ν]
  · rw [fornberg_scale _ _ _ _ hh]; rfl
  · intro i hi
    unfold points
    rw [offsets_eq, List.getD_eq_getElem?_getD, List.getElem?_eq_getElem (by simp; omega)]
    simp

theorem list_zipWith_range_sum (n : ℕ) (a : ℕ → K) (b : ℕ → K) (f : K → V) :
    (List.zipWith (fun w p => w • f p) ((List.range n).map a) ((List.range n).map b)).sum
      = ∑ ν ∈ Finset.range n, a ν • f (b ν) := by
  rw [List.zipWith_map]
  simp only [List.zipWith_self]
  rfl

/-- The finite difference as a sum over the stencil. -/
theorem fd_eq_sum (o : ℕ) (h x : K) (hh : h ≠ 0) (f : K → V) :
    fd o h f x = ∑ ν ∈ Finset.range (o + 1), (unitWeight K o ν / h ^ o) • f (x + (off o ν : K) * h) := by
  unfold fd asFiniteDifference
  rw [weights_points o h x hh]
  have : points o h x = (List.range (o + 1)).map (fun ν => x + (off o ν : K) * h) := by
    unfold points; rw [offsets_eq, List.map_map]; rfl
  rw [this, list_zipWith_range_sum]

/-! ## Moments -/

variable [CharZero K]

theorem off_cast_injOn (o : ℕ) (s : Set ℕ) : Set.InjOn (fun i => (off o i : K)) s := by
  intro a _ b _ h
  exact off_injective o (Int.cast_injective h)

theorem unit_exact (o : ℕ) (p : K[X]) (hp : p.degree < (o + 1 : ℕ)) :
    ∑ ν ∈ Finset.range (o + 1), unitWeight K o ν * p.eval (off o ν : K) = (derivative^[o] p).eval 0 :=
  fornberg_exact (fun i => (off o i : K)) 0 o (off_cast_injOn o _) p hp o

omit [CharZero K] in
theorem sum_mul_basis_eval (n ν : ℕ) (hν : ν ∈ Finset.range n) (x : ℕ → K) (hx : Set.InjOn x (Finset.range n)) (a : ℕ → K) :
    ∑ j ∈ Finset.range n, a j * (Lagrange.basis (Finset.range n) x ν).eval (x j) = a ν := by
  rw [Finset.sum_eq_single ν]
  · rw [Lagrange.eval_basis_self hx hν, mul_one]
  · intro j hj hne
    rw [Lagrange.eval_basis_of_ne (Ne.symm hne) hj, mul_zero]
  · intro h; exact absurd hν h

omit [CharZero K] in
theorem degree_basis_lt (n ν : ℕ) (hν : ν ∈ Finset.range (n + 1)) (x : ℕ → K) (hx : Set.InjOn x (Finset.range (n + 1))) :
    (Lagrange.basis (Finset.range (n + 1)) x ν).degree < (n + 1 : ℕ) := by
  rw [Lagrange.degree_basis hx hν]
  simp
  exact_mod_cast Nat.lt_succ_self n

theorem unit_unique (o : ℕ) (a : ℕ → K)
    (h : ∀ p : K[X], p.degree < (o + 1 : ℕ) →
      ∑ ν ∈ Finset.range (o + 1), a ν * p.eval (off o ν : K) = (derivative^[o] p).eval 0) :
    ∀ ν ∈ Finset.range (o + 1), a ν = unitWeight K o ν := by
  intro ν hν
  have hx := off_cast_injOn (K := K) o (Finset.range (o + 1))
  have h1 := h _ (degree_basis_lt o ν hν (fun i => (off o i : K)) hx)
  have h2 := unit_exact o _ (degree_basis_lt o ν hν (fun i => (off o i : K)) hx)
  rw [sum_mul_basis_eval _ ν hν (fun i => (off o i : K)) hx] at h1 h2
  rw [h1, h2]

theorem unitWeight_reflect (o ν : ℕ) (hν : ν ≤ o) : unitWeight K o (o - ν) = (-1) ^ o * unitWeight K o ν := by
  have key := unit_unique (K := K) o (fun ν => (-1) ^ o * unitWeight K o (o - ν)) (by
    intro p hp
    have h1 := unit_exact o (p.comp (-X)) (by
      have hc : (p.comp (-X)).natDegree = p.natDegree := by rw [natDegree_comp]; simp
      by_cases h0 : p = 0
      · simp [h0]
      · refine lt_of_le_of_lt degree_le_natDegree ?_
        rw [hc, ← degree_eq_natDegree h0]; exact hp)
    have h2 : ∑ ν ∈ Finset.range (o + 1), (-1) ^ o * unitWeight K o (o - ν) * p.eval (off o ν : K)
        = (-1) ^ o * ∑ ν ∈ Finset.range (o + 1), unitWeight K o ν * (p.comp (-X)).eval (off o ν : K) := by
      rw [Finset.mul_sum, ← Finset.sum_range_reflect]
      refine Finset.sum_congr rfl (fun ν hν => ?_)
      rw [Finset.mem_range] at hν
      have e1 : o + 1 - 1 - ν = o - ν := by omega
      have e2 : o - (o - ν) = ν := by omega
      rw [e1, e2, off_reflect o ν (by omega)]
      simp only [eval_comp, eval_neg, eval_X, Int.cast_neg]
      ring
    rw [h2, h1]
    have h3 : ∀ (m : ℕ) (q : K[X]), derivative^[m] (q.comp (-X)) = (-1) ^ m * (derivative^[m] q).comp (-X) := by
      intro m
      induction m with
      | zero => intro q; simp
      | succ m ih =>
        intro q
        rw [Function.iterate_succ_apply, derivative_comp, Function.iterate_succ_apply]
        have : derivative (-X : K[X]) * (derivative q).comp (-X) = C (-1) * (derivative q).comp (-X) := by simp
        rw [this, iterate_derivative_C_mul, ih]
        simp [pow_succ]
    rw [h3]
    have hs : ((-1 : K) ^ o) * (-1) ^ o = 1 := by rw [← mul_pow]; simp
    simp only [eval_mul, eval_pow, eval_neg, eval_one, eval_comp, eval_X, neg_zero]
    rw [← mul_assoc, hs, one_mul])
  have h1 := key ν (by rw [Finset.mem_range]; omega)
  have hs : ((-1 : K) ^ o) * (-1) ^ o = 1 := by rw [← mul_pow]; simp
  rw [← h1, ← mul_assoc, hs, one_mul]

/-- Moments of the unit weights. -/
theorem unit_moment (o j : ℕ) (hj : j ≤ o + 1) :
    ∑ ν ∈ Finset.range (o + 1), unitWeight K o ν * (off o ν : K) ^ j = if j = o then (o.factorial : K) else 0 := by
  rcases Nat.lt_or_ge j (o + 1) with h | h
  · have h1 := unit_exact (K := K) o (X ^ j) (by
      rw [degree_X_pow]; exact_mod_cast h)
    simp only [eval_pow, eval_X] at h1
    rw [h1]
    rcases Nat.lt_or_ge j o with h2 | h2
    · rw [if_neg (by omega), iterate_derivative_eq_zero (by simpa using h2)]; simp
    · obtain rfl : j = o := by omega
      rw [if_pos rfl, iterate_derivative_X_pow_eq_natCast_mul]
      simp [Nat.descFactorial_self]
  · obtain rfl : j = o + 1 := by omega
    rw [if_neg (by omega)]
    have h1 : ∑ ν ∈ Finset.range (o + 1), unitWeight K o ν * (off o ν : K) ^ (o + 1)
        = - ∑ ν ∈ Finset.range (o + 1), unitWeight K o ν * (off o ν : K) ^ (o + 1) := by
      conv_lhs => rw [← Finset.sum_range_reflect]
      rw [← Finset.sum_neg_distrib]
      refine Finset.sum_congr rfl (fun ν hν => ?_)
      rw [Finset.mem_range] at hν
      have e1 : o + 1 - 1 - ν = o - ν := by omega
      rw [e1, unitWeight_reflect o ν (by omega), off_reflect o ν (by omega)]
      have hs : ((-1 : K) ^ o) * (-1) ^ o = 1 := by rw [← mul_pow]; simp
      have : ((-(off o ν) : ℤ) : K) ^ (o + 1) = - ((-1) ^ o * (off o ν : K) ^ (o + 1)) := by
        push_cast
        rw [neg_pow, pow_succ (-1 : K)]; ring
      rw [this]
      linear_combination (-(unitWeight K o ν * (off o ν : K) ^ (o + 1))) * hs
    have h2 : (2 : K) * ∑ ν ∈ Finset.range (o + 1), unitWeight K o ν * (off o ν : K) ^ (o + 1) = 0 := by
      linear_combination h1
    exact (mul_eq_zero.1 h2).resolve_left two_ne_zero

end Sympkf.FinDiff
