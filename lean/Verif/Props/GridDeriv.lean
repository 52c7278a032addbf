import Mathlib.Algebra.BigOperators.Pi
import Mathlib.Data.Fintype.BigOperators
import Verif.Lemmas.FiniteDiff
import Verif.Props.FDModel

/-!
# C33: discrete derivatives on the periodic grid
-/

set_option autoImplicit false

namespace Sympkf.FinDiff

variable {ι : Type} [DecidableEq ι] {K : Type} [Field K]

/-- The grid point shifted by `k` along the coordinate `i`. -/
def sh (n : ι → ℕ) (i : ι) (k : ℤ) (idx : ι → ℕ) : ι → ℕ := Function.update idx i (gridIndex (n i) k (idx i))

/-- `gridIndex` is an entry of the array returned by `index` (property C24). -/
theorem gridIndex_eq_index (n : ℕ) (k : ℤ) (j : ℕ) (hj : j < n) :
    (FD.Spec.periodicShift n k)[j]? = some (gridIndex n k j : ℤ) := by
  unfold FD.Spec.periodicShift gridIndex
  have := Int.emod_nonneg ((j : ℤ) + k) (show (n : ℤ) ≠ 0 by omega)
  simp [hj, Int.toNat_of_nonneg this]

theorem gridIndex_lt (n : ℕ) (k : ℤ) (j : ℕ) (hn : j < n) : gridIndex n k j < n := by
  unfold gridIndex
  have := Int.emod_lt_of_pos ((j : ℤ) + k) (show (0 : ℤ) < n by omega)
  omega

theorem gridIndex_add (n : ℕ) (k l : ℤ) (j : ℕ) (hn : j < n) : gridIndex n k (gridIndex n l j) = gridIndex n (l + k) j := by
  unfold gridIndex
  have := Int.emod_nonneg ((j : ℤ) + l) (show (n : ℤ) ≠ 0 by omega)
  rw [Int.toNat_of_nonneg this, Int.emod_add_emod, add_assoc]

theorem gridIndex_zero (n j : ℕ) (hn : j < n) : gridIndex n 0 j = j := by
  unfold gridIndex
  rw [add_zero, Int.emod_eq_of_lt (by omega) (by omega)]; simp

theorem sh_sh (n : ι → ℕ) (i : ι) (k l : ℤ) (idx : ι → ℕ) (hi : idx i < n i) :
    sh n i k (sh n i l idx) = sh n i (l + k) idx := by
  unfold sh
  simp [gridIndex_add _ _ _ _ hi]

theorem sh_zero (n : ι → ℕ) (i : ι) (idx : ι → ℕ) (hi : idx i < n i) : sh n i 0 idx = idx := by
  unfold sh
  rw [gridIndex_zero _ _ hi]; simp

theorem sh_comm (n : ι → ℕ) (i j : ι) (k l : ℤ) (idx : ι → ℕ) (hi : idx i < n i) :
    sh n i k (sh n j l idx) = sh n j l (sh n i k idx) := by
  by_cases h : i = j
  · subst h
    rw [sh_sh _ _ _ _ _ hi, sh_sh _ _ _ _ _ hi, add_comm]
  · unfold sh
    rw [Function.update_of_ne h, Function.update_of_ne (Ne.symm h), Function.update_comm h]

theorem gridDeriv_eq_sum (n : ι → ℕ) (h : ι → K) (i : ι) (o : ℕ) (hh : h i ≠ 0) (u : (ι → ℕ) → K) (idx : ι → ℕ) :
    gridDeriv n h i o u idx = ∑ ν ∈ Finset.range (o + 1), unitWeight K o ν / h i ^ o * u (sh n i (off o ν) idx) := by
  unfold gridDeriv
  rw [weights_points o (h i) 0 hh, offsets_eq, List.zipWith_map]
  simp only [List.zipWith_self]
  rfl

variable [Fintype ι]

/-- The points of the grid. -/
def box (n : ι → ℕ) : Finset (ι → ℕ) := Fintype.piFinset (fun i => Finset.range (n i))

theorem mem_box (n : ι → ℕ) (idx : ι → ℕ) : idx ∈ box n ↔ ∀ i, idx i < n i := by
  unfold box; simp

theorem sh_mem (n : ι → ℕ) (i : ι) (k : ℤ) (idx : ι → ℕ) (h : idx ∈ box n) : sh n i k idx ∈ box n := by
  rw [mem_box] at h ⊢
  intro j
  unfold sh
  by_cases hj : j = i
  · subst hj; simpa using gridIndex_lt _ k _ (h j)
  · rw [Function.update_of_ne hj]; exact h j

theorem sum_sh (n : ι → ℕ) (i : ι) (k : ℤ) (f : (ι → ℕ) → K) : ∑ idx ∈ box n, f (sh n i k idx) = ∑ idx ∈ box n, f idx := by
  refine Finset.sum_nbij' (sh n i k) (sh n i (-k)) ?_ ?_ ?_ ?_ ?_
  · intro a ha; exact sh_mem n i k a ha
  · intro a ha; exact sh_mem n i (-k) a ha
  · intro a ha
    have := (mem_box n a).1 ha i
    rw [sh_sh _ _ _ _ _ this, add_neg_cancel, sh_zero _ _ _ this]
  · intro a ha
    have := (mem_box n a).1 ha i
    rw [sh_sh _ _ _ _ _ this, neg_add_cancel, sh_zero _ _ _ this]
  · intro a _; rfl

theorem gridDeriv_congr (n : ι → ℕ) (h : ι → K) (i : ι) (o : ℕ) (hh : h i ≠ 0) (u v : (ι → ℕ) → K)
    (huv : ∀ idx ∈ box n, u idx = v idx) (idx : ι → ℕ) (hidx : idx ∈ box n) :
    gridDeriv n h i o u idx = gridDeriv n h i o v idx := by
  rw [gridDeriv_eq_sum n h i o hh, gridDeriv_eq_sum n h i o hh]
  refine Finset.sum_congr rfl (fun ν _ => ?_)
  rw [huv _ (sh_mem n i _ idx hidx)]

theorem gridMixed_congr (n : ι → ℕ) (h : ι → K) (hh : ∀ i, h i ≠ 0) (L : List (ι × ℕ)) (u v : (ι → ℕ) → K)
    (huv : ∀ idx ∈ box n, u idx = v idx) (idx : ι → ℕ) (hidx : idx ∈ box n) : gridMixed n h L u idx = gridMixed n h L v idx := by
  induction L generalizing u v with
  | nil => exact huv idx hidx
  | cons p L ih =>
    obtain ⟨i, o⟩ := p
    exact ih _ _ (fun j hj => gridDeriv_congr n h i o (hh i) u v huv j hj)

theorem gridDeriv_sh (n : ι → ℕ) (h : ι → K) (i : ι) (o : ℕ) (hh : h i ≠ 0) (j : ι) (k : ℤ) (u : (ι → ℕ) → K) (idx : ι → ℕ)
    (hidx : idx ∈ box n) : gridDeriv n h i o (fun a => u (sh n j k a)) idx = gridDeriv n h i o u (sh n j k idx) := by
  rw [gridDeriv_eq_sum n h i o hh, gridDeriv_eq_sum n h i o hh]
  refine Finset.sum_congr rfl (fun ν _ => ?_)
  rw [sh_comm n i j _ _ idx ((mem_box n idx).1 hidx i)]

theorem gridDeriv_comm (n : ι → ℕ) (h : ι → K) (i j : ι) (o p : ℕ) (hi : h i ≠ 0) (hj : h j ≠ 0) (u : (ι → ℕ) → K) (idx : ι → ℕ)
    (hidx : idx ∈ box n) :
    gridDeriv n h i o (gridDeriv n h j p u) idx = gridDeriv n h j p (gridDeriv n h i o u) idx := by
  simp only [gridDeriv_eq_sum n h i o hi, gridDeriv_eq_sum n h j p hj, Finset.mul_sum]
  rw [Finset.sum_comm]
  refine Finset.sum_congr rfl (fun ν _ => Finset.sum_congr rfl (fun μ _ => ?_))
  rw [sh_comm n j i _ _ idx ((mem_box n idx).1 hidx j)]
  ring

theorem gridMixed_gridDeriv (n : ι → ℕ) (h : ι → K) (hh : ∀ i, h i ≠ 0) (L : List (ι × ℕ)) (i : ι) (o : ℕ) (u : (ι → ℕ) → K)
    (idx : ι → ℕ) (hidx : idx ∈ box n) :
    gridMixed n h L (gridDeriv n h i o u) idx = gridDeriv n h i o (gridMixed n h L u) idx := by
  induction L generalizing u with
  | nil => rfl
  | cons p L ih =>
    obtain ⟨j, p⟩ := p
    show gridMixed n h L _ idx = gridDeriv n h i o (gridMixed n h L _) idx
    rw [← ih]
    exact gridMixed_congr n h hh L _ _ (fun a ha => gridDeriv_comm n h j i p o (hh j) (hh i) u a ha) idx hidx

/-- C33: the discrete derivative commutes with the shifts of the grid, along any coordinate. -/
theorem C33_commutes_with_shifts (n : ι → ℕ) (h : ι → K) (hh : ∀ i, h i ≠ 0) (L : List (ι × ℕ)) (j : ι) (k : ℤ)
    (u : (ι → ℕ) → K) (idx : ι → ℕ) (hidx : idx ∈ box n) :
    gridMixed n h L (fun a => u (sh n j k a)) idx = gridMixed n h L u (sh n j k idx) := by
  induction L generalizing u with
  | nil => rfl
  | cons p L ih =>
    obtain ⟨i, o⟩ := p
    show gridMixed n h L _ idx = gridMixed n h L _ _
    rw [← ih]
    exact gridMixed_congr n h hh L _ _ (fun a ha => gridDeriv_sh n h i o (hh i) j k u a ha) idx hidx

section charZero

variable [CharZero K]

omit [Fintype ι] in
theorem gridDeriv_const (n : ι → ℕ) (h : ι → K) (i : ι) (o : ℕ) (hh : h i ≠ 0) (ho : 1 ≤ o) (c : K) (idx : ι → ℕ) :
    gridDeriv n h i o (fun _ => c) idx = 0 := by
  rw [gridDeriv_eq_sum n h i o hh]
  have := unit_moment (K := K) o 0 (by omega)
  rw [if_neg (by omega)] at this
  simp only [pow_zero, mul_one] at this
  have h2 : ∀ ν ∈ Finset.range (o + 1), unitWeight K o ν / h i ^ o * c = c / h i ^ o * unitWeight K o ν := by
    intro ν _; ring
  rw [Finset.sum_congr rfl h2, ← Finset.mul_sum, this, mul_zero]

omit [Fintype ι] [CharZero K] in
theorem gridMixed_zero (n : ι → ℕ) (h : ι → K) (hh : ∀ i, h i ≠ 0) (L : List (ι × ℕ)) (idx : ι → ℕ) :
    gridMixed n h L (fun _ => (0 : K)) idx = 0 := by
  induction L with
  | nil => rfl
  | cons p L ih =>
    obtain ⟨i, o⟩ := p
    show gridMixed n h L (gridDeriv n h i o _) idx = 0
    have : gridDeriv n h i o (fun _ => (0 : K)) = fun _ => 0 := by
      funext a
      rw [gridDeriv_eq_sum n h i o (hh i)]; simp
    rw [this, ih]

omit [Fintype ι] in
/-- C33: the discrete derivative vanishes on constants. -/
theorem C33_constants (n : ι → ℕ) (h : ι → K) (hh : ∀ i, h i ≠ 0) (L : List (ι × ℕ)) (hL : ∃ p ∈ L, 1 ≤ p.2) (c : K)
    (idx : ι → ℕ) : gridMixed n h L (fun _ => c) idx = 0 := by
  induction L generalizing c with
  | nil => simp at hL
  | cons p L ih =>
    obtain ⟨i, o⟩ := p
    show gridMixed n h L (gridDeriv n h i o _) idx = 0
    by_cases ho : 1 ≤ o
    · have : gridDeriv n h i o (fun _ => c) = fun _ => 0 := funext (gridDeriv_const n h i o (hh i) ho c)
      rw [this, gridMixed_zero n h hh]
    · obtain rfl : o = 0 := by omega
      have : gridDeriv n h i 0 (fun _ => c) = fun _ => c := by
        funext a
        rw [gridDeriv_eq_sum n h i 0 (hh i)]
        have := unit_moment (K := K) 0 0 (by omega)
        simp only [if_true, zero_add, Finset.sum_range_one, pow_zero, mul_one] at this
        simp [this]
      rw [this]
      refine ih ?_ c
      obtain ⟨p, hp, h1⟩ := hL
      rcases List.mem_cons.1 hp with rfl | hp
      · simp at h1
      · exact ⟨p, hp, h1⟩

theorem gridDeriv_by_parts (n : ι → ℕ) (h : ι → K) (i : ι) (o : ℕ) (hh : h i ≠ 0) (u v : (ι → ℕ) → K) :
    ∑ idx ∈ box n, v idx * gridDeriv n h i o u idx = (-1) ^ o * ∑ idx ∈ box n, gridDeriv n h i o v idx * u idx := by
  simp only [gridDeriv_eq_sum n h i o hh, Finset.mul_sum, Finset.sum_mul]
  rw [Finset.sum_comm]
  conv_rhs => rw [Finset.sum_comm, ← Finset.sum_range_reflect]
  refine Finset.sum_congr rfl (fun ν hν => ?_)
  rw [Finset.mem_range] at hν
  have e1 : o + 1 - 1 - ν = o - ν := by omega
  rw [e1, unitWeight_reflect o ν (by omega), off_reflect o ν (by omega)]
  conv_rhs => rw [← sum_sh n i (off o ν)]
  refine (Finset.sum_congr rfl (fun idx hidx => ?_)).symm
  have hi := (mem_box n idx).1 hidx i
  rw [sh_sh n i _ _ _ hi, add_neg_cancel, sh_zero n i idx hi]
  have hs : ((-1 : K) ^ o) * (-1) ^ o = 1 := by rw [← mul_pow]; simp
  linear_combination (unitWeight K o ν / h i ^ o * v idx * u (sh n i (off o ν) idx)) * hs

/-- C33: discrete integration by parts, with the sign `(-1)^o` where `o` is the total order. -/
theorem C33_integration_by_parts (n : ι → ℕ) (h : ι → K) (hh : ∀ i, h i ≠ 0) (L : List (ι × ℕ)) (u v : (ι → ℕ) → K) :
    ∑ idx ∈ box n, v idx * gridMixed n h L u idx
      = (-1) ^ (L.map Prod.snd).sum * ∑ idx ∈ box n, gridMixed n h L v idx * u idx := by
  induction L generalizing u v with
  | nil => simp [gridMixed]
  | cons p L ih =>
    obtain ⟨i, o⟩ := p
    show ∑ idx ∈ box n, v idx * gridMixed n h L (gridDeriv n h i o u) idx
      = (-1) ^ (o + (L.map Prod.snd).sum) * ∑ idx ∈ box n, gridMixed n h L (gridDeriv n h i o v) idx * u idx
    rw [ih, gridDeriv_by_parts n h i o (hh i), pow_add, mul_assoc, mul_left_comm]
    congr 2
    refine Finset.sum_congr rfl (fun idx hidx => ?_)
    rw [gridMixed_gridDeriv n h hh L i o v idx hidx]

/-- C33: the discrete derivative sums to zero over the grid (conservation). -/
theorem C33_sum_zero (n : ι → ℕ) (h : ι → K) (hh : ∀ i, h i ≠ 0) (L : List (ι × ℕ)) (hL : ∃ p ∈ L, 1 ≤ p.2)
    (u : (ι → ℕ) → K) : ∑ idx ∈ box n, gridMixed n h L u idx = 0 := by
  have := C33_integration_by_parts n h hh L u (fun _ => 1)
  simp only [one_mul] at this
  rw [this]
  simp only [C33_constants n h hh L hL, zero_mul, Finset.sum_const_zero, mul_zero]

end charZero

/-- Non-vacuity: a 4×3 grid, the derivative `∂x²∂y` of a non-constant array is not zero and sums to zero. -/
example : let n : Fin 2 → ℕ := ![4, 3]
    let h : Fin 2 → ℚ := ![1/4, 1/3]
    let u : (Fin 2 → ℕ) → ℚ := fun a => (a 0 : ℚ) ^ 2 * (a 1 : ℚ)
    gridMixed n h [(0, 2), (1, 1)] u ![0, 0] ≠ 0 ∧ ∑ idx ∈ box n, gridMixed n h [(0, 2), (1, 1)] u idx = 0 := by
  intro n h u
  refine ⟨by decide +kernel, C33_sum_zero n h ?_ _ ⟨(0, 2), by simp, by simp⟩ u⟩
  intro i
  fin_cases i <;> simp [h]

end Sympkf.FinDiff
