import Mathlib.Data.List.GetD
import Mathlib.Tactic.FieldSimp
import Mathlib.Tactic.IntervalCases
import Verif.Lemmas.Truth
import Verif.Model.Correlation
import Verif.Props.Closure

/-!
# The closures against the true expectations (C104)
-/

set_option autoImplicit false

namespace Sympkf.Clo

open Text POD Rand PKF Spec Spec.Clo Spec.Truth Sympkf.Cor
open scoped RealInnerProductSpace

variable {d : ℕ} {H : Type} [NormedAddCommGroup H] [InnerProductSpace ℝ H] {P : Params ((Fin d → ℝ) → ℝ)} {f : Field}

theorem factorial_pos (a : List ℤ) : 0 < factorial a := by
  unfold factorial
  refine List.prod_pos ?_
  intro n hn
  obtain ⟨m, -, rfl⟩ := List.mem_map.1 hn
  exact Nat.factorial_pos _

theorem factorial_add_lt {m n : ℕ} (hm : m ≠ 0) (hn : n ≠ 0) : m.factorial * n.factorial < (m + n).factorial := by
  rw [← Nat.add_choose_mul_factorial_mul_factorial m n, mul_assoc]
  have h1 : 0 < m.factorial * n.factorial := Nat.mul_pos (Nat.factorial_pos _) (Nat.factorial_pos _)
  have h2 : 1 < (m + n).choose n := by
    have h := Nat.choose_ne_zero (n := m + n) (k := n) (by omega)
    have h' : (m + n).choose n ≠ 1 := by
      rw [Ne, Nat.choose_eq_one_iff]
      omega
    omega
  calc m.factorial * n.factorial = 1 * (m.factorial * n.factorial) := (one_mul _).symm
    _ < _ := Nat.mul_lt_mul_of_pos_right h2 h1

theorem factorial_le {m k : ℕ} {a : List ℤ} (ha : IsMultiIndex m k a) : factorial a ≤ k.factorial := by
  obtain ⟨-, hnn, hs⟩ := ha
  induction a generalizing k with
  | nil => exact Nat.factorial_pos _
  | cons b a ih =>
    have hb : 0 ≤ b := hnn b List.mem_cons_self
    rw [List.sum_cons] at hs
    have hs' : 0 ≤ a.sum := List.sum_nonneg fun c hc => hnn c (List.mem_cons_of_mem _ hc)
    have h := ih (k := a.sum.toNat) (fun c hc => hnn c (List.mem_cons_of_mem _ hc)) (Int.toNat_of_nonneg hs').symm
    have hk : k = b.toNat + a.sum.toNat := by omega
    calc factorial (b :: a) = b.toNat.factorial * factorial a := rfl
      _ ≤ b.toNat.factorial * a.sum.toNat.factorial := Nat.mul_le_mul_left _ h
      _ ≤ k.factorial := by rw [hk]; exact Nat.le_of_dvd (Nat.factorial_pos _) (Nat.factorial_mul_factorial_dvd_factorial_add _ _)

/-- If two coordinates occur, `a!` is smaller than `|a|!`. -/
theorem factorial_mixed {m k : ℕ} {a : List ℤ} (ha : IsMultiIndex m k a) {i j : ℕ} (hij : i < j) (hi : a.getD i 0 ≠ 0)
    (hj : a.getD j 0 ≠ 0) : factorial a < k.factorial := by
  obtain ⟨hl, hnn, hs⟩ := ha
  induction a generalizing m k i j with
  | nil => simp at hi
  | cons b a ih =>
    have hb : 0 ≤ b := hnn b List.mem_cons_self
    rw [List.sum_cons] at hs
    have hn' : ∀ c ∈ a, 0 ≤ c := fun c hc => hnn c (List.mem_cons_of_mem _ hc)
    have hs' : 0 ≤ a.sum := List.sum_nonneg hn'
    have hk : k = b.toNat + a.sum.toNat := by omega
    obtain ⟨j, rfl⟩ : ∃ j', j = j' + 1 := ⟨j - 1, by omega⟩
    rw [List.getD_cons_succ] at hj
    have hIM : IsMultiIndex a.length a.sum.toNat a := ⟨rfl, hn', (Int.toNat_of_nonneg hs').symm⟩
    rcases i with _ | i
    · rw [List.getD_cons_zero] at hi
      have hpos : a.sum ≠ 0 := by
        intro h0
        refine hj ?_
        by_cases hlt : j < a.length
        · rw [List.getD_eq_getElem _ _ hlt]
          have hle := List.single_le_sum hn' (a[j]) (List.getElem_mem hlt)
          have := hn' _ (List.getElem_mem hlt)
          omega
        · rw [List.getD_eq_default _ _ (by omega)]
      calc factorial (b :: a) = b.toNat.factorial * factorial a := rfl
        _ ≤ b.toNat.factorial * a.sum.toNat.factorial := Nat.mul_le_mul_left _ (factorial_le hIM)
        _ < k.factorial := by rw [hk]; exact factorial_add_lt (by omega) (by omega)
    · rw [List.getD_cons_succ] at hi
      have h := ih (m := a.length) (k := a.sum.toNat) (i := i) (j := j) (by omega) hi hj rfl hn' (Int.toNat_of_nonneg hs').symm
      calc factorial (b :: a) = b.toNat.factorial * factorial a := rfl
        _ < b.toNat.factorial * a.sum.toNat.factorial := Nat.mul_lt_mul_of_pos_left h (Nat.factorial_pos _)
        _ ≤ k.factorial := by rw [hk]; exact Nat.le_of_dvd (Nat.factorial_pos _) (Nat.factorial_mul_factorial_dvd_factorial_add _ _)

/-- **C104** Let a random field have the correlations of which the object takes the Taylor expansion.  `closure(n)` replaces
`E(eps D^a eps)`, for every `a` of degree at most `n`, with `|a|! / a!` times its true value. -/
theorem C104_closure (hn : f.spatial.Nodup) (ho : ∀ g l, (P.order g l).Perm l) (hd : f.spatial.length = d) (h0 : d ≠ 0)
    (rho : (Fin d → ℝ) → (Fin d → ℝ) → ℝ) (hP : TaylorOf rho P.correlation) (e : (Fin d → ℝ) → H) (he : ContDiff ℝ (⊤ : ℕ∞) e)
    (h : Correlated e rho) (n : ℕ) :
    ∃ c s, closure P f n init = (.ok c, s) ∧ ∀ k ≤ n, ∀ a, IsMultiIndex d k a →
      c.get? (epsTerm f a) = some (fun x => (k.factorial / factorial a : ℝ) * moment e (a.map Int.toNat) x) := by
  obtain ⟨c, s, h1, h2⟩ := C58_closure (P := P) hn ho (by rintro h; rw [h] at hd; exact h0 hd.symm) n
  refine ⟨c, s, h1, fun k hk a ha => (h2 _ _).2 ⟨k, a, hk, by rw [hd]; exact ha, rfl, ?_⟩⟩
  funext x
  have h3 := hP (a.map Int.toNat) (by rw [List.length_map]; exact ha.1) x
  rw [partials_correlation he h] at h3
  have h4 : ((a.map Int.toNat).map Nat.factorial).prod = factorial a := by
    unfold factorial
    rw [List.map_map]
    rfl
  rw [h4] at h3
  have h5 : (factorial a : ℝ) ≠ 0 := Nat.cast_ne_zero.2 (factorial_pos a).ne'
  rw [← h3]
  simp only [Pi.mul_apply, coefficient, Pi.natCast_apply]
  field_simp

/-- **C104** For derivatives with respect to a single coordinate, in particular for every derivative in one dimension, the closure
gives the true expectation. -/
theorem C104_pure (hn : f.spatial.Nodup) (ho : ∀ g l, (P.order g l).Perm l) (hd : f.spatial.length = d) (h0 : d ≠ 0)
    (rho : (Fin d → ℝ) → (Fin d → ℝ) → ℝ) (hP : TaylorOf rho P.correlation) (e : (Fin d → ℝ) → H) (he : ContDiff ℝ (⊤ : ℕ∞) e)
    (h : Correlated e rho) (n : ℕ) :
    ∃ c s, closure P f n init = (.ok c, s) ∧ ∀ k ≤ n, ∀ a, IsMultiIndex d k a → (∃ i, ∀ j, j ≠ i → a.getD j 0 = 0) →
      c.get? (epsTerm f a) = some (moment e (a.map Int.toNat)) := by
  obtain ⟨c, s, h1, h2⟩ := C104_closure hn ho hd h0 rho hP e he h n
  refine ⟨c, s, h1, fun k hk a ha hp => ?_⟩
  rw [h2 k hk a ha, factorial_pure ha hp]
  congr 1
  funext x
  rw [div_self (Nat.cast_ne_zero.2 k.factorial_ne_zero), one_mul]

/-- **C104** For the other derivatives the closure is wrong wherever the expectation is not zero. -/
theorem C104_mixed (hn : f.spatial.Nodup) (ho : ∀ g l, (P.order g l).Perm l) (hd : f.spatial.length = d) (h0 : d ≠ 0)
    (rho : (Fin d → ℝ) → (Fin d → ℝ) → ℝ) (hP : TaylorOf rho P.correlation) (e : (Fin d → ℝ) → H) (he : ContDiff ℝ (⊤ : ℕ∞) e)
    (h : Correlated e rho) (n : ℕ) :
    ∃ c s, closure P f n init = (.ok c, s) ∧ ∀ k ≤ n, ∀ a, IsMultiIndex d k a → (∃ i j, i < j ∧ a.getD i 0 ≠ 0 ∧ a.getD j 0 ≠ 0) →
      ∃ v, c.get? (epsTerm f a) = some v ∧ ∀ x, v x = moment e (a.map Int.toNat) x ↔ moment e (a.map Int.toNat) x = 0 := by
  obtain ⟨c, s, h1, h2⟩ := C104_closure hn ho hd h0 rho hP e he h n
  refine ⟨c, s, h1, fun k hk a ha hp => ⟨_, h2 k hk a ha, fun x => ?_⟩⟩
  obtain ⟨i, j, hij, hi, hj⟩ := hp
  have hlt := factorial_mixed ha hij hi hj
  have h5 : (factorial a : ℝ) ≠ 0 := Nat.cast_ne_zero.2 (factorial_pos a).ne'
  have h6 : (k.factorial / factorial a : ℝ) ≠ 1 := by
    rw [Ne, div_eq_one_iff_eq h5]
    intro h
    have := Nat.cast_injective (R := ℝ) h
    omega
  constructor
  · intro h7
    by_contra h8
    exact h6 ((mul_eq_right₀ h8).1 h7)
  · intro h7
    rw [h7, mul_zero]

/-! ## The local Gaussian prototype in one dimension -/

theorem quad_one (M : Matrix (Fin 1) (Fin 1) ℝ) (v : Fin 1 → ℝ) : v ⬝ᵥ M.mulVec v = M 0 0 * v 0 ^ 2 := by
  simp [dotProduct, Matrix.mulVec]
  ring

theorem inv_one (M : Matrix (Fin 1) (Fin 1) ℝ) : M⁻¹ 0 0 = (M 0 0)⁻¹ := by
  rw [Matrix.inv_def, Matrix.adjugate_fin_one, Matrix.det_fin_one]
  simp

theorem local_taylor (rho : (Fin 1 → ℝ) → (Fin 1 → ℝ) → ℝ) (C : Series ((Fin 1 → ℝ) → ℝ)) (hC : TaylorOf rho C) (x : Fin 1 → ℝ) (q : ℝ)
    (hq : ∀ dx, rho x (x + dx) = Real.exp (-(q * dx 0 ^ 2))) :
    C [0] x = 1 ∧ C [1] x = 0 ∧ 2 * C [2] x = -(2 * q) ∧ C [3] x = 0 := by
  have h : ∀ k, (k.factorial : ℝ) * C [k] x = deriv^[k] (fun t : ℝ => Real.exp (-(q * t ^ 2))) 0 := by
    intro k
    have h1 := hC [k] rfl x
    have h2 : (fun dx => rho x (x + dx)) = fun dx => (fun t : ℝ => Real.exp (-(q * t ^ 2))) (dx 0) := funext hq
    rw [h2, partials_one, iterate_one (fun t : ℝ => Real.exp (-(q * t ^ 2))) k] at h1
    simpa using h1
  obtain ⟨g1, g2, g3⟩ := gauss_deriv q
  have h0 := h 0
  have h1 := h 1
  have h2 := h 2
  have h3 := h 3
  rw [g1] at h1
  rw [g2] at h2
  rw [g3] at h3
  simp [Nat.factorial] at h0 h1 h2 h3
  exact ⟨h0, h1, by linarith, h3⟩

variable {Q : Params ((Fin 1 → ℝ) → ℝ)} {y : Str}

/-- **C104** The local Gaussian prototype in one dimension, made with the aspect tensor `s` of a normalised random field (the inverse of
its metric): the expectations of orders zero, one and two of the closure are true, and that of order three is true exactly where the
derivative of the metric is zero. -/
theorem C104_local (hx : f.spatial = [y]) (ho : ∀ g l, (Q.order g l).Perm l) (g s : Tensor 1)
    (hQ : TaylorOf (locGaussian false g s) Q.correlation) (e : (Fin 1 → ℝ) → H) (he : ContDiff ℝ (⊤ : ℕ∞) e) (h1 : ∀ x, ⟪e x, e x⟫ = 1)
    (hs : ∀ x, (s x 0 0)⁻¹ = ⟪part 0 e x, part 0 e x⟫) (n : ℕ) (hn : 3 ≤ n) :
    ∃ c st, closure Q f n init = (.ok c, st) ∧ (∀ k : ℕ, k ≤ 2 → c.get? (epsTerm f [(k : ℤ)]) = some (moment e [k])) ∧
      ∃ v, c.get? (epsTerm f [3]) = some v ∧ ∀ x, v x = moment e [3] x ↔ part 0 (fun x => (s x 0 0)⁻¹) x = 0 := by
  have hl : f.spatial.length = 1 := by rw [hx]; rfl
  obtain ⟨c, st, hc, h2⟩ := C58_closure (P := Q) (f := f) (by rw [hx]; simp) ho (by rw [hx]; simp) n
  have hent : ∀ k ≤ n, c.get? (epsTerm f [(k : ℤ)]) = some ((k.factorial : (Fin 1 → ℝ) → ℝ) * coefficient Q.correlation [(k : ℤ)]) :=
    fun k hk => (h2 _ _).2 ⟨k, [(k : ℤ)], hk, ⟨hl.symm, by simp, by simp⟩, rfl, rfl⟩
  have hT : ∀ x, _ := fun x => local_taylor _ _ hQ x ((s x 0 0)⁻¹ / 2) (fun dx => by
    simp only [locGaussian]
    rw [if_neg (by simp), quad_one, inv_one]
    congr 2
    simp only [Matrix.smul_apply, Pi.sub_apply, Pi.add_apply, smul_eq_mul, mul_inv]
    ring)
  have hM := fun x => moments he h1 0 x
  refine ⟨c, st, hc, fun k hk => ?_, _, hent 3 hn, fun x => ?_⟩
  · rw [hent k (by omega)]
    congr 1
    funext x
    obtain ⟨t0, t1, t2, -⟩ := hT x
    obtain ⟨m1, m2, -⟩ := hM x
    interval_cases k
    · simp only [moment, partials_one, Function.iterate_zero, id, h1]
      simpa [coefficient] using t0
    · simp only [moment, partials_one, Function.iterate_one, m1]
      simpa [coefficient] using t1
    · simp only [moment, partials_one, m2, ← hs]
      simp only [Pi.mul_apply, Pi.natCast_apply, coefficient, List.map_cons, List.map_nil, Nat.factorial, Int.toNat_natCast]
      push_cast
      linarith
  · obtain ⟨-, -, -, t3⟩ := hT x
    obtain ⟨-, -, m3⟩ := hM x
    have hv : ((Nat.factorial 3 : (Fin 1 → ℝ) → ℝ) * coefficient Q.correlation [((3 : ℕ) : ℤ)]) x = 0 := by
      simp only [Pi.mul_apply, coefficient, List.map_cons, List.map_nil, Int.toNat_natCast, t3, mul_zero]
    rw [hv]
    simp only [moment, partials_one, m3, hs]
    constructor
    · intro h
      linarith
    · intro h
      rw [h, mul_zero]

/-- **C104** With the option `metric=True` the closure is wrong at the second order wherever the metric is not zero: it gives twice the
true value. -/
theorem C104_local_metric (hx : f.spatial = [y]) (ho : ∀ g l, (Q.order g l).Perm l) (g s : Tensor 1)
    (hQ : TaylorOf (locGaussian true g s) Q.correlation) (e : (Fin 1 → ℝ) → H) (he : ContDiff ℝ (⊤ : ℕ∞) e) (h1 : ∀ x, ⟪e x, e x⟫ = 1)
    (hg : ∀ x, g x 0 0 = ⟪part 0 e x, part 0 e x⟫) (n : ℕ) (hn : 2 ≤ n) :
    ∃ c st, closure Q f n init = (.ok c, st) ∧ c.get? (epsTerm f [2]) = some (fun x => 2 * moment e [2] x) ∧
      ∀ x, moment e [2] x = -g x 0 0 := by
  have hl : f.spatial.length = 1 := by rw [hx]; rfl
  obtain ⟨c, st, hc, h2⟩ := C58_closure (P := Q) (f := f) (by rw [hx]; simp) ho (by rw [hx]; simp) n
  have hm : ∀ x, moment e [2] x = -g x 0 0 := by
    intro x
    rw [hg]
    exact (moments he h1 0 x).2.1
  refine ⟨c, st, hc, (h2 _ _).2 ⟨2, [2], hn, ⟨hl.symm, by simp, by simp⟩, rfl, ?_⟩, hm⟩
  funext x
  obtain ⟨-, -, t2, -⟩ := local_taylor _ _ hQ x (g x 0 0) (fun dx => by
    simp only [locGaussian, if_true]
    rw [quad_one]
    congr 2
    simp only [Pi.sub_apply, Pi.add_apply]
    ring)
  rw [hm]
  simp only [Pi.mul_apply, Pi.natCast_apply, coefficient, List.map_cons, List.map_nil, Nat.factorial]
  push_cast
  linarith

end Sympkf.Clo
