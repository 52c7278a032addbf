import Mathlib.LinearAlgebra.Matrix.Adjugate
import Mathlib.LinearAlgebra.Matrix.NonsingularInverse
import Verif.Lemmas.PkfStat

/-!
# Lemmas: the complete systems and the change of tensor
-/

set_option autoImplicit false

namespace Sympkf.Spec

open Text Rand PKF Pkf

variable {R : Type} [CommRing R] [Algebra ℚ R] {S : Interp R} {A : Subalgebra ℚ R} {P : Set R} {C : Set Str}
  {K : Pkf} {coords : List Str}

/-! ## Lists of equations -/

/-- The equations are true and are the trends of the quantities `us`, in this order. -/
def Trends (S : Interp R) (P : Set R) (C : Set Str) (us : List R) (l : List Eqn) : Prop :=
  List.Forall₂ (fun u q => den S q.1 = S.D time u ∧ Valid S P C q) us l

theorem Trends.append {us vs : List R} {l m : List Eqn} (h1 : Trends S P C us l) (h2 : Trends S P C vs m) :
    Trends S P C (us ++ vs) (l ++ m) := List.rel_append h1 h2

theorem Trends.map {us : List R} {l : List Eqn} (h : Trends S P C us l) (g : Eqn → Eqn)
    (hg : ∀ q, Valid S P C q → den S (g q).1 = den S q.1 ∧ Valid S P C (g q)) : Trends S P C us (l.map g) := by
  unfold Trends
  rw [List.forall₂_map_right_iff]
  exact h.imp (fun u q hq => ⟨(hg q hq.2).1.trans hq.1, (hg q hq.2).2⟩)

theorem Trends.valid {us : List R} {l : List Eqn} (h : Trends S P C us l) : ∀ q ∈ l, Valid S P C q := by
  intro q hq
  obtain ⟨u, -, h1⟩ := forall₂_right h q hq
  exact h1.2

theorem Trends.of {α : Type} {r : α → Eqn → Prop} (v : α → R) {l : List α} {m : List Eqn} (h : List.Forall₂ r l m)
    (hr : ∀ a ∈ l, ∀ q, r a q → den S q.1 = S.D time (v a) ∧ Valid S P C q) : Trends S P C (l.map v) m := by
  unfold Trends
  rw [List.forall₂_map_left_iff]
  exact Setting.forall₂_mem h hr

/-! ## Determinants -/

theorem den_sumEx (l : List Ex) : den S (sumEx l) = (l.map (den S)).sum := by
  induction l with
  | nil => exact map_zero _
  | cons e l ih =>
    show den S e + den S (sumEx l) = _
    rw [ih]; rfl

theorem regular_sumEx (l : List Ex) (h : ∀ e ∈ l, Regular S P C e) : Regular S P C (sumEx l) := by
  induction l with
  | nil => exact trivial
  | cons e l ih => exact ⟨h e (by simp), ih (fun e he => h e (by simp [he]))⟩

theorem sum_map_range {M : Type} [AddCommMonoid M] (n : ℕ) (f : ℕ → M) : ((List.range n).map f).sum = ∑ i : Fin n, f i := by
  rw [← Finset.sum_range]
  induction n with
  | zero => rfl
  | succ n ih => rw [List.range_succ, List.map_append, List.sum_append, ih, Finset.sum_range_succ]; simp

/-- The matrix of the values. -/
def mat (S : Interp R) (n : ℕ) (M : ℕ → ℕ → Ex) : Matrix (Fin n) (Fin n) R := fun i j => den S (M i j)

theorem den_detEx (n : ℕ) (M : ℕ → ℕ → Ex) : den S (detEx n M) = (mat S n M).det := by
  induction n generalizing M with
  | zero => rw [Matrix.det_fin_zero]; exact map_one _
  | succ n ih =>
    rw [detEx, den_sumEx, List.map_map, sum_map_range, Matrix.det_succ_row_zero]
    refine Finset.sum_congr rfl (fun j _ => ?_)
    show algebraMap ℚ R ((-1) ^ (j : ℕ)) * den S (M 0 j) * den S (detEx n _) = _
    rw [ih, map_pow, map_neg, map_one]
    congr 2
    ext i k
    show den S (M (i + 1) (if (k : ℕ) < j then k else k + 1)) = den S (M (i.succ : Fin (n + 1)) (j.succAbove k))
    congr 2
    unfold Fin.succAbove
    simp only [Fin.lt_def, Fin.val_castSucc]
    split <;> rfl

theorem regular_detEx (n : ℕ) (M : ℕ → ℕ → Ex) (h : ∀ i j, Regular S P C (M i j)) : Regular S P C (detEx n M) := by
  induction n generalizing M with
  | zero => exact trivial
  | succ n ih =>
    apply regular_sumEx
    intro e he
    obtain ⟨j, -, rfl⟩ := List.mem_map.1 he
    exact ⟨⟨trivial, h _ _⟩, ih _ (fun _ _ => h _ _)⟩

theorem regular_invEx (n : ℕ) (M : ℕ → ℕ → Ex) (h : ∀ i j, Regular S P C (M i j)) (hd : den S (detEx n M) ∈ P) (i j : ℕ) :
    Regular S P C (invEx n M i j) :=
  ⟨⟨trivial, regular_detEx _ _ (fun _ _ => h _ _)⟩, regular_detEx _ _ h, .inr hd⟩

theorem den_invEx (hpw : ∀ r ∈ P, S.pw r (-1) * r = 1) (n : ℕ) (M : ℕ → ℕ → Ex) (hd : den S (detEx n M) ∈ P)
    (G : Matrix (Fin n) (Fin n) R) (hG : mat S n M * G = 1) (i j : Fin n) : den S (invEx n M i j) = G i j := by
  have hpos : 0 < n := i.pos
  obtain ⟨m, rfl⟩ : ∃ m, n = m + 1 := ⟨n - 1, by omega⟩
  have e1 : den S (invEx (m + 1) M i j) = (mat S (m + 1) M).adjugate i j * S.pw (mat S (m + 1) M).det (-1) := by
    show algebraMap ℚ R ((-1) ^ ((j : ℕ) + i)) * den S (detEx m _) * S.pw (den S (detEx (m + 1) M)) (-1) = _
    rw [den_detEx, den_detEx, Matrix.adjugate_fin_succ_eq_det_submatrix, map_pow, map_neg, map_one]
    congr 3
    ext a b
    show den S (M (if (a : ℕ) < j then a else a + 1) (if (b : ℕ) < i then b else b + 1)) =
      den S (M (j.succAbove a) (i.succAbove b))
    have : ∀ (j : Fin (m + 1)) (a : Fin m), (j.succAbove a : ℕ) = if (a : ℕ) < j then (a : ℕ) else a + 1 := by
      intro j a
      unfold Fin.succAbove
      simp only [Fin.lt_def, Fin.val_castSucc]
      split <;> rfl
    rw [this, this]
  rw [e1]
  rw [den_detEx] at hd
  have h2 := hpw _ hd
  have h3 : (mat S (m + 1) M).adjugate = (mat S (m + 1) M).det • G := by
    have := congrArg ((mat S (m + 1) M).adjugate * ·) hG
    simp only [← mul_assoc, Matrix.adjugate_mul, mul_one] at this
    rw [← this, Matrix.smul_mul, one_mul]
  rw [h3, Matrix.smul_apply, smul_eq_mul]
  linear_combination (G i j) * h2

theorem den_sandwich (n : ℕ) (M N : ℕ → ℕ → Ex) (i j : Fin n) :
    den S (sandwich n M N i j) = (mat S n M * mat S n N * mat S n M) i j := by
  rw [sandwich, den_sumEx, List.map_map, sum_map_range, Matrix.mul_apply]
  refine Finset.sum_congr rfl (fun l _ => ?_)
  show den S (sumEx _) * den S (M l j) = _
  rw [den_sumEx, List.map_map, sum_map_range, Matrix.mul_apply]
  rfl

theorem regular_sandwich (n : ℕ) (M N : ℕ → ℕ → Ex) (hM : ∀ i j, Regular S P C (M i j)) (hN : ∀ i j, Regular S P C (N i j))
    (i j : ℕ) : Regular S P C (sandwich n M N i j) := by
  apply regular_sumEx
  intro e he
  obtain ⟨l, -, rfl⟩ := List.mem_map.1 he
  refine ⟨regular_sumEx _ ?_, hM _ _⟩
  intro e he
  obtain ⟨k, -, rfl⟩ := List.mem_map.1 he
  exact ⟨hM _ _, hN _ _⟩

/-- The trend of an inverse: `T g = c` implies `c T' = - T g' T`. -/
theorem trend_inverse (hS : Diff S) (x : Str) (n : ℕ) (T g : Matrix (Fin n) (Fin n) R) (c : R) (hc : S.D x c = 0)
    (h : T * g = c • 1) (hu : IsUnit c) : c • T.map (S.D x) = - (T * g.map (S.D x) * T) := by
  have D0 : S.D x 0 = 0 := D_zero hS x
  have hsum : ∀ (s : Finset (Fin n)) (f : Fin n → R), S.D x (∑ i ∈ s, f i) = ∑ i ∈ s, S.D x (f i) := by
    intro s f
    induction s using Finset.induction_on with
    | empty => simpa using D0
    | insert a s ha ih => rw [Finset.sum_insert ha, Finset.sum_insert ha, hS.D_add, ih]
  have hD : T.map (S.D x) * g + T * g.map (S.D x) = 0 := by
    ext i j
    have e := congrFun (congrFun h i) j
    have e2 := congrArg (S.D x) e
    rw [Matrix.mul_apply, hsum] at e2
    simp only [hS.D_mul, Finset.sum_add_distrib] at e2
    rw [Matrix.add_apply, Matrix.mul_apply, Matrix.mul_apply]
    simp only [Matrix.map_apply, Matrix.zero_apply]
    rw [e2, Matrix.smul_apply, smul_eq_mul, Matrix.one_apply]
    split
    · rw [mul_one, hc]
    · rw [mul_zero, D0]
  have hcomm : g * T = c • 1 := by
    obtain ⟨u, rfl⟩ := hu
    have h1 : ((↑u⁻¹ : R) • T) * g = 1 := by
      rw [Matrix.smul_mul, h, smul_smul, Units.inv_mul, one_smul]
    have h2 := _root_.mul_eq_one_comm.1 h1
    rw [Matrix.mul_smul] at h2
    rw [← h2, smul_smul, Units.mul_inv, one_smul]
  have h3 := congrArg (· * T) hD
  simp only [add_mul, zero_mul] at h3
  rw [mul_assoc (T.map (S.D x)) g T, hcomm, Matrix.mul_smul, mul_one] at h3
  exact eq_neg_of_add_eq_zero_left h3

/-! ## The tensors -/

/-- The symbols of the tensor `T` are the components of the matrix `c g^(-1)`, of positive determinant. -/
structure Inverse (S : Interp R) (P : Set R) (c : ℚ) (f : Field) (T : ℕ → ℕ → Ex) : Prop where
  mul : ∀ i j, i < f.spatial.length → j < f.spatial.length →
    ∑ k ∈ Finset.range f.spatial.length, den S (T i k) * den S (f.metric k j) = if i = j then algebraMap ℚ R c else 0
  det : (mat S f.spatial.length T).det ∈ P

namespace Setting

variable (h : Setting S A P C K coords)

include h

theorem pw_neg_one : ∀ r ∈ P, S.pw r (-1) * r = 1 := by
  intro r hr
  have h1 := h.calculus.pw_add r hr (-1) 1
  have h2 := h.stoch.pw_nat r 1
  have h3 := h.stoch.pw_nat r 0
  rw [Nat.cast_one, pow_one] at h2
  rw [Nat.cast_zero, pow_zero] at h3
  rw [h2, neg_add_cancel, h3] at h1
  exact h1.symm

theorem regular_coords (f : Field) (hf : f ∈ K.fields) (u : Str) : Regular S P C (.fn u f.coordinates) := by
  intro ho
  rw [h.same f hf] at ho
  exact absurd ho h.omega_notMem

/-- `metric -> c T^(-1)`. -/
theorem metricTo_valid (c : ℚ) (hc : c ≠ 0) (f : Field) (hf : f ∈ K.fields) (T : ℕ → ℕ → Ex)
    (hT : ∀ i j, Regular S P C (T i j)) (hI : Inverse S P c f T) (ij : ℕ × ℕ) (hij : ij ∈ pairs f.spatial.length) :
    Valid S P C (f.metric ij.1 ij.2, .mul (.num c) (invEx f.spatial.length T ij.1 ij.2)) := by
  obtain ⟨i, j⟩ := ij
  have hij' := (mem_pairs _ _ _).1 hij
  have hd : den S (detEx f.spatial.length T) ∈ P := by rw [den_detEx]; exact hI.det
  refine ⟨h.regular_coords f hf _, ⟨trivial, regular_invEx _ _ hT hd _ _⟩, ?_⟩
  have e : mat S f.spatial.length T * ((algebraMap ℚ R c⁻¹) • mat S f.spatial.length f.metric) = 1 := by
    ext a b
    rw [Matrix.mul_smul, Matrix.smul_apply, Matrix.mul_apply, smul_eq_mul]
    have := hI.mul a b a.2 b.2
    rw [Finset.sum_range] at this
    simp only [mat]
    rw [this, Matrix.one_apply]
    simp only [Fin.ext_iff]
    split
    · rw [← map_mul, inv_mul_cancel₀ hc, map_one]
    · rw [mul_zero]
  have := den_invEx h.pw_neg_one _ T hd _ e ⟨i, by omega⟩ ⟨j, by omega⟩
  simp only at this
  show den S (f.metric i j) = algebraMap ℚ R c * den S (invEx _ T i j)
  rw [this, Matrix.smul_apply, smul_eq_mul, ← mul_assoc, ← map_mul, mul_inv_cancel₀ hc, map_one, one_mul]
  rfl

theorem subsEq_spec (d : Dict Ex Ex) (hd : ∀ kv ∈ d, Valid S P C kv) (q : Eqn) (hq : Valid S P C q) :
    den S (K.subsEq d q).1 = den S q.1 ∧ Valid S P C (K.subsEq d q) := by
  obtain ⟨a1, a2⟩ := h.subs_spec d hd q.1 hq.1
  obtain ⟨b1, b2⟩ := h.subs_spec d hd q.2 hq.2.1
  exact ⟨a1, a2, b2, by show den S (K.subs d q.1) = den S (K.subs d q.2); rw [a1, b1, hq.2.2]⟩

theorem applyClosure_spec (user : Dict Ex Ex) (hu : ∀ kv ∈ user, Valid S P C kv) (us : List R) (l : List Eqn)
    (hl : Trends S P C us l) : Trends S P C us (K.applyClosure user l) := by
  unfold applyClosure
  split
  · exact hl
  · exact hl.map _ (h.subsEq_spec user hu)

theorem cleanDict_valid (hm : ∀ f ∈ K.fields, den S f.value = S.E (den S f.random)) : ∀ kv ∈ K.cleanDict, Valid S P C kv := by
  intro kv hkv
  have := mem_trends _ kv hkv
  obtain ⟨f, hf, rfl⟩ := List.mem_map.1 this
  exact ⟨.inr ⟨_, _, rfl⟩, h.regular_coords f hf _, (hm f hf).symm⟩

theorem clean_spec (hm : ∀ f ∈ K.fields, den S f.value = S.E (den S f.random)) (us : List R) (l : List Eqn)
    (hl : Trends S P C us l) : Trends S P C us (K.clean l) := hl.map _ (h.subsEq_spec _ (h.cleanDict_valid hm))

/-- The equations of the tensor `T = c g^(-1)`. -/
theorem tensorEqs_spec (c factor : ℚ) (hc : c ≠ 0) (hfac : factor = -c⁻¹) (metricTo metricTrend : Dict Ex Ex)
    (h1 : ∀ kv ∈ metricTo, Valid S P C kv) (h2 : ∀ kv ∈ metricTrend, Valid S P C kv) (T : Field → ℕ → ℕ → Ex) (f : Field)
    (hf : f ∈ K.fields) (hT : ∀ i j, Regular S P C (T f i j)) (hI : Inverse S P c f (T f)) :
    Trends S P C ((pairs f.spatial.length).map (fun ij => den S (T f ij.1 ij.2)))
      (K.tensorEqs factor metricTo metricTrend T f) := by
  unfold tensorEqs Trends
  rw [List.forall₂_map_left_iff, List.forall₂_map_right_iff, List.forall₂_same]
  rintro ⟨i, j⟩ hij
  have hij' := (mem_pairs _ _ _).1 hij
  have hreg : Regular S P C (.mul (.num factor) (sandwich f.spatial.length (T f) (fun k l => dt (f.metric k l)) i j)) :=
    ⟨trivial, regular_sandwich _ _ _ hT (fun k l => h.regular_dt _ (h.regular_coords f hf _)) _ _⟩
  obtain ⟨a1, a2⟩ := h.subs_spec _ h2 _ hreg
  obtain ⟨b1, b2⟩ := h.subs_spec _ h1 _ a2
  refine ⟨rfl, h.regular_dt _ (hT i j), b2, ?_⟩
  show S.D time (den S (T f i j)) = den S _
  rw [b1, a1]
  show _ = algebraMap ℚ R factor * den S (sandwich _ _ _ i j)
  have e1 := den_sandwich (S := S) f.spatial.length (T f) (fun k l => dt (f.metric k l)) ⟨i, by omega⟩ ⟨j, by omega⟩
  simp only at e1
  rw [e1]
  have Dc : S.D time (algebraMap ℚ R c) = 0 := D_algebraMap h.stoch.diff time c
  have e2 : mat S f.spatial.length (T f) * mat S f.spatial.length f.metric = algebraMap ℚ R c • 1 := by
    ext a b
    have := hI.mul a b a.2 b.2
    rw [Finset.sum_range] at this
    rw [Matrix.mul_apply, Matrix.smul_apply, Matrix.one_apply, smul_eq_mul]
    simp only [mat, Fin.ext_iff]
    rw [this]
    split
    · rw [mul_one]
    · rw [mul_zero]
  have hu : IsUnit (algebraMap ℚ R c) := (IsUnit.mk0 c hc).map (algebraMap ℚ R)
  have e3 := trend_inverse h.stoch.diff time _ _ _ _ Dc e2 hu
  have e4 : (mat S f.spatial.length f.metric).map (S.D time) = mat S f.spatial.length (fun k l => dt (f.metric k l)) := rfl
  rw [e4] at e3
  have e5 := congrFun (congrFun e3 ⟨i, by omega⟩) ⟨j, by omega⟩
  rw [Matrix.smul_apply, smul_eq_mul, Matrix.neg_apply] at e5
  have e6 : (Matrix.map (mat S f.spatial.length (T f)) (S.D time)) ⟨i, by omega⟩ ⟨j, by omega⟩ = S.D time (den S (T f i j)) := rfl
  rw [e6] at e5
  have e7 : algebraMap ℚ R c⁻¹ * algebraMap ℚ R c = 1 := by rw [← map_mul, inv_mul_cancel₀ hc, map_one]
  rw [hfac, map_neg]
  linear_combination (algebraMap ℚ R c⁻¹) * e5 - (S.D time (den S (T f i j))) * e7

end Setting

end Sympkf.Spec
