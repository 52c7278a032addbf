import Verif.Lemmas.Tree
import Verif.Lemmas.Random
import Verif.Spec.Field

/-!
# Lemmas on fields and internal closures
-/

set_option autoImplicit false

namespace Sympkf

namespace Dict
variable {κ α : Type} [DecidableEq κ]

theorem mem_set (d : Dict κ α) (k : κ) (v : α) (kv : κ × α) (h : kv ∈ d.set k v) : kv = (k, v) ∨ kv ∈ d := by
  induction d with
  | nil => exact .inl (List.mem_singleton.1 h)
  | cons kv' d ih =>
    obtain ⟨k', v'⟩ := kv'
    simp only [set] at h
    split at h
    · rcases List.mem_cons.1 h with h | h
      · exact .inl h
      · exact .inr (List.mem_cons_of_mem _ h)
    · rcases List.mem_cons.1 h with h | h
      · exact .inr (by rw [h]; simp)
      · rcases ih h with h | h
        · exact .inl h
        · exact .inr (List.mem_cons_of_mem _ h)

theorem mem_update (d d' : Dict κ α) (kv : κ × α) (h : kv ∈ d.update d') : kv ∈ d ∨ kv ∈ d' := by
  unfold update at h
  induction d' generalizing d with
  | nil => exact .inl h
  | cons kv' d' ih =>
    rw [List.foldl_cons] at h
    rcases ih _ h with h | h
    · rcases mem_set _ _ _ _ h with h | h
      · exact .inr (by rw [h]; simp)
      · exact .inl h
    · exact .inr (List.mem_cons_of_mem _ h)

end Dict

namespace PKF

open Text POD Rand Spec

section Den
variable {R : Type} [CommRing R] [Algebra ℚ R] {S : Interp R} {A : Subalgebra ℚ R}

theorem derivs_filter (coords s : List Str) (r : R) :
    derivs S ((coords.filter (· ∈ s)).map (fun x => (x, s.count x))) r =
      derivs S (coords.map (fun x => (x, s.count x))) r := by
  induction coords generalizing r with
  | nil => rfl
  | cons x coords ih =>
    by_cases hx : x ∈ s
    · rw [List.filter_cons_of_pos (by simpa using hx)]
      simp only [List.map_cons, derivs, ih]
    · rw [List.filter_cons_of_neg (by simpa using hx), ih]
      simp only [List.map_cons, derivs, List.count_eq_zero_of_not_mem hx, Function.iterate_zero, id_eq]

theorem derivs_count (coords s : List Str) (r : R) :
    derivs S (coords.map (fun x => (x, s.count x))) r = Dα S coords (coords.map (fun x => ((s.count x : ℕ) : ℤ))) r := by
  unfold Dα
  congr 1
  induction coords with
  | nil => rfl
  | cons x coords ih => simp only [List.map_cons, List.zip_cons_cons, Int.toNat_natCast, ih]

theorem Dα_zero (coords : List Str) (r : R) : Dα S coords (coords.map (fun _ => (0 : ℤ))) r = r := by
  unfold Dα
  induction coords with
  | nil => rfl
  | cons x coords ih =>
    simp only [List.map_cons, List.zip_cons_cons, derivs, Int.toNat_zero, Function.iterate_zero, id_eq]
    exact ih

theorem Dα_count (hS : Stochastic S A) (coords : List Str) (hn : coords.Nodup) (s : List Str) (hs : ∀ x ∈ s, x ∈ coords)
    (r : R) : Dα S coords (coords.map (fun x => ((s.count x : ℕ) : ℤ))) r = iterD S s r := by
  induction s with
  | nil =>
    simp only [List.count_nil, Nat.cast_zero]
    exact Dα_zero coords r
  | cons y s ih =>
    have hy := hs y (by simp)
    have hs' : ∀ x ∈ s, x ∈ coords := fun x hx => hs x (List.mem_cons_of_mem _ hx)
    have hb : coords.map (fun x => (((y :: s).count x : ℕ) : ℤ)) =
        Tree.bump coords y (coords.map (fun x => ((s.count x : ℕ) : ℤ))) := by
      rw [Tree.bump_map coords hn y hy]
      apply List.map_congr_left
      intro x _
      by_cases hxy : x = y
      · subst hxy; simp
      · rw [if_neg hxy, List.count_cons_of_ne (fun e => hxy e.symm)]
    rw [hb, Tree.Dα_bump hS coords y hy _ (by simp) (by
      intro a ha
      obtain ⟨x, -, rfl⟩ := List.mem_map.1 ha
      exact Int.natCast_nonneg _), ih hs']
    rfl

/-- The derivative along a sequence of coordinates. -/
theorem den_derivSeq (hS : Stochastic S A) (coords : List Str) (hn : coords.Nodup) (e : Ex) (s : List Str)
    (hs : ∀ x ∈ s, x ∈ coords) : den S (derivSeq coords e s) = iterD S s (den S e) := by
  simp only [derivSeq, den]
  rw [derivs_filter, derivs_count, Dα_count hS coords hn s hs]

theorem D_one (hS : Stochastic S A) (x : Str) : S.D x 1 = 0 := by
  have h := hS.D_mul x 1 1
  simp only [mul_one, one_mul] at h
  have : S.D x 1 + S.D x 1 = S.D x 1 + 0 := by rw [add_zero]; exact h.symm
  exact add_left_cancel this

theorem two_cancel (a : R) (h : a + a = 0) : a = 0 := by
  have h2 : algebraMap ℚ R (1 / 2) * (a + a) = a := by
    have : algebraMap ℚ R (1 / 2) * (a + a) = (algebraMap ℚ R (1 / 2) * algebraMap ℚ R 2) * a := by
      rw [show algebraMap ℚ R 2 = 2 from map_ofNat _ 2]; ring
    rw [this, ← map_mul]; norm_num
  rw [← h2, h, mul_zero]

theorem flat (hS : Stochastic S A) {eps : R} (h : S.E (eps ^ 2) = 1) (x : Str) (hx : x ≠ omega) :
    S.E (eps * S.D x eps) = 0 := by
  apply two_cancel
  have h1 : S.D x (S.E (eps ^ 2)) = 0 := by rw [h, D_one hS]
  rw [← hS.E_D x _ hx, sq, hS.D_mul, hS.E_add, mul_comm (S.D x eps)] at h1
  exact h1

theorem second (hS : Stochastic S A) {eps : R} (h : S.E (eps ^ 2) = 1) (x y : Str) (hx : x ≠ omega) (hy : y ≠ omega) :
    S.E (eps * S.D x (S.D y eps)) = - S.E (S.D x eps * S.D y eps) := by
  have h0 : S.D x 0 = 0 := by
    have := hS.D_add x 0 0
    rw [add_zero] at this
    exact (left_eq_add.1 this)
  have h1 : S.D x (S.E (eps * S.D y eps)) = 0 := by rw [flat hS h y hy, h0]
  rw [← hS.E_D x _ hx, hS.D_mul, hS.E_add] at h1
  linear_combination h1

theorem E_neg (hS : Stochastic S A) (r : R) : S.E (-r) = - S.E r := by
  have h0 : S.E 0 = 0 := by
    have := hS.E_add 0 0
    rw [add_zero] at this
    exact left_eq_add.1 this
  have := hS.E_add r (-r)
  rw [add_neg_cancel, h0] at this
  linear_combination -this

theorem D_zero (hS : Stochastic S A) (x : Str) : S.D x 0 = 0 := by
  have := hS.D_add x 0 0
  rw [add_zero] at this
  exact left_eq_add.1 this

theorem D_neg (hS : Stochastic S A) (x : Str) (r : R) : S.D x (-r) = - S.D x r := by
  have := hS.D_add x r (-r)
  rw [add_neg_cancel, D_zero hS] at this
  linear_combination -this

/-- Derivative of the metric. -/
theorem D_metric (hS : Stochastic S A) (eps : R) (k i j : Str) (hk : k ≠ omega) :
    S.D k (S.E (S.D i eps * S.D j eps)) =
      S.E (S.D j eps * S.D k (S.D i eps)) + S.E (S.D i eps * S.D k (S.D j eps)) := by
  rw [← hS.E_D k _ hk, hS.D_mul, hS.E_add, mul_comm (S.D k (S.D i eps))]

theorem third (hS : Stochastic S A) {eps : R} (h : S.E (eps ^ 2) = 1) (k i j : Str) (hk : k ≠ omega) (hi : i ≠ omega)
    (hj : j ≠ omega) :
    S.E (S.D k eps * S.D i (S.D j eps)) + S.E (eps * S.D k (S.D i (S.D j eps))) =
      - S.D k (S.E (S.D i eps * S.D j eps)) := by
  have h1 : S.D k (S.E (eps * S.D i (S.D j eps))) = - S.D k (S.E (S.D i eps * S.D j eps)) := by
    rw [second hS h i j hi hj, D_neg hS]
  rw [← hS.E_D k _ hk, hS.D_mul, hS.E_add] at h1
  exact h1

theorem half_mul (q : ℚ) (a : R) : algebraMap ℚ R q * a = algebraMap ℚ R (q / 2) * (a + a) := by
  have : algebraMap ℚ R (q / 2) * (a + a) = (algebraMap ℚ R (q / 2) * algebraMap ℚ R 2) * a := by
    rw [show algebraMap ℚ R 2 = 2 from map_ofNat _ 2]; ring
  rw [this, ← map_mul]; norm_num

theorem algebraMap_half (a : R) : algebraMap ℚ R (1 / 2) * (a + a) = a := by
  rw [← half_mul, map_one, one_mul]

theorem gamma_identity (hS : Stochastic S A) (eps : R) (k i j : Str) (hk : k ≠ omega)
    (hi : i ≠ omega) (hj : j ≠ omega) :
    S.E (S.D k eps * S.D i (S.D j eps)) = algebraMap ℚ R (1 / 2) *
      (S.D i (S.E (S.D k eps * S.D j eps)) + S.D j (S.E (S.D i eps * S.D k eps))
        - S.D k (S.E (S.D i eps * S.D j eps))) := by
  rw [D_metric hS eps i k j hi, D_metric hS eps j i k hj, D_metric hS eps k i j hk]
  rw [hS.D_comm i k eps, hS.D_comm j k eps, hS.D_comm j i eps]
  have := algebraMap_half (R := R) (S.E (S.D k eps * S.D i (S.D j eps)))
  linear_combination -this

theorem skewness_identity (hS : Stochastic S A) {eps : R} (h : S.E (eps ^ 2) = 1) (k i j : Str) (hk : k ≠ omega)
    (hi : i ≠ omega) (hj : j ≠ omega) :
    S.E (eps * S.D k (S.D i (S.D j eps))) = algebraMap ℚ R (-1 / 2) *
      (S.D i (S.E (S.D k eps * S.D j eps)) + S.D j (S.E (S.D i eps * S.D k eps))
        + S.D k (S.E (S.D i eps * S.D j eps))) := by
  have h1 := third hS h k i j hk hi hj
  have h2 := gamma_identity hS eps k i j hk hi hj
  have h3 : algebraMap ℚ R (-1 / 2) = - algebraMap ℚ R (1 / 2) := by rw [← map_neg]; norm_num
  have h4 := algebraMap_half (R := R) (S.D k (S.E (S.D i eps * S.D j eps)))
  rw [h3]
  linear_combination h1 - h2 + h4

end Den

/-! ## Names -/

theorem metric_symm (f : Field) (i j : ℕ) : f.metric i j = f.metric j i := by
  unfold Field.metric Field.indexCode
  rcases lt_trichotomy i j with h | h | h
  · rw [if_neg (by omega), if_pos h]
  · subst h; rfl
  · rw [if_pos h, if_neg (by omega)]

section Closure
variable {R : Type} [CommRing R] [Algebra ℚ R] {S : Interp R} {A : Subalgebra ℚ R}

theorem den_metric (f : Field) (hf : Normalised S f) (i j : ℕ) (hi : i < f.spatial.length)
    (hj : j < f.spatial.length) :
    den S (f.metric i j) =
      S.E (S.D (f.spatial.getD i []) (den S f.epsilon) * S.D (f.spatial.getD j []) (den S f.epsilon)) := by
  rcases le_total i j with h | h
  · exact hf.metric i j h hj
  · rw [metric_symm, hf.metric j i h hi, mul_comm]

theorem getD_idxOf (l : List Str) (x : Str) (hx : x ∈ l) : l.getD (l.idxOf x) [] = x := by
  have h := List.idxOf_lt_length_of_mem hx
  rw [List.getD_eq_getElem?_getD, List.getElem?_eq_getElem h, List.getElem_idxOf h]; rfl

theorem den_metricOf (f : Field) (hf : Normalised S f) (x y : Str) (hx : x ∈ f.spatial)
    (hy : y ∈ f.spatial) :
    den S (f.metricOf x y) = S.E (S.D x (den S f.epsilon) * S.D y (den S f.epsilon)) := by
  unfold Field.metricOf
  rw [den_metric f hf _ _ (List.idxOf_lt_length_of_mem hx) (List.idxOf_lt_length_of_mem hy), getD_idxOf _ _ hx,
    getD_idxOf _ _ hy]

theorem holds_skewness (hS : Stochastic S A) (f : Field) (hn : f.spatial.Nodup) (hom : omega ∉ f.spatial)
    (hf : Normalised S f) (k i j : Str) (hk : k ∈ f.spatial) (hi : i ∈ f.spatial) (hj : j ∈ f.spatial) :
    Holds S (f.skewnessDef k i j, f.skewnessSubs k i j) := by
  have ne : ∀ x, x ∈ f.spatial → x ≠ omega := fun x hx h => hom (h ▸ hx)
  unfold Holds
  simp only [Field.skewnessDef, Field.skewnessSubs, den, derivs, Function.iterate_one]
  rw [den_derivSeq hS _ hn _ _ (by simp [hk, hi, hj]), den_metricOf f hf k j hk hj, den_metricOf f hf i k hi hk,
    den_metricOf f hf i j hi hj]
  exact skewness_identity hS hf.normed k i j (ne k hk) (ne i hi) (ne j hj)

theorem holds_gamma (hS : Stochastic S A) (f : Field) (hn : f.spatial.Nodup) (hom : omega ∉ f.spatial)
    (hf : Normalised S f) (k i j : Str) (hk : k ∈ f.spatial) (hi : i ∈ f.spatial) (hj : j ∈ f.spatial) :
    Holds S (f.gammaDef k i j, f.gammaSubs k i j) := by
  have ne : ∀ x, x ∈ f.spatial → x ≠ omega := fun x hx h => hom (h ▸ hx)
  unfold Holds
  simp only [Field.gammaDef, Field.gammaSubs, den, derivs, Function.iterate_one]
  rw [den_derivSeq hS _ hn _ [k] (by simp [hk]), den_derivSeq hS _ hn _ [i, j] (by simp [hi, hj]), den_metricOf f hf k j hk hj,
    den_metricOf f hf i k hi hk, den_metricOf f hf i j hi hj]
  have := gamma_identity hS (den S f.epsilon) k i j (ne k hk) (ne i hi) (ne j hj)
  simp only [iterD, List.foldr_cons, List.foldr_nil]
  rw [this, map_neg, map_one]
  ring

end Closure

/-- The sequence of a multi-index of degree three. -/
theorem skewnessEntry_ok (f : Field) (hn : f.spatial.Nodup) (o : List ℤ) (ho : IsMultiIndex f.spatial.length 3 o) :
    ∃ k i j, k ∈ f.spatial ∧ i ∈ f.spatial ∧ j ∈ f.spatial ∧
      (f.skewnessEntry ⟨f.spatial, o⟩ = .ok (f.skewnessDef k i j, f.skewnessSubs k i j)) ∧
      o = f.spatial.map (fun x => (([k, i, j].count x : ℕ) : ℤ)) := by
  obtain ⟨g, hg⟩ : ∃ g : Str → ℤ, o = f.spatial.map g := ⟨_, (map_getD_idxOf f.spatial hn o ho.length).symm⟩
  have h0 : ∀ n ∈ f.spatial.map g, 0 ≤ n := by rw [← hg]; exact ho.nonneg
  have hc := sequence_count f.spatial g hn h0
  have hm := sequence_mem f.spatial g
  rw [← hg] at hc hm
  have hlen : (POrder.sequence ⟨f.spatial, o⟩).length = 3 := by
    have key : ∀ (c : List Str) (o : List ℤ), o.length = c.length → (∀ a ∈ o, 0 ≤ a) →
        ((POrder.sequence ⟨c, o⟩).length : ℤ) = o.sum := by
      intro c
      induction c with
      | nil => intro o h1 _; rw [List.length_eq_zero_iff.1 h1]; rfl
      | cons x c ih =>
        intro o h1 h2
        cases o with
        | nil => simp at h1
        | cons a o =>
          have := ih o (by simpa using h1) (fun b hb => h2 b (List.mem_cons_of_mem _ hb))
          have ha := h2 a (by simp)
          unfold POrder.sequence at this ⊢
          simp only [List.zipWith_cons_cons, List.flatten_cons, List.length_append, List.sum_cons, Nat.cast_add, this]
          split
          · rw [List.length_replicate]; omega
          · simp; omega
    have := key f.spatial o ho.length ho.nonneg
    rw [ho.sum] at this
    exact_mod_cast this
  match hs : POrder.sequence ⟨f.spatial, o⟩, hlen with
  | [k, i, j], _ =>
    rw [hs] at hc hm
    refine ⟨k, i, j, hm k (by simp), hm i (by simp), hm j (by simp), ?_, ?_⟩
    · unfold Field.skewnessEntry; rw [hs]
    · rw [hg]
      apply List.map_congr_left
      intro x hx
      rw [← hc x hx]

end PKF
end Sympkf
