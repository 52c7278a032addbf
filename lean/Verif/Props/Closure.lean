import Mathlib.Algebra.Ring.Rat
import Mathlib.Tactic.NormNum
import Verif.Lemmas.Closure
import Verif.Lemmas.Field
import Verif.Lemmas.Builder

/-!
# Properties of `Closure`

C58 (Taylor coefficients), C59 (call history), C60 (metric components).
-/

set_option autoImplicit false

namespace Sympkf.Clo

open Text POD Rand PKF Spec Spec.Clo

variable {C : Type} [CommRing C] {P : Params C} {f : Field}

/-! ## C58 -/

/-- C58: `closure_by_order(n)` on a new object gives, for each order `k <= n`, one entry for each multi-index of degree `k`; the
value is `k!` times the Taylor coefficient. -/
theorem C58_by_order (hn : f.spatial.Nodup) (ho : ∀ g l, (P.order g l).Perm l) (h0 : f.spatial ≠ []) (n : ℕ) :
    ∃ d s, closureByOrder P f n init = (.ok d, s) ∧ ∀ k, (∃ e, d.get? k = some e) = (k ≤ n) ∧
      ∀ e, d.get? k = some e → ∀ key v, e.get? key = some v ↔
        ∃ a, IsMultiIndex f.spatial.length k a ∧ key = epsTerm f a ∧ v = (k.factorial : C) * coefficient P.correlation a := by
  have h := closureByOrder_eq hn ho h0 n 0 init rfl
  rw [if_pos (by simp [init])] at h
  refine ⟨_, _, h, fun k => ?_⟩
  simp only [get?_table]
  constructor
  · simp only [eq_iff_iff]
    constructor
    · rintro ⟨e, he⟩
      split at he
      · omega
      · cases he
    · intro hk
      exact ⟨_, if_pos (by omega)⟩
  · intro e he key v
    split at he
    · cases he
      exact get?_entry hn ho h0 k key v
    · cases he

/-- Merging dictionaries whose common keys have equal values. -/
theorem get?_merge {κ α : Type} [DecidableEq κ] (l : List (Dict κ α)) (key : κ) (v : α)
    (hu : ∀ d ∈ l, ∀ w, (key, w) ∈ d → w = v) (c : Dict κ α) (hc : ∀ w, c.get? key = some w → w = v) :
    (l.foldl (fun (c : Dict κ α) d => c.update d) c).get? key = some v ↔ c.get? key = some v ∨ ∃ d ∈ l, key ∈ d.keys := by
  induction l generalizing c with
  | nil => simp
  | cons d l ih =>
    have hup : ∀ w, (c.update d).get? key = some w → w = v := by
      intro w hw
      rcases Dict.get?_update_some c d key w hw with h | h
      · exact hu d List.mem_cons_self w h
      · exact hc w h
    rw [List.foldl_cons, ih (fun d' hd' => hu d' (List.mem_cons_of_mem _ hd')) _ hup]
    constructor
    · rintro (h | ⟨d', hd', h⟩)
      · rcases (Dict.keys_update_iff c d key).1 ((Dict.mem_keys_iff _ _).2 ⟨v, h⟩) with h' | h'
        · obtain ⟨w, hw⟩ := (Dict.mem_keys_iff _ _).1 h'
          exact .inl (by rw [hw, hc w hw])
        · exact .inr ⟨d, List.mem_cons_self, h'⟩
      · exact .inr ⟨d', List.mem_cons_of_mem _ hd', h⟩
    · have hin : key ∈ (c.update d).keys → (c.update d).get? key = some v := by
        intro h
        obtain ⟨w, hw⟩ := (Dict.mem_keys_iff _ _).1 h
        rw [hw, hup w hw]
      rintro (h | ⟨d', hd', h⟩)
      · exact .inl (hin ((Dict.keys_update_iff _ _ _).2 (.inl ((Dict.mem_keys_iff _ _).2 ⟨v, h⟩))))
      · rcases List.mem_cons.1 hd' with rfl | hd'
        · exact .inl (hin ((Dict.keys_update_iff _ _ _).2 (.inr h)))
        · exact .inr ⟨d', hd', h⟩

theorem nodup_entry (k : ℕ) : (entry P f k).keys.Nodup := by
  unfold entry
  have : ∀ (ps : List POrder) (c : Dict Ex C), c.keys.Nodup → (ps.foldl (fun (c : Dict Ex C) p => c.set (epsTerm f p.orders)
      ((k.factorial : C) * coefficient P.correlation p.orders)) c).keys.Nodup := by
    intro ps
    induction ps with
    | nil => intro c hc; exact hc
    | cons p ps ih => intro c hc; exact ih _ (Dict.nodup_keys_set _ _ _ hc)
  exact this _ _ (by simp [Dict.keys])

theorem closure_table (hn : f.spatial.Nodup) (ho : ∀ g l, (P.order g l).Perm l) (h0 : f.spatial ≠ []) (m : ℕ) (key : Ex) (v : C) :
    ((table P f m).foldl (fun (c : Dict Ex C) kv => c.update kv.2) []).get? key = some v ↔
      ∃ k a, k < m ∧ IsMultiIndex f.spatial.length k a ∧ key = epsTerm f a ∧
        v = (k.factorial : C) * coefficient P.correlation a := by
  have hfold : (table P f m).foldl (fun (c : Dict Ex C) kv => c.update kv.2) [] =
      ((List.range m).map (entry P f)).foldl (fun (c : Dict Ex C) d => c.update d) [] := by
    rw [table, List.foldl_map, List.foldl_map]
  have hmem : ∀ k w, (key, w) ∈ entry P f k → ∃ a, IsMultiIndex f.spatial.length k a ∧ key = epsTerm f a ∧
      w = (k.factorial : C) * coefficient P.correlation a :=
    fun k w h => (get?_entry hn ho h0 k key w).1 (Dict.get?_of_mem (nodup_entry k) h)
  have hsum : ∀ {k k' : ℕ} {a a' : List ℤ}, IsMultiIndex f.spatial.length k a → IsMultiIndex f.spatial.length k' a' →
      epsTerm f a = epsTerm f a' → k = k' ∧ a = a' := by
    intro k k' a a' h1 h2 h3
    have e := epsTerm_injective f hn a a' k k' h1 h2 h3
    refine ⟨?_, e⟩
    have s1 := h1.sum
    rw [e, h2.sum] at s1
    exact_mod_cast s1.symm
  rw [hfold]
  have hall : ∀ u : C, (∃ k a, k < m ∧ IsMultiIndex f.spatial.length k a ∧ key = epsTerm f a ∧
        u = (k.factorial : C) * coefficient P.correlation a) →
      (((List.range m).map (entry P f)).foldl (fun (c : Dict Ex C) d => c.update d) []).get? key = some u := by
    rintro u ⟨k, a, hk, ha, rfl, rfl⟩
    rw [get?_merge]
    · refine .inr ⟨entry P f k, List.mem_map.2 ⟨k, by simpa using hk, rfl⟩, ?_⟩
      exact (Dict.mem_keys_iff _ _).2 ⟨_, (get?_entry hn ho h0 k _ _).2 ⟨a, ha, rfl, rfl⟩⟩
    · intro d hd w hw
      obtain ⟨k', -, rfl⟩ := List.mem_map.1 hd
      obtain ⟨a', ha', h1, rfl⟩ := hmem k' w hw
      obtain ⟨rfl, rfl⟩ := hsum ha ha' h1
      rfl
    · simp
  constructor
  · intro h
    have hk : ∃ d ∈ (List.range m).map (entry P f), key ∈ d.keys := by
      by_contra hno
      have : ∀ (l : List (Dict Ex C)) (c : Dict Ex C), (¬ ∃ d ∈ l, key ∈ d.keys) →
          (l.foldl (fun (c : Dict Ex C) d => c.update d) c).get? key = c.get? key := by
        intro l
        induction l with
        | nil => intro c _; rfl
        | cons d l ih =>
          intro c hc
          rw [List.foldl_cons, ih _ (fun ⟨d', hd', hk⟩ => hc ⟨d', List.mem_cons_of_mem _ hd', hk⟩)]
          exact Dict.get?_update_of_notMem _ _ _ (fun hk => hc ⟨d, List.mem_cons_self, hk⟩)
      rw [this _ _ hno] at h
      cases h
    obtain ⟨d, hd, hkd⟩ := hk
    obtain ⟨k, hkm, rfl⟩ := List.mem_map.1 hd
    obtain ⟨w, hw⟩ := (Dict.mem_keys_iff _ _).1 hkd
    obtain ⟨a, ha, h1, h2⟩ := (get?_entry hn ho h0 k key w).1 hw
    have := hall w ⟨k, a, by simpa using hkm, ha, h1, h2⟩
    rw [h] at this
    obtain rfl := Option.some.inj this
    exact ⟨k, a, by simpa using hkm, ha, h1, h2⟩
  · exact hall v

/-- C58: `closure(n)` on a new object maps `E(eps D^a eps)` to `|a|!` times the Taylor coefficient of `dx^a`, for every `a` of
degree at most `n`, and has no other entry. -/
theorem C58_closure (hn : f.spatial.Nodup) (ho : ∀ g l, (P.order g l).Perm l) (h0 : f.spatial ≠ []) (n : ℕ) :
    ∃ c s, closure P f n init = (.ok c, s) ∧ ∀ key v, c.get? key = some v ↔
      ∃ k a, k ≤ n ∧ IsMultiIndex f.spatial.length k a ∧ key = epsTerm f a ∧
        v = (k.factorial : C) * coefficient P.correlation a := by
  have h := closureByOrder_eq hn ho h0 n 0 init rfl
  rw [if_pos (by simp [init])] at h
  simp only [closure, h]
  refine ⟨_, _, rfl, fun key v => ?_⟩
  rw [closure_table hn ho h0]
  simp only [Nat.zero_max, Nat.lt_succ_iff]

theorem factorial_pure {m k : ℕ} {a : List ℤ} (ha : IsMultiIndex m k a) (hp : ∃ i, ∀ j, j ≠ i → a.getD j 0 = 0) :
    factorial a = k.factorial := by
  obtain ⟨hl, hnn, hs⟩ := ha
  obtain ⟨i, hi⟩ := hp
  induction a generalizing m k i with
  | nil =>
    simp only [List.sum_nil] at hs
    have : k = 0 := by exact_mod_cast hs.symm
    subst this; rfl
  | cons b a ih =>
    have hb := hnn b List.mem_cons_self
    match i with
    | 0 =>
      have hz : ∀ x ∈ a, x = 0 := by
        intro x hx
        obtain ⟨j, hj, rfl⟩ := List.mem_iff_getElem.1 hx
        have := hi (j + 1) (by omega)
        simpa [hj] using this
      have hs0 : a.sum = 0 := List.sum_eq_zero hz
      have hp1 : (a.map (fun n => n.toNat.factorial)).prod = 1 := by
        refine List.prod_eq_one (fun x hx => ?_)
        obtain ⟨y, hy, rfl⟩ := List.mem_map.1 hx
        rw [hz y hy]; rfl
      simp only [List.sum_cons, hs0, add_zero] at hs
      simp only [factorial, List.map_cons, List.prod_cons, hp1, mul_one, hs, Int.toNat_natCast]
    | i + 1 =>
      have hb0 : b = 0 := by have := hi 0 (by omega); simpa using this
      subst hb0
      simp only [factorial, List.map_cons, List.prod_cons, Int.toNat_zero, Nat.factorial_zero, one_mul]
      refine ih (m := a.length) rfl (fun x hx => hnn x (List.mem_cons_of_mem _ hx)) (by simpa using hs) i ?_
      intro j hj
      have := hi (j + 1) (by omega)
      simpa using this

/-- C58 for derivatives with respect to a single coordinate, in particular for every derivative in one dimension: the value is `a!`
times the coefficient of `dx^a`.  What is missing: mixed derivatives, for which the factor is `|a|!`; see
`C58_counterexample`. -/
theorem C58_closure_partial (hn : f.spatial.Nodup) (ho : ∀ g l, (P.order g l).Perm l) (h0 : f.spatial ≠ []) (n k : ℕ) (hk : k ≤ n)
    (a : List ℤ) (ha : IsMultiIndex f.spatial.length k a) (hp : ∃ i, ∀ j, j ≠ i → a.getD j 0 = 0) :
    ∃ c s, closure P f n init = (.ok c, s) ∧
      c.get? (epsTerm f a) = some ((factorial a : C) * coefficient P.correlation a) := by
  obtain ⟨c, s, h1, h2⟩ := C58_closure (P := P) hn ho h0 n
  refine ⟨c, s, h1, (h2 _ _).2 ⟨k, a, hk, ha, rfl, ?_⟩⟩
  rw [factorial_pure ha hp]

/-- The property C58 is false for mixed derivatives: in two dimensions the entry of `E(eps d_x d_y eps)` is twice the claimed
value.  (For instance for the correlation `exp(-(dx^2 g_xx + 2 dx dy g_xy + dy^2 g_yy) / 2)` the coefficient of `dx dy` is `- g_xy`,
which is also the value of `E(eps d_x d_y eps)`; the closure gives `-2 g_xy`.) -/
theorem C58_counterexample (hn : f.spatial.Nodup) (ho : ∀ g l, (P.order g l).Perm l) (h2 : f.spatial.length = 2) (n : ℕ)
    (hk : 2 ≤ n) (hne : coefficient P.correlation [1, 1] ≠ 0) :
    ∃ c s, closure P f n init = (.ok c, s) ∧
      c.get? (epsTerm f [1, 1]) = some (2 * coefficient P.correlation [1, 1]) ∧
      c.get? (epsTerm f [1, 1]) ≠ some ((factorial [1, 1] : C) * coefficient P.correlation [1, 1]) := by
  have h0 : f.spatial ≠ [] := by rintro h; rw [h] at h2; cases h2
  obtain ⟨c, s, h1, h3⟩ := C58_closure (P := P) hn ho h0 n
  have h4 : c.get? (epsTerm f [1, 1]) = some (2 * coefficient P.correlation [1, 1]) :=
    (h3 _ _).2 ⟨2, [1, 1], hk, ⟨by rw [h2]; rfl, by decide, by decide⟩, rfl, by norm_num⟩
  refine ⟨c, s, h1, h4, ?_⟩
  rw [h4]
  intro h
  have h := Option.some.inj h
  simp only [factorial, List.map_cons, List.map_nil, List.prod_cons, List.prod_nil] at h
  norm_num [Nat.factorial] at h
  exact hne (by linear_combination h)

/-! ## C59 -/

/-- C59, what the results depend on, for every history of calls of `taylor`, `closure_by_order` and `closure` (most recent first):
`counters` gives the order `o` reached and the number `m` of orders in the dictionary; `closure_by_order(n)` returns the `m` orders
if `n < o`, and all the orders up to the largest of `m` and `n + 1` otherwise; `taylor(n)` returns the expansion truncated at the
largest of `o` and `n`. -/
theorem C59_exact (hn : f.spatial.Nodup) (ho : ∀ g l, (P.order g l).Perm l) (h0 : f.spatial ≠ []) (h : List Call)
    (hm : ∀ n, Call.inMetricByOrder n ∉ h) (n : ℕ) :
    ∃ d, (closureByOrder P f n (after P f h.reverse)).1 = .ok d ∧
      (∀ k, d.get? k = if k < (counters (.closureByOrder n :: h)).2 then some (entry P f k) else none) ∧
      (0 < n → (taylor P f n (after P f h.reverse)).taylor =
        some (below f.spatial.length (max (counters h).1 n) P.correlation)) := by
  rw [after_eq hn ho h0 h hm]
  rw [closureByOrder_eq hn ho h0 n (counters h).2 _ rfl]
  simp only [counters]
  refine ⟨table P f (if (counters h).1 < n + 1 then max (counters h).2 (n + 1) else (counters h).2), ?_, ?_, ?_⟩
  · split <;> rfl
  · intro k
    rw [get?_table]
    split <;> rfl
  · intro hn0
    simp only [taylor, foldl_truncate]
    by_cases hlt : (counters h).1 < n
    · simp [hlt, show max (counters h).1 n = n by omega]
    · simp [hlt, show max (counters h).1 n = (counters h).1 by omega, show ¬ (counters h).1 = 0 by omega]

/-- The orders requested by a history are at most `n`. -/
def Bounded (n : ℕ) : Call → Prop
  | .taylor k => k ≤ n
  | .closureByOrder k => k ≤ n
  | .closure k => k ≤ n
  | .inMetricByOrder _ => False

theorem counters_bounded (n : ℕ) (h : List Call) (hb : ∀ c ∈ h, Bounded n c) :
    (counters h).2 ≤ n + 1 ∧ (n < (counters h).1 → (counters h).1 = n + 1 ∧ (counters h).2 = n + 1) ∧ (counters h).1 ≤ n + 1 := by
  induction h with
  | nil => simp [counters]
  | cons c h ih =>
    obtain ⟨h1, h2, h3⟩ := ih (fun c hc => hb c (List.mem_cons_of_mem _ hc))
    have hc := hb c List.mem_cons_self
    match c with
    | .taylor k =>
      simp only [Bounded] at hc
      simp only [counters]
      refine ⟨h1, ?_, by omega⟩
      intro hlt
      have : n < (counters h).1 := by omega
      have := h2 this
      omega
    | .closureByOrder k =>
      simp only [Bounded] at hc
      simp only [counters]
      by_cases hlt : (counters h).1 < k + 1
      · simp only [hlt, if_true]; omega
      · simp only [hlt, if_false]; omega
    | .closure k =>
      simp only [Bounded] at hc
      simp only [counters]
      by_cases hlt : (counters h).1 < k + 1
      · simp only [hlt, if_true]; omega
      · simp only [hlt, if_false]; omega
    | .inMetricByOrder k => exact absurd hc id

/-- C59 for histories of `taylor`, `closure_by_order` and `closure` with orders at most `n`: `closure_by_order(n)` and `closure(n)`
return what they return on a new object.  What is missing: earlier calls with larger orders (`C59_counterexample_larger`,
`C59_counterexample_taylor`) and earlier calls of `in_metric_by_order` (`C59_counterexample_in_metric`). -/
theorem C59_closure_partial (hn : f.spatial.Nodup) (ho : ∀ g l, (P.order g l).Perm l) (h0 : f.spatial ≠ []) (n : ℕ) (h : List Call)
    (hb : ∀ c ∈ h, Bounded n c) :
    (closureByOrder P f n (after P f h.reverse)).1 = (closureByOrder P f n init).1 ∧
      (closure P f n (after P f h.reverse)).1 = (closure P f n init).1 := by
  obtain ⟨h1, h2, h3⟩ := counters_bounded n h hb
  have hm : ∀ k, Call.inMetricByOrder k ∉ h := fun k hk => hb _ hk
  have key : (closureByOrder P f n (after P f h.reverse)).1 = .ok (table P f (n + 1)) := by
    rw [after_eq hn ho h0 h hm, closureByOrder_eq hn ho h0 n (counters h).2 _ rfl]
    simp only
    by_cases hlt : (counters h).1 < n + 1
    · rw [if_pos hlt, show max (counters h).2 (n + 1) = n + 1 by omega]
    · rw [if_neg hlt, (h2 (by omega)).2]
  have key0 : (closureByOrder P f n (init : State C)).1 = .ok (table P f (n + 1)) := by
    rw [closureByOrder_eq hn ho h0 n 0 _ rfl, if_pos (by simp [init]), Nat.zero_max]
  refine ⟨by rw [key, key0], ?_⟩
  have hc : ∀ s : State C, (closure P f n s).1 =
      (closureByOrder P f n s).1.map (fun d => d.foldl (fun (c : Dict Ex C) kv => c.update kv.2) []) := by
    intro s
    unfold closure
    match closureByOrder P f n s with
    | (.error e, s) => rfl
    | (.ok d, s) => rfl
  rw [hc, hc, key, key0]

/-- C59: with earlier calls of `closure_by_order` and `closure` of any order (and `taylor` at most `n`) the result still has the
right dictionary for every order up to `n`; it may have more. -/
theorem C59_superset_partial (hn : f.spatial.Nodup) (ho : ∀ g l, (P.order g l).Perm l) (h0 : f.spatial ≠ []) (n : ℕ) (h : List Call)
    (hb : ∀ c ∈ h, (∃ k, c = .taylor k ∧ k ≤ n) ∨ (∃ k, c = .closureByOrder k) ∨ ∃ k, c = .closure k) :
    ∃ d, (closureByOrder P f n (after P f h.reverse)).1 = .ok d ∧ ∀ k ≤ n, d.get? k = some (entry P f k) := by
  have hm : ∀ k, Call.inMetricByOrder k ∉ h := by
    intro k hk
    rcases hb _ hk with ⟨_, h, _⟩ | ⟨_, h⟩ | ⟨_, h⟩ <;> cases h
  have hc : n < (counters h).1 → n < (counters h).2 := by
    clear hm
    induction h with
    | nil => simp [counters]
    | cons c h ih =>
      have ih := ih (fun c hc => hb c (List.mem_cons_of_mem _ hc))
      rcases hb c List.mem_cons_self with ⟨k, rfl, hk⟩ | ⟨k, rfl⟩ | ⟨k, rfl⟩
      · simp only [counters]; omega
      · simp only [counters]
        by_cases hlt : (counters h).1 < k + 1
        · simp only [hlt, if_true]; omega
        · simp only [hlt, if_false]; omega
      · simp only [counters]
        by_cases hlt : (counters h).1 < k + 1
        · simp only [hlt, if_true]; omega
        · simp only [hlt, if_false]; omega
  obtain ⟨d, h1, h2, -⟩ := C59_exact hn ho h0 h hm n
  refine ⟨d, h1, fun k hk => ?_⟩
  rw [h2, if_pos]
  simp only [counters]
  by_cases hlt : (counters h).1 < n + 1
  · simp only [hlt, if_true]; omega
  · simp only [hlt, if_false]
    have := hc (by omega)
    omega

/-- C59: after `taylor(m)`, `m > n`, the dictionary returned by `closure_by_order(n)` on the object is *empty*. -/
theorem C59_counterexample_taylor (hn : f.spatial.Nodup) (ho : ∀ g l, (P.order g l).Perm l) (h0 : f.spatial ≠ []) (m n : ℕ)
    (hmn : n < m) :
    (closureByOrder P f n (after P f [.taylor m])).1 = .ok [] ∧ (closureByOrder P f n init).1 ≠ .ok [] := by
  have h1 := after_eq (P := P) hn ho h0 [.taylor m] (by simp)
  rw [List.reverse_singleton] at h1
  constructor
  · rw [h1, closureByOrder_eq hn ho h0 n 0 _ rfl]
    have hlt : ¬ m < n + 1 := by omega
    simp [counters, hlt, table]
  · rw [closureByOrder_eq hn ho h0 n 0 _ rfl, if_pos (by simp [init]), Nat.zero_max]
    simp [table]

/-- C59: after a call with a larger order, `closure_by_order(n)` returns more orders, and `taylor(n)` more terms. -/
theorem C59_counterexample_larger (hn : f.spatial.Nodup) (ho : ∀ g l, (P.order g l).Perm l) (h0 : f.spatial ≠ []) (m n : ℕ)
    (hmn : n < m) :
    (closureByOrder P f n (after P f [.closureByOrder m])).1 ≠ (closureByOrder P f n init).1 ∧
    (0 < n → P.correlation (List.replicate f.spatial.length n) ≠ 0 →
      (taylor P f n (after P f [.taylor m])).taylor ≠ (taylor P f n init).taylor) := by
  constructor
  · have h1 := after_eq (P := P) hn ho h0 [.closureByOrder m] (by simp)
    rw [List.reverse_singleton] at h1
    have h2 := closureByOrder_eq hn ho h0 n 0 (init : State C) rfl
    rw [if_pos (by simp [init]), Nat.zero_max] at h2
    rw [h2, h1, closureByOrder_eq hn ho h0 n (m + 1) _ (by simp [counters])]
    have hlt : ¬ m < n := by omega
    simp only [counters, Nat.zero_lt_succ, if_true, add_lt_add_iff_right, hlt, if_false, Nat.zero_max]
    intro h
    have h := congrArg (fun d : Dict ℕ (Dict Ex C) => d.length) (Except.ok.inj h)
    simp only [table, List.length_map, List.length_range] at h
    omega
  · intro hn0 hne h
    obtain ⟨-, -, -, h1⟩ := C59_exact (P := P) hn ho h0 [.taylor m] (by simp) n
    obtain ⟨-, -, -, h2⟩ := C59_exact (P := P) hn ho h0 [] (by simp) n
    have h1 := h1 hn0
    have h2 := h2 hn0
    rw [List.reverse_singleton] at h1
    rw [h1] at h
    have h2' : (taylor P f n (init : State C)).taylor = _ := h2
    rw [h2'] at h
    simp only [counters, Option.some.injEq] at h
    have h := congrFun h (List.replicate f.spatial.length n)
    simp only [below] at h
    have hpos : 0 < f.spatial.length := List.length_pos_iff.2 h0
    rw [if_pos, if_neg] at h
    · exact hne h
    · intro h'
      have := h' 0 hpos
      simp [hpos] at this
    · intro i hi
      simp [hi]; omega

/-! ## C60 -/

/-- The components of the tensors that the code uses for the orders `a`. -/
def usedIndex (f : Field) (a : List ℤ) : ℤ × ℤ := if 1 < f.spatial.length then (a.getD 0 0, a.getD 1 0) else (0, 0)

/-- The indices are in the range. -/
def InRange (f : Field) (p : POrder) : Prop :=
  0 ≤ (usedIndex f p.orders).1 ∧ (usedIndex f p.orders).1 < f.spatial.length ∧
    0 ≤ (usedIndex f p.orders).2 ∧ (usedIndex f p.orders).2 < f.spatial.length

theorem metricStep_eq (p : POrder) (hl : p.orders.length = f.spatial.length) (sys : List (C × C) × List C) (s : State C)
    (d : Dict Ex C) (v : C) (h2 : s.byOrder.get? 2 = some d) (hv : d.get? (term f p) = some v) :
    (InRange f p → (metricStep P f p sys s) =
      (.ok (sys.1 ++ [(-P.ofEx (f.metric (usedIndex f p.orders).1.toNat (usedIndex f p.orders).2.toNat), P.dropDerivatives v)],
          sys.2 ++ [P.ofEx (f.aspect (usedIndex f p.orders).1.toNat (usedIndex f p.orders).2.toNat)]),
        { s with byOrder := s.byOrder.set 2 (d.set (term f p) (P.dropDerivatives v)) })) ∧
    (¬ InRange f p → (metricStep P f p sys s) =
      (.error .indexError, { s with byOrder := s.byOrder.set 2 (d.set (term f p) (P.dropDerivatives v)) })) := by
  have ht : tensorIndex f p = .ok (usedIndex f p.orders) := by
    unfold tensorIndex usedIndex
    by_cases h1 : 1 < f.spatial.length
    · rw [if_pos h1, if_pos h1]
      match ho : p.orders with
      | [] => rw [ho] at hl; simp at hl; omega
      | [_] => rw [ho] at hl; simp at hl; omega
      | i :: j :: _ => simp
    · rw [if_neg h1, if_neg h1]
  constructor
  · intro hr
    unfold InRange at hr
    simp only [metricStep, h2, hv, ht, bind, Except.bind, metricFunc, aspectFunc, if_pos hr, pure, Except.pure]
  · intro hr
    unfold InRange at hr
    simp only [metricStep, h2, hv, ht, bind, Except.bind, metricFunc, if_neg hr]

/-- The loop of `in_metric_by_order`. -/
theorem metricLoop_eq (ps : List POrder) (hl : ∀ p ∈ ps, p.orders.length = f.spatial.length)
    (hnd : ps.Pairwise (fun p q => term f p ≠ term f q)) (sys : List (C × C) × List C) (s : State C) (d : Dict Ex C)
    (h2 : s.byOrder.get? 2 = some d) (hv : ∀ p ∈ ps, term f p ∈ d.keys) :
    ((∀ p ∈ ps, InRange f p) → ∃ sys' s' d', metricLoop P f ps sys s = (.ok sys', s') ∧ s'.byOrder.get? 2 = some d' ∧
      (∀ lr ∈ sys.1, lr ∈ sys'.1) ∧ (∀ k, k ∉ ps.map (term f) → d'.get? k = d.get? k) ∧
      ∀ p ∈ ps, ∃ v, d'.get? (term f p) = some v ∧
        (-P.ofEx (f.metric (usedIndex f p.orders).1.toNat (usedIndex f p.orders).2.toNat), v) ∈ sys'.1) ∧
    ((∃ p ∈ ps, ¬ InRange f p) → ∃ s', metricLoop P f ps sys s = (.error .indexError, s')) := by
  induction ps generalizing sys s d with
  | nil => exact ⟨fun _ => ⟨sys, s, d, rfl, h2, fun _ h => h, fun _ _ => rfl, by simp⟩, by simp⟩
  | cons p ps ih =>
    obtain ⟨v, hpv⟩ := (Dict.mem_keys_iff _ _).1 (hv p List.mem_cons_self)
    obtain ⟨hs1, hs2⟩ := metricStep_eq (P := P) p (hl p List.mem_cons_self) sys s d v h2 hpv
    rw [List.pairwise_cons] at hnd
    have h2' : (s.byOrder.set 2 (d.set (term f p) (P.dropDerivatives v))).get? 2 =
        some (d.set (term f p) (P.dropDerivatives v)) := by rw [Dict.get?_set, if_pos rfl]
    by_cases hr : InRange f p
    · rw [metricLoop, hs1 hr]
      obtain ⟨i1, i2⟩ := ih (fun q hq => hl q (List.mem_cons_of_mem _ hq)) hnd.2
        (sys.1 ++ [(-P.ofEx (f.metric (usedIndex f p.orders).1.toNat (usedIndex f p.orders).2.toNat), P.dropDerivatives v)],
          sys.2 ++ [P.ofEx (f.aspect (usedIndex f p.orders).1.toNat (usedIndex f p.orders).2.toNat)])
        { s with byOrder := s.byOrder.set 2 (d.set (term f p) (P.dropDerivatives v)) } _ h2'
        (by
          intro q hq
          obtain ⟨w, hw⟩ := (Dict.mem_keys_iff _ _).1 (hv q (List.mem_cons_of_mem _ hq))
          refine (Dict.mem_keys_iff _ _).2 ⟨w, ?_⟩
          rw [Dict.get?_set, if_neg (fun h => hnd.1 q hq h)]
          exact hw)
      constructor
      · intro hall
        obtain ⟨sys', s', d', e1, e2, e3, e4, e5⟩ := i1 (fun q hq => hall q (List.mem_cons_of_mem _ hq))
        have hnot : term f p ∉ ps.map (term f) := by
          intro h
          obtain ⟨q, hq, h⟩ := List.mem_map.1 h
          exact hnd.1 q hq h.symm
        refine ⟨sys', s', d', e1, e2, fun lr h => e3 _ (List.mem_append_left _ h), ?_, ?_⟩
        · intro k hk
          rw [List.map_cons, List.mem_cons, not_or] at hk
          rw [e4 k hk.2, Dict.get?_set, if_neg (fun h => hk.1 h.symm)]
        · intro q hq
          rcases List.mem_cons.1 hq with rfl | hq
          · refine ⟨P.dropDerivatives v, ?_, e3 _ (by simp)⟩
            rw [e4 _ hnot, Dict.get?_set, if_pos rfl]
          · exact e5 q hq
      · rintro ⟨q, hq, hqr⟩
        rcases List.mem_cons.1 hq with rfl | hq
        · exact absurd hr hqr
        · exact i2 ⟨q, hq, hqr⟩
    · refine ⟨fun h => absurd (h p List.mem_cons_self) hr, fun _ => ⟨_, by rw [metricLoop, hs2 hr]⟩⟩

/-- `solve` returns a substitution under which the equations hold. -/
def SoundSolve (P : Params C) : Prop := ∀ sys u σ, P.solve sys u = .ok σ → ∀ l r, (l, r) ∈ sys → σ r = l

theorem get?_mapSnd {κ α β : Type} [DecidableEq κ] (g : α → β) (d : Dict κ α) (k : κ) :
    Dict.get? (d.map (fun kv => (kv.1, g kv.2))) k = (d.get? k).map g := by
  induction d with
  | nil => rfl
  | cons kv d ih =>
    obtain ⟨k', v⟩ := kv
    rw [List.map_cons, Dict.get?_cons, Dict.get?_cons]
    split
    · rfl
    · exact ih

/-- C60, exactly what `in_metric_by_order` does, in every dimension other than two: the second-order term of orders `a` becomes
`- g_ij` where `i, j` are the *orders* `a_1, a_2` of derivation, not the numbers of the coordinates (and `0, 0` in one dimension). -/
theorem C60_exact (hn : f.spatial.Nodup) (ho : ∀ g l, (P.order g l).Perm l) (h0 : f.spatial ≠ []) (hd : f.spatial.length ≠ 2)
    (hs : SoundSolve P) (n : ℕ) (h2 : 2 ≤ n) (d : Dict ℕ (Dict Ex C)) (hok : (inMetricByOrder P f n init).1 = .ok d) :
    ∃ e, d.get? 2 = some e ∧ (inMetricByOrder P f n init).2.byOrder = d ∧ ∀ a, IsMultiIndex f.spatial.length 2 a →
      e.get? (epsTerm f a) = some (-P.ofEx (f.metric (usedIndex f a).1.toNat (usedIndex f a).2.toNat)) := by
  have hc := closureByOrder_eq hn ho h0 n 0 (init : State C) rfl
  rw [if_pos (by simp [init]), Nat.zero_max] at hc
  obtain ⟨L, hL, hLn, hLm, -⟩ := C36_all_of_degree P.order ho f.spatial h0 2
  have hterm : ∀ p ∈ L, term f p = epsTerm f p.orders := by
    intro p hp
    obtain ⟨hp1, hp2⟩ := (hLm p).1 hp
    obtain ⟨c, a⟩ := p
    subst hp1
    exact term_eq f hn a 2 hp2
  have hpw : L.Pairwise (fun p q => term f p ≠ term f q) := by
    refine hLn.imp_of_mem (fun {p q} hp hq hne h => hne ?_)
    rw [hterm p hp, hterm q hq] at h
    obtain ⟨hp1, hp2⟩ := (hLm p).1 hp
    obtain ⟨hq1, hq2⟩ := (hLm q).1 hq
    have := epsTerm_injective f hn _ _ 2 2 hp2 hq2 h
    obtain ⟨c, a⟩ := p
    obtain ⟨c', a'⟩ := q
    simp only at hp1 hq1 this
    subst hp1; subst hq1; subst this; rfl
  have hkeys : ∀ p ∈ L, term f p ∈ (entry P f 2).keys := by
    intro p hp
    rw [hterm p hp]
    exact (Dict.mem_keys_iff _ _).2 ⟨_, (get?_entry hn ho h0 2 _ _).2 ⟨p.orders, ((hLm p).1 hp).2, rfl, rfl⟩⟩
  have hrange : ∀ p ∈ L, InRange f p := by
    intro p hp
    obtain ⟨-, hp2⟩ := (hLm p).1 hp
    have hle : ∀ i, 0 ≤ p.orders.getD i 0 ∧ p.orders.getD i 0 ≤ 2 := by
      intro i
      by_cases hi : i < p.orders.length
      · rw [List.getD_eq_getElem?_getD, List.getElem?_eq_getElem hi, Option.getD_some]
        refine ⟨hp2.nonneg _ (List.getElem_mem hi), ?_⟩
        have := List.single_le_sum (fun y hy => hp2.nonneg y hy) _ (List.getElem_mem hi)
        rw [hp2.sum] at this
        exact this
      · rw [List.getD_eq_getElem?_getD, List.getElem?_eq_none (by omega)]; simp
    have hpos : 0 < f.spatial.length := List.length_pos_iff.2 h0
    unfold InRange usedIndex
    have := hle 0
    have := hle 1
    split <;> simp only <;> omega
  unfold inMetricByOrder at hok ⊢
  rw [hc] at hok ⊢
  simp only [hL] at hok ⊢
  obtain ⟨i1, -⟩ := metricLoop_eq (P := P) L (fun p hp => ((hLm p).1 hp).2.length) hpw ([], [])
    (⟨n + 1, some (below f.spatial.length (n + 1) P.correlation), table P f (n + 1)⟩ : State C) (entry P f 2)
    (by rw [get?_table, if_pos (by omega)]) hkeys
  obtain ⟨sys, s', d', e1, e2, -, -, e5⟩ := i1 hrange
  rw [e1] at hok ⊢
  simp only at hok ⊢
  match hσ : P.solve sys.1 sys.2 with
  | .error e => simp only [hσ] at hok; cases hok
  | .ok σ =>
    simp only [hσ] at hok ⊢
    cases hok
    refine ⟨d'.map (fun tv => (tv.1, σ tv.2)), ?_, rfl, ?_⟩
    · rw [get?_mapSnd (fun kd : Dict Ex C => (kd.map (fun tv => (tv.1, σ tv.2)) : Dict Ex C)), e2]
      rfl
    · intro a ha
      have hp : (⟨f.spatial, a⟩ : POrder) ∈ L := (hLm _).2 ⟨rfl, ha⟩
      obtain ⟨v, hv1, hv2⟩ := e5 _ hp
      rw [get?_mapSnd σ, ← term_eq f hn a 2 ha, hv1]
      exact congrArg some (hs _ _ _ hσ _ _ hv2)

/-- C60 in one dimension: `E(eps d_x d_x eps)` becomes `- g_xx`.  What is missing: the other dimensions, where the result is an
exception (`C60_counterexample_2d`) or associates terms with other components (`C60_counterexample_3d`). -/
theorem C60_in_metric_partial (x : Str) (hx : f.spatial = [x]) (ho : ∀ g l, (P.order g l).Perm l)
    (hs : SoundSolve P) (n : ℕ) (h2 : 2 ≤ n) (d : Dict ℕ (Dict Ex C)) (hok : (inMetricByOrder P f n init).1 = .ok d) :
    ∃ e, d.get? 2 = some e ∧ e.get? (f.metricTerm 0 0) = some (-P.ofEx (f.metric 0 0)) := by
  obtain ⟨e, h3, -, h4⟩ := C60_exact (by rw [hx]; simp) ho (by rw [hx]; simp) (by rw [hx]; simp) hs n h2 d hok
  refine ⟨e, h3, ?_⟩
  have := h4 [2] ⟨by rw [hx]; rfl, by decide, by decide⟩
  have ht : epsTerm f [2] = f.metricTerm 0 0 := by simp [epsTerm, Field.metricTerm, derivSeq, hx]
  rw [ht] at this
  simpa [usedIndex, hx] using this

/-- C60 is false in two dimensions: `in_metric_by_order` always raises `IndexError`. -/
theorem C60_counterexample_2d (hn : f.spatial.Nodup) (ho : ∀ g l, (P.order g l).Perm l) (hd : f.spatial.length = 2) (n : ℕ)
    (h2 : 2 ≤ n) : (inMetricByOrder P f n init).1 = .error .indexError := by
  have h0 : f.spatial ≠ [] := by rintro h; rw [h] at hd; cases hd
  have hc := closureByOrder_eq hn ho h0 n 0 (init : State C) rfl
  rw [if_pos (by simp [init]), Nat.zero_max] at hc
  obtain ⟨L, hL, hLn, hLm, -⟩ := C36_all_of_degree P.order ho f.spatial h0 2
  have hterm : ∀ p ∈ L, term f p = epsTerm f p.orders := by
    intro p hp
    obtain ⟨hp1, hp2⟩ := (hLm p).1 hp
    obtain ⟨c, a⟩ := p
    subst hp1
    exact term_eq f hn a 2 hp2
  have hpw : L.Pairwise (fun p q => term f p ≠ term f q) := by
    refine hLn.imp_of_mem (fun {p q} hp hq hne h => hne ?_)
    rw [hterm p hp, hterm q hq] at h
    obtain ⟨hp1, hp2⟩ := (hLm p).1 hp
    obtain ⟨hq1, hq2⟩ := (hLm q).1 hq
    have := epsTerm_injective f hn _ _ 2 2 hp2 hq2 h
    obtain ⟨c, a⟩ := p
    obtain ⟨c', a'⟩ := q
    simp only at hp1 hq1 this
    subst hp1; subst hq1; subst this; rfl
  have hkeys : ∀ p ∈ L, term f p ∈ (entry P f 2).keys := by
    intro p hp
    rw [hterm p hp]
    exact (Dict.mem_keys_iff _ _).2 ⟨_, (get?_entry hn ho h0 2 _ _).2 ⟨p.orders, ((hLm p).1 hp).2, rfl, rfl⟩⟩
  have hp : (⟨f.spatial, [2, 0]⟩ : POrder) ∈ L := (hLm _).2 ⟨rfl, by rw [hd]; exact ⟨rfl, by simp, by simp⟩⟩
  have hnot : ¬ InRange f ⟨f.spatial, [2, 0]⟩ := by
    unfold InRange usedIndex
    simp [hd]
  obtain ⟨-, i2⟩ := metricLoop_eq (P := P) L (fun p hp => ((hLm p).1 hp).2.length) hpw ([], [])
    (⟨n + 1, some (below f.spatial.length (n + 1) P.correlation), table P f (n + 1)⟩ : State C) (entry P f 2)
    (by rw [get?_table, if_pos (by omega)]) hkeys
  obtain ⟨s', h⟩ := i2 ⟨_, hp, hnot⟩
  unfold inMetricByOrder
  rw [hc]
  simp only [hL, h]

/-- C60 is false in three dimensions: `E(eps d_x d_x eps)` becomes `- g_xz` (for coordinates `x, y, z`). -/
theorem C60_counterexample_3d (hn : f.spatial.Nodup) (ho : ∀ g l, (P.order g l).Perm l) (hd : f.spatial.length = 3)
    (hs : SoundSolve P) (n : ℕ) (h2 : 2 ≤ n) (d : Dict ℕ (Dict Ex C)) (hok : (inMetricByOrder P f n init).1 = .ok d) :
    ∃ e, d.get? 2 = some e ∧ e.get? (epsTerm f [2, 0, 0]) = some (-P.ofEx (f.metric 2 0)) := by
  have h0 : f.spatial ≠ [] := by rintro h; rw [h] at hd; cases hd
  obtain ⟨e, h3, -, h4⟩ := C60_exact hn ho h0 (by omega) hs n h2 d hok
  refine ⟨e, h3, ?_⟩
  have := h4 [2, 0, 0] (by rw [hd]; exact ⟨rfl, by decide, by decide⟩)
  simpa [usedIndex, hd] using this

/-- C59: in one dimension, after `in_metric_by_order(n)` the dictionary of `closure_by_order(n)` is changed: the second-order
coefficient of the correlation is replaced with minus the metric. -/
theorem C59_counterexample_in_metric (x : Str) (hx : f.spatial = [x]) (ho : ∀ g l, (P.order g l).Perm l)
    (hs : SoundSolve P) (n : ℕ) (h2 : 2 ≤ n) (d : Dict ℕ (Dict Ex C)) (hok : (inMetricByOrder P f n init).1 = .ok d)
    (hne : 2 * coefficient P.correlation [2] ≠ -P.ofEx (f.metric 0 0)) :
    (closureByOrder P f n (after P f [.inMetricByOrder n])).1 ≠ (closureByOrder P f n init).1 := by
  have hn : f.spatial.Nodup := by rw [hx]; simp
  have h0 : f.spatial ≠ [] := by rw [hx]; simp
  obtain ⟨e, h3, hst, h4⟩ := C60_exact hn ho h0 (by rw [hx]; simp) hs n h2 d hok
  have h5 := h4 [2] ⟨by rw [hx]; rfl, by decide, by decide⟩
  have hc := closureByOrder_eq hn ho h0 n 0 (init : State C) rfl
  rw [if_pos (by simp [init]), Nat.zero_max] at hc
  rw [hc]
  intro h
  have hafter : after P f [.inMetricByOrder n] = (inMetricByOrder P f n (init : State C)).2 := rfl
  have hres : ∀ r, (closureByOrder P f n (after P f [.inMetricByOrder n])).1 = .ok r →
      (inMetricByOrder P f n (init : State C)).2.order = n + 1 → r = d := by
    intro r hr hor
    rw [hafter] at hr
    unfold closureByOrder at hr
    simp only [hor, lt_irrefl, if_false] at hr
    rw [← hst]
    exact (Except.ok.inj hr).symm
  have hord : (inMetricByOrder P f n (init : State C)).2.order = n + 1 := by
    have hstep : ∀ (p : POrder) (sys : List (C × C) × List C) (s : State C), (metricStep P f p sys s).2.order = s.order := by
      intro p sys s
      unfold metricStep
      split
      · rfl
      · split
        · rfl
        · simp only
          split <;> rfl
    have hloop : ∀ (ps : List POrder) (sys : List (C × C) × List C) (s : State C),
        (metricLoop P f ps sys s).2.order = s.order := by
      intro ps
      induction ps with
      | nil => intro sys s; rfl
      | cons p ps ih =>
        intro sys s
        rw [metricLoop]
        have h1 := hstep p sys s
        match hm : metricStep P f p sys s with
        | (.error e, s') => rw [hm] at h1; exact h1
        | (.ok sys', s') => rw [hm] at h1; exact (ih sys' s').trans h1
    unfold inMetricByOrder
    rw [hc]
    simp only
    match allOfDegree P.order f.spatial 2 with
    | .error e => rfl
    | .ok L =>
      simp only
      have h1 := hloop L ([], []) (⟨n + 1, some (below f.spatial.length (n + 1) P.correlation), table P f (n + 1)⟩ : State C)
      match hm : metricLoop P f L ([], [])
        (⟨n + 1, some (below f.spatial.length (n + 1) P.correlation), table P f (n + 1)⟩ : State C) with
      | (.error e, s') => rw [hm] at h1; exact h1
      | (.ok sys', s') =>
        rw [hm] at h1
        simp only
        match P.solve sys'.1 sys'.2 with
        | .error e => exact h1
        | .ok σ => exact h1
  have hrd := hres _ h hord
  subst hrd
  rw [get?_table, if_pos (by omega)] at h3
  cases h3
  obtain ⟨a, ha, h6, h7⟩ := (get?_entry hn ho h0 2 _ _).1 h5
  have : [2] = a := epsTerm_injective f hn _ _ 2 2 ⟨by rw [hx]; rfl, by decide, by decide⟩ ha h6
  subst this
  apply hne
  simp only [usedIndex, hx, List.length_singleton, lt_irrefl, if_false] at h7
  rw [show ((Nat.factorial 2 : ℕ) : C) = 2 by norm_num [Nat.factorial]] at h7
  exact h7.symm

/-! ## Examples -/

/-- A field in one dimension, and the coefficients `1, 0, -1/2, 0, 1/8` of `exp(-dx^2/2)`. -/
def demo1 : Field := ⟨"u".toList, ["t".toList, "x".toList]⟩

def demoParams : Params ℚ where
  order := fun _ l => l
  correlation := fun b => match b with
    | [0] => 1
    | [2] => -1 / 2
    | [4] => 1 / 8
    | [1, 1] => -3
    | _ => 0
  ofEx := fun _ => 7
  dropDerivatives := id
  solve := fun sys _ => .ok (fun v => match sys.find? (fun lr => lr.2 = v) with
    | some lr => lr.1
    | none => v)

theorem demo_order : ∀ g l, (demoParams.order g l).Perm l := fun _ l => List.Perm.refl l

/-- `closure(4)`: `E(eps^2)`, and the derivatives of orders one to four: `1, 0, -1, 0, 3`. -/
example : ((closure demoParams demo1 4 init).1.toOption.map (fun d => d.map (·.2))) = some [1, 0, -1, 0, 3] := by
  decide +kernel

example : ∃ c s, closure demoParams demo1 4 init = (.ok c, s) ∧
    c.get? (epsTerm demo1 [4]) = some ((factorial [4] : ℚ) * coefficient demoParams.correlation [4]) :=
  C58_closure_partial (by decide +kernel) demo_order (by decide +kernel) 4 4 le_rfl [4]
    ⟨by decide +kernel, by decide, by decide⟩ ⟨0, fun j hj => by match j with | 0 => exact absurd rfl hj | j + 1 => rfl⟩

def demo2 : Field := ⟨"u".toList, ["t".toList, "x".toList, "y".toList]⟩

example : ∃ c s, closure demoParams demo2 2 init = (.ok c, s) ∧
    c.get? (epsTerm demo2 [1, 1]) = some (2 * coefficient demoParams.correlation [1, 1]) ∧
    c.get? (epsTerm demo2 [1, 1]) ≠ some ((factorial [1, 1] : ℚ) * coefficient demoParams.correlation [1, 1]) :=
  C58_counterexample (by decide +kernel) demo_order (by decide +kernel) 2 le_rfl (by decide +kernel)

example : (closureByOrder demoParams demo1 3 (after demoParams demo1 [.taylor 4])).1 = .ok [] :=
  (C59_counterexample_taylor (by decide +kernel) demo_order (by decide +kernel) 4 3 (by decide)).1

example : (closureByOrder demoParams demo1 4 (after demoParams demo1 [.closure 4, .taylor 3, .closureByOrder 2])).1 =
    (closureByOrder demoParams demo1 4 init).1 :=
  (C59_closure_partial (by decide +kernel) demo_order (by decide +kernel) 4 [.closureByOrder 2, .taylor 3, .closure 4]
    (by simp [Bounded])).1

theorem sound_first (sys : List (ℚ × ℚ)) (hu : ∀ l l' r, (l, r) ∈ sys → (l', r) ∈ sys → l = l') (l r : ℚ) (h : (l, r) ∈ sys) :
    (match sys.find? (fun lr => lr.2 = r) with | some lr => lr.1 | none => r) = l := by
  match hf : sys.find? (fun lr => lr.2 = r) with
  | none => have := List.find?_eq_none.1 hf _ h; simp at this
  | some (l', r') =>
    have h1 := List.find?_some hf
    simp only [decide_eq_true_eq] at h1
    subst h1
    have h2 : l' = l := hu _ _ _ (List.mem_of_find?_eq_some hf) h
    simp only [hf]
    exact h2

/-- A solver that gives up when two equations conflict: it is sound. -/
def demoSound : Params ℚ := { demoParams with
  solve := fun sys u => if ∀ a ∈ sys, ∀ b ∈ sys, a.2 = b.2 → a.1 = b.1 then demoParams.solve sys u else .error .keyError }

theorem demoSound_sound : SoundSolve demoSound := by
  intro sys u σ h l r hlr
  simp only [demoSound] at h
  split at h
  · rename_i hu
    cases h
    exact sound_first sys (fun l l' r h1 h2 => hu _ h1 _ h2 rfl) l r hlr
  · cases h

/-- In one dimension the second-order term becomes minus the metric (here the number `7`). -/
example : ((inMetricByOrder demoSound demo1 2 init).1.toOption.map (fun d => d.map (fun kd => kd.2.map (·.2)))) =
    some [[1], [0], [-7]] := by decide +kernel

example : (inMetricByOrder demoSound demo2 2 init).1 = .error .indexError :=
  C60_counterexample_2d (by decide +kernel) (fun _ l => List.Perm.refl l) (by decide +kernel) 2 le_rfl

/-- A sound solver also exists in three dimensions. -/
example : (inMetricByOrder demoSound ⟨"u".toList, ["t".toList, "x".toList, "y".toList, "z".toList]⟩ 2 init).1.toOption.isSome :=
  by decide +kernel

end Sympkf.Clo
