import Verif.Lemmas.Field
import Verif.Spec.Smooth
import Verif.Props.PartialOrder

/-!
# C40-C41: internal closures, couples and covariances
-/

set_option autoImplicit false

namespace Sympkf.PKF

open Text POD Rand Spec

variable {R : Type} [CommRing R] [Algebra ℚ R] {S : Interp R} {A : Subalgebra ℚ R}

/-! ## C40 -/

/-- The terms closed by `Field.internal_closure`: the mean and the variance of the error and of the normalised error, and the
expectations of `eps` times its derivatives of order one, two and three. -/
inductive ClosedTerm (f : Field) : Ex → Prop
  | error : ClosedTerm f (.ex f.error)
  | error2 : ClosedTerm f (.ex (.pow f.error 2))
  | epsilon : ClosedTerm f (.ex f.epsilon)
  | epsilon2 : ClosedTerm f (.ex (.pow f.epsilon 2))
  | deriv (s : List Str) (hs : ∀ x ∈ s, x ∈ f.spatial) (h1 : 1 ≤ s.length) (h3 : s.length ≤ 3) :
      ClosedTerm f (.ex (.mul f.epsilon (derivSeq f.spatial f.epsilon s)))

theorem derivSeq_congr (coords : List Str) (e : Ex) (s s' : List Str) (h : ∀ x ∈ coords, s.count x = s'.count x) :
    derivSeq coords e s = derivSeq coords e s' := by
  unfold derivSeq
  congr 1
  have : coords.filter (· ∈ s) = coords.filter (· ∈ s') := by
    apply List.filter_congr
    intro x hx
    have := h x hx
    by_cases h1 : x ∈ s
    · have h2 : x ∈ s' := List.count_pos_iff.1 (this ▸ List.count_pos_iff.2 h1)
      simp [h1, h2]
    · have h2 : x ∉ s' := fun h2 => h1 (List.count_pos_iff.1 (this.symm ▸ List.count_pos_iff.2 h2))
      simp [h1, h2]
  rw [this]
  apply List.map_congr_left
  intro x hx
  rw [h x (List.mem_filter.1 hx).1]

theorem mapM_ok_of {α β : Type} (g : α → Except PyErr β) (l : List α) (h : ∀ a ∈ l, ∃ b, g a = .ok b) :
    ∃ r, l.mapM g = .ok r ∧ (∀ b, b ∈ r ↔ ∃ a ∈ l, g a = .ok b) := by
  induction l with
  | nil => exact ⟨[], rfl, by simp⟩
  | cons a l ih =>
    obtain ⟨b, hb⟩ := h a (by simp)
    obtain ⟨r, hr, hr'⟩ := ih (fun a ha => h a (List.mem_cons_of_mem _ ha))
    refine ⟨b :: r, ?_, fun b' => ?_⟩
    · simp only [List.mapM_cons, hb, hr, bind, Except.bind, pure, Except.pure]
    · simp only [List.mem_cons, hr', exists_eq_or_imp, hb, Except.ok.injEq]
      rw [eq_comm]

theorem keys_map {κ α : Type} (d : Dict κ α) (k : κ) : k ∈ Dict.keys d ↔ ∃ v, (k, v) ∈ d := by
  unfold Dict.keys
  simp

/-- The structure of `internal_closure`: it returns, and its entries are those announced. -/
theorem internalClosure_spec (order : ℕ → List (List ℤ) → List (List ℤ)) (ho : ∀ g l, (order g l).Perm l) (f : Field)
    (h0 : f.spatial ≠ []) (hn : f.spatial.Nodup) :
    ∃ c, f.internalClosure order = .ok c ∧ (∀ k, k ∈ Dict.keys c ↔ ClosedTerm f k) ∧
      ∀ kv ∈ c, kv = (.ex f.error, .num 0) ∨ kv = (.ex (.pow f.error 2), f.variance) ∨ kv = (.ex f.epsilon, .num 0) ∨
        kv = (.ex (.pow f.epsilon 2), .num 1) ∨
        (∃ x ∈ f.spatial, kv = (.ex (.mul f.epsilon (derivSeq f.spatial f.epsilon [x])), .num 0)) ∨
        (∃ i j, i ≤ j ∧ j < f.spatial.length ∧ kv = (f.metricTerm i j, .mul (.num (-1)) (f.metric i j))) ∨
        (∃ k i j, k ∈ f.spatial ∧ i ∈ f.spatial ∧ j ∈ f.spatial ∧ kv = (f.skewnessDef k i j, f.skewnessSubs k i j)) := by
  obtain ⟨L, hL, -, hL', -⟩ := C36_all_of_degree order ho f.spatial h0 3
  obtain ⟨r, hr, hr'⟩ := mapM_ok_of f.skewnessEntry L (by
    rintro ⟨c, o⟩ hp
    obtain ⟨rfl, h2⟩ := (hL' _).1 hp
    obtain ⟨k, i, j, -, -, -, h, -⟩ := skewnessEntry_ok f hn o h2
    exact ⟨_, h⟩)
  have hsk : ∀ kv ∈ r, ∃ k i j, k ∈ f.spatial ∧ i ∈ f.spatial ∧ j ∈ f.spatial ∧
      kv = (f.skewnessDef k i j, f.skewnessSubs k i j) := by
    intro kv hkv
    obtain ⟨⟨c, o⟩, hp, he⟩ := (hr' kv).1 hkv
    obtain ⟨rfl, h2⟩ := (hL' _).1 hp
    obtain ⟨k, i, j, hk, hi, hj, h, -⟩ := skewnessEntry_ok f hn o h2
    exact ⟨k, i, j, hk, hi, hj, (Except.ok.inj (he.symm.trans h))⟩
  have hsk' : ∀ k i j, k ∈ f.spatial → i ∈ f.spatial → j ∈ f.spatial → ∃ v, (f.skewnessDef k i j, v) ∈ r := by
    intro k i j hk hi hj
    have hmi : IsMultiIndex f.spatial.length 3 (f.spatial.map (fun x => (([k, i, j].count x : ℕ) : ℤ))) := by
      refine ⟨by simp, ?_, ?_⟩
      · intro a ha
        obtain ⟨x, -, rfl⟩ := List.mem_map.1 ha
        exact Int.natCast_nonneg _
      · have key : ∀ (c s : List Str), c.Nodup → (∀ x ∈ s, x ∈ c) →
            (c.map (fun x => ((s.count x : ℕ) : ℤ))).sum = s.length := by
          intro c s hc hs
          induction s with
          | nil => simp
          | cons y s ih =>
            have hy := hs y (by simp)
            have : c.map (fun x => (((y :: s).count x : ℕ) : ℤ)) =
                Tree.bump c y (c.map (fun x => ((s.count x : ℕ) : ℤ))) := by
              rw [Tree.bump_map c hc y hy]
              apply List.map_congr_left
              intro x _
              by_cases hxy : x = y
              · subst hxy; simp
              · rw [if_neg hxy, List.count_cons_of_ne (fun e => hxy e.symm)]
            rw [this]
            have hb := Tree.isMultiIndex_bump c y hy s.length (c.map (fun x => ((s.count x : ℕ) : ℤ)))
              ⟨by simp, by intro a ha; obtain ⟨x, -, rfl⟩ := List.mem_map.1 ha; exact Int.natCast_nonneg _,
                ih (fun x hx => hs x (List.mem_cons_of_mem _ hx))⟩
            rw [hb.sum]
            simp
        rw [key f.spatial [k, i, j] hn (by simp [hk, hi, hj])]
        rfl
    obtain ⟨k', i', j', hk', hi', hj', h, hc⟩ := skewnessEntry_ok f hn _ hmi
    have hm := (hr' _).2 ⟨⟨f.spatial, _⟩, (hL' _).2 ⟨rfl, hmi⟩, h⟩
    have heq : f.skewnessDef k i j = f.skewnessDef k' i' j' := by
      unfold Field.skewnessDef
      rw [derivSeq_congr]
      intro x hx
      have := List.map_inj_left.1 hc x hx
      exact_mod_cast this
    exact ⟨_, heq ▸ hm⟩
  unfold Field.internalClosure
  simp only [hL, hr, bind, Except.bind, pure, Except.pure]
  refine ⟨_, rfl, fun k => ?_, fun kv hkv => ?_⟩
  · simp only [Dict.keys_update_iff, Tree.mem_keys_set_iff]
    have e1 : ∀ k, k ∈ Dict.keys (f.spatial.map (fun x => ((Ex.ex (.mul f.epsilon (derivSeq f.spatial f.epsilon [x])), Ex.num 0)))) ↔
        ∃ x ∈ f.spatial, k = .ex (.mul f.epsilon (derivSeq f.spatial f.epsilon [x])) := by
      intro k
      simp only [Dict.keys, List.map_map, List.mem_map, Function.comp]
      exact ⟨fun ⟨x, h, e⟩ => ⟨x, h, e.symm⟩, fun ⟨x, h, e⟩ => ⟨x, h, e.symm⟩⟩
    have e2 : ∀ k, k ∈ Dict.keys ((List.range f.spatial.length).flatMap (fun i => (List.range' i (f.spatial.length - i)).map (fun j =>
        (f.metricTerm i j, Ex.mul (.num (-1)) (f.metric i j))))) ↔
        ∃ i j, i ≤ j ∧ j < f.spatial.length ∧ k = f.metricTerm i j := by
      intro k
      rw [keys_map]
      simp only [List.mem_flatMap, List.mem_range, List.mem_map, List.mem_range'_1, Prod.mk.injEq]
      constructor
      · rintro ⟨v, i, hi, j, hj, rfl, -⟩
        exact ⟨i, j, hj.1, by omega, rfl⟩
      · rintro ⟨i, j, h1, h2, rfl⟩
        exact ⟨_, i, by omega, j, ⟨h1, by omega⟩, rfl, rfl⟩
    rw [e1, e2]
    have e3 : k ∈ Dict.keys r ↔ ∃ a b c, a ∈ f.spatial ∧ b ∈ f.spatial ∧ c ∈ f.spatial ∧ k = f.skewnessDef a b c := by
      rw [keys_map]
      constructor
      · rintro ⟨v, hv⟩
        obtain ⟨a, b, c, ha, hb, hc, he⟩ := hsk _ hv
        exact ⟨a, b, c, ha, hb, hc, (Prod.mk.inj he).1⟩
      · rintro ⟨a, b, c, ha, hb, hc, rfl⟩
        exact hsk' a b c ha hb hc
    rw [e3]
    constructor
    · rintro ((((((h | h) | h) | h) | h) | h) | h | h)
      · simp only [Dict.keys, List.map_cons, List.map_nil, List.mem_singleton] at h
        rw [h]; exact .error
      · rw [h]; exact .error2
      · rw [h]; exact .epsilon
      · rw [h]; exact .epsilon2
      · obtain ⟨x, hx, rfl⟩ := h
        exact .deriv [x] (by simp [hx]) (by simp) (by simp)
      · obtain ⟨i, j, h1, h2, rfl⟩ := h
        have m : ∀ n, n < f.spatial.length → f.spatial.getD n [] ∈ f.spatial := by
          intro n hn
          rw [List.getD_eq_getElem?_getD, List.getElem?_eq_getElem hn]
          exact List.getElem_mem hn
        exact .deriv _ (by
          intro x hx
          simp only [List.mem_cons, List.not_mem_nil, or_false] at hx
          rcases hx with rfl | rfl
          · exact m i (by omega)
          · exact m j h2) (by simp) (by simp)
      · simp [Dict.keys] at h
      · obtain ⟨a, b, c, ha, hb, hc, rfl⟩ := h
        exact .deriv _ (by simp [ha, hb, hc]) (by simp) (by simp)
    · intro h
      cases h with
      | error => exact .inl (.inl (.inl (.inl (.inl (.inl (by simp [Dict.keys]))))))
      | error2 => exact .inl (.inl (.inl (.inl (.inl (.inr rfl)))))
      | epsilon => exact .inl (.inl (.inl (.inl (.inr rfl))))
      | epsilon2 => exact .inl (.inl (.inl (.inr rfl)))
      | deriv s hs h1 h3 =>
        match s, h1, h3 with
        | [x], _, _ => exact .inl (.inl (.inr ⟨x, hs x (by simp), rfl⟩))
        | [x, y], _, _ =>
          have hx := hs x (by simp)
          have hy := hs y (by simp)
          left; right
          rcases le_total (f.spatial.idxOf x) (f.spatial.idxOf y) with h | h
          · refine ⟨_, _, h, List.idxOf_lt_length_of_mem hy, ?_⟩
            unfold Field.metricTerm
            rw [getD_idxOf _ _ hx, getD_idxOf _ _ hy]
          · refine ⟨_, _, h, List.idxOf_lt_length_of_mem hx, ?_⟩
            unfold Field.metricTerm
            rw [getD_idxOf _ _ hx, getD_idxOf _ _ hy, derivSeq_congr]
            intro z _
            exact (List.Perm.swap y x []).count_eq z
        | [x, y, z], _, _ =>
          exact .inr (.inr ⟨x, y, z, hs x (by simp), hs y (by simp), hs z (by simp), rfl⟩)
  · rcases Dict.mem_update _ _ _ hkv with hkv | hkv
    · rcases Dict.mem_update _ _ _ hkv with hkv | hkv
      · rcases Dict.mem_update _ _ _ hkv with hkv | hkv
        · rcases Dict.mem_set _ _ _ _ hkv with rfl | hkv
          · simp
          rcases Dict.mem_set _ _ _ _ hkv with rfl | hkv
          · simp
          rcases Dict.mem_set _ _ _ _ hkv with rfl | hkv
          · simp
          · left; simpa using hkv
        · obtain ⟨x, hx, rfl⟩ := List.mem_map.1 hkv
          exact .inr (.inr (.inr (.inr (.inl ⟨x, hx, rfl⟩))))
      · simp only [List.mem_flatMap, List.mem_range, List.mem_map, List.mem_range'_1] at hkv
        obtain ⟨i, hi, j, hj, rfl⟩ := hkv
        exact .inr (.inr (.inr (.inr (.inr (.inl ⟨i, j, hj.1, by omega, rfl⟩)))))
    · rcases Dict.mem_update _ _ _ hkv with hkv | hkv
      · simp at hkv
      · exact .inr (.inr (.inr (.inr (.inr (.inr (hsk kv hkv))))))

/-- **C40** `internal_closure` returns; it closes exactly the means and variances and the expectations of `eps` times its
derivatives of order one to three; and every entry is true for every normalised random field. -/
theorem C40_internal_closure (order : ℕ → List (List ℤ) → List (List ℤ)) (ho : ∀ g l, (order g l).Perm l)
    (hS : Stochastic S A) (f : Field) (h0 : f.spatial ≠ []) (hn : f.spatial.Nodup) (homc : omega ∉ f.coordinates)
    (hf : Normalised S f) :
    ∃ c, f.internalClosure order = .ok c ∧ (∀ k, k ∈ Dict.keys c ↔ ClosedTerm f k) ∧ ∀ kv ∈ c, Holds S kv := by
  obtain ⟨c, h1, h2, h3⟩ := internalClosure_spec order ho f h0 hn
  refine ⟨c, h1, h2, fun kv hkv => ?_⟩
  have hom : omega ∉ f.spatial := fun h => homc (List.mem_filter.1 h).1
  have ne : ∀ x, x ∈ f.spatial → x ≠ omega := fun x hx h => hom (h ▸ hx)
  have hsd : S.pw (den S f.variance) (1 / 2) ∈ A :=
    hS.pw_det _ _ (hS.fn_det _ _ homc)
  rcases h3 kv hkv with rfl | rfl | rfl | rfl | ⟨x, hx, rfl⟩ | ⟨i, j, hij, hj, rfl⟩ | ⟨k, i, j, hk, hi, hj, rfl⟩
  · simp only [Holds, den]
    show S.E (den S f.error) = _
    rw [hf.error, mul_comm, hS.E_mul _ _ hsd, hf.centred, mul_zero, map_zero]
  · simp only [Holds, den]
    show S.E (S.pw (den S f.error) 2) = den S f.variance
    rw [show (2 : ℚ) = ((2 : ℕ) : ℚ) by norm_num, hS.pw_nat, hf.error, mul_pow, mul_comm,
      hS.E_mul _ _ (Subalgebra.pow_mem _ hsd 2), hf.normed, mul_one, hf.sqrt_sq]
  · simp only [Holds, den]
    rw [map_zero]; exact hf.centred
  · simp only [Holds, den]
    rw [show (2 : ℚ) = ((2 : ℕ) : ℚ) by norm_num, hS.pw_nat, map_one]; exact hf.normed
  · unfold Holds
    simp only [den]
    rw [den_derivSeq hS _ hn _ _ (by simp [hx]), map_zero]
    exact flat hS hf.normed x (ne x hx)
  · have m : ∀ n, n < f.spatial.length → f.spatial.getD n [] ∈ f.spatial := by
      intro n hn
      rw [List.getD_eq_getElem?_getD, List.getElem?_eq_getElem hn]
      exact List.getElem_mem hn
    unfold Holds Field.metricTerm
    simp only [den]
    rw [den_derivSeq hS _ hn _ _ (by
      intro x hx
      simp only [List.mem_cons, List.not_mem_nil, or_false] at hx
      rcases hx with rfl | rfl
      · exact m i (by omega)
      · exact m j hj), map_neg, map_one, hf.metric i j hij hj, neg_one_mul]
    exact second hS hf.normed _ _ (ne _ (m i (by omega))) (ne _ (m j hj))
  · exact holds_skewness hS f hn hom hf k i j hk hi hj


/-- **C40** The metric is symmetric. -/
theorem C40_metric_symmetric (f : Field) (i j : ℕ) : f.metric i j = f.metric j i := metric_symm f i j

/-- **C40** The term `gamma`: `E[d_k eps d_i d_j eps]` in derivatives of the metric. -/
theorem C40_gamma (hS : Stochastic S A) (f : Field) (hn : f.spatial.Nodup) (hom : omega ∉ f.coordinates)
    (hf : Normalised S f) (k i j : Str) (hk : k ∈ f.spatial) (hi : i ∈ f.spatial) (hj : j ∈ f.spatial) :
    den S (f.gammaDef k i j) = den S (f.gammaSubs k i j) :=
  holds_gamma hS f hn (fun h => hom (List.mem_filter.1 h).1) hf k i j hk hi hj

theorem epsilon_random (f : Field) : israndom f.epsilon = .ok true := by
  unfold Field.epsilon
  rw [israndom_fn]
  simp

theorem error_random (f : Field) : israndom f.error = .ok true := by
  unfold Field.error
  rw [israndom_fn]
  simp

/-- **C40** The keys are written as `Expectation` writes its results: the closure is found by a substitution in such results. -/
theorem C40_keys (f : Field) (k : Ex) (hk : ClosedTerm f k) : ∃ a, k = .ex a ∧ expect a = .ok k := by
  cases hk with
  | error => exact ⟨_, rfl, by simp [expect, Field.error, expand, size, expectation, israndom_fn, bind, Except.bind, pure, Except.pure]⟩
  | epsilon => exact ⟨_, rfl, by simp [expect, Field.epsilon, expand, size, expectation, israndom_fn, bind, Except.bind, pure, Except.pure]⟩
  | error2 =>
    refine ⟨_, rfl, ?_⟩
    have he : expand (.pow f.error 2) = .pow f.error 2 := by
      simp only [Field.error, expand]
      rw [if_pos (by decide +kernel), show (2 : ℚ).num.toNat = 1 + 1 from rfl]
      simp only [powN]
      norm_num
    have hr : israndom (.pow f.error 2) = .ok true := by rw [israndom_pow, error_random]
    show expectation (size (expand (.pow f.error 2))) (.pow f.error 2) = _
    rw [he]
    simp only [size, expectation, he, hr, bind, Except.bind, pure, Except.pure]
    rfl
  | epsilon2 =>
    refine ⟨_, rfl, ?_⟩
    have he : expand (.pow f.epsilon 2) = .pow f.epsilon 2 := by
      simp only [Field.epsilon, expand]
      rw [if_pos (by decide +kernel), show (2 : ℚ).num.toNat = 1 + 1 from rfl]
      simp only [powN]
      norm_num
    have hr : israndom (.pow f.epsilon 2) = .ok true := by rw [israndom_pow, epsilon_random]
    show expectation (size (expand (.pow f.epsilon 2))) (.pow f.epsilon 2) = _
    rw [he]
    simp only [size, expectation, he, hr, bind, Except.bind, pure, Except.pure]
    rfl
  | deriv s hs h1 h3 =>
    refine ⟨_, rfl, ?_⟩
    have he : expand (.mul f.epsilon (derivSeq f.spatial f.epsilon s)) = .mul f.epsilon (derivSeq f.spatial f.epsilon s) := by
      simp only [Field.epsilon, derivSeq, expand]
      rfl
    have hd : israndom (derivSeq f.spatial f.epsilon s) = .ok true := by
      unfold derivSeq; rw [israndom_deriv, epsilon_random]
    have hr : israndom (.mul f.epsilon (derivSeq f.spatial f.epsilon s)) = .ok true := by
      rw [israndom_mul, epsilon_random]; rfl
    have hf : factors (.mul f.epsilon (derivSeq f.spatial f.epsilon s)) = [f.epsilon, derivSeq f.spatial f.epsilon s] := rfl
    show expectation (size (expand (.mul f.epsilon (derivSeq f.spatial f.epsilon s)))) _ = _
    rw [he]
    simp only [size, expectation, he, hr, hf, splitFactors, epsilon_random, hd, bind, Except.bind, pure, Except.pure]
    rfl

/-- **C40** A field without spatial coordinates has no internal closure: `IndexError`. -/
theorem C40_no_coordinate (order : ℕ → List (List ℤ) → List (List ℤ)) (f : Field) (h : f.spatial = []) :
    f.internalClosure order = .error .indexError := by
  unfold Field.internalClosure
  rw [h]
  rfl

/-! ## C41 -/

/-- **C41** The couples are the pairs of fields in the order of the list; there are `n (n - 1) / 2` of them. -/
theorem C41_couples {α : Type} (l : List α) :
    (∀ a b, (a, b) ∈ couples l ↔ [a, b].Sublist l) ∧ (couples l).length = l.length.choose 2 := by
  induction l with
  | nil => simp [couples]
  | cons f l ih =>
    obtain ⟨h1, h2⟩ := ih
    constructor
    · intro a b
      simp only [couples, List.mem_append, List.mem_map, Prod.mk.injEq, h1]
      constructor
      · rintro (⟨g, hg, rfl, rfl⟩ | h)
        · exact List.Sublist.cons_cons _ (List.singleton_sublist.2 hg)
        · exact h.cons _
      · intro h
        cases h with
        | cons _ h => exact .inr h
        | cons_cons _ h => exact .inl ⟨b, List.singleton_sublist.1 h, rfl, rfl⟩
    · simp only [couples, List.length_append, List.length_map, h2, List.length_cons]
      rw [Nat.choose_succ_succ' l.length 1, Nat.choose_one_right]

/-- **C41** Of two distinct fields exactly one couple is listed, once; no field is coupled with itself. -/
theorem C41_couples_once {α : Type} (l : List α) (hl : l.Nodup) :
    (couples l).Nodup ∧ (∀ a, (a, a) ∉ couples l) ∧
      ∀ a ∈ l, ∀ b ∈ l, a ≠ b → ((a, b) ∈ couples l ∨ (b, a) ∈ couples l) ∧ ¬ ((a, b) ∈ couples l ∧ (b, a) ∈ couples l) := by
  induction l with
  | nil => simp [couples]
  | cons f l ih =>
    obtain ⟨hf, hl'⟩ := List.nodup_cons.1 hl
    obtain ⟨h1, h2, h3⟩ := ih hl'
    have hmem : ∀ a b, (a, b) ∈ couples l → a ∈ l ∧ b ∈ l := by
      intro a b h
      have := ((C41_couples l).1 a b).1 h
      exact ⟨this.subset (by simp), this.subset (by simp)⟩
    refine ⟨?_, ?_, ?_⟩
    · simp only [couples]
      refine List.nodup_append.2 ⟨hl'.map (fun a b h => by simpa using h), h1, ?_⟩
      rintro ⟨a, b⟩ ha ⟨a', b'⟩ hb e
      rw [← e] at hb
      obtain ⟨g, -, hg⟩ := List.mem_map.1 ha
      obtain ⟨rfl, rfl⟩ := Prod.mk.inj hg
      exact hf (hmem _ _ hb).1
    · intro a ha
      simp only [couples, List.mem_append, List.mem_map, Prod.mk.injEq] at ha
      rcases ha with ⟨g, hg, rfl, rfl⟩ | h
      · exact hf hg
      · exact h2 a h
    · intro a ha b hb hab
      simp only [couples, List.mem_append, List.mem_map, Prod.mk.injEq]
      rcases List.mem_cons.1 ha with rfl | ha'
      · rcases List.mem_cons.1 hb with rfl | hb
        · exact absurd rfl hab
        · refine ⟨.inl (.inl ⟨b, hb, rfl, rfl⟩), ?_⟩
          rintro ⟨-, ⟨g, hg, rfl, rfl⟩ | h⟩
          · exact hab rfl
          · exact hf (hmem _ _ h).2
      · rcases List.mem_cons.1 hb with rfl | hb
        · refine ⟨.inr (.inl ⟨a, ha', rfl, rfl⟩), ?_⟩
          rintro ⟨⟨g, hg, rfl, rfl⟩ | h, -⟩
          · exact hab rfl
          · exact hf (hmem _ _ h).2
        · obtain ⟨h4, h5⟩ := h3 a ha' b hb hab
          refine ⟨h4.imp .inr .inr, ?_⟩
          rintro ⟨⟨g, hg, rfl, rfl⟩ | h, ⟨g', hg', rfl, rfl⟩ | h'⟩
          · exact hab rfl
          · exact hf (hmem _ _ h').2
          · exact hf (hmem _ _ h).2
          · exact h5 ⟨h, h'⟩

/-- **C41** The errors of `get_covariance`. -/
theorem C41_covariance_errors (label : Str) (fields : List Field) (f1 f2 : Field) :
    (covariance label fields f1 f2 = .error .valueError ↔ f1 ∉ fields ∨ f2 ∉ fields) ∧
    (covariance label fields f1 f2 = .error .assertionError ↔
      f1 ∈ fields ∧ f2 ∈ fields ∧ f1.coordinates ≠ f2.coordinates) ∧
    ((∃ v, covariance label fields f1 f2 = .ok v) ↔ f1 ∈ fields ∧ f2 ∈ fields ∧ f1.coordinates = f2.coordinates) := by
  unfold covariance
  by_cases h1 : f1 ∈ fields <;> by_cases h2 : f2 ∈ fields <;> by_cases h3 : f1.coordinates = f2.coordinates <;>
    simp [h1, h2, h3]

/-- The terms closed by `SymbolicPKF.internal_closure`. -/
inductive ClosedTerms (fields : List Field) : Ex → Prop
  | field (f : Field) (hf : f ∈ fields) (k : Ex) (hk : ClosedTerm f k) : ClosedTerms fields k
  | errors (f g : Field) (h : [f, g].Sublist fields) : ClosedTerms fields (.ex (.mul f.error g.error))
  | epsilons (f g : Field) (h : [f, g].Sublist fields) : ClosedTerms fields (.ex (.mul f.epsilon g.epsilon))

/-- **C41** The internal closure of a system of normalised fields (all with the same coordinates) exists, closes exactly the
terms of `ClosedTerms`, and all entries are true when the covariance functions are the covariances of the errors. -/
theorem C41_internal_closure (order : ℕ → List (List ℤ) → List (List ℤ)) (ho : ∀ g l, (order g l).Perm l)
    (hS : Stochastic S A) (label : Str) (fields : List Field) (coords : List Str)
    (hc : ∀ f ∈ fields, f.coordinates = coords) (hn : coords.Nodup) (hom : omega ∉ coords)
    (h0 : coords.filter (· ≠ time) ≠ []) (hf : ∀ f ∈ fields, Normalised S f)
    (hv : ∀ f g, [f, g].Sublist fields → ∀ v, covariance label fields f g = .ok v →
      den S v = S.E (den S f.error * den S g.error)) :
    ∃ c, internalClosure order label fields = .ok c ∧ (∀ k, k ∈ Dict.keys c ↔ ClosedTerms fields k) ∧
      ∀ kv ∈ c, Holds S kv := by
  have hfield : ∀ f ∈ fields, ∃ c, f.internalClosure order = .ok c ∧ (∀ k, k ∈ Dict.keys c ↔ ClosedTerm f k) ∧
      ∀ kv ∈ c, Holds S kv := by
    intro f hff
    have e : f.spatial = coords.filter (· ≠ time) := by unfold Field.spatial; rw [hc f hff]
    exact C40_internal_closure order ho hS f (e ▸ h0) (e ▸ hn.filter _) (hc f hff ▸ hom) (hf f hff)
  have hstd : ∀ f ∈ fields, S.pw (den S f.variance) (-1 / 2) ∈ A ∧ S.pw (den S f.variance) (1 / 2) ∈ A := by
    intro f hff
    have : den S f.variance ∈ A := hS.fn_det _ _ (hc f hff ▸ hom)
    exact ⟨hS.pw_det _ _ this, hS.pw_det _ _ this⟩
  -- the fields
  have step1 : ∀ (l : List Field) (c : Dict Ex Ex), (∀ f ∈ l, f ∈ fields) → (∀ kv ∈ c, Holds S kv) →
      ∃ c', l.foldlM (fun (c : Dict Ex Ex) f => do return c.update (← f.internalClosure order)) c = .ok c' ∧
        (∀ k, k ∈ Dict.keys c' ↔ k ∈ Dict.keys c ∨ ∃ f ∈ l, ClosedTerm f k) ∧ ∀ kv ∈ c', Holds S kv := by
    intro l
    induction l with
    | nil => intro c _ h; exact ⟨c, rfl, by simp, h⟩
    | cons f l ih =>
      intro c hl h
      obtain ⟨cf, h1, h2, h3⟩ := hfield f (hl f (by simp))
      obtain ⟨c', h4, h5, h6⟩ := ih (c.update cf) (fun g hg => hl g (List.mem_cons_of_mem _ hg)) (by
        intro kv hkv
        rcases Dict.mem_update _ _ _ hkv with hkv | hkv
        · exact h kv hkv
        · exact h3 kv hkv)
      refine ⟨c', ?_, fun k => ?_, h6⟩
      · rw [List.foldlM_cons]
        simp only [h1, bind, Except.bind, pure, Except.pure] at h4 ⊢
        exact h4
      · rw [h5, Dict.keys_update_iff, h2]
        simp only [List.mem_cons, exists_eq_or_imp, or_assoc]
  -- the couples
  have step2 : ∀ (l : List (Field × Field)) (c : Dict Ex Ex), (∀ p ∈ l, [p.1, p.2].Sublist fields) → (∀ kv ∈ c, Holds S kv) →
      ∃ c', l.foldlM (coupleEntries label fields) c = .ok c' ∧
        (∀ k, k ∈ Dict.keys c' ↔ k ∈ Dict.keys c ∨ ∃ p ∈ l, k = .ex (.mul p.1.error p.2.error) ∨
          k = .ex (.mul p.1.epsilon p.2.epsilon)) ∧ ∀ kv ∈ c', Holds S kv := by
    intro l
    induction l with
    | nil => intro c _ h; exact ⟨c, rfl, by simp, h⟩
    | cons p l ih =>
      intro c hl h
      have hp := hl p (by simp)
      have hm1 : p.1 ∈ fields := hp.subset (by simp)
      have hm2 : p.2 ∈ fields := hp.subset (by simp)
      obtain ⟨v, hv12⟩ := (C41_covariance_errors label fields p.1 p.2).2.2.2
        ⟨hm1, hm2, (hc _ hm1).trans (hc _ hm2).symm⟩
      have hval := hv _ _ hp v hv12
      obtain ⟨c', h4, h5, h6⟩ := ih ((c.set (.ex (.mul p.1.error p.2.error)) v).set (.ex (.mul p.1.epsilon p.2.epsilon))
        (.mul v (.mul (.pow p.1.variance (-1 / 2)) (.pow p.2.variance (-1 / 2)))))
        (fun g hg => hl g (List.mem_cons_of_mem _ hg)) (by
        intro kv hkv
        rcases Dict.mem_set _ _ _ _ hkv with rfl | hkv
        · unfold Holds
          simp only [den]
          rw [hval, (hf _ hm1).error, (hf _ hm2).error]
          have e : den S p.1.epsilon * S.pw (den S p.1.variance) (1 / 2) *
              (den S p.2.epsilon * S.pw (den S p.2.variance) (1 / 2)) =
              (S.pw (den S p.1.variance) (1 / 2) * S.pw (den S p.2.variance) (1 / 2)) *
                (den S p.1.epsilon * den S p.2.epsilon) := by ring
          rw [e, hS.E_mul _ _ (Subalgebra.mul_mem _ (hstd _ hm1).2 (hstd _ hm2).2)]
          have i1 := (hf _ hm1).sqrt_inv
          have i2 := (hf _ hm2).sqrt_inv
          linear_combination (-(S.E (den S p.1.epsilon * den S p.2.epsilon))) * (i1 + (S.pw (den S p.1.variance) (1 / 2) *
            S.pw (den S p.1.variance) (-1 / 2)) * (i2))
        · rcases Dict.mem_set _ _ _ _ hkv with rfl | hkv
          · exact hval.symm
          · exact h kv hkv)
      refine ⟨c', ?_, fun k => ?_, h6⟩
      · rw [List.foldlM_cons]
        have : coupleEntries label fields c p = .ok ((c.set (.ex (.mul p.1.error p.2.error)) v).set (.ex (.mul p.1.epsilon p.2.epsilon))
            (.mul v (.mul (.pow p.1.variance (-1 / 2)) (.pow p.2.variance (-1 / 2))))) := by
          simp only [coupleEntries, hv12, bind, Except.bind, pure, Except.pure]
        simp only [this, bind, Except.bind]
        exact h4
      · rw [h5, Tree.mem_keys_set_iff, Tree.mem_keys_set_iff]
        simp only [List.mem_cons, exists_eq_or_imp, or_assoc]
  obtain ⟨c1, h1, h2, h3⟩ := step1 fields [] (fun f h => h) (by simp)
  obtain ⟨c2, h4, h5, h6⟩ := step2 (couples fields) c1 (fun p hp => ((C41_couples fields).1 p.1 p.2).1 hp) h3
  refine ⟨c2, ?_, fun k => ?_, h6⟩
  · unfold internalClosure
    rw [h1]
    exact h4
  · rw [h5, h2]
    constructor
    · rintro ((h | ⟨f, hf, hk⟩) | ⟨⟨f, g⟩, hp, rfl | rfl⟩)
      · simp [Dict.keys] at h
      · exact .field f hf k hk
      · exact .errors f g (((C41_couples fields).1 f g).1 hp)
      · exact .epsilons f g (((C41_couples fields).1 f g).1 hp)
    · intro h
      cases h with
      | field f hf k hk => exact .inl (.inr ⟨f, hf, hk⟩)
      | errors f g h => exact .inr ⟨(f, g), ((C41_couples fields).1 f g).2 h, .inl rfl⟩
      | epsilons f g h => exact .inr ⟨(f, g), ((C41_couples fields).1 f g).2 h, .inr rfl⟩

/-- **C41** Exactly when two couples share their covariance function: the fields have the same coordinates and the names of the two
fields give the same text, written one after the other. -/
theorem C41_same_function (label : Str) (fields : List Field) (f1 f2 g1 g2 : Field) (v w : Ex)
    (h : covariance label fields f1 f2 = .ok v) (h' : covariance label fields g1 g2 = .ok w) :
    v = w ↔ f1.name ++ f2.name = g1.name ++ g2.name ∧ f1.coordinates = g1.coordinates := by
  obtain ⟨a1, a2, a3⟩ := (C41_covariance_errors label fields f1 f2).2.2.1 ⟨v, h⟩
  obtain ⟨b1, b2, b3⟩ := (C41_covariance_errors label fields g1 g2).2.2.1 ⟨w, h'⟩
  unfold covariance at h h'
  rw [if_pos ⟨a1, a2⟩, if_pos a3] at h
  rw [if_pos ⟨b1, b2⟩, if_pos b3] at h'
  rw [← Except.ok.inj h, ← Except.ok.inj h']
  simp only [Ex.fn.injEq, List.append_assoc, List.append_cancel_left_eq]

/-- **C41** (partial: no name is a proper prefix of another.  The full claim has no such hypothesis; `C41_counterexample` shows
that it is then false.)  Distinct couples have distinct covariance functions. -/
theorem C41_distinct_partial (label : Str) (fields : List Field)
    (hp : ∀ f ∈ fields, ∀ g ∈ fields, f.name <+: g.name → f.name = g.name) (f1 f2 g1 g2 : Field) (v : Ex)
    (h : covariance label fields f1 f2 = .ok v) (h' : covariance label fields g1 g2 = .ok v) : f1 = g1 ∧ f2 = g2 := by
  obtain ⟨a1, a2, a3⟩ := (C41_covariance_errors label fields f1 f2).2.2.1 ⟨v, h⟩
  obtain ⟨b1, b2, b3⟩ := (C41_covariance_errors label fields g1 g2).2.2.1 ⟨v, h'⟩
  obtain ⟨e1, e2⟩ := (C41_same_function label fields f1 f2 g1 g2 v v h h').1 rfl
  have n1 : f1.name = g1.name := by
    rcases List.prefix_or_prefix_of_prefix ⟨f2.name, e1⟩ ⟨g2.name, rfl⟩ with h | h
    · exact hp _ a1 _ b1 h
    · exact (hp _ b1 _ a1 h).symm
  have n2 : f2.name = g2.name := by rw [n1] at e1; exact List.append_cancel_left e1
  cases f1; cases f2; cases g1; cases g2
  simp_all

/-- **C41** Names can collide: the couples `(h, uh)` and `(hu, h)` share their covariance function. -/
theorem C41_counterexample : ∃ (fields : List Field) (f1 f2 g1 g2 : Field) (v : Ex), fields.Nodup ∧
    (f1, f2) ∈ couples fields ∧ (g1, g2) ∈ couples fields ∧ (f1, f2) ≠ (g1, g2) ∧
    covariance "V_".toList fields f1 f2 = .ok v ∧ covariance "V_".toList fields g1 g2 = .ok v :=
  ⟨[⟨"hu".toList, ["t".toList, "x".toList]⟩, ⟨"h".toList, ["t".toList, "x".toList]⟩, ⟨"uh".toList, ["t".toList, "x".toList]⟩],
    ⟨"h".toList, ["t".toList, "x".toList]⟩, ⟨"uh".toList, ["t".toList, "x".toList]⟩,
    ⟨"hu".toList, ["t".toList, "x".toList]⟩, ⟨"h".toList, ["t".toList, "x".toList]⟩,
    .fn "V_huh".toList ["t".toList, "x".toList], by decide +kernel, by decide +kernel, by decide +kernel, by decide +kernel,
    by decide +kernel, by decide +kernel⟩

/-! ## A concrete case -/

section Example

open Smooth

/-- `cos` and `sin` as smooth fields on the line. -/
noncomputable def cosF : F ℝ := ⟨Real.cos, by exact (Real.contDiff_cos : ContDiff ℝ (↑(⊤ : ℕ∞)) Real.cos)⟩
noncomputable def sinF : F ℝ := ⟨Real.sin, by exact (Real.contDiff_sin : ContDiff ℝ (↑(⊤ : ℕ∞)) Real.sin)⟩
/-- A variance field. -/
noncomputable def expSin : F ℝ :=
  ⟨fun x => Real.exp (Real.sin x), by exact (Real.contDiff_exp.comp Real.contDiff_sin : ContDiff ℝ (↑(⊤ : ℕ∞)) (Real.exp ∘ Real.sin))⟩

theorem expSin_pos (x : ℝ) : 0 < (expSin : ℝ → ℝ) x := Real.exp_pos _

/-- The random signs. -/
noncomputable def sgn (b : Bool) : F ℝ := if b then 1 else -1

/-- Four equiprobable events; the field `eps = s1 cos x + s2 sin x` is normalised, with metric `1`; its variance is `exp (sin x)`. -/
noncomputable def epsF (ω : Bool × Bool) : F ℝ := sgn ω.1 * cosF + sgn ω.2 * sinF

/-- The field `u(t, x)`. -/
def fieldU : Field := ⟨"u".toList, ["t".toList, "x".toList]⟩

/-- The field `v(t, x)`. -/
def fieldV : Field := ⟨"v".toList, ["t".toList, "x".toList]⟩

/-- The interpretation of the symbols of both fields: the same normalised error, variances `exp (sin x)` and `1`,
covariance `exp (sin x / 2)`. -/
noncomputable def waves : Interp (Bool × Bool → F ℝ) :=
  interp (fun _ => algebraMap ℚ (F ℝ) (1 / 4)) (fun x => if x = "x".toList then 1 else 0) (fun _ _ => 0)
    (fun u args => if omega ∈ args then
        if u = "{e_{u}}".toList then fun ω => epsF ω * power expSin (1 / 2) else epsF
      else if u = "{V_{u}}".toList then fun _ => expSin else if u = "V_uv".toList then fun _ => power expSin (1 / 2) else 1)
    (fun _ r => r)

theorem dir_algebraMap (v : ℝ) (q : ℚ) : dir v (algebraMap ℚ (F ℝ) q) = 0 := by
  apply Smooth.ext; intro p
  rw [dir_apply]
  have : ((algebraMap ℚ (F ℝ) q : F ℝ) : ℝ → ℝ) = fun _ => (q : ℝ) := rfl
  rw [this]
  simp

theorem waves_stochastic : Stochastic waves Smooth.det := by
  apply stochastic
  · rw [Finset.sum_const, Finset.card_univ]
    simp only [Fintype.card_prod, Fintype.card_bool]
    rw [← map_nsmul, show (2 * 2) • (1 / 4 : ℚ) = 1 by norm_num, map_one]
  · intro v ω; exact dir_algebraMap v _
  · intro s _ ω ω'; rfl
  · intro u args h ω ω'
    simp only [if_neg h]
    split
    · rfl
    · split <;> rfl

theorem dir_cos : dir (1 : ℝ) cosF = - sinF := by
  apply Smooth.ext; intro p
  show fderiv ℝ Real.cos p 1 = - Real.sin p
  rw [fderiv_apply_one_eq_deriv]; simp

theorem dir_sin : dir (1 : ℝ) sinF = cosF := by
  apply Smooth.ext; intro p
  show fderiv ℝ Real.sin p 1 = Real.cos p
  rw [fderiv_apply_one_eq_deriv]; simp

theorem cos_sq_add_sin_sq : cosF ^ 2 + sinF ^ 2 = 1 := by
  apply Smooth.ext; intro p
  show Real.cos p ^ 2 + Real.sin p ^ 2 = 1
  simp

theorem power_half (f : F ℝ) (h : ∀ p, 0 < (f : ℝ → ℝ) p) :
    power f (1 / 2) ^ 2 = f ∧ power f (1 / 2) * power f (-1 / 2) = 1 := by
  have e1 : power f (1 / 2) = ⟨fun p => (f : ℝ → ℝ) p ^ ((1 / 2 : ℚ) : ℝ), (contDiff f).rpow_const_of_ne (fun p => (h p).ne')⟩ := by
    unfold power
    rw [if_neg (by decide +kernel), dif_pos h]
  have e2 : power f (-1 / 2) = ⟨fun p => (f : ℝ → ℝ) p ^ ((-1 / 2 : ℚ) : ℝ), (contDiff f).rpow_const_of_ne (fun p => (h p).ne')⟩ := by
    unfold power
    rw [if_neg (by decide +kernel), dif_pos h]
  constructor
  · apply Smooth.ext; intro p
    rw [e1]
    show ((f : ℝ → ℝ) p ^ ((1 / 2 : ℚ) : ℝ)) ^ 2 = _
    rw [← Real.rpow_natCast, ← Real.rpow_mul (h p).le]
    norm_num
  · apply Smooth.ext; intro p
    rw [e1, e2]
    show (f : ℝ → ℝ) p ^ ((1 / 2 : ℚ) : ℝ) * (f : ℝ → ℝ) p ^ ((-1 / 2 : ℚ) : ℝ) = 1
    rw [← Real.rpow_add (h p)]
    norm_num

theorem quarter (a : F ℝ) : algebraMap ℚ (F ℝ) (1 / 4) * (4 * a) = a := by
  rw [← mul_assoc, show (4 : F ℝ) = algebraMap ℚ (F ℝ) 4 from (map_ofNat _ 4).symm, ← map_mul]
  norm_num

theorem waves_E (r : Bool × Bool → F ℝ) : waves.E r =
    fun _ => algebraMap ℚ (F ℝ) (1 / 4) * (r (true, true) + r (true, false) + r (false, true) + r (false, false)) := by
  funext ω
  simp only [waves, interp, Fintype.sum_prod_type, Fintype.sum_bool]
  ring

theorem waves_norm (f : Field) (W : F ℝ) (hW : ∀ p, 0 < (W : ℝ → ℝ) p) (he : den waves f.epsilon = epsF)
    (hv : den waves f.variance = fun _ => W) (her : den waves f.error = fun ω => epsF ω * power W (1 / 2))
    (hm : den waves (f.metric 0 0) = 1) (hl : f.spatial = ["x".toList]) : Normalised waves f where
  centred := by
    rw [he, waves_E]
    funext ω
    simp only [epsF, sgn, if_true, Bool.false_eq_true, if_false, Pi.zero_apply]
    ring
  normed := by
    rw [he, waves_E]
    funext ω
    simp only [epsF, sgn, if_true, Bool.false_eq_true, if_false, Pi.one_apply, Pi.pow_apply]
    linear_combination (cosF ^ 2 + sinF ^ 2) * quarter 1 + cos_sq_add_sin_sq
  sqrt_sq := by
    rw [hv]
    funext ω
    exact (power_half W hW).1
  sqrt_inv := by
    rw [hv]
    funext ω
    exact (power_half W hW).2
  error := by
    rw [her, hv, he]
    rfl
  metric := by
    intro i j hij hj
    rw [hl] at hj ⊢
    have hj0 : j = 0 := by simpa using hj
    have hi0 : i = 0 := by omega
    subst hj0 hi0
    have hD : waves.D "x".toList epsF = fun ω => - sgn ω.1 * sinF + sgn ω.2 * cosF := by
      funext ω
      simp only [waves, interp, if_true, epsF, dir_add, dir_mul, dir_cos, dir_sin]
      have hs : ∀ b, dir (1 : ℝ) (sgn b) = 0 := by
        intro b
        have : sgn b = algebraMap ℚ (F ℝ) (if b then 1 else -1) := by cases b <;> simp [sgn]
        rw [this, dir_algebraMap]
      rw [hs, hs]
      ring
    rw [hm, he]
    simp only [List.getD_cons_zero]
    rw [hD, waves_E]
    funext ω
    simp only [sgn, if_true, Bool.false_eq_true, if_false, Pi.one_apply, Pi.mul_apply]
    linear_combination -((cosF ^ 2 + sinF ^ 2) * quarter 1 + cos_sq_add_sin_sq)

theorem waves_error : den waves fieldU.error = fun ω => epsF ω * power expSin (1 / 2) := by
  simp only [Field.error, den, waves, interp]
  rw [if_pos (by decide +kernel), if_pos (by decide +kernel)]

theorem waves_error' : den waves fieldV.error = epsF := by
  simp only [Field.error, den, waves, interp]
  rw [if_pos (by decide +kernel), if_neg (by decide +kernel)]

/-- The field `u` with these errors is normalised. -/
theorem waves_normalised : Normalised waves fieldU := by
  refine waves_norm fieldU expSin expSin_pos ?_ ?_ waves_error ?_ (by decide +kernel)
  · simp only [Field.epsilon, den, waves, interp]
    rw [if_pos (by decide +kernel), if_neg (by decide +kernel)]
  · simp only [Field.variance, den, waves, interp]
    rw [if_neg (by decide +kernel), if_pos (by decide +kernel)]
  · simp only [Field.metric, den, waves, interp]
    rw [if_neg (by decide +kernel), if_neg (by decide +kernel), if_neg (by decide +kernel)]

/-- The field `v` is normalised too. -/
theorem waves_normalised' : Normalised waves fieldV := by
  have hp : power (1 : F ℝ) (1 / 2) = 1 := by
    unfold power
    have h1 : ∀ p, 0 < ((1 : F ℝ) : ℝ → ℝ) p := fun p => one_pos
    rw [if_neg (by decide +kernel), dif_pos h1]
    apply Smooth.ext
    intro p
    show (1 : ℝ) ^ ((1 / 2 : ℚ) : ℝ) = 1
    exact Real.one_rpow _
  refine waves_norm fieldV 1 (fun p => one_pos) ?_ ?_ ?_ ?_ (by decide +kernel)
  · simp only [Field.epsilon, den, waves, interp]
    rw [if_pos (by decide +kernel), if_neg (by decide +kernel)]
  · simp only [Field.variance, den, waves, interp]
    rw [if_neg (by decide +kernel), if_neg (by decide +kernel), if_neg (by decide +kernel)]
    rfl
  · rw [waves_error', hp]
    funext ω
    rw [mul_one]
  · simp only [Field.metric, den, waves, interp]
    rw [if_neg (by decide +kernel), if_neg (by decide +kernel), if_neg (by decide +kernel)]

/-- The internal closure of `u(t, x)` is true for these waves. -/
example : ∃ c, fieldU.internalClosure (fun _ l => l) = .ok c ∧ (∀ kv ∈ c, Holds waves kv) ∧ Dict.keys c ≠ [] := by
  obtain ⟨c, h1, h2, h3⟩ := C40_internal_closure (fun _ l => l) (fun _ l => List.Perm.refl l) waves_stochastic fieldU
    (by decide +kernel) (by decide +kernel) (by decide +kernel) waves_normalised
  refine ⟨c, h1, h3, fun h => ?_⟩
  have := (h2 _).2 ClosedTerm.error
  rw [h] at this
  cases this

/-- In two dimensions there are `1 + 1 + 1 + 1 + 2 + 3 + 4` closed terms. -/
example : ((⟨"u".toList, ["t".toList, "x".toList, "y".toList]⟩ : Field).internalClosure (fun _ l => l)).map (·.length) =
    .ok 13 := by decide +kernel

example : couples [1, 2, 3] = [(1, 2), (1, 3), (2, 3)] := by decide
example : covariance "V_".toList [fieldU] fieldU ⟨"v".toList, ["t".toList, "x".toList]⟩ = .error .valueError := by decide +kernel
/-- The closure of the two fields is true for the waves. -/
example : ∃ c, internalClosure (fun _ l => l) "V_".toList [fieldU, fieldV] = .ok c ∧ ∀ kv ∈ c, Holds waves kv := by
  obtain ⟨c, h1, -, h3⟩ := C41_internal_closure (fun _ l => l) (fun _ l => List.Perm.refl l) waves_stochastic "V_".toList
    [fieldU, fieldV] ["t".toList, "x".toList] (by decide +kernel) (by decide +kernel) (by decide +kernel) (by decide +kernel)
    (by
      intro f hf
      simp only [List.mem_cons, List.not_mem_nil, or_false] at hf
      rcases hf with rfl | rfl
      · exact waves_normalised
      · exact waves_normalised') (by
      intro f g h v hv
      have hfg : [f, g] = [fieldU, fieldV] := h.eq_of_length rfl
      simp only [List.cons.injEq, and_true] at hfg
      obtain ⟨rfl, rfl⟩ := hfg
      have e : covariance "V_".toList [fieldU, fieldV] fieldU fieldV = .ok (.fn "V_uv".toList ["t".toList, "x".toList]) := by
        decide +kernel
      rw [e] at hv
      cases hv
      rw [waves_error, waves_error', waves_E]
      simp only [den, waves, interp]
      rw [if_neg (by decide +kernel), if_neg (by decide +kernel), if_pos trivial]
      funext ω
      simp only [epsF, sgn, if_true, Bool.false_eq_true, if_false, Pi.mul_apply]
      linear_combination -(power expSin (1 / 2)) * ((cosF ^ 2 + sinF ^ 2) * quarter 1 + cos_sq_add_sin_sq))
  exact ⟨c, h1, h3⟩

end Example

end Sympkf.PKF
