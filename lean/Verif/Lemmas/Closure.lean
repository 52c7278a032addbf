import Verif.Spec.Closure
import Verif.Lemmas.Dict
import Verif.Lemmas.Tree
import Verif.Props.PartialOrder

/-! # Lemmas on closures -/

set_option autoImplicit false

namespace Sympkf.Clo

open Text POD Rand PKF Spec Spec.Clo

variable {C : Type}

/-! ## Series -/

theorem foldl_truncate [Zero C] (d n : ℕ) (S : Series C) :
    (List.range d).foldl (fun S i => truncate i n S) S = below d n S := by
  induction d with
  | zero => funext b; simp [below]
  | succ d ih =>
    rw [List.range_succ, List.foldl_append, ih]
    funext b
    simp only [List.foldl_cons, List.foldl_nil, truncate, below]
    by_cases h1 : b.getD d 0 < n
    · rw [if_pos h1]
      congr 1
      simp only [eq_iff_iff]
      constructor
      · intro h i hi
        rcases Nat.lt_succ_iff_lt_or_eq.1 hi with hi | rfl
        · exact h i hi
        · exact h1
      · intro h i hi; exact h i (by omega)
    · rw [if_neg h1, if_neg (fun h => h1 (h d (by omega)))]

theorem foldl_coeff [Zero C] (k : ℕ → ℕ) (m : ℕ) (S : Series C) (b : List ℕ) (hl : m ≤ b.length)
    (hb : ∀ i < m, b.getD i 0 = 0) :
    ((List.range m).foldl (fun S i => coeff i (k i) S) S) b = S ((List.range m).map k ++ b.drop m) := by
  induction m generalizing b with
  | zero => simp
  | succ m ih =>
    rw [List.range_succ, List.foldl_append, List.foldl_cons, List.foldl_nil, coeff, if_pos (hb m (by omega))]
    rw [ih (b.set m (k m)) (by simp; omega)]
    · congr 1
      rw [List.map_append, List.append_assoc]
      congr 1
      have hm : m < (b.set m (k m)).length := by simp; omega
      rw [List.drop_eq_getElem_cons hm, List.getElem_set_self, List.drop_set_of_lt (by omega)]
      rfl
    · intro i hi
      rw [List.getD_eq_getElem?_getD, List.getElem?_set_ne (by omega), ← List.getD_eq_getElem?_getD]
      exact hb i (by omega)

theorem coeffAlpha_eq [Zero C] (f : Field) (hn : f.spatial.Nodup) (S : Series C) (a : List ℤ) (d : ℕ)
    (ha : IsMultiIndex f.spatial.length d a) : coeffAlpha f S ⟨f.spatial, a⟩ = coefficient S a := by
  unfold coeffAlpha
  rw [foldl_coeff (fun i => (POrder.sequence ⟨f.spatial, a⟩).count (f.spatial.getD i [])) _ _ _ (by simp)
    (by intro i hi; simp [hi])]
  rw [List.drop_eq_nil_of_le (by simp), List.append_nil, coefficient]
  congr 1
  obtain ⟨g, rfl⟩ : ∃ g : Str → ℤ, a = f.spatial.map g := ⟨_, (map_getD_idxOf _ hn a ha.length).symm⟩
  rw [List.map_map]
  refine List.ext_getElem (by simp) (fun i h1 h2 => ?_)
  simp only [List.length_map, List.length_range] at h1
  have hmem : f.spatial[i] ∈ f.spatial := List.getElem_mem _
  have := sequence_count f.spatial g hn ha.nonneg f.spatial[i] hmem
  simp only [List.getElem_map, List.getElem_range, List.getD_eq_getElem?_getD, List.getElem?_eq_getElem h1, Option.getD_some,
    Function.comp_apply]
  omega

theorem coefficient_below [Zero C] (m n k : ℕ) (hk : k < n) (S : Series C) (a : List ℤ) (ha : IsMultiIndex m k a) :
    coefficient (below m n S) a = coefficient S a := by
  unfold coefficient below
  rw [if_pos]
  intro i hi
  have hle : ∀ x ∈ a, x ≤ k := by
    intro x hx
    have := List.single_le_sum (fun y hy => ha.nonneg y hy) x hx
    rw [ha.sum] at this; exact this
  have hi' : i < a.length := by rw [ha.length]; exact hi
  simp only [List.getD_eq_getElem?_getD, List.getElem?_map, List.getElem?_eq_getElem hi', Option.map_some, Option.getD_some]
  have := hle _ (List.getElem_mem hi')
  omega

/-! ## Keys -/

theorem sequence_eq_nil (c : List Str) (g : Str → ℤ) (h0 : ∀ n ∈ c.map g, 0 ≤ n) :
    POrder.sequence ⟨c, c.map g⟩ = [] ↔ ∀ x ∈ c, g x = 0 := by
  induction c with
  | nil => simp [POrder.sequence]
  | cons x c ih =>
    rw [sequence_cons, List.append_eq_nil_iff, ih (fun n hn => h0 n (List.mem_cons_of_mem _ hn))]
    have := h0 (g x) (by simp)
    simp only [List.mem_cons, forall_eq_or_imp]
    refine and_congr_left (fun _ => ?_)
    split
    · rw [List.replicate_eq_nil_iff]; omega
    · simp; omega

theorem term_eq (f : Field) (hn : f.spatial.Nodup) (a : List ℤ) (d : ℕ) (ha : IsMultiIndex f.spatial.length d a) :
    term f ⟨f.spatial, a⟩ = epsTerm f a := by
  obtain ⟨g, rfl⟩ : ∃ g : Str → ℤ, a = f.spatial.map g := ⟨_, (map_getD_idxOf _ hn a ha.length).symm⟩
  have hnil := sequence_eq_nil f.spatial g ha.nonneg
  have hcount := sequence_count f.spatial g hn ha.nonneg
  have hall : ((f.spatial.map g).all (· = 0)) = true ↔ ∀ x ∈ f.spatial, g x = 0 := by simp
  unfold term epsTerm
  match hs : POrder.sequence ⟨f.spatial, f.spatial.map g⟩ with
  | [] => rw [if_pos (hall.2 (hnil.1 hs))]
  | y :: l =>
    rw [if_neg (fun h => by rw [hnil.2 (hall.1 h)] at hs; cases hs)]
    simp only
    congr 2
    unfold derivSeq
    congr 1
    rw [hs] at hcount
    have key : ∀ c : List Str, (∀ x ∈ c, x ∈ f.spatial) →
        (c.filter (fun x => x ∈ y :: l)).map (fun x => (x, (y :: l).count x)) =
          (c.zip ((c.map g).map Int.toNat)).filter (fun p => 0 < p.2) := by
      intro c
      induction c with
      | nil => intro _; rfl
      | cons x c ih =>
        intro hc
        have hx := hcount x (hc x List.mem_cons_self)
        simp only [List.map_cons, List.zip_cons_cons, List.filter_cons]
        rw [← ih (fun z hz => hc z (List.mem_cons_of_mem _ hz))]
        by_cases hm : x ∈ y :: l
        · have hpos : 0 < (y :: l).count x := List.count_pos_iff.2 hm
          rw [if_pos (by simpa using hm), if_pos (by simp; omega), List.map_cons]
          congr 2
          omega
        · have h0 : (y :: l).count x = 0 := List.count_eq_zero.2 hm
          rw [if_neg (by simpa using hm), if_neg (by simp; omega)]
    exact key f.spatial (fun _ h => h)

theorem epsTerm_injective (f : Field) (hn : f.spatial.Nodup) (a b : List ℤ) (d d' : ℕ)
    (ha : IsMultiIndex f.spatial.length d a) (hb : IsMultiIndex f.spatial.length d' b) (h : epsTerm f a = epsTerm f b) : a = b := by
  obtain ⟨g, rfl⟩ : ∃ g : Str → ℤ, a = f.spatial.map g := ⟨_, (map_getD_idxOf _ hn a ha.length).symm⟩
  obtain ⟨g', rfl⟩ : ∃ g : Str → ℤ, b = f.spatial.map g := ⟨_, (map_getD_idxOf _ hn b hb.length).symm⟩
  have hall : ∀ g : Str → ℤ, ((f.spatial.map g).all (· = 0)) = true ↔ ∀ x ∈ f.spatial, g x = 0 := by simp
  unfold epsTerm at h
  by_cases h1 : ((f.spatial.map g).all (· = 0)) = true <;> by_cases h2 : ((f.spatial.map g').all (· = 0)) = true
  · rw [hall] at h1 h2
    exact List.map_congr_left (fun x hx => by rw [h1 x hx, h2 x hx])
  · rw [if_pos h1, if_neg h2] at h
    cases h
  · rw [if_neg h1, if_pos h2] at h
    cases h
  · rw [if_neg h1, if_neg h2] at h
    simp only [Ex.ex.injEq, Ex.mul.injEq, Ex.deriv.injEq, true_and] at h
    refine List.map_congr_left (fun x hx => ?_)
    have hm : ∀ g : Str → ℤ, ∀ n : ℕ, (x, n) ∈ (f.spatial.zip ((f.spatial.map g).map Int.toNat)).filter (fun p => 0 < p.2) ↔
        n = (g x).toNat ∧ 0 < n := by
      intro g n
      rw [List.mem_filter]
      simp only [decide_eq_true_eq]
      refine and_congr_left (fun _ => ?_)
      have key : ∀ c : List Str, x ∈ c → ((x, n) ∈ c.zip ((c.map g).map Int.toNat) ↔ n = (g x).toNat) := by
        intro c
        induction c with
        | nil => intro h; simp at h
        | cons z c ih =>
          intro hz
          simp only [List.map_cons, List.zip_cons_cons, List.mem_cons, Prod.mk.injEq]
          constructor
          · rintro (⟨rfl, rfl⟩ | hm)
            · rfl
            · have : x ∈ c := (List.of_mem_zip hm).1
              exact (ih this).1 hm
          · intro hn
            by_cases hxz : x = z
            · exact .inl ⟨hxz, by rw [hn, hxz]⟩
            · exact .inr ((ih ((List.mem_cons.1 hz).resolve_left hxz)).2 hn)
      exact key f.spatial hx
    have h0 := ha.nonneg (g x) (List.mem_map_of_mem hx)
    have h0' := hb.nonneg (g' x) (List.mem_map_of_mem hx)
    by_cases hpos : 0 < (g x).toNat
    · have := (hm g' (g x).toNat).1 (h ▸ (hm g (g x).toNat).2 ⟨rfl, hpos⟩)
      omega
    · by_cases hpos' : 0 < (g' x).toNat
      · have := (hm g (g' x).toNat).1 (h ▸ (hm g' (g' x).toNat).2 ⟨rfl, hpos'⟩)
        omega
      · omega

/-! ## The loops -/

variable [CommRing C] (P : Params C) (f : Field)

/-- The tuples of degree `k` in the order of the loop. -/
def alphas (k : ℕ) : List POrder :=
  match allOfDegree P.order f.spatial k with
  | .ok ps => ps
  | .error _ => []

/-- The dictionary of the order `k`. -/
def entry (k : ℕ) : Dict Ex C :=
  (alphas P f k).foldl (fun (c : Dict Ex C) p => c.set (epsTerm f p.orders) ((k.factorial : C) * coefficient P.correlation p.orders)) []

variable {P f}

omit [CommRing C] in
theorem alphas_spec (ho : ∀ g l, (P.order g l).Perm l) (h0 : f.spatial ≠ []) (k : ℕ) :
    allOfDegree P.order f.spatial k = .ok (alphas P f k) ∧ alphas P f k ≠ [] ∧
      ∀ p, p ∈ alphas P f k ↔ p.coordinates = f.spatial ∧ IsMultiIndex f.spatial.length k p.orders := by
  obtain ⟨L, h1, -, h3, h4⟩ := C36_all_of_degree P.order ho f.spatial h0 k
  have : alphas P f k = L := by simp [alphas, h1]
  rw [this]
  refine ⟨h1, ?_, h3⟩
  rintro rfl
  have hpos : 0 < f.spatial.length := List.length_pos_iff.2 h0
  have := Nat.choose_pos (n := f.spatial.length + k - 1) (k := k) (by omega)
  rw [← h4] at this
  simp at this

theorem alphaLoop_eq (n factorial : ℕ) (ps : List POrder) (c : Dict Ex C) (s : State C) (hp : ps ≠ [])
    (hs : s.order < n ∨ s.order = n ∧ s.taylor = some (below f.spatial.length n P.correlation)) :
    alphaLoop P f n factorial ps c s =
      (.ok (ps.foldl (fun (c : Dict Ex C) p => c.set (term f p)
        ((factorial : C) * coeffAlpha f (below f.spatial.length n P.correlation) p)) c),
        ⟨n, some (below f.spatial.length n P.correlation), s.byOrder⟩) := by
  induction ps generalizing c s with
  | nil => exact absurd rfl hp
  | cons p ps ih =>
    have ht : taylor P f n s = ⟨n, some (below f.spatial.length n P.correlation), s.byOrder⟩ := by
      unfold taylor
      rcases hs with hs | ⟨hs, hs'⟩
      · rw [if_pos hs, foldl_truncate]
      · rw [if_neg (by omega)]
        obtain ⟨o, ta, b⟩ := s
        simp only at hs hs'
        rw [hs, hs']
    simp only [alphaLoop, ht, List.foldl_cons]
    match ps with
    | [] => rfl
    | q :: ps => exact ih _ _ (by simp) (.inr ⟨rfl, rfl⟩)

theorem foldl_entry (hn : f.spatial.Nodup) (ho : ∀ g l, (P.order g l).Perm l) (h0 : f.spatial ≠ []) (n k : ℕ) (hk : k < n) :
    (alphas P f k).foldl (fun (c : Dict Ex C) p => c.set (term f p)
        ((k.factorial : C) * coeffAlpha f (below f.spatial.length n P.correlation) p)) [] = entry P f k := by
  unfold entry
  have h3 := (alphas_spec ho h0 k).2.2
  have key : ∀ (ps : List POrder) (c : Dict Ex C), (∀ p ∈ ps, p ∈ alphas P f k) →
      ps.foldl (fun (c : Dict Ex C) p => c.set (term f p)
        ((k.factorial : C) * coeffAlpha f (below f.spatial.length n P.correlation) p)) c =
      ps.foldl (fun (c : Dict Ex C) p => c.set (epsTerm f p.orders) ((k.factorial : C) * coefficient P.correlation p.orders)) c := by
    intro ps
    induction ps with
    | nil => intro _ _; rfl
    | cons p ps ih =>
      intro c hps
      rw [List.foldl_cons, List.foldl_cons, ih _ (fun q hq => hps q (List.mem_cons_of_mem _ hq))]
      obtain ⟨hc, ha⟩ := (h3 p).1 (hps p List.mem_cons_self)
      obtain ⟨coords, o⟩ := p
      simp only at hc ha
      subst hc
      rw [term_eq f hn o k ha, coeffAlpha_eq f hn _ o k ha, coefficient_below _ _ _ hk _ _ ha]
  exact key _ _ (fun _ h => h)

theorem orderLoop_eq (hn : f.spatial.Nodup) (ho : ∀ g l, (P.order g l).Perm l) (h0 : f.spatial ≠ []) (n m k : ℕ) (s : State C)
    (hm : k + m ≤ n) (hpos : 0 < m)
    (hs : s.order < n ∨ s.order = n ∧ s.taylor = some (below f.spatial.length n P.correlation)) :
    orderLoop P f n m k (k - 1).factorial s =
      (.ok (), ⟨n, some (below f.spatial.length n P.correlation),
        (List.range' k m).foldl (fun (d : Dict ℕ (Dict Ex C)) j => d.set j (entry P f j)) s.byOrder⟩) := by
  induction m generalizing k s with
  | zero => omega
  | succ m ih =>
    have hfac : (if k ≠ 0 then (k - 1).factorial * k else (k - 1).factorial) = k.factorial := by
      match k with
      | 0 => rfl
      | k + 1 => simp [Nat.factorial_succ, Nat.mul_comm]
    have ha := alphas_spec ho h0 k
    simp only [orderLoop, hfac, ha.1]
    rw [alphaLoop_eq n k.factorial _ _ _ ha.2.1 hs]
    simp only
    rw [foldl_entry hn ho h0 n k (by omega), List.range'_succ, List.foldl_cons]
    match m with
    | 0 => rfl
    | m + 1 =>
      have := ih (k + 1) ⟨n, some (below f.spatial.length n P.correlation), s.byOrder.set k (entry P f k)⟩ (by omega) (by omega)
        (.inr ⟨rfl, rfl⟩)
      rw [Nat.add_sub_cancel] at this
      exact this

/-- The dictionary of the orders below `m`. -/
def table (P : Params C) (f : Field) (m : ℕ) : Dict ℕ (Dict Ex C) := (List.range m).map (fun j => (j, entry P f j))

theorem get?_table (m k : ℕ) : (table P f m).get? k = if k < m then some (entry P f k) else none := by
  induction m with
  | zero => rfl
  | succ m ih =>
    have : table P f (m + 1) = table P f m ++ [(m, entry P f m)] := by simp [table, List.range_succ]
    rw [this, Dict.get?_append, ih]
    by_cases h : k < m
    · rw [if_pos h, if_pos (by omega)]; rfl
    · rw [if_neg h, Dict.get?_cons]
      by_cases h' : m = k
      · subst h'; rw [if_pos rfl, if_pos (by omega)]; rfl
      · rw [if_neg h', if_neg (by omega)]; rfl

theorem fill_table (m n : ℕ) :
    (List.range' 0 n).foldl (fun (d : Dict ℕ (Dict Ex C)) j => d.set j (entry P f j)) (table P f m) = table P f (max m n) := by
  induction n with
  | zero => simp
  | succ n ih =>
    rw [List.range'_1_concat, List.foldl_append, ih, List.foldl_cons, List.foldl_nil, Nat.zero_add]
    by_cases h : n < m
    · rw [show max m n = m by omega, show max m (n + 1) = m by omega]
      exact Dict.set_eq_self _ _ _ (by rw [get?_table, if_pos h])
    · rw [show max m n = n by omega, show max m (n + 1) = n + 1 by omega]
      rw [Dict.set_append_of_notMem]
      · simp [table, List.range_succ]
      · simp [table, Dict.keys]

/-- `closure_by_order` on an object whose dictionary holds the orders below `m`. -/
theorem closureByOrder_eq (hn : f.spatial.Nodup) (ho : ∀ g l, (P.order g l).Perm l) (h0 : f.spatial ≠ []) (n m : ℕ) (s : State C)
    (hs : s.byOrder = table P f m) :
    closureByOrder P f n s = if s.order < n + 1 then
        (.ok (table P f (max m (n + 1))), ⟨n + 1, some (below f.spatial.length (n + 1) P.correlation), table P f (max m (n + 1))⟩)
      else (.ok (table P f m), s) := by
  unfold closureByOrder
  simp only
  by_cases h : s.order < n + 1
  · rw [if_pos h, if_pos h]
    have := orderLoop_eq hn ho h0 (n + 1) (n + 1) 0 s (by omega) (by omega) (.inl h)
    rw [show Nat.factorial (0 - 1) = 1 from rfl] at this
    rw [this, hs, fill_table]
  · rw [if_neg h, if_neg h, hs]

theorem closure_state (n : ℕ) (s : State C) : (closure P f n s).2 = (closureByOrder P f n s).2 := by
  unfold closure
  match closureByOrder P f n s with
  | (.error e, s) => rfl
  | (.ok d, s) => rfl

/-- The state after a history without `in_metric_by_order`. -/
theorem after_eq (hn : f.spatial.Nodup) (ho : ∀ g l, (P.order g l).Perm l) (h0 : f.spatial ≠ []) (h : List Call)
    (hm : ∀ n, Call.inMetricByOrder n ∉ h) :
    after P f h.reverse = ⟨(counters h).1, if (counters h).1 = 0 then none else
      some (below f.spatial.length (counters h).1 P.correlation), table P f (counters h).2⟩ := by
  unfold after
  rw [List.foldl_reverse]
  induction h with
  | nil => rfl
  | cons c h ih =>
    rw [List.foldr_cons, ih (fun n hh => hm n (List.mem_cons_of_mem _ hh))]
    have hclo : ∀ n, (closureByOrder P f n ⟨(counters h).1, if (counters h).1 = 0 then none else
        some (below f.spatial.length (counters h).1 P.correlation), table P f (counters h).2⟩).2 =
        ⟨(counters (.closureByOrder n :: h)).1, if (counters (.closureByOrder n :: h)).1 = 0 then none else
          some (below f.spatial.length (counters (.closureByOrder n :: h)).1 P.correlation),
          table P f (counters (.closureByOrder n :: h)).2⟩ := by
      intro n
      rw [closureByOrder_eq hn ho h0 n (counters h).2 _ rfl]
      simp only [counters]
      by_cases hlt : (counters h).1 < n + 1
      · simp [hlt]
      · simp [hlt]
    match c with
    | .taylor n =>
      simp only [step, taylor, counters, foldl_truncate]
      by_cases hlt : (counters h).1 < n
      · simp [hlt, show max (counters h).1 n = n by omega, show ¬ n = 0 by omega]
      · simp [hlt, show max (counters h).1 n = (counters h).1 by omega]
    | .closureByOrder n => exact hclo n
    | .closure n => exact (closure_state n _).trans (hclo n)
    | .inMetricByOrder n => exact absurd List.mem_cons_self (hm n)

theorem get?_entry (hn : f.spatial.Nodup) (ho : ∀ g l, (P.order g l).Perm l) (h0 : f.spatial ≠ []) (k : ℕ) (key : Ex) (v : C) :
    (entry P f k).get? key = some v ↔ ∃ a, IsMultiIndex f.spatial.length k a ∧ key = epsTerm f a ∧
      v = (k.factorial : C) * coefficient P.correlation a := by
  have h3 := (alphas_spec ho h0 k).2.2
  have aux : ∀ (ps : List POrder) (c : Dict Ex C), (∀ p ∈ ps, p ∈ alphas P f k) →
      ((ps.foldl (fun (c : Dict Ex C) p => c.set (epsTerm f p.orders)
        ((k.factorial : C) * coefficient P.correlation p.orders)) c).get? key = some v ↔
      (∃ p ∈ ps, key = epsTerm f p.orders ∧ v = (k.factorial : C) * coefficient P.correlation p.orders) ∨
        (∀ p ∈ ps, key ≠ epsTerm f p.orders) ∧ c.get? key = some v) := by
    intro ps
    induction ps with
    | nil => intro c _; simp
    | cons p ps ih =>
      intro c hps
      rw [List.foldl_cons, ih _ (fun q hq => hps q (List.mem_cons_of_mem _ hq)), Dict.get?_set]
      by_cases hk : epsTerm f p.orders = key
      · rw [if_pos hk]
        constructor
        · rintro (⟨q, hq, h1, h2⟩ | ⟨h1, h2⟩)
          · exact .inl ⟨q, List.mem_cons_of_mem _ hq, h1, h2⟩
          · exact .inl ⟨p, List.mem_cons_self, hk.symm, (Option.some.inj h2).symm⟩
        · rintro (⟨q, hq, h1, h2⟩ | ⟨h1, h2⟩)
          · by_cases hex : ∃ q ∈ ps, key = epsTerm f q.orders
            · obtain ⟨q', hq', h1'⟩ := hex
              refine .inl ⟨q', hq', h1', ?_⟩
              have e : q.orders = q'.orders := epsTerm_injective f hn _ _ k k ((h3 q).1 (hps q hq)).2
                ((h3 q').1 (hps q' (List.mem_cons_of_mem _ hq'))).2 (h1.symm.trans h1')
              rw [← e]; exact h2
            · refine .inr ⟨fun q' hq' h' => hex ⟨q', hq', h'⟩, ?_⟩
              have e : q.orders = p.orders := epsTerm_injective f hn _ _ k k ((h3 q).1 (hps q hq)).2
                ((h3 p).1 (hps p List.mem_cons_self)).2 (h1.symm.trans hk.symm)
              rw [h2, e]
          · exact absurd hk.symm (h1 p List.mem_cons_self)
      · rw [if_neg hk]
        constructor
        · rintro (⟨q, hq, h1, h2⟩ | ⟨h1, h2⟩)
          · exact .inl ⟨q, List.mem_cons_of_mem _ hq, h1, h2⟩
          · refine .inr ⟨fun q hq => ?_, h2⟩
            rcases List.mem_cons.1 hq with rfl | hq
            · exact fun h => hk h.symm
            · exact h1 q hq
        · rintro (⟨q, hq, h1, h2⟩ | ⟨h1, h2⟩)
          · rcases List.mem_cons.1 hq with rfl | hq
            · exact absurd h1.symm hk
            · exact .inl ⟨q, hq, h1, h2⟩
          · exact .inr ⟨fun q hq => h1 q (List.mem_cons_of_mem _ hq), h2⟩
  unfold entry
  rw [aux _ _ (fun _ h => h)]
  simp only [Dict.get?_nil, reduceCtorEq, and_false, or_false]
  constructor
  · rintro ⟨p, hp, h1, h2⟩
    exact ⟨p.orders, ((h3 p).1 hp).2, h1, h2⟩
  · rintro ⟨a, ha, h1, h2⟩
    exact ⟨⟨f.spatial, a⟩, (h3 _).2 ⟨rfl, ha⟩, h1, h2⟩

end Sympkf.Clo
