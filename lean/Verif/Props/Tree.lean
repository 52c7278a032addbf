import Verif.Lemmas.Tree
import Verif.Props.Random

/-!
# C37-C39: the substitution tree of one random field
-/

set_option autoImplicit false

namespace Sympkf.Tree

open Text POD Spec

section
variable (order : ℕ → List (List ℤ) → List (List ℤ)) (coords : List Str) (selfSub : Bool)

/-- `s` is the state of an object after some calls. -/
def Reachable (s : State) : Prop := ∃ ds, history order coords selfSub ds State.init = .ok s

variable {order coords selfSub}

/-- Reachable states are those after a number of levels. -/
theorem reachable_levels (ho : ∀ g l, (order g l).Perm l) (h0 : coords ≠ []) (hn : coords.Nodup)
    (hom : Rand.omega ∉ coords) (ds : List (Option ℕ)) :
    ∃ n s, history order coords selfSub ds State.init = .ok s ∧ addLevels order coords selfSub n State.init = .ok s ∧
      s.degree = n ∧ SInv coords selfSub s := by
  have key : ∀ (ds : List (Option ℕ)) (n : ℕ) (s : State), addLevels order coords selfSub n State.init = .ok s →
      s.degree = n → SInv coords selfSub s →
      ∃ n' s', history order coords selfSub ds s = .ok s' ∧ addLevels order coords selfSub n' State.init = .ok s' ∧
        s'.degree = n' ∧ SInv coords selfSub s' := by
    intro ds
    induction ds with
    | nil => intro n s h1 h2 h3; exact ⟨n, s, rfl, h1, h2, h3⟩
    | cons d ds ih =>
      intro n s h1 h2 h3
      by_cases hlt : s.degree < d.getD s.degree
      · obtain ⟨s', h4, h5, h6, -⟩ := addLevels_ok order ho coords h0 hn hom selfSub (d.getD s.degree - s.degree) s h3
        simp only [history, call, bind, Except.bind, pure, Except.pure, if_pos hlt, h4]
        apply ih (n + (d.getD s.degree - s.degree)) s'
        · rw [addLevels_add, h1]; exact h4
        · rw [h6, h2]
        · exact h5
      · simp only [history, call, bind, Except.bind, pure, Except.pure, if_neg hlt]
        exact ih n s h1 h2 h3
  exact key ds 0 State.init rfl rfl (sinv_init coords selfSub)

/-- The dictionary returned for a degree. -/
theorem collect_spec {s : State} (hs : SInv coords selfSub s) (d : ℕ) (hd : d ≤ s.degree) :
    let tree := collect d s.levels []
    (∀ t, t ∈ tree.keys ↔ InDeg coords.length d t) ∧
      (∀ t v, tree.get? t = some v → ∃ l D, (l, D) ∈ s.levels ∧ l ≤ d ∧ (t, v) ∈ D) := by
  have key : ∀ (L : Dict ℕ (Dict Term TEx)) (acc : Dict Term TEx),
      (∀ t, t ∈ (collect d L acc).keys ↔
        t ∈ acc.keys ∨ ∃ l ∈ L, l.1 ≤ d ∧ t ∈ l.2.keys) ∧
      (∀ t v, (collect d L acc).get? t = some v →
        acc.get? t = some v ∨ ∃ l D, (l, D) ∈ L ∧ l ≤ d ∧ (t, v) ∈ D) := by
    intro L
    induction L with
    | nil => intro acc; exact ⟨by simp [show collect d [] acc = acc from rfl], fun t v h => .inl h⟩
    | cons l L ih =>
      intro acc
      have hc : collect d (l :: L) acc = collect d L (if d < l.1 then acc else acc.update l.2) := rfl
      rw [hc]
      obtain ⟨h1, h2⟩ := ih (if d < l.1 then acc else acc.update l.2)
      constructor
      · intro t
        rw [h1]
        split
        · rename_i hl
          simp only [List.mem_cons, exists_eq_or_imp, not_le.2 hl, false_and, false_or]
        · rename_i hl
          simp only [List.mem_cons, exists_eq_or_imp, not_lt.1 hl, true_and, Dict.keys_update_iff, or_assoc]
      · intro t v h
        rcases h2 t v h with h3 | ⟨l', D, h3, h4, h5⟩
        · split at h3
          · exact .inl h3
          · rename_i hl
            rcases Dict.get?_update_some _ _ _ _ h3 with h6 | h6
            · exact .inr ⟨l.1, l.2, by simp, not_lt.1 hl, h6⟩
            · exact .inl h6
        · exact .inr ⟨l', D, List.mem_cons_of_mem _ h3, h4, h5⟩
  obtain ⟨h1, h2⟩ := key s.levels []
  refine ⟨fun t => ?_, fun t v h => ?_⟩
  · rw [h1]
    constructor
    · rintro (h | ⟨⟨l, D⟩, h3, h4, h5⟩)
      · simp [Dict.keys] at h
      · obtain ⟨a, b, α, β, hα, hβ, e1, e2, e3, e4, rfl⟩ := (hs.lkeys l D h3 t).1 h5
        exact ⟨a, b, α, β, hα, hβ, e1, e2, by dsimp only at h4; omega, rfl⟩
    · rintro ⟨a, b, α, β, hα, hβ, e1, e2, e3, rfl⟩
      right
      have hk := (hs.lvl (a + b)).2 ⟨by omega, by omega⟩
      obtain ⟨⟨l, D⟩, h3, h4⟩ := List.mem_map.1 hk
      dsimp only at h4
      subst h4
      exact ⟨(a + b, D), h3, e3, (hs.lkeys _ D h3 _).2 ⟨a, b, α, β, hα, hβ, e1, e2, by omega, rfl, rfl⟩⟩
  · rcases h2 t v h with h3 | h3
    · cases h3
    · exact h3

/-- A call on a reachable state. -/
theorem call_spec (ho : ∀ g l, (order g l).Perm l) (h0 : coords ≠ []) (hn : coords.Nodup)
    (hom : Rand.omega ∉ coords) {s : State} (hs : SInv coords selfSub s) (d : Option ℕ) :
    ∃ tree s', call order coords selfSub d s = .ok (tree, s') ∧
      (∀ t, t ∈ tree.keys ↔ InDeg coords.length (d.getD s.degree) t) ∧
      (∀ t v, tree.get? t = some v → Valid coords t v) ∧
      (selfSub = true → ∀ t v, tree.get? t = some v → OnlyZero coords.length v) := by
  have fin : ∀ s', SInv coords selfSub s' → d.getD s.degree ≤ s'.degree →
      let tree := collect (d.getD s.degree) s'.levels []
      (∀ t, t ∈ tree.keys ↔ InDeg coords.length (d.getD s.degree) t) ∧
      (∀ t v, tree.get? t = some v → Valid coords t v) ∧
      (selfSub = true → ∀ t v, tree.get? t = some v → OnlyZero coords.length v) := by
    intro s' h5 h6
    obtain ⟨h7, h8⟩ := collect_spec h5 (d.getD s.degree) h6
    refine ⟨h7, fun t v h => ?_, fun hs' t v h => ?_⟩
    · obtain ⟨l, D, h9, -, h10⟩ := h8 t v h
      exact h5.lvalid l D h9 t v h10
    · obtain ⟨l, D, h9, -, h10⟩ := h8 t v h
      exact h5.lzero hs' l D h9 t v h10
  by_cases hlt : s.degree < d.getD s.degree
  · obtain ⟨s', h4, h5, h6, -⟩ := addLevels_ok order ho coords h0 hn hom selfSub (d.getD s.degree - s.degree) s hs
    refine ⟨_, s', ?_, fin s' h5 (by omega)⟩
    simp only [call, bind, Except.bind, pure, Except.pure, if_pos hlt, h4]
  · refine ⟨_, s, ?_, fin s hs (by omega)⟩
    simp only [call, bind, Except.bind, pure, Except.pure, if_neg hlt]

end

section
variable (order : ℕ → List (List ℤ) → List (List ℤ)) (ho : ∀ g l, (order g l).Perm l) (coords : List Str)
  (h0 : coords ≠ []) (hn : coords.Nodup) (hom : Rand.omega ∉ coords) (selfSub : Bool)
include ho h0 hn hom

/-- **C37** Every substitution of the tree is an identity: for every random field `eps` of every stochastic differential ring,
the replacing expression has the value `E[D^a eps D^b eps]` of the replaced term; whatever calls were made before, with or without
the substitution of the tree into itself. -/
theorem C37_tree_sound (s : State) (hs : Reachable order coords selfSub s) (d : Option ℕ) (tree : Dict Term TEx) (s' : State)
    (h : call order coords selfSub d s = .ok (tree, s')) (t : Term) (v : TEx) (ht : tree.get? t = some v)
    {R : Type} [CommRing R] [Algebra ℚ R] (S : Interp R) (A : Subalgebra ℚ R) (hS : Stochastic S A) (eps : R) :
    treeVal S coords eps v = expProd S coords eps t.a t.b := by
  obtain ⟨ds, hds⟩ := hs
  obtain ⟨n, s1, h1, -, -, h2⟩ := reachable_levels (selfSub := selfSub) ho h0 hn hom ds
  rw [h1] at hds; cases hds
  obtain ⟨tree', s2, h3, -, h4, -⟩ := call_spec ho h0 hn hom h2 d
  rw [h3] at h; cases h
  exact h4 t v ht R S A hS eps

/-- **C38** Asked for degree `d`, the tree has an entry for exactly the terms `E[D^a eps D^b eps]` with `a, b ≠ 0` and
`|a| + |b| ≤ d`. -/
theorem C38_tree_complete (s : State) (hs : Reachable order coords selfSub s) (d : ℕ) :
    ∃ tree s', call order coords selfSub (some d) s = .ok (tree, s') ∧
      ∀ t, t ∈ tree.keys ↔ ∃ a b α β, IsMultiIndex coords.length a α ∧ IsMultiIndex coords.length b β ∧ 0 < a ∧ 0 < b ∧
        a + b ≤ d ∧ t = term α β := by
  obtain ⟨ds, hds⟩ := hs
  obtain ⟨n, s1, h1, -, -, h2⟩ := reachable_levels (selfSub := selfSub) ho h0 hn hom ds
  rw [h1] at hds; cases hds
  obtain ⟨tree', s2, h3, h4, -, -⟩ := call_spec ho h0 hn hom h2 (some d)
  refine ⟨tree', s2, h3, fun t => ?_⟩
  rw [h4]
  constructor
  · rintro ⟨a, b, α, β, hα, hβ, e1, e2, e3, rfl⟩
    exact ⟨a, b, α, β, hα, hβ, by omega, by omega, e3, rfl⟩
  · rintro ⟨a, b, α, β, hα, hβ, e1, e2, e3, rfl⟩
    by_cases h : a ≤ b
    · exact ⟨a, b, α, β, hα, hβ, e1, h, e3, rfl⟩
    · exact ⟨b, a, β, α, hβ, hα, e2, by omega, by simp only [Option.getD_some] at *; omega, term_comm _ _⟩

/-- **C38** The substituted expressions only contain terms `E[eps D^c eps]` (and their derivatives). -/
theorem C38_reduced (s : State) (hs : Reachable order coords true s) (d : Option ℕ) (tree : Dict Term TEx) (s' : State)
    (h : call order coords true d s = .ok (tree, s')) (t : Term) (v : TEx) (ht : tree.get? t = some v) :
    OnlyZero coords.length v := by
  obtain ⟨ds, hds⟩ := hs
  obtain ⟨n, s1, h1, -, -, h2⟩ := reachable_levels (selfSub := true) ho h0 hn hom ds
  rw [h1] at hds; cases hds
  obtain ⟨tree', s2, h3, -, -, h4⟩ := call_spec ho h0 hn hom h2 d
  rw [h3] at h; cases h
  exact h4 rfl t v ht

/-- **C39** Whatever degrees were requested before, the returned dictionary is that of a new object; no call fails. -/
theorem C39_tree_history (ds : List (Option ℕ)) (d : ℕ) :
    ∃ s tree s' s'', history order coords selfSub ds State.init = .ok s ∧
      call order coords selfSub (some d) s = .ok (tree, s') ∧
      call order coords selfSub (some d) State.init = .ok (tree, s'') := by
  obtain ⟨n, s, h1, h2, h3, h4⟩ := reachable_levels (selfSub := selfSub) ho h0 hn hom ds
  have fold_skip : ∀ (L M : Dict ℕ (Dict Term TEx)), (∀ l ∈ M, d < l.1) → collect d (L ++ M) [] = collect d L [] := by
    intro L M hM
    have hap : collect d (L ++ M) [] = collect d M (collect d L []) := List.foldl_append
    rw [hap]
    clear hap
    generalize collect d L [] = acc
    induction M with
    | nil => rfl
    | cons l M ih =>
      have hc : collect d (l :: M) acc = collect d M (if d < l.1 then acc else acc.update l.2) := rfl
      rw [hc, if_pos (hM l (by simp))]
      exact ih (fun l' hl' => hM l' (List.mem_cons_of_mem _ hl'))
  obtain ⟨sd, hd1, hd2, hd3, -⟩ := addLevels_ok order ho coords h0 hn hom selfSub d State.init (sinv_init coords selfSub)
  have hinit : ∃ s'', call order coords selfSub (some d) State.init =
      .ok (collect d sd.levels [], s'') := by
    by_cases hz : 0 < d
    · refine ⟨sd, ?_⟩
      simp only [call, Option.getD_some, bind, Except.bind, pure, Except.pure]
      rw [if_pos (show State.init.degree < d from hz), show d - State.init.degree = d from rfl, hd1]
    · have : d = 0 := by omega
      subst this
      cases hd1
      exact ⟨State.init, rfl⟩
  obtain ⟨s'', hs''⟩ := hinit
  by_cases hlt : s.degree < d
  · obtain ⟨s', h5, h6, h7, -⟩ := addLevels_ok order ho coords h0 hn hom selfSub (d - s.degree) s h4
    have : s' = sd := by
      have e := addLevels_add order coords selfSub n (d - s.degree) State.init
      rw [h2] at e
      have hnd : n + (d - s.degree) = d := by omega
      rw [hnd, hd1] at e
      exact (Except.ok.inj (e.trans h5)).symm
    subst this
    refine ⟨s, _, s', s'', h1, ?_, hs''⟩
    simp only [call, Option.getD_some, bind, Except.bind, pure, Except.pure, if_pos hlt, h5]
  · obtain ⟨s1, h5, h6, h7, L, h8, h9⟩ := addLevels_ok order ho coords h0 hn hom selfSub (s.degree - d) sd hd2
    have : s1 = s := by
      have e := addLevels_add order coords selfSub d (s.degree - d) State.init
      rw [hd1] at e
      have hnd : d + (s.degree - d) = n := by omega
      rw [hnd, h2] at e
      exact Except.ok.inj ((show _ = Except.ok s1 from h5).symm.trans e.symm)
    subst this
    refine ⟨s1, _, s1, s'', h1, ?_, hs''⟩
    simp only [call, Option.getD_some, bind, Except.bind, pure, Except.pure, if_neg hlt]
    rw [h8, fold_skip]
    intro l hl
    have := h9 l hl
    have hdd : sd.degree = d := by rw [hd3]; exact Nat.zero_add d
    omega

end

/-- Without coordinates the first level that contains a term fails. -/
theorem C38_no_coordinate (order : ℕ → List (List ℤ) → List (List ℤ)) (selfSub : Bool) :
    call order [] selfSub (some 2) State.init = .error .indexError := rfl

/-- **C37** `isolate` solves `Derivative(t0, x) = t1 + t2` for any of its terms, and finds it when it is there. -/
theorem C37_isolate (x : Str) (t0 t1 t2 t : Term) :
    (t = t1 ∨ t = t2 → ∃ v, isolate x t0 t1 t2 t = .ok v) ∧ (¬ (t = t1 ∨ t = t2) → isolate x t0 t1 t2 t = .error .indexError) ∧
    ∀ v, isolate x t0 t1 t2 t = .ok v → ∀ {R : Type} [CommRing R] [Algebra ℚ R] (S : Interp R) (coords : List Str) (eps : R),
      S.D x (expProd S coords eps t0.a t0.b) = expProd S coords eps t1.a t1.b + expProd S coords eps t2.a t2.b →
      treeVal S coords eps v = expProd S coords eps t.a t.b := by
  refine ⟨?_, ?_, ?_⟩
  · unfold isolate
    rintro (rfl | rfl) <;> split <;> (try split) <;> simp_all
  · intro h
    rw [not_or] at h
    unfold isolate
    rw [if_neg (fun e => h.1 e.symm), if_neg (fun e => h.2 e.symm)]
  · intro v hv R _ _ S coords eps hD
    unfold isolate at hv
    split at hv
    · subst t1
      split at hv
      · subst t2
        cases hv
        simp only [treeVal, hD]
        rw [← two_mul, ← mul_assoc, ← map_ofNat (algebraMap ℚ R) 2, ← map_mul]
        norm_num
      · cases hv
        simp only [treeVal, hD]
        ring
    · split at hv
      · subst t2
        cases hv
        simp only [treeVal, hD]
        ring
      · cases hv

section Examples

/-- In one dimension: `E[(d eps)²] = d E[eps d eps] - E[eps d² eps]`. -/
example : (call (fun _ l => l) ["x".toList] true (some 2) State.init).map Prod.fst =
    .ok [(term [1] [1], .sub (.d "x".toList (.term (term [0] [1]))) (.term (term [0] [2])))] := by decide +kernel

/-- In two dimensions, degree 4: which of the two forms of `E[d_x² eps d_y² eps]` is kept depends on the order of the sets. -/
example : ((call (fun _ l => l) ["x".toList, "y".toList] false (some 4) State.init).map
      (fun r => r.1.get? (term [2, 0] [0, 2])) =
      .ok (some (.sub (.d "y".toList (.term (term [0, 1] [2, 0]))) (.term (term [0, 1] [2, 1]))))) ∧
    (((call (fun _ l => l) ["x".toList, "y".toList] true (some 4) State.init).map (fun r => r.1.length)) = .ok 23) := by
  decide +kernel

/-- Hypotheses: two coordinates; a reachable state after three calls. -/
example : (["x".toList, "y".toList] : List Str).Nodup ∧ Rand.omega ∉ (["x".toList, "y".toList] : List Str) ∧
    Reachable (fun _ l => l) ["x".toList] true ⟨3, [(1, []), (2, [(term [1] [1],
      .sub (.d "x".toList (.term (term [0] [1]))) (.term (term [0] [2])))]), (3, [(term [1] [2],
      .sub (.d "x".toList (.term (term [0] [2]))) (.term (term [0] [3])))])],
      [(term [1] [1], .sub (.d "x".toList (.term (term [0] [1]))) (.term (term [0] [2]))),
      (term [1] [2], .sub (.d "x".toList (.term (term [0] [2]))) (.term (term [0] [3])))]⟩ :=
  ⟨by decide, by decide, [some 2, none, some 3], by decide +kernel⟩

open Polynomial in
/-- In the ring of `Props/Random.lean` with the field `eps = 2 x` or `0`: `E[(d eps)²] = 2`. -/
example : expProd Rand.twoEvents ["x".toList] (fun b => if b then 2 * X else 0) [1] [1] = fun _ => 2 := by
  funext b
  simp only [expProd, Dα, Rand.twoEvents, List.map_cons, List.map_nil, List.zip_cons_cons, List.zip_nil_left,
    derivs, if_true, Pi.mul_apply, Bool.false_eq_true, if_false, show Int.toNat 1 = 1 from rfl, Function.iterate_one]
  have h2 : derivative (2 * X : ℚ[X]) = 2 := by
    rw [show (2 : ℚ[X]) = C 2 from rfl, derivative_C_mul, derivative_X, mul_one]
  rw [h2, derivative_zero]
  have := Rand.half (2 : ℚ[X])
  linear_combination this

end Examples

end Sympkf.Tree
