import Mathlib.Tactic.Ring
import Mathlib.Tactic.LinearCombination
import Verif.Lemmas.PartialOrder
import Verif.Lemmas.Dict
import Verif.Spec.Tree
import Verif.Props.PartialOrder

/-!
# Lemmas on `UnivariateTree`
-/

set_option autoImplicit false

namespace Sympkf

/-- Induction along a loop that does not raise. -/
theorem foldlM_inv {β σ : Type} (f : σ → β → Except PyErr σ) (I : List β → σ → Prop) (l : List β) (s : σ) (h0 : I [] s)
    (hstep : ∀ don x rest s, l = don ++ x :: rest → I don s → ∃ s', f s x = .ok s' ∧ I (don ++ [x]) s') :
    ∃ s', l.foldlM f s = .ok s' ∧ I l s' := by
  have key : ∀ (rest don : List β) (s : σ), l = don ++ rest → I don s → ∃ s', rest.foldlM f s = .ok s' ∧ I l s' := by
    intro rest
    induction rest with
    | nil => intro don s hl hI; exact ⟨s, rfl, by rw [hl, List.append_nil]; exact hI⟩
    | cons x rest ih =>
      intro don s hl hI
      obtain ⟨s1, h1, h2⟩ := hstep don x rest s hl hI
      obtain ⟨s2, h3, h4⟩ := ih (don ++ [x]) s1 (by rw [hl]; simp) h2
      refine ⟨s2, ?_, h4⟩
      rw [List.foldlM_cons, h1]; exact h3
  exact key l [] s rfl h0

namespace Dict
variable {κ α : Type} [DecidableEq κ]

theorem keys_update_iff (d d' : Dict κ α) (k : κ) : k ∈ (d.update d').keys ↔ k ∈ d.keys ∨ k ∈ d'.keys := by
  unfold update
  induction d' generalizing d with
  | nil => simp [keys]
  | cons kv d' ih =>
    rw [List.foldl_cons, ih, mem_keys_iff (d.set kv.1 kv.2)]
    simp only [get?_set]
    have h3 : k ∈ keys (kv :: d') ↔ k = kv.1 ∨ k ∈ keys d' := by simp [keys]
    rw [h3]
    by_cases h : kv.1 = k
    · simp [h]
    · have h' : ¬ k = kv.1 := fun e => h e.symm
      simp only [h, h', if_false, false_or, mem_keys_iff d]

theorem get?_update_some (d d' : Dict κ α) (k : κ) (v : α) (h : (d.update d').get? k = some v) :
    (k, v) ∈ d' ∨ d.get? k = some v := by
  unfold update at h
  induction d' generalizing d with
  | nil => exact .inr h
  | cons kv d' ih =>
    rw [List.foldl_cons] at h
    rcases ih _ h with h1 | h1
    · exact .inl (List.mem_cons_of_mem _ h1)
    · rw [get?_set] at h1
      split at h1
      · rename_i hk
        cases h1
        left; rw [← hk]; simp
      · exact .inr h1

end Dict

namespace Tree

open Text POD Spec

/-! ## Unordered pairs -/

theorem leB_total (a b : List ℤ) : leB a b = true ∨ leB b a = true := by
  induction a generalizing b with
  | nil => exact .inl rfl
  | cons x a ih =>
    cases b with
    | nil => exact .inr rfl
    | cons y b =>
      simp only [leB, Bool.or_eq_true, Bool.and_eq_true, decide_eq_true_eq]
      rcases lt_trichotomy x y with h | h | h
      · exact .inl (.inl h)
      · rcases ih b with h1 | h1
        · exact .inl (.inr ⟨h, h1⟩)
        · exact .inr (.inr ⟨h.symm, h1⟩)
      · exact .inr (.inl h)

theorem leB_antisymm (a b : List ℤ) (h : leB a b = true) (h' : leB b a = true) : a = b := by
  induction a generalizing b with
  | nil => cases b with
    | nil => rfl
    | cons y b => simp [leB] at h'
  | cons x a ih =>
    cases b with
    | nil => simp [leB] at h
    | cons y b =>
      simp only [leB, Bool.or_eq_true, Bool.and_eq_true, decide_eq_true_eq] at h h'
      rcases h with h | ⟨rfl, h⟩
      · rcases h' with h' | ⟨rfl, h'⟩
        · omega
        · omega
      · rcases h' with h' | ⟨-, h'⟩
        · omega
        · rw [ih b h h']

theorem term_comm (a b : List ℤ) : term a b = term b a := by
  unfold term
  split
  · rename_i h
    split
    · rename_i h'; rw [leB_antisymm a b h h']
    · rfl
  · rename_i h
    rcases leB_total a b with h1 | h1
    · exact absurd h1 h
    · rw [if_pos h1]

theorem term_ab (a b : List ℤ) : ((term a b).a = a ∧ (term a b).b = b) ∨ ((term a b).a = b ∧ (term a b).b = a) := by
  unfold term
  split
  · exact .inl ⟨rfl, rfl⟩
  · exact .inr ⟨rfl, rfl⟩

/-- Terms are unordered pairs. -/
theorem term_eq_iff (a b c d : List ℤ) : term a b = term c d ↔ (a = c ∧ b = d) ∨ (a = d ∧ b = c) := by
  constructor
  · intro h
    have h1 := term_ab a b
    have h2 := term_ab c d
    rw [h] at h1
    rcases h1 with ⟨h1, h1'⟩ | ⟨h1, h1'⟩ <;> rcases h2 with ⟨h2, h2'⟩ | ⟨h2, h2'⟩ <;> simp_all
  · rintro (⟨rfl, rfl⟩ | ⟨rfl, rfl⟩)
    · rfl
    · exact term_comm _ _

/-! ## Derivatives -/

section Den
variable {R : Type} [CommRing R] [Algebra ℚ R] {S : Interp R} {A : Subalgebra ℚ R}

theorem D_iter_comm (hS : Stochastic S A) (x y : Str) (n : ℕ) (r : R) : S.D x ((S.D y)^[n] r) = (S.D y)^[n] (S.D x r) := by
  induction n generalizing r with
  | zero => rfl
  | succ n ih => rw [Function.iterate_succ_apply, Function.iterate_succ_apply, ih, hS.D_comm]

theorem D_derivs_comm (hS : Stochastic S A) (x : Str) (v : List (Str × ℕ)) (r : R) :
    S.D x (derivs S v r) = derivs S v (S.D x r) := by
  induction v generalizing r with
  | nil => rfl
  | cons p v ih =>
    obtain ⟨y, n⟩ := p
    simp only [derivs]
    rw [ih, D_iter_comm hS]

theorem Dα_bump (hS : Stochastic S A) (coords : List Str) (x : Str) (hx : x ∈ coords) (o : List ℤ)
    (hl : o.length = coords.length) (h0 : ∀ a ∈ o, 0 ≤ a) (r : R) :
    Dα S coords (bump coords x o) r = S.D x (Dα S coords o r) := by
  unfold Dα bump
  induction coords generalizing o r with
  | nil => simp at hx
  | cons y coords ih =>
    cases o with
    | nil => simp at hl
    | cons a o =>
      by_cases hxy : y = x
      · subst hxy
        simp only [List.idxOf_cons_self, List.modify_zero_cons, List.map_cons, List.zip_cons_cons, derivs]
        rw [D_derivs_comm hS]
        congr 1
        have : (a + 1).toNat = a.toNat + 1 := by have := h0 a (by simp); omega
        rw [this, Function.iterate_succ_apply, D_iter_comm hS]
      · rw [List.idxOf_cons_ne _ hxy]
        simp only [List.modify_succ_cons, List.map_cons, List.zip_cons_cons, derivs]
        have hx' : x ∈ coords := by
          rcases List.mem_cons.1 hx with h | h
          · exact absurd h.symm hxy
          · exact h
        exact ih hx' o (by simpa using hl) (fun b hb => h0 b (List.mem_cons_of_mem _ hb)) _

theorem expProd_comm (coords : List Str) (eps : R) (a b : List ℤ) :
    expProd S coords eps a b = expProd S coords eps b a := by
  unfold expProd; rw [mul_comm]

theorem expProd_term (coords : List Str) (eps : R) (a b : List ℤ) :
    expProd S coords eps (term a b).a (term a b).b = expProd S coords eps a b := by
  rcases term_ab a b with ⟨h1, h2⟩ | ⟨h1, h2⟩
  · rw [h1, h2]
  · rw [h1, h2, expProd_comm]

end Den

/-- The entry is an identity for every random field. -/
def Valid (coords : List Str) (t : Term) (v : TEx) : Prop :=
  ∀ (R : Type) [CommRing R] [Algebra ℚ R] (S : Interp R) (A : Subalgebra ℚ R), Stochastic S A →
    ∀ eps : R, treeVal S coords eps v = expProd S coords eps t.a t.b

theorem valid_subs {coords : List Str} {t : Term} {v : TEx} {tree : Dict Term TEx} (h : Valid coords t v)
    (ht : ∀ t v, tree.get? t = some v → Valid coords t v) : Valid coords t (v.subs tree) := by
  intro R _ _ S A hS eps
  rw [← h R S A hS eps]
  clear h
  induction v with
  | term t =>
    simp only [TEx.subs]
    cases hg : tree.get? t with
    | none => rfl
    | some w => exact ht t w hg R S A hS eps
  | d x e ih => simp only [TEx.subs, treeVal, ih]
  | sub e f ihe ihf => simp only [TEx.subs, treeVal, ihe, ihf]
  | half e ih => simp only [TEx.subs, treeVal, ih]

/-! ## One entry -/

theorem bump_map (coords : List Str) (hn : coords.Nodup) (x : Str) (hx : x ∈ coords) (f : Str → ℤ) :
    bump coords x (coords.map f) = coords.map (fun y => if y = x then f y + 1 else f y) := by
  unfold bump
  induction coords with
  | nil => simp at hx
  | cons y coords ih =>
    rw [List.nodup_cons] at hn
    by_cases hxy : y = x
    · subst hxy
      simp only [List.idxOf_cons_self, List.map_cons, List.modify_zero_cons, if_true, List.cons.injEq, true_and]
      apply List.map_congr_left
      intro z hz
      rw [if_neg]
      rintro rfl
      exact hn.1 hz
    · rw [List.idxOf_cons_ne _ hxy]
      have hx' : x ∈ coords := by
        rcases List.mem_cons.1 hx with h | h
        · exact absurd h.symm hxy
        · exact h
      simp only [List.map_cons, List.modify_succ_cons, if_neg hxy, ih hn.2 hx']

theorem isMultiIndex_bump (coords : List Str) (x : Str) (hx : x ∈ coords) (d : ℕ) (o : List ℤ)
    (h : IsMultiIndex coords.length d o) : IsMultiIndex coords.length (d + 1) (bump coords x o) := by
  have hi : coords.idxOf x < o.length := by rw [h.length]; exact List.idxOf_lt_length_of_mem hx
  refine ⟨by simp [bump, h.length], ?_, ?_⟩
  · intro a ha
    unfold bump at ha
    obtain ⟨i, hi', rfl⟩ := List.mem_iff_getElem.1 ha
    rw [List.getElem_modify]
    have hi2 : i < o.length := by simpa using hi'
    have := h.nonneg o[i] (List.getElem_mem _)
    split <;> omega
  · unfold bump
    rw [sum_modify _ _ hi, h.sum]
    push_cast; rfl

theorem entry_eq (coords : List Str) (hn : coords.Nodup) (a b : ℕ) (hab : a + 1 ≤ b) (o β : List ℤ)
    (ho : IsMultiIndex coords.length (a + 1) o) (hβ : IsMultiIndex coords.length b β) :
    ∃ x ∈ coords, ∃ o', IsMultiIndex coords.length a o' ∧ o = bump coords x o' ∧
      entry ⟨coords, o⟩ ⟨coords, β⟩ =
        .ok (term o β, .sub (.d x (.term (term o' β))) (.term (term o' (bump coords x β)))) := by
  obtain ⟨f, hf⟩ : ∃ f : Str → ℤ, o = coords.map f := ⟨_, (map_getD_idxOf coords hn o ho.length).symm⟩
  have h0 : ∀ n ∈ coords.map f, 0 ≤ n := by rw [← hf]; exact ho.nonneg
  have hc := sequence_count coords f hn h0
  have hm := sequence_mem coords f
  rw [← hf] at hc hm
  cases hs : POrder.sequence ⟨coords, o⟩ with
  | nil =>
    exfalso
    have hz : o = coords.map (fun _ => (0 : ℤ)) := by
      rw [hf]
      apply List.map_congr_left
      intro y hy
      have := hc y hy
      rw [hs] at this
      simpa using this.symm
    have := ho.sum
    rw [hz] at this
    simp at this
    omega
  | cons x rest =>
    rw [hs] at hc hm
    have hx : x ∈ coords := hm x (by simp)
    have hrest : ∀ y ∈ rest, y ∈ coords := fun y hy => hm y (List.mem_cons_of_mem _ hy)
    set o' := coords.map (fun y => ((rest.count y : ℕ) : ℤ)) with ho'
    have hb : o = bump coords x o' := by
      rw [ho', bump_map coords hn x hx, hf]
      apply List.map_congr_left
      intro y hy
      rw [← hc y hy]
      by_cases hyx : y = x
      · subst hyx; simp
      · rw [if_neg hyx, List.count_cons_of_ne (fun e => hyx e.symm)]
    have hi : coords.idxOf x < o'.length := by rw [ho', List.length_map]; exact List.idxOf_lt_length_of_mem hx
    have hmi : IsMultiIndex coords.length a o' := by
      refine ⟨by rw [ho', List.length_map], ?_, ?_⟩
      · intro c hc'
        rw [ho', List.mem_map] at hc'
        obtain ⟨y, -, rfl⟩ := hc'
        exact Int.natCast_nonneg _
      · have := ho.sum
        rw [hb] at this
        unfold bump at this
        rw [sum_modify _ _ hi] at this
        push_cast at this
        omega
    refine ⟨x, hx, o', hmi, hb, ?_⟩
    have hnew : POrder.new ⟨coords, o⟩ (.list (rest.map (fun x => .atom (.sym x)))) = .ok ⟨coords, o'⟩ := by
      show (build coords _).map _ = _
      have : build coords (.list (rest.map (fun x => Item.atom (.sym x)))) = .ok o' := by
        rw [build_ok_iff coords hn]
        exact ⟨_, .sequence rest hrest, ho'⟩
      rw [this]; rfl
    have hne : term o' (bump coords x β) ≠ term o β := by
      rw [Ne, term_eq_iff]
      rintro (⟨h, -⟩ | ⟨h, -⟩)
      · have h1 := hmi.sum
        rw [h, ho.sum] at h1
        push_cast at h1
        omega
      · have h1 := hmi.sum
        rw [h, hβ.sum] at h1
        omega
    unfold entry
    rw [hs]
    simp only [List.tail_cons, hnew, bind, Except.bind, pure, Except.pure]
    rw [← hb]
    simp only [isolate, if_neg hne, if_true]

theorem entry_valid (coords : List Str) (hom : Rand.omega ∉ coords) (x : Str) (hx : x ∈ coords) (a b : ℕ) (o' β : List ℤ)
    (ho : IsMultiIndex coords.length a o') (hβ : IsMultiIndex coords.length b β) :
    Valid coords (term (bump coords x o') β)
      (.sub (.d x (.term (term o' β))) (.term (term o' (bump coords x β)))) := by
  intro R _ _ S A hS eps
  have hxo : x ≠ Rand.omega := fun h => hom (h ▸ hx)
  simp only [treeVal, expProd_term]
  unfold expProd
  rw [Dα_bump hS coords x hx o' ho.length ho.nonneg, Dα_bump hS coords x hx β hβ.length hβ.nonneg, ← hS.E_D x _ hxo,
    hS.D_mul, hS.E_add]
  ring

/-! ## Loops -/

/-- Terms of degree at most `d`. -/
def InDeg (n d : ℕ) (t : Term) : Prop :=
  ∃ a b α β, IsMultiIndex n a α ∧ IsMultiIndex n b β ∧ 1 ≤ a ∧ a ≤ b ∧ a + b ≤ d ∧ t = term α β

/-- Terms of degree exactly `d` with smaller degree at most `m`. -/
def AtDeg (n d m : ℕ) (t : Term) : Prop :=
  ∃ a b α β, IsMultiIndex n a α ∧ IsMultiIndex n b β ∧ 1 ≤ a ∧ a ≤ b ∧ a ≤ m ∧ a + b = d ∧ t = term α β

theorem mem_keys_set_iff {κ α : Type} [DecidableEq κ] (d : Dict κ α) (k : κ) (v : α) (t : κ) :
    t ∈ (d.set k v).keys ↔ t ∈ d.keys ∨ t = k := by
  rw [Dict.mem_keys_iff, Dict.mem_keys_iff]
  simp only [Dict.get?_set]
  by_cases h : k = t
  · simp [h]
  · have : ¬ t = k := fun e => h e.symm
    simp [h, this]

theorem subs_onlyZero (n : ℕ) (tree : Dict Term TEx) (t : Term)
    (hv : ∀ t v, tree.get? t = some v → OnlyZero n v)
    (h : t ∈ tree.keys ∨ (t.a = List.replicate n 0 ∨ t.b = List.replicate n 0)) :
    OnlyZero n ((TEx.term t).subs tree) := by
  simp only [TEx.subs]
  cases hg : tree.get? t with
  | some w => exact hv t w hg
  | none =>
    rcases h with h | h
    · rw [Dict.mem_keys_iff] at h
      obtain ⟨w, hw⟩ := h
      rw [hg] at hw; cases hw
    · exact h

theorem isMultiIndex_zero {n : ℕ} {v : List ℤ} (h : IsMultiIndex n 0 v) : v = List.replicate n 0 := by
  have key : ∀ v : List ℤ, (∀ a ∈ v, 0 ≤ a) → v.sum = 0 → v = List.replicate v.length 0 := by
    intro v
    induction v with
    | nil => intros; rfl
    | cons a v ih =>
      intro h1 h2
      have h3 : 0 ≤ v.sum := List.sum_nonneg (fun x hx => h1 x (List.mem_cons_of_mem _ hx))
      have h4 := h1 a (by simp)
      rw [List.sum_cons] at h2
      have h5 : a = 0 := by omega
      have h6 := ih (fun x hx => h1 x (List.mem_cons_of_mem _ hx)) (by omega)
      rw [List.length_cons, List.replicate_succ, ← h6, h5]
  have := key v h.nonneg (by rw [h.sum]; rfl)
  rw [this, h.length]

/-- State of the two dictionaries after the terms of smaller degree `≤ m` of the level `d + 1`. -/
structure Inv (coords : List Str) (selfSub : Bool) (d m : ℕ) (acc : Dict Term TEx × Dict Term TEx) : Prop where
  keys : ∀ t, t ∈ acc.1.keys ↔ InDeg coords.length d t ∨ AtDeg coords.length (d + 1) m t
  lkeys : ∀ t, t ∈ acc.2.keys ↔ AtDeg coords.length (d + 1) m t
  sub : ∀ t v, acc.2.get? t = some v → acc.1.get? t = some v
  valid : ∀ t v, acc.1.get? t = some v → Valid coords t v
  zero : selfSub = true → ∀ t v, acc.1.get? t = some v → OnlyZero coords.length v
  nodup : acc.2.keys.Nodup

theorem alphaLoop_inv (order : ℕ → List (List ℤ) → List (List ℤ)) (ho : ∀ g l, (order g l).Perm l) (coords : List Str)
    (h0 : coords ≠ []) (hn : coords.Nodup) (hom : Rand.omega ∉ coords) (selfSub : Bool) (d m : ℕ)
    (hm : 2 * (m + 1) ≤ d + 1) (acc : Dict Term TEx × Dict Term TEx) (hI : Inv coords selfSub d m acc) :
    ∃ acc', alphaLoop order coords selfSub (d + 1) acc (m + 1) = .ok acc' ∧ Inv coords selfSub d (m + 1) acc' := by
  obtain ⟨La, hLa, -, hLa', -⟩ := C36_all_of_degree order ho coords h0 (m + 1)
  obtain ⟨Lb, hLb, -, hLb', -⟩ := C36_all_of_degree order ho coords h0 (d + 1 - (m + 1))
  set pairs := La.flatMap (fun al => Lb.map (fun be => (al, be))) with hpairs
  have hmem : ∀ p, p ∈ pairs ↔ ∃ α β, p = (⟨coords, α⟩, ⟨coords, β⟩) ∧
      IsMultiIndex coords.length (m + 1) α ∧ IsMultiIndex coords.length (d - m) β := by
    intro p
    have e : d + 1 - (m + 1) = d - m := by omega
    rw [e] at hLb'
    simp only [hpairs, List.mem_flatMap, List.mem_map]
    constructor
    · rintro ⟨al, h1, be, h2, rfl⟩
      obtain ⟨h3, h4⟩ := (hLa' al).1 h1
      obtain ⟨h5, h6⟩ := (hLb' be).1 h2
      refine ⟨al.orders, be.orders, ?_, h4, h6⟩
      cases al; cases be; cases h3; cases h5; rfl
    · rintro ⟨α, β, rfl, h1, h2⟩
      exact ⟨_, (hLa' _).2 ⟨rfl, h1⟩, _, (hLb' _).2 ⟨rfl, h2⟩, rfl⟩
  let T : POrder × POrder → Term := fun p => term p.1.orders p.2.orders
  obtain ⟨acc', h1, h2⟩ := foldlM_inv (step selfSub)
    (fun don acc' =>
      (∀ t, t ∈ acc'.1.keys ↔ t ∈ acc.1.keys ∨ ∃ p ∈ don, t = T p) ∧
      (∀ t, t ∈ acc'.2.keys ↔ t ∈ acc.2.keys ∨ ∃ p ∈ don, t = T p) ∧
      (∀ t v, acc'.2.get? t = some v → acc'.1.get? t = some v) ∧
      (∀ t v, acc'.1.get? t = some v → Valid coords t v) ∧
      (selfSub = true → ∀ t v, acc'.1.get? t = some v → OnlyZero coords.length v) ∧
      acc'.2.keys.Nodup)
    pairs acc ⟨by simp, by simp, hI.sub, hI.valid, hI.zero, hI.nodup⟩ (by
      rintro don p rest acc1 hl ⟨k1, k2, k3, k4, k5, k6⟩
      have hp : p ∈ pairs := by rw [hl]; simp
      obtain ⟨α, β, rfl, hα, hβ⟩ := (hmem p).1 hp
      obtain ⟨x, hx, o', ho', rfl, he⟩ := entry_eq coords hn m (d - m) (by omega) α β hα hβ
      have hval := entry_valid coords hom x hx m (d - m) o' β ho' hβ
      set v0 := TEx.sub (.d x (.term (term o' β))) (.term (term o' (bump coords x β))) with hv0
      set v := if selfSub then v0.subs acc1.1 else v0 with hv
      have hvalid : Valid coords (term (bump coords x o') β) v := by
        rw [hv]
        split
        · exact valid_subs hval k4
        · exact hval
      refine ⟨(acc1.1.set (term (bump coords x o') β) v, acc1.2.set (term (bump coords x o') β) v), ?_, ?_, ?_, ?_, ?_, ?_, ?_⟩
      · unfold step
        simp only [he, bind, Except.bind, pure, Except.pure, ← hv]
      · intro t
        rw [mem_keys_set_iff, k1]
        simp only [List.mem_append, List.mem_singleton, or_and_right, exists_or, exists_eq_left, or_assoc]
        rfl
      · intro t
        rw [mem_keys_set_iff, k2]
        simp only [List.mem_append, List.mem_singleton, or_and_right, exists_or, exists_eq_left, or_assoc]
        rfl
      · intro t w hw
        rw [Dict.get?_set] at hw ⊢
        split
        · rename_i h; rw [if_pos h] at hw; exact hw
        · rename_i h; rw [if_neg h] at hw; exact k3 t w hw
      · intro t w hw
        rw [Dict.get?_set] at hw
        split at hw
        · rename_i h; cases hw; rw [← h]; exact hvalid
        · exact k4 t w hw
      · intro hs t w hw
        rw [Dict.get?_set] at hw
        split at hw
        · cases hw
          rw [hv, if_pos hs, hv0]
          have dep : ∀ γ c, IsMultiIndex coords.length c γ → (c = d - m ∨ c = d - m + 1) →
              term o' γ ∈ acc1.1.keys ∨ ((term o' γ).a = List.replicate coords.length 0 ∨
                (term o' γ).b = List.replicate coords.length 0) := by
            intro γ c hγ hc
            cases m with
            | zero =>
              right
              have := isMultiIndex_zero ho'
              rcases term_ab o' γ with ⟨e1, -⟩ | ⟨-, e1⟩
              · exact .inl (e1.trans this)
              · exact .inr (e1.trans this)
            | succ m =>
              left
              rw [k1, hI.keys]
              left
              rcases hc with hc | hc
              · exact .inl ⟨m + 1, c, o', γ, ho', hγ, by omega, by omega, by omega, rfl⟩
              · exact .inr ⟨m + 1, c, o', γ, ho', hγ, by omega, by omega, by omega, by omega, rfl⟩
          exact ⟨subs_onlyZero _ _ _ (k5 hs) (dep β _ hβ (.inl rfl)),
            subs_onlyZero _ _ _ (k5 hs) (dep _ _ (isMultiIndex_bump coords x hx _ β hβ) (.inr rfl))⟩
        · exact k5 hs t w hw
      · exact Dict.nodup_keys_set _ _ _ k6)
  obtain ⟨k1, k2, k3, k4, k5, k6⟩ := h2
  have hT : ∀ t, (∃ p ∈ pairs, t = T p) ↔
      ∃ α β, IsMultiIndex coords.length (m + 1) α ∧ IsMultiIndex coords.length (d - m) β ∧ t = term α β := by
    intro t
    constructor
    · rintro ⟨p, hp, rfl⟩
      obtain ⟨α, β, rfl, h3, h4⟩ := (hmem p).1 hp
      exact ⟨α, β, h3, h4, rfl⟩
    · rintro ⟨α, β, h3, h4, rfl⟩
      exact ⟨_, (hmem _).2 ⟨α, β, rfl, h3, h4⟩, rfl⟩
  have hAt : ∀ t, AtDeg coords.length (d + 1) (m + 1) t ↔ AtDeg coords.length (d + 1) m t ∨
      ∃ α β, IsMultiIndex coords.length (m + 1) α ∧ IsMultiIndex coords.length (d - m) β ∧ t = term α β := by
    intro t
    constructor
    · rintro ⟨a, b, α, β, hα, hβ, e1, e2, e3, e4, rfl⟩
      by_cases h : a ≤ m
      · exact .inl ⟨a, b, α, β, hα, hβ, e1, e2, h, e4, rfl⟩
      · right
        have ha : a = m + 1 := by omega
        have hb : b = d - m := by omega
        subst ha hb
        exact ⟨α, β, hα, hβ, rfl⟩
    · rintro (⟨a, b, α, β, hα, hβ, e1, e2, e3, e4, rfl⟩ | ⟨α, β, hα, hβ, rfl⟩)
      · exact ⟨a, b, α, β, hα, hβ, e1, e2, by omega, e4, rfl⟩
      · exact ⟨m + 1, d - m, α, β, hα, hβ, by omega, by omega, by omega, by omega, rfl⟩
  refine ⟨acc', ?_, ?_, ?_, k3, k4, k5, k6⟩
  · unfold alphaLoop
    simp only [hLa, hLb, bind, Except.bind]
    exact h1
  · intro t
    rw [k1, hI.keys, hT, hAt, or_assoc]
  · intro t
    rw [k2, hI.lkeys, hT, hAt]

/-- What the state satisfies after `d` levels. -/
structure SInv (coords : List Str) (selfSub : Bool) (s : State) : Prop where
  keys : ∀ t, t ∈ s.tree.keys ↔ InDeg coords.length s.degree t
  valid : ∀ t v, s.tree.get? t = some v → Valid coords t v
  zero : selfSub = true → ∀ t v, s.tree.get? t = some v → OnlyZero coords.length v
  lvl : ∀ l, l ∈ s.levels.keys ↔ 1 ≤ l ∧ l ≤ s.degree
  lkeys : ∀ l D, (l, D) ∈ s.levels → ∀ t, t ∈ D.keys ↔ AtDeg coords.length l l t
  lvalid : ∀ l D, (l, D) ∈ s.levels → ∀ t v, (t, v) ∈ D → Valid coords t v
  lzero : selfSub = true → ∀ l D, (l, D) ∈ s.levels → ∀ t v, (t, v) ∈ D → OnlyZero coords.length v

theorem sinv_init (coords : List Str) (selfSub : Bool) : SInv coords selfSub State.init := by
  refine ⟨fun t => ?_, ?_, ?_, ?_, ?_, ?_, ?_⟩
  · simp only [State.init, Dict.keys, List.map_nil, List.not_mem_nil, false_iff]
    rintro ⟨a, b, α, β, -, -, h1, h2, h3, -⟩
    omega
  · intro t v h; cases h
  · intro _ t v h; cases h
  · intro l; simp [State.init, Dict.keys]; omega
  · intro l D h; cases h
  · intro l D h; cases h
  · intro _ l D h; cases h

theorem addLevel_ok (order : ℕ → List (List ℤ) → List (List ℤ)) (ho : ∀ g l, (order g l).Perm l) (coords : List Str)
    (h0 : coords ≠ []) (hn : coords.Nodup) (hom : Rand.omega ∉ coords) (selfSub : Bool) (s : State)
    (hs : SInv coords selfSub s) :
    ∃ tree level, addLevel order coords selfSub s = .ok ⟨s.degree + 1, s.levels ++ [(s.degree + 1, level)], tree⟩ ∧
      SInv coords selfSub ⟨s.degree + 1, s.levels ++ [(s.degree + 1, level)], tree⟩ := by
  have hinit : Inv coords selfSub s.degree 0 (s.tree, []) := by
    refine ⟨fun t => ?_, fun t => ?_, fun t v h => (by cases h), hs.valid, hs.zero, by simp [Dict.keys]⟩
    · rw [hs.keys]
      constructor
      · exact .inl
      · rintro (h | ⟨a, b, α, β, -, -, h1, h2, h3, -⟩)
        · exact h
        · omega
    · simp only [Dict.keys, List.map_nil, List.not_mem_nil, false_iff]
      rintro ⟨a, b, α, β, -, -, h1, h2, h3, -⟩
      omega
  have loop : ∀ k, 2 * k ≤ s.degree + 1 → ∃ acc,
      (List.range' 1 k).foldlM (alphaLoop order coords selfSub (s.degree + 1)) (s.tree, []) = .ok acc ∧
        Inv coords selfSub s.degree k acc := by
    intro k
    induction k with
    | zero => intro _; exact ⟨_, rfl, hinit⟩
    | succ k ih =>
      intro hk
      obtain ⟨acc, h1, h2⟩ := ih (by omega)
      obtain ⟨acc', h3, h4⟩ := alphaLoop_inv order ho coords h0 hn hom selfSub s.degree k hk acc h2
      refine ⟨acc', ?_, h4⟩
      rw [List.range'_concat, List.foldlM_append, h1]
      simp only [bind, Except.bind, List.foldlM_cons, List.foldlM_nil, Nat.one_mul]
      rw [Nat.add_comm 1 k, h3]; rfl
  obtain ⟨⟨tree, level⟩, h1, h2⟩ := loop ((s.degree + 1) / 2) (by omega)
  have hnew : s.degree + 1 ∉ Dict.keys s.levels := by rw [hs.lvl]; omega
  have hset : Dict.set s.levels (s.degree + 1) level = s.levels ++ [(s.degree + 1, level)] :=
    Dict.set_append_of_notMem _ _ _ hnew
  have hAt : ∀ t, AtDeg coords.length (s.degree + 1) ((s.degree + 1) / 2) t ↔
      AtDeg coords.length (s.degree + 1) (s.degree + 1) t := by
    intro t
    constructor
    · rintro ⟨a, b, α, β, hα, hβ, e1, e2, e3, e4, rfl⟩
      exact ⟨a, b, α, β, hα, hβ, e1, e2, by omega, e4, rfl⟩
    · rintro ⟨a, b, α, β, hα, hβ, e1, e2, e3, e4, rfl⟩
      exact ⟨a, b, α, β, hα, hβ, e1, e2, by omega, e4, rfl⟩
  refine ⟨tree, level, ?_, ?_⟩
  · unfold addLevel
    simp only [h1, bind, Except.bind, pure, Except.pure]
    rw [hset]
  · refine ⟨fun t => ?_, h2.valid, h2.zero, fun l => ?_, ?_, ?_, ?_⟩
    · rw [h2.keys]
      constructor
      · rintro (⟨a, b, α, β, hα, hβ, e1, e2, e3, rfl⟩ | ⟨a, b, α, β, hα, hβ, e1, e2, e3, e4, rfl⟩)
        · exact ⟨a, b, α, β, hα, hβ, e1, e2, by dsimp only; omega, rfl⟩
        · exact ⟨a, b, α, β, hα, hβ, e1, e2, by dsimp only; omega, rfl⟩
      · rintro ⟨a, b, α, β, hα, hβ, e1, e2, e3, rfl⟩
        by_cases h : a + b ≤ s.degree
        · exact .inl ⟨a, b, α, β, hα, hβ, e1, e2, h, rfl⟩
        · refine .inr ⟨a, b, α, β, hα, hβ, e1, e2, ?_, ?_, rfl⟩
          · dsimp only at e3; omega
          · dsimp only at e3; omega
    · have := hs.lvl l
      simp only [Dict.keys, List.map_append, List.map_cons, List.map_nil, List.mem_append, List.mem_singleton] at this ⊢
      rw [this]; omega
    · intro l D h
      rcases List.mem_append.1 h with h | h
      · exact hs.lkeys l D h
      · simp only [List.mem_singleton, Prod.mk.injEq] at h
        obtain ⟨rfl, rfl⟩ := h
        intro t
        rw [← hAt]; exact h2.lkeys t
    · intro l D h
      rcases List.mem_append.1 h with h | h
      · exact hs.lvalid l D h
      · simp only [List.mem_singleton, Prod.mk.injEq] at h
        obtain ⟨rfl, rfl⟩ := h
        intro t v htv
        exact h2.valid t v (h2.sub t v (Dict.get?_of_mem h2.nodup htv))
    · intro hs' l D h
      rcases List.mem_append.1 h with h | h
      · exact hs.lzero hs' l D h
      · simp only [List.mem_singleton, Prod.mk.injEq] at h
        obtain ⟨rfl, rfl⟩ := h
        intro t v htv
        exact h2.zero hs' t v (h2.sub t v (Dict.get?_of_mem h2.nodup htv))

theorem addLevels_add (order : ℕ → List (List ℤ) → List (List ℤ)) (coords : List Str) (selfSub : Bool) (m n : ℕ) (s : State) :
    addLevels order coords selfSub (m + n) s =
      (addLevels order coords selfSub m s).bind (addLevels order coords selfSub n) := by
  induction m generalizing s with
  | zero => rw [Nat.zero_add]; rfl
  | succ m ih =>
    rw [Nat.succ_add]
    simp only [addLevels, bind, Except.bind]
    cases addLevel order coords selfSub s with
    | error e => rfl
    | ok s' => exact ih s'

/-- The state after `n` more levels, and its levels of degree at most the old one. -/
theorem addLevels_ok (order : ℕ → List (List ℤ) → List (List ℤ)) (ho : ∀ g l, (order g l).Perm l) (coords : List Str)
    (h0 : coords ≠ []) (hn : coords.Nodup) (hom : Rand.omega ∉ coords) (selfSub : Bool) (n : ℕ) (s : State)
    (hs : SInv coords selfSub s) :
    ∃ s', addLevels order coords selfSub n s = .ok s' ∧ SInv coords selfSub s' ∧ s'.degree = s.degree + n ∧
      ∃ L, s'.levels = s.levels ++ L ∧ ∀ l ∈ L, s.degree < l.1 := by
  induction n generalizing s with
  | zero => exact ⟨s, rfl, hs, rfl, [], by simp, by simp⟩
  | succ n ih =>
    obtain ⟨tree, level, h1, h2⟩ := addLevel_ok order ho coords h0 hn hom selfSub s hs
    obtain ⟨s', h3, h4, h5, L, h6, h7⟩ := ih _ h2
    refine ⟨s', ?_, h4, ?_, (s.degree + 1, level) :: L, ?_, ?_⟩
    · simp only [addLevels, h1, bind, Except.bind]; exact h3
    · rw [h5]; dsimp only; omega
    · rw [h6]; simp
    · intro l hl
      rcases List.mem_cons.1 hl with rfl | hl
      · dsimp only; omega
      · have := h7 l hl
        dsimp only at this; omega

end Tree
end Sympkf
