import Verif.Lemmas.Tree
import Verif.Lemmas.Field

/-!
# Lemmas: the derivatives in the tree are along the coordinates
-/

set_option autoImplicit false

namespace Sympkf

/-- Induction along a loop that succeeded. -/
theorem foldlM_ok {β σ : Type} (f : σ → β → Except PyErr σ) (I : σ → Prop) (l : List β) (s s' : σ)
    (h : l.foldlM f s = .ok s') (h0 : I s) (hstep : ∀ s b s', b ∈ l → I s → f s b = .ok s' → I s') : I s' := by
  induction l generalizing s with
  | nil => cases h; exact h0
  | cons x l ih =>
    rw [List.foldlM_cons] at h
    cases hx : f s x with
    | error e => rw [hx] at h; cases h
    | ok s1 =>
      rw [hx] at h
      exact ih s1 h (hstep s x s1 (by simp) h0 hx) (fun s b s' hb => hstep s b s' (by simp [hb]))

theorem Dict.mem_of_get? {κ α : Type} [DecidableEq κ] (d : Dict κ α) (k : κ) (v : α) (h : d.get? k = some v) :
    (k, v) ∈ d := by
  induction d with
  | nil => cases h
  | cons kv d ih =>
    rw [Dict.get?_cons] at h
    split at h
    · rename_i e
      cases h; subst e; simp
    · exact List.mem_cons_of_mem _ (ih h)

theorem Dict.nodup_keys_update {κ α : Type} [DecidableEq κ] (d d' : Dict κ α) (h : d.keys.Nodup) :
    (d.update d').keys.Nodup := by
  induction d' generalizing d with
  | nil => exact h
  | cons kv d' ih => exact ih _ (Dict.nodup_keys_set _ _ _ h)

namespace Tree

open Text POD

/-- All derivatives are along `coords`. -/
def Along (coords : List Str) : TEx → Prop
  | .term _ => True
  | .d x e => x ∈ coords ∧ Along coords e
  | .sub e f => Along coords e ∧ Along coords f
  | .half e => Along coords e

theorem along_subs (coords : List Str) (tree : Dict Term TEx) (ht : ∀ kv ∈ tree, Along coords kv.2) (v : TEx)
    (h : Along coords v) : Along coords (v.subs tree) := by
  induction v with
  | term t =>
    show Along coords ((tree.get? t).getD (.term t))
    cases hg : tree.get? t with
    | none => trivial
    | some v => exact ht (t, v) (Dict.mem_of_get? _ _ _ hg)
  | d x e ih => exact ⟨h.1, ih h.2⟩
  | sub e f ihe ihf => exact ⟨ihe h.1, ihf h.2⟩
  | half e ih => exact ih h

theorem sequence_sub (p : POrder) (x : Str) (h : x ∈ p.sequence) : x ∈ p.coordinates := by
  obtain ⟨c, o⟩ := p
  unfold POrder.sequence at h
  simp only at h ⊢
  induction c generalizing o with
  | nil => simp at h
  | cons y c ih =>
    cases o with
    | nil => simp at h
    | cons n o =>
      rw [List.zipWith_cons_cons, List.flatten_cons, List.mem_append] at h
      rcases h with h | h
      · split at h
        · rw [List.eq_of_mem_replicate h]; simp
        · simp at h
      · exact List.mem_cons_of_mem _ (ih o h)

theorem entry_along (alpha beta : POrder) (t : Term) (v : TEx) (h : entry alpha beta = .ok (t, v)) :
    Along alpha.coordinates v := by
  unfold entry at h
  simp only [bind, Except.bind] at h
  split at h
  · cases h
  · split at h
    · cases h
    · rename_i x s hs
      have hx : x ∈ alpha.coordinates := sequence_sub alpha x (by rw [hs]; simp)
      split at h
      · cases h
      · rename_i v' hv'
        simp only [pure, Except.pure, Except.ok.injEq, Prod.mk.injEq] at h
        rw [← h.2]
        unfold isolate at hv'
        split at hv'
        · split at hv'
          · cases hv'; exact ⟨hx, trivial⟩
          · cases hv'; exact ⟨⟨hx, trivial⟩, trivial⟩
        · split at hv'
          · cases hv'; exact ⟨⟨hx, trivial⟩, trivial⟩
          · cases hv'

variable (order : ℕ → List (List ℤ) → List (List ℤ)) (coords : List Str) (selfSub : Bool)

theorem allOfDegree_coords (d : ℕ) (l : List POrder) (h : allOfDegree order coords d = .ok l) :
    ∀ p ∈ l, p.coordinates = coords := by
  unfold allOfDegree at h
  split at h
  · cases h
  · cases h
    intro p hp
    obtain ⟨o, -, rfl⟩ := List.mem_map.1 hp
    rfl

/-- Both dictionaries only contain derivatives along the coordinates. -/
def AlongD (acc : Dict Term TEx × Dict Term TEx) : Prop :=
  (∀ kv ∈ acc.1, Along coords kv.2) ∧ ∀ kv ∈ acc.2, Along coords kv.2

theorem alphaLoop_along (degree a : ℕ) (acc acc' : Dict Term TEx × Dict Term TEx)
    (h : alphaLoop order coords selfSub degree acc a = .ok acc') (h0 : AlongD coords acc) : AlongD coords acc' := by
  unfold alphaLoop at h
  simp only [bind, Except.bind] at h
  split at h
  · cases h
  rename_i alphas ha
  split at h
  · cases h
  rename_i betas hb
  refine foldlM_ok _ (AlongD coords) _ _ _ h h0 (fun s p s' hp hs hstep => ?_)
  obtain ⟨al, hal, hp⟩ := List.mem_flatMap.1 hp
  obtain ⟨be, -, rfl⟩ := List.mem_map.1 hp
  unfold step at hstep
  simp only [bind, Except.bind] at hstep
  split at hstep
  · cases hstep
  rename_i tv htv
  obtain ⟨t, v⟩ := tv
  simp only [pure, Except.pure, Except.ok.injEq] at hstep
  have hv : Along coords v := allOfDegree_coords order coords _ _ ha al hal ▸ entry_along _ _ _ _ htv
  have hv' : Along coords (if selfSub = true then v.subs s.1 else v) := by
    split
    · exact along_subs coords _ hs.1 _ hv
    · exact hv
  subst hstep
  constructor
  · intro kv hkv
    rcases Dict.mem_set _ _ _ _ hkv with rfl | hkv
    · exact hv'
    · exact hs.1 kv hkv
  · intro kv hkv
    rcases Dict.mem_set _ _ _ _ hkv with rfl | hkv
    · exact hv'
    · exact hs.2 kv hkv

/-- The invariant of the state. -/
def AlongS (s : State) : Prop := (∀ kv ∈ s.tree, Along coords kv.2) ∧ ∀ l ∈ s.levels, ∀ kv ∈ l.2, Along coords kv.2

theorem addLevel_along (s s' : State) (h : addLevel order coords selfSub s = .ok s') (h0 : AlongS coords s) :
    AlongS coords s' := by
  unfold addLevel at h
  simp only [bind, Except.bind] at h
  split at h
  · cases h
  rename_i acc hacc
  simp only [pure, Except.pure, Except.ok.injEq] at h
  have key : AlongD coords acc := by
    refine foldlM_ok _ (AlongD coords) _ _ _ hacc ⟨h0.1, by simp⟩ (fun s a s' _ hs hstep => ?_)
    exact alphaLoop_along order coords selfSub _ _ _ _ hstep hs
  subst h
  refine ⟨key.1, fun l hl => ?_⟩
  rcases Dict.mem_set _ _ _ _ hl with rfl | hl
  · exact key.2
  · exact h0.2 l hl

theorem addLevels_along (n : ℕ) (s s' : State) (h : addLevels order coords selfSub n s = .ok s') (h0 : AlongS coords s) :
    AlongS coords s' := by
  induction n generalizing s with
  | zero => cases h; exact h0
  | succ n ih =>
    unfold addLevels at h
    simp only [bind, Except.bind] at h
    split at h
    · cases h
    · rename_i s1 h1
      exact ih s1 h (addLevel_along order coords selfSub s s1 h1 h0)

theorem collect_along (d : ℕ) (levels : Dict ℕ (Dict Term TEx)) (h : ∀ l ∈ levels, ∀ kv ∈ l.2, Along coords kv.2)
    (tree : Dict Term TEx) (ht : ∀ kv ∈ tree, Along coords kv.2) : ∀ kv ∈ collect d levels tree, Along coords kv.2 := by
  induction levels generalizing tree with
  | nil => exact ht
  | cons l levels ih =>
    refine ih (fun l' h' => h l' (by simp [h'])) _ ?_
    simp only
    split
    · exact ht
    · intro kv hkv
      rcases Dict.mem_update _ _ _ hkv with hkv | hkv
      · exact ht kv hkv
      · exact h l (by simp) kv hkv

theorem call_along (d : Option ℕ) (s s' : State) (tree : Dict Term TEx) (h : call order coords selfSub d s = .ok (tree, s'))
    (h0 : AlongS coords s) : ∀ kv ∈ tree, Along coords kv.2 := by
  unfold call at h
  simp only [bind, Except.bind] at h
  have fin : ∀ s1, AlongS coords s1 → collect (d.getD s.degree) s1.levels [] = tree → ∀ kv ∈ tree, Along coords kv.2 := by
    intro s1 h1 e
    rw [← e]
    exact collect_along coords _ _ h1.2 _ (by simp)
  split at h
  · split at h
    · cases h
    · rename_i s1 hs1
      simp only [pure, Except.pure, Except.ok.injEq, Prod.mk.injEq] at h
      exact fin s1 (addLevels_along order coords selfSub _ _ _ hs1 h0) h.1
  · simp only [pure, Except.pure, Except.ok.injEq, Prod.mk.injEq] at h
    exact fin s h0 h.1

theorem collect_nodup (d : ℕ) (levels : Dict ℕ (Dict Term TEx)) (tree : Dict Term TEx) (ht : tree.keys.Nodup) :
    (collect d levels tree).keys.Nodup := by
  induction levels generalizing tree with
  | nil => exact ht
  | cons l levels ih =>
    refine ih _ ?_
    simp only
    split
    · exact ht
    · exact Dict.nodup_keys_update _ _ ht

theorem call_nodup (d : Option ℕ) (s s' : State) (tree : Dict Term TEx) (h : call order coords selfSub d s = .ok (tree, s')) :
    tree.keys.Nodup := by
  unfold call at h
  simp only [bind, Except.bind] at h
  split at h
  · split at h
    · cases h
    · simp only [pure, Except.pure, Except.ok.injEq, Prod.mk.injEq] at h
      rw [← h.1]
      exact collect_nodup _ _ _ (by simp [Dict.keys])
  · simp only [pure, Except.pure, Except.ok.injEq, Prod.mk.injEq] at h
    rw [← h.1]
    exact collect_nodup _ _ _ (by simp [Dict.keys])

end Tree
end Sympkf
