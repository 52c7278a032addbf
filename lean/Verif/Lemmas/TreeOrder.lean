import Verif.Lemmas.TreeVars

/-!
# Lemmas: the tree keeps the order of the derivatives
-/

set_option autoImplicit false

namespace Sympkf.Tree

open Text POD Spec

/-- All terms are products of derivatives of total order at most `m`. -/
def Upto (n m : ℕ) : TEx → Prop
  | .term t => ∃ a b, IsMultiIndex n a t.a ∧ IsMultiIndex n b t.b ∧ a + b ≤ m
  | .d _ e => Upto n m e
  | .sub e f => Upto n m e ∧ Upto n m f
  | .half e => Upto n m e

/-- An entry of the tree. -/
def Level (n : ℕ) (kv : Term × TEx) : Prop := ∃ a b α β, IsMultiIndex n a α ∧ IsMultiIndex n b β ∧ kv.1 = term α β ∧ Upto n (a + b) kv.2

theorem upto_term {n a b : ℕ} {α β : List ℤ} (hα : IsMultiIndex n a α) (hβ : IsMultiIndex n b β) {m : ℕ} (h : a + b ≤ m) :
    Upto n m (.term (term α β)) := by
  rcases term_ab α β with ⟨e1, e2⟩ | ⟨e1, e2⟩
  · exact ⟨a, b, by rw [e1]; exact hα, by rw [e2]; exact hβ, h⟩
  · exact ⟨b, a, by rw [e1]; exact hβ, by rw [e2]; exact hα, by omega⟩

theorem Upto.mono {n m m' : ℕ} (h : m ≤ m') {v : TEx} (hv : Upto n m v) : Upto n m' v := by
  induction v with
  | term t =>
    obtain ⟨a, b, h1, h2, h3⟩ := hv
    exact ⟨a, b, h1, h2, le_trans h3 h⟩
  | d x e ih => exact ih hv
  | sub e f ihe ihf => exact ⟨ihe hv.1, ihf hv.2⟩
  | half e ih => exact ih hv

theorem multi_unique {n a b : ℕ} {α : List ℤ} (h : IsMultiIndex n a α) (h' : IsMultiIndex n b α) : a = b := by
  have := h.sum
  rw [h'.sum] at this
  exact_mod_cast this.symm

theorem upto_subs {n m : ℕ} (tree : Dict Term TEx) (ht : ∀ kv ∈ tree, Level n kv) (v : TEx) (h : Upto n m v) : Upto n m (v.subs tree) := by
  induction v with
  | term t =>
    show Upto n m ((tree.get? t).getD (.term t))
    cases hg : tree.get? t with
    | none => exact h
    | some v =>
      obtain ⟨a, b, α, β, hα, hβ, e, hu⟩ := ht (t, v) (Dict.mem_of_get? _ _ _ hg)
      obtain ⟨a', b', h1, h2, h3⟩ := h
      simp only at e hu
      refine hu.mono (le_trans ?_ h3)
      rcases term_ab α β with ⟨e1, e2⟩ | ⟨e1, e2⟩
      · rw [e, e1] at h1; rw [e, e2] at h2
        rw [multi_unique hα h1, multi_unique hβ h2]
      · rw [e, e1] at h1; rw [e, e2] at h2
        rw [multi_unique hα h2, multi_unique hβ h1, add_comm]
  | d x e ih => exact ih h
  | sub e f ihe ihf => exact ⟨ihe h.1, ihf h.2⟩
  | half e ih => exact ih h

variable (order : ℕ → List (List ℤ) → List (List ℤ)) (ho : ∀ g l, (order g l).Perm l) (coords : List Str) (h0 : coords ≠ [])
  (hn : coords.Nodup) (selfSub : Bool)
include ho h0 hn

theorem alphaLoop_level (degree a : ℕ) (ha : 1 ≤ a) (had : 2 * a ≤ degree) (acc acc' : Dict Term TEx × Dict Term TEx)
    (h : alphaLoop order coords selfSub degree acc a = .ok acc')
    (hI : (∀ kv ∈ acc.1, Level coords.length kv) ∧ ∀ kv ∈ acc.2, Level coords.length kv) :
    (∀ kv ∈ acc'.1, Level coords.length kv) ∧ ∀ kv ∈ acc'.2, Level coords.length kv := by
  obtain ⟨La, hLa, -, hLa', -⟩ := C36_all_of_degree order ho coords h0 a
  obtain ⟨Lb, hLb, -, hLb', -⟩ := C36_all_of_degree order ho coords h0 (degree - a)
  unfold alphaLoop at h
  simp only [hLa, hLb, bind, Except.bind] at h
  refine foldlM_ok _ (fun acc => (∀ kv ∈ acc.1, Level coords.length kv) ∧ ∀ kv ∈ acc.2, Level coords.length kv) _ _ _ h hI
    (fun s p s' hp hs hstep => ?_)
  obtain ⟨al, hal, hp⟩ := List.mem_flatMap.1 hp
  obtain ⟨be, hbe, rfl⟩ := List.mem_map.1 hp
  obtain ⟨h3, h4⟩ := (hLa' al).1 hal
  obtain ⟨h5, h6⟩ := (hLb' be).1 hbe
  obtain ⟨c, α⟩ := al
  obtain ⟨c', β⟩ := be
  simp only at h3 h4 h5 h6
  subst h3 h5
  obtain ⟨a', rfl⟩ : ∃ a', a = a' + 1 := ⟨a - 1, by omega⟩
  obtain ⟨x, hx, o', ho', rfl, he⟩ := entry_eq c' hn a' (degree - (a' + 1)) (by omega) α β h4 h6
  unfold step at hstep
  simp only [he, bind, Except.bind, pure, Except.pure, Except.ok.injEq] at hstep
  have key : Level c'.length (term (bump c' x o') β, if selfSub = true then
      (TEx.sub (.d x (.term (term o' β))) (.term (term o' (bump c' x β)))).subs s.1 else
      TEx.sub (.d x (.term (term o' β))) (.term (term o' (bump c' x β)))) := by
    refine ⟨_, _, _, _, h4, h6, rfl, ?_⟩
    have hv : Upto c'.length (a' + 1 + (degree - (a' + 1))) (TEx.sub (.d x (.term (term o' β))) (.term (term o' (bump c' x β)))) :=
      ⟨upto_term ho' h6 (by omega), upto_term ho' (isMultiIndex_bump c' x hx _ _ h6) (by omega)⟩
    split
    · exact upto_subs _ hs.1 _ hv
    · exact hv
  subst hstep
  constructor
  · intro kv hkv
    rcases Dict.mem_set _ _ _ _ hkv with rfl | hkv
    · exact key
    · exact hs.1 kv hkv
  · intro kv hkv
    rcases Dict.mem_set _ _ _ _ hkv with rfl | hkv
    · exact key
    · exact hs.2 kv hkv

/-- The invariant of the state. -/
def LevelS (n : ℕ) (s : State) : Prop := (∀ kv ∈ s.tree, Level n kv) ∧ ∀ l ∈ s.levels, ∀ kv ∈ l.2, Level n kv

theorem addLevel_level (s s' : State) (h : addLevel order coords selfSub s = .ok s') (hs : LevelS coords.length s) :
    LevelS coords.length s' := by
  unfold addLevel at h
  simp only [bind, Except.bind] at h
  split at h
  · cases h
  rename_i acc hacc
  simp only [pure, Except.pure, Except.ok.injEq] at h
  have key : (∀ kv ∈ acc.1, Level coords.length kv) ∧ ∀ kv ∈ acc.2, Level coords.length kv := by
    refine foldlM_ok _ (fun acc => (∀ kv ∈ acc.1, Level coords.length kv) ∧ ∀ kv ∈ acc.2, Level coords.length kv) _ _ _ hacc ⟨hs.1, by simp⟩
      (fun s1 a s2 ha h1 hstep => ?_)
    rw [List.mem_range'_1] at ha
    exact alphaLoop_level order ho coords h0 hn selfSub _ a ha.1 (by omega) _ _ hstep h1
  subst h
  refine ⟨key.1, fun l hl => ?_⟩
  rcases Dict.mem_set _ _ _ _ hl with rfl | hl
  · exact key.2
  · exact hs.2 l hl

theorem addLevels_level (n : ℕ) (s s' : State) (h : addLevels order coords selfSub n s = .ok s') (hs : LevelS coords.length s) :
    LevelS coords.length s' := by
  induction n generalizing s with
  | zero => cases h; exact hs
  | succ n ih =>
    unfold addLevels at h
    simp only [bind, Except.bind] at h
    split at h
    · cases h
    · rename_i s1 h1
      exact ih s1 h (addLevel_level order ho coords h0 hn selfSub s s1 h1 hs)

omit ho h0 hn in
theorem collect_level (n d : ℕ) (levels : Dict ℕ (Dict Term TEx)) (h : ∀ l ∈ levels, ∀ kv ∈ l.2, Level n kv)
    (tree : Dict Term TEx) (ht : ∀ kv ∈ tree, Level n kv) : ∀ kv ∈ collect d levels tree, Level n kv := by
  induction levels generalizing tree with
  | nil => exact ht
  | cons l levels ih =>
    refine ih (fun l' h' => h l' (by simp [h'])) _ ?_
    simp only
    split
    · exact ht
    · intro kv hkv
      rcases Dict.mem_update _ _ _ hkv with hkv | hkv
      · exact ht kv hkv
      · exact h l (by simp) kv hkv

/-- The expressions in the tree have the order of the terms that they replace. -/
theorem call_level (d : Option ℕ) (s s' : State) (tree : Dict Term TEx) (h : call order coords selfSub d s = .ok (tree, s'))
    (hs : LevelS coords.length s) : ∀ kv ∈ tree, Level coords.length kv := by
  unfold call at h
  simp only [bind, Except.bind] at h
  have fin : ∀ s1, LevelS coords.length s1 → collect (d.getD s.degree) s1.levels [] = tree → ∀ kv ∈ tree, Level coords.length kv := by
    intro s1 h1 e
    rw [← e]
    exact collect_level _ _ _ h1.2 _ (by simp)
  split at h
  · split at h
    · cases h
    · rename_i s1 hs1
      simp only [pure, Except.pure, Except.ok.injEq, Prod.mk.injEq] at h
      exact fin s1 (addLevels_level order ho coords h0 hn selfSub _ _ _ hs1 hs) h.1
  · simp only [pure, Except.pure, Except.ok.injEq, Prod.mk.injEq] at h
    exact fin s hs h.1

end Sympkf.Tree
