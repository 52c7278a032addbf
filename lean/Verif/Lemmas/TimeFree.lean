import Verif.Spec.Evolution
import Verif.Lemmas.PkfTotal
import Verif.Lemmas.Trend

/-!
# Lemmas: time derivatives in expressions
-/

set_option autoImplicit false

namespace Sympkf.Spec

open Text Rand PKF Pkf

/-! ## Orders of derivatives -/

/-- No derivative with respect to time. -/
def T0 (vars : List (Str × ℕ)) : Prop := ∀ v ∈ vars, v.1 = time → v.2 = 0

/-- One derivative with respect to time. -/
def T1 (vars : List (Str × ℕ)) : Prop := ∃ rest, takeVar time 1 vars = some rest ∧ T0 rest

theorem T0.nil : T0 [] := by intro v hv; cases hv

theorem T0.cons {v : Str × ℕ} {vars : List (Str × ℕ)} (h1 : v.1 = time → v.2 = 0) (h2 : T0 vars) : T0 (v :: vars) := by
  intro w hw
  rcases List.mem_cons.1 hw with rfl | hw
  · exact h1
  · exact h2 w hw

theorem T0.tail {v : Str × ℕ} {vars : List (Str × ℕ)} (h : T0 (v :: vars)) : T0 vars := fun w hw => h w (by simp [hw])

theorem T0.one {x : Str} (h : x ≠ time) : T0 [(x, 1)] := .cons (fun e => absurd e h) .nil

theorem T1.one : T1 [(time, 1)] := ⟨[(time, 0)], by simp [takeVar], .cons (fun _ => rfl) .nil⟩

theorem T0.bump {x : Str} (hx : x ≠ time) {vars : List (Str × ℕ)} (h : T0 vars) : T0 (bumpVar x vars) := by
  induction vars with
  | nil => exact .one hx
  | cons v vars ih =>
    obtain ⟨y, n⟩ := v
    unfold bumpVar
    split
    · rename_i e
      exact .cons (fun e' => absurd (e.trans e') hx) h.tail
    · split
      · exact .cons (fun e => absurd e hx) h
      · exact .cons (h (y, n) (by simp)) (ih h.tail)

theorem T1.bump {x : Str} (hx : x ≠ time) {vars : List (Str × ℕ)} (h : T1 vars) : T1 (bumpVar x vars) := by
  induction vars with
  | nil => obtain ⟨r, h1, -⟩ := h; cases h1
  | cons v vars ih =>
    obtain ⟨y, n⟩ := v
    obtain ⟨r, h1, h2⟩ := h
    unfold bumpVar
    split
    · rename_i e
      subst e
      unfold takeVar at h1
      rw [if_neg (Ne.symm hx)] at h1
      obtain ⟨r', h3, rfl⟩ := Option.map_eq_some_iff.1 h1
      refine ⟨(x, n + 1) :: r', ?_, .cons (fun e => absurd e hx) h2.tail⟩
      unfold takeVar
      rw [if_neg (Ne.symm hx), h3]
      rfl
    · split
      · refine ⟨(x, 1) :: r, ?_, .cons (fun e => absurd e hx) h2⟩
        rw [takeVar, if_neg (Ne.symm hx), h1]
        rfl
      · unfold takeVar at h1
        split at h1
        · rename_i e
          split at h1
          · rename_i hn
            cases h1
            refine ⟨(y, n - 1) :: bumpVar x vars, ?_, .cons (h2 (y, n - 1) (by simp)) (h2.tail.bump hx)⟩
            rw [takeVar, if_pos e, if_pos hn]
          · cases h1
        · rename_i e
          obtain ⟨r', h3, rfl⟩ := Option.map_eq_some_iff.1 h1
          obtain ⟨r2, h4, h5⟩ := ih ⟨r', h3, h2.tail⟩
          refine ⟨(y, n) :: r2, ?_, .cons (fun e' => absurd e'.symm e) h5⟩
          rw [takeVar, if_neg e, h4]
          rfl

theorem T0.bumpTime {vars : List (Str × ℕ)} (h : T0 vars) : T1 (bumpVar time vars) := by
  induction vars with
  | nil => exact .one
  | cons v vars ih =>
    obtain ⟨y, n⟩ := v
    unfold bumpVar
    split
    · rename_i e
      have hn : n = 0 := h (y, n) (by simp) e.symm
      subst hn
      refine ⟨(y, 0) :: vars, ?_, h⟩
      rw [takeVar, if_pos e, if_pos (by omega)]
    · split
      · refine ⟨(time, 0) :: (y, n) :: vars, ?_, .cons (fun _ => rfl) h⟩
        rw [takeVar, if_pos rfl, if_pos (by omega)]
      · rename_i e _
        obtain ⟨r, h1, h2⟩ := ih h.tail
        refine ⟨(y, n) :: r, ?_, .cons (fun e' => absurd e'.symm e) h2⟩
        rw [takeVar, if_neg e, h1]
        rfl

theorem T0.takeVar_none {vars : List (Str × ℕ)} (h : T0 vars) : takeVar time 1 vars = none := by
  induction vars with
  | nil => rfl
  | cons v vars ih =>
    obtain ⟨y, n⟩ := v
    unfold takeVar
    split
    · rename_i e
      have hn : n = 0 := h (y, n) (by simp) e.symm
      subst hn
      rw [if_neg (by omega)]
    · rw [ih h.tail]; rfl

theorem T1.not0 {vars : List (Str × ℕ)} (h : T1 vars) : ¬ T0 vars := by
  intro h0
  obtain ⟨r, h1, -⟩ := h
  rw [h0.takeVar_none] at h1
  cases h1

theorem T0.takeVar {x : Str} {n : ℕ} {vars r : List (Str × ℕ)} (h : T0 vars) (hr : Rand.takeVar x n vars = some r) : T0 r := by
  induction vars generalizing r with
  | nil => cases hr
  | cons v vars ih =>
    obtain ⟨y, k⟩ := v
    unfold Rand.takeVar at hr
    split at hr
    · split at hr
      · cases hr
        refine .cons (fun e => ?_) h.tail
        have : k = 0 := h (y, k) (by simp) e
        show k - n = 0
        omega
      · cases hr
    · obtain ⟨r', h3, rfl⟩ := Option.map_eq_some_iff.1 hr
      exact .cons (h (y, k) (by simp)) (ih h.tail h3)

theorem T0.varsSub {vs vars r : List (Str × ℕ)} (h : T0 vars) (hr : Rand.varsSub vs vars = some r) : T0 r := by
  induction vs generalizing vars with
  | nil => cases hr; exact h
  | cons w vs ih =>
    obtain ⟨x, n⟩ := w
    obtain ⟨r', h1, h2⟩ := Option.bind_eq_some_iff.1 hr
    exact ih (h.takeVar h1) h2

/-- `vs` after the derivatives `vars`. -/
def bumps (vars vs : List (Str × ℕ)) : List (Str × ℕ) := vars.foldl (fun vs v => (bumpVar v.1)^[v.2] vs) vs

theorem T0.iter {x : Str} {n : ℕ} (h : x = time → n = 0) {vs : List (Str × ℕ)} (hv : T0 vs) : T0 ((bumpVar x)^[n] vs) := by
  by_cases hx : x = time
  · rw [h hx]; exact hv
  · clear h
    induction n generalizing vs with
    | zero => exact hv
    | succ n ih => rw [Function.iterate_succ_apply]; exact ih (hv.bump hx)

theorem T1.iter {x : Str} {n : ℕ} (h : x = time → n = 0) {vs : List (Str × ℕ)} (hv : T1 vs) : T1 ((bumpVar x)^[n] vs) := by
  by_cases hx : x = time
  · rw [h hx]; exact hv
  · clear h
    induction n generalizing vs with
    | zero => exact hv
    | succ n ih => rw [Function.iterate_succ_apply]; exact ih (hv.bump hx)

theorem T0.bumps {vars vs : List (Str × ℕ)} (h : T0 vars) (hv : T0 vs) : T0 (bumps vars vs) := by
  induction vars generalizing vs with
  | nil => exact hv
  | cons v vars ih => exact ih h.tail (hv.iter (h v (by simp)))

theorem T0.bumps1 {vars vs : List (Str × ℕ)} (h : T0 vars) (hv : T1 vs) : T1 (Spec.bumps vars vs) := by
  induction vars generalizing vs with
  | nil => exact hv
  | cons v vars ih => exact ih h.tail (hv.iter (h v (by simp)))

theorem T1.bumps {vars vs : List (Str × ℕ)} (h : T1 vars) (hv : T0 vs) : T1 (Spec.bumps vars vs) := by
  induction vars generalizing vs with
  | nil => obtain ⟨r, h1, -⟩ := h; cases h1
  | cons v vars ih =>
    obtain ⟨y, n⟩ := v
    obtain ⟨r, h1, h2⟩ := h
    unfold Rand.takeVar at h1
    split at h1
    · rename_i e
      split at h1
      · rename_i hn
        cases h1
        have h3 : n - 1 = 0 := h2 (y, n - 1) (by simp) e.symm
        have h4 : n = 1 := by omega
        subst h4
        subst e
        exact h2.tail.bumps1 hv.bumpTime
      · cases h1
    · rename_i e
      obtain ⟨r', h3, rfl⟩ := Option.map_eq_some_iff.1 h1
      exact ih ⟨r', h3, h2.tail⟩ (hv.iter (fun e' => absurd e'.symm e))

/-! ## Derivatives of functions -/

theorem pdiff_nil (x : Str) : pdiff x [] = [] := rfl

theorem pdiffs_nil (vars : List (Str × ℕ)) : pdiffs vars [] = [] := by
  induction vars with
  | nil => rfl
  | cons v vars ih =>
    have : (pdiff v.1)^[v.2] [] = [] := by
      generalize v.2 = n
      induction n with
      | zero => rfl
      | succ n ih => rw [Function.iterate_succ_apply, pdiff_nil, ih]
    show pdiffs vars ((pdiff v.1)^[v.2] []) = []
    rw [this, ih]

theorem iter_fnD (x : Str) (n : ℕ) (u : Str) (args : List Str) (vs : List (Str × ℕ)) :
    (pdiff x)^[n] (patom (fnD u args vs)) = [] ∧ x ∉ args ∨ (pdiff x)^[n] (patom (fnD u args vs)) = patom (fnD u args ((bumpVar x)^[n] vs)) := by
  induction n generalizing vs with
  | zero => exact .inr rfl
  | succ n ih =>
    rw [Function.iterate_succ_apply, Function.iterate_succ_apply, pdiff_fnD]
    split
    · exact ih _
    · rename_i hx
      left
      refine ⟨?_, hx⟩
      clear ih
      induction n with
      | zero => rfl
      | succ n ih => rw [Function.iterate_succ_apply, pdiff_nil, ih]

theorem pdiffs_fnD (vars : List (Str × ℕ)) (u : Str) (args : List Str) (vs : List (Str × ℕ)) :
    pdiffs vars (patom (fnD u args vs)) = [] ∧ (∃ v ∈ vars, v.1 ∉ args) ∨
      pdiffs vars (patom (fnD u args vs)) = patom (fnD u args (bumps vars vs)) := by
  induction vars generalizing vs with
  | nil => exact .inr rfl
  | cons v vars ih =>
    show pdiffs vars ((pdiff v.1)^[v.2] (patom (fnD u args vs))) = [] ∧ _ ∨ pdiffs vars ((pdiff v.1)^[v.2] (patom (fnD u args vs))) = _
    rcases iter_fnD v.1 v.2 u args vs with ⟨h, hx⟩ | h
    · rw [h]; exact .inl ⟨pdiffs_nil vars, v, by simp, hx⟩
    · rw [h]
      rcases ih ((bumpVar v.1)^[v.2] vs) with ⟨h1, w, hw, hx⟩ | h1
      · exact .inl ⟨h1, w, by simp [hw], hx⟩
      · exact .inr h1

end Sympkf.Spec
