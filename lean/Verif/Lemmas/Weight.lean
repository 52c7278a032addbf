import Verif.Lemmas.Normal

/-!
# Lemmas: errors occur with the small parameter, so Taylor expansions have bounded degrees
-/

set_option autoImplicit false

namespace Sympkf.Spec

open Text Rand PKF Pkf

/-! ## Expressions in which every error comes with the small parameter -/

/-- The degree of an atom in the random functions, less that in the small parameter. -/
def wp : Ex → ℚ
  | .sym s => if s = epsSym then -1 else 0
  | a => wt a

/-- The degree in the random functions, less that in the small parameter, is `n`. -/
def Pw : Ex → ℚ → Prop
  | .num _, n => n = 0
  | .sym s, n => s ≠ omega ∧ n = if s = epsSym then -1 else 0
  | .fn _ args, n => n = if omega ∈ args then 1 else 0
  | .func _ a, n => Pw a 0 ∧ n = 0
  | .add x y, n => Pw x n ∧ Pw y n
  | .mul x y, n => ∃ i j, i + j = n ∧ Pw x i ∧ Pw y j
  | .pow a q, n => (∃ m, isNat q = true ∧ 0 < q ∧ q * m = n ∧ Pw a m) ∨ (Pw a 0 ∧ n = 0)
  | .deriv a vars, n => Pw a n ∧ ∀ v ∈ vars, v.1 ≠ omega ∧ v.1 ≠ epsSym
  | .integ a x, n => Pw a 0 ∧ (x ≠ omega ∧ x ≠ epsSym) ∧ n = 0
  | .ex a, n => n = 0 ∧ ∃ u args, a = .fn u args ∧ omega ∈ args
  | .other _, _ => False

/-- Derivatives of a random function, not with respect to the small parameter. -/
def FnB (a : Ex) : Prop := ∃ u args v, a = fnD u args (bumps v []) ∧ (∀ p ∈ v, p.1 ∈ args ∧ p.1 ≠ omega ∧ p.1 ≠ epsSym) ∧ omega ∈ args

theorem FnB.fnA {a : Ex} (h : FnB a) : FnA a := by
  obtain ⟨u, args, v, e, hv, ho⟩ := h
  exact ⟨u, args, v, e, fun p hp => ⟨(hv p hp).1, (hv p hp).2.1⟩, ho⟩

/-- The normal form of such expressions. -/
def Wn : Ex → ℚ → Prop
  | .num _, n => n = 0
  | .sym s, n => s ≠ omega ∧ n = if s = epsSym then -1 else 0
  | .fn _ args, n => n = if omega ∈ args then 1 else 0
  | .func _ a, n => Wn a 0 ∧ n = 0
  | .add x y, n => Wn x n ∧ Wn y n
  | .mul x y, n => ∃ i j, i + j = n ∧ Wn x i ∧ Wn y j
  | .pow a q, n => (∃ m, isNat q = true ∧ 0 < q ∧ q * m = n ∧ Wn a m) ∨ (Wn a 0 ∧ n = 0)
  | .deriv a vars, n => (FnB (.deriv a vars) ∧ n = 1) ∨ (Wn a 0 ∧ (∀ v ∈ vars, v.1 ≠ omega ∧ v.1 ≠ epsSym) ∧ n = 0)
  | .integ a x, n => Wn a 0 ∧ (x ≠ omega ∧ x ≠ epsSym) ∧ n = 0
  | .ex a, n => n = 0 ∧ ∃ u args, a = .fn u args ∧ omega ∈ args
  | .other _, _ => False

/-- The factors. -/
def Fp (a : Ex) (q : ℚ) : Prop := (Wn a 0 ∧ wp a = 0) ∨ ((FnB a ∨ a = .sym epsSym) ∧ ∃ n : ℕ, q = (n : ℚ) + 1)

/-- Polynomials in normal form. -/
def WN (n : ℚ) (p : Poly) : Prop := AllF Fp p ∧ BdBy wp n p ∧ BdBy (fun a => -wp a) (-n) p

theorem FnB.wp {a : Ex} (h : FnB a) : wp a = 1 := by
  have h1 := h.fnA.wt
  obtain ⟨u, args, v, rfl, -, ho⟩ := h
  unfold fnD at h1 ⊢
  split
  · rename_i e; rw [if_pos e] at h1; exact h1
  · rename_i e; rw [if_neg e] at h1; exact h1

theorem wp_eps : wp (.sym epsSym) = -1 := by simp [wp]

theorem fp_mulOK : MulOK Fp := by
  rintro a p q (h | ⟨h, n, rfl⟩) h'
  · exact .inl h
  · rcases h' with h' | ⟨-, m, rfl⟩
    · exact .inl h'
    · exact .inr ⟨h, n + m + 1, by push_cast; ring⟩

theorem degBy_neg (w : Ex → ℚ) (m : Mono) : degBy (fun a => -w a) m = -degBy w m := by
  induction m with
  | nil => simp [degBy]
  | cons f m ih => rw [degBy_cons, degBy_cons, ih]; ring

theorem WN.deg {n : ℚ} {p : Poly} (h : WN n p) (t : Mono × ℚ) (ht : t ∈ p) : degBy wp t.1 = n := by
  have h1 := h.2.1 t ht
  have h2 := h.2.2 t ht
  simp only [degBy_neg] at h1 h2
  linarith

theorem WN.nil {n : ℚ} : WN n [] := ⟨.nil, .nil, .nil⟩
theorem wn_padd {n : ℚ} {p q : Poly} (hp : WN n p) (hq : WN n q) : WN n (padd p q) :=
  ⟨allF_padd _ _ hp.1 hq.1, allMono_padd _ _ hp.2.1 hq.2.1, allMono_padd _ _ hp.2.2 hq.2.2⟩
theorem wn_pmul {n i j : ℚ} (h : i + j = n) {p q : Poly} (hp : WN i p) (hq : WN j q) : WN n (pmul p q) :=
  ⟨allF_pmul fp_mulOK _ _ hp.1 hq.1, bd_pmul (by rw [h]) _ _ hp.2.1 hq.2.1, bd_pmul (by rw [← h]; linarith) _ _ hp.2.2 hq.2.2⟩
theorem wn_pconst (c : ℚ) : WN 0 (pconst c) := ⟨allF_pconst c, bd_pconst 0 c (le_refl _), bd_pconst _ c (by simp)⟩
theorem wn_atom {a : Ex} (h : Wn a 0) (hw : wp a = 0) : WN 0 (patom a) :=
  ⟨allF_patom _ (.inl ⟨h, hw⟩), bd_patom _ _ (by rw [hw]), bd_patom _ _ (by rw [hw])⟩
theorem wn_fnB {a : Ex} (h : FnB a) : WN 1 (patom a) :=
  ⟨allF_patom _ (.inr ⟨.inl h, 0, by simp⟩), bd_patom _ _ (by rw [h.wp]), bd_patom _ _ (by rw [h.wp])⟩
theorem wn_eps : WN (-1) (patom (.sym epsSym)) :=
  ⟨allF_patom _ (.inr ⟨.inr rfl, 0, by simp⟩), bd_patom _ _ (by rw [wp_eps]), bd_patom _ _ (by rw [wp_eps])⟩
theorem WN.of_zero {n : ℚ} {p : Poly} (h : WN 0 p) (hn : n = 0) : WN n p := hn ▸ h

theorem wn_ppow_nat {n m q : ℚ} (hq : isNat q = true) (hm : q * m = n) {p : Poly} (hp : WN m p) : WN n (ppow p q) := by
  unfold ppow
  rw [if_pos hq]
  refine ⟨allF_ppowN fp_mulOK _ _ hp.1, (bd_ppowN p _ hp.2.1).mono ?_, (bd_ppowN p _ hp.2.2).mono ?_⟩
  · rw [← isNat_toNat hq, hm]
  · rw [← isNat_toNat hq, ← hm]; linarith

theorem wn_factor {a : Ex} {q : ℚ} (h : Fp a q) : Wn (factorEx (a, q)) (wp a * q) := by
  unfold factorEx
  rcases h with ⟨h, hw⟩ | ⟨h, n, rfl⟩
  · rw [hw, zero_mul]
    split
    · exact h
    · exact .inr ⟨h, rfl⟩
  · have h1 : Wn a (wp a) := by
      rcases h with h | rfl
      · rw [h.wp]
        have h' := h
        obtain ⟨u, args, v, rfl, -, ho⟩ := h'
        unfold fnD at h ⊢
        split at h
        · rename_i e
          rw [if_pos e]
          show (1 : ℚ) = if omega ∈ args then 1 else 0
          rw [if_pos ho]
        · rename_i e
          rw [if_neg e]
          exact .inl ⟨h, rfl⟩
      · exact ⟨by decide, rfl⟩
    split
    · rename_i e
      simp only at e ⊢
      rw [e, mul_one]; exact h1
    · exact .inl ⟨wp a, (isNat_iff _).2 ⟨n + 1, by push_cast; rfl⟩, by positivity, mul_comm _ _, h1⟩

theorem wn_toEx (p : Poly) (hp : WN 0 p) : Wn (toEx p) 0 := by
  have term : ∀ t ∈ p, Wn (termEx t) 0 := by
    intro t ht
    have h := graded_termEx (w := wp) (G := fun n e => Wn e n) (fun _ => rfl) (fun i j _ _ h h' => ⟨i, j, rfl, h, h'⟩) t
      (fun f hf => wn_factor (hp.1 t ht f hf))
    have hd := hp.deg t ht
    unfold degBy at hd
    rwa [hd] at h
  clear hp
  induction p with
  | nil => rfl
  | cons t p ih =>
    cases p with
    | nil => exact term t (by simp)
    | cons t' p => exact ⟨term t (by simp), ih (fun t ht => term t (by simp [ht]))⟩

theorem wn_ppow (q : ℚ) {p : Poly} (hp : WN 0 p) : WN 0 (ppow p q) := by
  by_cases hq : isNat q = true
  · exact wn_ppow_nat hq (by simp) hp
  have at' : WN 0 (patom (.pow (toEx p) q)) := wn_atom (.inr ⟨wn_toEx p hp, rfl⟩) rfl
  unfold ppow
  rw [if_neg hq]
  split
  · rename_i a k c
    split
    · rename_i hk
      have hd := hp.deg ([(a, k)], c) (by simp)
      rw [degBy_cons, degBy_nil, add_zero] at hd
      simp only at hd
      have hw : wp a = 0 ∧ Wn a 0 := by
        rcases hp.1.head.head with ⟨h, hw⟩ | ⟨h, n, e⟩
        · exact ⟨hw, h⟩
        · exfalso
          simp only at e
          have hn : ((n : ℚ) + 1) ≠ 0 := by positivity
          rw [e] at hd
          rcases h with h | h
          · rw [h.wp, one_mul] at hd; exact hn hd
          · simp only at h
            rw [h, wp_eps] at hd
            apply hn; linarith
      refine ⟨.cons (.cons (.inl ⟨hw.2, hw.1⟩) .nil) .nil, .cons ?_ .nil, .cons ?_ .nil⟩
      · rw [degBy_cons, degBy_nil]; simp [hw.1]
      · rw [degBy_cons, degBy_nil]; simp [hw.1]
    · exact at'
  · exact at'

theorem wn_reEx (e : Ex) (n : ℚ) (h : Wn e n) : WN n (reEx e) := by
  induction e generalizing n with
  | num q => exact (wn_pconst q).of_zero h
  | sym s =>
    obtain ⟨h1, rfl⟩ := h
    show WN _ (patom (.sym s))
    split
    · rename_i e; subst e; exact wn_eps
    · rename_i e
      exact wn_atom ⟨h1, (if_neg e).symm⟩ (if_neg e)
  | fn u args =>
    have h' : n = if omega ∈ args then 1 else 0 := h
    subst h'
    show WN _ (patom (.fn u args))
    split
    · rename_i ho; exact wn_fnB ⟨u, args, [], rfl, by simp, ho⟩
    · rename_i ho; exact wn_atom (if_neg ho).symm (if_neg ho)
  | func g a ih => exact (wn_atom (a := .func g a) ⟨h.1, rfl⟩ rfl).of_zero h.2
  | add x y ihx ihy => exact wn_padd (ihx n h.1) (ihy n h.2)
  | mul x y ihx ihy =>
    obtain ⟨i, j, hij, hx, hy⟩ := h
    exact wn_pmul hij (ihx i hx) (ihy j hy)
  | pow a q ih =>
    rcases h with ⟨m, hq, -, hm, h⟩ | ⟨h, rfl⟩
    · exact wn_ppow_nat hq hm (ih m h)
    · exact wn_ppow q (ih 0 h)
  | deriv a vars ih =>
    rcases h with ⟨h, rfl⟩ | ⟨h, hv, rfl⟩
    · exact wn_fnB h
    · refine wn_atom (.inr ⟨h, hv, rfl⟩) ?_
      cases a with
      | fn u args =>
        show (if omega ∈ args then (1 : ℚ) else 0) = 0
        exact Eq.symm h
      | _ => rfl
  | integ a x ih => exact (wn_atom (a := .integ a x) ⟨h.1, h.2.1, rfl⟩ rfl).of_zero h.2.2
  | ex a ih => exact (wn_atom (a := .ex a) ⟨rfl, h.2⟩ rfl).of_zero h.1
  | other b => exact h.elim

theorem FnB.diff {a : Ex} (h : FnB a) (x : Str) (hx : x ≠ omega ∧ x ≠ epsSym) : WN 1 (diffAtom x a) := by
  obtain ⟨u, args, v, rfl, hv, ho⟩ := h
  have key : diffAtom x (fnD u args (bumps v [])) = if x ∈ args then patom (fnD u args (bumpVar x (bumps v []))) else [] := by
    rw [diffAtom_fnD]
  rw [key]
  split
  · rename_i hxa
    refine wn_fnB ⟨u, args, v ++ [(x, 1)], ?_, ?_, ho⟩
    · rw [bumps_append]; rfl
    · intro p hp
      rcases List.mem_append.1 hp with hp | hp
      · exact hv p hp
      · rw [List.mem_singleton] at hp
        subst hp
        exact ⟨hxa, hx⟩
  · exact .nil

theorem wn_dfunc {g : Str} {d : (Ex → Ex) × (Ex → Ex)} (hg : dfunc g = some d) (a : Ex) (h : Wn a 0) : Wn (d.1 a) 0 :=
  (dfunc_closed (G := fun a => Wn a 0) ⟨fun _ => rfl, fun _ _ h h' => ⟨h, h'⟩, fun _ _ h h' => ⟨0, 0, by simp, h, h'⟩⟩
    (fun _ _ h => .inr ⟨h, rfl⟩) hg a h (fun _ _ => ⟨h, rfl⟩)).1

theorem wn_diffAtom (x : Str) (hx : x ≠ omega ∧ x ≠ epsSym) (e : Ex) (n : ℚ) (h : Wn e n) : WN n (diffAtom x e) := by
  have fnd : ∀ a : Ex, Wn a 0 → (∀ u args, a ≠ .fn u args) → WN 0 (patom (.deriv a [(x, 1)])) := by
    intro a h hf
    refine wn_atom (.inr ⟨h, by simpa using hx, rfl⟩) ?_
    cases a with
    | fn u args => exact absurd rfl (hf u args)
    | _ => rfl
  induction e generalizing n with
  | num q => exact .nil
  | sym s =>
    simp only [diffAtom]
    split
    · rename_i e
      subst e
      exact (wn_pconst 1).of_zero (by rw [h.2, if_neg hx.2])
    · exact .nil
  | fn u args =>
    have h' : n = if omega ∈ args then 1 else 0 := h
    subst h'
    split
    · rename_i ho
      exact FnB.diff (a := .fn u args) ⟨u, args, [], rfl, by simp, ho⟩ x hx
    · rename_i ho
      simp only [diffAtom]
      split
      · exact .nil
      · exact wn_atom (.inr ⟨(if_neg ho).symm, by simpa using hx, rfl⟩) (if_neg ho)
  | func g a ih =>
    obtain ⟨h, rfl⟩ := h
    simp only [diffAtom]
    split
    · rename_i d hg
      exact wn_pmul (i := 0) (j := 0) (by simp) (wn_reEx _ 0 (wn_dfunc hg a h)) (ih 0 h)
    · exact fnd (.func g a) ⟨h, rfl⟩ (fun _ _ h => by cases h)
  | add x y ihx ihy => exact wn_padd (ihx n h.1) (ihy n h.2)
  | mul y z ihy ihz =>
    obtain ⟨i, j, hij, hy, hz⟩ := h
    exact wn_padd (wn_pmul hij (ihy i hy) (wn_reEx z j hz)) (wn_pmul hij (wn_reEx y i hy) (ihz j hz))
  | pow a q ih =>
    rcases h with ⟨m, hq, hp, hm, h⟩ | ⟨h, rfl⟩
    · refine wn_pmul (i := (q - 1) * m) (j := m) (by linarith) (wn_pmul (i := 0) (j := (q - 1) * m) (by simp) (wn_pconst _)
        (wn_ppow_nat ?_ rfl (wn_reEx a m h))) (ih m h)
      obtain ⟨k, hk⟩ := (isNat_iff q).1 hq
      cases k with
      | zero => rw [hk] at hp; simp at hp
      | succ k => exact (isNat_iff _).2 ⟨k, by rw [hk]; push_cast; ring⟩
    · exact wn_pmul (i := 0) (j := 0) (by simp) (wn_pmul (i := 0) (j := 0) (by simp) (wn_pconst _) (wn_ppow _ (wn_reEx a 0 h))) (ih 0 h)
  | deriv b vars ih =>
    rcases h with ⟨h, rfl⟩ | ⟨h, hv, rfl⟩
    · exact h.diff x hx
    · simp only [diffAtom]
      split
      · exact .nil
      · refine wn_atom (.inr ⟨h, fun v hv' => ?_, rfl⟩) ?_
        · rcases mem_bumpVar x vars v hv' with e | ⟨w, hw, e⟩
          · rw [e]; exact hx
          · rw [← e]; exact hv w hw
        · cases b with
          | fn u args => exact Eq.symm h
          | _ => rfl
  | integ a y ih =>
    obtain ⟨h1, h2, rfl⟩ := h
    exact fnd (.integ a y) ⟨h1, h2, rfl⟩ (fun _ _ h => by cases h)
  | ex a ih =>
    obtain ⟨rfl, h⟩ := h
    exact fnd (.ex a) ⟨rfl, h⟩ (fun _ _ h => by cases h)
  | other b => exact h.elim

theorem Fp.weight {a : Ex} {q : ℚ} (h : Fp a q) : Wn a (wp a) := by
  rcases h with ⟨h, hw⟩ | ⟨h, -⟩
  · rw [hw]; exact h
  · have : Fp a 1 := .inr ⟨h, 0, by simp⟩
    have := wn_factor this
    unfold factorEx at this
    rw [if_pos rfl, mul_one] at this
    exact this

theorem wn_pdiff {n : ℚ} (x : Str) (hx : x ≠ omega ∧ x ≠ epsSym) {p : Poly} (hp : WN n p) : WN n (pdiff x p) := by
  refine ⟨allF_pdiff fp_mulOK x ⟨?_, fun a q h => (wn_diffAtom x hx a _ h.weight).1⟩ p hp.1,
    bd_pdiff x p (fun t ht f hf => (wn_diffAtom x hx f.1 _ (hp.1 t ht f hf).weight).2.1) hp.2.1,
    bd_pdiff x p (fun t ht f hf => (wn_diffAtom x hx f.1 _ (hp.1 t ht f hf).weight).2.2) hp.2.2⟩
  rintro a q (h | ⟨h, n, rfl⟩) h0 h1
  · exact .inl h
  · refine .inr ⟨h, n - 1, ?_⟩
    cases n with
    | zero => simp at h1
    | succ n => simp

theorem wn_pdiffs {n : ℚ} (vars : List (Str × ℕ)) (hv : ∀ v ∈ vars, v.1 ≠ omega ∧ v.1 ≠ epsSym) {p : Poly} (hp : WN n p) :
    WN n (pdiffs vars p) := by
  induction vars generalizing p with
  | nil => exact hp
  | cons v vars ih =>
    refine ih (fun v h => hv v (by simp [h])) ?_
    have hx := hv v (by simp)
    show WN n ((pdiff v.1)^[v.2] p)
    generalize v.2 = k
    clear ih hv
    induction k generalizing p with
    | zero => exact hp
    | succ k ih => rw [Function.iterate_succ_apply]; exact ih (wn_pdiff v.1 hx hp)

theorem wn_ofEx (e : Ex) (n : ℚ) (h : Pw e n) : WN n (ofEx e) := by
  induction e generalizing n with
  | num q => exact (wn_pconst q).of_zero h
  | sym s => exact wn_reEx (.sym s) n h
  | fn u args => exact wn_reEx (.fn u args) n h
  | func g a ih => exact (wn_atom (a := .func g (toEx (ofEx a))) ⟨wn_toEx _ (ih 0 h.1), rfl⟩ rfl).of_zero h.2
  | add x y ihx ihy => exact wn_padd (ihx n h.1) (ihy n h.2)
  | mul x y ihx ihy =>
    obtain ⟨i, j, hij, hx, hy⟩ := h
    exact wn_pmul hij (ihx i hx) (ihy j hy)
  | pow a q ih =>
    rcases h with ⟨m, hq, -, hm, h⟩ | ⟨h, rfl⟩
    · exact wn_ppow_nat hq hm (ih m h)
    · exact wn_ppow q (ih 0 h)
  | deriv a vars ih => exact wn_pdiffs vars h.2 (ih n h.1)
  | integ a x ih => exact (wn_atom (a := .integ (toEx (ofEx a)) x) ⟨wn_toEx _ (ih 0 h.1), h.2.1, rfl⟩ rfl).of_zero h.2.2
  | ex a ih =>
    obtain ⟨rfl, u, args, rfl, ho⟩ := h
    rw [ofEx_exFn u args ho]
    exact wn_atom ⟨rfl, u, args, rfl, ho⟩ rfl
  | other b => exact h.elim

theorem Wn.pw (e : Ex) (n : ℚ) (h : Wn e n) : Pw e n := by
  induction e generalizing n with
  | num q => exact h
  | sym s => exact h
  | fn u args => exact h
  | func g a ih => exact ⟨ih 0 h.1, h.2⟩
  | add x y ihx ihy => exact ⟨ihx n h.1, ihy n h.2⟩
  | mul x y ihx ihy =>
    obtain ⟨i, j, hij, hx, hy⟩ := h
    exact ⟨i, j, hij, ihx i hx, ihy j hy⟩
  | pow a q ih =>
    rcases h with ⟨m, hq, hp, hm, h⟩ | ⟨h, rfl⟩
    · exact .inl ⟨m, hq, hp, hm, ih m h⟩
    · exact .inr ⟨ih 0 h, rfl⟩
  | deriv a vars ih =>
    rcases h with ⟨⟨u, args, v, e, hv, ho⟩, rfl⟩ | ⟨h, hv, rfl⟩
    · unfold fnD at e
      split at e
      · cases e
      · cases e
        exact ⟨(if_pos ho).symm, bumps_names v [] (fun x => x ≠ omega ∧ x ≠ epsSym) (fun p hp => (hv p hp).2) (by simp)⟩
    · exact ⟨ih 0 h, hv⟩
  | integ a x ih => exact ⟨ih 0 h.1, h.2⟩
  | ex a ih => exact h
  | other b => exact h

theorem pw_eval (e : Ex) (h : Pw e 0) : Pw (eval e) 0 := (wn_toEx _ (wn_ofEx e 0 h)).pw

theorem wn_subst (v : Str) (vargs : List Str) (hva : omega ∉ vargs) (new : Poly) (hnew : WN 0 new) (e : Ex) (n : ℚ) (h : Pw e n) :
    WN n (subst (.fn v vargs) new e) := by
  induction e generalizing n with
  | num q => unfold subst; rw [if_neg (fun h => by cases h)]; exact (wn_pconst q).of_zero h
  | sym s => unfold subst; rw [if_neg (fun h => by cases h)]; exact wn_reEx (.sym s) n h
  | fn u args =>
    unfold subst; split
    · rename_i he
      cases he
      exact hnew.of_zero (by rw [show n = _ from h, if_neg hva])
    · exact wn_reEx (.fn u args) n h
  | func g a ih => unfold subst; rw [if_neg (fun h => by cases h)]; exact (wn_atom (a := .func g (toEx (subst (.fn v vargs) new a))) ⟨wn_toEx _ (ih 0 h.1), rfl⟩ rfl).of_zero h.2
  | add x y ihx ihy => unfold subst; rw [if_neg (fun h => by cases h)]; exact wn_padd (ihx n h.1) (ihy n h.2)
  | mul x y ihx ihy =>
    unfold subst; rw [if_neg (fun h => by cases h)]
    obtain ⟨i, j, hij, hx, hy⟩ := h
    exact wn_pmul hij (ihx i hx) (ihy j hy)
  | pow a q ih =>
    unfold subst; rw [if_neg (fun h => by cases h)]
    rcases h with ⟨m, hq, -, hm, h⟩ | ⟨h, rfl⟩
    · exact wn_ppow_nat hq hm (ih m h)
    · exact wn_ppow q (ih 0 h)
  | deriv a vars ih =>
    unfold subst; rw [if_neg (fun h => by cases h)]
    simp only []
    split
    · rename_i rest hrest
      cases hrest
    · exact wn_pdiffs vars h.2 (ih n h.1)
  | integ a x ih =>
    unfold subst; rw [if_neg (fun h => by cases h)]
    exact (wn_atom (a := .integ (toEx (subst (.fn v vargs) new a)) x) ⟨wn_toEx _ (ih 0 h.1), h.2.1, rfl⟩ rfl).of_zero h.2.2
  | ex a ih =>
    obtain ⟨rfl, u, args, rfl, ho⟩ := h
    have hs : subst (.fn v vargs) new (.fn u args) = patom (.fn u args) := by
      unfold subst
      rw [if_neg (fun h => by cases h; exact hva ho)]
    have hs' : subst (.fn v vargs) new (.ex (.fn u args)) = pexpect (subst (.fn v vargs) new (.fn u args)) := rfl
    rw [hs', hs]
    have e : pexpect (patom (.fn u args)) = patom (.ex (.fn u args)) := ofEx_exFn u args ho
    rw [e]
    exact wn_atom ⟨rfl, u, args, rfl, ho⟩ rfl
  | other b => exact h.elim

theorem pw_substAll (l : List (Ex × Ex)) (hk : ∀ kv ∈ l, ∃ u args, kv.1 = .fn u args ∧ omega ∉ args) (hn : ∀ kv ∈ l, Pw kv.2 0)
    (e : Ex) (he : Pw e 0) : Pw (substAll l e) 0 := by
  unfold substAll
  have h0 := pw_eval e he
  generalize eval e = e0 at h0
  clear he
  induction l generalizing e0 with
  | nil => exact h0
  | cons kv l ih =>
    refine ih (fun kv h => hk kv (by simp [h])) (fun kv h => hn kv (by simp [h])) _ ?_
    obtain ⟨u, args, hu, ho⟩ := hk kv (by simp)
    have hev : eval kv.1 = .fn u args := by rw [hu, Spec.eval_fn]
    show Pw (toEx (subst (eval kv.1) (ofEx kv.2) (eval e0))) 0
    rw [hev]
    exact (wn_toEx _ (wn_subst u args ho _ (wn_ofEx _ 0 (hn kv (by simp))) _ 0 (pw_eval e0 h0))).pw

/-- Deterministic expressions without the small parameter. -/
theorem Deterministic.pw (e : Ex) (h : Deterministic e) (ho : occurs epsSym e = false) : Pw e 0 := by
  induction e with
  | num q => rfl
  | sym s => exact ⟨h, (if_neg (by simpa [occurs] using ho)).symm⟩
  | fn u args => exact (if_neg h).symm
  | func g a ih => exact ⟨ih h ho, rfl⟩
  | add x y ihx ihy =>
    simp only [occurs, Bool.or_eq_false_iff] at ho
    exact ⟨ihx h.1 ho.1, ihy h.2 ho.2⟩
  | mul x y ihx ihy =>
    simp only [occurs, Bool.or_eq_false_iff] at ho
    exact ⟨0, 0, by simp, ihx h.1 ho.1, ihy h.2 ho.2⟩
  | pow a q ih => exact .inr ⟨ih h ho, rfl⟩
  | deriv a vars ih =>
    simp only [occurs, Bool.or_eq_false_iff] at ho
    refine ⟨ih h.1 ho.1, fun v hv => ⟨h.2 v hv, fun e => ?_⟩⟩
    have := List.any_eq_false.1 ho.2 v hv
    simp [e] at this
  | integ a x ih =>
    simp only [occurs, Bool.or_eq_false_iff] at ho
    exact ⟨ih h.1 ho.1, ⟨h.2, by simpa using ho.2⟩, rfl⟩
  | ex a ih => exact h.elim
  | other b => exact h.elim

/-! ## Taylor expansions -/

theorem pn_reEx (e : Ex) (n : ℚ) (h : Wn e n) (ho : occurs epsSym e = false) : PN n (reEx e) ∧ Po e n ∧ Exs Canon e := by
  induction e generalizing n with
  | num q =>
    have h' : n = 0 := h
    subst h'
    exact ⟨pn_pconst (le_refl _) q, le_refl _, exs_nil rfl⟩
  | sym s =>
    have hs : s ≠ epsSym := by simpa [occurs] using ho
    obtain ⟨h1, rfl⟩ := h
    rw [if_neg hs]
    exact ⟨pn_patom (le_refl _) ⟨⟨h1, le_refl _⟩, exs_nil rfl⟩, ⟨h1, le_refl _⟩, exs_nil rfl⟩
  | fn u args =>
    have h' : n = if omega ∈ args then 1 else 0 := h
    have hp : Po (.fn u args) n := le_of_eq h'.symm
    exact ⟨po_ofEx (.fn u args) n hp, hp, exs_nil rfl⟩
  | func g a ih =>
    obtain ⟨h, rfl⟩ := h
    obtain ⟨-, h2, h3⟩ := ih 0 h ho
    exact ⟨pn_patom (le_refl _) ⟨⟨h2, le_refl _⟩, h3⟩, ⟨h2, le_refl _⟩, h3⟩
  | add x y ihx ihy =>
    simp only [occurs, Bool.or_eq_false_iff] at ho
    obtain ⟨a1, a2, a3⟩ := ihx n h.1 ho.1
    obtain ⟨b1, b2, b3⟩ := ihy n h.2 ho.2
    exact ⟨pn_padd a1 b1, ⟨a2, b2⟩, exs_add.2 ⟨a3, b3⟩⟩
  | mul x y ihx ihy =>
    simp only [occurs, Bool.or_eq_false_iff] at ho
    obtain ⟨i, j, hij, hx, hy⟩ := h
    obtain ⟨a1, a2, a3⟩ := ihx i hx ho.1
    obtain ⟨b1, b2, b3⟩ := ihy j hy ho.2
    exact ⟨pn_pmul (le_of_eq hij) a1 b1, ⟨i, j, le_of_eq hij, a2, b2⟩, exs_mul.2 ⟨a3, b3⟩⟩
  | pow a q ih =>
    rcases h with ⟨m, hq, hp, hm, h⟩ | ⟨h, rfl⟩
    · obtain ⟨a1, a2, a3⟩ := ih m h ho
      have h0 : 0 ≤ n := by rw [← hm]; exact mul_nonneg (le_of_lt hp) a2.nonneg
      exact ⟨pn_ppow hq (le_of_eq hm) a1, ⟨h0, .inl ⟨m, hq, hp, le_of_eq hm, a2⟩⟩, a3⟩
    · obtain ⟨a1, a2, a3⟩ := ih 0 h ho
      exact ⟨.of (le_refl _) (hereditary_ppow fr_hereditary _ _ a1.fr), ⟨le_refl _, .inr a2⟩, a3⟩
  | deriv a vars ih =>
    rcases h with ⟨h, rfl⟩ | ⟨h, hv, rfl⟩
    · exact ⟨pn_fnA (le_refl _) h.fnA, h.fnA.po, exs_nil h.fnA.exAtoms⟩
    · simp only [occurs, Bool.or_eq_false_iff] at ho
      obtain ⟨-, a2, a3⟩ := ih 0 h ho.1
      have hp : Po (.deriv a vars) 0 := ⟨a2, fun v h => (hv v h).1⟩
      exact ⟨pn_patom (le_refl _) ⟨hp, a3⟩, hp, a3⟩
  | integ a x ih =>
    simp only [occurs, Bool.or_eq_false_iff] at ho
    obtain ⟨h, hx, rfl⟩ := h
    obtain ⟨-, a2, a3⟩ := ih 0 h ho.1
    have hp : Po (.integ a x) 0 := ⟨a2, hx.1, le_refl _⟩
    exact ⟨pn_patom (le_refl _) ⟨hp, a3⟩, hp, a3⟩
  | ex a ih =>
    obtain ⟨rfl, u, args, rfl, ho'⟩ := h
    have := fr_exFn u args ho'
    exact ⟨pn_patom (le_refl _) this, this⟩
  | other b => exact h.elim

/-- The degrees of the coefficients of a Taylor expansion. -/
def TN (n : ℚ) (j : Taylor) : Prop := PN n j.1 ∧ PN (n + 1) j.2.1 ∧ PN (n + 2) j.2.2

theorem tn_tmul {i k n : ℚ} (h : i + k = n) {a b : Taylor} (ha : TN i a) (hb : TN k b) : TN n (tmul a b) := by
  subst h
  obtain ⟨a0, a1, a2⟩ := ha
  obtain ⟨b0, b1, b2⟩ := hb
  exact ⟨pn_pmul (le_refl _) a0 b0, pn_padd (pn_pmul (by linarith) a0 b1) (pn_pmul (by linarith) a1 b0),
    pn_padd (pn_pmul (by linarith) a0 b2) (pn_padd (pn_pmul (by linarith) a1 b1) (pn_pmul (by linarith) a2 b0))⟩

theorem tn_tpow {m : ℚ} {a : Taylor} (ha : TN m a) (k : ℕ) : TN (k * m) (tpow a k) := by
  induction k with
  | zero => exact ⟨pn_pconst (by simp) 1, .nil, .nil⟩
  | succ k ih => exact tn_tmul (by push_cast; ring) ih ha

theorem tn_tcompose {f0 f1 f2 : Poly} {a : Taylor} (h0 : PN 0 f0) (h1 : PN 0 f1) (h2 : PN 0 f2) (ha : TN 0 a) :
    TN 0 (tcompose f0 f1 f2 a) := by
  obtain ⟨-, a1, a2⟩ := ha
  refine ⟨h0, pn_pmul (by linarith) h1 a1, pn_padd (pn_pmul (by linarith) h1 a2) ?_⟩
  exact pn_pmul (i := 0) (j := 2) (by linarith) (pn_pconst (le_refl _) _)
    (pn_pmul (i := 0) (j := 2) (by linarith) h2 (pn_pmul (by linarith) a1 a1))

theorem tn_expansion (e : Ex) (n : ℚ) (he : Wn e n) (j : Taylor) (hj : expansion e = .ok j) : TN n j := by
  induction e generalizing j n
  all_goals
    unfold expansion at hj
    split at hj
    · rename_i ho
      cases hj
      exact ⟨(pn_reEx _ n he ho).1, .nil, .nil⟩
  case sym s ho =>
    cases hj
    have hs : s = epsSym := by simpa [occurs] using ho
    obtain ⟨-, rfl⟩ := he
    rw [if_pos hs]
    exact ⟨.nil, pn_pconst (by norm_num) 1, .nil⟩
  case add x y ihx ihy _ =>
    obtain ⟨jx, h1, hj⟩ := bind_eq_ok hj
    obtain ⟨jy, h2, hj⟩ := bind_eq_ok hj
    cases hj
    obtain ⟨a0, a1, a2⟩ := ihx n he.1 _ h1
    obtain ⟨b0, b1, b2⟩ := ihy n he.2 _ h2
    exact ⟨pn_padd a0 b0, pn_padd a1 b1, pn_padd a2 b2⟩
  case mul x y ihx ihy _ =>
    obtain ⟨jx, h1, hj⟩ := bind_eq_ok hj
    obtain ⟨jy, h2, hj⟩ := bind_eq_ok hj
    cases hj
    obtain ⟨i, k, hik, hx, hy⟩ := he
    exact tn_tmul hik (ihx i hx _ h1) (ihy k hy _ h2)
  case pow a q ih hno =>
    obtain ⟨ja, h1, hj⟩ := bind_eq_ok hj
    split at hj
    · rename_i hq
      cases hj
      have hm : ∃ m, q * m = n ∧ Wn a m := by
        rcases he with ⟨m, -, -, hm, h⟩ | ⟨h, rfl⟩
        · exact ⟨m, hm, h⟩
        · exact ⟨0, by simp, h⟩
      obtain ⟨m, hm, h⟩ := hm
      have := tn_tpow (ih m h _ h1) q.num.toNat
      rwa [← isNat_toNat hq, hm] at this
    · rename_i hq
      split at hj
      · cases hj
      · cases hj
        rcases he with ⟨m, hq', -⟩ | ⟨h, rfl⟩
        · exact absurd hq' hq
        · have ha := ih 0 h _ h1
          have pw : ∀ q, PN 0 (ppow ja.1 q) := fun q => .of (le_refl _) (hereditary_ppow fr_hereditary _ _ ha.1.fr)
          exact tn_tcompose (pw _) (pn_pmul (i := 0) (j := 0) (by simp) (pn_pconst (le_refl _) _) (pw _))
            (pn_pmul (i := 0) (j := 0) (by simp) (pn_pconst (le_refl _) _) (pw _)) ha
  case func g a ih hno =>
    dsimp only at hj
    split at hj
    · cases hj
    · rename_i d hg
      obtain ⟨ja, h1, hj⟩ := bind_eq_ok hj
      split at hj
      · cases hj
      · cases hj
        obtain ⟨h, rfl⟩ := he
        have ha := ih 0 h _ h1
        have f0 : Fr (.func g (toEx ja.1)) := ⟨⟨(fr_toEx _ ha.1.fr).1, le_refl _⟩, (fr_toEx _ ha.1.fr).2⟩
        obtain ⟨-, f1, f2⟩ := fr_hereditary.dfunc hg _ f0
        exact tn_tcompose (pn_patom (le_refl _) f0) (.of (le_refl _) (hereditary_reEx fr_hereditary _ f1))
          (.of (le_refl _) (hereditary_reEx fr_hereditary _ f2)) ha
  all_goals exact nomatch hj

/-- The degree in the random functions is at most the degree in the small parameter, which is zero, one or two. -/
def Truncated (m : Mono) : Prop := wdeg m ≤ epsDegree m ∧ (epsDegree m = 0 ∨ epsDegree m = 1 ∨ epsDegree m = 2)

theorem epsDegree_eq (m : Mono) : epsDegree m = degBy (fun a => if a = .sym epsSym then 1 else 0) m := by
  induction m with
  | nil => rfl
  | cons f m ih =>
    rw [degBy_cons, ← ih]
    unfold epsDegree
    rw [List.filter_cons]
    by_cases h : f.1 = .sym epsSym <;> simp [h]

theorem epsDegree_zero (m : Mono) (h : ∀ f ∈ m, occurs epsSym f.1 = false) : epsDegree m = 0 := by
  unfold epsDegree
  have : m.filter (fun f => f.1 = .sym epsSym) = [] := by
    refine List.filter_eq_nil_iff.2 (fun f hf => ?_)
    have := h f hf
    intro e
    rw [of_decide_eq_true e] at this
    simp [occurs] at this
  rw [this]; rfl

theorem pn_taylor (p q : Poly) (hp : WN 0 p) (h : taylor p = .ok q) : AllF Fac q ∧ AllMono Truncated q := by
  unfold taylor at h
  obtain ⟨j, h1, h2⟩ := bind_eq_ok h
  cases h2
  obtain ⟨a0, a1, a2⟩ := tn_expansion _ 0 (wn_toEx p hp) j h1
  have hT : Hereditary (fun _ : Ex => True) := ⟨⟨fun _ => trivial, fun _ _ _ _ => trivial, fun _ _ _ _ => trivial⟩,
    fun _ _ _ _ _ _ => ⟨trivial, trivial⟩, fun _ _ _ => ⟨trivial, trivial⟩, fun _ _ _ => ⟨trivial, trivial⟩, fun _ _ => Iff.rfl⟩
  obtain ⟨e0, e1, e2⟩ := expansion_all hT (fun _ _ _ _ _ _ => trivial) _ trivial j h1
  have ho : ∀ {r : Poly}, AllF (fun a _ => True ∧ occurs epsSym a = false) r → ∀ t ∈ r, epsDegree t.1 = 0 :=
    fun hr t ht => epsDegree_zero _ (fun f hf => (hr t ht f hf).2)
  have hs : Fr (.sym epsSym) := ⟨⟨by decide, le_refl _⟩, exs_nil rfl⟩
  refine ⟨allF_padd _ _ a0.1 (allF_padd _ _ (allF_pmul fac_mulOK _ _ (allF_patom _ (.inl hs)) a1.1)
    (allF_pmul fac_mulOK _ _ (.cons (.cons (.inl hs) .nil) .nil) a2.1)), ?_⟩
  have key : ∀ (k : ℚ) (r : Poly), PN k r → (∀ t ∈ r, epsDegree t.1 = 0) →
      AllMono (fun m => epsDegree m = 0 ∧ wdeg m ≤ k) r := fun k r hr ho t ht => ⟨ho t ht, hr.2 t ht⟩
  have mul : ∀ (k : ℚ) (s r : Poly), AllMono (fun m => epsDegree m = k ∧ wdeg m = 0) s →
      AllMono (fun m => epsDegree m = 0 ∧ wdeg m ≤ k) r → AllMono (fun m => epsDegree m = k ∧ wdeg m ≤ k) (pmul s r) := by
    intro k s r hs hr
    refine allMono_pmul (fun m m' h1 h2 => ?_) s r hs hr
    rw [epsDegree_eq, degBy_monoMul, ← epsDegree_eq, ← epsDegree_eq]
    unfold wdeg
    rw [degBy_monoMul]
    unfold wdeg at h1 h2
    rw [h1.1, h2.1, h1.2]
    constructor
    · ring
    · linarith [h2.2]
  refine allMono_padd _ _ ?_ (allMono_padd _ _ ?_ ?_)
  · intro t ht
    have := key 0 _ a0 (ho e0) t ht
    exact ⟨by rw [this.1]; exact this.2, .inl this.1⟩
  · intro t ht
    have := mul 1 _ _ (.cons (by simp [epsDegree_eq, degBy, wt]) .nil) (key 1 _ (by simpa using a1) (ho e1)) t ht
    exact ⟨by rw [this.1]; exact this.2, .inr (.inl this.1)⟩
  · intro t ht
    have := mul 2 _ _ (.cons (by simp [epsDegree_eq, degBy, wt]) .nil) (key 2 _ (by simpa using a2) (ho e2)) t ht
    exact ⟨by rw [this.1]; exact this.2, .inr (.inr this.1)⟩

theorem po_epsOne {n : ℚ} (hn : 0 ≤ n) (p : Poly) (hp : PN n p) : Po (epsOne p) n := by
  refine (po_toEx hn _ (po_subst _ _ (sorted_pconst 1) (fun m hm => pn_pconst (show Po (.sym epsSym) m from hm).2 1) (fun c vs h => by cases h) _ n (po_toEx hn p hp).1)).1

/-- The right-hand sides of the Reynolds equations: of degree two and one. -/
theorem po_reynoldsEq {K : Pkf} {coords : List Str} (h : DetSystem K coords) (q : Eqn) (hq : Deterministic q.2)
    (ho : occurs epsSym q.2 = false) (r : Eqn × Eqn) (hr : K.reynoldsEq q = .ok r) : Po r.1.2 2 ∧ Po r.2.2 1 := by
  unfold reynoldsEq at hr
  obtain ⟨rhs, h1, h2⟩ := bind_eq_ok hr
  cases h2
  have hsub : Pw (K.subs K.subsReynolds q.2) 0 := by
    refine pw_substAll _ (fun kv hkv => ?_) (fun kv hkv => ?_) _ (hq.pw _ ho)
    all_goals
      have hm := (h.arrange _).mem_iff.1 hkv
      obtain ⟨f, hf, rfl⟩ := List.mem_map.1 (Setting.mem_trends _ _ hm)
    · exact ⟨f.name, f.coordinates, rfl, by rw [h.same f hf]; exact h.noise⟩
    · refine ⟨⟨rfl, _, _, rfl, by simp⟩, -1, 1, by norm_num, ⟨by decide, rfl⟩, ?_⟩
      exact (if_pos (omega_error f)).symm
  obtain ⟨h3, h4⟩ := pn_taylor _ rhs (wn_ofEx _ 0 hsub) h1
  constructor
  · refine po_epsOne (by norm_num) _ ⟨h3, fun t ht => le_trans (h4 t ht).1 ?_⟩
    rcases (h4 t ht).2 with e | e | e <;> rw [e] <;> norm_num
  · refine po_epsOne (by norm_num) _ ⟨fun t ht => h3 t (List.mem_filter.1 ht).1, fun t ht => ?_⟩
    obtain ⟨ht, he⟩ := List.mem_filter.1 ht
    refine le_trans (h4 t ht).1 ?_
    rcases (h4 t ht).2 with e | e | e
    · rw [e]; norm_num
    · rw [e]
    · rw [e] at he; simp at he

end Sympkf.Spec
