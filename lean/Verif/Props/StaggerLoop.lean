import Verif.Lemmas.Stagger

/-!
# C103: the loop of `_sympy_finite_difference`, for every order of the sets
-/

set_option autoImplicit false

namespace Sympkf.FinDiff

open Text Text.Spec Spec.FDSystem

/-! ## Specification -/

section

variable {K : Type} [Field K]

/-- The value of an expression: the coordinates `S` have the values `p`, the other symbols those of `env`; derivatives are central
differences. -/
def dvalue (S : Finset Str) (env : Env K) (h : Str → K) : DExpr → (Str → K) → K
  | .num q => fun _ => (q : K)
  | .sym s => fun p => if s ∈ S then p s else env.sym s
  | .fn u args => fun p => env.fn u (args.map (fun a => p a.1 + (a.2 : K) * h a.1))
  | .add a b => fun p => dvalue S env h a p + dvalue S env h b p
  | .mul a b => fun p => dvalue S env h a p * dvalue S env h b p
  | .pow a n => fun p => dvalue S env h a p ^ n
  | .func g a => fun p => env.func g (dvalue S env h a p)
  | .deriv e x xs => deltas h (x :: xs) (dvalue S env h e)

/-- The variables of the derivatives are coordinates. -/
def VarsIn (S : Finset Str) (E : DExpr) : Prop := ∀ e x xs, DExpr.deriv e x xs ∈ E.derivatives → ∀ y ∈ x :: xs, y ∈ S

/-- The grid steps of the coordinates `S` are the values of the symbols `dx`, which are not coordinates. -/
structure Steps (S : Finset Str) (env : Env K) (h : Str → K) : Prop where
  ne : ∀ x ∈ S, h x ≠ 0
  sym : ∀ x ∈ S, env.sym ('d' :: x) = h x
  apart : ∀ x ∈ S, 'd' :: x ∉ S

/-! ## Values -/

theorem dvalue_derivOf (S : Finset Str) (env : Env K) (h : Str → K) (e : DExpr) (xs : List Str) :
    dvalue S env h (derivOf e xs) = deltas h xs (dvalue S env h e) := by
  cases xs <;> rfl

theorem dvalue_shift [CharZero K] {S : Finset Str} {env : Env K} {h : Str → K} (hS : Steps S env h) (x : Str) (hx : x ∈ S) (k : ℚ) (e : DExpr) :
    dvalue S env h (shiftD x k e) = fun p => dvalue S env h e (p + Pi.single x ((k : K) * h x)) := by
  induction e with
  | num _ => rfl
  | sym s =>
    funext p
    unfold shiftD
    by_cases hs : s = x
    · subst hs
      rw [if_pos rfl]
      simp [dvalue, hx, hS.apart s hx, hS.sym s hx]
    · rw [if_neg hs]
      simp [dvalue, hs]
  | fn u args => funext p; exact displaced_shift env h u args x k p
  | add a b iha ihb => simp only [shiftD, dvalue, iha, ihb]
  | mul a b iha ihb => simp only [shiftD, dvalue, iha, ihb]
  | pow a n ih => simp only [shiftD, dvalue, ih]
  | func g a ih => simp only [shiftD, dvalue, ih]
  | deriv e y ys ih =>
    simp only [shiftD, dvalue, ih]
    exact deltas_translate h (y :: ys) (dvalue S env h e) _

theorem dvalue_stencilSumD (S : Finset Str) (env : Env K) (h p : Str → K) (x : Str) (hx : 'd' :: x ∉ S) (o : ℕ) (f : ℚ → DExpr)
    (l : List (ℚ × ℚ)) : dvalue S env h (stencilSumD x o f l) p
      = (l.map (fun wk => (wk.1 : K) * env.sym ('d' :: x) ^ (-(o : ℤ)) * dvalue S env h (f wk.2) p)).sum := by
  induction l with
  | nil => simp [stencilSumD, dvalue]
  | cons wk l ih =>
    obtain ⟨w, k⟩ := wk
    simp [stencilSumD, dvalue, ih, hx]

theorem perm_first (x : Str) (xs : List Str) : (List.replicate ((x :: xs).count x) x ++ xs.filter (· ≠ x)).Perm (x :: xs) := by
  rw [List.perm_iff_count]
  intro y
  rw [List.count_append, List.count_replicate]
  by_cases hy : y = x
  · subst hy
    have : List.count y (xs.filter (· ≠ y)) = 0 := List.count_eq_zero.2 (by simp)
    rw [this]
    simp
  · rw [List.count_filter (by simpa using hy)]
    have hy' : ¬ x = y := fun e => hy e.symm
    simp [hy']

/-- The finite difference that replaces a derivative has the value of the central differences. -/
theorem dvalue_staggerDerivative [CharZero K] {S : Finset Str} {env : Env K} {h : Str → K} (hS : Steps S env h) (e : DExpr) (x : Str)
    (xs : List Str) (hx : x ∈ S) : dvalue S env h (staggerDerivative e x xs) = dvalue S env h (.deriv e x xs) := by
  funext p
  unfold staggerDerivative
  simp only [dvalue_stencilSumD S env h p x (hS.apart x hx), hS.sym x hx, dvalue_derivOf, dvalue_shift hS x hx,
    deltas_translate]
  have := stencil_delta h x (hS.ne x hx) ((x :: xs).count x) (deltas h (xs.filter (· ≠ x)) (dvalue S env h e)) p
  rw [this, ← deltas_replicate, ← deltas_append, deltas_perm h (perm_first x xs)]
  rfl

theorem perm_diff {xs ys : List Str} (h : ∀ y ∈ ys, ys.count y ≤ xs.count y) : (xs.diff ys ++ ys).Perm xs := by
  rw [List.perm_iff_count]
  intro y
  rw [List.count_append, List.count_diff]
  by_cases hy : y ∈ ys
  · have := h y hy
    omega
  · rw [List.count_eq_zero.2 hy]
    simp

theorem dvalue_replaceD {S : Finset Str} {env : Env K} {h : Str → K} (e0 : DExpr) (x0 : Str) (xs0 : List Str) (new : DExpr)
    (hnew : dvalue S env h new = dvalue S env h (.deriv e0 x0 xs0)) (E : DExpr) :
    dvalue S env h (replaceD e0 x0 xs0 new E) = dvalue S env h E := by
  induction E with
  | num _ | sym _ | fn _ _ => rfl
  | add a b iha ihb => simp only [replaceD, dvalue, iha, ihb]
  | mul a b iha ihb => simp only [replaceD, dvalue, iha, ihb]
  | pow a n ih => simp only [replaceD, dvalue, ih]
  | func g a ih => simp only [replaceD, dvalue, ih]
  | deriv e x xs ih =>
    unfold replaceD
    by_cases hc : e = e0 ∧ ∀ y ∈ x0 :: xs0, (x0 :: xs0).count y ≤ (x :: xs).count y
    · rw [if_pos hc, dvalue_derivOf, hnew]
      obtain ⟨rfl, hc⟩ := hc
      show deltas h _ (deltas h _ _) = deltas h _ _
      rw [← deltas_append, deltas_perm h (perm_diff hc)]
    · rw [if_neg hc]
      simp only [dvalue, ih]

/-! ## Variables -/

theorem varsIn_add {S : Finset Str} {a b E : DExpr} (hE : E.derivatives = a.derivatives ++ b.derivatives) :
    VarsIn S E ↔ VarsIn S a ∧ VarsIn S b := by
  unfold VarsIn
  rw [hE]
  simp only [List.mem_append]
  exact ⟨fun h => ⟨fun e x xs h' => h e x xs (.inl h'), fun e x xs h' => h e x xs (.inr h')⟩,
    fun h e x xs h' => h'.elim (h.1 e x xs) (h.2 e x xs)⟩

theorem varsIn_deriv {S : Finset Str} {e : DExpr} {x : Str} {xs : List Str} :
    VarsIn S (.deriv e x xs) ↔ (∀ y ∈ x :: xs, y ∈ S) ∧ VarsIn S e := by
  unfold VarsIn
  simp only [DExpr.derivatives, List.mem_cons]
  constructor
  · exact fun h => ⟨fun y hy => h e x xs (.inl rfl) y hy, fun e' x' xs' h' => h e' x' xs' (.inr h')⟩
  · rintro ⟨h1, h2⟩ e' x' xs' (h' | h')
    · injection h' with he hx hxs
      subst he hx hxs
      exact h1
    · exact h2 e' x' xs' h'

theorem varsIn_derivOf {S : Finset Str} {e : DExpr} {xs : List Str} (hx : ∀ y ∈ xs, y ∈ S) (he : VarsIn S e) : VarsIn S (derivOf e xs) := by
  cases xs with
  | nil => exact he
  | cons x xs => exact varsIn_deriv.2 ⟨hx, he⟩

theorem varsIn_leaf {S : Finset Str} {E : DExpr} (h : E.derivatives = []) : VarsIn S E := by
  intro e x xs h'
  rw [h] at h'
  cases h'

theorem varsIn_shift {S : Finset Str} (x : Str) (k : ℚ) (e : DExpr) (he : VarsIn S e) : VarsIn S (shiftD x k e) := by
  induction e with
  | num _ => exact varsIn_leaf rfl
  | fn _ _ => exact varsIn_leaf rfl
  | sym s => unfold shiftD; split <;> exact varsIn_leaf rfl
  | add a b iha ihb => exact (varsIn_add rfl).2 ⟨iha ((varsIn_add rfl).1 he).1, ihb ((varsIn_add rfl).1 he).2⟩
  | mul a b iha ihb => exact (varsIn_add rfl).2 ⟨iha ((varsIn_add rfl).1 he).1, ihb ((varsIn_add rfl).1 he).2⟩
  | pow a n ih => exact ih he
  | func g a ih => exact ih he
  | deriv e y ys ih => exact varsIn_deriv.2 ⟨(varsIn_deriv.1 he).1, ih (varsIn_deriv.1 he).2⟩

theorem varsIn_stencil {S : Finset Str} (x : Str) (o : ℕ) (f : ℚ → DExpr) (hf : ∀ k, VarsIn S (f k)) (l : List (ℚ × ℚ)) :
    VarsIn S (stencilSumD x o f l) := by
  induction l with
  | nil => exact varsIn_leaf rfl
  | cons wk l ih =>
    obtain ⟨w, k⟩ := wk
    refine (varsIn_add (a := f k) (b := stencilSumD x o f l) ?_).2 ⟨hf k, ih⟩
    simp [stencilSumD, DExpr.derivatives]

theorem varsIn_staggerDerivative {S : Finset Str} (e : DExpr) (x : Str) (xs : List Str) (h : VarsIn S (.deriv e x xs)) :
    VarsIn S (staggerDerivative e x xs) := by
  obtain ⟨h1, h2⟩ := varsIn_deriv.1 h
  exact varsIn_stencil x _ _ (fun k => varsIn_derivOf (fun y hy => h1 y (List.mem_cons_of_mem _ (List.mem_of_mem_filter hy)))
    (varsIn_shift x k e h2)) _

theorem varsIn_replaceD {S : Finset Str} (e0 : DExpr) (x0 : Str) (xs0 : List Str) (new : DExpr) (hnew : VarsIn S new) (E : DExpr)
    (hE : VarsIn S E) : VarsIn S (replaceD e0 x0 xs0 new E) := by
  induction E with
  | num _ | sym _ | fn _ _ => exact hE
  | add a b iha ihb => exact (varsIn_add rfl).2 ⟨iha ((varsIn_add rfl).1 hE).1, ihb ((varsIn_add rfl).1 hE).2⟩
  | mul a b iha ihb => exact (varsIn_add rfl).2 ⟨iha ((varsIn_add rfl).1 hE).1, ihb ((varsIn_add rfl).1 hE).2⟩
  | pow a n ih => exact ih hE
  | func g a ih => exact ih hE
  | deriv e x xs ih =>
    obtain ⟨h1, h2⟩ := varsIn_deriv.1 hE
    unfold replaceD
    split
    · exact varsIn_derivOf (fun y hy => h1 y (List.diff_subset _ _ hy)) hnew
    · exact varsIn_deriv.2 ⟨h1, ih h2⟩

theorem varsIn_member {S : Finset Str} {E D : DExpr} (hE : VarsIn S E) (hD : D ∈ E.derivatives) : VarsIn S D := by
  induction E with
  | num _ | sym _ | fn _ _ => cases hD
  | add a b iha ihb | mul a b iha ihb =>
    rcases List.mem_append.1 hD with h | h
    · exact iha ((varsIn_add rfl).1 hE).1 h
    · exact ihb ((varsIn_add rfl).1 hE).2 h
  | pow a n ih => exact ih hE hD
  | func g a ih => exact ih hE hD
  | deriv e x xs ih =>
    rcases List.mem_cons.1 hD with rfl | h
    · exact hE
    · exact ih (varsIn_deriv.1 hE).2 h

theorem pass_value [CharZero K] {S : Finset Str} {env : Env K} {h : Str → K} (hS : Steps S env h) (atoms : List DExpr)
    (ha : ∀ D ∈ atoms, VarsIn S D) (E : DExpr) (hE : VarsIn S E) :
    dvalue S env h (staggerPass atoms E) = dvalue S env h E ∧ VarsIn S (staggerPass atoms E) := by
  induction atoms generalizing E with
  | nil => exact ⟨rfl, hE⟩
  | cons D atoms ih =>
    have hD := ha D (by simp)
    have ha' : ∀ D ∈ atoms, VarsIn S D := fun D h => ha D (List.mem_cons_of_mem _ h)
    show dvalue S env h (staggerPass atoms _) = _ ∧ VarsIn S (staggerPass atoms _)
    cases D with
    | deriv e x xs =>
      have h1 := dvalue_replaceD (S := S) (env := env) (h := h) e x xs (staggerDerivative e x xs)
        (dvalue_staggerDerivative hS e x xs ((varsIn_deriv.1 hD).1 x (by simp))) E
      obtain ⟨h2, h3⟩ := ih ha' _ (varsIn_replaceD e x xs _ (varsIn_staggerDerivative e x xs hD) E hE)
      exact ⟨h2.trans h1, h3⟩
    | _ => exact ih ha' E hE

/-- **C103** Whatever the order of the sets of derivatives, although the replacement of a derivative also changes the higher derivatives of
the same function, the loop keeps the value: each derivative is replaced by the central differences along its variables. -/
theorem C103_loop_value [CharZero K] (atomsOf : DExpr → List DExpr) (hatoms : ∀ E D, D ∈ atomsOf E ↔ D ∈ E.derivatives) {S : Finset Str}
    {env : Env K} {h : Str → K} (hS : Steps S env h) (E E' : DExpr) (hE : VarsIn S E) (hl : StaggerLoop atomsOf E E') :
    E'.derivatives = [] ∧ dvalue S env h E' = dvalue S env h E := by
  induction hl with
  | done E h0 => exact ⟨h0, rfl⟩
  | pass E E' _ _ ih =>
    obtain ⟨h1, h2⟩ := pass_value hS (atomsOf E) (fun D hD => varsIn_member hE ((hatoms E D).1 hD)) E hE
    obtain ⟨h3, h4⟩ := ih h2
    exact ⟨h3, h4.trans h1⟩

end

/-! ## The loop ends -/

/-- The order of the derivatives, nested derivatives being added. -/
def DExpr.depth : DExpr → ℕ
  | .num _ => 0
  | .sym _ => 0
  | .fn _ _ => 0
  | .add a b => max a.depth b.depth
  | .mul a b => max a.depth b.depth
  | .pow a _ => a.depth
  | .func _ a => a.depth
  | .deriv e x xs => e.depth + (x :: xs).length

/-- The chains of derivatives of length `m` contain an innermost derivative of the list. -/
def Pending (L : List DExpr) : ℕ → DExpr → Prop
  | m, .num _ => 0 < m
  | m, .sym _ => 0 < m
  | m, .fn _ _ => 0 < m
  | m, .add a b => Pending L m a ∧ Pending L m b
  | m, .mul a b => Pending L m a ∧ Pending L m b
  | m, .pow a _ => Pending L m a
  | m, .func _ a => Pending L m a
  | m, .deriv e x xs => (DExpr.deriv e x xs ∈ L ∧ e.derivatives = [] ∧ (x :: xs).length ≤ m) ∨
      ((x :: xs).length < m ∧ Pending L (m - (x :: xs).length) e)

theorem depth_zero {e : DExpr} (h : e.derivatives = []) : e.depth = 0 := by
  induction e with
  | num _ | sym _ | fn _ _ => rfl
  | add a b iha ihb | mul a b iha ihb =>
    obtain ⟨h1, h2⟩ := List.append_eq_nil_iff.1 h
    simp only [DExpr.depth, iha h1, ihb h2, max_self]
  | pow a n ih => exact ih h
  | func g a ih => exact ih h
  | deriv e x xs _ => cases h

theorem depth_pos {e : DExpr} (h : e.derivatives ≠ []) : 0 < e.depth := by
  induction e with
  | num _ | sym _ | fn _ _ => exact absurd rfl h
  | add a b iha ihb | mul a b iha ihb =>
    by_cases ha : a.derivatives = []
    · have hb : b.derivatives ≠ [] := fun hb => h (by simp [DExpr.derivatives, ha, hb])
      exact lt_max_of_lt_right (ihb hb)
    · exact lt_max_of_lt_left (iha ha)
  | pow a n ih => exact ih h
  | func g a ih => exact ih h
  | deriv e x xs _ =>
    simp only [DExpr.depth, List.length_cons]
    omega

theorem pending_le {L : List DExpr} {m : ℕ} {e : DExpr} (h : Pending L m e) : e.depth ≤ m ∧ 0 < m := by
  induction e generalizing m with
  | num _ | sym _ | fn _ _ => exact ⟨Nat.zero_le _, h⟩
  | add a b iha ihb | mul a b iha ihb => exact ⟨max_le (iha h.1).1 (ihb h.2).1, (iha h.1).2⟩
  | pow a n ih => exact ih h
  | func g a ih => exact ih h
  | deriv e x xs ih =>
    rcases h with ⟨-, h1, h2⟩ | ⟨h1, h2⟩
    · simp only [DExpr.depth, depth_zero h1, List.length_cons] at h2 ⊢
      omega
    · have := (ih h2).1
      simp only [DExpr.depth]
      omega

theorem pending_of_lt (L : List DExpr) {m : ℕ} {e : DExpr} (h : e.depth < m) : Pending L m e := by
  induction e generalizing m with
  | num _ | sym _ | fn _ _ => exact h
  | add a b iha ihb | mul a b iha ihb => exact ⟨iha (lt_of_le_of_lt (le_max_left _ _) h), ihb (lt_of_le_of_lt (le_max_right _ _) h)⟩
  | pow a n ih => exact ih h
  | func g a ih => exact ih h
  | deriv e x xs ih =>
    simp only [DExpr.depth] at h
    exact .inr ⟨by omega, ih (by omega)⟩

theorem lt_of_pending {m : ℕ} {e : DExpr} (h : Pending [] m e) : e.depth < m := by
  induction e generalizing m with
  | num _ | sym _ | fn _ _ => exact h
  | add a b iha ihb | mul a b iha ihb => exact max_lt (iha h.1) (ihb h.2)
  | pow a n ih => exact ih h
  | func g a ih => exact ih h
  | deriv e x xs ih =>
    rcases h with ⟨h1, -, -⟩ | ⟨h1, h2⟩
    · cases h1
    · have := ih h2
      simp only [DExpr.depth]
      omega

theorem pending_start {L : List DExpr} {m : ℕ} {e : DExpr} (hL : ∀ D ∈ e.derivatives, D ∈ L) (h : e.depth ≤ m) (hm : 0 < m) :
    Pending L m e := by
  induction e generalizing m with
  | num _ | sym _ | fn _ _ => exact hm
  | add a b iha ihb | mul a b iha ihb =>
    exact ⟨iha (fun D hD => hL D (List.mem_append_left _ hD)) ((le_max_left _ _).trans h) hm,
      ihb (fun D hD => hL D (List.mem_append_right _ hD)) ((le_max_right _ _).trans h) hm⟩
  | pow a n ih => exact ih hL h hm
  | func g a ih => exact ih hL h hm
  | deriv e x xs ih =>
    simp only [DExpr.depth] at h
    by_cases he : e.derivatives = []
    · exact .inl ⟨hL _ (by simp [DExpr.derivatives]), he, by omega⟩
    · have := depth_pos he
      exact .inr ⟨by omega, ih (fun D hD => hL D (List.mem_cons_of_mem _ hD)) (by omega) (by omega)⟩

theorem depth_derivOf (e : DExpr) (xs : List Str) : (derivOf e xs).depth = e.depth + xs.length := by
  cases xs <;> rfl

theorem depth_shift (x : Str) (k : ℚ) (e : DExpr) : (shiftD x k e).depth = e.depth := by
  induction e with
  | num _ | fn _ _ => rfl
  | sym s => unfold shiftD; split <;> rfl
  | add a b iha ihb | mul a b iha ihb => simp only [shiftD, DExpr.depth, iha, ihb]
  | pow a n ih => exact ih
  | func g a ih => exact ih
  | deriv e y ys ih => simp only [shiftD, DExpr.depth, ih]

theorem depth_stencil (x : Str) (o : ℕ) (f : ℚ → DExpr) (m : ℕ) (hf : ∀ k, (f k).depth ≤ m) (l : List (ℚ × ℚ)) :
    (stencilSumD x o f l).depth ≤ m := by
  induction l with
  | nil => exact Nat.zero_le _
  | cons wk l ih =>
    obtain ⟨w, k⟩ := wk
    have := hf k
    simp only [stencilSumD, DExpr.depth]
    omega

theorem depth_staggerDerivative (e : DExpr) (x : Str) (xs : List Str) : (staggerDerivative e x xs).depth ≤ e.depth + xs.length := by
  refine depth_stencil x _ _ _ (fun k => ?_) _
  rw [depth_derivOf, depth_shift]
  have := List.length_filter_le (fun y => decide (y ≠ x)) xs
  omega

theorem replaceD_free (e0 : DExpr) (x0 : Str) (xs0 : List Str) (new : DExpr) {E : DExpr} (h : E.derivatives = []) :
    replaceD e0 x0 xs0 new E = E := by
  induction E with
  | num _ | sym _ | fn _ _ => rfl
  | add a b iha ihb | mul a b iha ihb =>
    obtain ⟨h1, h2⟩ := List.append_eq_nil_iff.1 h
    simp only [replaceD, iha h1, ihb h2]
  | pow a n ih => simp only [replaceD, ih h]
  | func g a ih => simp only [replaceD, ih h]
  | deriv e x xs _ => cases h

theorem length_diff' {xs ys : List Str} (h : ∀ y ∈ ys, ys.count y ≤ xs.count y) : (xs.diff ys).length + ys.length = xs.length := by
  rw [← List.length_append]
  exact (perm_diff h).length_eq

theorem pending_replace {L : List DExpr} {m : ℕ} (e0 : DExpr) (x0 : Str) (xs0 : List Str) (E : DExpr)
    (h : Pending (.deriv e0 x0 xs0 :: L) m E) : Pending L m (replaceD e0 x0 xs0 (staggerDerivative e0 x0 xs0) E) := by
  induction E generalizing m with
  | num _ | sym _ | fn _ _ => exact h
  | add a b iha ihb | mul a b iha ihb => exact ⟨iha h.1, ihb h.2⟩
  | pow a n ih => exact ih h
  | func g a ih => exact ih h
  | deriv e x xs ih =>
    have hle := (pending_le h).1
    unfold replaceD
    split
    · rename_i hc
      obtain ⟨rfl, hc⟩ := hc
      refine pending_of_lt L ?_
      rw [depth_derivOf]
      have h1 := depth_staggerDerivative e x0 xs0
      have h2 := length_diff' hc
      simp only [DExpr.depth, List.length_cons] at hle h2
      omega
    · rename_i hc
      rcases h with ⟨h1, h2, h3⟩ | ⟨h1, h2⟩
      · rw [replaceD_free e0 x0 xs0 _ h2]
        rcases List.mem_cons.1 h1 with h1 | h1
        · injection h1 with g1 g2 g3
          subst g1 g2 g3
          exact absurd ⟨rfl, fun _ _ => le_rfl⟩ hc
        · exact .inl ⟨h1, h2, h3⟩
      · exact .inr ⟨h1, ih h2⟩

theorem pending_pass (atoms : List DExpr) {m : ℕ} {E : DExpr} (h : Pending atoms m E) : (staggerPass atoms E).depth < m := by
  induction atoms generalizing E with
  | nil => exact lt_of_pending h
  | cons D atoms ih =>
    show (staggerPass atoms _).depth < m
    have weaken : ∀ (D : DExpr) (hD : ∀ e x xs, D ≠ .deriv e x xs) {m : ℕ} {E : DExpr}, Pending (D :: atoms) m E → Pending atoms m E := by
      intro D hD m E
      induction E generalizing m with
      | num _ | sym _ | fn _ _ => exact id
      | add a b iha ihb | mul a b iha ihb => exact fun h => ⟨iha h.1, ihb h.2⟩
      | pow a n ih => exact ih
      | func g a ih => exact ih
      | deriv e x xs ih =>
        rintro (⟨h1, h2⟩ | ⟨h1, h2⟩)
        · rcases List.mem_cons.1 h1 with h1 | h1
          · exact absurd h1.symm (hD e x xs)
          · exact .inl ⟨h1, h2⟩
        · exact .inr ⟨h1, ih h2⟩
    cases D with
    | deriv e x xs => exact ih (pending_replace e x xs E h)
    | _ => exact ih (weaken _ (by intros; simp) h)

/-- **C103** The loop ends, whatever the order of the sets. -/
theorem C103_loop_ends (atomsOf : DExpr → List DExpr) (hatoms : ∀ E D, D ∈ atomsOf E ↔ D ∈ E.derivatives) (E : DExpr) :
    ∃ E', StaggerLoop atomsOf E E' := by
  induction hm : E.depth using Nat.strong_induction_on generalizing E with
  | _ m ih =>
    by_cases h : E.derivatives = []
    · exact ⟨E, .done E h⟩
    · have hd := pending_pass (atomsOf E) (pending_start (fun D hD => (hatoms E D).2 hD) hm.le (hm ▸ depth_pos h))
      obtain ⟨E', hE'⟩ := ih _ hd _ rfl
      exact ⟨E', .pass E E' h hE'⟩

/-! ## The staggered schemes of `stagger` -/

/-- The symbols of an expression that are not the arguments of functions. -/
def FExpr.loose : FExpr → List Str
  | .num _ => []
  | .sym s => [s]
  | .fn _ _ => []
  | .deriv e _ => e.loose
  | .add a b => a.loose ++ b.loose
  | .mul a b => a.loose ++ b.loose
  | .pow a _ => a.loose
  | .func _ a => a.loose

section

variable {K : Type} [Field K] [CharZero K]

theorem svalue_deltas {env : Env K} {h : Str → K} (u : Str) (vars : List (Str × ℕ)) (hh : ∀ v ∈ vars, h v.1 ≠ 0)
    (hs : ∀ v ∈ vars, env.sym ('d' :: v.1) = h v.1) (args : List (Str × ℚ)) (p : Str → K) :
    svalue env h p (staggeredExpr u args vars) = deltas h (vars.flatMap (fun v => List.replicate v.2 v.1)) (displaced env h u args) p := by
  induction vars generalizing args p with
  | nil => rfl
  | cons v vars ih =>
    obtain ⟨x, o⟩ := v
    have hx : h x ≠ 0 := hh (x, o) (by simp)
    unfold staggeredExpr
    rw [svalue_stencilSumQ, List.flatMap_cons, deltas_append, deltas_replicate, ← stencil_delta h x hx, hs (x, o) (by simp)]
    congr 1
    refine List.map_congr_left (fun wk _ => ?_)
    rw [ih (fun v hv => hh v (List.mem_cons_of_mem _ hv)) (fun v hv => hs v (List.mem_cons_of_mem _ hv)),
      show displaced env h u (shiftArgsQ args x wk.2) = fun q => displaced env h u args (q + Pi.single x ((wk.2 : K) * h x)) from
        funext (displaced_shift env h u args x wk.2), deltas_translate]

theorem varsIn_toD {S : Finset Str} (e : FExpr) (hv : ∀ d ∈ derivs e, ∀ v ∈ d.2, v.1 ∈ S) : VarsIn S e.toD := by
  induction e with
  | num _ | sym _ | fn _ _ => exact varsIn_leaf rfl
  | add a b iha ihb | mul a b iha ihb =>
    exact (varsIn_add rfl).2 ⟨iha (fun d h => hv d (List.mem_append_left _ h)), ihb (fun d h => hv d (List.mem_append_right _ h))⟩
  | pow a n ih => exact ih hv
  | func g a ih => exact ih hv
  | deriv e vars ih =>
    refine varsIn_derivOf (fun y hy => ?_) (ih (fun d h => hv d (List.mem_cons_of_mem _ h)))
    obtain ⟨v, hv', hy⟩ := List.mem_flatMap.1 hy
    rw [(List.mem_replicate.1 hy).2]
    exact hv (e, vars) (by simp [derivs]) v hv'

theorem dvalue_toD {S : Finset Str} {env : Env K} {h : Str → K} (hS : Steps S env h) (p : Str → K) (e : FExpr) (he : Evaluated e)
    (hv : ∀ d ∈ derivs e, ∀ v ∈ d.2, v.1 ∈ S) (hl : ∀ s ∈ e.loose, s ∈ S → env.sym s = p s) :
    dvalue S env h e.toD p = svalue env h p (stagger e) := by
  induction e with
  | num _ => rfl
  | sym s =>
    show (if s ∈ S then p s else env.sym s) = env.sym s
    split
    · rename_i hs
      exact (hl s (by simp [FExpr.loose]) hs).symm
    · rfl
  | fn u args => rfl
  | add a b iha ihb =>
    show _ + _ = _ + _
    rw [iha (fun d h => he d (List.mem_append_left _ h)) (fun d h => hv d (List.mem_append_left _ h))
      (fun s h => hl s (List.mem_append_left _ h)), ihb (fun d h => he d (List.mem_append_right _ h))
      (fun d h => hv d (List.mem_append_right _ h)) (fun s h => hl s (List.mem_append_right _ h))]
  | mul a b iha ihb =>
    show _ * _ = _ * _
    rw [iha (fun d h => he d (List.mem_append_left _ h)) (fun d h => hv d (List.mem_append_left _ h))
      (fun s h => hl s (List.mem_append_left _ h)), ihb (fun d h => he d (List.mem_append_right _ h))
      (fun d h => hv d (List.mem_append_right _ h)) (fun s h => hl s (List.mem_append_right _ h))]
  | pow a n ih => exact congrArg (· ^ n) (ih he hv hl)
  | func g a ih => exact congrArg (env.func g) (ih he hv hl)
  | deriv e vars _ =>
    obtain ⟨u, args, h'⟩ := he (e, vars) (by simp [derivs])
    simp only at h'
    subst h'
    have hv' := hv (.fn u args, vars) (by simp [derivs])
    show dvalue S env h (derivOf _ _) p = svalue env h p (staggeredExpr _ _ _)
    rw [dvalue_derivOf, svalue_deltas u vars (fun v h => hS.ne v.1 (hv' v h)) (fun v h => hS.sym v.1 (hv' v h))]
    rfl

/-- **C103** The loop, whatever the order of the sets, gives the value of the staggered schemes taken derivative by derivative. -/
theorem C103_loop_stagger (atomsOf : DExpr → List DExpr) (hatoms : ∀ E D, D ∈ atomsOf E ↔ D ∈ E.derivatives) {S : Finset Str}
    {env : Env K} {h : Str → K} (hS : Steps S env h) (p : Str → K) (e : FExpr) (he : Evaluated e)
    (hv : ∀ d ∈ derivs e, ∀ v ∈ d.2, v.1 ∈ S) (hl : ∀ s ∈ e.loose, s ∈ S → env.sym s = p s) (E' : DExpr)
    (hE : StaggerLoop atomsOf e.toD E') : dvalue S env h E' p = svalue env h p (stagger e) := by
  rw [(C103_loop_value atomsOf hatoms hS e.toD E' (varsIn_toD e hv) hE).2]
  exact dvalue_toD hS p e he hv hl

end

theorem admissible_evaluated {S : Finset Str} {env : Env ℝ} (e : FExpr) (he : Admissible S env e) :
    Evaluated e ∧ ∀ d ∈ derivs e, ∀ v ∈ d.2, v.1 ∈ S := by
  unfold Evaluated
  induction e with
  | num _ | sym _ | fn _ _ => exact ⟨fun d h => (by cases h), fun d h => (by cases h)⟩
  | add a b iha ihb | mul a b iha ihb =>
    exact ⟨fun d h => (List.mem_append.1 h).elim ((iha he.1).1 d) ((ihb he.2).1 d),
      fun d h => (List.mem_append.1 h).elim ((iha he.1).2 d) ((ihb he.2).2 d)⟩
  | pow a n ih => exact ih he.1
  | func g a ih => exact ih he.1
  | deriv e vars ih =>
    obtain ⟨⟨u, args, rfl⟩, -, h3⟩ := he
    constructor <;> intro d h <;> simp only [derivs, List.mem_singleton] at h <;> subst h
    · exact ⟨u, args, rfl⟩
    · exact h3

theorem loop_free {atomsOf : DExpr → List DExpr} {E E' : DExpr} (hE : StaggerLoop atomsOf E E') : E'.derivatives = [] := by
  induction hE with
  | done E h0 => exact h0
  | pass _ _ _ _ ih => exact ih

/-- **C103** The loop ends, whatever the order of the sets, without derivative, and with a scheme that is consistent at second order for
smooth functions. -/
theorem C103_loop_second_order (atomsOf : DExpr → List DExpr) (hatoms : ∀ E D, D ∈ atomsOf E ↔ D ∈ E.derivatives) (S : Finset Str)
    (hd : ∀ x ∈ S, 'd' :: x ∉ S) (env : Env ℝ) (e : FExpr) (he : Admissible S env e) (hn : ∀ d ∈ derivs e, (d.2.map Prod.fst).Nodup)
    (hl : ∀ s ∈ e.loose, s ∉ S) (R : ℝ) :
    ∃ E', StaggerLoop atomsOf e.toD E' ∧ E'.derivatives = [] ∧
      ∃ C δ : ℝ, 0 < δ ∧ ∀ step : Str → ℝ, (∀ x ∈ S, step x ≠ 0 ∧ |step x| ≤ δ) → ∀ p : Str → ℝ, (∀ x ∈ S, |p x| ≤ R) →
        |dvalue S (stepEnv S env step) step E' p - exact env e p| ≤ C * ∑ x ∈ S, step x ^ 2 := by
  obtain ⟨E', hE⟩ := C103_loop_ends atomsOf hatoms e.toD
  obtain ⟨h1, h2⟩ := admissible_evaluated e he
  obtain ⟨C, δ, hδ, h⟩ := C103_second_order S env e he hn R
  refine ⟨E', hE, loop_free hE, C, δ, hδ, fun step hs p hp => ?_⟩
  have hS : Steps S (stepEnv S env step) step := ⟨fun x hx => (hs x hx).1, fun x hx => by
    show (if x ∈ S then step x else _) = _
    rw [if_pos hx], hd⟩
  rw [C103_loop_stagger atomsOf hatoms hS p e h1 h2 (fun s h3 h4 => absurd h4 (hl s h3)) E' hE]
  exact h step hs p hp

/-- Non-vacuity: `u u_x + ν u_xx + exp(u) / (ν + 2)`, where `u_x` is a lower derivative of `u_xx`. -/
example : ∃ E', StaggerLoop DExpr.derivatives caseRhs.toD E' ∧ E'.derivatives = [] ∧
    ∃ C δ : ℝ, 0 < δ ∧ ∀ step : Str → ℝ, (∀ x ∈ ({"t".toList, "x".toList} : Finset Str), step x ≠ 0 ∧ |step x| ≤ δ) →
      ∀ p : Str → ℝ, (∀ x ∈ ({"t".toList, "x".toList} : Finset Str), |p x| ≤ 5) →
        |dvalue {"t".toList, "x".toList} (stepEnv {"t".toList, "x".toList} caseEnv step) step E' p - exact caseEnv caseRhs p|
          ≤ C * ∑ x ∈ ({"t".toList, "x".toList} : Finset Str), step x ^ 2 :=
  C103_loop_second_order DExpr.derivatives (fun _ _ => Iff.rfl) _ (by decide +kernel) caseEnv _ case_admissible (by decide +kernel)
    (by decide +kernel) 5

/-- The first pass on `u_x + u_xx`: `u_xx` becomes the derivative of the difference that replaces `u_x`. -/
example : (staggerPass [.deriv (.fn "u".toList [("x".toList, 0)]) "x".toList []]
    (.add (.deriv (.fn "u".toList [("x".toList, 0)]) "x".toList []) (.deriv (.fn "u".toList [("x".toList, 0)]) "x".toList ["x".toList])))
    = let D := staggerDerivative (.fn "u".toList [("x".toList, 0)]) "x".toList []
      .add D (.deriv D "x".toList []) := by decide +kernel

end Sympkf.FinDiff
