import Verif.Lemmas.Text

/-!
# C20–C22: names and code of shifted functions
-/

set_option autoImplicit false

namespace Sympkf.Text

open Spec

/-! ## C20 `clean_latex_name` -/

/-- C20: every character is treated on its own: backslash and braces vanish, caret and comma become underscores, all
other characters are kept, in order. -/
theorem C20_clean_spec (s : Str) : cleanLatexName s = s.filterMap cleanChar := by
  unfold cleanLatexName
  simp only [replace_singleton]
  induction s with
  | nil => rfl
  | cons c s ih =>
    simp only [List.flatMap_cons, List.flatMap_append, ih, List.filterMap_cons, cleanChar]
    by_cases h1 : c = '\\'
    · subst h1; simp
    by_cases h2 : c = '{'
    · subst h2; simp
    by_cases h3 : c = '}'
    · subst h3; simp
    by_cases h4 : c = '^'
    · subst h4; simp
    by_cases h5 : c = ','
    · subst h5; simp
    simp [h1, h2, h3, h4, h5]

/-- C20: the result contains none of the LaTeX characters. -/
theorem C20_clean_no_special (s : Str) (c : Char) (hc : c ∈ cleanLatexName s) : c ∉ special := by
  rw [C20_clean_spec] at hc
  obtain ⟨d, -, hd⟩ := List.mem_filterMap.1 hc
  unfold cleanChar at hd
  split_ifs at hd with h1 h2
  · simp only [Option.some.injEq] at hd
    subst hd; decide
  · simp only [Option.some.injEq] at hd
    subst hd
    simp only [special, List.mem_cons, List.not_mem_nil, or_false]
    tauto

/-- C20: names without LaTeX characters are unchanged. -/
theorem C20_clean_fixed (s : Str) (h : ∀ c ∈ s, c ∉ special) : cleanLatexName s = s := by
  rw [C20_clean_spec]
  induction s with
  | nil => rfl
  | cons c s ih =>
    have hc := h c (by simp)
    simp only [special, List.mem_cons, List.not_mem_nil, or_false, not_or] at hc
    rw [List.filterMap_cons, ih (fun d hd => h d (by simp [hd]))]
    simp [cleanChar, hc]

/-- C20: idempotence. -/
theorem C20_clean_idempotent (s : Str) : cleanLatexName (cleanLatexName s) = cleanLatexName s :=
  C20_clean_fixed _ (C20_clean_no_special s)

/-- C20: compatibility with concatenation. -/
theorem C20_clean_append (s s' : Str) : cleanLatexName (s ++ s') = cleanLatexName s ++ cleanLatexName s' := by
  simp only [C20_clean_spec, List.filterMap_append]

/-- C20, last clause, as far as it holds: distinct names without LaTeX characters keep distinct code names.  The full
clause (for all names) is false, see `C20_counterexample_collision`. -/
theorem C20_clean_injective_partial (s s' : Str) (h : ∀ c ∈ s, c ∉ special) (h' : ∀ c ∈ s', c ∉ special)
    (hne : s ≠ s') : cleanLatexName s ≠ cleanLatexName s' := by
  rwa [C20_clean_fixed s h, C20_clean_fixed s' h']

/-- The two clean names collide exactly when the character-wise images do; here two labels that occur together in a
PKF system: `s^{uv}` and `s_uv`, and `V_{u,v}` against `V_{u_v}`. -/
theorem C20_counterexample_collision :
    "s^{uv}".toList ≠ "s_uv".toList ∧ cleanLatexName "s^{uv}".toList = cleanLatexName "s_uv".toList
    ∧ "V_{u,v}".toList ≠ "V_{u_v}".toList
    ∧ cleanLatexName "V_{u,v}".toList = cleanLatexName "V_{u_v}".toList := by decide

example : cleanLatexName "{\\nu_{u,xx}}^2".toList = "nu_u_xx_2".toList := by decide
example : ∀ c ∈ "nu_u_xx".toList, c ∉ special := by decide

/-! ## C21 `get_function_coordinates` -/

/-- C21: for a function at shifted arguments `x + k*dx` the coordinates and the increments are returned in argument
order.  `IsShift` allows every iteration order of the set of symbols, hence the result does not depend on it.  The
coordinates that are actually shifted must not begin with `d`; see `C21_counterexample_d_name` for the others. -/
theorem C21_coordinates_partial (xs : List Str) (ks : List ℚ) (args : List Arg) (h : IsShifted xs ks args)
    (hx : ∀ p ∈ xs.zip ks, p.2 ≠ 0 → PlainName p.1) :
    getFunctionCoordinates args = .ok (xs, xs.map (fun x => 'd' :: x)) :=
  getFunctionCoordinates_shifted h hx

/-- C21: the displacements are read back (same restriction). -/
theorem C21_displacement_partial (xs : List Str) (ks : List ℚ) (args : List Arg) (h : IsShifted xs ks args)
    (hx : ∀ p ∈ xs.zip ks, p.2 ≠ 0 → PlainName p.1) :
    getDisplacement args = .ok ks :=
  getDisplacement_shifted h hx

/-- C21: an argument with no symbol or with more than two raises `ValueError`, whatever follows; the arguments before
it are shifted coordinates. -/
theorem C21_value_error (xs : List Str) (ks : List ℚ) (before after : List Arg) (arg : Arg)
    (h : IsShifted xs ks before) (hx : ∀ p ∈ xs.zip ks, p.2 ≠ 0 → PlainName p.1)
    (harg : arg.atoms.length = 0 ∨ 2 < arg.atoms.length) :
    getFunctionCoordinates (before ++ arg :: after) = .error .valueError := by
  have hbad : argCoordinates arg = .error .valueError := by
    unfold argCoordinates
    match hat : arg.atoms, harg with
    | [], _ => rfl
    | [_], h => simp at h
    | [_, _], h => simp at h
    | _ :: _ :: _ :: _, _ => rfl
  obtain ⟨h, hl⟩ := h
  induction before generalizing xs ks with
  | nil => simp only [List.nil_append, getFunctionCoordinates, hbad]; rfl
  | cons b bs ih =>
    match xs, ks, hl with
    | x :: xs, k :: ks, hl =>
      cases h with
      | cons h1 h2 =>
        simp only [List.cons_append, getFunctionCoordinates, argCoordinates_shift h1 (hx (x, k) (by simp)),
          ih xs ks (fun p hp => hx p (by simp [hp])) h2 (by simpa using hl)]
        rfl
    | [], _, _ => cases h
    | _ :: _, [], hl => simp at hl

/-- The argument `x + k*dx` seen with the two possible iteration orders. -/
def shiftArg (x : Str) (k : ℚ) (swap : Bool) : Arg where
  atoms := if k = 0 then [x] else if swap then ['d' :: x, x] else [x, 'd' :: x]
  coeff s := if s = 'd' :: x then k else if s = x then 1 else 0
  text := []

theorem isShift_shiftArg (x : Str) (k : ℚ) (swap : Bool) : IsShift x k (shiftArg x k swap) := by
  constructor
  · unfold shiftArg
    by_cases hk : k = 0
    · simp [hk]
    · cases swap
      · simp [hk]
      · simp only [hk, if_false, if_true]
        exact List.Perm.swap _ _ _
  · simp [shiftArg]

/-- C21 fails for every shifted coordinate whose name begins with `d` (e.g. `depth`): one iteration order of the set
of symbols gives the right answer, the other exchanges the coordinate and its increment. -/
theorem C21_counterexample_d_name (s : Str) (k : ℚ) (hk : k ≠ 0) :
    getFunctionCoordinates [shiftArg ('d' :: s) k true] = .ok (['d' :: s], ['d' :: 'd' :: s])
    ∧ getFunctionCoordinates [shiftArg ('d' :: s) k false] = .ok (['d' :: 'd' :: s], ['d' :: s]) := by
  constructor <;>
    simp [getFunctionCoordinates, argCoordinates, shiftArg, hk, bind, Except.bind, pure, Except.pure]

example : IsShifted ["t".toList, "x".toList, "y".toList] [0, 2, -3/2]
    [shiftArg "t".toList 0 false, shiftArg "x".toList 2 true, shiftArg "y".toList (-3/2) false] :=
  ⟨by
    refine .cons (isShift_shiftArg _ _ _) (.cons (isShift_shiftArg _ _ _) (.cons (isShift_shiftArg _ _ _) .nil)), rfl⟩

example : getFunctionCoordinates
    [shiftArg "t".toList 0 false, shiftArg "x".toList 2 true, shiftArg "y".toList (-3/2) false]
    = .ok (["t".toList, "x".toList, "y".toList], ["dt".toList, "dx".toList, "dy".toList]) := by
  refine C21_coordinates_partial _ [0, 2, -3/2] _ ⟨?_, rfl⟩ ?_
  · refine .cons (isShift_shiftArg _ _ _) (.cons (isShift_shiftArg _ _ _) (.cons (isShift_shiftArg _ _ _) .nil))
  · intro p hp _
    simp only [List.zip_cons_cons, List.zip_nil_right, List.mem_cons, List.not_mem_nil, or_false] at hp
    rcases hp with rfl | rfl | rfl
    · exact ⟨'t', [], by decide, by decide⟩
    · exact ⟨'x', [], by decide, by decide⟩
    · exact ⟨'y', [], by decide, by decide⟩

/-! ## C22 code of a shifted function -/

/-- The integer shifts as rationals. -/
abbrev toRat (ks : List ℤ) : List ℚ := ks.map (fun k : ℤ => (k : ℚ))

/-- C22: code of a function of time and space at integer shifts. -/
theorem C22_code_time (name : Str) (xs : List Str) (k0 : ℤ) (ks : List ℤ) (args : List Arg)
    (h : IsShifted ("t".toList :: xs) (toRat (k0 :: ks)) args)
    (hx : ∀ p ∈ xs.zip (toRat ks), p.2 ≠ 0 → PlainName p.1) :
    codeRegularFunction sliceCodingRule name args
      = .ok (name.filterMap cleanChar ++ timeText k0 ++ spaceText xs ks) := by
  have hx' : ∀ p ∈ ("t".toList :: xs).zip (toRat (k0 :: ks)), p.2 ≠ 0 → PlainName p.1 := by
    intro p hp hp0
    simp only [toRat, List.map_cons, List.zip_cons_cons, List.mem_cons] at hp
    rcases hp with rfl | hp
    · exact ⟨'t', [], by simp, by decide⟩
    · exact hx p hp hp0
  have hl : xs.length = ks.length := by simpa using h.2
  have e : ("t".toList : Str) = ['t'] := by decide
  unfold codeRegularFunction
  rw [getFunctionCoordinates_shifted h hx', getDisplacement_shifted h hx']
  simp only [toRat, List.map_cons, e, bind, Except.bind, pure, Except.pure, List.mem_cons, true_or, if_true,
    asInteger_cast, spaceTag_int xs ks hl, timeTag_eq, C20_clean_spec]

/-- C22: code of a function of space only. -/
theorem C22_code_space (name : Str) (xs : List Str) (ks : List ℤ) (args : List Arg)
    (ht : "t".toList ∉ xs) (h : IsShifted xs (toRat ks) args)
    (hx : ∀ p ∈ xs.zip (toRat ks), p.2 ≠ 0 → PlainName p.1) :
    codeRegularFunction sliceCodingRule name args = .ok (name.filterMap cleanChar ++ spaceText xs ks) := by
  have hl : xs.length = ks.length := by simpa using h.2
  have e : ("t".toList : Str) = ['t'] := by decide
  rw [e] at ht
  unfold codeRegularFunction
  rw [getFunctionCoordinates_shifted h hx, getDisplacement_shifted h hx]
  simp only [toRat, bind, Except.bind, pure, Except.pure, ht, if_false, spaceTag_int xs ks hl, C20_clean_spec]

/-- C22: an unshifted function is coded by its name alone. -/
theorem C22_code_zero (name : Str) (xs : List Str) (args : List Arg)
    (h : IsShifted ("t".toList :: xs) (toRat (0 :: xs.map fun _ => 0)) args) :
    codeRegularFunction sliceCodingRule name args = .ok (name.filterMap cleanChar) := by
  rw [C22_code_time name xs 0 _ args h]
  · simp [timeText, spaceText]
  · intro p hp hp0
    exfalso; apply hp0
    have := (List.of_mem_zip hp).2
    simp only [toRat, List.map_map, List.mem_map, Function.comp] at this
    obtain ⟨_, _, h0⟩ := this
    simp [← h0]

/-- C22: a displacement off the grid raises `AssertionError`. -/
theorem C22_off_grid (rule : SliceRule) (name : Str) (xs : List Str) (ks : List ℚ) (args : List Arg)
    (h : IsShifted xs ks args) (hx : ∀ p ∈ xs.zip ks, p.2 ≠ 0 → PlainName p.1)
    (hoff : ∃ q ∈ ks, ∀ k : ℤ, q ≠ k) :
    codeRegularFunction rule name args = .error .assertionError := by
  have hl := h.2
  unfold codeRegularFunction
  rw [getFunctionCoordinates_shifted h hx, getDisplacement_shifted h hx]
  simp only [bind, Except.bind, pure, Except.pure]
  by_cases ht : ['t'] ∈ xs
  · rw [if_pos ht]
    match xs, ks, hl with
    | x0 :: xs, q :: qs, hl =>
      simp only
      by_cases h0 : x0 = ['t']
      · rw [if_pos h0]
        by_cases hq : ∀ k : ℤ, q ≠ k
        · rw [asInteger_error hq]
        · push Not at hq
          obtain ⟨k, rfl⟩ := hq
          rw [asInteger_cast]
          obtain ⟨q, hq, hk⟩ := hoff
          rcases List.mem_cons.1 hq with rfl | hq
          · exact absurd rfl (hk k)
          · simp only [spaceTag_error rule xs qs (by simpa using hl) ⟨q, hq, hk⟩]
      · rw [if_neg h0]
    | [], _, _ => simp at ht
    | _ :: _, [], hl => simp at hl
  · rw [if_neg ht, spaceTag_error rule xs ks hl hoff]

/-- C22: time must be the first argument. -/
theorem C22_time_first (rule : SliceRule) (name : Str) (x0 : Str) (xs : List Str) (ks : List ℚ) (args : List Arg)
    (h : IsShifted (x0 :: xs) ks args) (hx : ∀ p ∈ (x0 :: xs).zip ks, p.2 ≠ 0 → PlainName p.1)
    (ht : "t".toList ∈ xs) (h0 : x0 ≠ "t".toList) :
    codeRegularFunction rule name args = .error .assertionError := by
  have hl := h.2
  have e : ("t".toList : Str) = ['t'] := by decide
  rw [e] at ht h0
  unfold codeRegularFunction
  rw [getFunctionCoordinates_shifted h hx, getDisplacement_shifted h hx]
  match ks, hl with
  | q :: qs, hl => simp [bind, Except.bind, ht, h0]

/-- C22: different integer shifts of one function of time and space have different codes. -/
theorem C22_code_injective (name : Str) (xs : List Str) (k0 k0' : ℤ) (ks ks' : List ℤ) (args args' : List Arg)
    (h : IsShifted ("t".toList :: xs) (toRat (k0 :: ks)) args)
    (h' : IsShifted ("t".toList :: xs) (toRat (k0' :: ks')) args')
    (hx : ∀ x ∈ xs, PlainName x)
    (he : codeRegularFunction sliceCodingRule name args = codeRegularFunction sliceCodingRule name args') :
    k0 = k0' ∧ ks = ks' := by
  rw [C22_code_time name xs k0 ks args h (fun p hp _ => hx _ (List.of_mem_zip hp).1),
    C22_code_time name xs k0' ks' args' h' (fun p hp _ => hx _ (List.of_mem_zip hp).1)] at he
  have he := Except.ok.inj he
  rw [List.append_assoc, List.append_assoc] at he
  have he := List.append_cancel_left he
  have := append_right_split (p := fun c => c ≠ '[') (fun c => mem_timeText) (fun c => mem_timeText)
    (fun c hc => by simp [spaceText_head xs ks c hc]) (fun c hc => by simp [spaceText_head xs ks' c hc]) he
  exact ⟨timeText_inj this.1, spaceText_inj xs ks ks' (by simpa using h.2) (by simpa using h'.2) this.2⟩

/-- C22: the same for a function of space. -/
theorem C22_code_injective_space (name : Str) (xs : List Str) (ks ks' : List ℤ) (args args' : List Arg)
    (ht : "t".toList ∉ xs) (h : IsShifted xs (toRat ks) args) (h' : IsShifted xs (toRat ks') args')
    (hx : ∀ x ∈ xs, PlainName x)
    (he : codeRegularFunction sliceCodingRule name args = codeRegularFunction sliceCodingRule name args') :
    ks = ks' := by
  rw [C22_code_space name xs ks args ht h (fun p hp _ => hx _ (List.of_mem_zip hp).1),
    C22_code_space name xs ks' args' ht h' (fun p hp _ => hx _ (List.of_mem_zip hp).1)] at he
  have he := List.append_cancel_left (Except.ok.inj he)
  exact spaceText_inj xs ks ks' (by simpa using h.2) (by simpa using h'.2) he

/-- Two different functions may share a code: `u(t+dt)` and `up1(t)`.  This does not contradict C22, which is about
one function, but limits what may be concluded from it. -/
theorem C22_limitation_two_functions :
    codeRegularFunction sliceCodingRule "u".toList [shiftArg "t".toList 1 false]
      = codeRegularFunction sliceCodingRule "up1".toList [shiftArg "t".toList 0 false] := by
  have h1 := C22_code_time "u".toList [] 1 [] [shiftArg "t".toList 1 false]
    ⟨.cons (by simpa using isShift_shiftArg "t".toList 1 false) .nil, rfl⟩ (by simp)
  have h2 := C22_code_time "up1".toList [] 0 [] [shiftArg "t".toList 0 false]
    ⟨.cons (by simpa using isShift_shiftArg "t".toList 0 false) .nil, rfl⟩ (by simp)
  rw [h1, h2]
  decide

example : codeRegularFunction sliceCodingRule "f^u_xy".toList
    [shiftArg "t".toList (-2) true, shiftArg "x".toList 1 false, shiftArg "y".toList 0 true]
    = .ok "f_u_xym2[np.ix_(self.index('x',1),self.index('y',0))]".toList := by
  rw [C22_code_time "f^u_xy".toList ["x".toList, "y".toList] (-2) [1, 0]]
  · decide
  · refine ⟨.cons (by simpa using isShift_shiftArg "t".toList (-2) true) (.cons ?_ (.cons ?_ .nil)), rfl⟩
    · simpa using isShift_shiftArg "x".toList 1 false
    · simpa using isShift_shiftArg "y".toList 0 true
  · intro p hp hp0
    simp only [toRat, List.map_cons, List.map_nil, List.zip_cons_cons, List.zip_nil_right, List.mem_cons,
      List.not_mem_nil, or_false] at hp
    rcases hp with rfl | rfl
    · exact ⟨'x', [], by decide, by decide⟩
    · exact absurd (by simp) hp0

end Sympkf.Text
