import Verif.Lemmas.Render

/-!
# C23: rendering a finite difference keeps its tokens intact
-/

set_option autoImplicit false

namespace Sympkf.Text

open Spec

/-! ## the two loops -/

theorem coded_coordinates {f : AppliedFun} {xs : List Str} {c : Str} (h : Coded f xs c) :
    getFunctionCoordinates f.args = .ok (xs, xs.map (fun x => 'd' :: x)) := by
  cases h with
  | time xs k0 ks h hx =>
    refine getFunctionCoordinates_shifted h (fun p hp hp0 => ?_)
    simp only [List.map_cons, List.zip_cons_cons, List.mem_cons] at hp
    rcases hp with rfl | hp
    · exact ⟨'t', [], by simp, by decide⟩
    · exact (hx _ (List.of_mem_zip hp).1).1
  | space _ ks h hx ht => exact getFunctionCoordinates_shifted h (fun p hp _ => (hx _ (List.of_mem_zip hp).1).1)

theorem coded_code {f : AppliedFun} {xs : List Str} {c : Str} (h : Coded f xs c) :
    codeRegularFunction sliceCodingRule f.name f.args = .ok c := by
  cases h with
  | time xs k0 ks h hx =>
    exact C22_code_time f.name xs k0 ks f.args h (fun p hp _ => (hx _ (List.of_mem_zip hp).1).1)
  | space _ ks h hx ht =>
    exact C22_code_space f.name xs ks f.args ht h (fun p hp _ => (hx _ (List.of_mem_zip hp).1).1)

theorem cleanChar_sep {c d : Char} (h : cleanChar c = some d) (hc : isSep c = false) : isSep d = false := by
  unfold cleanChar at h
  split_ifs at h
  · obtain rfl := Option.some.inj h; decide
  · obtain rfl := Option.some.inj h; exact hc

theorem decimal_nonneg_mem {k : ℤ} (hk : 0 ≤ k) {c : Char} (h : c ∈ decimal k) : c.isDigit := by
  rw [← intStr_eq] at h
  unfold intStr natStr at h
  rw [if_neg (by omega)] at h
  exact Nat.isDigit_of_mem_toDigits (by norm_num) (by norm_num) h

theorem isSep_of_digit {c : Char} (h : c.isDigit) : isSep c = false := by
  by_contra hc
  have hc : isSep c = true := by simpa using hc
  have e : " ()[]+-*/'.".toList = [' ', '(', ')', '[', ']', '+', '-', '*', '/', '\'', '.'] := by decide
  unfold isSep at hc
  rw [e] at hc
  simp only [List.contains_cons, List.contains_nil, Bool.or_false, Bool.or_eq_true, beq_iff_eq] at hc
  rcases hc with rfl | rfl | rfl | rfl | rfl | rfl | rfl | rfl | rfl | rfl | rfl <;> exact absurd h (by decide)

theorem timeText_sep {k : ℤ} {c : Char} (h : c ∈ timeText k) : isSep c = false := by
  unfold timeText at h
  split_ifs at h with h0 h1
  · simp at h
  · rcases List.mem_cons.1 h with rfl | h
    · decide
    · exact isSep_of_digit (decimal_nonneg_mem (by omega) h)
  · rcases List.mem_cons.1 h with rfl | h
    · decide
    · exact isSep_of_digit (decimal_nonneg_mem (by omega) h)

theorem coded_quiet {f : AppliedFun} (hf : FunOK f) {xs : List Str} {c : Str} (h : Coded f xs c) : Quiet c := by
  have hn : ∀ c ∈ f.name.filterMap cleanChar, isSep c = false := by
    intro c hc
    obtain ⟨d, hd, hdc⟩ := List.mem_filterMap.1 hc
    exact cleanChar_sep hdc (hf.name.2 d hd)
  cases h with
  | time xs k0 ks h hx =>
    refine quiet_code (fun c hc => ?_) (fun x hx' => (hx x hx').2) ks (by simpa using h.2)
    rcases List.mem_append.1 hc with hc | hc
    · exact hn c hc
    · exact timeText_sep hc
  | space _ ks h hx ht => exact quiet_code hn (fun x hx' => (hx x hx').2) ks (by simpa using h.2)

/-- The unrendered tokens. -/
def Spec.Tok.raw : Tok → RTok
  | .lit s => .lit s
  | .call f => .call f
  | .step x => .step x

theorem raw_text (code : AppliedFun → Str) (dxRule : Str → Str) (toks : List Tok) :
    rtext code dxRule (toks.map Tok.raw) = toks.flatMap Tok.text := by
  induction toks with
  | nil => rfl
  | cons a l ih =>
    simp only [rtext, List.map_cons, List.flatMap_cons] at ih ⊢
    rw [ih]
    cases a <;> rfl

theorem raw_sep {toks : List Tok} (h : Separated toks) : RSep (toks.map Tok.raw) := by
  induction toks with
  | nil => trivial
  | cons a l ih =>
    cases l with
    | nil => trivial
    | cons b l =>
      obtain ⟨h1, h2⟩ := h
      refine ⟨?_, ih h2⟩
      cases a <;> cases b <;> simp_all [Tok.raw, RTok.isLit]

theorem updCall_isLit (P : Str) (a : RTok) : (updCall P a).isLit = a.isLit := by
  cases a <;> simp only [updCall]
  split_ifs <;> rfl

theorem updStep_isLit (x : Str) (a : RTok) : (updStep x a).isLit = a.isLit := by
  cases a <;> simp only [updStep]
  split_ifs <;> rfl

theorem RSep.map {upd : RTok → RTok} (h1 : ∀ a, (upd a).isLit = a.isLit) (h2 : ∀ s, upd (.lit s) = .lit s)
    {l : List RTok} (h : RSep l) : RSep (l.map upd) := by
  induction l with
  | nil => trivial
  | cons a l ih =>
    cases l with
    | nil => trivial
    | cons b l =>
      obtain ⟨h3, h4⟩ := h
      refine ⟨?_, ih h4⟩
      have hb := h1 b
      cases hal : a.isLit with
      | true =>
        cases a with
        | lit s =>
          rw [h2 s]
          cases hbl : b.isLit with
          | false => rw [hbl] at h3 hb; rw [hb]; exact h3
          | true => rw [hbl] at h3; exact absurd h3 (by simp)
        | call g => simp [RTok.isLit] at hal
        | done g => simp [RTok.isLit] at hal
        | step g => simp [RTok.isLit] at hal
        | stepDone g => simp [RTok.isLit] at hal
      | false =>
        cases hbl : b.isLit with
        | false => rw [hbl] at h3; cases a <;> simp_all [RTok.isLit]
        | true =>
          have : ∃ s c, b = .lit s ∧ s.head? = some c ∧ isSep c = true ∧ c ≠ '(' := by
            rw [hbl] at h3; cases a <;> simp_all [RTok.isLit]
          obtain ⟨s, c, rfl, hc⟩ := this
          rw [h2 s]
          have ha := h1 a
          rw [hal] at ha
          generalize upd a = a' at ha
          cases a' <;> simp_all [RTok.isLit]

/-- Pairs `(x, dx)` of a list of coordinates. -/
def pairs (l : List Str) : List (Str × Str) := l.map (fun x => (x, 'd' :: x))

theorem loc_fold (xs acc : List Str) :
    (xs.zip (xs.map (fun x => 'd' :: x))).foldl (fun loc p => if p ∈ loc then loc else loc ++ [p]) (pairs acc)
      = pairs (xs.foldl (fun acc x => if x ∈ acc then acc else acc ++ [x]) acc) := by
  induction xs generalizing acc with
  | nil => rfl
  | cons x xs ih =>
    simp only [List.map_cons, List.zip_cons_cons, List.foldl_cons]
    have hm : (x, 'd' :: x) ∈ pairs acc ↔ x ∈ acc := by
      unfold pairs
      constructor
      · intro h
        obtain ⟨y, hy, he⟩ := List.mem_map.1 h
        have := (Prod.ext_iff.1 he).1
        simp only at this
        rw [← this]; exact hy
      · intro h; exact List.mem_map.2 ⟨x, h, rfl⟩
    by_cases hx : x ∈ acc
    · rw [if_pos (hm.2 hx), if_pos hx]; exact ih acc
    · rw [if_neg (fun h => hx (hm.1 h)), if_neg hx]
      have : pairs acc ++ [(x, 'd' :: x)] = pairs (acc ++ [x]) := by simp [pairs]
      rw [this]; exact ih _

/-- Tokens after the functions `done` have been rendered. -/
def afterCalls (P : Str → Bool) : RTok → RTok
  | .call g => if P g.str then .done g else .call g
  | a => a

/-- What is assumed of the functions of the expression. -/
structure FunsOK (coords : AppliedFun → List Str) (code : AppliedFun → Str) (fs : List AppliedFun) : Prop where
  ok : ∀ f ∈ fs, FunOK f
  coded : ∀ f ∈ fs, Coded f (coords f) (code f)
  suffix : ∀ f ∈ fs, ∀ g ∈ fs, f.name <:+ g.name → f.name = g.name
  inj : ∀ f ∈ fs, ∀ g ∈ fs, f.str = g.str → code f = code g

theorem functionLoop_spec {coords : AppliedFun → List Str} {code : AppliedFun → Str} {dxRule : Str → Str}
    (all : List AppliedFun) (H : FunsOK coords code all)
    (fs : List AppliedFun) (hsub : ∀ f ∈ fs, f ∈ all) (l : List RTok) (acc : List Str)
    (hsep : RSep l)
    (hlit : ∀ s, RTok.lit s ∈ l → LitOK s) (hcall : ∀ g, RTok.call g ∈ l → g ∈ all)
    (hdone : ∀ g, RTok.done g ∈ l → g ∈ all) (hstep : ∀ x, RTok.step x ∈ l → ∀ c ∈ x, isSep c = false)
    (hsd : ∀ x, RTok.stepDone x ∉ l) :
    functionLoop sliceCodingRule fs (rtext code dxRule l) (pairs acc)
      = .ok (rtext code dxRule (l.map (afterCalls (fun s => fs.any (fun f => f.str = s)))),
        pairs ((fs.flatMap coords).foldl (fun acc x => if x ∈ acc then acc else acc ++ [x]) acc)) := by
  induction fs generalizing l acc with
  | nil =>
    simp only [functionLoop, List.any_nil, List.flatMap_nil, List.foldl_nil]
    have : l.map (afterCalls (fun _ => false)) = l := by
      conv_rhs => rw [← List.map_id l]
      refine List.map_congr_left (fun a _ => ?_)
      cases a <;> simp [afterCalls]
    rw [this]
  | cons f fs ih =>
    have hf := hsub f (by simp)
    simp only [functionLoop, coded_coordinates (H.coded f hf), coded_code (H.coded f hf), bind, Except.bind]
    rw [loc_fold, replace_call (H.ok f hf) hsep hlit (fun g hg => H.ok g (hcall g hg))
      (fun g hg => coded_quiet (H.ok g (hdone g hg)) (H.coded g (hdone g hg))) hstep hsd
      (fun g hg => H.suffix f hf g (hcall g hg)) (fun g hg he => H.inj g (hcall g hg) f hf he)]
    have hmem : ∀ b ∈ l.map (updCall f.str), ∃ a ∈ l, updCall f.str a = b := by
      intro b hb; obtain ⟨a, ha, rfl⟩ := List.mem_map.1 hb; exact ⟨a, ha, rfl⟩
    rw [ih (fun g hg => hsub g (by simp [hg])) (l.map (updCall f.str)) _
      (hsep.map (updCall_isLit _) (fun _ => rfl))]
    · rw [List.flatMap_cons, List.foldl_append, List.map_map]
      congr 3
      refine List.map_congr_left (fun a _ => ?_)
      cases a with
      | call g =>
        simp only [Function.comp, updCall]
        by_cases hg : g.str = f.str
        · rw [if_pos hg]; simp [afterCalls, hg]
        · rw [if_neg hg]
          have : ¬ f.str = g.str := fun h => hg h.symm
          simp [afterCalls, this]
      | lit s => rfl
      | done g => rfl
      | step x => rfl
      | stepDone x => rfl
    · intro s hs
      obtain ⟨a, ha, he⟩ := hmem _ hs
      cases a <;> simp only [updCall] at he
      · cases he; exact hlit s ha
      · split_ifs at he
      all_goals cases he
    · intro g hg
      obtain ⟨a, ha, he⟩ := hmem _ hg
      cases a <;> simp only [updCall] at he
      case call g' => split_ifs at he; cases he; exact hcall g ha
      all_goals cases he
    · intro g hg
      obtain ⟨a, ha, he⟩ := hmem _ hg
      cases a <;> simp only [updCall] at he
      case call g' => split_ifs at he; cases he; exact hcall g ha
      case done g' => cases he; exact hdone g ha
      all_goals cases he
    · intro x hx
      obtain ⟨a, ha, he⟩ := hmem _ hx
      cases a <;> simp only [updCall] at he
      case call g' => split_ifs at he
      case step g' => cases he; exact hstep x ha
      all_goals cases he
    · intro x hx
      obtain ⟨a, ha, he⟩ := hmem _ hx
      cases a <;> simp only [updCall] at he
      case call g' => split_ifs at he
      case stepDone g' => cases he; exact hsd x ha
      all_goals cases he

/-- Tokens after the grid steps of the coordinates `P` have been rendered. -/
def afterSteps (P : Str → Bool) : RTok → RTok
  | .step x => if P x then .stepDone x else .step x
  | a => a

theorem stepLoop_spec {code : AppliedFun → Str} {dxRule : Str → Str} (loc : List Str) (l : List RTok)
    (hsep : RSep l) (hloc : ∀ x ∈ loc, ∀ c ∈ x, isSep c = false)
    (hfree : ∀ x ∈ loc, ∀ a ∈ l, a ≠ .step x → ¬ ('d' :: x) <:+: a.text code dxRule)
    (hord : loc.Pairwise (fun y x => RTok.step y ∈ l → ¬ ('d' :: x) <:+: dxRule y)) :
    (pairs loc).foldl (fun code p => replace p.2 (dxRule p.1) code) (rtext code dxRule l)
      = rtext code dxRule (l.map (afterSteps (fun x => decide (x ∈ loc)))) := by
  induction loc generalizing l with
  | nil =>
    have : l.map (afterSteps (fun _ => false)) = l := by
      conv_rhs => rw [← List.map_id l]
      refine List.map_congr_left (fun a _ => ?_)
      cases a <;> simp [afterSteps]
    simp [pairs, this]
  | cons x loc ih =>
    rw [List.pairwise_cons] at hord
    simp only [pairs, List.map_cons, List.foldl_cons]
    rw [replace_step (hloc x (by simp)) hsep (hfree x (by simp))]
    have := ih (l.map (updStep x)) (hsep.map (updStep_isLit x) (fun _ => rfl)) (fun y hy => hloc y (by simp [hy])) ?_ ?_
    · unfold pairs at this
      rw [this, List.map_map]
      congr 1
      refine List.map_congr_left (fun a _ => ?_)
      cases a with
      | step y =>
        simp only [Function.comp, updStep]
        by_cases hy : y = x
        · simp [hy, afterSteps]
        · simp [hy, afterSteps]
      | lit s => rfl
      | done g => rfl
      | call g => rfl
      | stepDone y => rfl
    · intro y hy a ha hne
      obtain ⟨b, hb, rfl⟩ := List.mem_map.1 ha
      cases b with
      | step z =>
        by_cases hz : z = x
        · subst hz
          simp only [updStep, if_true, RTok.text]
          exact hord.1 y hy hb
        · simp only [updStep, if_neg hz] at hne ⊢
          exact hfree y (by simp [hy]) _ hb hne
      | lit s => exact hfree y (by simp [hy]) _ hb hne
      | done g => exact hfree y (by simp [hy]) _ hb hne
      | call g => exact hfree y (by simp [hy]) _ hb hne
      | stepDone z => exact hfree y (by simp [hy]) _ hb hne
    · refine hord.2.imp (fun {y z} h hy => h ?_)
      obtain ⟨b, hb, he⟩ := List.mem_map.1 hy
      cases b <;> simp only [updStep] at he
      case step w =>
        split_ifs at he
        cases he; exact hb
      all_goals cases he

/-! ## C23 -/

/-- C23, as far as it holds: when the texts `dx` occur in no other token (literal, code of a function, other grid
step) nor in the code of a grid step rendered earlier, and no function name is a proper suffix of another, the code of
a finite-difference expression is obtained token by token: functions and grid steps are rendered, the rest is
untouched.  The result does not depend on the iteration order of `atoms(Function)`, apart from the condition on
`firstOccurrences`.  Without these conditions the statement is false, see the counterexamples below. -/
theorem C23_render_partial (coords : AppliedFun → List Str) (code : AppliedFun → Str) (dxRule : Str → Str)
    (toks : List Tok) (fs : List AppliedFun)
    (hsep : Separated toks)
    (hlit : ∀ s, Tok.lit s ∈ toks → ∀ c, isSep c = false → ¬ [c, '('] <:+: s)
    (hcall : ∀ f, Tok.call f ∈ toks → f ∈ fs)
    (hstep : ∀ x, Tok.step x ∈ toks → x ∈ fs.flatMap coords)
    (hname : ∀ f ∈ fs, IsName f.name)
    (hargs : ∀ f ∈ fs, ∀ c ∈ joinArgs (f.args.map Arg.text), c ≠ '(' ∧ c ≠ ')' ∧ c ≠ '\'')
    (hcoded : ∀ f ∈ fs, Coded f (coords f) (code f))
    (hcode : ∀ f ∈ fs, ∀ g ∈ fs, f.str = g.str → code f = code g)
    (hsuffix : ∀ f ∈ fs, ∀ g ∈ fs, f.name <:+ g.name → f.name = g.name)
    (hfree : ∀ x ∈ fs.flatMap coords, (∀ s, Tok.lit s ∈ toks → ¬ ('d' :: x) <:+: s)
      ∧ (∀ f ∈ fs, ¬ ('d' :: x) <:+: code f)
      ∧ (∀ y, Tok.step y ∈ toks → y ≠ x → ¬ ('d' :: x) <:+: ('d' :: y)))
    (hord : (firstOccurrences (fs.flatMap coords)).Pairwise
      (fun y x => Tok.step y ∈ toks → ¬ ('d' :: x) <:+: dxRule y)) :
    codeFiniteDifference sliceCodingRule dxRule (toks.flatMap Tok.text) fs
      = .ok (toks.flatMap (Tok.render code dxRule)) := by
  have hsepname : ∀ x ∈ fs.flatMap coords, ∀ c ∈ x, isSep c = false := by
    intro x hx
    obtain ⟨f, hf, hxf⟩ := List.mem_flatMap.1 hx
    have := hcoded f hf
    generalize coords f = xs at hxf this
    generalize code f = cf at this
    cases this with
    | time xs k0 ks h hx' =>
      rcases List.mem_cons.1 hxf with rfl | hxf
      · decide
      · exact (hx' x hxf).2
    | space _ ks h hx' ht => exact (hx' x hxf).2
  have H : FunsOK coords code fs := ⟨fun f hf => ⟨hname f hf, hargs f hf⟩, hcoded, hsuffix, hcode⟩
  have hmem : ∀ b ∈ toks.map Tok.raw, ∃ a ∈ toks, a.raw = b := by
    intro b hb; obtain ⟨a, ha, rfl⟩ := List.mem_map.1 hb; exact ⟨a, ha, rfl⟩
  have h1 := functionLoop_spec (dxRule := dxRule) fs H fs (fun _ h => h) (toks.map Tok.raw) [] (raw_sep hsep)
    (fun s hs => by obtain ⟨a, ha, he⟩ := hmem _ hs; cases a <;> cases he; exact hlit s ha)
    (fun g hg => by obtain ⟨a, ha, he⟩ := hmem _ hg; cases a <;> cases he; exact hcall g ha)
    (fun g hg => by obtain ⟨a, ha, he⟩ := hmem _ hg; cases a <;> cases he)
    (fun x hx => by obtain ⟨a, ha, he⟩ := hmem _ hx; cases a <;> cases he; exact hsepname x (hstep x ha))
    (fun x hx => by obtain ⟨a, ha, he⟩ := hmem _ hx; cases a <;> cases he)
  rw [raw_text] at h1
  unfold codeFiniteDifference
  have e : pairs [] = [] := rfl
  rw [e] at h1
  simp only [h1, bind, Except.bind, pure, Except.pure]
  congr 1
  set loc := (fs.flatMap coords).foldl (fun acc x => if x ∈ acc then acc else acc ++ [x]) [] with hloc
  have hlocmem : ∀ x, x ∈ loc ↔ x ∈ fs.flatMap coords := by
    have : ∀ (l acc : List Str) x,
        x ∈ l.foldl (fun acc x => if x ∈ acc then acc else acc ++ [x]) acc ↔ x ∈ acc ∨ x ∈ l := by
      intro l
      induction l with
      | nil => simp
      | cons y l ih =>
        intro acc x
        simp only [List.foldl_cons, ih]
        by_cases hy : y ∈ acc
        · rw [if_pos hy]
          constructor
          · rintro (h | h)
            · exact Or.inl h
            · exact Or.inr (by simp [h])
          · rintro (h | h)
            · exact Or.inl h
            · rcases List.mem_cons.1 h with rfl | h
              · exact Or.inl hy
              · exact Or.inr h
        · rw [if_neg hy]; simp [or_assoc]
    intro x; rw [hloc, this]; simp
  rw [stepLoop_spec loc _ (((raw_sep hsep)).map (by
      intro a; cases a <;> simp only [afterCalls]
      split_ifs <;> rfl) (fun _ => rfl)) (fun x hx => hsepname x ((hlocmem x).1 hx)) ?_ ?_]
  · rw [List.map_map, List.map_map]
    unfold rtext
    rw [List.flatMap_map]
    refine List.flatMap_congr (fun a ha => ?_)
    cases a with
    | lit s => rfl
    | call f =>
      have : fs.any (fun f' => f'.str = f.str) = true := by
        simp only [List.any_eq_true, decide_eq_true_eq]
        exact ⟨f, hcall f ha, rfl⟩
      simp [Function.comp, Tok.raw, afterCalls, afterSteps, RTok.text, Tok.render, this]
    | step x =>
      have : x ∈ loc := (hlocmem x).2 (hstep x ha)
      simp [Function.comp, Tok.raw, afterCalls, afterSteps, RTok.text, Tok.render, this]
  · intro x hx a ha hne
    have hx := (hlocmem x).1 hx
    obtain ⟨f1, f2, f3⟩ := hfree x hx
    obtain ⟨b, hb, rfl⟩ := List.mem_map.1 ha
    obtain ⟨c, hc, rfl⟩ := hmem _ hb
    cases c with
    | lit s => exact f1 s hc
    | call f =>
      have hf := hcall f hc
      have : afterCalls (fun s => fs.any (fun f => f.str = s)) (.call f) = .done f := by
        have : fs.any (fun f' => f'.str = f.str) = true := by
          simp only [List.any_eq_true, decide_eq_true_eq]
          exact ⟨f, hf, rfl⟩
        simp only [afterCalls, this, if_true]
      rw [Tok.raw, this]
      exact f2 f hf
    | step y =>
      refine f3 y hc ?_
      rintro rfl
      exact hne rfl
  · refine List.Pairwise.imp (fun {y z} h hy => h ?_) hord
    obtain ⟨b, hb, he⟩ := List.mem_map.1 hy
    obtain ⟨c, hc, rfl⟩ := hmem _ hb
    cases c <;> simp only [Tok.raw, afterCalls] at he
    case call g => split_ifs at he
    case step w => cases he; exact hc
    all_goals cases he

/-- `x + k*dx` with its printed form. -/
def printedArg (x : Str) (k : ℤ) (text : Str) : Arg := { shiftArg x k false with text := text }

/-- A grid function `u` of the coordinates `y`, `x` (in this order). -/
def uAt (ky kx : ℤ) (ty tx : Str) : AppliedFun := ⟨"u".toList, [printedArg "y".toList ky ty, printedArg "x".toList kx tx]⟩

/-- C23 is false when a coordinate named `x` comes after another one: the code of `dy` is
`self.dx[self.coordinates.index('y')]`, and the replacement of `dx` that follows corrupts it.  Here the centred
difference in `y` of a function of `(y, x)`. -/
theorem C23_counterexample_order :
    codeFiniteDifference sliceCodingRule dxCodingRuleFD "(u(y + dy, x) - u(y - dy, x))/(2*dy)".toList
      [uAt 1 0 "y + dy".toList "x".toList, uAt (-1) 0 "y - dy".toList "x".toList]
      = .ok ("(u[np.ix_(self.index('y',1),self.index('x',0))] - u[np.ix_(self.index('y',-1),self.index('x',0))])/(2*self."
        ++ "self.dx[self.coordinates.index('x')][self.coordinates.index('y')])").toList := by
  decide +kernel

/-- C23 is false for a coordinate called `ex` (or `e`): its increment `dex` occurs in the word `index`. -/
theorem C23_counterexample_index :
    codeFiniteDifference sliceCodingRule dxCodingRuleFD "u(ex + dex)".toList
      [⟨"u".toList, [printedArg "ex".toList 1 "ex + dex".toList]⟩]
      = .ok "u[np.ix_(self.inself.dx[self.coordinates.index('ex')]('ex',1))]".toList := by
  decide +kernel

/-- C23 is false when a function name contains the increment of a coordinate: the name `adx` contains `dx`. -/
theorem C23_counterexample_name :
    codeFiniteDifference sliceCodingRule dxCodingRuleFD "adx(x)".toList
      [⟨"adx".toList, [printedArg "x".toList 0 "x".toList]⟩]
      = .ok "aself.dx[self.coordinates.index('x')]".toList := by
  decide +kernel

/-- C23 is false when a function name is a suffix of another one: with the functions `u` and `\nu`, the text
`u(dx + x)` also occurs inside `\nu(dx + x)`; when `u` is iterated first the backslash of the other name survives in
the code, which is then no Python at all. -/
theorem C23_counterexample_suffix :
    codeFiniteDifference sliceCodingRule dxCodingRuleFD "u(dx + x) + \\nu(dx + x)".toList
      [⟨"u".toList, [printedArg "x".toList 1 "dx + x".toList]⟩,
       ⟨"\\nu".toList, [printedArg "x".toList 1 "dx + x".toList]⟩]
      = .ok "u[np.ix_(self.index('x',1))] + \\nu[np.ix_(self.index('x',1))]".toList := by
  decide +kernel

/-! Non-vacuity: the centred difference of `u(t, x)` in `x` meets all hypotheses of `C23_render_partial`. -/

/-- `u(t, x ± dx)` as printed by sympy. -/
def uTX (k : ℤ) (tx : Str) : AppliedFun :=
  ⟨"u".toList, [printedArg "t".toList 0 "t".toList, printedArg "x".toList k tx]⟩

theorem isShift_printedArg (x : Str) (k : ℤ) (text : Str) : IsShift x k (printedArg x k text) :=
  ⟨(isShift_shiftArg x k false).atoms, (isShift_shiftArg x k false).coeff⟩

theorem coded_uTX (k : ℤ) (tx : Str) :
    Coded (uTX k tx) ["t".toList, "x".toList] ("u".toList ++ spaceText ["x".toList] [k]) := by
  have h := Coded.time (f := uTX k tx) ["x".toList] 0 [k]
    ⟨.cons (by simpa using isShift_printedArg "t".toList 0 "t".toList) (.cons (isShift_printedArg "x".toList k tx) .nil), rfl⟩
    (by
      intro x hx
      obtain rfl := List.mem_singleton.1 hx
      exact ⟨⟨'x', [], by simp, by decide⟩, by decide⟩)
  have e : (uTX k tx).name.filterMap cleanChar ++ timeText 0 = "u".toList := by
    show "u".toList.filterMap cleanChar ++ timeText 0 = "u".toList
    decide
  rwa [e] at h

example :
    codeFiniteDifference sliceCodingRule dxCodingRuleFD "-u(t, -dx + x)/(2*dx) + u(t, dx + x)/(2*dx)".toList
      [uTX 1 "dx + x".toList, uTX (-1) "-dx + x".toList]
    = .ok ("-u[np.ix_(self.index('x',-1))]/(2*self.dx[self.coordinates.index('x')]) + "
        ++ "u[np.ix_(self.index('x',1))]/(2*self.dx[self.coordinates.index('x')])").toList := by
  have key := C23_render_partial (fun _ => ["t".toList, "x".toList])
    (fun f => if f.str = (uTX 1 "dx + x".toList).str then "u".toList ++ spaceText ["x".toList] [1]
      else "u".toList ++ spaceText ["x".toList] [-1])
    dxCodingRuleFD
    [.lit "-".toList, .call (uTX (-1) "-dx + x".toList), .lit "/(2*".toList, .step "x".toList, .lit ") + ".toList,
      .call (uTX 1 "dx + x".toList), .lit "/(2*".toList, .step "x".toList, .lit ")".toList]
    [uTX 1 "dx + x".toList, uTX (-1) "-dx + x".toList]
    ?_ ?_ ?_ ?_ ?_ ?_ ?_ ?_ ?_ ?_ ?_
  · have e1 : ([.lit "-".toList, .call (uTX (-1) "-dx + x".toList), .lit "/(2*".toList, .step "x".toList,
        .lit ") + ".toList, .call (uTX 1 "dx + x".toList), .lit "/(2*".toList, .step "x".toList,
        .lit ")".toList] : List Tok).flatMap Tok.text = "-u(t, -dx + x)/(2*dx) + u(t, dx + x)/(2*dx)".toList := by
      decide +kernel
    rw [e1] at key
    rw [key]
    decide +kernel
  · refine ⟨⟨'-', by decide, by decide⟩, ⟨'/', by decide, by decide, by decide⟩, ⟨'*', by decide, by decide⟩,
      ⟨')', by decide, by decide, by decide⟩, ⟨' ', by decide, by decide⟩, ⟨'/', by decide, by decide, by decide⟩,
      ⟨'*', by decide, by decide⟩, ⟨')', by decide, by decide, by decide⟩, trivial⟩
  · intro s hs c hc hin
    simp only [List.mem_cons, Tok.lit.injEq, reduceCtorEq, List.not_mem_nil, or_false, false_or] at hs
    rcases hs with rfl | rfl | rfl | rfl | rfl
    · exact absurd (hin.subset (by simp : '(' ∈ [c, '('])) (by decide)
    · have : c = '/' := by
        obtain ⟨p, q, h⟩ := hin
        match p with
        | [] => simp at h; exact h.1
        | [a] => simp at h
        | [a, b] => simp at h
        | a :: b :: d :: p => have := congrArg List.length h; simp at this; omega
      subst this; exact absurd hc (by decide)
    · exact absurd (hin.subset (by simp : '(' ∈ [c, '('])) (by decide)
    · have : c = '/' := by
        obtain ⟨p, q, h⟩ := hin
        match p with
        | [] => simp at h; exact h.1
        | [a] => simp at h
        | [a, b] => simp at h
        | a :: b :: d :: p => have := congrArg List.length h; simp at this; omega
      subst this; exact absurd hc (by decide)
    · exact absurd (hin.subset (by simp : '(' ∈ [c, '('])) (by decide)
  · intro f hf
    simp only [List.mem_cons, Tok.call.injEq, reduceCtorEq, List.not_mem_nil, or_false, false_or] at hf
    rcases hf with rfl | rfl <;> simp
  · intro x hx
    simp only [List.mem_cons, Tok.step.injEq, reduceCtorEq, List.not_mem_nil, or_false, false_or, or_self] at hx
    subst hx
    simp
  · intro f hf
    simp only [List.mem_cons, List.not_mem_nil, or_false] at hf
    rcases hf with rfl | rfl <;> exact ⟨by decide, by decide⟩
  · intro f hf
    simp only [List.mem_cons, List.not_mem_nil, or_false] at hf
    rcases hf with rfl | rfl <;> decide
  · intro f hf
    simp only [List.mem_cons, List.not_mem_nil, or_false] at hf
    rcases hf with rfl | rfl
    · simpa using coded_uTX 1 "dx + x".toList
    · have : (uTX (-1) "-dx + x".toList).str ≠ (uTX 1 "dx + x".toList).str := by decide
      simp only [this, if_false]
      exact coded_uTX (-1) "-dx + x".toList
  · intro f _ g _ h
    simp only [h]
  · intro f hf g hg _
    simp only [List.mem_cons, List.not_mem_nil, or_false] at hf hg
    rcases hf with rfl | rfl <;> rcases hg with rfl | rfl <;> rfl
  · intro x hx
    have hx : x = "t".toList ∨ x = "x".toList := by
      simp only [List.flatMap_cons, List.flatMap_nil, List.append_nil, List.mem_append, List.mem_cons, List.not_mem_nil,
        or_false] at hx
      tauto
    rcases hx with rfl | rfl
    all_goals
      refine ⟨?_, ?_, ?_⟩
      · intro s hs
        simp only [List.mem_cons, Tok.lit.injEq, reduceCtorEq, List.not_mem_nil, or_false, false_or] at hs
        rcases hs with rfl | rfl | rfl | rfl | rfl <;> decide +kernel
      · intro f hf
        simp only [List.mem_cons, List.not_mem_nil, or_false] at hf
        rcases hf with rfl | rfl <;> decide +kernel
      · intro y hy hne
        simp only [List.mem_cons, Tok.step.injEq, reduceCtorEq, List.not_mem_nil, or_false, false_or, or_self] at hy
        subst hy
        first | exact absurd rfl hne | decide
  · have e : firstOccurrences ([uTX 1 "dx + x".toList, uTX (-1) "-dx + x".toList].flatMap
        (fun _ => ["t".toList, "x".toList])) = ["t".toList, "x".toList] := by decide
    rw [e, List.pairwise_pair]
    intro hy
    simp only [List.mem_cons, Tok.step.injEq, reduceCtorEq, List.not_mem_nil, or_false, false_or, or_self] at hy
    exact absurd hy (by decide)

end Sympkf.Text
