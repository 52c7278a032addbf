import Verif.Props.PDESystem
import Verif.Props.Util
import Verif.Lemmas.Text

/-!
# Properties of the code generator

C65 (equations that are rejected), C66 (names of derivatives), C64 (the generated trend).
-/

set_option autoImplicit false

namespace Sympkf.Props

open Text PDE Spec.PDE

/-! ## C65 -/

theorem eq_singleton_iff {α : Type} (l : List α) (a : α) (hn : l.Nodup) : l = [a] ↔ a ∈ l ∧ ∀ b ∈ l, b = a := by
  constructor
  · rintro rfl; simp
  · rintro ⟨h1, h2⟩
    match l, hn, h1, h2 with
    | [b], _, _, h2 => rw [h2 b List.mem_cons_self]
    | b :: c :: l, hn, _, h2 =>
      have hb := h2 b List.mem_cons_self
      have hc := h2 c (by simp)
      subst hb hc
      simp at hn

theorem isTrend_iff (d : Sy) : d.isTrend = true ↔ ∃ f vars, d = .deriv f (("t".toList, 1) :: vars) := by
  match d with
  | .num _ => simp [Sy.isTrend]
  | .sym _ _ => simp [Sy.isTrend]
  | .fn _ _ => simp [Sy.isTrend]
  | .func _ _ => simp [Sy.isTrend]
  | .add _ _ => simp [Sy.isTrend]
  | .mul _ _ => simp [Sy.isTrend]
  | .pow _ _ => simp [Sy.isTrend]
  | .deriv f [] => simp [Sy.isTrend]
  | .deriv f ((x, n) :: vars) =>
    simp only [Sy.isTrend, PDE.time, Bool.and_eq_true, decide_eq_true_eq, Sy.deriv.injEq, List.cons.injEq, Prod.mk.injEq]
    exact ⟨fun h => ⟨f, vars, rfl, ⟨of_decide_eq_true h.1, h.2⟩, rfl⟩, fun ⟨_, _, _, h, _⟩ => ⟨decide_eq_true h.1, h.2⟩⟩

theorem lhsIsTrend_iff (e : Equation) : e.lhsIsTrend = true ↔ (∃ f vars, e.lhs = .deriv f (("t".toList, 1) :: vars)) ∧
    ∀ f vars, Occurs (.deriv f (("t".toList, 1) :: vars)) e.lhs ∨ Occurs (.deriv f (("t".toList, 1) :: vars)) e.rhs →
      .deriv f (("t".toList, 1) :: vars) = e.lhs := by
  rw [Equation.lhsIsTrend, decide_eq_true_eq, eq_singleton_iff (List.filter Sy.isTrend e.derivatives) _ ((List.nodup_dedup _).filter _)]
  simp only [List.mem_filter, mem_eq_derivatives, isTrend_iff]
  constructor
  · rintro ⟨⟨-, h1⟩, h2⟩
    exact ⟨h1, fun f vars h => h2 _ ⟨⟨⟨f, _, rfl⟩, h⟩, f, vars, rfl⟩⟩
  · rintro ⟨⟨f, vars, h1⟩, h2⟩
    refine ⟨⟨⟨⟨f, _, h1⟩, .inl .refl⟩, f, vars, h1⟩, ?_⟩
    rintro b ⟨⟨-, h3⟩, g, w, rfl⟩
    exact h2 g w h3

theorem mapM_error_iff {α β : Type} (f : α → Except PyErr β) (e : PyErr) (hf : ∀ a e', f a = .error e' → e' = e) (l : List α) :
    (l.mapM f = .error e ↔ ∃ a ∈ l, f a = .error e) ∧ ∀ e', l.mapM f = .error e' → e' = e := by
  induction l with
  | nil => simp [pure, Except.pure]
  | cons a l ih =>
    simp only [List.mapM_cons, bind, Except.bind]
    match ha : f a with
    | .error e' =>
      obtain rfl := hf a e' ha
      simp [ha]
    | .ok b =>
      match hl : l.mapM f with
      | .error e' =>
        obtain rfl := ih.2 e' hl
        have := ih.1.1 hl
        simp only [Except.error.injEq, true_iff]
        obtain ⟨c, hc, hc'⟩ := this
        exact ⟨⟨c, List.mem_cons_of_mem _ hc, hc'⟩, fun _ h => h.symm⟩
      | .ok bs =>
        simp only [pure, Except.pure, reduceCtorEq, false_iff, List.mem_cons, not_exists, not_and, false_imp_iff, implies_true,
          and_true]
        rintro c (rfl | hc) h
        · rw [ha] at h; cases h
        · rw [hl] at ih
          exact absurd (ih.1.2 ⟨c, hc, h⟩) (by simp)

/-- C65: an equation passes when its left-hand side is the only derivative whose first variable is the time, with order one; code
generation raises `ValueError` exactly when an equation does not. -/
theorem C65_rejected (s : System) : s.pseudo = .error .valueError ↔
    ∃ e ∈ s.equations, ¬ ((∃ f vars, e.lhs = .deriv f (("t".toList, 1) :: vars)) ∧
      ∀ f vars, Occurs (.deriv f (("t".toList, 1) :: vars)) e.lhs ∨ Occurs (.deriv f (("t".toList, 1) :: vars)) e.rhs →
        .deriv f (("t".toList, 1) :: vars) = e.lhs) := by
  rw [System.pseudo, (mapM_error_iff _ .valueError _ _).1]
  · constructor
    · rintro ⟨e, he, h⟩
      refine ⟨e, he, fun h' => ?_⟩
      rw [if_pos ((lhsIsTrend_iff e).2 h')] at h
      cases h
    · rintro ⟨e, he, h⟩
      exact ⟨e, he, by rw [if_neg (fun h' => h ((lhsIsTrend_iff e).1 h'))]⟩
  · intro e e' h
    split at h
    · cases h
    · injection h with h; exact h.symm

/-- C65: no other exception is raised at this point. -/
theorem C65_only_valueError (s : System) (e : PyErr) (h : s.pseudo = .error e) : e = .valueError := by
  refine (mapM_error_iff _ .valueError ?_ _).2 e h
  intro e e' h
  split at h
  · cases h
  · injection h with h; exact h.symm

/-- C65: the trend is not generated, and the generated class does not exist, when an equation is rejected. -/
theorem C65_no_trend {R : Type} (s : System) (h : s.pseudo = .error .valueError) (A : Arith R) (O : Obj R) (time : R)
    (state : List R) : s.trendCode = .error .valueError ∧ ∀ m, s.trend A O time state ≠ .ok m := by
  have h1 : s.trendCode = .error .valueError := by simp [System.trendCode, h, bind, Except.bind]
  refine ⟨h1, fun m => ?_⟩
  simp [System.trend, h1, bind, Except.bind]

/-- C65, for systems in which no derivative mixes the time with another variable: `ValueError` exactly when the left-hand side of
an equation is not its only first-order time derivative.  What is missing: mixed derivatives, `C65_counterexample_mixed`. -/
theorem C65_rejected_partial (s : System) (hu : ∀ e ∈ s.equations, Unmixed e) :
    s.pseudo = .error .valueError ↔ ∃ e ∈ s.equations, ¬ OnlyTimeDerivative e := by
  rw [C65_rejected]
  refine exists_congr (fun e => and_congr_right (fun he => not_congr ?_))
  have hu := hu e he
  constructor
  · rintro ⟨⟨f, vars, h1⟩, h2⟩
    have hv : (("t".toList, 1) :: vars : List (Str × ℕ)) = [("t".toList, 1)] :=
      hu f _ 1 (.inl (h1 ▸ .refl)) List.mem_cons_self
    refine ⟨⟨f, by rw [h1, hv]⟩, ?_⟩
    rintro d ⟨g, rfl⟩ hd
    exact h2 g [] hd
  · rintro ⟨⟨f, h1⟩, h2⟩
    refine ⟨⟨f, [], h1⟩, fun g vars hg => ?_⟩
    have hv : (("t".toList, 1) :: vars : List (Str × ℕ)) = [("t".toList, 1)] := hu g _ 1 hg List.mem_cons_self
    rw [hv] at hg ⊢
    exact h2 _ ⟨g, rfl⟩ hg

/-- The property C65 is false for mixed derivatives: `Derivative(u, t, x) = u` is accepted, and the generated trend of `u` is
`u`. -/
theorem C65_counterexample_mixed : ∃ (e : Equation) (s : System) (u : Sy), System.build id [e] = .ok s ∧
    ¬ OnlyTimeDerivative e ∧ s.trendCode = .ok [("du".toList, .sym .functionSymbol "u".toList)] ∧ u ∈ s.prognostic := by
  refine ⟨⟨.deriv (.fn "u".toList ["t".toList, "x".toList]) [("t".toList, 1), ("x".toList, 1)],
    .fn "u".toList ["t".toList, "x".toList]⟩, _, .fn "u".toList ["t".toList, "x".toList], rfl, ?_, rfl, ?_⟩
  · rintro ⟨⟨f, h⟩, -⟩
    simp at h
  · decide +kernel

/-- `u_t = v_t` and `0 = u` are rejected. -/
example : ∃ s, System.build id [⟨.deriv (.fn "u".toList ["t".toList]) [("t".toList, 1)],
      .deriv (.fn "v".toList ["t".toList]) [("t".toList, 1)]⟩] = .ok s ∧ s.pseudo = .error .valueError := ⟨_, rfl, rfl⟩

/-- A second order equation is rejected. -/
example : ∃ s, System.build id [⟨.deriv (.fn "u".toList ["t".toList]) [("t".toList, 2)], .fn "u".toList ["t".toList]⟩] = .ok s ∧
    s.pseudo = .error .valueError := ⟨_, rfl, rfl⟩

/-! ## C66 -/

section Names

attribute [local irreducible] cleanLatexName

theorem split_last {α : Type} {c : α} {a b a' b' : List α} (h : a ++ c :: b = a' ++ c :: b') (hb : c ∉ b) (hb' : c ∉ b') :
    a = a' ∧ b = b' := by
  rcases List.append_eq_append_iff.1 h with ⟨d, h1, h2⟩ | ⟨d, h1, h2⟩
  · match d with
    | [] =>
      simp only [List.append_nil, List.nil_append, List.cons.injEq, true_and] at h1 h2
      exact ⟨h1.symm, h2⟩
    | _ :: d =>
      simp only [List.cons_append, List.cons.injEq] at h2
      exact absurd (by rw [h2.2]; simp) hb
  · match d with
    | [] =>
      simp only [List.append_nil, List.nil_append, List.cons.injEq, true_and] at h1 h2
      exact ⟨h1, h2.symm⟩
    | _ :: d =>
      simp only [List.cons_append, List.cons.injEq] at h2
      exact absurd (by rw [h2.2]; simp) hb'

theorem natStr_eq (n : ℕ) : natStr n = Spec.decimal n := by
  rw [← intStr_eq]; simp [intStr]

theorem natStr_injective {m n : ℕ} (h : natStr m = natStr n) : m = n := by
  rw [natStr_eq, natStr_eq] at h
  exact_mod_cast decimal_injective h

theorem underscore_natStr (n : ℕ) : '_' ∉ 'o' :: natStr n := by
  rw [natStr_eq]
  intro h
  rcases List.mem_cons.1 h with h | h
  · exact absurd h (by decide)
  · rcases mem_decimal h with h | h
    · exact absurd h (by decide)
    · exact absurd h (by decide)

/-- One group `_x_o2`. -/
def group (p : Str × ℕ) : Str := '_' :: (p.1 ++ '_' :: 'o' :: natStr p.2)

theorem derivKey_eq (f : Str) (vars : List (Str × ℕ)) (hv : vars ≠ []) (hn : (vars.map Prod.fst).Nodup) :
    derivKey f vars = 'D' :: f ++ vars.flatMap group := by
  have key : ∀ vars : List (Str × ℕ), vars ≠ [] →
      '_' :: joinUnderscore (vars.map (fun p => p.1 ++ "_o".toList ++ natStr p.2)) = vars.flatMap group := by
    intro vars
    induction vars with
    | nil => simp
    | cons p vars ih =>
      intro _
      match vars with
      | [] => simp [joinUnderscore, group]
      | q :: vars =>
        have := ih (by simp)
        simp only [List.map_cons] at this
        rw [List.flatMap_cons, ← this]
        simp only [List.map_cons, joinUnderscore, group]
        simp
  rw [derivKey, Util.partialOrders_eq vars hn]
  rw [← key vars hv, List.cons_append]

theorem group_cancel {w w' : Str} {p p' : Str × ℕ} (h : w ++ group p = w' ++ group p') (hp : '_' ∉ p.1) (hp' : '_' ∉ p'.1) :
    w = w' ∧ p = p' := by
  unfold group at h
  have h1 : (w ++ '_' :: p.1) ++ '_' :: ('o' :: natStr p.2) = (w' ++ '_' :: p'.1) ++ '_' :: ('o' :: natStr p'.2) := by
    simpa using h
  obtain ⟨h2, h3⟩ := split_last h1 (underscore_natStr _) (underscore_natStr _)
  obtain ⟨h4, h5⟩ := split_last h2 hp hp'
  injection h3 with _ h3
  exact ⟨h4, Prod.ext h5 (natStr_injective h3)⟩

theorem endsInGroup_append (w : Str) (p : Str × ℕ) (hp : '_' ∉ p.1) : EndsInGroup (w ++ group p) :=
  ⟨w, p.1, p.2, hp, by simp [group, natStr_eq]⟩

theorem groups_cancel (vars : List (Str × ℕ)) : ∀ (w w' : Str) (vars' : List (Str × ℕ)),
    w ++ vars.flatMap group = w' ++ vars'.flatMap group → (∀ p ∈ vars, '_' ∉ p.1) → (∀ p ∈ vars', '_' ∉ p.1) →
    ¬ EndsInGroup w → ¬ EndsInGroup w' → w = w' ∧ vars = vars' := by
  induction vars using List.reverseRecOn with
  | nil =>
    intro w w' vars' h _ hp' hw hw'
    rcases List.eq_nil_or_concat vars' with rfl | ⟨vars', p, rfl⟩
    · simpa using h
    · simp only [List.flatMap_nil, List.append_nil, List.concat_eq_append, List.flatMap_append, List.flatMap_cons,
        ← List.append_assoc] at h
      exact absurd (h ▸ endsInGroup_append _ p (hp' p (by simp))) hw
  | append_singleton vars p ih =>
    intro w w' vars' h hp hp' hw hw'
    rcases List.eq_nil_or_concat vars' with rfl | ⟨vars', p', rfl⟩
    · simp only [List.flatMap_nil, List.append_nil, List.flatMap_append, List.flatMap_cons, ← List.append_assoc] at h
      exact absurd (h ▸ endsInGroup_append _ p (hp p (by simp))) hw'
    · simp only [List.flatMap_nil, List.append_nil, List.concat_eq_append, List.flatMap_append, List.flatMap_cons,
        ← List.append_assoc] at h
      obtain ⟨h1, rfl⟩ := group_cancel h (hp p (by simp)) (hp' p' (by simp))
      obtain ⟨h2, rfl⟩ := ih w w' vars' h1 (fun q hq => hp q (by simp [hq])) (fun q hq => hp' q (by simp [hq])) hw hw'
      exact ⟨h2, by simp⟩

theorem endsInGroup_D (f : Str) (h : EndsInGroup ('D' :: f)) : EndsInGroup f := by
  obtain ⟨w, c, n, hc, h⟩ := h
  match w with
  | [] => simp at h
  | d :: w =>
    simp only [List.cons_append, List.cons.injEq] at h
    exact ⟨w, c, n, hc, by simpa using h.2⟩

theorem metaDerivative_keyvar (u : Str) (args : List Str) (vars : List (Str × ℕ)) :
    (metaDerivative (.deriv (.fn u args) vars)).keyvar = derivKey (cleanLatexName u) vars := rfl

/-- C66: the names of two derivatives are different as soon as the derivatives are (different code names of the functions or
different partial orders), for coordinates without underscore and functions whose code name does not end like a derivative
(`.._x_o1`).  What is missing: other names, see `C66_counterexample`. -/
theorem C66_distinct_partial (u u' : Str) (args args' : List Str) (vars vars' : List (Str × ℕ))
    (hv : vars ≠ []) (hv' : vars' ≠ []) (hn : (vars.map Prod.fst).Nodup) (hn' : (vars'.map Prod.fst).Nodup)
    (hx : ∀ p ∈ vars, '_' ∉ p.1) (hx' : ∀ p ∈ vars', '_' ∉ p.1)
    (hu : ¬ EndsInGroup (cleanLatexName u)) (hu' : ¬ EndsInGroup (cleanLatexName u'))
    (hne : cleanLatexName u ≠ cleanLatexName u' ∨ vars ≠ vars') :
    (metaDerivative (.deriv (.fn u args) vars)).keyvar ≠ (metaDerivative (.deriv (.fn u' args') vars')).keyvar := by
  rw [metaDerivative_keyvar, metaDerivative_keyvar, derivKey_eq _ _ hv hn, derivKey_eq _ _ hv' hn']
  intro h
  have hd := fun h => hu (endsInGroup_D (cleanLatexName u) h)
  have hd' := fun h => hu' (endsInGroup_D (cleanLatexName u') h)
  obtain ⟨h1, h2⟩ := groups_cancel vars _ _ vars' h hx hx' hd hd'
  injection h1 with _ h1
  rcases hne with hne | hne
  · exact hne h1
  · exact hne h2

/-- C66: the name of a derivative is not the name of a function or constant, when these do not end like a derivative. -/
theorem C66_other_names_partial (u : Str) (args : List Str) (vars : List (Str × ℕ)) (hv : vars ≠ [])
    (hn : (vars.map Prod.fst).Nodup) (hx : ∀ p ∈ vars, '_' ∉ p.1) (name : Str) (hname : ¬ EndsInGroup name) :
    (metaDerivative (.deriv (.fn u args) vars)).keyvar ≠ name := by
  rw [metaDerivative_keyvar, derivKey_eq _ _ hv hn]
  intro h
  rcases List.eq_nil_or_concat vars with rfl | ⟨vars, p, rfl⟩
  · exact hv rfl
  · simp only [List.concat_eq_append, List.flatMap_append, List.flatMap_cons, List.flatMap_nil, List.append_nil,
      ← List.append_assoc] at h
    exact hname (h ▸ endsInGroup_append _ p (hx p (by simp)))

theorem endsInGroup_tail (s : Str) (h : EndsInGroup s) : ∃ (w : Str) (n : ℕ), s = w ++ "_o".toList ++ Spec.decimal n := by
  obtain ⟨w, c, n, -, rfl⟩ := h
  exact ⟨w ++ "_".toList ++ c, n, by simp⟩

/-- A text whose last underscore is not followed by `o` does not end like a derivative. -/
theorem not_endsInGroup (w : Str) (c : Char) (s : Str) (hc : c ≠ 'o') (hs : '_' ∉ c :: s) :
    ¬ EndsInGroup (w ++ '_' :: c :: s) := by
  intro h
  obtain ⟨w', n, h⟩ := endsInGroup_tail _ h
  have h : w ++ '_' :: c :: s = w' ++ '_' :: ('o' :: natStr n) := by
    rw [h, natStr_eq]; simp
  have := (split_last h hs (underscore_natStr n)).2
  injection this with h1 _
  exact hc h1

end Names

/-- The names of the variance and of the metric of the PKF dynamics. -/
example : (metaDerivative (.deriv (.fn "{V_{u}}".toList ["t".toList, "x".toList]) [("x".toList, 1)])).keyvar = "DV_u_x_o1".toList ∧
    (metaDerivative (.deriv (.fn "{g_{u,xx}}".toList ["t".toList, "x".toList]) [("x".toList, 2)])).keyvar =
      "Dg_u_xx_x_o2".toList ∧
    ¬ EndsInGroup (cleanLatexName "{V_{u}}".toList) ∧ ¬ EndsInGroup (cleanLatexName "{g_{u,xx}}".toList) := by
  refine ⟨by decide +kernel, by decide +kernel, ?_, ?_⟩
  · exact not_endsInGroup ['V'] 'u' [] (by decide) (by decide)
  · exact not_endsInGroup ['g', '_', 'u'] 'x' ['x'] (by decide) (by decide)

/-- The property C66 is false: `Derivative(u, x, y)` and the derivative with respect to `y` of a function named `u_x_o1` have the
same name; so have `Derivative(u, x)` and a function named `Du_x_o1`, and the derivatives of the functions `V_{u}` and `V_u`. -/
theorem C66_counterexample :
    (metaDerivative (.deriv (.fn "u".toList ["t".toList, "x".toList, "y".toList]) [("x".toList, 1), ("y".toList, 1)])).keyvar =
      (metaDerivative (.deriv (.fn "u_x_o1".toList ["t".toList, "x".toList, "y".toList]) [("y".toList, 1)])).keyvar ∧
    (metaDerivative (.deriv (.fn "u".toList ["t".toList, "x".toList]) [("x".toList, 1)])).keyvar =
      (Sy.fn "Du_x_o1".toList ["t".toList, "x".toList]).keyvar ∧
    (metaDerivative (.deriv (.fn "V_{u}".toList ["t".toList, "x".toList]) [("x".toList, 1)])).keyvar =
      (metaDerivative (.deriv (.fn "V_u".toList ["t".toList, "x".toList]) [("x".toList, 1)])).keyvar := by
  refine ⟨by decide +kernel, by decide +kernel, by decide +kernel⟩

end Sympkf.Props
