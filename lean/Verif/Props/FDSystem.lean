import Mathlib.Analysis.SpecialFunctions.ExpDeriv
import Mathlib.Analysis.SpecialFunctions.Trigonometric.Deriv
import Verif.Lemmas.FDSystem

/-!
# C79: finite differences of systems of equations
-/

set_option autoImplicit false

namespace Sympkf.FinDiff

open Text Spec.FDSystem

variable (decideEq : FExpr → FExpr → Option Bool) (atomsOf : FExpr → List DAtom)

/-- What is needed of an equation: its right-hand side is evaluated, the enumeration is that of its derivatives, and SymPy does not
decide the new equation. -/
def Convertible (e : FExpr × FExpr) : Prop :=
  Evaluated e.2 ∧ CanonicalVars e.2 ∧ (∀ d, d ∈ atomsOf e.2 ↔ (FExpr.fn d.u d.args, d.vars) ∈ derivs e.2)
    ∧ decideEq e.1 (finiteDifference (atomsOf e.2) e.2) = none

theorem finiteDifferenceSystem_eq (sys : List (FExpr × FExpr)) (h : ∀ e ∈ sys, Convertible decideEq atomsOf e) :
    finiteDifferenceSystem decideEq atomsOf (sys.map (fun e => .eq e.1 e.2))
      = .ok (sys.map (fun e => .eq e.1 (finiteDifference (atomsOf e.2) e.2))) := by
  induction sys with
  | nil => rfl
  | cons e sys ih =>
    simp only [List.map_cons, finiteDifferenceSystem]
    rw [ih (fun e he => h e (List.mem_cons_of_mem _ he))]
    have := (h e (by simp)).2.2.2
    simp only [bind, Except.bind, pure, Except.pure, mkFRel, this]

/-- C79: the conversion gives one equation for each equation, in their order, with the same left-hand side and a right-hand side
without derivatives. -/
theorem C79_equations (sys : List (FExpr × FExpr)) (h : ∀ e ∈ sys, Convertible decideEq atomsOf e) :
    ∃ out : List (FExpr × FExpr),
      finiteDifferenceSystem decideEq atomsOf (sys.map (fun e => .eq e.1 e.2)) = .ok (out.map (fun e => .eq e.1 e.2))
      ∧ out.map Prod.fst = sys.map Prod.fst ∧ ∀ e ∈ out, derivs e.2 = [] := by
  refine ⟨sys.map (fun e => (e.1, finiteDifference (atomsOf e.2) e.2)), ?_, ?_, ?_⟩
  · rw [finiteDifferenceSystem_eq decideEq atomsOf sys h, List.map_map]; rfl
  · rw [List.map_map]; rfl
  · intro e he
    rw [List.mem_map] at he
    obtain ⟨e, he, rfl⟩ := he
    obtain ⟨h1, h2, h3, -⟩ := h e he
    exact C32_no_derivative e.2 h1 h2 _ h3

/-- C79: for smooth functions every right-hand side of the converted system differs from the one of the system by a constant times
the squares of the grid steps, uniformly on every cube. -/
theorem C79_second_order (S : Finset Str) (env : Env ℝ) (sys : List (FExpr × FExpr)) (h : ∀ e ∈ sys, Convertible decideEq atomsOf e)
    (hadm : ∀ e ∈ sys, Admissible S env e.2) (R : ℝ) :
    ∃ out : List (FExpr × FExpr),
      finiteDifferenceSystem decideEq atomsOf (sys.map (fun e => .eq e.1 e.2)) = .ok (out.map (fun e => .eq e.1 e.2))
      ∧ List.Forall₂ (fun e e' => ∃ C δ : ℝ, 0 < δ ∧ ∀ step : Str → ℝ, (∀ x ∈ S, step x ≠ 0 ∧ |step x| ≤ δ) →
          ∀ p : Str → ℝ, (∀ x ∈ S, |p x| ≤ R) →
            |value (stepEnv S env step) step p e'.2 - exact env e.2 p| ≤ C * ∑ x ∈ S, step x ^ 2) sys out := by
  refine ⟨sys.map (fun e => (e.1, finiteDifference (atomsOf e.2) e.2)), ?_, ?_⟩
  · rw [finiteDifferenceSystem_eq decideEq atomsOf sys h, List.map_map]; rfl
  · rw [List.forall₂_map_right_iff, List.forall₂_same]
    intro e he
    obtain ⟨h1, h2, h3, -⟩ := h e he
    obtain ⟨C, δ, -, hδ, hn⟩ := near_value env R e.2 (hadm e he)
    refine ⟨C, δ, hδ, fun step hstep p hp => ?_⟩
    dsimp only
    rw [C32_value e.2 h1 h2 _ h3 (stepEnv S env step) step p
      (fun d hd v hv => (hstep v.1 (admissible_vars e.2 (hadm e he) d hd v hv)).1)
      (fun d hd v hv => by
        show (if v.1 ∈ S then step v.1 else _) = _
        rw [if_pos (admissible_vars e.2 (hadm e he) d hd v hv)])]
    exact hn step hstep p hp

/-- C79: an equation that SymPy has already decided stops the conversion. -/
theorem C79_decided (sys : List FRel) (b : Bool) (h : FRel.bool b ∈ sys) :
    finiteDifferenceSystem decideEq atomsOf sys = .error .valueError := by
  induction sys with
  | nil => simp at h
  | cons e sys ih =>
    cases e with
    | bool _ => rfl
    | eq l r =>
      have hm : FRel.bool b ∈ sys := by simpa using h
      simp only [finiteDifferenceSystem, ih hm, bind, Except.bind]

/-! ### A case -/

/-- `u(t, x)` -/
def caseU : FExpr := .fn "u".toList [("t".toList, 0), ("x".toList, 0)]

/-- `u_t = u u_x + ν u_xx + exp(u) / (ν + 2)` -/
def caseRhs : FExpr :=
  .add demoExpr (.mul (.func "exp".toList caseU) (.pow (.add (.sym "nu".toList) (.num 2)) (-1)))

/-- `u = sin(t + x)`, `ν = 1`. -/
noncomputable def caseEnv : Env ℝ where
  sym _ := 1
  fn _ l := Real.sin (l.getD 0 0 + l.getD 1 0)
  func _ := Real.exp

/-- The derivatives of the right-hand side. -/
def caseAtoms : FExpr → List DAtom := fun _ =>
  [⟨"u".toList, [("t".toList, 0), ("x".toList, 0)], [("x".toList, 1)]⟩,
    ⟨"u".toList, [("t".toList, 0), ("x".toList, 0)], [("x".toList, 2)]⟩]

theorem case_convertible : Convertible (fun _ _ => none) caseAtoms (.deriv caseU [("t".toList, 1)], caseRhs) := by
  have hd : derivs caseRhs = [(caseU, [("x".toList, 1)]), (caseU, [("x".toList, 2)])] := by decide +kernel
  refine ⟨?_, ?_, ?_, rfl⟩
  · intro p hp
    rw [hd] at hp
    simp only [List.mem_cons, List.not_mem_nil, or_false] at hp
    rcases hp with rfl | rfl <;> exact ⟨_, _, rfl⟩
  · intro p hp q hq _ hcount
    rw [hd] at hp hq
    simp only [List.mem_cons, List.not_mem_nil, or_false] at hp hq
    have := hcount "x".toList
    rcases hp with rfl | rfl <;> rcases hq with rfl | rfl <;> first | rfl | (exfalso; revert this; decide)
  · rintro ⟨u, args, vars⟩
    rw [hd]
    simp only [caseAtoms, caseU, List.mem_cons, List.not_mem_nil, or_false, DAtom.mk.injEq, Prod.mk.injEq, FExpr.fn.injEq]
    tauto

theorem case_admissible : Admissible {"t".toList, "x".toList} caseEnv caseRhs := by
  have hu : Admissible {"t".toList, "x".toList} caseEnv caseU := by
    refine ⟨by decide, fun q => Real.sin (q ⟨"t".toList, by decide⟩ + q ⟨"x".toList, by decide⟩), ?_, fun p => rfl⟩
    fun_prop
  have hd : ∀ n, Admissible {"t".toList, "x".toList} caseEnv (.deriv caseU [("x".toList, n)]) := fun n =>
    ⟨⟨_, _, rfl⟩, hu, by intro v hv; simp only [List.mem_cons, List.not_mem_nil, or_false] at hv; subst hv; simp⟩
  have hnu : Admissible {"t".toList, "x".toList} caseEnv (.sym "nu".toList) := by
    intro x _ h; exact absurd (List.cons.inj h).1 (by decide)
  refine ⟨⟨⟨hu, hd 1⟩, ⟨hnu, hd 2⟩⟩, ⟨hu, fun p => Real.contDiff_exp.contDiffAt⟩, ⟨hnu, trivial⟩, .inr (fun p => ?_)⟩
  show (1 : ℝ) + ((2 : ℚ) : ℝ) ≠ 0
  norm_num

/-- Non-vacuity: the hypotheses of C79 hold for this equation. -/
example : ∃ out : List (FExpr × FExpr), finiteDifferenceSystem (fun _ _ => none) caseAtoms
      ([(FExpr.deriv caseU [("t".toList, 1)], caseRhs)].map (fun e => .eq e.1 e.2)) = .ok (out.map (fun e => .eq e.1 e.2))
    ∧ List.Forall₂ (fun e e' => ∃ C δ : ℝ, 0 < δ ∧ ∀ step : Str → ℝ,
        (∀ x ∈ ({"t".toList, "x".toList} : Finset Str), step x ≠ 0 ∧ |step x| ≤ δ) →
          ∀ p : Str → ℝ, (∀ x ∈ ({"t".toList, "x".toList} : Finset Str), |p x| ≤ 5) →
            |value (stepEnv {"t".toList, "x".toList} caseEnv step) step p e'.2 - exact caseEnv e.2 p|
              ≤ C * ∑ x ∈ ({"t".toList, "x".toList} : Finset Str), step x ^ 2)
        [(FExpr.deriv caseU [("t".toList, 1)], caseRhs)] out :=
  C79_second_order (fun _ _ => none) caseAtoms _ caseEnv _ (by simpa using case_convertible) (by simpa using case_admissible) 5

/-! ### Names of constants -/

/-- A constant named as the grid step of a coordinate is captured: in `dx * Derivative(u, x)` the constant `dx` is taken for the
step, whatever its value; for `u = x` the converted expression is the step and not the constant. -/
theorem C79_counterexample_step_name (env : Env ℝ) (hu : ∀ l, env.fn "u".toList l = l.getD 0 0) (step p : Str → ℝ)
    (hstep : step "x".toList ≠ 0) :
    let e : FExpr := .mul (.sym "dx".toList) (.deriv (.fn "u".toList [("x".toList, 0)]) [("x".toList, 1)])
    exact env e p = env.sym "dx".toList
      ∧ value (stepEnv {"x".toList} env step) step p
          (finiteDifference [⟨"u".toList, [("x".toList, 0)], [("x".toList, 1)]⟩] e) = step "x".toList := by
  intro e
  have hfun : exact env (.fn "u".toList [("x".toList, 0)]) = fun p => p "x".toList := by
    funext p; simp only [exact, hu]; rfl
  constructor
  · show env.sym "dx".toList * pdMixed [("x".toList, 1)] (exact env (.fn "u".toList [("x".toList, 0)])) p = _
    rw [hfun]
    show env.sym "dx".toList * pd "x".toList (fun p => p "x".toList) p = _
    unfold pd
    simp
  · have hd : derivs e = [(FExpr.fn "u".toList [("x".toList, 0)], [("x".toList, 1)])] := by decide +kernel
    rw [C32_value e]
    · show (stepEnv {"x".toList} env step).sym "dx".toList * fdMixed step [("x".toList, 1)]
        (funOf (stepEnv {"x".toList} env step) step "u".toList [("x".toList, 0)]) p = _
      rw [funOf_step env step _ _ (by simp), hfun]
      show (if "x".toList ∈ ({"x".toList} : Finset Str) then step "x".toList else env.sym "dx".toList)
        * fdAlong step "x".toList 1 (fun p => p "x".toList) p = _
      rw [if_pos (by simp), fdAlong_eq_sum step _ 1 hstep]
      have w0 : unitWeight ℝ 1 0 = -1/2 := by rw [← unitWeight_cast]; have : unitWeight ℚ 1 0 = -1/2 := by decide +kernel
                                              rw [this]; norm_num
      have w1 : unitWeight ℝ 1 1 = 1/2 := by rw [← unitWeight_cast]; have : unitWeight ℚ 1 1 = 1/2 := by decide +kernel
                                             rw [this]; norm_num
      have o0 : off 1 0 = -1 := by decide
      have o1 : off 1 1 = 1 := by decide
      rw [Finset.sum_range_succ, Finset.sum_range_one, w0, w1, o0, o1]
      simp only [Pi.add_apply, Pi.single_eq_same, smul_eq_mul, pow_one]
      generalize step "x".toList = s at hstep
      push_cast
      field_simp
      ring
    · intro q hq
      rw [hd] at hq
      simp only [List.mem_cons, List.not_mem_nil, or_false] at hq
      subst hq; exact ⟨_, _, rfl⟩
    · intro q hq r hr _ _
      rw [hd] at hq hr
      simp only [List.mem_cons, List.not_mem_nil, or_false] at hq hr
      rw [hq, hr]
    · rintro ⟨u, args, vars⟩
      rw [hd]
      simp only [List.mem_cons, List.not_mem_nil, or_false, DAtom.mk.injEq, Prod.mk.injEq, FExpr.fn.injEq]
      tauto
    · intro d hdm v hv
      rw [hd] at hdm
      simp only [List.mem_cons, List.not_mem_nil, or_false] at hdm
      subst hdm
      simp only [List.mem_cons, List.not_mem_nil, or_false] at hv
      subst hv; exact hstep
    · intro d hdm v hv
      rw [hd] at hdm
      simp only [List.mem_cons, List.not_mem_nil, or_false] at hdm
      subst hdm
      simp only [List.mem_cons, List.not_mem_nil, or_false] at hv
      subst hv
      show (if "x".toList ∈ ({"x".toList} : Finset Str) then step "x".toList else env.sym "dx".toList) = _
      rw [if_pos (by simp)]

end Sympkf.FinDiff
