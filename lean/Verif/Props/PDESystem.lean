import Verif.Spec.PDE

/-!
# Properties of `PDESystem`

C62 (partition of the functions), C63 (constants and coordinates).
-/

set_option autoImplicit false

namespace Sympkf.Props

open Text PDE Spec.PDE

/-! ## The atoms of an expression -/

theorem mem_functions_iff (f e : Sy) : f ∈ e.functions ↔ IsFunction f ∧ Occurs f e := by
  induction e with
  | num q =>
    simp only [Sy.functions, List.not_mem_nil, false_iff, not_and]
    rintro hf (_ | _); exact hf
  | sym k s =>
    simp only [Sy.functions, List.not_mem_nil, false_iff, not_and]
    rintro hf (_ | _); exact hf
  | fn u args =>
    simp only [Sy.functions, List.mem_singleton]
    constructor
    · rintro rfl; exact ⟨trivial, .refl⟩
    · rintro ⟨hf, h⟩
      cases h with
      | refl => rfl
      | arg _ _ x hx hfx => subst hfx; exact absurd hf (by simp [IsFunction])
  | func g a iha =>
    simp only [Sy.functions, List.mem_cons, iha]
    constructor
    · rintro (rfl | ⟨hf, h⟩)
      · exact ⟨trivial, .refl⟩
      · exact ⟨hf, .func g h⟩
    · rintro ⟨hf, h⟩
      cases h with
      | refl => exact .inl rfl
      | func _ h => exact .inr ⟨hf, h⟩
  | add a b iha ihb =>
    simp only [Sy.functions, List.mem_append, iha, ihb]
    constructor
    · rintro (⟨hf, h⟩ | ⟨hf, h⟩)
      · exact ⟨hf, .addL b h⟩
      · exact ⟨hf, .addR a h⟩
    · rintro ⟨hf, h⟩
      cases h with
      | refl => exact absurd hf (by simp [IsFunction])
      | addL _ h => exact .inl ⟨hf, h⟩
      | addR _ h => exact .inr ⟨hf, h⟩
  | mul a b iha ihb =>
    simp only [Sy.functions, List.mem_append, iha, ihb]
    constructor
    · rintro (⟨hf, h⟩ | ⟨hf, h⟩)
      · exact ⟨hf, .mulL b h⟩
      · exact ⟨hf, .mulR a h⟩
    · rintro ⟨hf, h⟩
      cases h with
      | refl => exact absurd hf (by simp [IsFunction])
      | mulL _ h => exact .inl ⟨hf, h⟩
      | mulR _ h => exact .inr ⟨hf, h⟩
  | pow a b iha ihb =>
    simp only [Sy.functions, List.mem_append, iha, ihb]
    constructor
    · rintro (⟨hf, h⟩ | ⟨hf, h⟩)
      · exact ⟨hf, .powL b h⟩
      · exact ⟨hf, .powR a h⟩
    · rintro ⟨hf, h⟩
      cases h with
      | refl => exact absurd hf (by simp [IsFunction])
      | powL _ h => exact .inl ⟨hf, h⟩
      | powR _ h => exact .inr ⟨hf, h⟩
  | deriv a vars iha =>
    simp only [Sy.functions, iha]
    constructor
    · rintro ⟨hf, h⟩; exact ⟨hf, .deriv vars h⟩
    · rintro ⟨hf, h⟩
      cases h with
      | refl => exact absurd hf (by simp [IsFunction])
      | deriv _ h => exact ⟨hf, h⟩
      | var _ _ x n hx hfx => subst hfx; exact absurd hf (by simp [IsFunction])

theorem mem_derivatives_iff (d e : Sy) : d ∈ e.derivatives ↔ (∃ a vars, d = .deriv a vars) ∧ Occurs d e := by
  induction e with
  | num q =>
    simp only [Sy.derivatives, List.not_mem_nil, false_iff, not_and]
    rintro ⟨a, v, rfl⟩ h; cases h
  | sym k s =>
    simp only [Sy.derivatives, List.not_mem_nil, false_iff, not_and]
    rintro ⟨a, v, rfl⟩ h; cases h
  | fn u args =>
    simp only [Sy.derivatives, List.not_mem_nil, false_iff, not_and]
    rintro ⟨a, v, rfl⟩ h; cases h with | arg _ _ x hx hfx => exact absurd hfx (by simp)
  | func g a iha =>
    simp only [Sy.derivatives, iha]
    constructor
    · rintro ⟨hf, h⟩; exact ⟨hf, .func g h⟩
    · rintro ⟨⟨b, v, rfl⟩, h⟩
      cases h with
      | func _ h => exact ⟨⟨b, v, rfl⟩, h⟩
  | add a b iha ihb =>
    simp only [Sy.derivatives, List.mem_append, iha, ihb]
    constructor
    · rintro (⟨hf, h⟩ | ⟨hf, h⟩)
      · exact ⟨hf, .addL b h⟩
      · exact ⟨hf, .addR a h⟩
    · rintro ⟨⟨c, v, rfl⟩, h⟩
      cases h with
      | addL _ h => exact .inl ⟨⟨c, v, rfl⟩, h⟩
      | addR _ h => exact .inr ⟨⟨c, v, rfl⟩, h⟩
  | mul a b iha ihb =>
    simp only [Sy.derivatives, List.mem_append, iha, ihb]
    constructor
    · rintro (⟨hf, h⟩ | ⟨hf, h⟩)
      · exact ⟨hf, .mulL b h⟩
      · exact ⟨hf, .mulR a h⟩
    · rintro ⟨⟨c, v, rfl⟩, h⟩
      cases h with
      | mulL _ h => exact .inl ⟨⟨c, v, rfl⟩, h⟩
      | mulR _ h => exact .inr ⟨⟨c, v, rfl⟩, h⟩
  | pow a b iha ihb =>
    simp only [Sy.derivatives, List.mem_append, iha, ihb]
    constructor
    · rintro (⟨hf, h⟩ | ⟨hf, h⟩)
      · exact ⟨hf, .powL b h⟩
      · exact ⟨hf, .powR a h⟩
    · rintro ⟨⟨c, v, rfl⟩, h⟩
      cases h with
      | powL _ h => exact .inl ⟨⟨c, v, rfl⟩, h⟩
      | powR _ h => exact .inr ⟨⟨c, v, rfl⟩, h⟩
  | deriv a vars iha =>
    simp only [Sy.derivatives, List.mem_cons, iha]
    constructor
    · rintro (rfl | ⟨hf, h⟩)
      · exact ⟨⟨a, vars, rfl⟩, .refl⟩
      · exact ⟨hf, .deriv vars h⟩
    · rintro ⟨⟨c, v, rfl⟩, h⟩
      cases h with
      | refl => exact .inl rfl
      | deriv _ h => exact .inr ⟨⟨c, v, rfl⟩, h⟩
      | var _ _ x n hx hfx => exact absurd hfx (by simp)

theorem mem_symbols_iff (k : Kind) (s : Str) (e : Sy) : (k, s) ∈ e.symbols ↔ Occurs (.sym k s) e := by
  induction e with
  | num q => simp only [Sy.symbols, List.not_mem_nil, false_iff]; intro h; cases h
  | sym k' s' =>
    simp only [Sy.symbols, List.mem_singleton]
    constructor
    · rintro ⟨⟩; exact .refl
    · intro h; cases h; rfl
  | fn u args =>
    simp only [Sy.symbols, List.mem_map, Prod.mk.injEq]
    constructor
    · rintro ⟨x, hx, rfl, rfl⟩; exact .arg u args x hx rfl
    · intro h
      cases h with
      | arg _ _ x hx h => injection h with h1 h2; exact ⟨x, hx, h1.symm, h2.symm⟩
  | func g a iha =>
    simp only [Sy.symbols, iha]
    exact ⟨fun h => .func g h, fun h => by cases h; assumption⟩
  | add a b iha ihb =>
    simp only [Sy.symbols, List.mem_append, iha, ihb]
    constructor
    · rintro (h | h)
      · exact .addL b h
      · exact .addR a h
    · intro h
      cases h with
      | addL _ h => exact .inl h
      | addR _ h => exact .inr h
  | mul a b iha ihb =>
    simp only [Sy.symbols, List.mem_append, iha, ihb]
    constructor
    · rintro (h | h)
      · exact .mulL b h
      · exact .mulR a h
    · intro h
      cases h with
      | mulL _ h => exact .inl h
      | mulR _ h => exact .inr h
  | pow a b iha ihb =>
    simp only [Sy.symbols, List.mem_append, iha, ihb]
    constructor
    · rintro (h | h)
      · exact .powL b h
      · exact .powR a h
    · intro h
      cases h with
      | powL _ h => exact .inl h
      | powR _ h => exact .inr h
  | deriv a vars iha =>
    simp only [Sy.symbols, List.mem_append, iha, List.mem_map, Prod.mk.injEq]
    constructor
    · rintro (h | ⟨⟨x, n⟩, hx, rfl, rfl⟩)
      · exact .deriv vars h
      · exact .var a vars x n hx rfl
    · intro h
      cases h with
      | deriv _ h => exact .inl h
      | var _ _ x n hx h => injection h with h1 h2; exact .inr ⟨(x, n), hx, h1.symm, h2.symm⟩

theorem mem_functionsOf (eqs : List Equation) (f : Sy) : f ∈ functionsOf eqs ↔ IsFunction f ∧ InSystem eqs f := by
  simp only [functionsOf, List.mem_dedup, List.mem_flatMap, List.mem_append, mem_functions_iff, InSystem]
  constructor
  · rintro ⟨e, he, ⟨hf, h⟩ | ⟨hf, h⟩⟩
    · exact ⟨hf, e, he, .inl h⟩
    · exact ⟨hf, e, he, .inr h⟩
  · rintro ⟨hf, e, he, h | h⟩
    · exact ⟨e, he, .inl ⟨hf, h⟩⟩
    · exact ⟨e, he, .inr ⟨hf, h⟩⟩

theorem mem_eq_derivatives (e : Equation) (d : Sy) :
    d ∈ e.derivatives ↔ (∃ a vars, d = .deriv a vars) ∧ (Occurs d e.lhs ∨ Occurs d e.rhs) := by
  simp only [Equation.derivatives, List.mem_dedup, List.mem_append, mem_derivatives_iff, ← and_or_left]

/-- Prognostic functions: the argument of a derivative whose first variable is the time. -/
theorem mem_prognosticOf (iter : List Sy → List Sy) (hi : ∀ l, (iter l).Perm l) (eqs : List Equation) (f : Sy) :
    f ∈ prognosticOf iter eqs ↔ ∃ n vars, InSystem eqs (.deriv f (("t".toList, n) :: vars)) := by
  simp only [prognosticOf, List.mem_flatMap, List.mem_map, List.mem_filter, (hi _).mem_iff, mem_eq_derivatives, InSystem]
  constructor
  · rintro ⟨e, he, d, ⟨⟨⟨a, vars, rfl⟩, h⟩, ht⟩, rfl⟩
    match vars, ht with
    | (x, n) :: vars, ht =>
      simp only [Sy.timeFirst, decide_eq_true_eq] at ht
      subst ht
      exact ⟨n, vars, e, he, h⟩
  · rintro ⟨n, vars, e, he, h⟩
    exact ⟨e, he, _, ⟨⟨⟨f, _, rfl⟩, h⟩, by simp [Sy.timeFirst, PDE.time]⟩, rfl⟩

theorem constantLoop_ok (l c : List Sy) (h : constantLoop l = .ok c) :
    ∀ f, f ∈ c ↔ f ∈ l ∧ ∃ a as, f.args = a :: as ∧ (Kind.plain, time) ∉ a.symbols := by
  induction l generalizing c with
  | nil => intro f; cases h; simp
  | cons g l ih =>
    intro f
    simp only [constantLoop, bind, Except.bind] at h
    match hg : g.args with
    | [] => simp [Sy.isConstant, hg] at h
    | a :: as =>
      simp only [Sy.isConstant, hg] at h
      match hl : constantLoop l with
      | .error _ => simp [hl] at h
      | .ok r =>
        simp only [hl, pure, Except.pure, Except.ok.injEq] at h
        have ih := ih r hl f
        subst h
        by_cases ha : (Kind.plain, time) ∉ a.symbols
        · rw [if_pos (by simpa using ha), List.mem_cons, ih, List.mem_cons]
          constructor
          · rintro (rfl | ⟨h1, h2⟩)
            · exact ⟨.inl rfl, a, as, hg, ha⟩
            · exact ⟨.inr h1, h2⟩
          · rintro ⟨rfl | h1, h2⟩
            · exact .inl rfl
            · exact .inr ⟨h1, h2⟩
        · rw [if_neg (by simpa using ha), ih, List.mem_cons]
          constructor
          · rintro ⟨h1, h2⟩; exact ⟨.inr h1, h2⟩
          · rintro ⟨rfl | h1, a', as', h2, h3⟩
            · rw [hg] at h2; injection h2 with h2 _; subst h2; exact absurd h3 ha
            · exact ⟨h1, a', as', h2, h3⟩

theorem constantLoop_error (l : List Sy) (e : PyErr) :
    constantLoop l = .error e ↔ e = .indexError ∧ ∃ f ∈ l, f.args = [] := by
  induction l with
  | nil => simp [constantLoop]
  | cons g l ih =>
    simp only [constantLoop, bind, Except.bind]
    match hg : g.args with
    | [] =>
      simp only [Sy.isConstant, hg, Except.error.injEq, List.mem_cons, exists_eq_or_imp]
      constructor
      · rintro rfl; exact ⟨rfl, .inl trivial⟩
      · rintro ⟨rfl, _⟩; rfl
    | a :: as =>
      simp only [Sy.isConstant, hg]
      match hl : constantLoop l with
      | .error e' =>
        rw [hl] at ih
        simp only [List.mem_cons, exists_eq_or_imp, hg, ih]
        simp
      | .ok r =>
        rw [hl] at ih
        simp only [pure, Except.pure, List.mem_cons, exists_eq_or_imp, hg]
        simp only [reduceCtorEq, false_iff, not_and] at ih ⊢
        rintro he (h | h)
        · cases h
        · exact ih he h

/-! ## C62 -/

/-- What a successful construction contains. -/
theorem build_ok (iter : List Sy → List Sy) (eqs : List Equation) (s : System) (h : System.build iter eqs = .ok s) :
    ∃ c, constantLoop ((functionsOf eqs).filter (· ∉ prognosticOf iter eqs)) = .ok c ∧
      s.equations = eqs ∧ s.functions = iter (functionsOf eqs) ∧ s.prognostic = prognosticOf iter eqs ∧
      s.constantFunctions = iter c ∧
      s.exogenous = iter (((functionsOf eqs).filter (· ∉ prognosticOf iter eqs)).filter (· ∉ c)) ∧
      s.coordinates = coordinatesOf (prognosticOf iter eqs) ∧
      s.coordinates = .sym .plain time :: s.spatialCoordinates ∧
      s.trainable = iter (trainableOf eqs) ∧
      s.constants = iter (constantsOf s.coordinates eqs) ∧
      s.spatialDerivatives = iter (eqs.flatMap (fun e => e.rhs.derivatives)).dedup ∧
      s.maxOrder = (eqs.flatMap (fun e => e.rhs.derivatives)).dedup.foldl (fun m d => max m d.count) 0 := by
  simp only [System.build, bind, Except.bind] at h
  match hc : constantLoop ((functionsOf eqs).filter (· ∉ prognosticOf iter eqs)) with
  | .error _ => simp only [hc] at h; cases h
  | .ok c =>
    simp only [hc] at h
    match hco : coordinatesOf (prognosticOf iter eqs) with
    | [] => simp [hco] at h
    | a :: as =>
      simp only [hco] at h
      split at h
      · next ha =>
        simp only [pure, Except.pure, Except.ok.injEq] at h
        subst h ha
        exact ⟨c, rfl, rfl, rfl, rfl, rfl, rfl, rfl, rfl, rfl, rfl, rfl, rfl⟩
      · cases h

/-- C62: the prognostic, constant and exogenous functions partition the functions of the system, whatever the iteration order of
sets. -/
theorem C62_partition (iter : List Sy → List Sy) (hi : ∀ l, (iter l).Perm l) (eqs : List Equation) (s : System)
    (h : System.build iter eqs = .ok s) (f : Sy) (hf : IsFunction f) :
    (InSystem eqs f ↔ f ∈ s.prognostic ∨ f ∈ s.constantFunctions ∨ f ∈ s.exogenous) ∧
    ¬ (f ∈ s.prognostic ∧ f ∈ s.constantFunctions) ∧ ¬ (f ∈ s.prognostic ∧ f ∈ s.exogenous) ∧
    ¬ (f ∈ s.constantFunctions ∧ f ∈ s.exogenous) := by
  obtain ⟨c, hc, -, -, h2, h3, h4, -⟩ := build_ok iter eqs s h
  have hcm := constantLoop_ok _ _ hc f
  simp only [List.mem_filter, decide_eq_true_eq, mem_functionsOf, hf, true_and] at hcm
  simp only [h2, h3, h4, (hi _).mem_iff, List.mem_filter, decide_eq_true_eq, mem_functionsOf, hf, true_and]
  have hp : f ∈ prognosticOf iter eqs → InSystem eqs f := by
    rw [mem_prognosticOf iter hi]
    rintro ⟨n, vars, e, he, h⟩
    have key : ∀ g : Sy, Occurs (.deriv f (("t".toList, n) :: vars)) g → Occurs f g := by
      intro g hg
      induction hg with
      | refl => exact .deriv _ .refl
      | arg _ _ x _ h => cases h
      | func g _ ih => exact .func g ih
      | addL c _ ih => exact .addL c ih
      | addR c _ ih => exact .addR c ih
      | mulL c _ ih => exact .mulL c ih
      | mulR c _ ih => exact .mulR c ih
      | powL c _ ih => exact .powL c ih
      | powR c _ ih => exact .powR c ih
      | deriv v _ ih => exact .deriv v ih
      | var _ _ x m _ h => cases h
    exact ⟨e, he, h.imp (key _) (key _)⟩
  tauto

/-- C62: the three groups only contain functions of the system when every time derivative is the derivative of a function. -/
theorem C62_only_functions (iter : List Sy → List Sy) (hi : ∀ l, (iter l).Perm l) (eqs : List Equation) (s : System)
    (h : System.build iter eqs = .ok s) (hd : ∀ a vars, InSystem eqs (.deriv a vars) → IsFunction a) (f : Sy)
    (hf : f ∈ s.prognostic ∨ f ∈ s.constantFunctions ∨ f ∈ s.exogenous) : IsFunction f := by
  obtain ⟨c, hc, -, -, h2, h3, h4, -⟩ := build_ok iter eqs s h
  rw [h2, h3, h4, (hi _).mem_iff, (hi _).mem_iff] at hf
  rcases hf with hf | hf | hf
  · obtain ⟨n, vars, hf⟩ := (mem_prognosticOf iter hi eqs f).1 hf
    exact hd _ _ hf
  · have := ((constantLoop_ok _ _ hc f).1 hf).1
    exact ((mem_functionsOf eqs f).1 (List.mem_filter.1 this).1).1
  · exact ((mem_functionsOf eqs f).1 (List.mem_filter.1 (List.mem_filter.1 hf).1).1).1

/-- C62, prognostic functions: when the time comes first in every derivative with respect to time, the prognostic functions are
those with a time derivative.  What is missing: SymPy sorts the variables of a derivative by name, see
`C62_counterexample_prognostic`. -/
theorem C62_prognostic_partial (iter : List Sy → List Sy) (hi : ∀ l, (iter l).Perm l) (eqs : List Equation) (s : System)
    (h : System.build iter eqs = .ok s)
    (hfirst : ∀ a vars n, InSystem eqs (.deriv a vars) → ("t".toList, n) ∈ vars → vars.head?.map Prod.fst = some "t".toList)
    (f : Sy) : f ∈ s.prognostic ↔ HasTimeDerivative eqs f := by
  obtain ⟨c, hc, -, -, h2, -⟩ := build_ok iter eqs s h
  rw [h2, mem_prognosticOf iter hi]
  constructor
  · rintro ⟨n, vars, hf⟩; exact ⟨_, hf, n, List.mem_cons_self⟩
  · rintro ⟨vars, hf, n, hn⟩
    have := hfirst _ _ _ hf hn
    match vars, this with
    | (x, m) :: vars, this =>
      simp only [List.head?_cons, Option.map_some, Option.some.injEq] at this
      subst this
      exact ⟨m, vars, hf⟩

/-- C62, constant functions: when the time is the first argument of every function that depends on it, the constant functions are
the functions of the system, not prognostic, that do not depend on time.  What is missing: only the first argument is looked at,
see `C62_counterexample_constant`. -/
theorem C62_constant_partial (iter : List Sy → List Sy) (hi : ∀ l, (iter l).Perm l) (eqs : List Equation) (s : System)
    (h : System.build iter eqs = .ok s)
    (hfirst : ∀ u args, InSystem eqs (.fn u args) → "t".toList ∈ args → args.head? = some "t".toList)
    (f : Sy) (hf : IsFunction f) :
    f ∈ s.constantFunctions ↔ InSystem eqs f ∧ f ∉ s.prognostic ∧ ¬ Occurs t f := by
  obtain ⟨c, hc, -, -, h2, h3, -⟩ := build_ok iter eqs s h
  have hcm := constantLoop_ok _ _ hc f
  simp only [List.mem_filter, decide_eq_true_eq, mem_functionsOf, hf, true_and] at hcm
  rw [h2, h3, (hi _).mem_iff, hcm, and_assoc]
  refine and_congr_right (fun hin => and_congr_right (fun hnp => ?_))
  have hargs : f.args ≠ [] := by
    intro h0
    have : constantLoop ((functionsOf eqs).filter (· ∉ prognosticOf iter eqs)) = .error .indexError :=
      (constantLoop_error _ _).2 ⟨rfl, f, List.mem_filter.2 ⟨(mem_functionsOf eqs f).2 ⟨hf, hin⟩, by simpa using hnp⟩, h0⟩
    rw [hc] at this; cases this
  match f, hf with
  | .fn u args, _ =>
    match args, hargs with
    | x :: args, _ =>
      simp only [Sy.args, List.map_cons, List.cons.injEq, exists_and_left, exists_eq_left', exists_and_right,
        exists_eq', and_true, Sy.symbols, List.mem_singleton, Prod.mk.injEq, true_and]
      constructor
      · intro hx ho
        have hmem := (mem_symbols_iff .plain "t".toList _).2 ho
        simp only [Sy.symbols, List.mem_map, Prod.mk.injEq, true_and, exists_eq_right] at hmem
        have := hfirst _ _ hin hmem
        simp only [List.head?_cons, Option.some.injEq] at this
        exact hx this.symm
      · intro ho hx
        exact ho (.arg _ _ x List.mem_cons_self (by rw [← hx]; rfl))
  | .func g a, _ =>
    simp only [Sy.args, List.cons.injEq, exists_and_left, exists_eq_left', exists_and_right, exists_eq', and_true]
    rw [mem_symbols_iff, not_iff_not]
    exact ⟨fun h => .func g h, fun h => by cases h with | func _ h => exact h⟩

/-- C62: the construction raises `IndexError` for a function without arguments that is not prognostic. -/
theorem C62_no_argument (iter : List Sy → List Sy) (hi : ∀ l, (iter l).Perm l) (eqs : List Equation) (u : Str)
    (hu : InSystem eqs (.fn u [])) (hp : ¬ HasTimeDerivative eqs (.fn u [])) :
    System.build iter eqs = .error .indexError := by
  have : constantLoop ((functionsOf eqs).filter (· ∉ prognosticOf iter eqs)) = .error .indexError := by
    refine (constantLoop_error _ _).2 ⟨rfl, .fn u [], List.mem_filter.2 ⟨(mem_functionsOf eqs _).2 ⟨trivial, hu⟩, ?_⟩, rfl⟩
    simp only [decide_eq_true_eq, mem_prognosticOf iter hi]
    rintro ⟨n, vars, h⟩
    exact hp ⟨_, h, n, List.mem_cons_self⟩
  simp only [System.build, bind, Except.bind, this]

/-! Concrete systems. -/

section Examples

private def x : Str := "x".toList
private def u : Sy := .fn "u".toList [time, x]
private def v : Sy := .fn "v".toList [time, x]
private def c : Sy := .fn "c".toList [x]

/-- `u_t = - c(x) u_x + k u_xx + theta v`, `theta` trainable. -/
private def advection : List Equation :=
  [⟨.deriv u [(time, 1)],
    .add (.mul (.num (-1)) (.mul c (.deriv u [(x, 1)])))
      (.add (.mul (.sym .plain "k".toList) (.deriv u [(x, 2)])) (.mul (.sym .trainable "theta".toList) v))⟩]

example : ∃ s, System.build id advection = .ok s ∧ s.prognostic = [u] ∧ s.constantFunctions = [c] ∧ s.exogenous = [v] ∧
    s.coordinates = [t, .sym .plain x] ∧ s.constants = [.sym .plain "k".toList] ∧
    s.trainable = [.sym .trainable "theta".toList] ∧ s.maxOrder = 2 := by
  refine ⟨_, rfl, ?_⟩; decide +kernel

/-- The hypotheses of `C62_prognostic_partial` and `C62_constant_partial` hold for this system. -/
example : (∀ a vars n, InSystem advection (.deriv a vars) → ("t".toList, n) ∈ vars →
      vars.head?.map Prod.fst = some "t".toList) ∧
    (∀ w args, InSystem advection (.fn w args) → "t".toList ∈ args → args.head? = some "t".toList) := by
  constructor
  · rintro a vars n ⟨e, he, h⟩ hn
    simp only [advection, List.mem_singleton] at he
    have h := (mem_eq_derivatives e _).2 ⟨⟨a, vars, rfl⟩, h⟩
    subst he
    have hall : ∀ d ∈ Equation.derivatives (advection.headD ⟨.num 0, .num 0⟩), ∀ a vars, d = .deriv a vars →
        vars = [(time, 1)] ∨ vars = [(x, 1)] ∨ vars = [(x, 2)] := by
      intro d hd a vars hdv
      subst hdv
      simp [Equation.derivatives, advection, Sy.derivatives, u, c, v] at hd
      tauto
    rcases hall _ h _ _ rfl with rfl | rfl | rfl
    · rfl
    · simp [x] at hn
    · simp [x] at hn
  · intro w args h ht
    have h := (mem_functionsOf advection (.fn w args)).2 ⟨trivial, h⟩
    have hl : functionsOf advection = [c, u, v] := by decide +kernel
    rw [hl] at h
    simp only [u, v, c, List.mem_cons, Sy.fn.injEq, List.not_mem_nil, or_false] at h
    rcases h with ⟨-, rfl⟩ | ⟨-, rfl⟩ | ⟨-, rfl⟩
    · simp [x] at ht
    · rfl
    · rfl

/-- Another iteration order. -/
example : ∃ s, System.build List.reverse advection = .ok s ∧ s.prognostic = [u] ∧ s.constantFunctions = [c] ∧
    s.exogenous = [v] := by
  refine ⟨_, rfl, ?_⟩; decide +kernel

/-- The property C62 is false: in `u_t = Derivative(w, r, t)` the function `w` has a time derivative but is counted
exogenous, because SymPy sorts the variables by name and only the first one is looked at. -/
theorem C62_counterexample_prognostic : ∃ (eqs : List Equation) (s : System) (f : Sy),
    System.build id eqs = .ok s ∧ IsFunction f ∧ HasTimeDerivative eqs f ∧ f ∉ s.prognostic ∧ f ∈ s.exogenous := by
  refine ⟨[⟨.deriv (.fn "u".toList [time, "r".toList]) [(time, 1)],
    .deriv (.fn "w".toList [time, "r".toList]) [("r".toList, 1), (time, 1)]⟩], _, .fn "w".toList [time, "r".toList], rfl,
    trivial, ⟨_, ⟨_, List.mem_singleton.2 rfl, .inr .refl⟩, 1, ?_⟩, ?_⟩
  · decide +kernel
  · decide +kernel

/-- The property C62 is false: `f(x, t)` depends on time but is counted constant. -/
theorem C62_counterexample_constant : ∃ (eqs : List Equation) (s : System) (f : Sy),
    System.build id eqs = .ok s ∧ IsFunction f ∧ Occurs t f ∧ f ∈ s.constantFunctions := by
  refine ⟨[⟨.deriv u [(time, 1)], .fn "f".toList [x, time]⟩], _, .fn "f".toList [x, time], rfl,
    trivial, .arg _ _ time (by decide +kernel) rfl, ?_⟩
  decide +kernel

example : System.build id [⟨.deriv u [(time, 1)], .fn "f".toList []⟩] = .error .indexError :=
  C62_no_argument id (fun _ => .rfl) _ _ ⟨_, List.mem_singleton.2 rfl, .inr .refl⟩ (by
    rintro ⟨vars, ⟨e, he, h | h⟩, n, hn⟩
    · simp only [List.mem_singleton] at he; subst he
      have := (mem_derivatives_iff _ _).2 ⟨⟨_, _, rfl⟩, h⟩
      simp [Sy.derivatives, u] at this
    · simp only [List.mem_singleton] at he; subst he
      have := (mem_derivatives_iff _ _).2 ⟨⟨_, _, rfl⟩, h⟩
      simp [Sy.derivatives] at this)

/-! ## C63 -/

/-- C63: the constants are exactly the symbols of the right-hand sides that are neither coordinates nor trainable. -/
theorem C63_constants (iter : List Sy → List Sy) (hi : ∀ l, (iter l).Perm l) (eqs : List Equation) (s : System)
    (h : System.build iter eqs = .ok s) (a : Sy) :
    a ∈ s.constants ↔ ∃ k n, a = .sym k n ∧ k ≠ .trainable ∧ a ∉ s.coordinates ∧ ∃ e ∈ eqs, Occurs a e.rhs := by
  obtain ⟨c, hc, -, -, -, -, -, -, -, -, h9, -⟩ := build_ok iter eqs s h
  rw [h9, (hi _).mem_iff]
  simp only [constantsOf, List.mem_dedup, List.mem_flatMap, List.mem_filter, List.mem_map, decide_eq_true_eq]
  constructor
  · rintro ⟨e, he, ⟨⟨⟨k, n⟩, hk, rfl⟩, h1⟩, h2⟩
    refine ⟨k, n, rfl, ?_, h1, e, he, (mem_symbols_iff k n _).1 hk⟩
    rintro rfl
    exact h2 ⟨_, ⟨hk, rfl⟩, rfl⟩
  · rintro ⟨k, n, rfl, hk, h1, e, he, ho⟩
    refine ⟨e, he, ⟨⟨(k, n), (mem_symbols_iff k n _).2 ho, rfl⟩, h1⟩, ?_⟩
    rintro ⟨⟨k', n'⟩, ⟨_, hk'⟩, heq⟩
    simp only [ofSymbol, Sy.sym.injEq] at heq
    exact hk (heq.1.symm.trans hk')

/-- C63: no constant is listed twice. -/
theorem C63_constants_once (iter : List Sy → List Sy) (hi : ∀ l, (iter l).Perm l) (eqs : List Equation) (s : System)
    (h : System.build iter eqs = .ok s) : s.constants.Nodup := by
  obtain ⟨c, hc, -, -, -, -, -, -, -, -, h9, -⟩ := build_ok iter eqs s h
  rw [h9, (hi _).nodup_iff]
  exact List.nodup_dedup _

/-- C63: the trainable scalars are the trainable symbols of the right-hand sides. -/
theorem C63_trainable (iter : List Sy → List Sy) (hi : ∀ l, (iter l).Perm l) (eqs : List Equation) (s : System)
    (h : System.build iter eqs = .ok s) (a : Sy) :
    a ∈ s.trainable ↔ ∃ n, a = .sym .trainable n ∧ ∃ e ∈ eqs, Occurs a e.rhs := by
  obtain ⟨c, hc, -, -, -, -, -, -, -, h8, -⟩ := build_ok iter eqs s h
  rw [h8, (hi _).mem_iff]
  simp only [trainableOf, List.mem_map, List.mem_dedup, List.mem_filter, List.mem_flatMap, decide_eq_true_eq]
  constructor
  · rintro ⟨⟨k, n⟩, ⟨⟨e, he, hk⟩, rfl⟩, rfl⟩
    exact ⟨n, rfl, e, he, (mem_symbols_iff _ _ _).1 hk⟩
  · rintro ⟨n, rfl, e, he, ho⟩
    exact ⟨(.trainable, n), ⟨⟨e, he, (mem_symbols_iff _ _ _).2 ho⟩, rfl⟩, rfl⟩

theorem coordinates_spec (l : List Sy) (c : List Sy) :
    let r := l.foldl (fun c f => if c.length < f.args.length then f.args else c) c
    (r = c ∨ ∃ f ∈ l, r = f.args) ∧ c.length ≤ r.length ∧ ∀ f ∈ l, f.args.length ≤ r.length := by
  induction l generalizing c with
  | nil => exact ⟨.inl rfl, le_rfl, by simp⟩
  | cons g l ih =>
    simp only [List.foldl_cons]
    obtain ⟨h1, h2, h3⟩ := ih (if c.length < g.args.length then g.args else c)
    have hle : c.length ≤ (if c.length < g.args.length then g.args else c).length ∧
        g.args.length ≤ (if c.length < g.args.length then g.args else c).length := by split <;> omega
    refine ⟨?_, hle.1.trans h2, ?_⟩
    · rcases h1 with h1 | ⟨f, hf, h1⟩
      · by_cases hlt : c.length < g.args.length
        · rw [if_pos hlt] at h1
          exact .inr ⟨g, List.mem_cons_self, by rw [if_pos hlt]; exact h1⟩
        · rw [if_neg hlt] at h1
          exact .inl (by rw [if_neg hlt]; exact h1)
      · exact .inr ⟨f, List.mem_cons_of_mem _ hf, h1⟩
    · intro f hf
      rcases List.mem_cons.1 hf with rfl | hf
      · exact hle.2.trans h2
      · exact h3 f hf

/-- C63: the coordinates are the arguments of a prognostic function with the greatest number of arguments; the time is the first
one and the spatial coordinates are the others. -/
theorem C63_coordinates (iter : List Sy → List Sy) (eqs : List Equation) (s : System) (h : System.build iter eqs = .ok s) :
    (∃ f ∈ s.prognostic, s.coordinates = f.args ∧ ∀ g ∈ s.prognostic, g.args.length ≤ f.args.length) ∧
    s.coordinates = t :: s.spatialCoordinates := by
  obtain ⟨c, hc, -, -, h2, -, -, h5, h6, -⟩ := build_ok iter eqs s h
  refine ⟨?_, h6⟩
  obtain ⟨h1, -, h3⟩ := coordinates_spec (prognosticOf iter eqs) []
  have hr : s.coordinates = (prognosticOf iter eqs).foldl (fun c f => if c.length < f.args.length then f.args else c) [] := h5
  rw [← hr] at h1 h3
  rcases h1 with h1 | ⟨f, hf, h1⟩
  · rw [h6] at h1; cases h1
  · exact ⟨f, by rw [h2]; exact hf, h1, fun g hg => by rw [← h1]; exact h3 g (by rw [← h2]; exact hg)⟩

/-- C63: the construction fails otherwise: with `AssertionError` when the prognostic functions with the greatest number of
arguments do not have the time as first argument, with `IndexError` when no prognostic function has arguments (in particular when
there is none). -/
theorem C63_failure (iter : List Sy → List Sy) (hi : ∀ l, (iter l).Perm l) (eqs : List Equation) :
    ((∀ n f vars, InSystem eqs (.deriv f (("t".toList, n) :: vars)) → f.args = []) →
      System.build iter eqs = .error .indexError) ∧
    ((∃ n f vars, InSystem eqs (.deriv f (("t".toList, n) :: vars)) ∧ f.args ≠ []) →
      (∀ f, IsFunction f → InSystem eqs f → f.args ≠ []) →
      (∀ n f vars, InSystem eqs (.deriv f (("t".toList, n) :: vars)) → f.args.head? ≠ some t) →
      System.build iter eqs = .error .assertionError) := by
  constructor
  · intro h1
    simp only [System.build, bind, Except.bind]
    match hc : constantLoop ((functionsOf eqs).filter (· ∉ prognosticOf iter eqs)) with
    | .error e => rw [((constantLoop_error _ _).1 hc).1]
    | .ok c =>
      obtain ⟨h2, -⟩ := coordinates_spec (prognosticOf iter eqs) []
      have : coordinatesOf (prognosticOf iter eqs) = [] := by
        rcases h2 with h2 | ⟨f, hf, h2⟩
        · exact h2
        · obtain ⟨n, vars, hf⟩ := (mem_prognosticOf iter hi eqs f).1 hf
          exact h2.trans (h1 n f vars hf)
      simp [this]
  · rintro ⟨n, f, vars, hin, hf⟩ hne hh
    simp only [System.build, bind, Except.bind]
    match hc : constantLoop ((functionsOf eqs).filter (· ∉ prognosticOf iter eqs)) with
    | .error e =>
      obtain ⟨-, g, hg, hg0⟩ := (constantLoop_error _ _).1 hc
      have := (mem_functionsOf eqs g).1 (List.mem_filter.1 hg).1
      exact absurd hg0 (hne g this.1 this.2)
    | .ok c =>
      obtain ⟨h2, -, h3⟩ := coordinates_spec (prognosticOf iter eqs) []
      have hfp := (mem_prognosticOf iter hi eqs f).2 ⟨n, vars, hin⟩
      have hlen := h3 f hfp
      rcases h2 with h2 | ⟨g, hg, h2⟩
      · rw [h2] at hlen
        exact absurd (List.length_eq_zero_iff.1 (Nat.le_zero.1 hlen)) hf
      · obtain ⟨m, vars', hg⟩ := (mem_prognosticOf iter hi eqs g).1 hg
        have hgt := hh m g vars' hg
        have hco : coordinatesOf (prognosticOf iter eqs) = g.args := h2
        have hgl : f.args.length ≤ g.args.length := by rw [h2] at hlen; exact hlen
        match hga : g.args with
        | [] =>
          rw [hga] at hgl
          exact absurd (List.length_eq_zero_iff.1 (Nat.le_zero.1 hgl)) hf
        | a :: as =>
          rw [hga] at hgt
          simp only [hco, hga]
          rw [if_neg]
          intro ha; subst ha; exact hgt rfl

example : System.build id [⟨.deriv (.fn "u".toList [x, time]) [(time, 1)], .num 0⟩] = .error .assertionError := rfl

/-- `Eq(u, v)`: no time derivative. -/
example : System.build id [⟨u, v⟩] = .error .indexError := rfl

end Examples

end Sympkf.Props
