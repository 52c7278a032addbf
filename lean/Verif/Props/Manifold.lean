import Verif.Model.Manifold
import Verif.Props.Builder
import Verif.Props.FDModel

/-!
# C80: the generated manifold model
-/

set_option autoImplicit false

namespace Sympkf.FD

open Text PDE Props Integrator

variable {K V : Type} [DecidableEq V]

/-! ## The constructor -/

/-- C80: `AssertionError` exactly when the dimension of the base space is not the number of coordinates; nothing else is
raised. -/
theorem C80_dimension (cls : FDClass) (dim : V → ℕ) (space : V) (ts : Option String) (kwargs : Dict Str (Val V)) (e : PyErr) :
    constructManifold (K := K) cls dim space ts kwargs = .error e
      ↔ e = .assertionError ∧ dim space ≠ cls.coordinates.length := by
  have hm : initModel = .ok { timeScheme := some .rk4 } := by decide +kernel
  unfold constructManifold
  simp only [hm, bind, Except.bind, pure, Except.pure]
  split_ifs with h
  · simp only [Except.error.injEq, h, ne_eq, not_false_eq_true, and_true]
    exact eq_comm
  · simp [h]

/-- C80: the object holds the base space, the declared names hold the keyword value or `nan`, other keywords set nothing, and the
warnings name the declared names left at `nan`. -/
theorem C80_attributes (cls : FDClass) (dim : V → ℕ) (space : V) (ts : Option String) (kwargs : Dict Str (Val V))
    (hk : kwargs.keys.Nodup) (o : ManifoldObj K V) (he : constructManifold cls dim space ts kwargs = .ok o) :
    (∀ name, name ∈ cls.constantFunctions ∨ name ∈ cls.constants →
      o.attrs.get? name = some (.val ((kwargs.get? name).getD .nan)))
    ∧ ("base_space".toList ∉ cls.constantFunctions → "base_space".toList ∉ cls.constants →
        o.attrs.get? "base_space".toList = some (.val (.obj space)))
    ∧ (∀ name, name ∉ cls.constantFunctions → name ∉ cls.constants → name ≠ "base_space".toList → o.attrs.get? name = none)
    ∧ (∀ name, name ∈ o.warned ↔ (name ∈ cls.constantFunctions ∨ name ∈ cls.constants)
        ∧ (kwargs.get? name = none ∨ kwargs.get? name = some .nan)) := by
  have hm : initModel = .ok { timeScheme := some .rk4 } := by decide +kernel
  unfold constructManifold at he
  simp only [hm, bind, Except.bind, pure, Except.pure] at he
  split_ifs at he
  simp only [Except.ok.injEq] at he
  subst he
  refine ⟨?_, ?_, ?_, ?_⟩
  · intro name h
    rw [setDeclared_get? _ _ _ _ hk, setDeclared_get? _ _ _ _ hk]
    by_cases hc : name ∈ cls.constants
    · rw [if_pos hc]; rfl
    · rw [if_neg hc, if_pos (h.resolve_right hc)]; rfl
  · intro h1 h2
    rw [setDeclared_get? _ _ _ _ hk, setDeclared_get? _ _ _ _ hk, if_neg h2, if_neg h1]
    rfl
  · intro name h1 h2 h3
    rw [setDeclared_get? _ _ _ _ hk, setDeclared_get? _ _ _ _ hk, if_neg h2, if_neg h1, Dict.get?_eq_none_iff]
    simpa [Dict.keys] using h3
  · intro name
    rw [List.mem_append, warnings_setDeclared _ _ _ hk, warnings_setDeclared _ _ _ hk]
    simp only [List.mem_filter, decide_eq_true_eq]
    have : expected kwargs name = .nan ↔ (kwargs.get? name = none ∨ kwargs.get? name = some .nan) := by
      unfold expected
      cases kwargs.get? name <;> simp
    rw [this]; tauto

/-- C80, partial: the time scheme of the object is the requested one if that is `rk4` or none is requested.  Any other request is
ignored (`C80_counterexample_time_scheme`). -/
theorem C80_time_scheme_partial (cls : FDClass) (dim : V → ℕ) (space : V) (ts : Option String) (kwargs : Dict Str (Val V))
    (hts : ts.getD "rk4" = "rk4") (o : ManifoldObj K V) (he : constructManifold cls dim space ts kwargs = .ok o) :
    initModel (ts.getD "rk4") = .ok o.model := by
  have hm : initModel = .ok { timeScheme := some .rk4 } := by decide +kernel
  rw [hts]
  unfold constructManifold at he
  simp only [hm, bind, Except.bind, pure, Except.pure] at he
  split_ifs at he
  simp only [Except.ok.injEq] at he
  subst he
  exact hm

/-- C80, counterexample: whatever scheme is requested, valid or not, the object uses `rk4` and no error is raised. -/
theorem C80_counterexample_time_scheme (cls : FDClass) (dim : V → ℕ) (space : V) (ts : Option String) (kwargs : Dict Str (Val V))
    (hd : dim space = cls.coordinates.length) :
    ∃ o : ManifoldObj K V, constructManifold cls dim space ts kwargs = .ok o ∧ o.model.timeScheme = some .rk4
      ∧ (ts = some "euler" → initModel "euler" ≠ .ok o.model) ∧ (ts = some "rk5" → initModel "rk5" = .error .valueError) := by
  have hm : initModel = .ok { timeScheme := some .rk4 } := by decide +kernel
  have h1 : initModel "euler" = .ok { timeScheme := some .euler } := by decide +kernel
  have h2 : initModel "rk5" = .error .valueError := by decide +kernel
  unfold constructManifold
  simp only [hm, bind, Except.bind, pure, Except.pure, hd, ne_eq, not_true_eq_false, if_false]
  refine ⟨_, rfl, rfl, fun _ => ?_, fun _ => h2⟩
  rw [h1]
  simp

/-- Non-vacuity: a two-dimensional class on a space of dimension 2. -/
example : ∃ o : ManifoldObj ℚ ℕ, constructManifold demoClass id 2 (some "euler") [("nu".toList, Val.obj 7), ("other".toList, Val.obj 8)] = .ok o
    ∧ o.attrs.get? "nu".toList = some (.val (.obj 7)) ∧ o.attrs.get? "other".toList = none
    ∧ o.attrs.get? "base_space".toList = some (.val (.obj 2)) ∧ "kappa".toList ∈ o.warned := by
  obtain ⟨o, he, -⟩ := C80_counterexample_time_scheme (K := ℚ) demoClass (id : ℕ → ℕ) 2 (some "euler")
    [("nu".toList, Val.obj 7), ("other".toList, Val.obj 8)] rfl
  obtain ⟨h1, h2, h3, h4⟩ := C80_attributes demoClass id 2 _ _ (by decide) o he
  exact ⟨o, he, h1 "nu".toList (by decide), h3 "other".toList (by decide) (by decide) (by decide), h2 (by decide) (by decide),
    (h4 "kappa".toList).2 (by decide)⟩

/-! ## The code of the derivatives -/

omit [DecidableEq V] in
theorem split_first {α : Type} {c : α} {a b a' b' : List α} (h : a ++ c :: b = a' ++ c :: b') (ha : c ∉ a) (ha' : c ∉ a') :
    a = a' ∧ b = b' := by
  rcases List.append_eq_append_iff.1 h with ⟨d, h1, h2⟩ | ⟨d, h1, h2⟩
  · match d with
    | [] =>
      simp only [List.append_nil, List.nil_append, List.cons.injEq, true_and] at h1 h2
      exact ⟨h1.symm, h2⟩
    | x :: d =>
      simp only [List.cons_append, List.cons.injEq] at h2
      exact absurd (by rw [h1, ← h2.1]; simp) ha'
  · match d with
    | [] =>
      simp only [List.append_nil, List.nil_append, List.cons.injEq, true_and] at h1 h2
      exact ⟨h1, h2.symm⟩
    | x :: d =>
      simp only [List.cons_append, List.cons.injEq] at h2
      exact absurd (by rw [h1, ← h2.1]; simp) ha

theorem comma_natStr (n : ℕ) : ',' ∉ natStr n := by
  rw [natStr_eq]
  intro h
  rcases mem_decimal h with h | h <;> exact absurd h (by decide)

/-- The argument of one coordinate. -/
def orderArg (p : Str × ℕ) : Str := '\'' :: p.1 ++ "',".toList ++ natStr p.2

theorem orderArg_eq (p : Str × ℕ) : orderArg p = ('\'' :: (p.1 ++ ['\''])) ++ ',' :: natStr p.2 := by
  simp [orderArg]

theorem joinComma_orderArg_inj (l l' : List (Str × ℕ)) (hl : l ≠ []) (hl' : l' ≠ []) (hc : ∀ p ∈ l, ',' ∉ p.1) (hc' : ∀ p ∈ l', ',' ∉ p.1)
    (h : joinComma (l.map orderArg) = joinComma (l'.map orderArg)) : l = l' := by
  have name : ∀ p : Str × ℕ, ',' ∉ p.1 → ',' ∉ '\'' :: (p.1 ++ ['\'']) := by
    intro p hp hm
    simp only [List.mem_cons, List.mem_append, List.not_mem_nil, or_false] at hm
    rcases hm with hm | hm | hm
    · exact absurd hm (by decide)
    · exact hp hm
    · exact absurd hm (by decide)
  have quote : ∀ (p p' : Str × ℕ), '\'' :: (p.1 ++ ['\'']) = '\'' :: (p'.1 ++ ['\'']) → p.1 = p'.1 := by
    intro p p' h
    simpa using h
  induction l generalizing l' with
  | nil => exact absurd rfl hl
  | cons p l ih =>
    match l' with
    | [] => exact absurd rfl hl'
    | p' :: l' =>
      match l, l' with
      | [], [] =>
        simp only [List.map_cons, List.map_nil, joinComma, orderArg_eq] at h
        obtain ⟨h1, h2⟩ := split_first h (name p (hc p (by simp))) (name p' (hc' p' (by simp)))
        rw [Prod.ext (quote p p' h1) (natStr_injective h2)]
      | [], q' :: l' =>
        simp only [List.map_cons, List.map_nil, joinComma, orderArg_eq, List.append_assoc, List.cons_append] at h
        obtain ⟨h1, h2⟩ := split_first (by simpa using h) (name p (hc p (by simp))) (name p' (hc' p' (by simp)))
        exact absurd (by rw [h2]; simp) (comma_natStr p.2)
      | q :: l, [] =>
        simp only [List.map_cons, List.map_nil, joinComma, orderArg_eq, List.append_assoc, List.cons_append] at h
        obtain ⟨h1, h2⟩ := split_first (by simpa using h) (name p (hc p (by simp))) (name p' (hc' p' (by simp)))
        exact absurd (by rw [← h2]; simp) (comma_natStr p'.2)
      | q :: l, q' :: l' =>
        have e1 : ∀ (p q : Str × ℕ) (l : List (Str × ℕ)), joinComma ((p :: q :: l).map orderArg)
            = ('\'' :: (p.1 ++ ['\''])) ++ ',' :: (natStr p.2 ++ ',' :: joinComma ((q :: l).map orderArg)) := by
          intro p q l
          simp only [List.map_cons, joinComma, orderArg_eq p]
          simp
        rw [e1, e1] at h
        obtain ⟨h1, h2⟩ := split_first h (name p (hc p (by simp))) (name p' (hc' p' (by simp)))
        obtain ⟨h3, h4⟩ := split_first h2 (comma_natStr _) (comma_natStr _)
        rw [Prod.ext (quote p p' h1) (natStr_injective h3),
          ih (q' :: l') (by simp) (by simp) (fun r hr => hc r (List.mem_cons_of_mem _ hr))
            (fun r hr => hc' r (List.mem_cons_of_mem _ hr)) h4]

/-- C80: two derivatives have the same code only if they have the same function name and the same variables with the same orders
(names without comma, each variable written once as SymPy does). -/
theorem C80_code_distinct (f f' : Str) (vars vars' : List (Str × ℕ)) (hf : ',' ∉ f) (hf' : ',' ∉ f') (hv : vars ≠ []) (hv' : vars' ≠ [])
    (hn : (vars.map Prod.fst).Nodup) (hn' : (vars'.map Prod.fst).Nodup) (hc : ∀ p ∈ vars, ',' ∉ p.1) (hc' : ∀ p ∈ vars', ',' ∉ p.1)
    (h : manifoldCode f vars = manifoldCode f' vars') : f = f' ∧ vars = vars' := by
  unfold manifoldCode partialOrdersText at h
  rw [Util.partialOrders_eq vars hn, Util.partialOrders_eq vars' hn', List.append_assoc, List.append_assoc, List.append_assoc,
    List.append_assoc, List.append_right_inj] at h
  have h1 : f ++ ',' :: (joinComma (vars.map orderArg) ++ ")".toList) = f' ++ ',' :: (joinComma (vars'.map orderArg) ++ ")".toList) := h
  obtain ⟨h2, h3⟩ := split_first h1 hf hf'
  exact ⟨h2, joinComma_orderArg_inj vars vars' hv hv' hc hc' (List.append_cancel_right h3)⟩

/-- The code of `Derivative(u, x, (y, 2))`. -/
example : manifoldCode "u".toList [("x".toList, 1), ("y".toList, 2)] = "self.base_space.diff(u,'x',1,'y',2)".toList := by
  decide +kernel

end Sympkf.FD
