import Verif.Props.FDSystem

/-!
# C79: equations that SymPy decides after the conversion
-/

set_option autoImplicit false

namespace Sympkf.FinDiff

open Text Spec.FDSystem

variable (decideEq : FExpr → FExpr → Option Bool) (atomsOf : FExpr → List DAtom)

/-- C79: the conversion of undecided equations always succeeds, one result for each equation in their order. A result is a truth
value exactly when SymPy decides the equality of the left-hand side with the new right-hand side; otherwise it is that equation. -/
theorem C79_outcomes (sys : List (FExpr × FExpr)) :
    ∃ out : List FRel, finiteDifferenceSystem decideEq atomsOf (sys.map (fun e => .eq e.1 e.2)) = .ok out
      ∧ List.Forall₂ (fun e o =>
          (∀ b, o = .bool b ↔ decideEq e.1 (finiteDifference (atomsOf e.2) e.2) = some b)
          ∧ ∀ l r, o = .eq l r → l = e.1 ∧ r = finiteDifference (atomsOf e.2) e.2) sys out := by
  induction sys with
  | nil => exact ⟨[], rfl, .nil⟩
  | cons e sys ih =>
    obtain ⟨out, h1, h2⟩ := ih
    refine ⟨mkFRel decideEq e.1 (finiteDifference (atomsOf e.2) e.2) :: out, ?_, .cons ?_ h2⟩
    · simp only [List.map_cons, finiteDifferenceSystem, h1, bind, Except.bind, pure, Except.pure]
    · unfold mkFRel
      cases decideEq e.1 (finiteDifference (atomsOf e.2) e.2) with
      | none => simp +contextual [eq_comm]
      | some b => simp

/-- C79: when SymPy decides one of the new equations, the converted system cannot be converted again. -/
theorem C79_decided_result (sys : List (FExpr × FExpr)) (b : Bool)
    (h : ∃ e ∈ sys, decideEq e.1 (finiteDifference (atomsOf e.2) e.2) = some b) :
    ∃ out : List FRel, finiteDifferenceSystem decideEq atomsOf (sys.map (fun e => .eq e.1 e.2)) = .ok out
      ∧ FRel.bool b ∈ out ∧ finiteDifferenceSystem decideEq atomsOf out = .error .valueError := by
  obtain ⟨out, h1, h2⟩ := C79_outcomes decideEq atomsOf sys
  obtain ⟨e, he, hb⟩ := h
  have hm : FRel.bool b ∈ out := by
    clear h1
    induction h2 with
    | nil => simp at he
    | @cons e' o sys out ho _ ih =>
      rcases List.mem_cons.1 he with rfl | he
      · exact List.mem_cons.2 (.inl ((ho.1 b).2 hb).symm)
      · exact List.mem_cons_of_mem _ (ih he)
  exact ⟨out, h1, hm, C79_decided decideEq atomsOf out b hm⟩

/-- A case: SymPy decides that an equality of equal sides holds; the finite difference of a right-hand side without derivatives is
itself, so that `u = u` becomes `True`. -/
example : finiteDifferenceSystem (fun l r => if l = r then some true else none) (fun _ => [])
    [.eq caseU caseU, .eq (.sym "a".toList) caseU] = .ok [.bool true, .eq (.sym "a".toList) caseU] := by
  decide +kernel

end Sympkf.FinDiff
