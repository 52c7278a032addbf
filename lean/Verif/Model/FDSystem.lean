import Verif.Model.FDExpr
import Verif.Model.Py

/-!
# Finite differences of systems of equations

`src/sympkf/symbolic/finite_difference.py` 189-209 and `src/sympkf/symbolic/util.py` 335-353.
-/

set_option autoImplicit false

namespace Sympkf.FinDiff

open Text

/-- What `Eq(l, r)` returns: an equation, or `true`/`false` when SymPy decides it. -/
inductive FRel
  | eq (l r : FExpr)
  | bool (b : Bool)
  deriving DecidableEq

/-- `Eq(l, r)`; `decideEq` is SymPy's evaluation of equalities. -/
def mkFRel (decideEq : FExpr → FExpr → Option Bool) (l r : FExpr) : FRel :=
  match decideEq l r with
  | some b => .bool b
  | none => .eq l r

/-- finite_difference.py 189-209 `finite_difference_system`; util.py 335-353 `PDESystem.finite_difference` is the same loop over
`self.equations` (the list `orders` of lines 340-341 is not used).  `atomsOf` enumerates the set `rhs.atoms(Derivative)` of each
right-hand side, in any order.  `lhs, rhs = pde.args` raises `ValueError` for an equation that SymPy has decided. -/
def finiteDifferenceSystem (decideEq : FExpr → FExpr → Option Bool) (atomsOf : FExpr → List DAtom) :
    List FRel → Except PyErr (List FRel)
  | [] => .ok []
  | .bool _ :: _ => .error .valueError
  | .eq l r :: sys => do
    let rest ← finiteDifferenceSystem decideEq atomsOf sys
    return mkFRel decideEq l (finiteDifference (atomsOf r) r) :: rest

end Sympkf.FinDiff
