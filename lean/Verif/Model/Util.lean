import Mathlib.Data.List.Dedup
import Verif.Model.Random

/-!
# Symbolic utilities: equations, comparison, coordinate systems, matrices

`src/sympkf/symbolic/util.py`: `upper_triangle` (55-71), `Eq` (74-156), `get_derivative_partial_orders` and `get_total_order`
(507-548), `CoordinateSystem` (550-590), `CompareEquation` and `CompareExpression` (593-636).
-/

set_option autoImplicit false

namespace Sympkf.Util

open Text Rand

/-! ## Matrices -/

/-- util.py 55-61 `upper_triangle` (and 66-71): `n` rows, `m` columns. -/
def upperTriangle {α : Type} (n m : ℕ) (a : ℕ → ℕ → α) : List α :=
  (List.range n).flatMap (fun i => (List.range' i (m - i)).map (fun j => a i j))

/-! ## Derivatives -/

/-- util.py 507-536 `get_derivative_partial_orders`; `vars` are the pairs `derivative.args[1:]`.  (Line 525: the pairs are SymPy
tuples, never symbols.) -/
def partialOrders (vars : List (Str × ℕ)) : Dict Str ℕ := vars.foldl (fun d v => d.set v.1 v.2) []

/-- util.py 538-548 `get_total_order`. -/
def totalOrder (vars : List (Str × ℕ)) : ℕ := ((partialOrders vars).map (·.2)).sum

/-! ## Equations -/

/-- What `sympy.Eq(l, r)` returns: an equation, or `true`/`false` when SymPy decides it. -/
inductive Rel
  | eq (l r : Ex)
  | bool (b : Bool)
  deriving DecidableEq

/-- `self.__class__(l, r)`; `decideEq` is SymPy's evaluation of equalities. -/
def mkEq (decideEq : Ex → Ex → Option Bool) (l r : Ex) : Rel :=
  match decideEq l r with
  | some b => .bool b
  | none => .eq l r

/-- `-e`. -/
def neg (e : Ex) : Ex := .mul (.num (-1)) e

section Eq
variable (decideEq : Ex → Ex → Option Bool)

/-- util.py 115-116 `__mul__` by an expression (a Boolean has no such method: `TypeError`). -/
def Rel.mul (e : Rel) (alpha : Ex) : Except PyErr Rel :=
  match e with
  | .eq l r => .ok (mkEq decideEq (.mul alpha l) (.mul alpha r))
  | .bool _ => .error .typeError

/-- util.py 118-122 `__imul__` by an equation. -/
def Rel.imulEq (e f : Rel) : Except PyErr Rel :=
  match e, f with
  | .eq l r, .eq l' r' => .ok (mkEq decideEq (.mul l l') (.mul r r'))
  | _, _ => .error .typeError

/-- util.py 124-125 `__add__`: `eq.args` of a Boolean is empty (`IndexError`). -/
def Rel.add (e f : Rel) : Except PyErr Rel :=
  match e, f with
  | .eq l r, .eq l' r' => .ok (mkEq decideEq (.add l l') (.add r r'))
  | .eq _ _, .bool _ => .error .indexError
  | .bool _, _ => .error .typeError

/-- util.py 127-128 `__neg__`. -/
def Rel.neg (e : Rel) : Except PyErr Rel :=
  match e with
  | .eq l r => .ok (mkEq decideEq (Util.neg l) (Util.neg r))
  | .bool _ => .error .typeError

/-- util.py 130-131 `__sub__`. -/
def Rel.sub (e f : Rel) : Except PyErr Rel :=
  match e, f with
  | .eq l r, .eq l' r' => .ok (mkEq decideEq (.add l (Util.neg l')) (.add r (Util.neg r')))
  | .eq _ _, .bool _ => .error .indexError
  | .bool _, _ => .error .typeError

/-- util.py 133-143 `subs`, `doit`, `expand`: SymPy transforms both sides with `f` and evaluates the equality; then
`self.__class__(*eq.args)` fails with `TypeError` when the result is a Boolean (it has no arguments).  On `true` and `false` the
method is SymPy's own. -/
def Rel.transform (f : Ex → Ex) (e : Rel) : Except PyErr Rel :=
  match e with
  | .bool b => .ok (.bool b)
  | .eq l r =>
    match mkEq decideEq (f l) (f r) with
    | .bool _ => .error .typeError
    | .eq l' r' => .ok (mkEq decideEq l' r')

/-! `isolate`.  SymPy's `solve` is modelled for equations that are linear in the requested expression. -/

/-- `x` occurs in `e`. -/
def occurs (x : Ex) (e : Ex) : Bool :=
  e = x || match e with
    | .func _ a => occurs x a
    | .add a b => occurs x a || occurs x b
    | .mul a b => occurs x a || occurs x b
    | .pow a _ => occurs x a
    | .deriv a _ => occurs x a
    | .integ a _ => occurs x a
    | .ex a => occurs x a
    | _ => false

/-- `e = a * x + b` with `a` and `b` free of `x`; `none`: not of this form. -/
def linear (x : Ex) (e : Ex) : Option (Ex × Ex) :=
  if e = x then some (.num 1, .num 0)
  else if occurs x e = false then some (.num 0, e)
  else match e with
    | .add e1 e2 =>
      match linear x e1, linear x e2 with
      | some (a1, b1), some (a2, b2) => some (.add a1 a2, .add b1 b2)
      | _, _ => none
    | .mul e1 e2 =>
      if occurs x e1 = false then (linear x e2).map (fun p => (.mul e1 p.1, .mul e1 p.2))
      else if occurs x e2 = false then (linear x e1).map (fun p => (.mul e2 p.1, .mul e2 p.2))
      else none
    | _ => none

/-- `solve(l = r, x)` for an equation linear in `x`: no solution when `x` does not occur. -/
def solveLinear (l r x : Ex) : Option (List Ex) :=
  match linear x (.add l (Util.neg r)) with
  | none => none
  | some (a, b) => if occurs x l || occurs x r then some [.mul (Util.neg b) (.pow a (-1))] else some []

/-- util.py 145-156 `isolate`; `none`: the equation is not linear in `x` (not modelled). -/
def isolate (l r x : Ex) : Option (Except PyErr Rel) :=
  match solveLinear l r x with
  | none => none
  | some [] => some (.error .indexError)
  | some (v :: _) => some (.ok (mkEq decideEq x v))

end Eq

/-! ## Comparison -/

/-- The arguments of a sum (a single term otherwise). -/
def terms : Ex → List Ex
  | .add a b => terms a ++ terms b
  | a => [a]

/-- util.py 612-625 `CompareExpression.sets`, as duplicate-free lists. -/
def termSet (e : Ex) : List Ex := (terms (expand e)).dedup

/-- util.py 628-631 `common`. -/
def common (e1 e2 : Ex) : List Ex := (termSet e1).filter (· ∈ termSet e2)

/-- util.py 633-636 `specific`. -/
def specific (e1 e2 : Ex) : List Ex × List Ex :=
  ((termSet e1).filter (· ∉ common e1 e2), (termSet e2).filter (· ∉ common e1 e2))

/-! ## Coordinate systems -/

/-- `expr.atoms(Function)`: name of the function and symbols among its arguments (an elementary function or an expectation of an
expression that is not a symbol has none). -/
def functions : Ex → List (Str × List Str)
  | .fn u args => [(u, args)]
  | .func g a => (g, match a with | .sym s => [s] | _ => []) :: functions a
  | .add a b => functions a ++ functions b
  | .mul a b => functions a ++ functions b
  | .pow a _ => functions a
  | .deriv a _ => functions a
  | .integ a _ => functions a
  | .ex a => ("Expectation".toList, match a with | .sym s => [s] | _ => []) :: functions a
  | _ => []

/-- util.py 578-590 `is_compatible` and `_check_compatible`. -/
def checkCompatible (coords : List Str) (e : Ex) : Except PyErr Unit :=
  if (functions e).all (fun f => coords.all (fun x => x ∈ f.2)) then .ok () else .error .valueError

/-- `Derivative(e, x)`: SymPy merges the variables of nested derivatives. -/
def derivative (e : Ex) (x : Str) : Ex := .deriv e [(x, 1)]

/-- util.py 565-569 `gradient`. -/
def gradient (coords : List Str) (e : Ex) : Except PyErr (List Ex) := do
  checkCompatible coords e
  return coords.map (derivative e)

/-- `sum` of Python: starts from zero. -/
def sum : List Ex → Ex := List.foldl .add (.num 0)

/-- util.py 571-576 `div`: `zip` stops at the shorter list. -/
def div (coords : List Str) (vector : List Ex) : Except PyErr Ex := do
  vector.forM (checkCompatible coords)
  return sum (vector.zipWith derivative coords)

end Sympkf.Util
