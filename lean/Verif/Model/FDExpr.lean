import Mathlib.Algebra.Field.Rat
import Mathlib.Data.List.Dedup
import Verif.Model.FiniteDiff
import Verif.Model.Text

/-!
# Finite differences of expressions

`src/sympkf/symbolic/finite_difference.py`, `finite_difference_derivative` and `finite_difference`, on expression trees.
Simplifications: sums and products are binary; `expand()` is not applied (it does not change values); the input is
already evaluated (`expr.doit()`), so that derivatives apply to functions.
-/

set_option autoImplicit false

namespace Sympkf.FinDiff

open Text

/-- Expressions.  `fn u args` is `u(x + k*dx, ..)`, one pair `(x, k)` for each argument; `deriv e vars` is
`Derivative(e, *vars)`; `func g a` is an elementary function. -/
inductive FExpr
  | num (q : ℚ)
  | sym (s : Str)
  | fn (u : Str) (args : List (Str × ℤ))
  | deriv (e : FExpr) (vars : List (Str × ℕ))
  | add (a b : FExpr)
  | mul (a b : FExpr)
  | pow (a : FExpr) (n : ℤ)
  | func (g : Str) (a : FExpr)
  deriving DecidableEq

/-- A derivative atom: function, arguments, variables with their orders. -/
structure DAtom where
  u : Str
  args : List (Str × ℤ)
  vars : List (Str × ℕ)
  deriving DecidableEq

/-- `u(.., x, ..).subs(x, x + k*dx)` -/
def shiftArgs (args : List (Str × ℤ)) (x : Str) (k : ℤ) : List (Str × ℤ) :=
  args.map (fun a => if a.1 = x then (a.1, a.2 + k) else a)

/-- The sum `Σ w_k * dx^(-o) * e_k` written by `as_finite_difference`; the weights are those of a unit step (their
dependence on the step is the factor `dx^(-o)`, lemma `weights_points`). -/
def stencilSum (x : Str) (o : ℕ) (f : ℤ → FExpr) : List (ℚ × ℤ) → FExpr
  | [] => .num 0
  | (w, k) :: rest => .add (.mul (.mul (.num w) (.pow (.sym ('d' :: x)) (-(o : ℤ)))) (f k)) (stencilSum x o f rest)

/-- finite_difference.py 70-98 `finite_difference_derivative`: the variables are treated one after the other until no
derivative is left. -/
def fdExpr (u : Str) (args : List (Str × ℤ)) : List (Str × ℕ) → FExpr
  | [] => .fn u args
  | (x, o) :: rest =>
    stencilSum x o (fun k => fdExpr u (shiftArgs args x k) rest)
      ((weights o (points o (1 : ℚ) 0) 0).zip (offsets o))

/-- Multiplicity of `x` in `derivative.variables`. -/
def countVar (vars : List (Str × ℕ)) (x : Str) : ℕ := ((vars.filter (fun p => p.1 = x)).map Prod.snd).sum

/-- SymPy's test that `old` is a lower derivative of `self` (`Derivative._eval_subs`). -/
def isSub (old self : List (Str × ℕ)) : Bool := old.all (fun p => countVar old p.1 ≤ countVar self p.1)

/-- The remaining variables. -/
def diffVars (self old : List (Str × ℕ)) : List (Str × ℕ) :=
  (self.map (fun p => (p.1, p.2 - countVar old p.1))).filter (fun p => p.2 ≠ 0)

/-- `expr.subs(derivative, new)`.  SymPy also replaces the derivative inside higher derivatives of the same function, by
`Derivative(new, remaining variables)`. -/
def subsD (d : DAtom) (new : FExpr) : FExpr → FExpr
  | .num q => .num q
  | .sym s => .sym s
  | .fn u args => .fn u args
  | .deriv e vars =>
    if e = .fn d.u d.args then
      if vars = d.vars then new
      else if isSub d.vars vars then .deriv new (diffVars vars d.vars)
      else .deriv e vars
    else .deriv (subsD d new e) vars
  | .add a b => .add (subsD d new a) (subsD d new b)
  | .mul a b => .mul (subsD d new a) (subsD d new b)
  | .pow a n => .pow (subsD d new a) n
  | .func g a => .func g (subsD d new a)

/-- util.py 538-548 `get_total_order`. -/
def totalOrder (d : DAtom) : ℕ := (d.vars.map Prod.snd).sum

/-- finite_difference.py 124-146: the derivatives grouped by total order, the groups in decreasing order; within a group
the order of the set `atoms`. -/
def decreasing (atoms : List DAtom) : List DAtom :=
  let orders := (atoms.map totalOrder).dedup.mergeSort (fun a b => decide (b ≤ a))
  orders.flatMap (fun n => atoms.filter (fun d => totalOrder d = n))

/-- finite_difference.py 100-153 `finite_difference`.  `atoms` enumerates the set `expr.atoms(Derivative)`, in any order. -/
def finiteDifference (atoms : List DAtom) (e : FExpr) : FExpr :=
  (decreasing atoms).foldl (fun e d => subsD d (fdExpr d.u d.args d.vars) e) e

end Sympkf.FinDiff
