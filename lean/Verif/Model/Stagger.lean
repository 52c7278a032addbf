import Verif.Model.RegularizeSystem

/-!
# The loop of `_sympy_finite_difference`

`src/sympkf/symbolic/finite_difference.py` 155-185, with the substitution of a derivative inside the higher derivatives of the same
expression.  Simplifications: sums and products are binary, `expand()` is not applied, and the derivative at a displaced point (`Subs`)
is the derivative of the displaced expression.
-/

set_option autoImplicit false

namespace Sympkf.FinDiff

open Text

/-- Expressions.  `fn u args` is `u(x + k*dx, ..)`; `deriv e x xs` is `Derivative(e, x, *xs)`, where the variables are repeated. -/
inductive DExpr
  | num (q : ℚ)
  | sym (s : Str)
  | fn (u : Str) (args : List (Str × ℚ))
  | add (a b : DExpr)
  | mul (a b : DExpr)
  | pow (a : DExpr) (n : ℤ)
  | func (g : Str) (a : DExpr)
  | deriv (e : DExpr) (x : Str) (xs : List Str)
  deriving DecidableEq

/-- `Derivative(e, *xs)`, `e` without variables. -/
def derivOf (e : DExpr) : List Str → DExpr
  | [] => e
  | x :: xs => .deriv e x xs

/-- `expr.atoms(Derivative)`, with repetitions. -/
def DExpr.derivatives : DExpr → List DExpr
  | .num _ => []
  | .sym _ => []
  | .fn _ _ => []
  | .add a b => a.derivatives ++ b.derivatives
  | .mul a b => a.derivatives ++ b.derivatives
  | .pow a _ => a.derivatives
  | .func _ a => a.derivatives
  | .deriv e x xs => .deriv e x xs :: e.derivatives

/-- `expr.subs(x, x + k*dx)` -/
def shiftD (x : Str) (k : ℚ) : DExpr → DExpr
  | .num q => .num q
  | .sym s => if s = x then .add (.sym x) (.mul (.num k) (.sym ('d' :: x))) else .sym s
  | .fn u args => .fn u (shiftArgsQ args x k)
  | .add a b => .add (shiftD x k a) (shiftD x k b)
  | .mul a b => .mul (shiftD x k a) (shiftD x k b)
  | .pow a n => .pow (shiftD x k a) n
  | .func g a => .func g (shiftD x k a)
  | .deriv e y ys => .deriv (shiftD x k e) y ys

/-- The sum `Σ w_k * dx^(-o) * e_k`. -/
def stencilSumD (x : Str) (o : ℕ) (f : ℚ → DExpr) : List (ℚ × ℚ) → DExpr
  | [] => .num 0
  | (w, k) :: rest => .add (.mul (.mul (.num w) (.pow (.sym ('d' :: x)) (-(o : ℤ)))) (f k)) (stencilSumD x o f rest)

/-- finite_difference.py 181-184: `derivative.as_finite_difference(dxi, wrt=xi)` where `xi` is the first variable: the order is the number
of times that `xi` is a variable, the derivatives with respect to the other variables are left. -/
def staggerDerivative (e : DExpr) (x : Str) (xs : List Str) : DExpr :=
  let o := (x :: xs).count x
  stencilSumD x o (fun k => derivOf (shiftD x k e) (xs.filter (· ≠ x))) ((weights o (staggered o) (0 : ℚ)).zip (staggered o))

/-- `expr.subs(Derivative(e0, x0, *xs0), new)`: a derivative of `e0` of which the variables contain those of the derivative to be replaced
becomes the derivative of `new` with respect to the other variables (SymPy, `Derivative._eval_subs`). -/
def replaceD (e0 : DExpr) (x0 : Str) (xs0 : List Str) (new : DExpr) : DExpr → DExpr
  | .num q => .num q
  | .sym s => .sym s
  | .fn u args => .fn u args
  | .add a b => .add (replaceD e0 x0 xs0 new a) (replaceD e0 x0 xs0 new b)
  | .mul a b => .mul (replaceD e0 x0 xs0 new a) (replaceD e0 x0 xs0 new b)
  | .pow a n => .pow (replaceD e0 x0 xs0 new a) n
  | .func g a => .func g (replaceD e0 x0 xs0 new a)
  | .deriv e x xs =>
    if e = e0 ∧ ∀ y ∈ x0 :: xs0, (x0 :: xs0).count y ≤ (x :: xs).count y then derivOf new ((x :: xs).diff (x0 :: xs0))
    else .deriv (replaceD e0 x0 xs0 new e) x xs

/-- finite_difference.py 179-184: the derivatives found at the beginning of the pass are replaced one after the other. -/
def staggerPass (atoms : List DExpr) (E : DExpr) : DExpr :=
  atoms.foldl (fun E D => match D with
    | .deriv e x xs => replaceD e x xs (staggerDerivative e x xs) E
    | _ => E) E

/-- finite_difference.py 172-185: passes until no derivative is left; `atomsOf` enumerates the sets of derivatives, in any order. -/
inductive StaggerLoop (atomsOf : DExpr → List DExpr) : DExpr → DExpr → Prop
  | done (E : DExpr) (h : E.derivatives = []) : StaggerLoop atomsOf E E
  | pass (E E' : DExpr) (h : E.derivatives ≠ []) (h' : StaggerLoop atomsOf (staggerPass (atomsOf E) E) E') : StaggerLoop atomsOf E E'

/-- The expression with its variables repeated. -/
def FExpr.toD : FExpr → DExpr
  | .num q => .num q
  | .sym s => .sym s
  | .fn u args => .fn u (args.map (fun a => (a.1, (a.2 : ℚ))))
  | .deriv e vars => derivOf e.toD (vars.flatMap (fun v => List.replicate v.2 v.1))
  | .add a b => .add a.toD b.toD
  | .mul a b => .mul a.toD b.toD
  | .pow a n => .pow a.toD n
  | .func g a => .func g a.toD

end Sympkf.FinDiff
