import Mathlib.Data.List.Dedup
import Verif.Model.FDSystem
import Verif.Model.Regularize

/-!
# Regularization of expressions and systems

`src/sympkf/symbolic/finite_difference.py`, `regularize_finite_difference` (232-271) on expressions that are not linear combinations
of displaced functions, and `regularize_finite_difference_system` (274-282).  Simplifications: sums and products are binary, and
`expand()` is not applied.
-/

set_option autoImplicit false

namespace Sympkf.FinDiff

open Text

/-- Expressions without derivatives.  `fn u args` is `u(x + k*dx, ..)`, one pair `(x, k)` for each argument; `func g a` is an
elementary function. -/
inductive SExpr
  | num (q : ℚ)
  | sym (s : Str)
  | fn (u : Str) (args : List (Str × ℚ))
  | add (a b : SExpr)
  | mul (a b : SExpr)
  | pow (a : SExpr) (n : ℤ)
  | func (g : Str) (a : SExpr)
  deriving DecidableEq

/-- The symbols of `x + k*dx`. -/
def argSymbols (a : Str × ℚ) : List Str := if a.2 = 0 then [a.1] else [a.1, 'd' :: a.1]

/-- `expr.atoms(Symbol)`, with repetitions. -/
def SExpr.symbols : SExpr → List Str
  | .num _ => []
  | .sym s => [s]
  | .fn _ args => args.flatMap argSymbols
  | .add a b => a.symbols ++ b.symbols
  | .mul a b => a.symbols ++ b.symbols
  | .pow a _ => a.symbols
  | .func _ a => a.symbols

/-- `expr.atoms(Function)`, with repetitions: elementary functions are `Function` too. -/
def SExpr.functions : SExpr → List SExpr
  | .num _ => []
  | .sym _ => []
  | .fn u args => [.fn u args]
  | .add a b => a.functions ++ b.functions
  | .mul a b => a.functions ++ b.functions
  | .pow a _ => a.functions
  | .func g a => .func g a :: a.functions

/-- What is taken from SymPy: the iteration order of a set of symbols, and `arg.coeff(s)` for the argument of an elementary
function, `none` when it is not a rational number. -/
structure SymPy where
  order : List Str → List Str
  coeff : SExpr → Str → Option ℚ

/-- The argument `x + k*dx` of a function. -/
def shiftedArg (P : SymPy) (a : Str × ℚ) : Arg where
  atoms := P.order (argSymbols a)
  coeff s := if s = 'd' :: a.1 then a.2 else if s = a.1 then 1 else 0
  text := []

/-- The product of a number and an expression. -/
def scale (q : ℚ) (e : SExpr) : SExpr := if q = 1 then e else .mul (.num q) e

/-- finite_difference.py 269: `xi + coeff * dxi` as an argument of a function; when the coordinate and its increment have been
exchanged (`get_function_coordinates` on a name that begins with `d`), this is `dxi + 1 * xi`. -/
def newArg (x dx : Str) (k : ℚ) : Str × ℚ := if dx = 'd' :: x then (x, k.num) else (dx, 1)

/-- finite_difference.py 269: `xi + coeff * dxi` as an expression. -/
def newArgument (x dx : Str) (k : ℚ) : SExpr :=
  if k.num = 0 then .sym x else .add (.sym x) (.mul (.num k.num) (.sym dx))

/-- finite_difference.py 247-270: what a function is replaced by. -/
def replacement (P : SymPy) : SExpr → Except PyErr SExpr
  | .fn u args => do
    let (x, dx) ← getFunctionCoordinates (args.map (shiftedArg P))
    let displacement ← getDisplacement (args.map (shiftedArg P))
    return scale (scaling displacement)
      (.fn u (((x.zip dx).zip displacement).map (fun p => newArg p.1.1 p.1.2 p.2)))
  | .func g a => do
    let (x, dx) ← argCoordinates { atoms := P.order a.symbols.dedup, coeff := fun _ => 0, text := [] }
    match P.coeff a dx with
    | none => .error .valueError
    | some k => return scale (scaling [k]) (.func g (newArgument x dx k))
  | _ => .error .valueError

/-- `expr.subs(f, new)` for a function `f`. -/
def subsF (f new : SExpr) (e : SExpr) : SExpr :=
  if e = f then new
  else match e with
    | .num q => .num q
    | .sym s => .sym s
    | .fn u args => .fn u args
    | .add a b => .add (subsF f new a) (subsF f new b)
    | .mul a b => .mul (subsF f new a) (subsF f new b)
    | .pow a n => .pow (subsF f new a) n
    | .func g a => .func g (subsF f new a)

/-- finite_difference.py 232-271 `regularize_finite_difference`; `atoms` enumerates the set `finite.atoms(Function)`, in any order. -/
def regularizeExpr (P : SymPy) (atoms : List SExpr) (e : SExpr) : Except PyErr SExpr :=
  atoms.foldlM (fun e f => do return subsF f (← replacement P f) e) e

/-- What `Eq(l, r)` returns: an equation, or `true`/`false` when SymPy decides it. -/
inductive SRel
  | eq (l : FExpr) (r : SExpr)
  | bool (b : Bool)
  deriving DecidableEq

/-- finite_difference.py 274-282 `regularize_finite_difference_system`; `atomsOf` enumerates the functions of each right-hand side and
`decideEq` is SymPy's evaluation of equalities. -/
def regularizeSystem (P : SymPy) (decideEq : FExpr → SExpr → Option Bool) (atomsOf : SExpr → List SExpr) :
    List SRel → Except PyErr (List SRel)
  | [] => .ok []
  | .bool _ :: _ => .error .valueError
  | .eq l r :: sys => do
    let r ← regularizeExpr P (atomsOf r) r
    let rest ← regularizeSystem P decideEq atomsOf sys
    return (match decideEq l r with
      | some b => .bool b
      | none => .eq l r) :: rest

/-! ## Staggered schemes -/

/-- `u(.., x, ..).subs(x, x + k*dx)` -/
def shiftArgsQ (args : List (Str × ℚ)) (x : Str) (k : ℚ) : List (Str × ℚ) :=
  args.map (fun a => if a.1 = x then (a.1, a.2 + k) else a)

/-- The sum `Σ w_k * dx^(-o) * e_k` written by `as_finite_difference`. -/
def stencilSumQ (x : Str) (o : ℕ) (f : ℚ → SExpr) : List (ℚ × ℚ) → SExpr
  | [] => .num 0
  | (w, k) :: rest => .add (.mul (.mul (.num w) (.pow (.sym ('d' :: x)) (-(o : ℤ)))) (f k)) (stencilSumQ x o f rest)

/-- finite_difference.py 155-185: the staggered scheme of a derivative, one variable after the other (see `sympyMixed`). -/
def staggeredExpr (u : Str) (args : List (Str × ℚ)) : List (Str × ℕ) → SExpr
  | [] => .fn u args
  | (x, o) :: rest =>
    stencilSumQ x o (fun k => staggeredExpr u (shiftArgsQ args x k) rest) ((weights o (staggered o) (0 : ℚ)).zip (staggered o))

/-- finite_difference.py 155-185 `_sympy_finite_difference`: each derivative is replaced by its staggered scheme.  Simplification:
SymPy also replaces a derivative inside the higher derivatives of the same function; the loop that does so is in `Model/Stagger.lean`, and
C103_loop_stagger shows that it gives the same value. -/
def stagger : FExpr → SExpr
  | .num q => .num q
  | .sym s => .sym s
  | .fn u args => .fn u (args.map (fun a => (a.1, (a.2 : ℚ))))
  | .deriv (.fn u args) vars => staggeredExpr u (args.map (fun a => (a.1, (a.2 : ℚ)))) vars
  | .deriv _ _ => .num 0
  | .add a b => .add (stagger a) (stagger b)
  | .mul a b => .mul (stagger a) (stagger b)
  | .pow a n => .pow (stagger a) n
  | .func g a => .func g (stagger a)

end Sympkf.FinDiff
