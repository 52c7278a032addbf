import Mathlib.Data.List.Dedup
import Mathlib.Algebra.Field.Rat
import Verif.Model.Text

/-!
# Systems of partial differential equations

`src/sympkf/symbolic/util.py`: class `PDESystem` (159-333) and `get_trend` (493-505).  Here symbols carry their SymPy class,
because `PDESystem` distinguishes `TrainableScalar` and the model builder introduces `FunctionSymbol` and `ScalarSymbol`; two
symbols of different classes are different even if they have the same name.

Simplifications: sums and products are binary; applied undefined functions have symbols as arguments; elementary functions have
one argument; the variables of a derivative are plain symbols.
-/

set_option autoImplicit false

namespace Sympkf.PDE

open Text

/-- The classes of symbols: SymPy's `Symbol` and util.py 12-52. -/
inductive Kind
  | plain | trainable | functionSymbol | scalarSymbol
  deriving DecidableEq

/-- Expressions. -/
inductive Sy
  | num (q : ℚ)
  | sym (k : Kind) (s : Str)
  /-- an applied undefined function `u(t, x)` -/
  | fn (u : Str) (args : List Str)
  /-- an elementary function of one argument, `sin(a)` -/
  | func (g : Str) (a : Sy)
  | add (a b : Sy)
  | mul (a b : Sy)
  | pow (a b : Sy)
  /-- `Derivative(a, (x, n), ..)` -/
  | deriv (a : Sy) (vars : List (Str × ℕ))
  deriving DecidableEq

/-- constants.py 2: the time symbol. -/
def time : Str := "t".toList

/-- An equation `Eq(lhs, rhs)`. -/
structure Equation where
  lhs : Sy
  rhs : Sy
  deriving DecidableEq

namespace Sy

/-- `e.atoms(Symbol)`, with repetitions. -/
def symbols : Sy → List (Kind × Str)
  | .num _ => []
  | .sym k s => [(k, s)]
  | .fn _ args => args.map (fun x => (Kind.plain, x))
  | .func _ a => symbols a
  | .add a b => symbols a ++ symbols b
  | .mul a b => symbols a ++ symbols b
  | .pow a b => symbols a ++ symbols b
  | .deriv a vars => symbols a ++ vars.map (fun v => (Kind.plain, v.1))

/-- `e.atoms(Function)`, with repetitions. -/
def functions : Sy → List Sy
  | .num _ => []
  | .sym _ _ => []
  | .fn u args => [.fn u args]
  | .func g a => .func g a :: functions a
  | .add a b => functions a ++ functions b
  | .mul a b => functions a ++ functions b
  | .pow a b => functions a ++ functions b
  | .deriv a _ => functions a

/-- `e.atoms(Derivative)`, with repetitions. -/
def derivatives : Sy → List Sy
  | .num _ => []
  | .sym _ _ => []
  | .fn _ _ => []
  | .func _ a => derivatives a
  | .add a b => derivatives a ++ derivatives b
  | .mul a b => derivatives a ++ derivatives b
  | .pow a b => derivatives a ++ derivatives b
  | .deriv a vars => .deriv a vars :: derivatives a

/-- `e.args` (the arguments of a sum or a product are taken two by two; SymPy merges nested derivatives, so a derivative is never
the argument of a derivative and its own arguments are not needed). -/
def args : Sy → List Sy
  | .num _ => []
  | .sym _ _ => []
  | .fn _ args => args.map (.sym .plain)
  | .func _ a => [a]
  | .add a b => [a, b]
  | .mul a b => [a, b]
  | .pow a b => [a, b]
  | .deriv _ _ => []

/-- `derivative.args[0]`. -/
def base : Sy → Sy
  | .deriv a _ => a
  | e => e

/-- util.py 256-257: the time symbol is in `derivative.args[1]`, the *first* pair (variable, order). -/
def timeFirst : Sy → Bool
  | .deriv _ ((x, _) :: _) => x = time
  | _ => false

/-- util.py 501: `derivative.args[1] == (t, 1)`. -/
def isTrend : Sy → Bool
  | .deriv _ ((x, n) :: _) => x = time && n = 1
  | _ => false

/-- `derivative.derivative_count`. -/
def count : Sy → ℕ
  | .deriv _ vars => (vars.map (·.2)).sum
  | _ => 0

/-- util.py 268-269: `variable.args[0].atoms(Symbol)` does not contain the time.  A function without arguments raises
`IndexError`. -/
def isConstant (f : Sy) : Except PyErr Bool :=
  match f.args with
  | [] => .error .indexError
  | a :: _ => .ok (decide ((Kind.plain, time) ∉ a.symbols))

end Sy

/-- `equation.atoms(Derivative)`, without repetitions. -/
def Equation.derivatives (e : Equation) : List Sy := (e.lhs.derivatives ++ e.rhs.derivatives).dedup

/-- util.py 493-505 `get_trend`, compared with the left-hand side (model_builder.py 241): the set of trends is replaced by its
element when it has exactly one. -/
def Equation.lhsIsTrend (e : Equation) : Bool := e.derivatives.filter Sy.isTrend = [e.lhs]

/-- util.py 238-246 `_get_functions`, as a list without repetitions. -/
def functionsOf (eqs : List Equation) : List Sy :=
  (eqs.flatMap (fun e => e.lhs.functions ++ e.rhs.functions)).dedup

/-- util.py 248-260 `_get_prognostic_functions`; `iter` is the iteration order of sets. -/
def prognosticOf (iter : List Sy → List Sy) (eqs : List Equation) : List Sy :=
  eqs.flatMap (fun e => ((iter e.derivatives).filter Sy.timeFirst).map Sy.base)

/-- util.py 262-272 `_get_constant_functions`: the loop. -/
def constantLoop : List Sy → Except PyErr (List Sy)
  | [] => .ok []
  | f :: fs => do
    let b ← f.isConstant
    let r ← constantLoop fs
    return if b then f :: r else r

/-- util.py 287-294 `_get_coordinates`. -/
def coordinatesOf (prognostic : List Sy) : List Sy :=
  prognostic.foldl (fun c f => if c.length < f.args.length then f.args else c) []

/-- The attributes set by `PDESystem.__init__`, util.py 165-195.  Sets are lists in iteration order. -/
structure System where
  equations : List Equation
  functions : List Sy
  prognostic : List Sy
  constantFunctions : List Sy
  exogenous : List Sy
  coordinates : List Sy
  spatialCoordinates : List Sy
  trainable : List Sy
  constants : List Sy
  spatialDerivatives : List Sy
  maxOrder : ℕ

/-- A symbol as an expression. -/
def ofSymbol (p : Kind × Str) : Sy := .sym p.1 p.2

/-- util.py 312-320 `_get_trainable_scalars`. -/
def trainableOf (eqs : List Equation) : List Sy :=
  ((eqs.flatMap (fun e => e.rhs.symbols)).filter (fun p => p.1 = Kind.trainable)).dedup.map ofSymbol

/-- util.py 300-310 `_get_constants`: symbols of the right-hand sides that are not coordinates, nor trainable scalars of that
right-hand side. -/
def constantsOf (coordinates : List Sy) (eqs : List Equation) : List Sy :=
  (eqs.flatMap (fun e => ((e.rhs.symbols.map ofSymbol).filter (fun s => s ∉ coordinates)).filter
    (fun s => s ∉ (e.rhs.symbols.filter (fun p => p.1 = Kind.trainable)).map ofSymbol))).dedup

/-- util.py 165-195 `PDESystem.__init__`.  `iter` gives the iteration order of sets. -/
def System.build (iter : List Sy → List Sy) (eqs : List Equation) : Except PyErr System := do
  let functions := functionsOf eqs
  let prognostic := prognosticOf iter eqs
  let constantFunctions ← constantLoop (functions.filter (· ∉ prognostic))
  let exogenous := (functions.filter (· ∉ prognostic)).filter (· ∉ constantFunctions)
  let coordinates := coordinatesOf prognostic
  match coordinates with
  | [] => .error .indexError
  | c :: cs =>
    if c = .sym .plain time then
      let derivs := (eqs.flatMap (fun e => e.rhs.derivatives)).dedup
      return {
        equations := eqs
        functions := iter functions
        prognostic := prognostic
        constantFunctions := iter constantFunctions
        exogenous := iter exogenous
        coordinates := coordinates
        spatialCoordinates := cs
        trainable := iter (trainableOf eqs)
        constants := iter (constantsOf coordinates eqs)
        spatialDerivatives := iter derivs
        maxOrder := derivs.foldl (fun m d => max m d.count) 0 }
    else .error .assertionError

end Sympkf.PDE
