import Mathlib.Algebra.Field.Rat
import Verif.Model.Text

/-!
# Random expressions and the operator `Expectation`

`src/sympkf/symbolic/random.py`.  SymPy expressions are trees.  Simplifications: sums and products are binary (SymPy flattens
and sorts them, and combines equal terms, which does not change values); exponents are rational numbers; elementary functions
have one argument; an applied undefined function has symbols as arguments.
-/

set_option autoImplicit false

namespace Sympkf.Rand

open Text

/-- random.py 8: the name of the symbol `omega`. -/
def omega : Str := "omega".toList

/-- Expressions. -/
inductive Ex
  /-- a number -/
  | num (q : ℚ)
  /-- a symbol -/
  | sym (s : Str)
  /-- an applied undefined function `u(t, x)`, `X(t, x, omega)` -/
  | fn (u : Str) (args : List Str)
  /-- an elementary function of one argument -/
  | func (g : Str) (a : Ex)
  | add (a b : Ex)
  | mul (a b : Ex)
  | pow (a : Ex) (q : ℚ)
  /-- `Derivative(a, (x, n), ..)` -/
  | deriv (a : Ex) (vars : List (Str × ℕ))
  /-- `Integral(a, x)` -/
  | integ (a : Ex) (x : Str)
  /-- an unevaluated `Expectation(a)` -/
  | ex (a : Ex)
  /-- any other SymPy object; the flag tells whether it contains `omega` -/
  | other (hasOmega : Bool)
  deriving DecidableEq

/-- `arg.has(omega)`: SymPy traverses the whole tree, including the variables of derivatives and integrals.  (The override
`Expectation.has`, random.py 123-151, is only used when the root is an `Expectation`, which `israndom` tests first.) -/
def hasOmega : Ex → Bool
  | .num _ => false
  | .sym s => s = omega
  | .fn _ args => omega ∈ args
  | .func _ a => hasOmega a
  | .add a b => hasOmega a || hasOmega b
  | .mul a b => hasOmega a || hasOmega b
  | .pow a _ => hasOmega a
  | .deriv a vars => hasOmega a || vars.any (fun v => v.1 = omega)
  | .integ a x => hasOmega a || x = omega
  | .ex a => hasOmega a
  | .other b => b

/-- `any` over two elements, stopping at the first success. -/
def anyE (a b : Except PyErr Bool) : Except PyErr Bool :=
  match a with
  | .error e => .error e
  | .ok true => .ok true
  | .ok false => b

/-- random.py 175-217 `israndom` on expressions. -/
def israndom (e : Ex) : Except PyErr Bool :=
  match e with
  | .ex _ => .ok false
  | .num _ => .ok false
  | .sym s => if hasOmega (.sym s) = false then .ok false else .ok (decide (s = omega))
  | .fn u args => if hasOmega (.fn u args) = false then .ok false else .ok (args.any (fun s => s = omega))
  | .func g a => if hasOmega (.func g a) = false then .ok false else israndom a
  | .add a b => if hasOmega (.add a b) = false then .ok false else anyE (israndom a) (israndom b)
  | .mul a b => if hasOmega (.mul a b) = false then .ok false else anyE (israndom a) (israndom b)
  | .pow a q => if hasOmega (.pow a q) = false then .ok false else anyE (israndom a) (.ok false)
  | .deriv a vars => if hasOmega (.deriv a vars) = false then .ok false else israndom a
  | .integ a x => if hasOmega (.integ a x) = false then .ok false else israndom a
  | .other b => if b = false then .ok false else .error .notImplementedError

/-! ## `expand` (SymPy) -/

/-- Product of two expanded expressions, distributed over sums: left factor. -/
def distribL (c : Ex) : Ex → Ex
  | .add a b => .add (distribL c a) (distribL c b)
  | a => .mul c a

/-- Product of two expanded expressions, distributed over sums. -/
def distrib : Ex → Ex → Ex
  | .add a b, c => .add (distrib a c) (distrib b c)
  | a, c => distribL a c

/-- Natural power of an expanded expression: products and sums are multiplied out. -/
def powN : Ex → ℕ → Ex
  | _, 0 => .num 1
  | .add a b, n + 1 => (List.replicate n (Ex.add a b)).foldl distrib (.add a b)
  | .mul a b, n + 1 => .mul (powN a (n + 1)) (powN b (n + 1))
  | a, n + 1 => .pow a ((n + 1 : ℕ) : ℚ)

/-- `arg.expand()`; derivatives are not evaluated and expectations are left as they are. -/
def expand : Ex → Ex
  | .num q => .num q
  | .sym s => .sym s
  | .fn u args => .fn u args
  | .func g a => .func g (expand a)
  | .add a b => .add (expand a) (expand b)
  | .mul a b => distrib (expand a) (expand b)
  | .pow a q => if q.den = 1 ∧ 0 ≤ q.num then powN (expand a) q.num.toNat else .pow (expand a) q
  | .deriv a vars => .deriv (expand a) vars
  | .integ a x => .integ (expand a) x
  | .ex a => .ex a
  | .other b => .other b

/-! ## `Expectation.eval` -/

/-- The arguments of a product. -/
def factors : Ex → List Ex
  | .mul a b => factors a ++ factors b
  | a => [a]

/-- The product of a list of factors. -/
def prod : List Ex → Ex
  | [] => .num 1
  | [a] => a
  | a :: as => .mul a (prod as)

/-- random.py 95-98: `arg.match(scalar * random)` where `scalar` is not random and `random` is.  SymPy's matching belongs to the
trusted base: the scalar collects the deterministic factors, the random part all others. -/
def splitFactors : List Ex → Except PyErr (List Ex × List Ex)
  | [] => .ok ([], [])
  | f :: fs => do
    let b ← israndom f
    let (d, r) ← splitFactors fs
    return if b then (d, f :: r) else (f :: d, r)

/-- random.py 48-121 `Expectation.eval` on expressions.  The recursion of the Python code is bounded by `fuel`; running out
of it is reported as `runtimeError` (theorem `C44_terminates`: it does not happen with enough fuel).
Line 105: of a derivative only `arg.args[1]`, the first pair (variable, order), is kept. -/
def expectation : ℕ → Ex → Except PyErr Ex
  | 0, _ => .error .runtimeError
  | fuel + 1, e => do
    let a := expand e
    if (← israndom a) = false then return a
    else match a with
      | .add b c => do
        let b' ← expectation fuel b
        let c' ← expectation fuel c
        return .add b' c'
      | .mul b c => do
        let (det, rnd) ← splitFactors (factors (.mul b c))
        if det = [] then return .ex (.mul b c)
        else do
          let r ← expectation fuel (prod rnd)
          return .mul (prod det) r
      | .deriv b vars => do
        let r ← expectation fuel b
        return .deriv r (vars.take 1)
      | .integ b x => do
        let r ← expectation fuel b
        return .integ r x
      | a => return .ex a

/-- The tree size, used as fuel. -/
def size : Ex → ℕ
  | .num _ => 1
  | .sym _ => 1
  | .fn _ _ => 1
  | .func _ a => size a + 1
  | .add a b => size a + size b + 1
  | .mul a b => size a + size b + 1
  | .pow a _ => size a + 1
  | .deriv a _ => size a + 1
  | .integ a _ => size a + 1
  | .ex a => size a + 1
  | .other _ => 1

/-- `Expectation(e)`. -/
def expect (e : Ex) : Except PyErr Ex := expectation (size (expand e)) e

/-- random.py 113-116: `Expectation(Eq(lhs, rhs))`. -/
def expectEq (lhs rhs : Ex) : Except PyErr (Ex × Ex) := do
  let l ← expect lhs
  let r ← expect rhs
  return (l, r)

/-- random.py 118-119: `Expectation(Matrix)`, entry by entry. -/
def expectMatrix (m : List Ex) : Except PyErr (List Ex) := m.mapM expect

/-- random.py 192-201: `israndom(Eq(lhs, rhs))`; both sides are evaluated before `any`. -/
def israndomEq (lhs rhs : Ex) : Except PyErr Bool :=
  if hasOmega lhs = false ∧ hasOmega rhs = false then .ok false
  else do
    let l ← israndom lhs
    let r ← israndom rhs
    return l || r

/-- random.py 123-151 `Expectation.has`: `omega` is removed from the patterns.  Here patterns are symbol names. -/
def hasSym (s : Str) : Ex → Bool
  | .num _ => false
  | .sym s' => s' = s
  | .fn _ args => s ∈ args
  | .func _ a => hasSym s a
  | .add a b => hasSym s a || hasSym s b
  | .mul a b => hasSym s a || hasSym s b
  | .pow a _ => hasSym s a
  | .deriv a vars => hasSym s a || vars.any (fun v => v.1 = s)
  | .integ a x => hasSym s a || x = s
  | .ex a => hasSym s a
  | .other b => b && s = omega

/-- random.py 150-151: `self.args[0].has(*pattern)` without `omega`; if the argument is itself an expectation its own override
is called. -/
def expectationHas (patterns : List Str) : Ex → Bool
  | .ex a => expectationHas (patterns.filter (fun s => s ≠ omega)) a
  | a => (patterns.filter (fun s => s ≠ omega)).any (fun s => hasSym s a)

end Sympkf.Rand
