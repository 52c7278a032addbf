import Verif.Spec.Text
import Verif.Model.Builder

/-!
# Specification of systems of equations
-/

set_option autoImplicit false

namespace Sympkf.Spec.PDE

open Text Sympkf.PDE

/-- `a` occurs in `e`. -/
inductive Occurs (a : Sy) : Sy → Prop
  | refl : Occurs a a
  | arg (u : Str) (args : List Str) (x : Str) : x ∈ args → a = .sym .plain x → Occurs a (.fn u args)
  | func {b : Sy} (g : Str) : Occurs a b → Occurs a (.func g b)
  | addL {b : Sy} (c : Sy) : Occurs a b → Occurs a (.add b c)
  | addR {c : Sy} (b : Sy) : Occurs a c → Occurs a (.add b c)
  | mulL {b : Sy} (c : Sy) : Occurs a b → Occurs a (.mul b c)
  | mulR {c : Sy} (b : Sy) : Occurs a c → Occurs a (.mul b c)
  | powL {b : Sy} (c : Sy) : Occurs a b → Occurs a (.pow b c)
  | powR {c : Sy} (b : Sy) : Occurs a c → Occurs a (.pow b c)
  | deriv {b : Sy} (vars : List (Str × ℕ)) : Occurs a b → Occurs a (.deriv b vars)
  | var (b : Sy) (vars : List (Str × ℕ)) (x : Str) (n : ℕ) : (x, n) ∈ vars → a = .sym .plain x → Occurs a (.deriv b vars)

/-- `a` occurs in an equation of the system. -/
def InSystem (eqs : List Equation) (a : Sy) : Prop := ∃ e ∈ eqs, Occurs a e.lhs ∨ Occurs a e.rhs

/-- An applied function, undefined or elementary. -/
def IsFunction : Sy → Prop
  | .fn _ _ => True
  | .func _ _ => True
  | _ => False

/-- The time symbol. -/
def t : Sy := .sym .plain "t".toList

/-- `f` has a derivative with respect to time in the system. -/
def HasTimeDerivative (eqs : List Equation) (f : Sy) : Prop :=
  ∃ vars : List (Str × ℕ), InSystem eqs (.deriv f vars) ∧ ∃ n, ("t".toList, n) ∈ vars

/-! ## Evolution equations -/

/-- A first-order derivative with respect to time. -/
def IsTimeDerivative (d : Sy) : Prop := ∃ f, d = .deriv f [("t".toList, 1)]

/-- The left-hand side is the only first-order time derivative of the equation. -/
def OnlyTimeDerivative (e : Equation) : Prop :=
  IsTimeDerivative e.lhs ∧ ∀ d, IsTimeDerivative d → Occurs d e.lhs ∨ Occurs d e.rhs → d = e.lhs

/-- No derivative of the equation mixes the time with another variable. -/
def Unmixed (e : Equation) : Prop :=
  ∀ f vars n, Occurs (.deriv f vars) e.lhs ∨ Occurs (.deriv f vars) e.rhs → ("t".toList, n) ∈ vars → vars = [("t".toList, n)]

/-- Right-hand sides for which the generated code is meant: polynomials and powers of plain symbols, functions and derivatives of
functions.  The spatial coordinates do not appear, except as arguments. -/
inductive Supported (coords : List Sy) : Sy → Prop
  | num (q : ℚ) : Supported coords (.num q)
  | sym (s : Str) : s = "t".toList ∨ Sy.sym .plain s ∉ coords → Supported coords (.sym .plain s)
  | fn (u : Str) (args : List Str) : Supported coords (.fn u args)
  | add {a b : Sy} : Supported coords a → Supported coords b → Supported coords (.add a b)
  | mul {a b : Sy} : Supported coords a → Supported coords b → Supported coords (.mul a b)
  | pow {a b : Sy} : Supported coords a → Supported coords b → Supported coords (.pow a b)
  | deriv (u : Str) (args : List Str) (vars : List (Str × ℕ)) : vars ≠ [] → (vars.map Prod.fst).Nodup →
      (∀ v ∈ vars, 0 < v.2 ∧ v.1 ≠ "t".toList) → Supported coords (.deriv (.fn u args) vars)

/-- No square root and no inverse of a square root occurs. -/
def SquareRootFree : Sy → Prop
  | .func _ a => SquareRootFree a
  | .add a b => SquareRootFree a ∧ SquareRootFree b
  | .mul a b => SquareRootFree a ∧ SquareRootFree b
  | .pow a b => b ≠ .num (1 / 2) ∧ b ≠ .num (-1 / 2) ∧ SquareRootFree a ∧ SquareRootFree b
  | .deriv a _ => SquareRootFree a
  | _ => True

/-- A system of evolution equations: `d_t u_k = rhs_k`, one equation for each of the functions `u_k`. -/
structure Evolves (coords : List Sy) (eqs : List Equation) : Prop where
  lhs : ∀ e ∈ eqs, ∃ u args, e.lhs = .deriv (.fn u args) [("t".toList, 1)]
  distinct : (eqs.map (fun e => e.lhs)).Nodup
  rhs : ∀ e ∈ eqs, Supported coords e.rhs

/-- A system of evolution equations without square roots. -/
structure Evolution (coords : List Sy) (eqs : List Equation) : Prop extends Evolves coords eqs where
  roots : ∀ e ∈ eqs, SquareRootFree e.rhs

/-- The values of the functions and of the symbols. -/
structure Valuation (R : Type) where
  fn : Sy → R
  sym : Str → R

/-- The value of a right-hand side: every derivative is the discrete derivative of the value of its argument. -/
def rhsValue {R : Type} (A : Arith R) (ρ : Valuation R) : Sy → R
  | .num q => A.num q
  | .sym _ s => ρ.sym s
  | .fn u args => ρ.fn (.fn u args)
  | .func g a => ρ.fn (.func g a)
  | .add a b => A.add (rhsValue A ρ a) (rhsValue A ρ b)
  | .mul a b => A.mul (rhsValue A ρ a) (rhsValue A ρ b)
  | .pow a b => A.pow (rhsValue A ρ a) (rhsValue A ρ b)
  | .deriv a vars => A.diff vars (rhsValue A ρ a)

/-! ## Names -/

/-- A letter or an underscore. -/
def Letter (c : Char) : Prop := ('a' ≤ c ∧ c ≤ 'z') ∨ ('A' ≤ c ∧ c ≤ 'Z') ∨ c = '_'

/-- The words of the language. -/
def Reserved (s : Str) : Prop :=
  s ∈ ["False", "None", "True", "and", "as", "assert", "async", "await", "break", "class", "continue", "def", "del", "elif", "else",
    "except", "finally", "for", "from", "global", "if", "import", "in", "is", "lambda", "nonlocal", "not", "or", "pass", "raise",
    "return", "try", "while", "with", "yield"].map String.toList

/-- A name of a variable: a letter or an underscore, then letters, underscores and digits. -/
def Identifier : Str → Prop
  | [] => False
  | c :: cs => Letter c ∧ (∀ d ∈ cs, Letter d ∨ ('0' ≤ d ∧ d ≤ '9')) ∧ ¬ Reserved (c :: cs)

/-- The text ends with `_c_o12`: an underscore, a text without underscore, `_o` and a decimal number. -/
def EndsInGroup (s : Str) : Prop :=
  ∃ (w c : Str) (n : ℕ), '_' ∉ c ∧ s = w ++ ("_".toList ++ c ++ "_o".toList ++ Spec.decimal n)

end Sympkf.Spec.PDE
