import Verif.Model.Random

/-!
# `doit`, `expand` and `subs` on polynomial expressions

`src/sympkf/symbolic/pkfcas.py` manipulates expressions with SymPy's `doit`, `expand` and `subs` (lines 102-126, 167-169, 186,
206, 238-242, 288-293, 380-388, 420-432, ..).  This file models the combination of the three on expressions that are polynomial
in undefined functions, their derivatives, symbols and expectations.  Simplifications:

* an expression is normalised to a sum of monomials, equal terms being collected, so that `doit` (which evaluates derivatives)
  and `expand` are always applied, also where the Python code only calls one of them;
* the order of terms and factors is that of `code` below, not SymPy's;
* of the elementary functions only those of `dfunc` are differentiated by the chain rule; other functions and integrals are opaque
  (`Derivative` stays unevaluated);
* a power of a sum with an exponent that is not a natural number is an atom, equal factors of this kind being collected as powers
  of the atom;
* objects of unknown type count as random (SymPy's route raises `NotImplementedError`, see `israndom`).
-/

set_option autoImplicit false

namespace Sympkf.Rand

open Text

/-! ## An order on expressions -/

/-- A text as numbers, ended by `1`. -/
def codeStr (s : Str) : List ℕ := s.map (fun c => c.toNat + 2) ++ [1]

/-- A number as a list of natural numbers. -/
def codeNum (q : ℚ) : List ℕ := [q.num.toNat, (-q.num).toNat, q.den]

/-- Expressions as lists of numbers (only used to sort). -/
def code : Ex → List ℕ
  | .num q => 0 :: codeNum q
  | .sym s => 1 :: codeStr s
  | .fn u args => 2 :: (codeStr u ++ (args.flatMap codeStr ++ [0]))
  | .deriv a vars => 3 :: (code a ++ (vars.flatMap (fun v => codeStr v.1 ++ [v.2]) ++ [0]))
  | .ex a => 4 :: code a
  | .func g a => 5 :: (codeStr g ++ code a)
  | .add a b => 6 :: (code a ++ code b)
  | .mul a b => 7 :: (code a ++ code b)
  | .pow a q => 8 :: (code a ++ codeNum q)
  | .integ a x => 9 :: (code a ++ codeStr x)
  | .other b => [10, b.toNat]

/-- Lexicographic comparison. -/
def ltNat : List ℕ → List ℕ → Bool
  | _, [] => false
  | [], _ :: _ => true
  | a :: as, b :: bs => decide (a < b) || (decide (a = b) && ltNat as bs)

/-! ## Monomials and polynomials -/

/-- A product of powers of atoms. -/
abbrev Mono := List (Ex × ℚ)

/-- A sum of monomials with coefficients. -/
abbrev Poly := List (Mono × ℚ)

/-- Multiplication of a monomial by `a ^ q`: exponents of equal factors are added. -/
def mulAtom (a : Ex) (q : ℚ) : Mono → Mono
  | [] => [(a, q)]
  | (b, p) :: m =>
    if a = b then if p + q = 0 then m else (b, p + q) :: m
    else if ltNat (code a) (code b) then (a, q) :: (b, p) :: m
    else (b, p) :: mulAtom a q m

/-- Product of monomials. -/
def monoMul (m m' : Mono) : Mono := m.foldr (fun f acc => mulAtom f.1 f.2 acc) m'

/-- A monomial as a list of numbers (only used to sort). -/
def monoCode (m : Mono) : List ℕ := m.flatMap (fun f => code f.1 ++ codeNum f.2)

/-- Sum of a polynomial and a term: coefficients of equal monomials are added. -/
def addTerm (m : Mono) (c : ℚ) : Poly → Poly
  | [] => if c = 0 then [] else [(m, c)]
  | (n, d) :: p =>
    if m = n then if d + c = 0 then p else (n, d + c) :: p
    else if c = 0 then (n, d) :: p
    else if ltNat (monoCode m) (monoCode n) then (m, c) :: (n, d) :: p
    else (n, d) :: addTerm m c p

/-- Sum. -/
def padd (p q : Poly) : Poly := p.foldr (fun t acc => addTerm t.1 t.2 acc) q

/-- A number. -/
def pconst (c : ℚ) : Poly := if c = 0 then [] else [([], c)]

/-- An atom. -/
def patom (a : Ex) : Poly := [([(a, 1)], 1)]

/-- Product of a term and a polynomial. -/
def pmulTerm (m : Mono) (c : ℚ) (q : Poly) : Poly := q.foldr (fun t acc => addTerm (monoMul m t.1) (c * t.2) acc) []

/-- Product. -/
def pmul (p q : Poly) : Poly := p.foldr (fun t acc => padd (pmulTerm t.1 t.2 q) acc) []

/-- Natural power. -/
def ppowN (p : Poly) : ℕ → Poly
  | 0 => pconst 1
  | n + 1 => pmul p (ppowN p n)

/-! ## Back to expressions -/

/-- A power of an atom. -/
def factorEx (f : Ex × ℚ) : Ex := if f.2 = 1 then f.1 else .pow f.1 f.2

/-- A monomial. -/
def monoEx (m : Mono) : Ex := prod (m.map factorEx)

/-- A term. -/
def termEx (t : Mono × ℚ) : Ex :=
  if t.2 = 1 then monoEx t.1 else if t.1 = [] then .num t.2 else .mul (.num t.2) (monoEx t.1)

/-- A polynomial. -/
def toEx : Poly → Ex
  | [] => .num 0
  | [t] => termEx t
  | t :: p => .add (termEx t) (toEx p)

/-! ## Powers -/

/-- The functions declared with `positive=True` (pkfcas.py 938, 941). -/
def positiveFn : Ex → Bool
  | .fn u _ => "{V_{".toList.isPrefixOf u || "{\\sigma_{".toList.isPrefixOf u
  | _ => false

/-- `q` is a natural number. -/
def isNat (q : ℚ) : Bool := decide (q.den = 1) && decide (0 ≤ q.num)

/-- `p ** q`.  SymPy simplifies `(a ** k) ** q` to `a ** (k q)` when `k = 1` or `a` is positive. -/
def ppow (p : Poly) (q : ℚ) : Poly :=
  if isNat q then ppowN p q.num.toNat
  else match p with
    | [([(a, k)], c)] =>
      if c = 1 ∧ (k = 1 ∨ positiveFn a = true) then [([(a, k * q)], 1)] else patom (.pow (toEx p) q)
    | _ => patom (.pow (toEx p) q)

/-! ## Derivatives -/

/-- One more derivative with respect to `x`; the variables are sorted. -/
def bumpVar (x : Str) : List (Str × ℕ) → List (Str × ℕ)
  | [] => [(x, 1)]
  | (y, n) :: vars =>
    if x = y then (y, n + 1) :: vars
    else if ltNat (codeStr x) (codeStr y) then (x, 1) :: (y, n) :: vars
    else (y, n) :: bumpVar x vars

/-- Does the function at the bottom of a derivative not depend on `x`? -/
def constIn (x : Str) : Ex → Bool
  | .fn _ args => decide (x ∉ args)
  | .deriv b _ => constIn x b
  | _ => false

/-- SymPy's `fdiff` of the elementary functions: the first and the second derivative of `g` at `a`. -/
def dfunc (g : Str) : Option ((Ex → Ex) × (Ex → Ex)) :=
  if g = "exp".toList then some (.func "exp".toList, .func "exp".toList)
  else if g = "sin".toList then some (.func "cos".toList, fun a => .mul (.num (-1)) (.func "sin".toList a))
  else if g = "cos".toList then
    some (fun a => .mul (.num (-1)) (.func "sin".toList a), fun a => .mul (.num (-1)) (.func "cos".toList a))
  else if g = "sinh".toList then some (.func "cosh".toList, .func "sinh".toList)
  else if g = "cosh".toList then some (.func "sinh".toList, .func "cosh".toList)
  else if g = "tan".toList then
    some (fun a => .add (.num 1) (.pow (.func "tan".toList a) 2),
      fun a => .mul (.num 2) (.mul (.func "tan".toList a) (.add (.num 1) (.pow (.func "tan".toList a) 2))))
  else if g = "tanh".toList then
    some (fun a => .add (.num 1) (.mul (.num (-1)) (.pow (.func "tanh".toList a) 2)),
      fun a => .mul (.num (-2)) (.mul (.func "tanh".toList a) (.add (.num 1) (.mul (.num (-1)) (.pow (.func "tanh".toList a) 2)))))
  else if g = "log".toList then some (fun a => .pow a (-1), fun a => .mul (.num (-1)) (.pow a (-2)))
  else if g = "atan".toList then
    some (fun a => .pow (.add (.num 1) (.pow a 2)) (-1),
      fun a => .mul (.num (-2)) (.mul a (.pow (.add (.num 1) (.pow a 2)) (-2))))
  else none

/-- The polynomial of an expression in which nothing is left to be evaluated but products and powers. -/
def reEx : Ex → Poly
  | .num q => pconst q
  | .add a b => padd (reEx a) (reEx b)
  | .mul a b => pmul (reEx a) (reEx b)
  | .pow a q => ppow (reEx a) q
  | a => patom a

/-- Derivative of an atom: chain rule for the functions of `dfunc` and for powers; random.py 44-45
`Expectation._eval_derivative`: the derivative of an expectation is not evaluated. -/
def diffAtom (x : Str) : Ex → Poly
  | .num _ => []
  | .sym s => if s = x then pconst 1 else []
  | .func g a =>
    match dfunc g with
    | some d => pmul (reEx (d.1 a)) (diffAtom x a)
    | none => patom (.deriv (.func g a) [(x, 1)])
  | .add a b => padd (diffAtom x a) (diffAtom x b)
  | .mul a b => padd (pmul (diffAtom x a) (reEx b)) (pmul (reEx a) (diffAtom x b))
  | .pow a q => pmul (pmul (pconst q) (ppow (reEx a) (q - 1))) (diffAtom x a)
  | .deriv b vars => if constIn x b then [] else patom (.deriv b (bumpVar x vars))
  | a => if constIn x a then [] else patom (.deriv a [(x, 1)])

/-- Product rule. -/
def diffMono (x : Str) : Mono → Poly
  | [] => []
  | (a, q) :: m =>
    padd (pmul (pmul (pmul (pconst q) (if q = 1 then pconst 1 else [([(a, q - 1)], 1)])) (diffAtom x a)) [(m, 1)])
      (pmul [([(a, q)], 1)] (diffMono x m))

/-- Derivative with respect to `x`. -/
def pdiff (x : Str) (p : Poly) : Poly := p.foldr (fun t acc => padd (pmul (pconst t.2) (diffMono x t.1)) acc) []

/-- Derivatives along `vars`. -/
def pdiffs (vars : List (Str × ℕ)) (p : Poly) : Poly := vars.foldl (fun p v => (pdiff v.1)^[v.2] p) p

/-! ## Expectation -/

/-- `israndom`, objects of unknown type counting as random. -/
def rnd (e : Ex) : Bool :=
  match israndom e with
  | .ok b => b
  | .error _ => true

/-- random.py 48-121 `Expectation.eval` on a term: deterministic factors are taken out (95-102); of a derivative only the first
pair is kept (104-105); integrals are exchanged (107-108). -/
def expectTerm (t : Mono × ℚ) : Poly :=
  let d := t.1.filter (fun f => !rnd f.1)
  match t.1.filter (fun f => rnd f.1) with
  | [] => [t]
  | [(.deriv (.fn u args) vars, q)] =>
    if q = 1 then pmulTerm d t.2 (patom (.deriv (.ex (.fn u args)) (vars.take 1)))
    else pmulTerm d t.2 (patom (.ex (monoEx [(.deriv (.fn u args) vars, q)])))
  | [(.integ b x, q)] =>
    if q = 1 then pmulTerm d t.2 (patom (.integ (.ex b) x))
    else pmulTerm d t.2 (patom (.ex (monoEx [(.integ b x, q)])))
  | r => pmulTerm d t.2 (patom (.ex (monoEx r)))

/-- random.py 64, 81-87: sums. -/
def pexpect (p : Poly) : Poly := p.foldr (fun t acc => padd (expectTerm t) acc) []

/-! ## Evaluation and substitution -/

/-- `e.doit().expand()`. -/
def ofEx : Ex → Poly
  | .num q => pconst q
  | .sym s => patom (.sym s)
  | .fn u args => patom (.fn u args)
  | .func g a => patom (.func g (toEx (ofEx a)))
  | .add a b => padd (ofEx a) (ofEx b)
  | .mul a b => pmul (ofEx a) (ofEx b)
  | .pow a q => ppow (ofEx a) q
  | .deriv a vars => pdiffs vars (ofEx a)
  | .integ a x => patom (.integ (toEx (ofEx a)) x)
  | .ex a => pexpect (ofEx a)
  | .other b => patom (.other b)

/-- `e.doit().expand()` as an expression. -/
def eval (e : Ex) : Ex := toEx (ofEx e)

/-- `vars` with `n` derivatives less with respect to `x`, if possible. -/
def takeVar (x : Str) (n : ℕ) : List (Str × ℕ) → Option (List (Str × ℕ))
  | [] => none
  | (y, k) :: vars =>
    if x = y then if n ≤ k then some ((y, k - n) :: vars) else none
    else (takeVar x n vars).map (fun r => (y, k) :: r)

/-- `vars` without `vs`, if `vs` is part of it. -/
def varsSub : List (Str × ℕ) → List (Str × ℕ) → Option (List (Str × ℕ))
  | [], vars => some vars
  | (x, n) :: vs, vars => (takeVar x n vars).bind (varsSub vs)

/-- `Derivative._eval_subs`: `Derivative(a, *vars)` contains `old = Derivative(a, *vs)` when `vs` is part of `vars`; the rest of
the variables. -/
def derivRest (old a : Ex) (vars : List (Str × ℕ)) : Option (List (Str × ℕ)) :=
  match old with
  | .deriv b vs => if a = b then varsSub vs vars else none
  | _ => none

/-- `e.subs(old, new).doit().expand()`; an expectation whose argument has changed is evaluated again. -/
def subst (old : Ex) (new : Poly) (e : Ex) : Poly :=
  if e = old then new
  else match e with
    | .num q => pconst q
    | .sym s => patom (.sym s)
    | .fn u args => patom (.fn u args)
    | .func g a => patom (.func g (toEx (subst old new a)))
    | .add a b => padd (subst old new a) (subst old new b)
    | .mul a b => pmul (subst old new a) (subst old new b)
    | .pow a q => ppow (subst old new a) q
    | .deriv a vars =>
      match derivRest old a vars with
      | some rest => pdiffs rest new
      | none => pdiffs vars (subst old new a)
    | .integ a x => patom (.integ (toEx (subst old new a)) x)
    | .ex a => pexpect (subst old new a)
    | .other b => patom (.other b)

/-- `e.subs(old, new)`. -/
def substEx (old new e : Ex) : Ex := toEx (subst (eval old) (ofEx new) (eval e))

/-- `e.subs(dict)`: the substitutions one after the other; the list is the order in which SymPy takes them. -/
def substAll (l : List (Ex × Ex)) (e : Ex) : Ex := l.foldl (fun e kv => substEx kv.1 kv.2 e) (eval e)

end Sympkf.Rand
