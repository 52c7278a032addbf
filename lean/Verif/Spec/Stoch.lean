import Mathlib.Algebra.Algebra.Subalgebra.Basic
import Mathlib.Algebra.Algebra.Rat
import Mathlib.Algebra.Ring.Rat
import Verif.Model.Random

/-!
# Specification: stochastic differential rings

Random fields form a commutative `ℚ`-algebra `R`; the deterministic fields are a subalgebra; `D x` is the derivative with
respect to the coordinate `x`, `E` the expectation: linear over the deterministic fields, commuting with derivatives and
integrals.  Expressions are evaluated in such a ring.
-/

set_option autoImplicit false

namespace Sympkf.Spec

open Text Rand

/-- An interpretation of the symbols of expressions in a ring `R`. -/
structure Interp (R : Type) [CommRing R] [Algebra ℚ R] where
  sym : Str → R
  fn : Str → List Str → R
  func : Str → R → R
  pw : R → ℚ → R
  D : Str → R → R
  I : Str → R → R
  E : R → R
  other : Bool → R

variable {R : Type} [CommRing R] [Algebra ℚ R]

/-- `D` iterated along `vars`, first pair first. -/
def derivs (S : Interp R) : List (Str × ℕ) → R → R
  | [], r => r
  | (x, n) :: vars, r => derivs S vars ((S.D x)^[n] r)

/-- Value of an expression. -/
def den (S : Interp R) : Ex → R
  | .num q => algebraMap ℚ R q
  | .sym s => S.sym s
  | .fn u args => S.fn u args
  | .func g a => S.func g (den S a)
  | .add a b => den S a + den S b
  | .mul a b => den S a * den S b
  | .pow a q => S.pw (den S a) q
  | .deriv a vars => derivs S vars (den S a)
  | .integ a x => S.I x (den S a)
  | .ex a => S.E (den S a)
  | .other b => S.other b

/-- The laws of a stochastic differential ring with deterministic subring `A`. -/
structure Stochastic (S : Interp R) (A : Subalgebra ℚ R) : Prop where
  sym_det : ∀ s, s ≠ omega → S.sym s ∈ A
  fn_det : ∀ u args, omega ∉ args → S.fn u args ∈ A
  func_det : ∀ g r, r ∈ A → S.func g r ∈ A
  pw_det : ∀ r q, r ∈ A → S.pw r q ∈ A
  pw_nat : ∀ r (n : ℕ), S.pw r (n : ℚ) = r ^ n
  D_det : ∀ x r, r ∈ A → S.D x r ∈ A
  D_add : ∀ x r s, S.D x (r + s) = S.D x r + S.D x s
  D_mul : ∀ x r s, S.D x (r * s) = S.D x r * s + r * S.D x s
  D_comm : ∀ x y r, S.D x (S.D y r) = S.D y (S.D x r)
  I_det : ∀ x r, r ∈ A → S.I x r ∈ A
  I_add : ∀ x r s, S.I x (r + s) = S.I x r + S.I x s
  E_det : ∀ r, S.E r ∈ A
  E_add : ∀ r s, S.E (r + s) = S.E r + S.E s
  E_mul : ∀ a r, a ∈ A → S.E (a * r) = a * S.E r
  E_const : ∀ a, a ∈ A → S.E a = a
  E_D : ∀ x r, x ≠ omega → S.E (S.D x r) = S.D x (S.E r)
  E_I : ∀ x r, x ≠ omega → S.E (S.I x r) = S.I x (S.E r)
  other_det : S.other false ∈ A

/-! ## Occurrences of `omega` -/

/-- `Child a e`: `a` is an argument of `e` in which randomness counts (arguments of expectations and variables of derivatives do
not). -/
inductive Child : Ex → Ex → Prop
  | func (g : Str) (a : Ex) : Child a (.func g a)
  | addL (a b : Ex) : Child a (.add a b)
  | addR (a b : Ex) : Child b (.add a b)
  | mulL (a b : Ex) : Child a (.mul a b)
  | mulR (a b : Ex) : Child b (.mul a b)
  | pow (a : Ex) (q : ℚ) : Child a (.pow a q)
  | deriv (a : Ex) (vars : List (Str × ℕ)) : Child a (.deriv a vars)
  | integ (a : Ex) (x : Str) : Child a (.integ a x)

/-- `Visible a e`: `a` is a subexpression of `e` that is not below an expectation. -/
inductive Visible : Ex → Ex → Prop
  | refl (a : Ex) : Visible a a
  | step {a b e : Ex} : Visible a b → Child b e → Visible a e

/-- `omega` occurs outside expectations. -/
def OmegaVisible (e : Ex) : Prop :=
  Visible (.sym omega) e ∨ ∃ u args, omega ∈ args ∧ Visible (.fn u args) e

/-- The symbol `s` is written somewhere in the expression, also below expectations and among the variables of derivatives and
integrals. -/
inductive Written (s : Str) : Ex → Prop
  | sym : Written s (.sym s)
  | fn {u : Str} {args : List Str} : s ∈ args → Written s (.fn u args)
  | child {a e : Ex} : Written s a → Child a e → Written s e
  | derivation {a : Ex} {vars : List (Str × ℕ)} {n : ℕ} : (s, n) ∈ vars → Written s (.deriv a vars)
  | integration {a : Ex} : Written s (.integ a s)
  | ex {a : Ex} : Written s a → Written s (.ex a)

/-- Every visible object has a type known to `israndom`. -/
def Supported (e : Ex) : Prop := ¬ Visible (.other true) e

/-- Every visible derivative has a single pair (variable, order) and no visible derivative or integral is with respect to
`omega`. -/
def SimpleDerivs (e : Ex) : Prop :=
  (∀ a vars, Visible (.deriv a vars) e → ∃ x n, vars = [(x, n)] ∧ x ≠ omega) ∧
    (∀ a x, Visible (.integ a x) e → x ≠ omega)

/-- `omega` occurs outside expectations and outside powers with the exponent zero (which are the number one). -/
def Random : Ex → Prop
  | .num _ | .ex _ | .other _ => False
  | .sym s => s = omega
  | .fn _ args => omega ∈ args
  | .func _ a => Random a
  | .add a b => Random a ∨ Random b
  | .mul a b => Random a ∨ Random b
  | .pow a q => q ≠ 0 ∧ Random a
  | .deriv a _ => Random a
  | .integ a _ => Random a

/-- When products and natural powers are multiplied out, every term is random. -/
def RandomTerms : Ex → Prop
  | .num _ | .ex _ | .other _ => False
  | .sym s => s = omega
  | .fn _ args => omega ∈ args
  | .func _ a => Random a
  | .add a b => RandomTerms a ∧ RandomTerms b
  | .mul a b => RandomTerms a ∨ RandomTerms b
  | .pow a q => q ≠ 0 ∧ ((∃ n : ℕ, q = n) → RandomTerms a) ∧ ((¬∃ n : ℕ, q = n) → Random a)
  | .deriv a _ => Random a
  | .integ a _ => Random a

/-- When products and natural powers are multiplied out, no term is a deterministic factor times a single random derivative with
several pairs (variable, order), or with respect to `omega`; the same for the arguments of the derivatives and integrals that are
alone in their terms. -/
def Lossless : Ex → Prop
  | .num _ | .ex _ | .other _ | .sym _ | .fn _ _ | .func _ _ => True
  | .add a b => Lossless a ∧ Lossless b
  | .mul a b => (Lossless a ∨ RandomTerms b) ∧ (Lossless b ∨ RandomTerms a)
  | .pow a q => ∀ n : ℕ, q = n → n = 0 ∨ Lossless a ∨ (RandomTerms a ∧ 2 ≤ n)
  | .deriv a vars => Random a → (∃ x n, vars = [(x, n)] ∧ x ≠ omega) ∧ Lossless a
  | .integ a x => Random a → x ≠ omega ∧ Lossless a

/-- `f` is a factor of `a`. -/
inductive Factor : Ex → Ex → Prop
  | refl (a : Ex) : Factor a a
  | left {f a : Ex} (b : Ex) : Factor f a → Factor f (.mul a b)
  | right {f b : Ex} (a : Ex) : Factor f b → Factor f (.mul a b)

/-- What may remain under an expectation: a random expression that is neither a sum, nor a derivative, nor an integral, and that
has no deterministic factor. -/
def Irreducible (a : Ex) : Prop :=
  (∀ b c, a ≠ .add b c) ∧ (∀ b v, a ≠ .deriv b v) ∧ (∀ b x, a ≠ .integ b x) ∧ ∀ f, Factor f a → OmegaVisible f

end Sympkf.Spec
