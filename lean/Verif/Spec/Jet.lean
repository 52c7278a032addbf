import Verif.Spec.Stoch
import Mathlib.Tactic.Ring

/-!
# Specification: Taylor polynomials of degree two

Quantities depending on a small parameter, up to the third order: `c0 + c1 X + c2 X^2 + O(X^3)`.
-/

set_option autoImplicit false

namespace Sympkf.Spec

open Text Rand

/-- A Taylor polynomial of degree two. -/
@[ext]
structure Jet (R : Type) where
  c0 : R
  c1 : R
  c2 : R

namespace Jet

variable {R : Type} [CommRing R]

/-- A quantity that does not depend on the parameter. -/
def const (r : R) : Jet R := ⟨r, 0, 0⟩

/-- The parameter. -/
def eps : Jet R := ⟨0, 1, 0⟩

instance : Zero (Jet R) := ⟨const 0⟩
instance : One (Jet R) := ⟨const 1⟩
instance : Add (Jet R) := ⟨fun a b => ⟨a.c0 + b.c0, a.c1 + b.c1, a.c2 + b.c2⟩⟩
instance : Neg (Jet R) := ⟨fun a => ⟨-a.c0, -a.c1, -a.c2⟩⟩
/-- Products are truncated. -/
instance : Mul (Jet R) := ⟨fun a b => ⟨a.c0 * b.c0, a.c0 * b.c1 + a.c1 * b.c0, a.c0 * b.c2 + a.c1 * b.c1 + a.c2 * b.c0⟩⟩

@[simp] theorem zero_c0 : (0 : Jet R).c0 = 0 := rfl
@[simp] theorem zero_c1 : (0 : Jet R).c1 = 0 := rfl
@[simp] theorem zero_c2 : (0 : Jet R).c2 = 0 := rfl
@[simp] theorem one_c0 : (1 : Jet R).c0 = 1 := rfl
@[simp] theorem one_c1 : (1 : Jet R).c1 = 0 := rfl
@[simp] theorem one_c2 : (1 : Jet R).c2 = 0 := rfl
@[simp] theorem add_c0 (a b : Jet R) : (a + b).c0 = a.c0 + b.c0 := rfl
@[simp] theorem add_c1 (a b : Jet R) : (a + b).c1 = a.c1 + b.c1 := rfl
@[simp] theorem add_c2 (a b : Jet R) : (a + b).c2 = a.c2 + b.c2 := rfl
@[simp] theorem neg_c0 (a : Jet R) : (-a).c0 = -a.c0 := rfl
@[simp] theorem neg_c1 (a : Jet R) : (-a).c1 = -a.c1 := rfl
@[simp] theorem neg_c2 (a : Jet R) : (-a).c2 = -a.c2 := rfl
@[simp] theorem mul_c0 (a b : Jet R) : (a * b).c0 = a.c0 * b.c0 := rfl
@[simp] theorem mul_c1 (a b : Jet R) : (a * b).c1 = a.c0 * b.c1 + a.c1 * b.c0 := rfl
@[simp] theorem mul_c2 (a b : Jet R) : (a * b).c2 = a.c0 * b.c2 + a.c1 * b.c1 + a.c2 * b.c0 := rfl
@[simp] theorem const_c0 (r : R) : (const r).c0 = r := rfl
@[simp] theorem const_c1 (r : R) : (const r).c1 = 0 := rfl
@[simp] theorem const_c2 (r : R) : (const r).c2 = 0 := rfl
@[simp] theorem eps_c0 : (eps : Jet R).c0 = 0 := rfl
@[simp] theorem eps_c1 : (eps : Jet R).c1 = 1 := rfl
@[simp] theorem eps_c2 : (eps : Jet R).c2 = 0 := rfl

instance : CommRing (Jet R) where
  add_assoc a b c := by ext <;> simp [add_assoc]
  zero_add a := by ext <;> simp
  add_zero a := by ext <;> simp
  add_comm a b := by ext <;> simp [add_comm]
  neg_add_cancel a := by ext <;> simp
  mul_assoc a b c := by ext <;> simp <;> ring
  one_mul a := by ext <;> simp
  mul_one a := by ext <;> simp
  left_distrib a b c := by ext <;> simp <;> ring
  right_distrib a b c := by ext <;> simp <;> ring
  zero_mul a := by ext <;> simp
  mul_zero a := by ext <;> simp
  mul_comm a b := by ext <;> simp <;> ring
  nsmul := nsmulRec
  zsmul := zsmulRec

/-- Constants. -/
def constHom : R →+* Jet R where
  toFun := const
  map_one' := rfl
  map_mul' a b := by ext <;> simp
  map_zero' := rfl
  map_add' a b := by ext <;> simp

instance [Algebra ℚ R] : Algebra ℚ (Jet R) := (constHom.comp (algebraMap ℚ R)).toAlgebra

/-- The value of the Taylor polynomial of degree one, at `1`. -/
def first (a : Jet R) : R := a.c0 + a.c1

/-- The value of the Taylor polynomial of degree two, at `1`. -/
def second (a : Jet R) : R := a.c0 + a.c1 + a.c2

/-- An operation applied to every coefficient. -/
def map (f : R → R) (a : Jet R) : Jet R := ⟨f a.c0, f a.c1, f a.c2⟩

variable [Algebra ℚ R]

/-- Taylor expansion of a function with the values `f0`, `f1`, `f2` of its derivatives at `a.c0`. -/
def compose (f0 f1 f2 : R) (a : Jet R) : Jet R := ⟨f0, f1 * a.c1, f1 * a.c2 + algebraMap ℚ R (1 / 2) * f2 * a.c1 * a.c1⟩

/-- The first and second derivatives of the elementary functions. -/
def derivatives (S : Interp R) (g : Str) (r : R) : Option (R × R) :=
  if g = "exp".toList then some (S.func "exp".toList r, S.func "exp".toList r)
  else if g = "sin".toList then some (S.func "cos".toList r, - S.func "sin".toList r)
  else if g = "cos".toList then some (- S.func "sin".toList r, - S.func "cos".toList r)
  else if g = "sinh".toList then some (S.func "cosh".toList r, S.func "sinh".toList r)
  else if g = "cosh".toList then some (S.func "sinh".toList r, S.func "cosh".toList r)
  else if g = "tan".toList then
    some (1 + S.func "tan".toList r ^ 2, 2 * S.func "tan".toList r * (1 + S.func "tan".toList r ^ 2))
  else if g = "tanh".toList then
    some (1 - S.func "tanh".toList r ^ 2, - 2 * S.func "tanh".toList r * (1 - S.func "tanh".toList r ^ 2))
  else if g = "log".toList then some (S.pw r (-1), - S.pw r (-2))
  else if g = "atan".toList then some (S.pw (1 + r ^ 2) (-1), - 2 * r * S.pw (1 + r ^ 2) (-2))
  else none

/-- An elementary function of a quantity depending on the parameter.  (Other functions are only used for quantities that do not
depend on it.) -/
def func (S : Interp R) (g : Str) (a : Jet R) : Jet R :=
  match derivatives S g a.c0 with
  | some (d1, d2) => compose (S.func g a.c0) d1 d2 a
  | none => const (S.func g a.c0)

/-- A rational power of a quantity depending on the parameter. -/
def pw (S : Interp R) (a : Jet R) (q : ℚ) : Jet R :=
  if q.den = 1 ∧ 0 ≤ q.num then a ^ q.num.toNat
  else compose (S.pw a.c0 q) (algebraMap ℚ R q * S.pw a.c0 (q - 1)) (algebraMap ℚ R (q * (q - 1)) * S.pw a.c0 (q - 2)) a

end Jet

end Sympkf.Spec
