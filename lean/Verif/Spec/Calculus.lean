import Verif.Spec.Stoch
import Verif.Model.Poly

/-!
# Specification: differential calculus on the coordinates, rational powers
-/

set_option autoImplicit false

namespace Sympkf.Spec

open Text Rand

variable {R : Type} [CommRing R] [Algebra ℚ R]

/-- The laws of derivatives alone. -/
structure Diff (S : Interp R) : Prop where
  pw_nat : ∀ r (n : ℕ), S.pw r (n : ℚ) = r ^ n
  D_add : ∀ x r s, S.D x (r + s) = S.D x r + S.D x s
  D_mul : ∀ x r s, S.D x (r * s) = S.D x r * s + r * S.D x s
  D_comm : ∀ x y r, S.D x (S.D y r) = S.D y (S.D x r)

theorem Stochastic.diff {S : Interp R} {A : Subalgebra ℚ R} (h : Stochastic S A) : Diff S :=
  ⟨h.pw_nat, h.D_add, h.D_mul, h.D_comm⟩

/-- The value is in the domain of the elementary function `g`: positive for the logarithm; the functions `cos^2` and `1 + r^2`, by
which the derivatives of the tangent and of the arc tangent are divided, are positive. -/
def InDomain (S : Interp R) (P : Set R) (g : Str) (r : R) : Prop :=
  (g = "log".toList → r ∈ P) ∧ (g = "tan".toList → S.func "cos".toList r ^ 2 ∈ P) ∧ (g = "atan".toList → 1 + r ^ 2 ∈ P)

/-- The laws of derivatives and powers: `C` are the coordinates, `P` the (positive) fields that may be raised to any rational
power. -/
structure Calculus (S : Interp R) (P : Set R) (C : Set Str) : Prop where
  omega_notMem : omega ∉ C
  D_sym : ∀ x ∈ C, ∀ s, S.D x (S.sym s) = if s = x then 1 else 0
  D_fn : ∀ x ∈ C, ∀ u args, x ∉ args → S.D x (S.fn u args) = 0
  pw_add : ∀ r ∈ P, ∀ p q, S.pw r (p + q) = S.pw r p * S.pw r q
  pw_mul : ∀ r ∈ P, ∀ p q, S.pw (S.pw r p) q = S.pw r (p * q)
  D_pw : ∀ x ∈ C, ∀ r ∈ P, ∀ q, S.D x (S.pw r q) = algebraMap ℚ R q * S.pw r (q - 1) * S.D x r
  positive : ∀ u args, positiveFn (.fn u args) = true → S.fn u args ∈ P
  zero_notMem : (0 : R) ∉ P
  /-- chain rules -/
  D_exp : ∀ x ∈ C, ∀ r, S.D x (S.func "exp".toList r) = S.func "exp".toList r * S.D x r
  D_sin : ∀ x ∈ C, ∀ r, S.D x (S.func "sin".toList r) = S.func "cos".toList r * S.D x r
  D_cos : ∀ x ∈ C, ∀ r, S.D x (S.func "cos".toList r) = - S.func "sin".toList r * S.D x r
  D_sinh : ∀ x ∈ C, ∀ r, S.D x (S.func "sinh".toList r) = S.func "cosh".toList r * S.D x r
  D_cosh : ∀ x ∈ C, ∀ r, S.D x (S.func "cosh".toList r) = S.func "sinh".toList r * S.D x r
  D_tanh : ∀ x ∈ C, ∀ r, S.D x (S.func "tanh".toList r) = (1 - S.func "tanh".toList r ^ 2) * S.D x r
  D_tan : ∀ x ∈ C, ∀ r, S.func "cos".toList r ^ 2 ∈ P → S.D x (S.func "tan".toList r) = (1 + S.func "tan".toList r ^ 2) * S.D x r
  D_log : ∀ x ∈ C, ∀ r ∈ P, S.D x (S.func "log".toList r) = S.pw r (-1) * S.D x r
  D_atan : ∀ x ∈ C, ∀ r, 1 + r ^ 2 ∈ P → S.D x (S.func "atan".toList r) = S.pw (1 + r ^ 2) (-1) * S.D x r

/-- `Regular S P C e`: derivatives in `e` are along coordinates; exponents in `e` are natural unless the base is in `P`; the arguments
of elementary functions are in their domains; random functions in `e` are centred unless they only occur as `E[X]`. -/
def Regular (S : Interp R) (P : Set R) (C : Set Str) : Ex → Prop
  | .num _ => True
  | .sym _ => True
  | .fn u args => omega ∈ args → S.E (S.fn u args) = 0
  | .func g a => Regular S P C a ∧ InDomain S P g (den S a)
  | .add a b => Regular S P C a ∧ Regular S P C b
  | .mul a b => Regular S P C a ∧ Regular S P C b
  | .pow a q => Regular S P C a ∧ (isNat q = true ∨ den S a ∈ P)
  | .deriv a vars => Regular S P C a ∧ ∀ v ∈ vars, v.1 ∈ C
  | .integ a x => Regular S P C a ∧ x ≠ omega
  | .ex a => Regular S P C a ∨ ∃ u args, a = .fn u args
  | .other _ => True

end Sympkf.Spec
