import Verif.Spec.Pkf

/-!
# Specification: equations in which given functions do not occur, dynamics that are affine in the fields

A linear evolution of a random field decouples: the equations of the errors, hence those of the variances, the covariances and the
metrics, do not depend on the mean.  This file states what this means for expressions, without the operations of the model.
-/

set_option autoImplicit false

namespace Sympkf.Spec

open Text Rand PKF

/-- No function with a name of the list occurs in the expression, neither with nor without the argument `omega`, neither in a
derivative nor in an expectation. -/
def FreeOf (names : List Str) : Ex → Prop
  | .num _ => True
  | .sym _ => True
  | .fn u _ => u ∉ names
  | .func _ a => FreeOf names a
  | .add a b => FreeOf names a ∧ FreeOf names b
  | .mul a b => FreeOf names a ∧ FreeOf names b
  | .pow a _ => FreeOf names a
  | .deriv a _ => FreeOf names a
  | .integ a _ => FreeOf names a
  | .ex a => FreeOf names a
  | .other _ => True

/-- The names of the fields: `u(t, x)` is the field, `u(t, x, omega)` the random field and `E(u(t, x, omega))` its mean. -/
def fieldNames (fields : List Field) : List Str := fields.map (·.name)

/-- An expression that is affine in the fields: sums of fields, of their derivatives, of products with coefficients and of
expressions in which no field occurs.  The coefficients may be any expressions in which no field occurs. -/
inductive Affine (fields : List Field) : Ex → Prop
  | free (e : Ex) : FreeOf (fieldNames fields) e → Affine fields e
  | field (f : Field) : f ∈ fields → Affine fields f.value
  | deriv (a : Ex) (vars : List (Str × ℕ)) : Affine fields a → Affine fields (.deriv a vars)
  | add (a b : Ex) : Affine fields a → Affine fields b → Affine fields (.add a b)
  | mul (c a : Ex) : FreeOf (fieldNames fields) c → Affine fields a → Affine fields (.mul c a)
  | mulRight (a c : Ex) : Affine fields a → FreeOf (fieldNames fields) c → Affine fields (.mul a c)

/-- The functions that the package introduces have other names than the fields. -/
structure Apart (K : Pkf) : Prop where
  error : ∀ f ∈ K.fields, FreeOf (fieldNames K.fields) f.error
  epsilon : ∀ f ∈ K.fields, FreeOf (fieldNames K.fields) f.epsilon
  variance : ∀ f ∈ K.fields, FreeOf (fieldNames K.fields) f.variance
  metric : ∀ f ∈ K.fields, ∀ i j, FreeOf (fieldNames K.fields) (f.metric i j)
  aspect : ∀ f ∈ K.fields, ∀ i j, FreeOf (fieldNames K.fields) (f.aspect i j)
  diffusion : ∀ f ∈ K.fields, ∀ i j, FreeOf (fieldNames K.fields) (f.diffusion i j)
  cross : ∀ p ∈ couples K.fields, FreeOf (fieldNames K.fields) (.fn (Pkf.label ++ p.1.name ++ p.2.name) p.1.coordinates)

/-- A deterministic system whose right-hand sides are affine in the fields. -/
structure AffineSystem (K : Pkf) (coords : List Str) : Prop extends DetSystem K coords, Apart K where
  affine : ∀ q ∈ K.equations, Affine K.fields q.2

end Sympkf.Spec
