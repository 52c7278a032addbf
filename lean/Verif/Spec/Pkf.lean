import Verif.Spec.Calculus
import Verif.Spec.Jet
import Verif.Spec.Field
import Verif.Model.Pkf

/-!
# Specification: the dynamics of a random state around its mean
-/

set_option autoImplicit false

namespace Sympkf.Spec

open Text Rand PKF

variable {R : Type} [CommRing R] [Algebra ℚ R]

/-- A random state: a stochastic differential ring in which the symbols of the fields of `K` have their meaning.  `coords` are
the coordinates of the fields. -/
structure Setting (S : Interp R) (A : Subalgebra ℚ R) (P : Set R) (C : Set Str) (K : Pkf) (coords : List Str) : Prop where
  stoch : Stochastic S A
  calculus : Calculus S P C
  /-- sets and dictionaries are iterated in any order -/
  order : ∀ g l, (K.order g l).Perm l
  arrange : ∀ d, (K.arrange d).Perm d
  same : ∀ f ∈ K.fields, f.coordinates = coords
  nodup : coords.Nodup
  sub : ∀ x ∈ coords, x ∈ C
  time_mem : time ∈ C
  space : coords.filter (· ≠ time) ≠ []
  /-- no field is called like a variance or a standard deviation -/
  names : ∀ f ∈ K.fields, positiveFn f.value = false
  normal : ∀ f ∈ K.fields, Normalised S f
  cov : ∀ f g, [f, g].Sublist K.fields → ∀ v, covariance Pkf.label K.fields f g = .ok v →
    den S v = S.E (den S f.error * den S g.error)

/-! ## Perturbations -/

/-- Quantities depending on a small parameter, up to the second order: the field `f` has the value `E[f] + X e_f`. -/
def perturbed (S : Interp R) (fields : List Field) : Interp (Jet R) where
  sym s := .const (S.sym s)
  fn u args :=
    if (⟨u, args⟩ : Field) ∈ fields then ⟨S.E (den S (Field.random ⟨u, args⟩)), den S (Field.error ⟨u, args⟩), 0⟩
    else .const (S.fn u args)
  func := Jet.func S
  pw := Jet.pw S
  D x := Jet.map (S.D x)
  I x := Jet.map (S.I x)
  E := Jet.map S.E
  other b := .const (S.other b)

/-- The fields take the values of the random state. -/
def realised (S : Interp R) (fields : List Field) : Interp R :=
  { S with fn := fun u args => if (⟨u, args⟩ : Field) ∈ fields then den S (Field.random ⟨u, args⟩) else S.fn u args }

/-- No field occurs in the expression. -/
def FieldFree (fields : List Field) : Ex → Prop
  | .num _ => True
  | .sym _ => True
  | .fn u args => (⟨u, args⟩ : Field) ∉ fields
  | .func _ a => FieldFree fields a
  | .add a b => FieldFree fields a ∧ FieldFree fields b
  | .mul a b => FieldFree fields a ∧ FieldFree fields b
  | .pow a _ => FieldFree fields a
  | .deriv a _ => FieldFree fields a
  | .integ a _ => FieldFree fields a
  | .ex a => FieldFree fields a
  | .other _ => True

/-- The functions whose derivatives are known. -/
def elementaryNames : List Str :=
  ["exp".toList, "sin".toList, "cos".toList, "sinh".toList, "cosh".toList, "tan".toList, "tanh".toList, "log".toList, "atan".toList]

/-- A deterministic expression with a Taylor expansion around the mean, built of numbers, parameters, fields, their derivatives
and other functions by sums, products, derivatives, elementary functions, and powers (of quantities that are positive at the mean
if the exponent is not a natural number).  The mean is in the domain of the elementary functions.  Other functions and integrals are allowed if no field occurs in them.  The name of the
small parameter is not used. -/
def Expandable (S : Interp R) (P : Set R) (C : Set Str) (fields : List Field) : Ex → Prop
  | .num _ => True
  | .sym s => s ≠ Pkf.epsSym ∧ s ≠ omega
  | .fn _ args => Pkf.epsSym ∉ args ∧ omega ∉ args
  | .func g a => ((g ∈ elementaryNames ∨ FieldFree fields a) ∧ InDomain S P g (den (perturbed S fields) a).c0) ∧ Expandable S P C fields a
  | .add a b => Expandable S P C fields a ∧ Expandable S P C fields b
  | .mul a b => Expandable S P C fields a ∧ Expandable S P C fields b
  | .pow a q => Expandable S P C fields a ∧ (isNat q = true ∨ (den (perturbed S fields) a).c0 ∈ P)
  | .deriv a vars => Expandable S P C fields a ∧ ∀ v ∈ vars, v.1 ∈ C
  | .integ a x => FieldFree fields a ∧ Expandable S P C fields a ∧ x ≠ Pkf.epsSym ∧ x ≠ omega
  | .ex _ => False
  | .other _ => False

/-- A deterministic expression, polynomial in the fields and their derivatives; the coefficients are built of numbers, parameters,
other functions, elementary functions (within their domains), integrals and powers of positive quantities.  The name of the small parameter is not
used. -/
def Polynomials (S : Interp R) (P : Set R) (C : Set Str) (fields : List Field) : Ex → Prop
  | .num _ => True
  | .sym s => s ≠ Pkf.epsSym ∧ s ≠ omega
  | .fn _ args => Pkf.epsSym ∉ args ∧ omega ∉ args
  | .func g a => (FieldFree fields a ∧ InDomain S P g (den S a)) ∧ Polynomials S P C fields a
  | .add a b => Polynomials S P C fields a ∧ Polynomials S P C fields b
  | .mul a b => Polynomials S P C fields a ∧ Polynomials S P C fields b
  | .pow a q => Polynomials S P C fields a ∧ (isNat q = true ∨ (FieldFree fields a ∧ den S a ∈ P))
  | .deriv a vars => Polynomials S P C fields a ∧ ∀ v ∈ vars, v.1 ∈ C
  | .integ a x => FieldFree fields a ∧ Polynomials S P C fields a ∧ x ≠ Pkf.epsSym ∧ x ≠ omega
  | .ex _ => False
  | .other _ => False

/-- The dynamics: evolution equations `Derivative(f, t) = rhs` whose right-hand sides have Taylor expansions. -/
structure Dynamics (S : Interp R) (P : Set R) (C : Set Str) (K : Pkf) : Prop where
  eps : Pkf.epsSym ∉ C
  lhs : K.equations.map Prod.fst = K.fields.map (fun f => Pkf.dt f.value)
  rhs : ∀ q ∈ K.equations, Expandable S P C K.fields q.2

/-- The errors follow the tangent-linear dynamics along the mean: the derivative with respect to the small parameter. -/
def Tangent (S : Interp R) (K : Pkf) : Prop :=
  ∀ fq ∈ K.fields.zip K.equations, S.D time (den S fq.1.error) = (den (perturbed S K.fields) fq.2.2).c1

/-- The random fields are a solution of the dynamics, and the errors are the deviations from the mean. -/
structure RandomSolution (S : Interp R) (K : Pkf) : Prop where
  deviation : ∀ f ∈ K.fields, den S f.random = S.E (den S f.random) + den S f.error
  trend : ∀ fq ∈ K.fields.zip K.equations, S.D time (den S fq.1.random) = den (realised S K.fields) fq.2.2

/-- The index pairs `i <= j < n`, row by row. -/
def upper (n : ℕ) : List (ℕ × ℕ) := (List.product (List.range n) (List.range n)).filter (fun p => p.1 ≤ p.2)

/-- The degree in the fields and their derivatives. -/
def fieldDegree (fields : List Field) : Ex → ℕ
  | .fn u args => if (⟨u, args⟩ : Field) ∈ fields then 1 else 0
  | .add a b => max (fieldDegree fields a) (fieldDegree fields b)
  | .mul a b => fieldDegree fields a + fieldDegree fields b
  | .pow a q => q.num.toNat * fieldDegree fields a
  | .deriv a _ => fieldDegree fields a
  | _ => 0

/-! ## Systems without random forcing -/

/-- Nothing random: no `omega`, no expectation, no object of unknown type. -/
def Deterministic : Ex → Prop
  | .num _ => True
  | .sym s => s ≠ omega
  | .fn _ args => omega ∉ args
  | .func _ a => Deterministic a
  | .add a b => Deterministic a ∧ Deterministic b
  | .mul a b => Deterministic a ∧ Deterministic b
  | .pow a _ => Deterministic a
  | .deriv a vars => Deterministic a ∧ ∀ v ∈ vars, v.1 ≠ omega
  | .integ a x => Deterministic a ∧ x ≠ omega
  | .ex _ => False
  | .other _ => False

/-- A deterministic system of equations whose fields have the same coordinates, at least one of them in space. -/
structure DetSystem (K : Pkf) (coords : List Str) : Prop where
  order : ∀ g l, (K.order g l).Perm l
  arrange : ∀ d, (K.arrange d).Perm d
  same : ∀ f ∈ K.fields, f.coordinates = coords
  nodup : coords.Nodup
  noise : omega ∉ coords
  space : coords.filter (· ≠ time) ≠ []
  equations : ∀ q ∈ K.equations, Deterministic q.1 ∧ Deterministic q.2

end Sympkf.Spec
