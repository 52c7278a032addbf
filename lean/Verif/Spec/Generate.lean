import Verif.Spec.Evolution
import Verif.Spec.PkfObject

/-!
# Specification: dynamics from which code can be generated
-/

set_option autoImplicit false

namespace Sympkf.Spec

open Text Rand PKF

/-- Expressions that are meant for the generation of code: polynomials and powers of symbols, functions and derivatives.  The coordinates
of space do not appear, except as arguments; functions have arguments. -/
def Codable (coords : List Str) : Ex → Prop
  | .num _ => True
  | .sym s => s = time ∨ s ∉ coords
  | .fn _ args => args ≠ []
  | .add a b => Codable coords a ∧ Codable coords b
  | .mul a b => Codable coords a ∧ Codable coords b
  | .pow a _ => Codable coords a
  | .deriv a _ => Codable coords a
  | _ => False

/-- A function that occurs in the dynamics or in a value of the closure of the user. -/
def Given (K : Pkf) (user : Dict Ex Ex) (u : Str) (args : List Str) : Prop :=
  (∃ q ∈ K.equations, Within (.fn u args) q.2) ∨ ∃ kv ∈ user, Within (.fn u args) kv.2

/-- The dynamics of at least one field, and a closure of the user, meant for the generation of code: the first coordinate is the time. -/
structure Generates (K : Pkf) (coords : List Str) (user : Dict Ex Ex) : Prop where
  fields : K.fields ≠ []
  first : coords.head? = some time
  equations : ∀ q ∈ K.equations, Codable coords q.2
  values : ∀ kv ∈ user, Codable coords kv.2 ∧ Deterministic kv.2

/-- Every expectation of the four systems is the mean of a field or is given by the closure of the user. -/
def Covered (K : Pkf) (user : Dict Ex Ex) : Prop :=
  ∀ ms vs cs gs, K.expectationSystem = .ok ms → K.varianceSystem = .ok vs → K.crossSystem = .ok cs → K.metricSystem = .ok gs →
    ∀ q ∈ ms ++ vs ++ cs.getD [] ++ gs, ∀ a, Within (.ex a) q.2 → (∃ f ∈ K.fields, a = f.random) ∨ ∃ kv ∈ user, eval kv.1 = .ex a

end Sympkf.Spec
