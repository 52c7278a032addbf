import Mathlib.Algebra.Module.Submodule.Basic
import Mathlib.Algebra.Module.Prod
import Verif.Model.Integrator

/-!
# Specification: linear relations between two models
-/

set_option autoImplicit false

namespace Sympkf.Spec

open Integrator

/-- Two results are related: both are values, and the values are related, or both are the same exception. -/
def ResultRel {α β : Type} (Q : α → β → Prop) : Except PyErr α → Except PyErr β → Prop
  | .ok a, .ok b => Q a b
  | .error e, .error e' => e = e'
  | _, _ => False

/-- Two dictionaries are related: the same keys, in the same order, and related values. -/
def DictRel {K α β : Type} (Q : α → β → Prop) (d : Dict K α) (d' : Dict K β) : Prop :=
  List.Forall₂ (fun p q => p.1 = q.1 ∧ Q p.2 q.2) d d'

/-- The values of the two options are related, or both are absent. -/
def OptionRel {α β : Type} (Q : α → β → Prop) : Option α → Option β → Prop
  | some a, some b => Q a b
  | none, none => True
  | _, _ => False

section

variable {K S S' : Type} [Field K] [AddCommGroup S] [Module K S] [AddCommGroup S'] [Module K S']

/-- Two trends preserve the linear relation `R`: they send related states to related states. -/
def Preserve (R : Submodule K (S × S')) (f : K → S → S) (g : K → S' → S') : Prop :=
  ∀ t u v, (u, v) ∈ R → (f t u, g t v) ∈ R

/-- Related states: related arrays, or pairs of related arrays (leapfrog). -/
def StateRel (R : Submodule K (S × S')) : StateObj S → StateObj S' → Prop
  | .single u, .single v => (u, v) ∈ R
  | .pair u u', .pair v v' => (u, v) ∈ R ∧ (u', v') ∈ R
  | _, _ => False

/-- Related trends: two methods that preserve the relation, or (splitting) two lists of fraction steps whose updates, or trends and
schemes, preserve the relation one by one. -/
def TrendRel (R : Submodule K (S × S')) : TrendObj K S → TrendObj K S' → Prop
  | .fn f, .fn g => Preserve R f g
  | .steps l, .steps l' => List.Forall₂ (fun a b =>
      OptionRel (fun up up' => ∀ t dt u v, (u, v) ∈ R → (up t u dt, up' t v dt) ∈ R) a.update b.update ∧
      OptionRel (Preserve R) a.trend b.trend ∧
      OptionRel (fun sc sc' => ∀ f g, Preserve R f g → ∀ t dt u v, (u, v) ∈ R → (sc f t u dt, sc' g t v dt) ∈ R) a.scheme b.scheme) l l'
  | _, _ => False

/-- The arrays of a state. -/
def arrays : StateObj S → List S
  | .single u => [u]
  | .pair u v => [u, v]

/-- A map applied to a state, array by array. -/
def mapState (P : S → S') : StateObj S → StateObj S'
  | .single u => .single (P u)
  | .pair u v => .pair (P u) (P v)

end

end Sympkf.Spec
