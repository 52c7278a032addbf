import Verif.Spec.Pkf

/-!
# Specification: systems in evolution form
-/

set_option autoImplicit false

namespace Sympkf.Spec

open Text Rand PKF

/-- No derivative with respect to time occurs in the expression. -/
def TimeFree : Ex → Prop
  | .func _ a => TimeFree a
  | .add a b => TimeFree a ∧ TimeFree b
  | .mul a b => TimeFree a ∧ TimeFree b
  | .pow a _ => TimeFree a
  | .deriv a vars => TimeFree a ∧ ∀ v ∈ vars, v.1 = time → v.2 = 0
  | .integ a _ => TimeFree a
  | .ex a => TimeFree a
  | _ => True

/-- The equations give the trends of the expressions `gs`, in this order, by right-hand sides without trends. -/
def EvolutionForm (gs : List Ex) (system : List Eqn) : Prop :=
  system.map Prod.fst = gs.map (fun g => .deriv g [(time, 1)]) ∧ ∀ q ∈ system, TimeFree q.2

/-- The components above the diagonal of the tensors `T` of the fields, field by field, row by row. -/
def tensorComponents (fields : List Field) (T : Field → ℕ → ℕ → Ex) : List Ex :=
  fields.flatMap (fun f => (upper f.spatial.length).map (fun ij => T f ij.1 ij.2))

/-- The cross-covariances `V_fg` of the fields: of the first field with the following ones, then of the second .. -/
def crossCovariances (coords : List Str) : List Field → List Ex
  | [] => []
  | f :: fields => fields.map (fun g => .fn ("V_".toList ++ f.name ++ g.name) coords) ++ crossCovariances coords fields

/-- A deterministic system of evolution equations `Derivative(f, t) = rhs`, one for each field; the coordinates are the time and
at least one coordinate in space.  Different fields have different names without LaTeX commands, and the random function of no
field is called like an error or a normalised error. -/
structure EvolutionSystem (K : Pkf) (coords : List Str) : Prop where
  det : DetSystem K coords
  time_mem : time ∈ coords
  evolution : EvolutionForm (K.fields.map Field.value) K.equations
  codes : ∀ f ∈ K.fields, ∀ g ∈ K.fields, f.code = g.code → f = g
  clash : ∀ f ∈ K.fields, ∀ g ∈ K.fields, f.random ≠ g.error ∧ f.random ≠ g.epsilon

/-- A closure given by the user: the keys are expectations of something else than a function, the values do not contain
derivatives with respect to time. -/
def UserClosure (user : Dict Ex Ex) : Prop :=
  ∀ kv ∈ user, (∃ a, eval kv.1 = .ex a ∧ ∀ u args, a ≠ .fn u args) ∧ TimeFree kv.2

end Sympkf.Spec
