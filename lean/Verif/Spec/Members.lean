import Verif.Spec.Pkf
import Verif.Spec.Smooth
import Mathlib.LinearAlgebra.Matrix.Adjugate

/-!
# Specification: the statistics of an ensemble of smooth states

The states are functions of real coordinates; an ensemble has finitely many members with weights.  Nothing here is abstract: the
statistics are sums over the members.
-/

set_option autoImplicit false

namespace Sympkf.Spec.Members

open Text Rand PKF Smooth

/-- A real number for each coordinate. -/
abbrev Point (coords : List Str) : Type := {x // x ∈ coords} → ℝ

/-- The direction of a coordinate. -/
def axis (coords : List Str) (x : Str) : Point coords := fun y => if y.1 = x then 1 else 0

/-- A constant function. -/
def const {coords : List Str} (c : ℝ) : F (Point coords) :=
  ⟨fun _ => c, by show ContDiff ℝ (↑(⊤ : ℕ∞)) (fun _ : Point coords => c); exact contDiff_const⟩

open Classical in
/-- A symbol is a coordinate, or a parameter with a constant value. -/
noncomputable def symbol {coords : List Str} (param : Str → ℝ) (s : Str) : F (Point coords) :=
  if h : s ∈ coords then ⟨fun p => p ⟨s, h⟩, by show ContDiff ℝ (↑(⊤ : ℕ∞)) (fun p : Point coords => p ⟨s, h⟩); exact contDiff_apply ℝ ℝ _⟩
  else const (param s)

/-- The derivative with respect to a coordinate. -/
noncomputable def D {coords : List Str} (x : Str) (r : F (Point coords)) : F (Point coords) := dir (axis coords x) r

/-- An ensemble: the weights of the members, the values of the fields for each member, the values of the parameters and of the other
functions, which are the same for all members. -/
structure Ensemble (coords : List Str) (Ω : Type) where
  weight : Ω → ℝ
  member : Field → Ω → F (Point coords)
  param : Str → ℝ
  given : Str → List Str → F (Point coords)

namespace Ensemble

variable {coords : List Str} {Ω : Type} [Fintype Ω] (e : Ensemble coords Ω)

/-- The weighted average. -/
noncomputable def average (r : Ω → F (Point coords)) : F (Point coords) := ∑ ω, const (e.weight ω) * r ω

noncomputable def mean (f : Field) : F (Point coords) := e.average (e.member f)

/-- The deviation from the mean. -/
noncomputable def anomaly (f : Field) (ω : Ω) : F (Point coords) := e.member f ω - e.mean f

noncomputable def covariance (f g : Field) : F (Point coords) := e.average (fun ω => e.anomaly f ω * e.anomaly g ω)

noncomputable def variance (f : Field) : F (Point coords) := e.average (fun ω => e.anomaly f ω ^ 2)

noncomputable def std (f : Field) : F (Point coords) := power (e.variance f) (1 / 2)

/-- The deviation divided by the standard deviation. -/
noncomputable def normalised (f : Field) (ω : Ω) : F (Point coords) := e.anomaly f ω * power (e.variance f) (-1 / 2)

/-- The metric tensor of the correlations. -/
noncomputable def metric (f : Field) (x y : Str) : F (Point coords) :=
  e.average (fun ω => D x (e.normalised f ω) * D y (e.normalised f ω))

/-- The metric tensor as a matrix. -/
noncomputable def metricMatrix (f : Field) : Matrix (Fin f.spatial.length) (Fin f.spatial.length) (F (Point coords)) :=
  .of fun i j => e.metric f (f.spatial.getD i []) (f.spatial.getD j [])

/-- The aspect tensor: the inverse of the metric tensor. -/
noncomputable def aspect (f : Field) (i j : ℕ) : F (Point coords) :=
  if h : i < f.spatial.length ∧ j < f.spatial.length then
    power (e.metricMatrix f).det (-1) * (e.metricMatrix f).adjugate ⟨i, h.1⟩ ⟨j, h.2⟩
  else 0

/-- The diffusion tensor: half the aspect tensor. -/
noncomputable def diffusion (f : Field) (i j : ℕ) : F (Point coords) := const (1 / 2) * e.aspect f i j

/-- What the functions that the package introduces for the fields stand for. -/
inductive Meaning (fields : List Field) : Ex → (Ω → F (Point coords)) → Prop
  | random {f : Field} : f ∈ fields → Meaning fields f.random (e.member f)
  | mean {f : Field} : f ∈ fields → Meaning fields f.value (fun _ => e.mean f)
  | error {f : Field} : f ∈ fields → Meaning fields f.error (e.anomaly f)
  | epsilon {f : Field} : f ∈ fields → Meaning fields f.epsilon (e.normalised f)
  | variance {f : Field} : f ∈ fields → Meaning fields f.variance (fun _ => e.variance f)
  | std {f : Field} : f ∈ fields → Meaning fields f.std (fun _ => e.std f)
  | metric {f : Field} {i j : ℕ} : f ∈ fields → i ≤ j → j < f.spatial.length →
      Meaning fields (f.metric i j) (fun _ => e.metric f (f.spatial.getD i []) (f.spatial.getD j []))
  | aspect {f : Field} {i j : ℕ} : f ∈ fields → i ≤ j → j < f.spatial.length → Meaning fields (f.aspect i j) (fun _ => e.aspect f i j)
  | diffusion {f : Field} {i j : ℕ} : f ∈ fields → i ≤ j → j < f.spatial.length → Meaning fields (f.diffusion i j) (fun _ => e.diffusion f i j)
  | covariance {f g : Field} : f ∈ fields → g ∈ fields →
      Meaning fields (.fn ("V_".toList ++ f.name ++ g.name) coords) (fun _ => e.covariance f g)

open Classical in
/-- The value of a function: a statistic of the ensemble, or a given function. -/
noncomputable def function (fields : List Field) (u : Str) (args : List Str) : Ω → F (Point coords) :=
  if h : ∃ v, Meaning e fields (.fn u args) v then h.choose else fun _ => e.given u args

/-- The meaning of the expressions; the expectation is the average. -/
noncomputable def interp (fields : List Field) : Interp (Ω → F (Point coords)) :=
  Smooth.interp (fun ω => const (e.weight ω)) (axis coords) (fun s _ => symbol e.param s) (e.function fields) elementary

/-- The meaning of the deterministic expressions for the member `ω`. -/
noncomputable def state (fields : List Field) (ω : Ω) : Interp (F (Point coords)) where
  sym s := symbol e.param s
  fn u args := if (⟨u, args⟩ : Field) ∈ fields then e.member ⟨u, args⟩ ω else e.given u args
  func := elementary
  pw := power
  D := D
  I _ _ := 0
  E r := r
  other _ := 0

end Ensemble

/-- Functions without singularities. -/
def entire : List Str := ["exp".toList, "sin".toList, "cos".toList, "sinh".toList, "cosh".toList, "tanh".toList]

/-- A polynomial in the fields and their derivatives; the coefficients are made of numbers, symbols, other functions and entire
functions of these.  The symbol of the small parameter, `omega` and the names of the functions that the package introduces are not used. -/
def Rhs (fields : List Field) (coords : List Str) : Ex → Prop
  | .num _ => True
  | .sym s => s ≠ Pkf.epsSym ∧ s ≠ omega
  | .fn u args => Pkf.epsSym ∉ args ∧ omega ∉ args ∧ u.head? ≠ some '{' ∧ ¬ "V_".toList <+: u
  | .func g a => g ∈ entire ∧ FieldFree fields a ∧ Rhs fields coords a
  | .add a b => Rhs fields coords a ∧ Rhs fields coords b
  | .mul a b => Rhs fields coords a ∧ Rhs fields coords b
  | .pow a q => isNat q = true ∧ Rhs fields coords a
  | .deriv a vars => Rhs fields coords a ∧ ∀ v ∈ vars, v.1 ∈ coords
  | _ => False

/-- All members of the ensemble are solutions of the dynamics, and they differ: the variances are positive everywhere.  The given functions
depend on their arguments only; those that are called like a variance or a standard deviation are positive. -/
structure Solves {coords : List Str} {Ω : Type} [Fintype Ω] (e : Ensemble coords Ω) (K : Pkf) : Prop where
  total : ∑ ω, e.weight ω = 1
  spread : ∀ f ∈ K.fields, ∀ p, 0 < (e.variance f : Point coords → ℝ) p
  args : ∀ u args, ∀ x ∈ coords, x ∉ args → D x (e.given u args) = 0
  positive : ∀ u args, positiveFn (.fn u args) = true → ∀ p, 0 < (e.given u args : Point coords → ℝ) p
  trend : ∀ ω, ∀ fq ∈ K.fields.zip K.equations, D time (e.member fq.1 ω) = den (e.state K.fields ω) fq.2.2

end Sympkf.Spec.Members
