import Verif.Spec.Conservation
import Mathlib.LinearAlgebra.BilinearForm.Properties

/-!
# Specification: linear systems that are skew-symmetric
-/

set_option autoImplicit false

namespace Sympkf.Spec.PDE

open Text Sympkf.PDE FinDiff

/-- A term of a linear right-hand side: a number, scalar constants, a function and the variables of its derivative. -/
structure LinTerm where
  coef : ℚ
  consts : List Str
  field : Sy
  vars : List (Str × ℕ)
  deriving DecidableEq

/-- The right-hand side is the sum of the terms.  The functions have all the coordinates for arguments and the constants do not
depend on time. -/
inductive Linear (coords : List Str) : Sy → List LinTerm → Prop
  | fn (u : Str) (args : List Str) : Linear coords (.fn u args) [⟨1, [], .fn u args, []⟩]
  | deriv (u : Str) (args : List Str) (vars : List (Str × ℕ)) : (∀ v ∈ vars, v.1 ∈ coords) →
      Linear coords (.deriv (.fn u args) vars) [⟨1, [], .fn u args, vars⟩]
  | num (q : ℚ) {e : Sy} {l : List LinTerm} : Linear coords e l →
      Linear coords (.mul (.num q) e) (l.map fun x => { x with coef := q * x.coef })
  | sym (c : Str) {e : Sy} {l : List LinTerm} : c ≠ "t".toList → Linear coords e l →
      Linear coords (.mul (.sym .plain c) e) (l.map fun x => { x with consts := c :: x.consts })
  | add {a b : Sy} {l m : List LinTerm} : Linear coords a l → Linear coords b m → Linear coords (.add a b) (l ++ m)

/-- The terms of `l` that act on the function `f`, without its name. -/
def onto (f : Sy) (l : List LinTerm) : List (ℚ × List Str × List (Str × ℕ)) :=
  (l.filter (fun x => x.field = f)).map (fun x => (x.coef, x.consts, x.vars))

/-- The opposite of the adjoint of a term: integrations by parts change the sign once for each derivation. -/
def opposite (x : ℚ × List Str × List (Str × ℕ)) : ℚ × List Str × List (Str × ℕ) := (-((-1) ^ (x.2.2.map Prod.snd).sum * x.1), x.2)

/-- A linear system for the unknowns of `rows`: what the equation of `f` takes from `g` is the opposite of the adjoint of what the equation
of `g` takes from `f`. -/
structure SkewSystem (coords : List Str) (eqs : List Equation) (rows : List (Sy × List LinTerm)) : Prop where
  linear : List.Forall₂ (fun e r => e.lhs = .deriv r.1 [("t".toList, 1)] ∧ Linear coords e.rhs r.2) eqs rows
  closed : ∀ r ∈ rows, ∀ x ∈ r.2, x.field ∈ rows.map Prod.fst
  skew : ∀ r ∈ rows, ∀ r' ∈ rows, (onto r'.1 r.2).Perm ((onto r.1 r'.2).map opposite)

/-- The scalar product of the states on the grid. -/
noncomputable def gridProduct {d : ℕ} (n : Fin d → ℕ) (N : ℕ) : LinearMap.BilinForm ℝ (Fin N → Arr d ℝ) :=
  LinearMap.mk₂ ℝ (fun U V => ∑ k, gridTotal n (fun idx => U k idx * V k idx))
    (fun U U' V => by simp only [gridTotal, Pi.add_apply, add_mul, Finset.sum_add_distrib])
    (fun c U V => by simp only [gridTotal, Pi.smul_apply, smul_eq_mul, mul_assoc, Finset.mul_sum])
    (fun U V V' => by simp only [gridTotal, Pi.add_apply, mul_add, Finset.sum_add_distrib])
    (fun c U V => by simp only [gridTotal, Pi.smul_apply, smul_eq_mul, mul_left_comm, Finset.mul_sum])

end Sympkf.Spec.PDE
