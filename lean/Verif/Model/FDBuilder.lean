import Mathlib.Analysis.SpecialFunctions.Pow.Real
import Verif.Model.Builder
import Verif.Model.FDExpr

/-!
# The arrays of a generated finite-difference model

`src/sympkf/symbolic/model_builder_FD.py` 14-25: the code of a derivative is the finite difference of `finite_difference`, in which
every `u(x + k*dx, ..)` is written `u[np.ix_(self.index('x', k), ..)]` and every `dx` is written
`self.dx[self.coordinates.index('x')]`.  Here the code is executed on arrays.  (`finite.simplify()` does not change values; that
the text is that of the expression is the subject of C22 and C23.)
-/

set_option autoImplicit false

namespace Sympkf.PDE

open Text FinDiff

/-- An array with `d` axes (the entries outside the shape are meaningless). -/
abbrev Arr (d : ℕ) (K : Type) := (Fin d → ℕ) → K

variable {K : Type} [Field K]

/-- body_FDModelBuilder.py 79: `self.shape[self.coordinates.index(coord)]`. -/
def axisShape (coords : List Str) (n : Fin coords.length → ℕ) (x : Str) : ℕ :=
  if h : coords.idxOf x < coords.length then n ⟨coords.idxOf x, h⟩ else 0

/-- model_builder_FD.py 11-12: `self.dx[self.coordinates.index('x')]`. -/
def axisStep (coords : List Str) (h : Fin coords.length → K) (x : Str) : K :=
  if hx : coords.idxOf x < coords.length then h ⟨coords.idxOf x, hx⟩ else 0

/-- finite_difference.py 321-338: `u[np.ix_(self.index('x', k), ..)]`; the axes are those of the position of the argument, axes
without index are not touched. -/
def ixRead (coords : List Str) (n : Fin coords.length → ℕ) (args : List (Str × ℤ)) (a : Arr coords.length K) :
    Arr coords.length K :=
  fun idx => a (fun i => match args[i.1]? with
    | none => idx i
    | some p => gridIndex (axisShape coords n p.1) p.2 (idx i))

/-- The value of the code of a finite difference of the array `a`.  The time is not an axis (finite_difference.py 305-319);
derivatives, elementary functions and symbols other than the increments do not occur in it. -/
def codeValue (coords : List Str) (n : Fin coords.length → ℕ) (h : Fin coords.length → K) (a : Arr coords.length K) :
    FExpr → Arr coords.length K
  | .num q => fun _ => (q : K)
  | .sym ('d' :: x) => fun _ => axisStep coords h x
  | .sym _ => fun _ => 0
  | .fn _ args => ixRead coords n (args.filter (fun p => p.1 ≠ time)) a
  | .add e f => fun idx => codeValue coords n h a e idx + codeValue coords n h a f idx
  | .mul e f => fun idx => codeValue coords n h a e idx * codeValue coords n h a f idx
  | .pow e k => fun idx => codeValue coords n h a e idx ^ k
  | .deriv _ _ => fun _ => 0
  | .func _ _ => fun _ => 0

/-- model_builder_FD.py 14-25: the derivative `vars` of an array whose function has the arguments `coords`. -/
def fdDiff (coords : List Str) (n : Fin coords.length → ℕ) (h : Fin coords.length → K) (vars : List (Str × ℕ))
    (a : Arr coords.length K) : Arr coords.length K :=
  codeValue coords n h a (fdExpr [] (coords.map (fun x => (x, 0))) vars)

/-- The arithmetic of the real arrays of the generated class: point by point. -/
noncomputable def fdArith (coords : List Str) (n : Fin coords.length → ℕ) (h : Fin coords.length → ℝ) :
    Arith (Arr coords.length ℝ) where
  num q := fun _ => (q : ℝ)
  add a b := fun idx => a idx + b idx
  mul a b := fun idx => a idx * b idx
  pow a b := fun idx => a idx ^ b idx
  diff := fdDiff coords n h

end Sympkf.PDE
