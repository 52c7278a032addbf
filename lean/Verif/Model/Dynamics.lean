import Verif.Model.Poly
import Verif.Model.Util
import Verif.Model.Burgers

/-!
# Predefined dynamics

`src/sympkf/symbolic/dynamics.py`: the equations given to `PDESystem`.  The names `u`, `c`, .. are reassigned in the module; each
system uses the values at its definition.
-/

set_option autoImplicit false

namespace Sympkf.Dynamics

open Text PDE

/-- dynamics.py 10. -/
def x : Str := "x".toList

/-- dynamics.py 10. -/
def y : Str := "y".toList

/-- dynamics.py 60. -/
def z : Str := "z".toList

/-- dynamics.py 11. -/
def kappa : Sy := .sym .plain "\\kappa".toList

/-- dynamics.py 11. -/
def eta : Sy := .sym .plain "\\eta".toList

/-- `Derivative(f, (v, n))`. -/
def d (f : Sy) (v : Str) (n : ℕ) : Sy := .deriv f [(v, n)]

/-- `- a`. -/
def neg (a : Sy) : Sy := .mul (.num (-1)) a

/-- dynamics.py 13. -/
def u1 : Sy := .fn "u".toList [time, x]

/-- dynamics.py 15-17. -/
def burgers : List Equation := [⟨d u1 time 1, .add (neg (.mul u1 (d u1 x 1))) (.mul kappa (d u1 x 2))⟩]

/-- dynamics.py 19-21. -/
def kuramoto : List Equation :=
  [⟨d u1 time 1, .add (neg (.mul u1 (d u1 x 1))) (.add (neg (.mul kappa (d u1 x 2))) (neg (.mul eta (d u1 x 4))))⟩]

/-- dynamics.py 23-25. -/
def diffusion : List Equation := [⟨d u1 time 1, .mul kappa (d u1 x 2)⟩]

/-- dynamics.py 28: the tracer `c = Function('u')(t,x)`. -/
def tracer1 : Sy := .fn "u".toList [time, x]

/-- dynamics.py 29: the velocity `u = Function('u')(x)`. -/
def velocity1 : Sy := .fn "u".toList [x]

/-- dynamics.py 31-33. -/
def advection : List Equation := [⟨d tracer1 time 1, neg (.mul velocity1 (d tracer1 x 1))⟩]

/-- dynamics.py 39. -/
def c2 : Sy := .fn "c".toList [time, x, y]

/-- dynamics.py 40-45. -/
def advection2 : List Equation :=
  [⟨d c2 time 1, .add (neg (.mul (.fn "u".toList [x, y]) (d c2 x 1))) (neg (.mul (.fn "v".toList [x, y]) (d c2 y 1)))⟩]

/-- dynamics.py 63. -/
def c3 : Sy := .fn "c".toList [time, x, y, z]

/-- dynamics.py 64-70. -/
def advection3 : List Equation :=
  [⟨d c3 time 1, .add (neg (.mul (.fn "u".toList [x, y, z]) (d c3 x 1)))
    (.add (neg (.mul (.fn "v".toList [x, y, z]) (d c3 y 1))) (neg (.mul (.fn "w".toList [x, y, z]) (d c3 z 1))))⟩]

/-! ## Diffusion in two dimensions, dynamics.py 48-56 -/

open Rand (Ex)

/-- dynamics.py 48-51: the components of the tensor. -/
def kappaTensor : List (List Ex) :=
  [[.fn "\\kappa_{11}".toList [x, y], .fn "\\kappa_{12}".toList [x, y]],
   [.fn "\\kappa_{12}".toList [x, y], .fn "\\kappa_{22}".toList [x, y]]]

/-- dynamics.py 52. -/
def u2 : Ex := .fn "u".toList [time, x, y]

/-- The product of a matrix and a column. -/
def matVec (M : List (List Ex)) (v : List Ex) : List Ex := M.map (fun row => Util.sum (row.zipWith .mul v))

/-- dynamics.py 55: `coords.div(kappa_tensor*coords.gradient(u)).doit()`. -/
def diffusion2Rhs : Except PyErr Ex := do
  let grad ← Util.gradient [x, y] u2
  let r ← Util.div [x, y] (matVec kappaTensor grad)
  return Rand.eval r

/-- dynamics.py 54-56. -/
def diffusion2 : Except PyErr (List Equation) := do
  match ofEx (← diffusion2Rhs) with
  | some r => return [⟨d (.fn "u".toList [time, x, y]) time 1, r⟩]
  | none => .error .valueError

end Sympkf.Dynamics
