import Verif.Model.Pkf
import Verif.Model.PDESystem

/-!
# The Burgers module

`src/sympkf/dynamics/burgers.py`: the parametric Kalman filter of the Burgers equation, closed by the closure of Pannekoucke et al.
(2018), from which a finite-difference model is generated.
-/

set_option autoImplicit false

namespace Sympkf.Burgers

open Text Rand PKF

/-- burgers.py 7: the spatial coordinate. -/
def x : Str := "x".toList

/-- burgers.py 11: `u = Function('u')(t,x)`. -/
def u : Field := ⟨"u".toList, [time, x]⟩

/-- burgers.py 13-15: the dynamics and its `SymbolicPKF`; `arrange` is the order in which `subs` takes the entries of dictionaries. -/
def pkf : Pkf where
  fields := [u]
  equations := [(.deriv u.value [(time, 1)],
    .add (.mul (.num (-1)) (.mul u.value (.deriv u.value [(x, 1)]))) (.mul (.sym "kappa".toList) (.deriv u.value [(x, 2)])))]

/-- burgers.py 17-18. -/
def g : Ex := u.metric 0 0
def s : Ex := u.aspect 0 0

/-- burgers.py 20 `_p18_closure`. -/
def p18 : Ex := .add (.mul (.num 3) (.pow g 2)) (.mul (.num (-2)) (.deriv g [(x, 2)]))

/-- burgers.py 23: `_p18_closure.subs(g,1/s).doit().expand()`. -/
def p18Aspect : Ex := substEx g (.pow s (-1)) p18

/-- burgers.py 26: `list(pkf.unclosed_terms)[0]`; `iter` is the iteration order of the set. -/
def unclosedTerm (iter : List Ex → List Ex) : Except PyErr Ex := do
  match iter (← pkf.unclosedTerms []) with
  | [] => .error .indexError
  | e :: _ => return e

/-- burgers.py 28: the argument of `set_closure`. -/
def closure (iter : List Ex → List Ex) : Except PyErr (Dict Ex Ex) := do return [(← unclosedTerm iter, p18Aspect)]

/-- burgers.py 27, 28, 32: `closed_pkf.in_aspect`. -/
def inAspect (iter : List Ex → List Ex) : Except PyErr (List Eqn) := do pkf.inAspect (← closure iter)

end Sympkf.Burgers

namespace Sympkf.PDE

open Text Rand

/-- The same SymPy expression as an expression of `Model/PDESystem.lean`; expectations and integrals are not expressions of that
model. -/
def ofEx : Ex → Option Sy
  | .num q => some (.num q)
  | .sym s => some (.sym .plain s)
  | .fn u args => some (.fn u args)
  | .func g a => do return .func g (← ofEx a)
  | .add a b => do return .add (← ofEx a) (← ofEx b)
  | .mul a b => do return .mul (← ofEx a) (← ofEx b)
  | .pow a q => do return .pow (← ofEx a) (.num q)
  | .deriv a vars => do return .deriv (← ofEx a) vars
  | _ => none

/-- The same for the equations of a system. -/
def ofEqns (l : List (Ex × Ex)) : Option (List Equation) := l.mapM (fun q => do return ⟨← ofEx q.1, ← ofEx q.2⟩)

end Sympkf.PDE
