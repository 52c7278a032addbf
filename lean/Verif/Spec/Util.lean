import Verif.Spec.Stoch
import Verif.Model.Util

/-!
# Specification of equations
-/

set_option autoImplicit false

namespace Sympkf.Spec

open Text Rand Util

variable {R : Type} [CommRing R] [Algebra ℚ R]

/-- The valuation `S` satisfies the equation. -/
def Sat (S : Interp R) : Rel → Prop
  | .eq l r => den S l = den S r
  | .bool b => b = true

/-- SymPy only decides equalities that are true, or false, in the valuation `S`. -/
def DecidesTruly (S : Interp R) (decideEq : Ex → Ex → Option Bool) : Prop :=
  ∀ l r b, decideEq l r = some b → (b = true ↔ den S l = den S r)

/-- `a` occurs in `e`. -/
inductive Occurs : Ex → Ex → Prop
  | refl (a : Ex) : Occurs a a
  | func {a b : Ex} (g : Str) : Occurs a b → Occurs a (.func g b)
  | addL {a b : Ex} (c : Ex) : Occurs a b → Occurs a (.add b c)
  | addR {a c : Ex} (b : Ex) : Occurs a c → Occurs a (.add b c)
  | mulL {a b : Ex} (c : Ex) : Occurs a b → Occurs a (.mul b c)
  | mulR {a c : Ex} (b : Ex) : Occurs a c → Occurs a (.mul b c)
  | pow {a b : Ex} (q : ℚ) : Occurs a b → Occurs a (.pow b q)
  | deriv {a b : Ex} (v : List (Str × ℕ)) : Occurs a b → Occurs a (.deriv b v)
  | integ {a b : Ex} (x : Str) : Occurs a b → Occurs a (.integ b x)
  | ex {a b : Ex} : Occurs a b → Occurs a (.ex b)

/-- `D_x (D_x r)` summed over the coordinates. -/
def laplacian (S : Interp R) (coords : List Str) (r : R) : R := (coords.map (fun x => S.D x (S.D x r))).sum

end Sympkf.Spec
