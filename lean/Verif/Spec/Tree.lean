import Verif.Spec.Stoch
import Verif.Spec.MultiIndex
import Verif.Model.Tree

/-!
# Specification: products of derivatives of one random field
-/

set_option autoImplicit false

namespace Sympkf.Spec

open Text

variable {R : Type} [CommRing R] [Algebra ℚ R]

/-- `D^a r`. -/
def Dα (S : Interp R) (coords : List Str) (a : List ℤ) (r : R) : R := derivs S (coords.zip (a.map Int.toNat)) r

/-- `E[D^a eps D^b eps]`. -/
def expProd (S : Interp R) (coords : List Str) (eps : R) (a b : List ℤ) : R :=
  S.E (Dα S coords a eps * Dα S coords b eps)

/-- Value of an expression of the tree. -/
def treeVal (S : Interp R) (coords : List Str) (eps : R) : Tree.TEx → R
  | .term t => expProd S coords eps t.a t.b
  | .d x e => S.D x (treeVal S coords eps e)
  | .sub e f => treeVal S coords eps e - treeVal S coords eps f
  | .half e => algebraMap ℚ R (1 / 2) * treeVal S coords eps e

/-- The expression only contains terms `E[eps D^c eps]`. -/
def OnlyZero (n : ℕ) : Tree.TEx → Prop
  | .term t => t.a = List.replicate n 0 ∨ t.b = List.replicate n 0
  | .d _ e => OnlyZero n e
  | .sub e f => OnlyZero n e ∧ OnlyZero n f
  | .half e => OnlyZero n e

end Sympkf.Spec
