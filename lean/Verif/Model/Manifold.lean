import Verif.Model.Builder
import Verif.Model.FDModel
import Verif.Model.Integrator

/-!
# The generated manifold model class

`src/sympkf/symbolic/model_builder_manifold.py` and the constructor of `templates/body_ManifoldModelBuilder.py`.
-/

set_option autoImplicit false

namespace Sympkf.FD

open Text Integrator

/-- Python's `",".join(l)`. -/
def joinComma : List Str → Str
  | [] => []
  | [a] => a
  | a :: as => a ++ ',' :: joinComma as

/-- model_builder.py 51-53 `_set_as_partial_orders`; `vars` are the pairs of the derivative. -/
def partialOrdersText (vars : List (Str × ℕ)) : Str :=
  joinComma ((Util.partialOrders vars).map (fun p => '\'' :: p.1 ++ "',".toList ++ natStr p.2))

/-- model_builder_manifold.py 6-7 `MetaDerivative._set_as_code`; `f` is `function.as_keyvar`. -/
def manifoldCode (f : Str) (vars : List (Str × ℕ)) : Str :=
  "self.base_space.diff(".toList ++ f ++ ',' :: partialOrdersText vars ++ ")".toList

/-- A constructed object: the part owned by `Model`, the attributes, and the warnings printed. -/
structure ManifoldObj (K V : Type) where
  model : ModelState
  attrs : Dict Str (Attr K V)
  warned : List Str

/-- body_ManifoldModelBuilder.py 2-49, the constructor.  `space` is the argument `base_space` and `dim` its attribute `dimension`;
`timeScheme` is the keyword `time_scheme` if it is given (line 4: `super().__init__()` is called without the keywords), the
other keywords are `kwargs`. -/
def constructManifold {K V : Type} [DecidableEq V] (cls : FDClass) (dim : V → ℕ) (space : V) (_timeScheme : Option String)
    (kwargs : Dict Str (Val V)) : Except PyErr (ManifoldObj K V) := do
  let m ← initModel
  if dim space ≠ cls.coordinates.length then .error .assertionError
  else
    let obj : Dict Str (Attr K V) := [("base_space".toList, .val (.obj space))]
    let obj := setDeclared cls.constantFunctions kwargs obj
    let w1 := warnings cls.constantFunctions obj
    let obj := setDeclared cls.constants kwargs obj
    let w2 := warnings cls.constants obj
    return ⟨m, obj, w1 ++ w2⟩

end Sympkf.FD
