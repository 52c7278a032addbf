import Verif.Model.CodeObject

/-!
# What `Code(expr).code` should be

Only statements and texts: no cache appears here.
-/

set_option autoImplicit false

namespace Sympkf.Text.Spec

/-- The expressions held by the objects of a program, in the order of creation. -/
def held (ops : List CodeOp) : List Expression :=
  ops.foldl (fun l op => match op with
    | .new e => l ++ [e]
    | .read _ _ => l
    | .assign i e => l.set i e) []

/-- The program does not change the expression of object `i`. -/
def Keeps (i : ℕ) (ops : List CodeOp) : Prop := ∀ e, CodeOp.assign i e ∉ ops

/-- The text of the expression in the order `iter` of its functions. -/
def rendered (e : Expression) (iter : List AppliedFun → List AppliedFun) : Except PyErr Str :=
  codeFiniteDifference sliceCodingRule dxCodingRule e.text (iter e.functions)

end Sympkf.Text.Spec
