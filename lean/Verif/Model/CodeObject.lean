import Verif.Model.Text

/-!
# Objects of the class `Code`

finite_difference.py 376-465.  The methods `_render_function` (393-459), `slice_coding_rule` (386-387) and `dx_coding_rule` (390-391)
have the text of the functions of the module, see `Model/Text.lean`; here are the attribute `expr` and the cache `_code`.
-/

set_option autoImplicit false

namespace Sympkf.Text

/-- A SymPy expression as `code_finite_difference` sees it: `str(expr)` and the members of `expr.atoms(Function)`. -/
structure Expression where
  text : Str
  functions : List AppliedFun

/-- finite_difference.py 376-380: the attributes `expr` and `_code` (`None` at first). -/
structure Code where
  expr : Expression
  cache : Option Str

/-- finite_difference.py 378-380 `__init__`. -/
def Code.init (e : Expression) : Code := ⟨e, none⟩

/-- finite_difference.py 461-465, the property `code` (and 382-383 `__repr__`): `iter` is the order in which the set
`expr.atoms(Function)` is iterated in this call.  When the computation raises, `_code` stays `None`. -/
def Code.read (iter : List AppliedFun → List AppliedFun) (c : Code) : Except PyErr Str × Code :=
  match c.cache with
  | some s => (.ok s, c)
  | none =>
    match codeFiniteDifference sliceCodingRule dxCodingRule c.expr.text (iter c.expr.functions) with
    | .ok s => (.ok s, { c with cache := some s })
    | .error e => (.error e, c)

/-- A statement about objects of the class; the objects are numbered in the order of their creation. -/
inductive CodeOp
  /-- `Code(e)` -/
  | new (e : Expression)
  /-- `objects[i].code`, with the order of the set -/
  | read (i : ℕ) (iter : List AppliedFun → List AppliedFun)
  /-- `objects[i].expr = e` -/
  | assign (i : ℕ) (e : Expression)

/-- One statement; an object that does not exist is a `NameError`. -/
def CodeOp.step (w : List Code) : CodeOp → List Code × Option (Except PyErr Str)
  | .new e => (w ++ [Code.init e], none)
  | .read i iter =>
    match w[i]? with
    | some c => (w.set i (c.read iter).2, some (c.read iter).1)
    | none => (w, some (.error .nameError))
  | .assign i e =>
    match w[i]? with
    | some c => (w.set i { c with expr := e }, none)
    | none => (w, some (.error .nameError))

/-- The objects after a program. -/
def runCode (w : List Code) (ops : List CodeOp) : List Code := ops.foldl (fun w op => (op.step w).1) w

/-- What `objects[i].code` returns after a program. -/
def codeAfter (ops : List CodeOp) (i : ℕ) (iter : List AppliedFun → List AppliedFun) : Option (Except PyErr Str) :=
  ((CodeOp.read i iter).step (runCode [] ops)).2

end Sympkf.Text
