import Mathlib.Data.Rat.Defs
import Verif.Model.Py

/-!
# Text generation: names, shifted functions, finite-difference code

Python strings are lists of characters.  The modelled files are
`src/sympkf/symbolic/tool.py`, the coordinate helpers of `util.py` and the coding rules of `finite_difference.py`.
-/

set_option autoImplicit false

namespace Sympkf.Text

/-- A Python `str`. -/
abbrev Str := List Char

/-- Worker of `replace`: `skip` characters of an occurrence already replaced remain to be dropped. -/
def replaceAux (old new : Str) : ℕ → Str → Str
  | _, [] => []
  | skip + 1, _ :: s => replaceAux old new skip s
  | 0, c :: s =>
    if old.isPrefixOf (c :: s) then new ++ replaceAux old new (old.length - 1) s
    else c :: replaceAux old new 0 s

/-- Python's `s.replace(old, new)` for a non-empty `old`: non-overlapping occurrences from left to right. -/
def replace (old new s : Str) : Str := replaceAux old new 0 s

/-- tool.py 1-20 `clean_latex_name`, applied to a string (lines 4-5 convert other labels with `str`). -/
def cleanLatexName (label : Str) : Str :=
  let label := replace ['\\'] [] label
  let label := replace ['{'] [] label
  let label := replace ['}'] [] label
  let label := replace ['^'] ['_'] label
  replace [','] ['_'] label

/-- One argument of an applied function, e.g. `x + 2*dx`.  `atoms` is `list(arg.atoms(Symbol))` in the (hash
dependent) iteration order of the set, `coeff s` is `arg.coeff(s)`, `text` is `str(arg)`.  Arguments are affine with
rational coefficients; symbols are identified with their names. -/
structure Arg where
  atoms : List Str
  coeff : Str → ℚ
  text : Str

/-- `symbols('d' + str(xi))` -/
def increment (x : Str) : Str := 'd' :: x

/-- util.py 432-447, body of the loop of `get_function_coordinates` (and 390-405 `get_coordinates`, same code):
coordinate and increment of one argument.  `str(xi)[0]` of an empty name is an `IndexError`. -/
def argCoordinates (arg : Arg) : Except PyErr (Str × Str) :=
  match arg.atoms with
  | [xi, dxi] =>
    match xi with
    | [] => .error .indexError
    | c :: _ => if c = 'd' then .ok (dxi, xi) else .ok (xi, dxi)
  | [xi] => .ok (xi, increment xi)
  | _ => .error .valueError

/-- util.py 410-449 `get_function_coordinates`: the lists `x`, `dx`. -/
def getFunctionCoordinates : List Arg → Except PyErr (List Str × List Str)
  | [] => .ok ([], [])
  | arg :: args => do
    let (xi, dxi) ← argCoordinates arg
    let (x, dx) ← getFunctionCoordinates args
    return (xi :: x, dxi :: dx)

/-- finite_difference.py 212-229 `get_displacement`. -/
def getDisplacement (args : List Arg) : Except PyErr (List ℚ) := do
  let (_, dx) ← getFunctionCoordinates args
  return List.zipWith (fun arg dxi => arg.coeff dxi) args dx

/-- `str` of a natural number. -/
def natStr (n : ℕ) : Str := Nat.toDigits 10 n

/-- `str` of an integer. -/
def intStr (n : ℤ) : Str := if n < 0 then '-' :: natStr n.natAbs else natStr n.natAbs

/-- `isinstance(step, Integer)` for an exact rational `step`. -/
def asInteger (q : ℚ) : Except PyErr ℤ := if q.den = 1 then .ok q.num else .error .assertionError

/-- finite_difference.py 317-319, the time tag. -/
def timeTag (step : ℤ) : Str :=
  if step < 0 then 'm' :: natStr step.natAbs else if 0 < step then 'p' :: natStr step.natAbs else []

/-- A coding rule for slices: receives `f"'{x[k]}'"` and the step. -/
abbrev SliceRule := Str → ℤ → Str

/-- finite_difference.py 285-286 `slice_coding_rule` (same text in `Code.slice_coding_rule` 386-387 and in
model_builder_FD.py 7-8). -/
def sliceCodingRule : SliceRule := fun k step =>
  "self.index(".toList ++ k ++ ",".toList ++ intStr step ++ ")".toList

/-- finite_difference.py 329-332, the loop over the spatial displacements. -/
def sliceLoop (rule : SliceRule) : List Str → List ℚ → Except PyErr Str
  | x :: xs, q :: qs => do
    let step ← asInteger q
    let rest ← sliceLoop rule xs qs
    return rule ('\'' :: x ++ ['\'']) step ++ [','] ++ rest
  | [], _ :: _ => .error .indexError
  | _, [] => .ok []

/-- finite_difference.py 324-336, tag of the spatial displacements. -/
def spaceTag (rule : SliceRule) (x : List Str) (displacement : List ℚ) : Except PyErr Str :=
  if displacement.any (fun q => q ≠ 0) then do
    let body ← sliceLoop rule x displacement
    return ("[np.ix_(".toList ++ body).dropLast ++ ")]".toList
  else .ok []

/-- finite_difference.py 289-338 `code_regular_function` (and 393-459 `Code._render_function`, same text with the
default slice rule). -/
def codeRegularFunction (rule : SliceRule) (name : Str) (args : List Arg) : Except PyErr Str := do
  let (x, _) ← getFunctionCoordinates args
  let displacement ← getDisplacement args
  let code := cleanLatexName name
  if ['t'] ∈ x then
    match x, displacement with
    | x0 :: xs, q :: qs =>
      if x0 = ['t'] then do
        let step ← asInteger q
        let tag ← spaceTag rule xs qs
        return code ++ timeTag step ++ tag
      else .error .assertionError
    | _, _ => .error .indexError
  else do
    let tag ← spaceTag rule x displacement
    return code ++ tag

/-- An applied function occurring in an expression. -/
structure AppliedFun where
  name : Str
  args : List Arg

/-- `", ".join(...)` -/
def joinArgs : List Str → Str
  | [] => []
  | [a] => a
  | a :: as => a ++ ", ".toList ++ joinArgs as

/-- `str(function)` -/
def AppliedFun.str (f : AppliedFun) : Str := f.name ++ "(".toList ++ joinArgs (f.args.map Arg.text) ++ ")".toList

/-- finite_difference.py 361-366: the loop over the functions; `loc` is `loc_x_dx`. -/
def functionLoop (rule : SliceRule) : List AppliedFun → Str → List (Str × Str) → Except PyErr (Str × List (Str × Str))
  | [], code, loc => .ok (code, loc)
  | f :: fs, code, loc => do
    let (x, dx) ← getFunctionCoordinates f.args
    let loc := (x.zip dx).foldl (fun loc p => if p ∈ loc then loc else loc ++ [p]) loc
    let c ← codeRegularFunction rule f.name f.args
    functionLoop rule fs (replace f.str c code) loc

/-- finite_difference.py 341-342 `dx_coding_rule`. -/
def dxCodingRule (coord : Str) : Str := "self.dx['".toList ++ coord ++ "']".toList

/-- model_builder_FD.py 10-12 `dx_coding_rule` of the builder. -/
def dxCodingRuleFD (coord : Str) : Str := "self.dx[self.coordinates.index('".toList ++ coord ++ "')]".toList

/-- finite_difference.py 345-373 `code_finite_difference`.  `text` is `str(finite)` and `functions` is
`finite.atoms(Function)` in its iteration order. -/
def codeFiniteDifference (rule : SliceRule) (dxRule : Str → Str) (text : Str) (functions : List AppliedFun) :
    Except PyErr Str := do
  let (code, loc) ← functionLoop rule functions text []
  return loc.foldl (fun code p => replace p.2 (dxRule p.1) code) code

end Sympkf.Text
