import Verif.Model.PDESystem
import Verif.Model.Util

/-!
# Code generation

`src/sympkf/symbolic/model_builder.py`: the `Meta*` classes (8-86), `ModelBuilder` (93-309), and the method `trend` of the template
`templates/footer.py`.  The generated text is not parsed: the template is modelled as the list of assignments it contains, executed
in order on a memory of local names.  Printing of expressions (`str(rhs)`) is SymPy's; a printed symbol is read back as the local
name with the same text.
-/

set_option autoImplicit false

namespace Sympkf.PDE

open Text

namespace Sy

/-- `rhs.subs(old, new)` where `old` is a derivative, a function or a symbol: every occurrence is replaced.  (A symbol that is an
argument of a function or a variable of a derivative is not replaced; the builder substitutes symbols after the functions and the
derivatives are gone.) -/
def subs (e old new : Sy) : Sy :=
  if e = old then new
  else match e with
    | .func g a => .func g (subs a old new)
    | .add a b => .add (subs a old new) (subs b old new)
    | .mul a b => .mul (subs a old new) (subs b old new)
    | .pow a b => .pow (subs a old new) (subs b old new)
    | .deriv a vars => .deriv (subs a old new) vars
    | e => e

/-- `str(e.func)` for a function (other expressions print the name of a SymPy class). -/
def funcName : Sy → Str
  | .fn u _ => u
  | .func g _ => g
  | .num _ => "Number".toList
  | .sym _ _ => "Symbol".toList
  | .add _ _ => "Add".toList
  | .mul _ _ => "Mul".toList
  | .pow _ _ => "Pow".toList
  | .deriv _ _ => "Derivative".toList

/-- model_builder.py 17-18 `MetaFunction._set_as_keyvar`. -/
def keyvar (f : Sy) : Str := cleanLatexName f.funcName

/-- model_builder.py 29-30 `MetaPrognosticFunction._set_trend`. -/
def trendName (f : Sy) : Str := 'd' :: f.keyvar

/-- model_builder.py 67-68 `MetaConstant._set_as_keyvar`, 81-82 `MetaCoordinate`. -/
def symName : Sy → Str
  | .sym _ s => cleanLatexName s
  | _ => []

end Sy

/-- Python's `"_".join(l)`. -/
def joinUnderscore : List Str → Str
  | [] => []
  | [a] => a
  | a :: as => a ++ '_' :: joinUnderscore as

/-- model_builder.py 45-49 `MetaDerivative._set_as_keyvar`, from the function's key and the pairs (variable, order). -/
def derivKey (f : Str) (vars : List (Str × ℕ)) : Str :=
  'D' :: f ++ '_' :: joinUnderscore ((Util.partialOrders vars).map (fun p => p.1 ++ "_o".toList ++ natStr p.2))

/-- model_builder.py 35-43: the attributes of a `MetaDerivative` used below. -/
structure MetaDerivative where
  symbolic : Sy
  /-- `function.as_keyvar` -/
  function : Str
  orders : List (Str × ℕ)
  keyvar : Str
  order : ℕ

/-- model_builder.py 35-43 `MetaDerivative.__init__`. -/
def metaDerivative : Sy → MetaDerivative
  | .deriv a vars => ⟨.deriv a vars, a.keyvar, Util.partialOrders vars, derivKey a.keyvar vars, Util.totalOrder vars⟩
  | e => ⟨e, [], [], [], 0⟩

namespace System

/-- model_builder.py 244-251: the derivatives are replaced, from the highest order to the lowest. -/
def subsDerivatives (s : System) (rhs : Sy) : Sy :=
  (List.range' 1 s.maxOrder).reverse.foldl (fun rhs o =>
    s.spatialDerivatives.foldl (fun rhs d =>
      let m := metaDerivative d
      if m.order ≠ o then rhs else rhs.subs m.symbolic (.sym .functionSymbol m.keyvar)) rhs) rhs

/-- model_builder.py 253-255: the functions are replaced. -/
def subsFunctions (s : System) (rhs : Sy) : Sy :=
  s.functions.foldl (fun rhs f => rhs.subs f (.sym .functionSymbol f.keyvar)) rhs

/-- model_builder.py 257-259: the constants are replaced. -/
def subsConstants (s : System) (rhs : Sy) : Sy :=
  s.constants.foldl (fun rhs c => rhs.subs c (.sym .scalarSymbol c.symName)) rhs

/-- model_builder.py 226-263 `_make_pseudo_algebaraic_system`. -/
def pseudo (s : System) : Except PyErr (List Equation) :=
  s.equations.mapM (fun e =>
    if e.lhsIsTrend then .ok ⟨e.lhs, s.subsConstants (s.subsFunctions (s.subsDerivatives e.rhs))⟩ else .error .valueError)

/-- model_builder.py 264-280 `_make_trend_code`: the lines `name[:] = rhs`. -/
def trendCode (s : System) : Except PyErr (List (Str × Sy)) := do
  let names : Dict Sy Str := s.prognostic.foldl (fun (d : Dict Sy Str) f => d.set f f.trendName) []
  (← s.pseudo).mapM (fun e => do return (← Dict.getItem names e.lhs.base, e.rhs))

end System

/-! ## Execution of the generated `trend` -/

/-- What a local name of `trend` refers to: a row of the output array, a row of the state, or another array or number. -/
inductive Ref (R : Type)
  | out (k : ℕ)
  | state (k : ℕ)
  | value (r : R)

/-- Arithmetic of the arrays, and the operators of the discretisation: `self.base_space.diff(f, orders)` for the manifold builder,
the finite-difference expression for the FD builder (its value is the subject of C22, C23 and C32). -/
structure Arith (R : Type) where
  num : ℚ → R
  add : R → R → R
  mul : R → R → R
  pow : R → R → R
  diff : List (Str × ℕ) → R → R

/-- The object: values of the attributes `self.name`, and what `compute_exogenous(t, state)` returns (`none`: `None`). -/
structure Obj (R : Type) where
  attr : Str → R
  exogenous : Option (List R)

/-- The local names, the array `dstate` and the argument `state`. -/
structure Mem (R : Type) where
  names : Dict Str (Ref R)
  out : List R
  state : List R

namespace Mem

variable {R : Type}

/-- The value of a local name. -/
def read (m : Mem R) (n : Str) : Except PyErr R :=
  match m.names.get? n with
  | none => .error .nameError
  | some (.value r) => .ok r
  | some (.out k) => match m.out[k]? with | some r => .ok r | none => .error .indexError
  | some (.state k) => match m.state[k]? with | some r => .ok r | none => .error .indexError

/-- `name = ref`. -/
def bindName (m : Mem R) (n : Str) (r : Ref R) : Mem R := { m with names := m.names.set n r }

/-- `name[:] = r`.  (If the name refers to an array owned by the object or computed locally, only the local value is updated
here.) -/
def write (m : Mem R) (n : Str) (r : R) : Except PyErr (Mem R) :=
  match m.names.get? n with
  | none => .error .nameError
  | some (.value _) => .ok (m.bindName n (.value r))
  | some (.out k) => .ok { m with out := m.out.set k r }
  | some (.state k) => .ok { m with state := m.state.set k r }

/-- The value of the expression `g(a)`: it needs a function of that name, which the module does not define (`NameError`, the imports are
those of templates/header.py 1-2); a local name that is an array is not callable (`TypeError`). -/
def call (m : Mem R) (g : Str) : Except PyErr R :=
  match m.names.get? g with | none => .error .nameError | some _ => .error .typeError

/-- The value of a printed expression (model_builder.py 276 `str(rhs)`).  SymPy prints the powers `1/2` and `-1/2` of `a` as `sqrt(a)`
and `1/sqrt(a)`, the other powers with `**`. -/
def eval (A : Arith R) (m : Mem R) : Sy → Except PyErr R
  | .num q => .ok (A.num q)
  | .sym _ s => m.read s
  | .add a b => do return A.add (← eval A m a) (← eval A m b)
  | .mul a b => do return A.mul (← eval A m a) (← eval A m b)
  | .pow a b => if b = .num (1 / 2) ∨ b = .num (-1 / 2) then m.call "sqrt".toList else do return A.pow (← eval A m a) (← eval A m b)
  | .func g _ => m.call g
  | .fn u _ => m.call u
  | .deriv _ _ => .error .nameError

end Mem

variable {R : Type}

/-- footer.py: `name = array[k]` for the elements of a list, `k` being the position. -/
def bindRows (rows : ℕ) (ref : ℕ → Ref R) : List Str → ℕ → Mem R → Except PyErr (Mem R)
  | [], _, m => .ok m
  | n :: ns, k, m => if k < rows then bindRows rows ref ns (k + 1) (m.bindName n (ref k)) else .error .indexError

/-- footer.py: `name = self.name`. -/
def bindAttrs (O : Obj R) (names : List Str) (m : Mem R) : Mem R :=
  names.foldl (fun m n => m.bindName n (.value (O.attr n))) m

/-- footer.py: the exogenous functions.  `exogenous[k]` of `None` is a `TypeError`. -/
def bindExogenous (O : Obj R) : List Str → ℕ → Mem R → Except PyErr (Mem R)
  | [], _, m => .ok m
  | n :: ns, k, m =>
    match O.exogenous with
    | none => .error .typeError
    | some l =>
      match l[k]? with
      | none => .error .indexError
      | some r => bindExogenous O ns (k + 1) (m.bindName n (.value r))

/-- footer.py: the derivatives. -/
def bindDerivatives (A : Arith R) (ds : List MetaDerivative) (m : Mem R) : Except PyErr (Mem R) :=
  ds.foldlM (fun (m : Mem R) d => do return m.bindName d.keyvar (.value (A.diff d.orders (← m.read d.function)))) m

/-- footer.py: the lines of the trend. -/
def runLines (A : Arith R) (lines : List (Str × Sy)) (m : Mem R) : Except PyErr (Mem R) :=
  lines.foldlM (fun (m : Mem R) l => do m.write l.1 (← m.eval A l.2)) m

/-- The keywords of Python. -/
def keywords : List Str :=
  ["False".toList, "None".toList, "True".toList, "and".toList, "as".toList, "assert".toList, "async".toList, "await".toList,
    "break".toList, "class".toList, "continue".toList, "def".toList, "del".toList, "elif".toList, "else".toList, "except".toList,
    "finally".toList, "for".toList, "from".toList, "global".toList, "if".toList, "import".toList, "in".toList, "is".toList,
    "lambda".toList, "nonlocal".toList, "not".toList, "or".toList, "pass".toList, "raise".toList, "return".toList, "try".toList,
    "while".toList, "with".toList, "yield".toList]

/-- The text can be the target of an assignment in the generated code.  (Identifiers with characters beyond ASCII are not modelled.) -/
def isName : Str → Bool
  | [] => false
  | c :: cs => (c.isAlpha || c == '_') && cs.all (fun d => d.isAlphanum || d == '_') && (c :: cs) ∉ keywords

/-- The names that are assigned in the generated code (footer.py). -/
def System.assigned (s : System) : List Str :=
  s.prognostic.map Sy.trendName ++ s.prognostic.map Sy.keyvar ++ s.constantFunctions.map Sy.keyvar ++ s.constants.map Sy.symName ++
    s.exogenous.map Sy.keyvar ++ s.spatialDerivatives.map (fun d => (metaDerivative d).keyvar)

/-- templates/footer.py: the body of the generated method `trend(t, state)`; returns the memory at the end, whose `out` is the returned
array.  `time` is the value of the argument `t`.  (Functions or constants whose name is one of the other names used by the
template, `self`, `np`, `state`, `dstate`, `exogenous`, are not modelled.) -/
def System.execute (s : System) (lines : List (Str × Sy)) (A : Arith R) (O : Obj R) (time : R) (state : List R) : Except PyErr (Mem R) := do
  let m : Mem R := ⟨[("t".toList, .value time)], List.replicate state.length (A.num 0), state⟩
  let m ← bindRows state.length .out (s.prognostic.map Sy.trendName) 0 m
  let m ← bindRows state.length .state (s.prognostic.map Sy.keyvar) 0 m
  let m := bindAttrs O (s.constantFunctions.map Sy.keyvar) m
  let m := bindAttrs O (s.constants.map Sy.symName) m
  let m ← bindExogenous O (s.exogenous.map Sy.keyvar) 0 m
  let m ← bindDerivatives A (s.spatialDerivatives.map metaDerivative) m
  runLines A lines m

/-- The generated method `trend(t, state)`: the lines are made, the module is imported, the body is executed.  The module cannot be imported
when it assigns to something that is not a name. -/
def System.trend (s : System) (A : Arith R) (O : Obj R) (time : R) (state : List R) : Except PyErr (Mem R) := do
  let lines ← s.trendCode
  if s.assigned.all isName then s.execute lines A O time state else .error .syntaxError

end Sympkf.PDE
