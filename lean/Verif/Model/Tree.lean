import Verif.Model.PartialOrder

/-!
# `UnivariateTree`

`src/sympkf/symbolic/pkfcas.py` 1192-1270.  The tree replaces the statistics `E[D^a eps D^b eps]` of one random field by
statistics `E[eps D^c eps]`.  Simplifications: a term is the unordered pair of its multi-indices (products commute in SymPy and
equal derivatives are merged); the value of an entry is an expression in such terms, their derivatives and differences.
-/

set_option autoImplicit false

namespace Sympkf.Tree

open Text POD

/-- Lexicographic comparison, used to store unordered pairs. -/
def leB : List ℤ → List ℤ → Bool
  | [], _ => true
  | _ :: _, [] => false
  | a :: as, b :: bs => decide (a < b) || (decide (a = b) && leB as bs)

/-- The statistics `E[D^a eps D^b eps]`; build it with `term`. -/
structure Term where
  a : List ℤ
  b : List ℤ
  deriving DecidableEq

/-- pkfcas.py 1249-1250: `Expectation(Derivative(eps, *alpha) * Derivative(eps, *beta))`. -/
def term (a b : List ℤ) : Term := if leB a b then ⟨a, b⟩ else ⟨b, a⟩

/-- Values of the tree. -/
inductive TEx
  | term (t : Term)
  /-- `Derivative(e, x)` -/
  | d (x : Str) (e : TEx)
  | sub (e f : TEx)
  | half (e : TEx)
  deriving DecidableEq

/-- `expr.subs(tree)`.  (SymPy applies the substitutions one after the other; since no value contains a key,
`C38_reduced`, this is the simultaneous substitution.) -/
def TEx.subs (tree : Dict Term TEx) : TEx → TEx
  | .term t => (tree.get? t).getD (.term t)
  | .d x e => .d x (e.subs tree)
  | .sub e f => .sub (e.subs tree) (f.subs tree)
  | .half e => .half (e.subs tree)

/-- util.py `Eq.isolate`, for the equation `Derivative(t0, x) = t1 + t2`: `solve(..)[0]`, which raises `IndexError` when there is
no solution. -/
def isolate (x : Str) (t0 t1 t2 t : Term) : Except PyErr TEx :=
  if t1 = t then
    if t2 = t then .ok (.half (.d x (.term t0))) else .ok (.sub (.d x (.term t0)) (.term t2))
  else if t2 = t then .ok (.sub (.d x (.term t0)) (.term t1))
  else .error .indexError

/-- One more derivative with respect to `x` (pkfcas.py 1252, `lhs.doit()`). -/
def bump (coords : List Str) (x : Str) (o : List ℤ) : List ℤ := o.modify (coords.idxOf x) (· + 1)

/-- pkfcas.py 1244-1260: the term and the expression replacing it, before substitution.
`Expectation(Derivative(f * g, x)) = Expectation(Derivative(f, x) * g + f * Derivative(g, x))` is solved for the term. -/
def entry (alpha beta : POrder) : Except PyErr (Term × TEx) := do
  let subAlpha ← alpha.new (.list (alpha.sequence.tail.map (fun x => .atom (.sym x))))
  match alpha.sequence with
  | [] => .error .indexError
  | x :: _ => do
    let t := term alpha.orders beta.orders
    let v ← isolate x (term subAlpha.orders beta.orders)
      (term (bump alpha.coordinates x subAlpha.orders) beta.orders)
      (term subAlpha.orders (bump alpha.coordinates x beta.orders)) t
    return (t, v)

/-- The attributes `_degree`, `_levels`, `_tree`: pkfcas.py 1209-1211. -/
structure State where
  degree : ℕ
  levels : Dict ℕ (Dict Term TEx)
  tree : Dict Term TEx
  deriving DecidableEq

/-- pkfcas.py 1205-1211 `__init__`. -/
def State.init : State := ⟨0, [], []⟩

/-- pkfcas.py 1248-1264: one pair `(alpha, beta)`. -/
def step (selfSub : Bool) (acc : Dict Term TEx × Dict Term TEx) (p : POrder × POrder) :
    Except PyErr (Dict Term TEx × Dict Term TEx) := do
  let (t, v) ← entry p.1 p.2
  let v := if selfSub then v.subs acc.1 else v
  return (acc.1.set t v, acc.2.set t v)

/-- pkfcas.py 1239-1264: one value of `alpha_degree`. -/
def alphaLoop (order : ℕ → List (List ℤ) → List (List ℤ)) (coords : List Str) (selfSub : Bool) (degree : ℕ)
    (acc : Dict Term TEx × Dict Term TEx) (a : ℕ) : Except PyErr (Dict Term TEx × Dict Term TEx) := do
  let alphas ← allOfDegree order coords a
  let betas ← allOfDegree order coords (degree - a)
  (alphas.flatMap (fun al => betas.map (fun be => (al, be)))).foldlM (step selfSub) acc

/-- pkfcas.py 1231-1266 `_add_tree_level`. -/
def addLevel (order : ℕ → List (List ℤ) → List (List ℤ)) (coords : List Str) (selfSub : Bool) (s : State) :
    Except PyErr State := do
  let degree := s.degree + 1
  let (tree, level) ← (List.range' 1 (degree / 2)).foldlM (alphaLoop order coords selfSub degree) (s.tree, [])
  return ⟨degree, s.levels.set degree level, tree⟩

/-- `n` calls of `_add_tree_level`. -/
def addLevels (order : ℕ → List (List ℤ) → List (List ℤ)) (coords : List Str) (selfSub : Bool) :
    ℕ → State → Except PyErr State
  | 0, s => .ok s
  | n + 1, s => do addLevels order coords selfSub n (← addLevel order coords selfSub s)

/-- pkfcas.py 1224-1229: the levels of degree at most `degree` are put into one dictionary. -/
def collect (degree : ℕ) (levels : Dict ℕ (Dict Term TEx)) (tree : Dict Term TEx) : Dict Term TEx :=
  levels.foldl (fun (tree : Dict Term TEx) l => if degree < l.1 then tree else tree.update l.2) tree

/-- pkfcas.py 1213-1229 `__call__`: the returned dictionary and the new state.  `degree=None` is `none`. -/
def call (order : ℕ → List (List ℤ) → List (List ℤ)) (coords : List Str) (selfSub : Bool) (degree : Option ℕ) (s : State) :
    Except PyErr (Dict Term TEx × State) := do
  let degree := degree.getD s.degree
  let s' ← if s.degree < degree then addLevels order coords selfSub (degree - s.degree) s else .ok s
  return (collect degree s'.levels [], s')

/-- A sequence of calls; the results are dropped. -/
def history (order : ℕ → List (List ℤ) → List (List ℤ)) (coords : List Str) (selfSub : Bool) :
    List (Option ℕ) → State → Except PyErr State
  | [], s => .ok s
  | d :: ds, s => do
    let r ← call order coords selfSub d s
    history order coords selfSub ds r.2

end Sympkf.Tree
