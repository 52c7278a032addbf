import Verif.Model.Pkf

/-!
# `SymbolicPKF`: the objects, their caches and their closures

`src/sympkf/symbolic/pkfcas.py` 41-837.  `Model/Pkf.lean` gives the systems as functions of the equations; here an object keeps
what it has computed, as the code does: every property reads its cache first, and what an exception leaves behind in the caches
stays there.  Simplifications: a tree on which `_add_tree_level` raises is left as it was (in the code the degree is already
increased); the lists returned by the properties are not changed by the caller.
-/

set_option autoImplicit false

namespace Sympkf.PKF

open Text POD Rand

/-- pkfcas.py 52-75, 960-962: the attributes that are filled on demand.  `none` is `None`. -/
structure Cache where
  first : Option (List Eqn)
  second : Option (List Eqn)
  expectation : Option (List Eqn)
  tl : Option (List Eqn)
  error : Option (List Eqn)
  epsilon : Option (List Eqn)
  variance : Option (List Eqn)
  cross : Option (List Eqn)
  metric : Option (List Eqn)
  inMetric : Option (List Eqn)
  inDiffusion : Option (List Eqn)
  inAspect : Option (List Eqn)
  internal : Option (Dict Ex Ex)
  /-- `_internal_closure` of the `Field` objects -/
  fields : Field → Option (Dict Ex Ex)
  /-- `subs_tree` of the `Field` objects -/
  trees : Field → Tree.State

/-- pkfcas.py 41-78 `__init__`. -/
def Cache.init : Cache := ⟨none, none, none, none, none, none, none, none, none, none, none, none, none,
  fun _ => none, fun _ => Tree.State.init⟩

/-- Python code reading and writing the attributes; the attributes survive an exception. -/
def M (α : Type) : Type := Cache → Except PyErr α × Cache

namespace M

variable {α β : Type}

/-- Sequencing: an exception ends the computation. -/
def bind (m : M α) (f : α → M β) : M β := fun c =>
  match m c with
  | (.ok a, c') => f a c'
  | (.error e, c') => (.error e, c')

instance : Monad M where
  pure a := fun c => (.ok a, c)
  bind := bind

/-- A computation that does not read or write attributes. -/
def lift (r : Except PyErr α) : M α := fun c => (r, c)

/-- Writing attributes. -/
def modify (g : Cache → Cache) : M Unit := fun c => (.ok (), g c)

/-- `if self._x is None: ..compute..; self._x = value` followed by `return self._x`. -/
def lazy (get : Cache → Option α) (set : Cache → α → Cache) (compute : M α) : M α := fun c =>
  match get c with
  | some v => (.ok v, c)
  | none =>
    match compute c with
    | (.ok v, c') => (.ok v, set c' v)
    | (.error e, c') => (.error e, c')

end M

namespace Pkf

variable (P : Pkf)

/-- pkfcas.py 80-129 `_compute_reynolds_system`: both caches are written at the end. -/
def computeReynolds : M Unit := do
  let r ← M.lift P.reynolds
  M.modify (fun c => { c with first := some (r.map Prod.snd), second := some (r.map Prod.fst) })

/-- pkfcas.py 131-140 `first_order_reynolds_system`. -/
def readFirst : M (List Eqn) := fun c =>
  match c.first with
  | some l => (.ok l, c)
  | none => (do P.computeReynolds; fun c => (.ok (c.first.getD []), c) : M (List Eqn)) c

/-- pkfcas.py 142-149 `second_order_reynolds_system`. -/
def readSecond : M (List Eqn) := fun c =>
  match c.second with
  | some l => (.ok l, c)
  | none => (do P.computeReynolds; fun c => (.ok (c.second.getD []), c) : M (List Eqn)) c

/-- pkfcas.py 964-998 `Field.internal_closure`. -/
def readField (f : Field) : M (Dict Ex Ex) :=
  M.lazy (fun c => c.fields f) (fun c d => { c with fields := Function.update c.fields f (some d) })
    (M.lift (f.internalClosure P.order))

/-- pkfcas.py 694-696: one pass of the first loop of `internal_closure`. -/
def fillField (f : Field) : M Unit := do
  let d ← P.readField f
  M.modify (fun c => { c with internal := some ((c.internal.getD []).update d) })

/-- pkfcas.py 699-717: one pass of the second loop of `internal_closure`. -/
def fillCouple (p : Field × Field) : M Unit := fun c =>
  match coupleEntries label P.fields (c.internal.getD []) p with
  | .ok d => (.ok (), { c with internal := some d })
  | .error e => (.error e, c)

/-- pkfcas.py 688-719 `internal_closure`; line 692: the attribute is a dictionary before it is filled. -/
def readClosure : M (Dict Ex Ex) := fun c =>
  match c.internal with
  | some d => (.ok d, c)
  | none => (do
      M.modify (fun c => { c with internal := some [] })
      P.fields.forM P.fillField
      (couples P.fields).forM P.fillCouple
      fun c => (.ok (c.internal.getD []), c) : M (Dict Ex Ex)) c

/-- pkfcas.py 815: `epsilon_to_mfields[epsilon].subs_tree(max_degree)`. -/
def readTree (f : Field) (degree : Option ℕ) : M (Dict Tree.Term Tree.TEx) := fun c =>
  match Tree.call P.order f.spatial true degree (c.trees f) with
  | .ok r => (.ok r.1, { c with trees := Function.update c.trees f r.2 })
  | .error e => (.error e, c)

/-- pkfcas.py 816 (753-754): the tree with the internal closure, which is not read when there is no item. -/
def closeTree (f : Field) (tree : Dict Tree.Term Tree.TEx) : M (Dict Ex Ex) := do
  let c ← if tree = [] then pure [] else P.readClosure
  return Dict.update [] (tree.map (fun kv => (eval (ofTree f.spatial f.epsilon (.term kv.1)), P.subs c (ofTree f.spatial f.epsilon kv.2))))

/-- pkfcas.py 813-819: one pass of the loop of `_apply_internal_closure`. -/
def runTree (unis : List (Ex × ℕ)) (rhs : Ex) (eps : Ex) : M Ex :=
  match P.fieldOf eps with
  | none => M.lift (.error .keyError)
  | some f => do
    let tree ← P.readTree f (some (((unis.filter (fun u => u.1 = eps)).map Prod.snd).foldr max 0))
    let tree ← P.closeTree f tree
    return P.subs tree rhs

/-- pkfcas.py 791-823 `_apply_internal_closure`. -/
def runInternal (rhs : Ex) : M Ex := do
  let unis := univariates rhs
  if unis.any (fun u => (P.fieldOf u.1).isNone) then M.lift (.error .runtimeError)
  else
    let rhs ← (unis.map Prod.fst).dedup.foldlM (P.runTree unis) rhs
    let c ← P.readClosure
    return P.subs c rhs

/-- pkfcas.py 151-175 `expectation_system`. -/
def readExpectation : M (List Eqn) :=
  M.lazy Cache.expectation (fun c l => { c with expectation := some l }) do
    let second ← P.readSecond
    second.mapM (fun q => do
      let c ← P.readClosure
      return P.subsEq c (P.subsEq P.subsError (expectEqn q)))

/-- pkfcas.py 177-191 `tl_expectation_system`. -/
def readTl : M (List Eqn) :=
  M.lazy Cache.tl (fun c l => { c with tl := some l }) do
    let first ← P.readFirst
    first.mapM (fun q => do
      let c ← P.readClosure
      return P.subsEq c (expectEqn q))

/-- pkfcas.py 193-210 `error_system`. -/
def readError : M (List Eqn) :=
  M.lazy Cache.error (fun c l => { c with error := some l }) do
    let first ← P.readFirst
    let tl ← P.readTl
    return (first.zip tl).map (fun q => (minus q.1.1 q.2.1, minus q.1.2 q.2.2))

/-- pkfcas.py 228-249: the equation of one variance. -/
def runVariance (errors : Dict Ex Ex) (f : Field) : M Eqn := do
  let rhs ← P.runInternal (P.subs P.subsError (P.subs errors (.ex (dt (.pow f.error 2)))))
  return (dt f.variance, rhs)

/-- pkfcas.py 212-253 `variance_system`. -/
def readVariance : M (List Eqn) :=
  M.lazy Cache.variance (fun c l => { c with variance := some l }) do
    let errors ← P.readError
    P.fields.mapM (P.runVariance (trends errors))

/-- pkfcas.py 255-299 `epsilon_system`. -/
def readEpsilon : M (List Eqn) :=
  M.lazy Cache.epsilon (fun c l => { c with epsilon := some l }) do
    let errors ← P.readError
    let variances ← P.readVariance
    return P.fields.map (P.epsilonEq (trends errors) (trends variances))

/-- pkfcas.py 369-388: one pass of the loop of `cross_covariance_system`; line 388: `append`. -/
def fillCross (errors : Dict Ex Ex) (p : Field × Field) : M Unit := do
  let c ← P.readClosure
  let v12 ← M.lift (Dict.getItem c (.ex (.mul p.1.error p.2.error)))
  let rhs ← P.runInternal (P.subs P.subsError (P.subs errors (.ex (dt (.mul p.1.error p.2.error)))))
  M.modify (fun c => { c with cross := some (c.cross.getD [] ++ [(dt v12, eval rhs)]) })

/-- pkfcas.py 345-390 `cross_covariance_system`; line 367: the attribute is a list before it is filled. -/
def readCross : M (Option (List Eqn)) := fun c =>
  match c.cross with
  | some l => (.ok (some l), c)
  | none =>
    if P.fields.length = 1 then (.ok none, c)
    else (do
      let errors ← P.readError
      M.modify (fun c => { c with cross := some [] })
      (couples P.fields).forM (P.fillCross (trends errors))
      fun c => (.ok c.cross, c) : M (Option (List Eqn))) c

/-- pkfcas.py 415-434: the equation of one component. -/
def runMetric (epsilons : Dict Ex Ex) (f : Field) (ij : ℕ × ℕ) : M Eqn := do
  let xi := f.spatial.getD ij.1 []
  let xj := f.spatial.getD ij.2 []
  let rhs ← P.runInternal (P.subs epsilons (.ex (dt (.mul (.deriv f.epsilon [(xi, 1)]) (.deriv f.epsilon [(xj, 1)])))))
  return (dt (f.metric ij.1 ij.2), eval rhs)

/-- pkfcas.py 392-437 `metric_system`. -/
def readMetric : M (List Eqn) :=
  M.lazy Cache.metric (fun c l => { c with metric := some l }) do
    let epsilons ← P.readEpsilon
    (P.fields.flatMap (fun f => (pairs f.spatial.length).map (fun ij => (f, ij)))).mapM
      (fun p => P.runMetric (trends epsilons) p.1 p.2)

/-- pkfcas.py 439-473 `in_metric`; `user` is `self.closure`. -/
def readInMetric (user : Dict Ex Ex) : M (List Eqn) :=
  M.lazy Cache.inMetric (fun c l => { c with inMetric := some l }) do
    let mean ← P.readExpectation
    let variance ← P.readVariance
    let cross ← P.readCross
    let metric ← P.readMetric
    return ([mean, variance] ++ cross.toList ++ [metric]).flatMap (fun s => P.clean (P.applyClosure user s))

/-- pkfcas.py 474-558 `in_diffusion`. -/
def readInDiffusion (user : Dict Ex Ex) : M (List Eqn) :=
  M.lazy Cache.inDiffusion (fun c l => { c with inDiffusion := some l }) do
    let metric ← P.readMetric
    let mean ← P.readExpectation
    let variance ← P.readVariance
    let systems := [mean, variance].flatMap (fun s => (P.applyClosure user s).map (P.subsEq P.metricToDiffusion))
    let tensors := P.fields.flatMap (P.tensorEqs (-2) P.metricToDiffusion (trends (P.applyClosure user metric)) Field.diffusion)
    return P.clean (systems ++ tensors)

/-- pkfcas.py 560-658 `in_aspect`. -/
def readInAspect (user : Dict Ex Ex) : M (List Eqn) :=
  M.lazy Cache.inAspect (fun c l => { c with inAspect := some l }) do
    let metric ← P.readMetric
    let mean ← P.readExpectation
    let variance ← P.readVariance
    let cross ← P.readCross
    let systems := ([mean, variance] ++ cross.toList).flatMap (fun s => (P.applyClosure user s).map (P.subsEq P.metricToAspect))
    let tensors := P.fields.flatMap (P.tensorEqs (-1) P.metricToAspect (trends (P.applyClosure user metric)) Field.aspect)
    return P.clean (systems ++ tensors)

/-- pkfcas.py 825-837 `unclosed_terms`. -/
def readUnclosed (user : Dict Ex Ex) : M (List Ex) := do
  let system ← P.readInMetric user
  return ((system.flatMap (fun q => exAtoms q.2)).dedup).filter (fun e => e ∉ P.fields.map (fun f => eval (.ex f.random)))

/-- pkfcas.py 741-759 `subs_tree`: the trees as deep as they have been computed. -/
def readSubsTree : M (Dict Ex Ex) :=
  P.fields.foldlM (fun (d : Dict Ex Ex) f => do
    let tree ← P.readTree f none
    let tree ← P.closeTree f tree
    return d.update tree) []

/-- The properties of the class that return systems or dictionaries. -/
inductive Property
  | first | second | expectation | tl | error | variance | epsilon | cross | metric | inMetric | inDiffusion | inAspect
  | closure | unclosed | subsTree
  deriving DecidableEq

/-- What a property returns. -/
inductive Value
  /-- a system, or `None` -/
  | system (l : Option (List Eqn))
  | dict (d : Dict Ex Ex)
  | terms (l : List Ex)
  deriving DecidableEq

/-- Reading one property. -/
def read (user : Dict Ex Ex) : Property → M Value
  | .first => do return .system (some (← P.readFirst))
  | .second => do return .system (some (← P.readSecond))
  | .expectation => do return .system (some (← P.readExpectation))
  | .tl => do return .system (some (← P.readTl))
  | .error => do return .system (some (← P.readError))
  | .variance => do return .system (some (← P.readVariance))
  | .epsilon => do return .system (some (← P.readEpsilon))
  | .cross => do return .system (← P.readCross)
  | .metric => do return .system (some (← P.readMetric))
  | .inMetric => do return .system (some (← P.readInMetric user))
  | .inDiffusion => do return .system (some (← P.readInDiffusion user))
  | .inAspect => do return .system (some (← P.readInAspect user))
  | .closure => do return .dict (← P.readClosure)
  | .unclosed => do return .terms (← P.readUnclosed user)
  | .subsTree => do return .dict (← P.readSubsTree)

end Pkf

/-! ## Several objects -/

/-- One `SymbolicPKF`. -/
structure Obj where
  pkf : Pkf
  /-- the dictionary `_closure`, which may be shared -/
  ref : ℕ
  cache : Cache

/-- The dictionaries given as closures or created by the constructor, and the objects. -/
structure World where
  dicts : List (Dict Ex Ex)
  objs : List Obj

/-- What a program does with `SymbolicPKF`. -/
inductive Op
  /-- a new dictionary of the program -/
  | dict (d : Dict Ex Ex)
  /-- `SymbolicPKF(equations)` or `SymbolicPKF(equations, closure=dicts[ref])` -/
  | new (P : Pkf) (closure : Option ℕ)
  /-- `objs[o].set_closure(d)` -/
  | set (o : ℕ) (d : Dict Ex Ex)
  /-- `objs[o].property` -/
  | read (o : ℕ) (p : Pkf.Property)

namespace World

/-- The closure of an object. -/
def user (w : World) (o : Obj) : Dict Ex Ex := w.dicts.getD o.ref []

/-- pkfcas.py 75: `self._closure = {} if closure is None else closure`. -/
def new (P : Pkf) (w : World) : Option ℕ → World
  | none => ⟨w.dicts ++ [[]], w.objs ++ [⟨P, w.dicts.length, Cache.init⟩]⟩
  | some r => ⟨w.dicts, w.objs ++ [⟨P, r, Cache.init⟩]⟩

/-- pkfcas.py 665-672 `set_closure`. -/
def setClosure (w : World) (i : ℕ) (d : Dict Ex Ex) : World :=
  match w.objs[i]? with
  | none => w
  | some o => ⟨w.dicts.modify o.ref (fun c => c.update d),
      w.objs.set i { o with cache := { o.cache with inMetric := none, inDiffusion := none, inAspect := none } }⟩

/-- Reading a property of an object. -/
def readProp (w : World) (i : ℕ) (p : Pkf.Property) : Option (Except PyErr Pkf.Value) × World :=
  match w.objs[i]? with
  | none => (none, w)
  | some o =>
    let r := o.pkf.read (w.user o) p o.cache
    (some r.1, ⟨w.dicts, w.objs.set i { o with cache := r.2 }⟩)

/-- One operation. -/
def step (w : World) : Op → World
  | .dict d => ⟨w.dicts ++ [d], w.objs⟩
  | .new P c => w.new P c
  | .set o d => w.setClosure o d
  | .read o p => (w.readProp o p).2

/-- A program. -/
def run (w : World) (ops : List Op) : World := ops.foldl step w

/-- Before the program starts. -/
def init : World := ⟨[], []⟩

end World
end Sympkf.PKF
