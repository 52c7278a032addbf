import Verif.Model.Poly
import Verif.Model.Field
import Verif.Model.Tree

/-!
# `SymbolicPKF`: the systems of equations

`src/sympkf/symbolic/pkfcas.py` 30-837.  Every property of the class that returns a system is a function of the equations, the
fields and the closures; the caches are the subject of `Model/PkfObject.lean`.  Expressions are normalised as explained in
`Model/Poly.lean`; an equation is the pair of its sides (SymPy's `Eq` would be replaced by a truth value if both sides were the
same expression, which is excluded since the left-hand side is a trend).
-/

set_option autoImplicit false

namespace Sympkf.PKF

open Text POD Rand

/-- An equation `lhs = rhs`. -/
abbrev Eqn := Ex × Ex

/-- What the systems are computed from. -/
structure Pkf where
  /-- pkfcas.py 48-50: `self.fields`, in the order of the dictionary -/
  fields : List Field
  /-- `self.pde_system.equations` -/
  equations : List Eqn
  /-- the iteration order of the sets of `all_of_degree` (see `Model/PartialOrder.lean`) -/
  order : ℕ → List (List ℤ) → List (List ℤ) := fun _ l => l
  /-- the order in which SymPy takes the entries of a dictionary in `subs` -/
  arrange : Dict Ex Ex → List (Ex × Ex) := fun d => d

namespace Pkf

variable (P : Pkf)

/-- `e.subs(dict)`. -/
def subs (d : Dict Ex Ex) (e : Ex) : Ex := substAll (P.arrange d) e

/-- `equation.subs(dict)`. -/
def subsEq (d : Dict Ex Ex) (q : Eqn) : Eqn := (P.subs d q.1, P.subs d q.2)

/-- `Derivative(e, t)`. -/
def dt (e : Ex) : Ex := .deriv e [(time, 1)]

/-- `{equation.args[0]: equation.args[1] for equation in system}`. -/
def trends (system : List Eqn) : Dict Ex Ex := Dict.update [] system

/-! ## Reynolds systems -/

/-- pkfcas.py 89: `symbols('\\varepsilon')`. -/
def epsSym : Str := "\\varepsilon".toList

/-- pkfcas.py 90-93 `subs_reynolds`. -/
def subsReynolds : Dict Ex Ex :=
  Dict.update [] (P.fields.map (fun f => (f.value, .add (.ex f.random) (.mul (.sym epsSym) f.error))))

/-- Does the symbol occur in the expression? -/
def occurs (s : Str) : Ex → Bool
  | .num _ => false
  | .sym t => decide (t = s)
  | .fn _ args => decide (s ∈ args)
  | .func _ a => occurs s a
  | .add a b => occurs s a || occurs s b
  | .mul a b => occurs s a || occurs s b
  | .pow a _ => occurs s a
  | .deriv a vars => occurs s a || vars.any (fun v => v.1 = s)
  | .integ a x => occurs s a || decide (x = s)
  | .ex a => occurs s a
  | .other _ => false

/-- The exponent of `epsilon` in a monomial. -/
def epsDegree (m : Mono) : ℚ := ((m.filter (fun f => f.1 = .sym epsSym)).map Prod.snd).sum

/-- The coefficients of `1`, `epsilon` and `epsilon^2` of a Taylor expansion. -/
abbrev Taylor := Poly × Poly × Poly

/-- Product of expansions, truncated. -/
def tmul (a b : Taylor) : Taylor :=
  (pmul a.1 b.1, padd (pmul a.1 b.2.1) (pmul a.2.1 b.1), padd (pmul a.1 b.2.2) (padd (pmul a.2.1 b.2.1) (pmul a.2.2 b.1)))

/-- Natural power of an expansion, truncated. -/
def tpow (a : Taylor) : ℕ → Taylor
  | 0 => (pconst 1, [], [])
  | n + 1 => tmul (tpow a n) a

/-- Expansion of a function with the value `f0` and the derivatives `f1`, `f2`. -/
def tcompose (f0 f1 f2 : Poly) (a : Taylor) : Taylor :=
  (f0, pmul f1 a.2.1, padd (pmul f1 a.2.2) (pmul (pconst (1 / 2)) (pmul f2 (pmul a.2.1 a.2.1))))

/-- SymPy's `series` on normalised expressions: sums, products, powers and the functions of `dfunc`; `epsilon` at another place
(and an expansion around a singularity of a power or of the logarithm) is reported as `notImplementedError`. -/
def expansion (e : Ex) : Except PyErr Taylor :=
  if occurs epsSym e = false then .ok (reEx e, [], []) else
    match e with
    | .sym _ => .ok ([], pconst 1, [])
    | .add a b => do
      let a ← expansion a
      let b ← expansion b
      return (padd a.1 b.1, padd a.2.1 b.2.1, padd a.2.2 b.2.2)
    | .mul a b => do
      let a ← expansion a
      let b ← expansion b
      return tmul a b
    | .pow a q => do
      let a ← expansion a
      if isNat q then return tpow a q.num.toNat
      else if a.1 = [] then .error .notImplementedError
      else return tcompose (ppow a.1 q) (pmul (pconst q) (ppow a.1 (q - 1))) (pmul (pconst (q * (q - 1))) (ppow a.1 (q - 2))) a
    | .func g a =>
      match dfunc g with
      | none => .error .notImplementedError
      | some d => do
        let a ← expansion a
        if g = "log".toList ∧ a.1 = [] then .error .notImplementedError
        else return tcompose (patom (.func g (toEx a.1))) (reEx (d.1 (toEx a.1))) (reEx (d.2 (toEx a.1))) a
    | _ => .error .notImplementedError

/-- pkfcas.py 112: `rhs.series(epsilon, 0, 3).removeO()`. -/
def taylor (p : Poly) : Except PyErr Poly := do
  let a ← expansion (toEx p)
  return padd a.1 (padd (pmul (patom (.sym epsSym)) a.2.1) (pmul [([(.sym epsSym, 2)], 1)] a.2.2))

/-- pkfcas.py 122, 126: `subs(epsilon, Integer(1))`. -/
def epsOne (p : Poly) : Ex := toEx (subst (.sym epsSym) (pconst 1) (toEx p))

/-- pkfcas.py 125: `subs(epsilon*epsilon, Integer(0))`, on polynomials of degree at most two in `epsilon`. -/
def dropSquare (p : Poly) : Poly := p.filter (fun t => epsDegree t.1 ≠ 2)

/-- pkfcas.py 100-126: the second and the first order Reynolds equations. -/
def reynoldsEq (q : Eqn) : Except PyErr (Eqn × Eqn) := do
  let lhs := ofEx (P.subs P.subsReynolds q.1)
  let rhs ← taylor (ofEx (P.subs P.subsReynolds q.2))
  return ((epsOne lhs, epsOne rhs), (epsOne (dropSquare lhs), epsOne (dropSquare rhs)))

/-- pkfcas.py 80-129 `_compute_reynolds_system`. -/
def reynolds : Except PyErr (List (Eqn × Eqn)) := P.equations.mapM P.reynoldsEq

/-- pkfcas.py 142-149 `second_order_reynolds_system`. -/
def secondOrder : Except PyErr (List Eqn) := do return (← P.reynolds).map Prod.fst

/-- pkfcas.py 131-140 `first_order_reynolds_system`. -/
def firstOrder : Except PyErr (List Eqn) := do return (← P.reynolds).map Prod.snd

/-! ## The internal closure -/

/-- pkfcas.py 78. -/
def label : Str := "V_".toList

/-- pkfcas.py 688-719 `internal_closure`. -/
def closure : Except PyErr (Dict Ex Ex) := internalClosure P.order label P.fields

/-- The derivatives `D^a eps`. -/
def dalpha (coords : List Str) (e : Ex) (a : List ℤ) : Ex := .deriv e (coords.zip (a.map Int.toNat))

/-- The expressions of the tree as SymPy expressions. -/
def ofTree (coords : List Str) (eps : Ex) : Tree.TEx → Ex
  | .term t => .ex (.mul (dalpha coords eps t.a) (dalpha coords eps t.b))
  | .d x e => .deriv (ofTree coords eps e) [(x, 1)]
  | .sub e f => .add (ofTree coords eps e) (.mul (.num (-1)) (ofTree coords eps f))
  | .half e => .mul (.num (1 / 2)) (ofTree coords eps e)

/-- `expr.atoms(Expectation)`. -/
def exAtoms : Ex → List Ex
  | .func _ a => exAtoms a
  | .add a b => exAtoms a ++ exAtoms b
  | .mul a b => exAtoms a ++ exAtoms b
  | .pow a _ => exAtoms a
  | .deriv a _ => exAtoms a
  | .integ a _ => exAtoms a
  | .ex a => .ex a :: exAtoms a
  | _ => []

/-- `expr.atoms(Derivative)`. -/
def derivAtoms : Ex → List Ex
  | .func _ a => derivAtoms a
  | .add a b => derivAtoms a ++ derivAtoms b
  | .mul a b => derivAtoms a ++ derivAtoms b
  | .pow a _ => derivAtoms a
  | .deriv a vars => .deriv a vars :: derivAtoms a
  | .integ a _ => derivAtoms a
  | .ex a => derivAtoms a
  | _ => []

/-- `expr.atoms(Function)`; `Expectation` is a subclass of `Function`. -/
def fnAtoms : Ex → List Ex
  | .fn u args => [.fn u args]
  | .func g a => .func g a :: fnAtoms a
  | .add a b => fnAtoms a ++ fnAtoms b
  | .mul a b => fnAtoms a ++ fnAtoms b
  | .pow a _ => fnAtoms a
  | .deriv a _ => fnAtoms a
  | .integ a _ => fnAtoms a
  | .ex a => .ex a :: fnAtoms a
  | _ => []

/-- `derivative.derivative_count`. -/
def derivCount : Ex → ℕ
  | .deriv _ vars => (vars.map Prod.snd).sum
  | _ => 0

/-- pkfcas.py 858-903 `UnivariateTerm.is_univariate`: the function and the degree. -/
def isUnivariate (term : Ex) : Option (Ex × ℕ) :=
  let derivatives := (derivAtoms term).dedup
  match (derivatives.flatMap fnAtoms).dedup with
  | [f] =>
    match derivatives with
    | [d] =>
      if term = eval (.ex (.mul f d)) then some (f, derivCount d)
      else if term = eval (.ex (.mul d d)) then some (f, 2 * derivCount d)
      else none
    | [d, d'] => if term = eval (.ex (.mul d d')) then some (f, derivCount d + derivCount d') else none
    | _ => none
  | _ => none

/-- pkfcas.py 762-778 `check_univariate`: all pairs (function, degree). -/
def univariates (e : Ex) : List (Ex × ℕ) := (exAtoms e).filterMap isUnivariate

/-- pkfcas.py 794-796: `epsilon_to_mfields[epsilon]`; a later field with the same `epsilon` replaces an earlier one. -/
def fieldOf (eps : Ex) : Option Field := P.fields.reverse.find? (fun f => f.epsilon = eps)

/-- pkfcas.py 815-816: `closed_subs_tree`. -/
def closedTree (c : Dict Ex Ex) (f : Field) (degree : ℕ) : Except PyErr (Dict Ex Ex) := do
  let r ← Tree.call P.order f.spatial true (some degree) Tree.State.init
  return Dict.update [] (r.1.map (fun kv => (eval (ofTree f.spatial f.epsilon (.term kv.1)), P.subs c (ofTree f.spatial f.epsilon kv.2))))

/-- pkfcas.py 813-819: the replacement of the univariate terms of one field. -/
def applyTree (c : Dict Ex Ex) (unis : List (Ex × ℕ)) (rhs : Ex) (eps : Ex) : Except PyErr Ex :=
  match P.fieldOf eps with
  | none => .error .keyError
  | some f => do
    let tree ← P.closedTree c f (((unis.filter (fun u => u.1 = eps)).map Prod.snd).foldr max 0)
    return P.subs tree rhs

/-- pkfcas.py 791-823 `_apply_internal_closure`.  Lines 802-804: when a univariate term of a function that is not the normalised
error of a field is found, the dictionary is changed during the iteration: `RuntimeError`. -/
def applyInternal (c : Dict Ex Ex) (rhs : Ex) : Except PyErr Ex := do
  let unis := univariates rhs
  if unis.any (fun u => (P.fieldOf u.1).isNone) then .error .runtimeError
  else
    let rhs ← (unis.map Prod.fst).dedup.foldlM (P.applyTree c unis) rhs
    return P.subs c rhs

/-! ## Mean -/

/-- pkfcas.py 158-160 `subs_error` (also 221-224, 275-278, 360-363). -/
def subsError : Dict Ex Ex :=
  Dict.update [] (P.fields.map (fun f => (f.error, .mul (.pow f.variance (1 / 2)) f.epsilon)))

/-- `Expectation(equation)`, random.py 113-116. -/
def expectEqn (q : Eqn) : Eqn := (eval (.ex q.1), eval (.ex q.2))

/-- pkfcas.py 151-175 `expectation_system`. -/
def expectationSystem : Except PyErr (List Eqn) := do
  let second ← P.secondOrder
  let c ← P.closure
  return second.map (fun q => P.subsEq c (P.subsEq P.subsError (expectEqn q)))

/-- pkfcas.py 177-191 `tl_expectation_system`. -/
def tlExpectation : Except PyErr (List Eqn) := do
  let first ← P.firstOrder
  let c ← P.closure
  return first.map (fun q => P.subsEq c (expectEqn q))

/-! ## Errors -/

/-- `a - b`, expanded. -/
def minus (a b : Ex) : Ex := eval (.add a (.mul (.num (-1)) b))

/-- pkfcas.py 193-210 `error_system`. -/
def errorSystem : Except PyErr (List Eqn) := do
  let first ← P.firstOrder
  let tl ← P.tlExpectation
  return (first.zip tl).map (fun q => (minus q.1.1 q.2.1, minus q.1.2 q.2.2))

/-! ## Variances -/

/-- pkfcas.py 228-249: the equation of one variance. -/
def varianceEq (c : Dict Ex Ex) (errors : Dict Ex Ex) (f : Field) : Except PyErr Eqn := do
  let rhs := P.subs P.subsError (P.subs errors (.ex (dt (.pow f.error 2))))
  return (dt f.variance, ← P.applyInternal c rhs)

/-- pkfcas.py 212-253 `variance_system`. -/
def varianceSystem : Except PyErr (List Eqn) := do
  let errors ← P.errorSystem
  let c ← P.closure
  P.fields.mapM (P.varianceEq c (trends errors))

/-- pkfcas.py 282-295: the equation of one normalised error. -/
def epsilonEq (errors variances : Dict Ex Ex) (f : Field) : Eqn :=
  (dt f.epsilon, P.subs P.subsError (P.subs variances (P.subs errors (dt (.mul f.error (.pow f.variance (-1 / 2)))))))

/-- pkfcas.py 255-299 `epsilon_system`. -/
def epsilonSystem : Except PyErr (List Eqn) := do
  let errors ← P.errorSystem
  let variances ← P.varianceSystem
  return P.fields.map (P.epsilonEq (trends errors) (trends variances))

/-! ## Cross-covariances -/

/-- pkfcas.py 370-388: the equation of one couple. -/
def crossEq (c : Dict Ex Ex) (errors : Dict Ex Ex) (p : Field × Field) : Except PyErr Eqn := do
  let v12 ← Dict.getItem c (.ex (.mul p.1.error p.2.error))
  let rhs := P.subs P.subsError (P.subs errors (.ex (dt (.mul p.1.error p.2.error))))
  return (dt v12, eval (← P.applyInternal c rhs))

/-- pkfcas.py 345-390 `cross_covariance_system`; `None` for a single field. -/
def crossSystem : Except PyErr (Option (List Eqn)) := do
  if P.fields.length = 1 then return none
  else
    let errors ← P.errorSystem
    let c ← P.closure
    return some (← (couples P.fields).mapM (P.crossEq c (trends errors)))

/-! ## Metric -/

/-- The upper triangle, row by row: pkfcas.py 410-413. -/
def pairs (n : ℕ) : List (ℕ × ℕ) := (List.range n).flatMap (fun i => (List.range' i (n - i)).map (fun j => (i, j)))

/-- pkfcas.py 415-434: the equation of one component. -/
def metricEq (c : Dict Ex Ex) (epsilons : Dict Ex Ex) (f : Field) (ij : ℕ × ℕ) : Except PyErr Eqn := do
  let xi := f.spatial.getD ij.1 []
  let xj := f.spatial.getD ij.2 []
  let rhs := P.subs epsilons (.ex (dt (.mul (.deriv f.epsilon [(xi, 1)]) (.deriv f.epsilon [(xj, 1)]))))
  return (dt (f.metric ij.1 ij.2), eval (← P.applyInternal c rhs))

/-- pkfcas.py 392-437 `metric_system`. -/
def metricSystem : Except PyErr (List Eqn) := do
  let epsilons ← P.epsilonSystem
  let c ← P.closure
  (P.fields.flatMap (fun f => (pairs f.spatial.length).map (fun ij => (f, ij)))).mapM
    (fun p => P.metricEq c (trends epsilons) p.1 p.2)

/-! ## The complete systems -/

/-- pkfcas.py 780-789 `_apply_closure` (also 460-465); `user` is the closure given by the user. -/
def applyClosure (user : Dict Ex Ex) (system : List Eqn) : List Eqn :=
  if user = [] then system else system.map (P.subsEq user)

/-- pkfcas.py 678-680. -/
def cleanDict : Dict Ex Ex := Dict.update [] (P.fields.map (fun f => (.ex f.random, f.value)))

/-- pkfcas.py 674-686 `_clean_system_from_expectation`. -/
def clean (system : List Eqn) : List Eqn := system.map (P.subsEq P.cleanDict)

/-- pkfcas.py 439-473 `in_metric`. -/
def inMetric (user : Dict Ex Ex) : Except PyErr (List Eqn) := do
  let mean ← P.expectationSystem
  let variance ← P.varianceSystem
  let cross ← P.crossSystem
  let metric ← P.metricSystem
  return ([mean, variance] ++ cross.toList ++ [metric]).flatMap (fun s => P.clean (P.applyClosure user s))

/-! ## Other tensors -/

/-- A sum of expressions. -/
def sumEx (l : List Ex) : Ex := l.foldr .add (.num 0)

/-- The determinant of the `n` by `n` matrix `M`, along the first row. -/
def detEx : ℕ → (ℕ → ℕ → Ex) → Ex
  | 0, _ => .num 1
  | n + 1, M => sumEx ((List.range (n + 1)).map (fun j =>
      .mul (.mul (.num ((-1) ^ j)) (M 0 j)) (detEx n (fun i k => M (i + 1) (if k < j then k else k + 1)))))

/-- The entries of `M.inv()`, by cofactors (SymPy eliminates; the rational functions are the same). -/
def invEx (n : ℕ) (M : ℕ → ℕ → Ex) (i j : ℕ) : Ex :=
  .mul (.mul (.num ((-1) ^ (j + i)))
    (detEx (n - 1) (fun a b => M (if a < j then a else a + 1) (if b < i then b else b + 1)))) (.pow (detEx n M) (-1))

/-- The entry `i, j` of `A * B * A`. -/
def sandwich (n : ℕ) (A B : ℕ → ℕ → Ex) (i j : ℕ) : Ex :=
  sumEx ((List.range n).map (fun l => .mul (sumEx ((List.range n).map (fun k => .mul (A i k) (B k l)))) (A l j)))

/-- pkfcas.py 581-588 `metric_to_aspect`. -/
def metricToAspect : Dict Ex Ex :=
  Dict.update [] (P.fields.flatMap (fun f => (pairs f.spatial.length).map (fun ij =>
    (f.metric ij.1 ij.2, invEx f.spatial.length f.aspect ij.1 ij.2))))

/-- pkfcas.py 495-501 `metric_to_diffusion`. -/
def metricToDiffusion : Dict Ex Ex :=
  Dict.update [] (P.fields.flatMap (fun f => (pairs f.spatial.length).map (fun ij =>
    (f.metric ij.1 ij.2, .mul (.num (1 / 2)) (invEx f.spatial.length f.diffusion ij.1 ij.2)))))

/-- pkfcas.py 622-651 (522-551): the equations of the tensor `T` of one field; `factor` is `-1` (`-2`). -/
def tensorEqs (factor : ℚ) (metricTo metricTrend : Dict Ex Ex) (T : Field → ℕ → ℕ → Ex) (f : Field) : List Eqn :=
  (pairs f.spatial.length).map (fun ij =>
    (dt (T f ij.1 ij.2), P.subs metricTo (P.subs metricTrend
      (.mul (.num factor) (sandwich f.spatial.length (T f) (fun k l => dt (f.metric k l)) ij.1 ij.2)))))

/-- pkfcas.py 560-658 `in_aspect`. -/
def inAspect (user : Dict Ex Ex) : Except PyErr (List Eqn) := do
  let metric ← P.metricSystem
  let mean ← P.expectationSystem
  let variance ← P.varianceSystem
  let cross ← P.crossSystem
  let systems := ([mean, variance] ++ cross.toList).flatMap (fun s => (P.applyClosure user s).map (P.subsEq P.metricToAspect))
  let tensors := P.fields.flatMap (P.tensorEqs (-1) P.metricToAspect (trends (P.applyClosure user metric)) Field.aspect)
  return P.clean (systems ++ tensors)

/-- pkfcas.py 474-558 `in_diffusion`; line 511: without the cross-covariances.  Line 490: `self.time_coordinate` is the time, which
`PDESystem` asserts (util.py 183, 297). -/
def inDiffusion (user : Dict Ex Ex) : Except PyErr (List Eqn) := do
  let metric ← P.metricSystem
  let mean ← P.expectationSystem
  let variance ← P.varianceSystem
  let systems := [mean, variance].flatMap (fun s => (P.applyClosure user s).map (P.subsEq P.metricToDiffusion))
  let tensors := P.fields.flatMap (P.tensorEqs (-2) P.metricToDiffusion (trends (P.applyClosure user metric)) Field.diffusion)
  return P.clean (systems ++ tensors)

/-! ## Standard deviations -/

/-- pkfcas.py 316-319 `subs_variance`. -/
def subsVariance : Dict Ex Ex := Dict.update [] (P.fields.map (fun f => (f.variance, .pow f.std 2)))

/-! ## Unclosed terms -/

/-- pkfcas.py 825-837 `unclosed_terms`, as a list without repetition. -/
def unclosedTerms (user : Dict Ex Ex) : Except PyErr (List Ex) := do
  let system ← P.inMetric user
  return ((system.flatMap (fun q => exAtoms q.2)).dedup).filter (fun e => e ∉ P.fields.map (fun f => eval (.ex f.random)))

end Pkf
end Sympkf.PKF
