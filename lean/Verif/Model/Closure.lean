import Mathlib.Algebra.Ring.Defs
import Mathlib.Data.Nat.Cast.Defs
import Mathlib.Data.Nat.Factorial.Basic
import Verif.Model.Field

/-!
# `Closure`

`src/sympkf/symbolic/pkfcas.py` 1273-1448.  The correlation prototypes themselves are in `Model/Correlation.lean`.

An expression in the increments `dx_1, .., dx_d` is identified with its Taylor series at zero: the family of its coefficients,
indexed by the exponents.  The coefficients are SymPy expressions without increments; they form a ring `C` (`expand` and other
rewritings do not change an element of `C`).  SymPy's `series`, `coeff`, `solve`, `subs` and `doit` are thus trusted to compute what
they announce.
-/

set_option autoImplicit false

namespace Sympkf.Clo

open Text POD Rand PKF

variable {C : Type}

/-- The coefficients of a series, by exponents of the increments. -/
abbrev Series (C : Type) := List ℕ → C

/-- `series(dx_i, 0, n).removeO()`: the powers of `dx_i` below `n`. -/
def truncate [Zero C] (i n : ℕ) (S : Series C) : Series C := fun b => if b.getD i 0 < n then S b else 0

/-- `coeff(dx_i, k)`. -/
def coeff [Zero C] (i k : ℕ) (S : Series C) : Series C := fun b => if b.getD i 0 = 0 then S (b.set i k) else 0

/-- What is not computed here. -/
structure Params (C : Type) where
  /-- the iteration order of sets in `all_of_degree` -/
  order : ℕ → List (List ℤ) → List (List ℤ)
  /-- the Taylor series of `self.correlation(x, x + dx)` -/
  correlation : Series C
  /-- an expression as a coefficient -/
  ofEx : Ex → C
  /-- 1424: `subs_term.subs({derivative: 0 for ..})` -/
  dropDerivatives : C → C
  /-- 1438: `sympy.solve(equations, *unknowns)`, and 1443: `.subs(solution).doit()` -/
  solve : List (C × C) → List C → Except PyErr (C → C)

/-- pkfcas.py 1301-1306: the attributes that change. -/
structure State (C : Type) where
  order : ℕ
  taylor : Option (Series C)
  byOrder : Dict ℕ (Dict Ex C)

/-- pkfcas.py 1286-1306 `__init__`. -/
def init : State C := ⟨0, none, []⟩

/-- pkfcas.py 1353-1366 `taylor`. -/
def taylor [Zero C] (P : Params C) (f : Field) (n : ℕ) (s : State C) : State C :=
  if s.order < n then
    { s with taylor := some ((List.range f.spatial.length).foldl (fun S i => truncate i n S) P.correlation), order := n }
  else s

/-- pkfcas.py 1394 and 1419: the key `Expectation(eps * Derivative(eps, *alpha.as_couples))`, in the form SymPy gives it.  A
derivative of order zero is `eps` itself. -/
def term (f : Field) (p : POrder) : Ex :=
  match p.sequence with
  | [] => .ex (.pow f.epsilon 2)
  | s => .ex (.mul f.epsilon (derivSeq f.spatial f.epsilon s))

/-- pkfcas.py 1388-1391: the successive coefficients; `alpha_i` is the number of occurrences of `x_i` in the sequence.  The value
is the coefficient without increments that remains. -/
def coeffAlpha [Zero C] (f : Field) (S : Series C) (p : POrder) : C :=
  ((List.range f.spatial.length).foldl (fun S i => coeff i (p.sequence.count (f.spatial.getD i [])) S) S)
    (List.replicate f.spatial.length 0)

/-- pkfcas.py 1386-1395: the loop on `alpha`. -/
def alphaLoop [CommRing C] (P : Params C) (f : Field) (n factorial : ℕ) :
    List POrder → Dict Ex C → State C → Except PyErr (Dict Ex C) × State C
  | [], closure, s => (.ok closure, s)
  | p :: ps, closure, s =>
    let s := taylor P f n s
    match s.taylor with
    | none => (.error .attributeError, s)
    | some S => alphaLoop P f n factorial ps (closure.set (term f p) ((factorial : C) * coeffAlpha f S p)) s

/-- pkfcas.py 1378-1396: the loop on `partial_order`, from `k` on (`m` values remain). -/
def orderLoop [CommRing C] (P : Params C) (f : Field) (n : ℕ) : ℕ → ℕ → ℕ → State C → Except PyErr Unit × State C
  | 0, _, _, s => (.ok (), s)
  | m + 1, k, factorial, s =>
    let factorial := if k ≠ 0 then factorial * k else factorial
    match allOfDegree P.order f.spatial k with
    | .error e => (.error e, s)
    | .ok ps =>
      match alphaLoop P f n factorial ps [] s with
      | (.error e, s) => (.error e, s)
      | (.ok closure, s) => orderLoop P f n m (k + 1) factorial { s with byOrder := s.byOrder.set k closure }

/-- pkfcas.py 1368-1401 `closure_by_order`. -/
def closureByOrder [CommRing C] (P : Params C) (f : Field) (order : ℕ) (s : State C) :
    Except PyErr (Dict ℕ (Dict Ex C)) × State C :=
  let n := order + 1
  if s.order < n then
    match orderLoop P f n n 0 1 s with
    | (.error e, s) => (.error e, s)
    | (.ok _, s) => (.ok s.byOrder, { s with order := n })
  else (.ok s.byOrder, s)

/-- pkfcas.py 1403-1408 `closure`. -/
def closure [CommRing C] (P : Params C) (f : Field) (order : ℕ) (s : State C) : Except PyErr (Dict Ex C) × State C :=
  match closureByOrder P f order s with
  | (.error e, s) => (.error e, s)
  | (.ok d, s) => (.ok (d.foldl (fun (c : Dict Ex C) kv => c.update kv.2) []), s)

/-! ## `in_metric_by_order` -/

/-- `mfield.metric_func(i, j)`: `index_code` raises `IndexError` outside the range. -/
def metricFunc (P : Params C) (f : Field) (i j : ℤ) : Except PyErr C :=
  if 0 ≤ i ∧ i < f.spatial.length ∧ 0 ≤ j ∧ j < f.spatial.length then .ok (P.ofEx (f.metric i.toNat j.toNat))
  else .error .indexError

/-- `mfield.aspect_func(i, j)`. -/
def aspectFunc (P : Params C) (f : Field) (i j : ℤ) : Except PyErr C :=
  if 0 ≤ i ∧ i < f.spatial.length ∧ 0 ≤ j ∧ j < f.spatial.length then .ok (P.ofEx (f.aspect i.toNat j.toNat))
  else .error .indexError

/-- pkfcas.py 1425-1428: the indices of a tensor component from the orders of the derivative. -/
def tensorIndex (f : Field) (p : POrder) : Except PyErr (ℤ × ℤ) :=
  if 1 < f.spatial.length then
    match p.orders with
    | i :: j :: _ => .ok (i, j)
    | _ => .error .indexError
  else .ok (0, 0)

/-- pkfcas.py 1418-1432: one second-order term.  The dictionary of the object is modified (1423) before the indices are computed. -/
def metricStep [CommRing C] (P : Params C) (f : Field) (p : POrder) (sys : List (C × C) × List C) (s : State C) :
    Except PyErr (List (C × C) × List C) × State C :=
  match s.byOrder.get? 2 with
  | none => (.error .keyError, s)
  | some d =>
    match d.get? (term f p) with
    | none => (.error .keyError, s)
    | some v =>
      let v := P.dropDerivatives v
      let s := { s with byOrder := s.byOrder.set 2 (d.set (term f p) v) }
      match (do
        let ij ← tensorIndex f p
        let g ← metricFunc P f ij.1 ij.2
        let a ← aspectFunc P f ij.1 ij.2
        return (sys.1 ++ [(-g, v)], sys.2 ++ [a]) : Except PyErr (List (C × C) × List C)) with
      | .error e => (.error e, s)
      | .ok r => (.ok r, s)

/-- pkfcas.py 1417-1432: the loop. -/
def metricLoop [CommRing C] (P : Params C) (f : Field) : List POrder → List (C × C) × List C → State C →
    Except PyErr (List (C × C) × List C) × State C
  | [], sys, s => (.ok sys, s)
  | p :: ps, sys, s =>
    match metricStep P f p sys s with
    | (.error e, s) => (.error e, s)
    | (.ok sys, s) => metricLoop P f ps sys s

/-- pkfcas.py 1410-1442 `in_metric_by_order`. -/
def inMetricByOrder [CommRing C] (P : Params C) (f : Field) (order : ℕ) (s : State C) :
    Except PyErr (Dict ℕ (Dict Ex C)) × State C :=
  match closureByOrder P f order s with
  | (.error e, s) => (.error e, s)
  | (.ok _, s) =>
    match allOfDegree P.order f.spatial 2 with
    | .error e => (.error e, s)
    | .ok ps =>
      match metricLoop P f ps ([], []) s with
      | (.error e, s) => (.error e, s)
      | (.ok sys, s) =>
        match P.solve sys.1 sys.2 with
        | .error e => (.error e, s)
        | .ok σ =>
          let s := { s with byOrder := s.byOrder.map (fun kd => (kd.1, kd.2.map (fun tv => (tv.1, σ tv.2)))) }
          (.ok s.byOrder, s)

/-- The calls that may be made on an object. -/
inductive Call
  | taylor (n : ℕ)
  | closureByOrder (n : ℕ)
  | closure (n : ℕ)
  | inMetricByOrder (n : ℕ)
  deriving DecidableEq

/-- The state after one call (an exception is caught by the caller). -/
def step [CommRing C] (P : Params C) (f : Field) (s : State C) : Call → State C
  | .taylor n => Clo.taylor P f n s
  | .closureByOrder n => (Clo.closureByOrder P f n s).2
  | .closure n => (Clo.closure P f n s).2
  | .inMetricByOrder n => (Clo.inMetricByOrder P f n s).2

/-- The state after a history of calls. -/
def after [CommRing C] (P : Params C) (f : Field) (h : List Call) : State C := h.foldl (step P f) init

end Sympkf.Clo
