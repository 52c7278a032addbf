import Verif.Model.PartialOrder
import Verif.Model.Random

/-!
# Fields and their statistics

`src/sympkf/symbolic/pkfcas.py`: class `Field` (920-1016), the functions 906-918, and the methods of `SymbolicPKF` on couples of
fields and the internal closure (338-343, 689-740).  Expressions are those of `Model/Random.lean`.
-/

set_option autoImplicit false

namespace Sympkf.PKF

open Text POD Rand

/-- A prognostic function: name and arguments. -/
structure Field where
  name : Str
  coordinates : List Str
  deriving DecidableEq

/-- constants.py: the time symbol. -/
def time : Str := "t".toList

namespace Field

/-- The SymPy function itself. -/
def value (f : Field) : Ex := .fn f.name f.coordinates

/-- pkfcas.py 923. -/
def code (f : Field) : Str := cleanLatexName f.name

/-- pkfcas.py 926. -/
def spatial (f : Field) : List Str := f.coordinates.filter (· ≠ time)

/-- pkfcas.py 929. -/
def spatialCode (f : Field) : List Str := f.spatial.map cleanLatexName

/-- pkfcas.py 932. -/
def random (f : Field) : Ex := .fn f.name (f.coordinates ++ [omega])

/-- pkfcas.py 933. -/
def epsilon (f : Field) : Ex := .fn ("{\\varepsilon_{".toList ++ f.code ++ "}}".toList) (f.coordinates ++ [omega])

/-- pkfcas.py 934. -/
def error (f : Field) : Ex := .fn ("{e_{".toList ++ f.code ++ "}}".toList) (f.coordinates ++ [omega])

/-- pkfcas.py 938. -/
def variance (f : Field) : Ex := .fn ("{V_{".toList ++ f.code ++ "}}".toList) f.coordinates

/-- pkfcas.py 941. -/
def std (f : Field) : Ex := .fn ("{\\sigma_{".toList ++ f.code ++ "}}".toList) f.coordinates

/-- pkfcas.py 1000-1003 `index_code` (indices inside the range; Python raises `IndexError` outside). -/
def indexCode (f : Field) (i j : ℕ) : Str :=
  if j < i then f.spatialCode.getD j [] ++ f.spatialCode.getD i []
  else f.spatialCode.getD i [] ++ f.spatialCode.getD j []

/-- pkfcas.py 1005-1006 `metric_func`. -/
def metric (f : Field) (i j : ℕ) : Ex :=
  .fn ("{g_{".toList ++ f.code ++ ",".toList ++ f.indexCode i j ++ "}}".toList) f.coordinates

/-- pkfcas.py 1011-1013 `nu_func`. -/
def diffusion (f : Field) (i j : ℕ) : Ex :=
  .fn ("{\\nu_{".toList ++ f.code ++ ",".toList ++ f.indexCode i j ++ "}}".toList) f.coordinates

/-- pkfcas.py 1015-1017 `aspect_func`. -/
def aspect (f : Field) (i j : ℕ) : Ex :=
  .fn ("{s_{".toList ++ f.code ++ ",".toList ++ f.indexCode i j ++ "}}".toList) f.coordinates

end Field

/-- `Derivative(e, x, y, ..)`: SymPy sorts the variables and merges equal ones; here they are sorted as in `coords`. -/
def derivSeq (coords : List Str) (e : Ex) (s : List Str) : Ex :=
  .deriv e ((coords.filter (· ∈ s)).map (fun x => (x, s.count x)))

namespace Field

/-- pkfcas.py 1008-1009 `metric_definition`, without its sign: `Expectation(eps * Derivative(eps, x_i, x_j))`. -/
def metricTerm (f : Field) (i j : ℕ) : Ex :=
  .ex (.mul f.epsilon (derivSeq f.spatial f.epsilon [f.spatial.getD i [], f.spatial.getD j []]))

/-- pkfcas.py 988-989: `metric_func` with coordinates as arguments. -/
def metricOf (f : Field) (x y : Str) : Ex := f.metric (f.spatial.idxOf x) (f.spatial.idxOf y)

/-- pkfcas.py 913-914 `skewness_def`. -/
def skewnessDef (f : Field) (k i j : Str) : Ex := .ex (.mul f.epsilon (derivSeq f.spatial f.epsilon [k, i, j]))

/-- pkfcas.py 916-918 `skewness_subs`. -/
def skewnessSubs (f : Field) (k i j : Str) : Ex :=
  .mul (.num (-1 / 2)) (.add (.add (.deriv (f.metricOf k j) [(i, 1)]) (.deriv (f.metricOf i k) [(j, 1)]))
    (.deriv (f.metricOf i j) [(k, 1)]))

/-- pkfcas.py 906-907 `gamma_def` (not used by the package). -/
def gammaDef (f : Field) (k i j : Str) : Ex :=
  .ex (.mul (derivSeq f.spatial f.epsilon [k]) (derivSeq f.spatial f.epsilon [i, j]))

/-- pkfcas.py 909-911 `gamma_subs`. -/
def gammaSubs (f : Field) (k i j : Str) : Ex :=
  .mul (.num (1 / 2)) (.add (.add (.deriv (f.metricOf k j) [(i, 1)]) (.deriv (f.metricOf i k) [(j, 1)]))
    (.mul (.num (-1)) (.deriv (f.metricOf i j) [(k, 1)])))

/-- pkfcas.py 990-992: one skewness term. -/
def skewnessEntry (f : Field) (p : POrder) : Except PyErr (Ex × Ex) :=
  match p.sequence with
  | [k, i, j] => .ok (f.skewnessDef k i j, f.skewnessSubs k i j)
  | _ => .error .typeError

/-- pkfcas.py 964-998 `internal_closure`.  The keys `Expectation(..)` are written in the form `Expectation` returns
(`C40_keys`).  Line 982: the key `-metric_definition(i, j)` is `-(-E)`, hence `E`. -/
def internalClosure (order : ℕ → List (List ℤ) → List (List ℤ)) (f : Field) : Except PyErr (Dict Ex Ex) := do
  let c : Dict Ex Ex := [(.ex f.error, .num 0)]
  let c := c.set (.ex (.pow f.error 2)) f.variance
  let c := c.set (.ex f.epsilon) (.num 0)
  let c := c.set (.ex (.pow f.epsilon 2)) (.num 1)
  let c := c.update (f.spatial.map (fun x => (.ex (.mul f.epsilon (derivSeq f.spatial f.epsilon [x])), .num 0)))
  let n := f.spatial.length
  let c := c.update ((List.range n).flatMap (fun i => (List.range' i (n - i)).map (fun j =>
    (f.metricTerm i j, .mul (.num (-1)) (f.metric i j)))))
  let orders ← allOfDegree order f.spatial 3
  let skewness ← orders.mapM f.skewnessEntry
  return c.update (Dict.update [] skewness)

end Field

/-! ## Several fields -/

/-- pkfcas.py 337-342 `multivariate_couples`: the pairs of positions `i < j`. -/
def couples {α : Type} : List α → List (α × α)
  | [] => []
  | f :: fs => fs.map (fun g => (f, g)) ++ couples fs

/-- pkfcas.py 721-739 `get_covariance`; `label` is `_label_covariance` (line 78: `"V_"`). -/
def covariance (label : Str) (fields : List Field) (f1 f2 : Field) : Except PyErr Ex :=
  if f1 ∈ fields ∧ f2 ∈ fields then
    if f1.coordinates = f2.coordinates then .ok (.fn (label ++ f1.name ++ f2.name) f1.coordinates)
    else .error .assertionError
  else .error .valueError

/-- pkfcas.py 699-717: the entries of one couple. -/
def coupleEntries (label : Str) (fields : List Field) (c : Dict Ex Ex) (p : Field × Field) : Except PyErr (Dict Ex Ex) := do
  let v12 ← covariance label fields p.1 p.2
  let c := c.set (.ex (.mul p.1.error p.2.error)) v12
  return c.set (.ex (.mul p.1.epsilon p.2.epsilon))
    (.mul v12 (.mul (.pow p.1.variance (-1 / 2)) (.pow p.2.variance (-1 / 2))))

/-- pkfcas.py 688-719 `SymbolicPKF.internal_closure`. -/
def internalClosure (order : ℕ → List (List ℤ) → List (List ℤ)) (label : Str) (fields : List Field) :
    Except PyErr (Dict Ex Ex) := do
  let c ← fields.foldlM (fun (c : Dict Ex Ex) f => do return c.update (← f.internalClosure order)) []
  (couples fields).foldlM (coupleEntries label fields) c

end Sympkf.PKF
