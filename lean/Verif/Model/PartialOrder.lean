import Mathlib.Data.List.Dedup
import Mathlib.Data.List.Basic
import Verif.Model.Text

/-!
# `PartialOrderDerivative`

`src/sympkf/symbolic/pkfcas.py` 1019-1190.  A symbol is identified with its name.
-/

set_option autoImplicit false

namespace Sympkf.POD

open Text

/-- What may be found in an argument: a Python `int`, a symbol, any other object that can not be unpacked (a float, a
SymPy number). -/
inductive Atom
  | int (n : ℤ)
  | sym (s : Str)
  | other (tag : ℕ)
  deriving DecidableEq

/-- Elements of the argument: an atom, or a tuple of atoms. -/
inductive Item
  | atom (a : Atom)
  | tup (l : List Atom)
  deriving DecidableEq

/-- The argument `partial_orders`: a tuple, a list, or an object without length. -/
inductive PArg
  | tuple (l : List Item)
  | list (l : List Item)
  | scalar (a : Atom)

/-- `isinstance(alpha_i, int)` -/
def Item.asInt : Item → Option ℤ
  | .atom (.int n) => some n
  | _ => none

/-- `xi in self._coordinates`: the coordinate, if it is one. -/
def Item.asCoord (coords : List Str) : Item → Option Str
  | .atom (.sym s) => if s ∈ coords then some s else none
  | _ => none

/-- pkfcas.py 1060-1069 `is_as_tuple` together with 1094-1095 `_set_from_tuple`. -/
def asTuple (coords : List Str) : PArg → Option (List ℤ)
  | .tuple l => if l.length ≠ coords.length then none else l.mapM Item.asInt
  | _ => none

/-- One couple `xi, alpha_i`, with the test of pkfcas.py 1080 / 1083.  Unpacking anything but a tuple of two elements raises;
the exception is caught (1085) and the format rejected. -/
def itemCouple (coords : List Str) : Item → Option (Str × ℤ)
  | .tup [.sym s, .int n] => if s ∈ coords then some (s, n) else none
  | _ => none

/-- pkfcas.py 1071-1086 `is_as_couples`: the couples. -/
def asCouples (coords : List Str) : PArg → Option (List (Str × ℤ))
  | .tuple [a, b] => do
      let s ← a.asCoord coords
      let n ← b.asInt
      return [(s, n)]
  | .tuple _ => none
  | .list [] => none
  | .list l => l.mapM (itemCouple coords)
  | .scalar _ => none

/-- pkfcas.py 1097-1107 `_set_from_couples`: `orders[self._coordinates.index(xi)] += alpha_i`. -/
def setFromCouples (coords : List Str) (couples : List (Str × ℤ)) : List ℤ :=
  couples.foldl (fun orders c => orders.modify (coords.idxOf c.1) (· + c.2)) (List.replicate coords.length 0)

/-- pkfcas.py 1088-1092 `is_as_sequence`: the sequence. -/
def asSequence (coords : List Str) : PArg → Option (List Str)
  | .tuple l => l.mapM (Item.asCoord coords)
  | .list l => l.mapM (Item.asCoord coords)
  | .scalar _ => none

/-- pkfcas.py 1109-1110 `_set_from_sequence`. -/
def setFromSequence (coords : List Str) (s : List Str) : List ℤ := coords.map (fun x => ((s.count x : ℕ) : ℤ))

/-- pkfcas.py 1048-1058 `_builder`.  The three tests are all evaluated, in the order tuple, couples, sequence, and the first
success decides; `len` of an object without length raises `TypeError` too. -/
def build (coords : List Str) (p : PArg) : Except PyErr (List ℤ) :=
  match asTuple coords p with
  | some t => .ok t
  | none =>
    match asCouples coords p with
    | some c => .ok (setFromCouples coords c)
    | none =>
      match asSequence coords p with
      | some s => .ok (setFromSequence coords s)
      | none => .error .typeError

/-- An instance: pkfcas.py 1022-1025. -/
structure POrder where
  coordinates : List Str
  orders : List ℤ
  deriving DecidableEq

/-- pkfcas.py 1022-1025 `__init__`. -/
def create (coords : List Str) (p : PArg) : Except PyErr POrder := (build coords p).map (⟨coords, ·⟩)

/-- pkfcas.py 1031-1033 `as_tuple`. -/
def POrder.asTuple (p : POrder) : PArg := .tuple (p.orders.map (fun n => .atom (.int n)))

/-- pkfcas.py 1035-1037 `as_couples`. -/
def POrder.asCouples (p : POrder) : PArg :=
  .list (List.zipWith (fun x n => .tup [.sym x, .int n]) p.coordinates p.orders)

/-- pkfcas.py 1039-1046 `as_sequence`. -/
def POrder.sequence (p : POrder) : List Str :=
  (List.zipWith (fun x n => if 0 < n then List.replicate n.toNat x else []) p.coordinates p.orders).flatten

/-- The list returned by `as_sequence`, as an argument. -/
def POrder.asSequence (p : POrder) : PArg := .list (p.sequence.map (fun x => .atom (.sym x)))

/-- pkfcas.py 1115-1116 `new`. -/
def POrder.new (p : POrder) (a : PArg) : Except PyErr POrder := create p.coordinates a

/-- pkfcas.py 1118-1119 `copy`. -/
def POrder.copy (p : POrder) : Except PyErr POrder := create p.coordinates p.asTuple

/-! ## `all_of_degree` -/

/-- pkfcas.py 1181-1187: the sons of one father, one unit moved from the first coordinate to the coordinate `move`. -/
def sonsOf (father : List ℤ) : List (List ℤ) :=
  (List.range (father.length - 1)).map (fun i => (father.modify 0 (· - 1)).modify (i + 1) (· + 1))

/-- pkfcas.py 1160-1189: the loop; `order g l` is the order in which the set of the generation `g`, whose elements are `l`,
is iterated.  A set is a list without repetition. -/
def generations (order : ℕ → List (List ℤ) → List (List ℤ)) : ℕ → ℕ → List (List ℤ) → List (List ℤ)
  | 0, _, _ => []
  | n + 1, g, fathers =>
    let fathers := order g fathers
    fathers ++ generations order n (g + 1) (fathers.flatMap sonsOf).dedup

/-- pkfcas.py 1121-1190 `all_of_degree`: the tuples of orders in the order they are yielded.  `start[0] = ..` raises
`IndexError` without coordinates. -/
def allOfDegree (order : ℕ → List (List ℤ) → List (List ℤ)) (coords : List Str) (d : ℕ) :
    Except PyErr (List POrder) :=
  match coords with
  | [] => .error .indexError
  | _ :: rest =>
    let start := (d : ℤ) :: List.replicate rest.length 0
    .ok ((generations order (d + 1) 0 [start]).map (⟨coords, ·⟩))

end Sympkf.POD
