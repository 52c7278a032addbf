import Mathlib.Algebra.Field.Defs
import Mathlib.Data.Int.Cast.Lemmas
import Verif.Model.Text

/-!
# The generated finite-difference model class

`src/sympkf/symbolic/templates/body_FDModelBuilder.py` (constructor and `index`) and the class attributes written by
`templates/header.py`.
-/

set_option autoImplicit false

namespace Sympkf.FD

open Text

variable {K : Type}

/-- Class attributes of a generated model, templates/header.py 6-35: the key names of coordinates, constant functions and
constants. -/
structure FDClass where
  coordinates : List Str
  constantFunctions : List Str
  constants : List Str

/-- A value given to a constant: `np.nan` itself or another object. -/
inductive Val (V : Type)
  | nan
  | obj (v : V)
  deriving DecidableEq

/-- `numpy` array: shape and entries (the entries outside the shape are meaningless). -/
structure NdArray (K : Type) where
  shape : List ℕ
  entry : List ℕ → K

/-- Values of instance attributes. -/
inductive Attr (K V : Type)
  | shape (s : List ℕ)
  | lengths (l : List K)
  | indexTable (d : Dict (Str × ℤ) (List ℤ))
  | dx (l : List K)
  | x (l : List (List K))
  | mesh (l : List (NdArray K))
  | val (v : Val V)

/-- `np.arange(n, dtype=int)` -/
def arange (n : ℕ) : List ℤ := (List.range n).map (fun i : ℕ => (i : ℤ))

/-- `self._index` and what `index` reads: the table, the shape and the coordinate names. -/
structure IndexState where
  coordinates : List Str
  shape : List ℕ
  table : Dict (Str × ℤ) (List ℤ)

/-- body_FDModelBuilder.py 24-27: the table filled with the zero shifts, in the order of the coordinates. -/
def initTable (coordinates : List Str) (shape : List ℕ) : Dict (Str × ℤ) (List ℤ) :=
  (coordinates.zip shape).foldl (fun d p => d.set (p.1, 0) (arange p.2)) []

/-- body_FDModelBuilder.py 75-80 `index`.  The result is the array and the new state.  `%` of numpy has the sign of the
divisor, as `Int.emod` for a positive one. -/
def index (st : IndexState) (coord : Str) (step : ℤ) : Except PyErr (List ℤ × IndexState) :=
  match st.table.get? (coord, step) with
  | some a => .ok (a, st)
  | none =>
    match st.table.get? (coord, 0) with
    | none => .error .keyError
    | some base =>
      match st.coordinates.idxOf? coord with
      | none => .error .valueError
      | some k =>
        match st.shape[k]? with
        | none => .error .indexError
        | some n =>
          let a := base.map (fun i => (i + step) % (n : ℤ))
          .ok (a, { st with table := st.table.set (coord, step) a })

/-- A history of calls of `index`; a failing call leaves the state unchanged and the caller goes on. -/
def indexHistory (st : IndexState) : List (Str × ℤ) → IndexState
  | [] => st
  | (c, k) :: calls =>
    match index st c k with
    | .ok (_, st') => indexHistory st' calls
    | .error _ => indexHistory st calls

/-- The first two axes exchanged. -/
def swap01 {α : Type} : List α → List α
  | a :: b :: l => b :: a :: l
  | l => l

/-- `np.meshgrid(*x)` with its default `indexing='xy'`: the first two axes of the outputs are exchanged. -/
def meshgrid [Inhabited K] (x : List (List K)) : List (NdArray K) :=
  (List.range x.length).map (fun k =>
    { shape := swap01 (x.map List.length)
      entry := fun idx => ((x.getD k []).getD ((swap01 idx).getD k 0) default) })

/-- body_FDModelBuilder.py 40-47 / 60-67: `nan` for every declared name, then the keyword values. -/
def setDeclared {V : Type} (declared : List Str) (kwargs : Dict Str (Val V)) (obj : Dict Str (Attr K V)) :
    Dict Str (Attr K V) :=
  let obj := declared.foldl (fun o name => o.set name (.val .nan)) obj
  kwargs.foldl (fun o kv => if kv.1 ∈ declared then o.set kv.1 (.val kv.2) else o) obj

/-- body_FDModelBuilder.py 49-52 / 69-72: names whose attribute is still `np.nan`. -/
def warnings {V : Type} [DecidableEq V] (declared : List Str) (obj : Dict Str (Attr K V)) : List Str :=
  declared.filter (fun name => match obj.get? name with | some (.val .nan) => true | _ => false)

/-- body_FDModelBuilder.py 31: `length/shape` for each coordinate; division of Python numbers by 0 raises. -/
def gridSteps [Field K] : List K → List ℕ → Except PyErr (List K)
  | l :: ls, n :: ns =>
    if n = 0 then .error .zeroDivisionError
    else do
      let rest ← gridSteps ls ns
      return (l / (n : K)) :: rest
  | _, _ => .ok []

/-- body_FDModelBuilder.py 32: `self.index(coord,0)*dx` for each coordinate. -/
def gridPoints [Field K] (st : IndexState) : List Str → List K → Except PyErr (List (List K))
  | c :: cs, h :: hs => do
    let (idx, st) ← index st c 0
    let rest ← gridPoints st cs hs
    return (idx.map (fun i : ℤ => (i : K) * h)) :: rest
  | _, _ => .ok []

/-- body_FDModelBuilder.py 2-73, the constructor.  `superInit` is the outcome of `super().__init__(**kwargs)`, i.e. of
`Model.__init__` (it raises `ValueError` for an unknown `time_scheme`, property C11).  Result: the instance attributes
and the printed warnings. -/
def construct [Field K] {V : Type} [DecidableEq V] (cls : FDClass) (superInit : Except PyErr Unit)
    (shape : Option (List ℕ)) (lengths : Option (List K)) (kwargs : Dict Str (Val V)) :
    Except PyErr (Dict Str (Attr K V) × List Str) := do
  let _ ← superInit
  let shape := shape.getD (List.replicate cls.coordinates.length 100)
  if shape.length ≠ cls.coordinates.length then .error .valueError
  else
    let lengths := lengths.getD (List.replicate cls.coordinates.length 1)
    if lengths.length ≠ cls.coordinates.length then .error .valueError
    else
      let table := initTable cls.coordinates shape
      let dx ← gridSteps lengths shape
      let x ← gridPoints ⟨cls.coordinates, shape, table⟩ cls.coordinates dx
      letI : Inhabited K := ⟨0⟩
      let obj : Dict Str (Attr K V) := [
        ("shape".toList, .shape shape), ("lengths".toList, .lengths lengths), ("_index".toList, .indexTable table),
        ("dx".toList, .dx dx), ("x".toList, .x x), ("X".toList, .mesh (meshgrid x))]
      let obj := setDeclared cls.constantFunctions kwargs obj
      let w1 := warnings cls.constantFunctions obj
      let obj := setDeclared cls.constants kwargs obj
      let w2 := warnings cls.constants obj
      return (obj, w1 ++ w2)

end Sympkf.FD
