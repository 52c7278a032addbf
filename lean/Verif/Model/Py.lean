/-!
# Python values used by the model

Exceptions are values; dictionaries are insertion-ordered association lists, as in CPython ≥ 3.7.
-/

set_option autoImplicit false

namespace Sympkf

/-- The Python exceptions that the modelled code can raise. -/
inductive PyErr
  | indexError | typeError | valueError | keyError | assertionError
  | attributeError | notImplementedError | runtimeError | zeroDivisionError | nameError | syntaxError
  deriving DecidableEq, Repr

/-- A Python `dict`: association list in insertion order. -/
abbrev Dict (κ : Type) (α : Type) := List (κ × α)

namespace Dict

variable {κ : Type} {α : Type} [DecidableEq κ]

/-- `d[k]` as an option. -/
def get? (d : Dict κ α) (k : κ) : Option α :=
  match d with
  | [] => none
  | (k', v) :: d => if k' = k then some v else get? d k

/-- `d[k] = v`: overwrites in place when the key is present, otherwise inserts at the end. -/
def set (d : Dict κ α) (k : κ) (v : α) : Dict κ α :=
  match d with
  | [] => [(k, v)]
  | (k', v') :: d => if k' = k then (k, v) :: d else (k', v') :: set d k v

/-- `d.update(d')`. -/
def update (d d' : Dict κ α) : Dict κ α := d'.foldl (fun d kv => set d kv.1 kv.2) d

/-- `list(d.keys())`. -/
def keys (d : Dict κ α) : List κ := d.map Prod.fst

/-- `list(d.values())`. -/
def values (d : Dict κ α) : List α := d.map Prod.snd

/-- `d[k]`, raising `KeyError` when the key is absent. -/
def getItem (d : Dict κ α) (k : κ) : Except PyErr α :=
  match d.get? k with
  | some v => .ok v
  | none => .error .keyError

end Dict
end Sympkf
