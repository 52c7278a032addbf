import Verif.Model.PkfObject

/-!
# Specification of the objects `SymbolicPKF`

What C54-C56 say: closures accumulate, later entries win; what is read does not depend on the reads before; the unclosed terms
are the expectations that occur in the right-hand sides.
-/

set_option autoImplicit false

namespace Sympkf.Spec

open Text Rand PKF

/-- The value of a key in the last dictionary that has it. -/
def latest {κ α : Type} [DecidableEq κ] : List (Dict κ α) → κ → Option α
  | [], _ => none
  | d :: ds, k => (latest ds k).or (d.reverse.find? (fun kv => kv.1 = k) |>.map Prod.snd)

/-- The dictionaries given to `set_closure` of the object `i`, in order. -/
def givenTo (i : ℕ) : List Op → List (Dict Ex Ex)
  | [] => []
  | .set j d :: ops => if j = i then d :: givenTo i ops else givenTo i ops
  | _ :: ops => givenTo i ops

/-- The expression `s` occurs in the expression. -/
inductive Within (s : Ex) : Ex → Prop
  | self : Within s s
  | func {g : Str} {a : Ex} : Within s a → Within s (.func g a)
  | addL {a b : Ex} : Within s a → Within s (.add a b)
  | addR {a b : Ex} : Within s b → Within s (.add a b)
  | mulL {a b : Ex} : Within s a → Within s (.mul a b)
  | mulR {a b : Ex} : Within s b → Within s (.mul a b)
  | pow {a : Ex} {q : ℚ} : Within s a → Within s (.pow a q)
  | deriv {a : Ex} {v : List (Str × ℕ)} : Within s a → Within s (.deriv a v)
  | integ {a : Ex} {x : Str} : Within s a → Within s (.integ a x)
  | ex {a : Ex} : Within s a → Within s (.ex a)

/-- No dictionary is the closure of two objects: a dictionary given to a constructor exists and is not the closure of an object. -/
def Unshared : World → List Op → Prop
  | _, [] => True
  | w, op :: ops => (match op with
      | .new _ (some r) => r < w.dicts.length ∧ ∀ o ∈ w.objs, o.ref ≠ r
      | _ => True) ∧ Unshared (w.step op) ops

end Sympkf.Spec
