import Verif.Model.Text
import Mathlib.Data.List.Forall2

/-!
# Specification of names, shifted functions and generated text

Nothing here uses `replace` or the coding functions of the model; only the data types are shared.
-/

set_option autoImplicit false

namespace Sympkf.Text.Spec

open Sympkf.Text

/-- Characters that LaTeX labels may contain and Python identifiers may not. -/
def special : List Char := ['\\', '{', '}', '^', ',']

/-- What has to become of one character. -/
def cleanChar (c : Char) : Option Char :=
  if c = '\\' ∨ c = '{' ∨ c = '}' then none
  else if c = '^' ∨ c = ',' then some '_'
  else some c

/-- `arg` is the coordinate `x` shifted by `k` grid steps: `x + k*dx`.  The symbols of `x + k*dx` are `x` and, when
`k ≠ 0`, `dx`; the order in which the set of symbols is iterated is arbitrary. -/
structure IsShift (x : Str) (k : ℚ) (arg : Arg) : Prop where
  atoms : arg.atoms.Perm (if k = 0 then [x] else [x, 'd' :: x])
  coeff : arg.coeff ('d' :: x) = k

/-- The arguments of a function at a grid point shifted by `ks` in the coordinates `xs`. -/
def IsShifted (xs : List Str) (ks : List ℚ) (args : List Arg) : Prop :=
  List.Forall₂ (fun (p : Str × ℚ) arg => IsShift p.1 p.2 arg) (xs.zip ks) args ∧ xs.length = ks.length

/-- A coordinate name that cannot be mistaken for an increment. -/
def PlainName (x : Str) : Prop := ∃ c s, x = c :: s ∧ c ≠ 'd'

/-- Decimal text of an integer. -/
def decimal (n : ℤ) : Str := (toString n).toList

/-- `self.index('x',k)` -/
def indexCall (x : Str) (k : ℤ) : Str := "self.index('".toList ++ x ++ "',".toList ++ decimal k ++ ")".toList

/-- `[np.ix_(self.index('x',k),self.index('y',l))]`, nothing when no coordinate is shifted. -/
def spaceText (xs : List Str) (ks : List ℤ) : Str :=
  if ∀ k ∈ ks, k = 0 then []
  else "[np.ix_(".toList ++ List.intercalate ",".toList (List.zipWith indexCall xs ks) ++ ")]".toList

/-- `m2`, `p1` or nothing. -/
def timeText (k : ℤ) : Str :=
  if k = 0 then [] else if k < 0 then 'm' :: decimal (-k) else 'p' :: decimal k

end Sympkf.Text.Spec

/-! ## Tokens of a finite-difference expression -/

namespace Sympkf.Text.Spec

open Sympkf.Text

/-- Characters that separate names in the text of an expression or of the generated code. -/
def isSep (c : Char) : Bool := " ()[]+-*/'.".toList.contains c

/-- A name: non-empty, without separators (LaTeX characters are allowed). -/
def IsName (s : Str) : Prop := s ≠ [] ∧ ∀ c ∈ s, isSep c = false

/-- The text of an expression, cut into the applied functions, the grid-step symbols `dx` and all the rest. -/
inductive Tok
  | lit (s : Str)
  | call (f : AppliedFun)
  | step (x : Str)

/-- Text of a token in `str(finite)`. -/
def Tok.text : Tok → Str
  | .lit s => s
  | .call f => f.str
  | .step x => 'd' :: x

/-- What the token has to become in the code, when `code` renders functions and `dxRule` renders grid steps. -/
def Tok.render (code : AppliedFun → Str) (dxRule : Str → Str) : Tok → Str
  | .lit s => s
  | .call f => code f
  | .step x => dxRule x

/-- Names are separated by literals: two functions or grid steps never touch, a literal before one ends with a
separator and a literal after one begins with a separator that does not open a parenthesis. -/
def Separated : List Tok → Prop
  | [] => True
  | [_] => True
  | a :: b :: l =>
    (match a, b with
      | .lit s, .call _ => ∃ c, s.getLast? = some c ∧ isSep c = true
      | .lit s, .step _ => ∃ c, s.getLast? = some c ∧ isSep c = true
      | .call _, .lit s => ∃ c, s.head? = some c ∧ isSep c = true ∧ c ≠ '('
      | .step _, .lit s => ∃ c, s.head? = some c ∧ isSep c = true ∧ c ≠ '('
      | _, _ => False) ∧ Separated (b :: l)

/-- `f` is a function at integer shifts of its coordinates `xs` and `code` is its code. -/
inductive Coded (f : AppliedFun) : List Str → Str → Prop
  | time (xs : List Str) (k0 : ℤ) (ks : List ℤ)
      (h : IsShifted ("t".toList :: xs) ((k0 :: ks).map fun k : ℤ => (k : ℚ)) f.args)
      (hx : ∀ x ∈ xs, PlainName x ∧ ∀ c ∈ x, isSep c = false) :
      Coded f ("t".toList :: xs) (f.name.filterMap cleanChar ++ timeText k0 ++ spaceText xs ks)
  | space (xs : List Str) (ks : List ℤ)
      (h : IsShifted xs (ks.map fun k : ℤ => (k : ℚ)) f.args)
      (hx : ∀ x ∈ xs, PlainName x ∧ ∀ c ∈ x, isSep c = false) (ht : "t".toList ∉ xs) :
      Coded f xs (f.name.filterMap cleanChar ++ spaceText xs ks)

/-- The members of a list, each at its first occurrence. -/
def firstOccurrences (l : List Str) : List Str := l.foldl (fun acc x => if x ∈ acc then acc else acc ++ [x]) []

end Sympkf.Text.Spec
