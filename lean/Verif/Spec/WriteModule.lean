import Verif.Model.Text

/-!
# Specification: names that differ only in the case of their letters
-/

set_option autoImplicit false

namespace Sympkf.Spec

open Text

/-- The letters of the alphabet, small and capital. -/
def alphabet : List (Char × Char) := "abcdefghijklmnopqrstuvwxyz".toList.zip "ABCDEFGHIJKLMNOPQRSTUVWXYZ".toList

/-- The same character, or a small and a capital letter. -/
def SameLetter (c d : Char) : Prop := c = d ∨ (c, d) ∈ alphabet ∨ (d, c) ∈ alphabet

/-- The names differ at most in the case of their letters. -/
def SameIgnoringCase (a b : Str) : Prop := List.Forall₂ SameLetter a b

end Sympkf.Spec
