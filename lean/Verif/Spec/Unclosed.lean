import Verif.Model.Field

/-!
# Specification: the expectations that the internal closure leaves open
-/

set_option autoImplicit false

namespace Sympkf.Spec

open Text Rand PKF

/-- The symbol `s` does not occur in the expression. -/
def Without (s : Str) : Ex → Prop
  | .sym t => t ≠ s
  | .fn _ args => s ∉ args
  | .func _ a => Without s a
  | .add a b => Without s a ∧ Without s b
  | .mul a b => Without s a ∧ Without s b
  | .pow a _ => Without s a
  | .deriv a vars => Without s a ∧ ∀ v ∈ vars, v.1 ≠ s
  | .integ a x => Without s a ∧ x ≠ s
  | .ex a => Without s a
  | _ => True

/-- A derivative of order `n` along the coordinates of space of the normalised error of a field. -/
inductive Differentiated (f : Field) : ℕ → Ex → Prop
  | none : Differentiated f 0 f.epsilon
  | some (vars : List (Str × ℕ)) (h0 : vars ≠ []) (h : ∀ v ∈ vars, v.1 ∈ f.spatial ∧ 0 < v.2) :
      Differentiated f (vars.map Prod.snd).sum (.deriv f.epsilon vars)

/-- The expectations that are left open by the internal closure: of the product of a normalised error and one of its derivatives of
order four or more, and of the products of (derivatives of) the normalised errors of two different fields, at least one of
them differentiated. -/
inductive Open (fields : List Field) : Ex → Prop
  | left (f : Field) (hf : f ∈ fields) (n : ℕ) (hn : 4 ≤ n) (d : Ex) (hd : Differentiated f n d) : Open fields (.ex (.mul f.epsilon d))
  | right (f : Field) (hf : f ∈ fields) (n : ℕ) (hn : 4 ≤ n) (d : Ex) (hd : Differentiated f n d) : Open fields (.ex (.mul d f.epsilon))
  | couple (f g : Field) (hf : f ∈ fields) (hg : g ∈ fields) (hfg : f ≠ g) (m n : ℕ) (hmn : 1 ≤ m + n) (a b : Ex)
      (ha : Differentiated f m a) (hb : Differentiated g n b) : Open fields (.ex (.mul a b))

/-- In the equations of the mean also the products of two derivatives of one normalised error are left. -/
inductive OpenMean (fields : List Field) : Ex → Prop
  | other (t : Ex) (h : Open fields t) : OpenMean fields t
  | square (f : Field) (hf : f ∈ fields) (n : ℕ) (hn : 1 ≤ n) (d : Ex) (hd : Differentiated f n d) : OpenMean fields (.ex (.pow d 2))
  | product (f : Field) (hf : f ∈ fields) (m n : ℕ) (hm : 1 ≤ m) (hn : 1 ≤ n) (a b : Ex) (ha : Differentiated f m a)
      (hb : Differentiated f n b) : OpenMean fields (.ex (.mul a b))

end Sympkf.Spec
