import Verif.Spec.Unclosed

/-!
# Specification: dynamics of a given order, and the order of the open expectations
-/

set_option autoImplicit false

namespace Sympkf.Spec

open Text Rand PKF

/-- The derivatives in the expression are of order at most `p`; the orders of nested derivatives are added. -/
def OrderLe : ℕ → Ex → Prop
  | p, .func _ a => OrderLe p a
  | p, .add a b => OrderLe p a ∧ OrderLe p b
  | p, .mul a b => OrderLe p a ∧ OrderLe p b
  | p, .pow a _ => OrderLe p a
  | p, .deriv a vars => (vars.map Prod.snd).sum ≤ p ∧ OrderLe (p - (vars.map Prod.snd).sum) a
  | p, .integ a _ => OrderLe p a
  | p, .ex a => OrderLe p a
  | _, _ => True

/-- The terms of the expression contain at most `k` derivations altogether; there are none in the arguments of functions, in integrals and in
powers with other exponents than natural numbers. -/
def TotalLe : ℕ → Ex → Prop
  | _, .func _ a => TotalLe 0 a
  | k, .add a b => TotalLe k a ∧ TotalLe k b
  | k, .mul a b => ∃ i j, i + j ≤ k ∧ TotalLe i a ∧ TotalLe j b
  | k, .pow a q => TotalLe 0 a ∨ ∃ n m : ℕ, q = n ∧ 1 ≤ n ∧ n * m ≤ k ∧ TotalLe m a
  | k, .deriv a vars => (vars.map Prod.snd).sum ≤ k ∧ TotalLe (k - (vars.map Prod.snd).sum) a
  | _, .integ a _ => TotalLe 0 a
  | _, .ex a => TotalLe 0 a
  | _, _ => True

/-- The open expectations (`Open`) with at most `N` derivations. -/
inductive OpenUpTo (fields : List Field) (N : ℕ) : Ex → Prop
  | left (f : Field) (hf : f ∈ fields) (n : ℕ) (hn : 4 ≤ n) (hN : n ≤ N) (d : Ex) (hd : Differentiated f n d) :
      OpenUpTo fields N (.ex (.mul f.epsilon d))
  | right (f : Field) (hf : f ∈ fields) (n : ℕ) (hn : 4 ≤ n) (hN : n ≤ N) (d : Ex) (hd : Differentiated f n d) :
      OpenUpTo fields N (.ex (.mul d f.epsilon))
  | couple (f g : Field) (hf : f ∈ fields) (hg : g ∈ fields) (hfg : f ≠ g) (m n : ℕ) (hmn : 1 ≤ m + n) (hN : m + n ≤ N) (a b : Ex)
      (ha : Differentiated f m a) (hb : Differentiated g n b) : OpenUpTo fields N (.ex (.mul a b))

/-- The open expectations of the equations of the mean (`OpenMean`) with at most `N` derivations. -/
inductive OpenMeanUpTo (fields : List Field) (N : ℕ) : Ex → Prop
  | other (t : Ex) (h : OpenUpTo fields N t) : OpenMeanUpTo fields N t
  | square (f : Field) (hf : f ∈ fields) (n : ℕ) (hn : 1 ≤ n) (hN : 2 * n ≤ N) (d : Ex) (hd : Differentiated f n d) :
      OpenMeanUpTo fields N (.ex (.pow d 2))
  | product (f : Field) (hf : f ∈ fields) (m n : ℕ) (hm : 1 ≤ m) (hn : 1 ≤ n) (hN : m + n ≤ N) (a b : Ex) (ha : Differentiated f m a)
      (hb : Differentiated f n b) : OpenMeanUpTo fields N (.ex (.mul a b))

end Sympkf.Spec
