import Verif.Model.PartialOrder

/-!
# Specification: multi-indices

What an argument of `PartialOrderDerivative` denotes, independently of the tests made by the constructor.
-/

set_option autoImplicit false

namespace Sympkf.Spec

open Text POD

/-- `Denotes coords p f`: the argument `p` is written in one of the three documented formats and gives the order `f x` to
every coordinate `x`. -/
inductive Denotes (coords : List Str) : PArg → (Str → ℤ) → Prop
  /-- `(alpha_1, .., alpha_n)` -/
  | tuple (f : Str → ℤ) : Denotes coords (.tuple (coords.map (fun x => .atom (.int (f x))))) f
  /-- `(x, alpha)` -/
  | couple (x : Str) (n : ℤ) (hx : x ∈ coords) :
      Denotes coords (.tuple [.atom (.sym x), .atom (.int n)]) (fun y => if y = x then n else 0)
  /-- `[(x, alpha), (y, beta), ..]`, not empty; the orders given to one coordinate add up -/
  | couples (cs : List (Str × ℤ)) (h0 : cs ≠ []) (h : ∀ c ∈ cs, c.1 ∈ coords) :
      Denotes coords (.list (cs.map (fun c => .tup [.sym c.1, .int c.2])))
        (fun y => ((cs.filter (fun c => c.1 = y)).map Prod.snd).sum)
  /-- `[x, y, x, ..]`, possibly empty -/
  | sequence (s : List Str) (h : ∀ x ∈ s, x ∈ coords) :
      Denotes coords (.list (s.map (fun x => .atom (.sym x)))) (fun y => (s.count y : ℤ))
  /-- the same in a tuple -/
  | sequenceTuple (s : List Str) (h : ∀ x ∈ s, x ∈ coords) :
      Denotes coords (.tuple (s.map (fun x => .atom (.sym x)))) (fun y => (s.count y : ℤ))

/-- `v` is a multi-index of `n` entries and total degree `d`. -/
structure IsMultiIndex (n d : ℕ) (v : List ℤ) : Prop where
  length : v.length = n
  nonneg : ∀ a ∈ v, 0 ≤ a
  sum : v.sum = d

end Sympkf.Spec
