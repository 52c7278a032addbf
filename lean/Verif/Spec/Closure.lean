import Verif.Model.Closure
import Verif.Spec.MultiIndex

/-!
# Specification of closures
-/

set_option autoImplicit false

namespace Sympkf.Spec.Clo

open Text POD Rand PKF Sympkf.Clo

/-- The expectation `E(eps D^a eps)`. -/
def epsTerm (f : Field) (a : List ℤ) : Ex :=
  if a.all (· = 0) then .ex (.pow f.epsilon 2)
  else .ex (.mul f.epsilon (.deriv f.epsilon (((f.spatial.zip (a.map Int.toNat))).filter (fun p => 0 < p.2))))

/-- `a! = a_1! .. a_d!`. -/
def factorial (a : List ℤ) : ℕ := (a.map (fun n => n.toNat.factorial)).prod

/-- The coefficient of `dx^a`. -/
def coefficient {C : Type} (S : Series C) (a : List ℤ) : C := S (a.map Int.toNat)

/-- The polynomial with the coefficients of `S` whose exponents are all below `n`. -/
def below {C : Type} [Zero C] (d n : ℕ) (S : Series C) : Series C := fun b => if ∀ i < d, b.getD i 0 < n then S b else 0

/-- How the two counters of an object evolve: the order reached, and the number of orders present in the dictionary. -/
def counters : List Call → ℕ × ℕ
  | [] => (0, 0)
  | .taylor n :: h => let (o, m) := counters h; (max o n, m)
  | .closureByOrder n :: h => let (o, m) := counters h; if o < n + 1 then (n + 1, max m (n + 1)) else (o, m)
  | .closure n :: h => let (o, m) := counters h; if o < n + 1 then (n + 1, max m (n + 1)) else (o, m)
  | .inMetricByOrder _ :: h => counters h

end Sympkf.Spec.Clo
