import Verif.Spec.Stoch
import Verif.Model.Field

/-!
# Specification: normalised random fields and their metric
-/

set_option autoImplicit false

namespace Sympkf.Spec

open Text PKF

variable {R : Type} [CommRing R] [Algebra ℚ R]

/-- `D_x D_y .. r`, innermost derivative last in the list. -/
def iterD (S : Interp R) (s : List Str) (r : R) : R := s.foldr (fun x r => S.D x r) r

/-- The symbols of the field `f` have their meaning: the normalised error is centred of variance one, the error is the normalised
error times the standard deviation `V^(1/2)`, and the metric is `g_ij = E[d_i eps d_j eps]`. -/
structure Normalised (S : Interp R) (f : Field) : Prop where
  centred : S.E (den S f.epsilon) = 0
  normed : S.E (den S f.epsilon ^ 2) = 1
  sqrt_sq : S.pw (den S f.variance) (1 / 2) ^ 2 = den S f.variance
  sqrt_inv : S.pw (den S f.variance) (1 / 2) * S.pw (den S f.variance) (-1 / 2) = 1
  error : den S f.error = den S f.epsilon * S.pw (den S f.variance) (1 / 2)
  metric : ∀ i j, i ≤ j → j < f.spatial.length →
    den S (f.metric i j) = S.E (S.D (f.spatial.getD i []) (den S f.epsilon) * S.D (f.spatial.getD j []) (den S f.epsilon))

/-- The entry `k -> v` of a closure is true. -/
def Holds (S : Interp R) (kv : Rand.Ex × Rand.Ex) : Prop := den S kv.1 = den S kv.2

end Sympkf.Spec
