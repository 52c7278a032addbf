import Mathlib.LinearAlgebra.BilinearForm.Properties

/-!
# Specification: skew-symmetric dynamics and their energy
-/

set_option autoImplicit false

namespace Sympkf.Spec

variable {K S : Type} [Field K] [AddCommGroup S] [Module K S]

/-- The trends are skew-symmetric for the bilinear form, and do not depend on time. -/
def Skew (B : LinearMap.BilinForm K S) (f : K → S → S) : Prop := ∀ t t' u v, B (f t u) v = -B u (f t' v)

/-- The energy. -/
def energy (B : LinearMap.BilinForm K S) (u : S) : K := B u u

/-- The quadratic form that the leapfrog scheme with the step `dt` conserves. -/
def staggered (B : LinearMap.BilinForm K S) (f : S → S) (dt : K) (u v : S) : K := B u u + B v v - 2 * dt * B (f u) v

end Sympkf.Spec
