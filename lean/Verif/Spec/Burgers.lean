import Verif.Lemmas.FiniteDiffOrder

/-!
# Specification: the closed parametric Kalman filter of the Burgers equation

Mean `u`, variance `V` and aspect (square of the length-scale) `s` of an error governed by the Burgers equation, with the closure
`E[eps eps_xxxx] = 3 g^2 - 2 g_xx`, `g = 1 / s` (Pannekoucke et al., 2018).
-/

set_option autoImplicit false

namespace Sympkf.Spec.Burgers

open FinDiff

/-- Functions of one coordinate. -/
abbrev Field := (Fin 1 → ℝ) → ℝ

/-- The derivative in space. -/
noncomputable def dx (f : Field) : Field := pd 0 f

/-- `u_t = - u u_x + k u_xx - V_x / 2`. -/
noncomputable def mean (k : ℝ) (u V _s : Field) : Field := fun p =>
  - (u p * dx u p) + k * dx (dx u) p - dx V p / 2

/-- `V_t = - u V_x - 2 u_x V + k V_xx - k V_x^2 / (2 V) - 2 k V / s`. -/
noncomputable def variance (k : ℝ) (u V s : Field) : Field := fun p =>
  - (u p * dx V p) - 2 * dx u p * V p + k * dx (dx V) p - k * dx V p ^ 2 / (2 * V p) - 2 * k * V p / s p

/-- `s_t = - u s_x + 2 u_x s + k s_xx - 2 k s_x^2 / s + 4 k + k V_x s_x / V - 2 k s V_xx / V + 2 k s V_x^2 / V^2`. -/
noncomputable def aspect (k : ℝ) (u V s : Field) : Field := fun p =>
  - (u p * dx s p) + 2 * dx u p * s p + k * dx (dx s) p - 2 * k * dx s p ^ 2 / s p + 4 * k + k * dx V p * dx s p / V p
    - 2 * k * s p * dx (dx V) p / V p + 2 * k * s p * dx V p ^ 2 / V p ^ 2

end Sympkf.Spec.Burgers
