import Verif.Lemmas.FiniteDiffOrder

/-!
# Specification: anisotropic diffusion in the plane
-/

set_option autoImplicit false

namespace Sympkf.Spec.Dynamics

open FinDiff

/-- The divergence of the flux `K grad u`, for a symmetric tensor `K` with components `k11`, `k12`, `k22`. -/
noncomputable def diffusion (k11 k12 k22 u : (Fin 2 → ℝ) → ℝ) : (Fin 2 → ℝ) → ℝ := fun p =>
  pd 0 (fun q => k11 q * pd 0 u q + k12 q * pd 1 u q) p + pd 1 (fun q => k12 q * pd 0 u q + k22 q * pd 1 u q) p

end Sympkf.Spec.Dynamics
