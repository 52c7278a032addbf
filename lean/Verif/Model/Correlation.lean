import Mathlib.Analysis.SpecialFunctions.Pow.Real
import Mathlib.LinearAlgebra.Matrix.NonsingularInverse

/-!
# The prototypes of correlation functions

`src/sympkf/symbolic/pkfcas.py` 1308-1351 and 1451-1473.  The symbolic expressions are modelled by the real functions they denote.  A
tensor field (`self.aspect`, `self.diffusion`, `self.metric` at a fixed time) is a function from points to real matrices; substituting
`px` for the coordinates is evaluation at `px`.  The powers `Rational(1, 4)` and `Rational(1, 2)` are real powers: they agree with
SymPy's for positive determinants.
-/

set_option autoImplicit false

namespace Sympkf.Cor

open Matrix

variable {d : ℕ}

/-- A tensor field on a space of dimension `d`. -/
abbrev Tensor (d : ℕ) := (Fin d → ℝ) → Matrix (Fin d) (Fin d) ℝ

/-- pkfcas.py 1328-1351 `Closure.correlation`, from the aspect tensor. -/
noncomputable def correlation (s : Tensor d) (px py : Fin d → ℝ) : ℝ :=
  let sx := s px
  let sy := s py
  let normalization := sx.det ^ (1 / 4 : ℝ) * sy.det ^ (1 / 4 : ℝ) / ((1 / 2 : ℝ) • (sx + sy)).det ^ (1 / 2 : ℝ)
  let dxy := px - py
  let dot := dxy ⬝ᵥ (sx + sy)⁻¹ *ᵥ dxy
  normalization * Real.exp (-dot)

/-- pkfcas.py 1308-1326 `Closure.correlation_in_diffusion`. -/
noncomputable def correlationInDiffusion (nu : Tensor d) (px py : Fin d → ℝ) : ℝ :=
  let nux := nu px
  let nuy := nu py
  let normalization := nux.det ^ (1 / 4 : ℝ) * nuy.det ^ (1 / 4 : ℝ) / ((1 / 2 : ℝ) • (nux + nuy)).det ^ (1 / 2 : ℝ)
  let dxy := px - py
  let dot := dxy ⬝ᵥ (nux + nuy)⁻¹ *ᵥ dxy
  normalization * Real.exp (-(1 / 2) * dot)

/-- pkfcas.py 1456-1473 `LocGaussianClosure.correlation`: `metric=True` uses the metric tensor `g`, `metric=False` the aspect
tensor `s`. -/
noncomputable def locGaussian (metric : Bool) (g s : Tensor d) (px py : Fin d → ℝ) : ℝ :=
  let dxy := px - py
  let dot := if metric then dxy ⬝ᵥ g px *ᵥ dxy else dxy ⬝ᵥ ((2 : ℝ) • s px)⁻¹ *ᵥ dxy
  Real.exp (-dot)

end Sympkf.Cor
