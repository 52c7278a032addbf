import Verif.Model.Builder
import Verif.Model.FDBuilder
import Verif.Spec.Consistency
import Verif.Spec.Convergence

/-!
# Specification of the convergence of a discretisation in space and time
-/

set_option autoImplicit false

namespace Sympkf.Spec.PDE

open Text Sympkf.PDE FinDiff

variable {d N : ℕ}

/-- The family is smooth in time and space together. -/
def SmoothFamily (φ : ℝ → (Fin d → ℝ) → ℝ) : Prop := ContDiff ℝ (⊤ : ℕ∞) (fun q : ℝ × (Fin d → ℝ) => φ q.1 q.2)

/-- At every point of the grid the rows of the two states differ by at most `e`. -/
def Within (n : Fin d → ℕ) (e : ℝ) (U V : Fin N → Arr d ℝ) : Prop :=
  ∀ k idx, (∀ i, idx i < n i) → |U k idx - V k idx| ≤ e

/-- The step of length `dt` of the explicit Euler method, from states at a distance at most `r` of `V`, amplifies the distance to `V`
by at most `1 + K dt`. -/
def StableAt (n : Fin d → ℕ) (F : (Fin N → Arr d ℝ) → Fin N → Arr d ℝ) (V : Fin N → Arr d ℝ) (dt K r : ℝ) : Prop :=
  ∀ U e, e ≤ r → Within n e U V →
    Within n ((1 + K * dt) * e) (fun k idx => U k idx + dt * F U k idx) (fun k idx => V k idx + dt * F V k idx)

/-- The generated method `trend` is the vector field `F`: the state and the returned array have one row per unknown. -/
def Implements (s : System) (A : Arith (Arr d ℝ)) (O : ℝ → Obj (Arr d ℝ)) (F : ℝ → (Fin N → Arr d ℝ) → Fin N → Arr d ℝ) : Prop :=
  ∀ t U, ∃ m, s.trend A (O t) (fun _ => t) (List.ofFn U) = .ok m ∧ m.out = List.ofFn (F t U)

/-- The values `φ` solve the system on `[a, b]`: the unknown of each equation has for time derivative the right-hand side, where the
symbol `t` is the time and the constants have the values `σ`. -/
def Solves (coords : List Str) (eqs : List Equation) (φ : Sy → ℝ → (Fin coords.length → ℝ) → ℝ) (σ : Str → ℝ) (a b : ℝ) : Prop :=
  ∀ e ∈ eqs, ∀ f, e.lhs = .deriv f [("t".toList, 1)] → ∀ τ ∈ Set.Icc a b, ∀ p,
    HasDerivAt (fun s => φ f s p) (exact coords (fun g => φ g τ) (Function.update σ "t".toList τ) e.rhs p) τ

end Sympkf.Spec.PDE
