import Verif.Model.Py

/-!
# Specification of a discrete trajectory

Independent of the code: what it means for `xs` to be the successive states of a one-step scheme over a time window,
and which state a dictionary indexed by time must hold.
-/

set_option autoImplicit false

namespace Sympkf.Spec

variable {K X : Type}

/-- `xs` are the states of the one-step scheme `step` at the times of `window`, started from `u0`: there is one state
per time, the first one is `u0`, and each next one is obtained by a step of length "next time minus time". -/
structure IsTrajectory [Sub K] (step : K → X → K → Except PyErr X) (window : List K) (u0 : X) (xs : List X) : Prop where
  length_eq : xs.length = window.length
  start : xs[0]? = some u0
  next : ∀ (i : Nat) t t' x, window[i]? = some t → window[i + 1]? = some t' → xs[i]? = some x →
    ∃ x', xs[i + 1]? = some x' ∧ step t x (t' - t) = .ok x'

/-- `x` is the state of `xs` at the last position where `window` shows the time `τ`. -/
def StateAt (window : List K) (xs : List X) (τ : K) (x : X) : Prop :=
  ∃ i : Nat, window[i]? = some τ ∧ xs[i]? = some x ∧ ∀ j : Nat, i < j → window[j]? ≠ some τ

/-- The state after `i` intervals of the window, for a scheme `g` that never raises. -/
def advance [Sub K] (g : K → X → K → X) (window : List K) (u : X) : Nat → X
  | 0 => u
  | i + 1 =>
    match window[i]?, window[i + 1]? with
    | some t, some t' => g t (advance g window u i) (t' - t)
    | _, _ => advance g window u i

/-- `i` is the last position of the time `τ` in the window. -/
def LastAt (window : List K) (τ : K) (i : Nat) : Prop :=
  window[i]? = some τ ∧ ∀ j : Nat, i < j → window[j]? ≠ some τ

end Sympkf.Spec
