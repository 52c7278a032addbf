import Mathlib.Algebra.Ring.Int.Units
import Mathlib.Data.Int.Cast.Lemmas
import Verif.Model.Builder
import Verif.Model.FDBuilder
import Verif.Spec.Relation
import Verif.Spec.PDE

/-!
# Specification: reflections of a periodic grid, parities of functions and right-hand sides
-/

set_option autoImplicit false

namespace Sympkf.Spec.PDE

open Text Sympkf.PDE FinDiff

variable {N : ℕ} {coords : List Str}

/-- The point of the periodic grid reached by the reflection `j ↦ z i - j` along every axis whose name is in `S`. -/
def mirror (n : Fin coords.length → ℕ) (S : List Str) (z : Fin coords.length → ℤ) (idx : Fin coords.length → ℕ) :
    Fin coords.length → ℕ :=
  fun i => if coords[i] ∈ S then ((z i - (idx i : ℤ)) % (n i : ℤ)).toNat else idx i

/-- The array `b` is the array `a` reflected and multiplied by the sign `σ`. -/
def Mirrored (n : Fin coords.length → ℕ) (S : List Str) (z : Fin coords.length → ℤ) (σ : ℤˣ) (a b : Arr coords.length ℝ) : Prop :=
  ∀ idx, (∀ i, idx i < n i) → b idx = ((σ : ℤ) : ℝ) * a (mirror n S z idx)

/-- The states whose rows are reflected, the row `k` with the sign `σ k`. -/
def reflection (n : Fin coords.length → ℕ) (S : List Str) (z : Fin coords.length → ℤ) (σ : Fin N → ℤˣ) :
    Submodule ℝ ((Fin N → Arr coords.length ℝ) × (Fin N → Arr coords.length ℝ)) where
  carrier := {p | ∀ k, Mirrored n S z (σ k) (p.1 k) (p.2 k)}
  add_mem' := by
    intro p q hp hq k idx hidx
    show p.2 k idx + q.2 k idx = _ * (p.1 k _ + q.1 k _)
    rw [hp k idx hidx, hq k idx hidx, mul_add]
  zero_mem' := fun _ _ _ => (mul_zero _).symm
  smul_mem' := by
    intro c p hp k idx hidx
    show c * p.2 k idx = _ * (c * p.1 k _)
    rw [hp k idx hidx, mul_left_comm]

/-- The sign of a derivative: `-1` for every order of derivation along a reflected axis. -/
def derivSign (S : List Str) (vars : List (Str × ℕ)) : ℤˣ := (vars.map (fun v => if v.1 ∈ S then (-1 : ℤˣ) ^ v.2 else 1)).prod

/-- The parity of an expression, when the functions have the parities `π` and the symbols the parities `κ`. -/
inductive HasParity (S : List Str) (π : Sy → ℤˣ) (κ : Str → ℤˣ) : Sy → ℤˣ → Prop
  | num (q : ℚ) : HasParity S π κ (.num q) 1
  | sym (k : Kind) (c : Str) : HasParity S π κ (.sym k c) (κ c)
  | fn (u : Str) (args : List Str) : HasParity S π κ (.fn u args) (π (.fn u args))
  | add {a b : Sy} {σ : ℤˣ} : HasParity S π κ a σ → HasParity S π κ b σ → HasParity S π κ (.add a b) σ
  | mul {a b : Sy} {σ τ : ℤˣ} : HasParity S π κ a σ → HasParity S π κ b τ → HasParity S π κ (.mul a b) (σ * τ)
  | pow_even {a b : Sy} : HasParity S π κ a 1 → HasParity S π κ b 1 → HasParity S π κ (.pow a b) 1
  | pow_int {a : Sy} {σ : ℤˣ} (k : ℤ) : HasParity S π κ a σ → HasParity S π κ (.pow a (.num k)) (σ ^ k)
  | deriv (u : Str) (args : List Str) (vars : List (Str × ℕ)) :
      HasParity S π κ (.deriv (.fn u args) vars) (π (.fn u args) * derivSign S vars)

/-- The attributes of the second object are those of the first one, reflected with their parities. -/
structure MirroredObj (s : System) (n : Fin coords.length → ℕ) (S : List Str) (z : Fin coords.length → ℤ) (π : Sy → ℤˣ) (κ : Str → ℤˣ)
    (O O' : Obj (Arr coords.length ℝ)) : Prop where
  functions : ∀ f ∈ s.constantFunctions, Mirrored n S z (π f) (O.attr f.keyvar) (O'.attr f.keyvar)
  constants : ∀ c, Sy.sym .plain c ∈ s.constants → Mirrored n S z (κ c) (O.attr (cleanLatexName c)) (O'.attr (cleanLatexName c))
  exogenous : s.exogenous = [] ∨ ∃ l l', O.exogenous = some l ∧ O'.exogenous = some l' ∧ l.length = s.exogenous.length ∧
    l'.length = s.exogenous.length ∧
    ∀ (j : ℕ) f a a', s.exogenous[j]? = some f → l[j]? = some a → l'[j]? = some a' → Mirrored n S z (π f) a a'

end Sympkf.Spec.PDE
