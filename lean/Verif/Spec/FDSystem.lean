import Verif.Model.FDSystem
import Verif.Props.FDExpr

/-!
# Specification: right-hand sides for smooth functions of the coordinates
-/

set_option autoImplicit false

namespace Sympkf.Spec.FDSystem

open Text FinDiff

/-- The value of an expression at the point `p`: functions are not displaced, derivatives are partial derivatives. -/
noncomputable def exact (env : Env ℝ) : FExpr → (Str → ℝ) → ℝ
  | .num q => fun _ => q
  | .sym s => fun _ => env.sym s
  | .fn u args => fun p => env.fn u (args.map (fun a => p a.1))
  | .deriv e vars => pdMixed vars (exact env e)
  | .add a b => fun p => exact env a p + exact env b p
  | .mul a b => fun p => exact env a p * exact env b p
  | .pow a n => fun p => exact env a p ^ n
  | .func g a => fun p => env.func g (exact env a p)

/-- A smooth function of the coordinates `S`. -/
def SmoothIn (S : Finset Str) (f : (Str → ℝ) → ℝ) : Prop :=
  ∃ g : (S → ℝ) → ℝ, ContDiff ℝ (⊤ : ℕ∞) g ∧ ∀ p, f p = g (fun x => p x)

/-- The expression makes sense on the grid of the coordinates `S`: no constant has the name of a grid step; functions are on the
grid points and smooth; only functions are differentiated, with respect to coordinates; negative powers and elementary functions
are taken where they are defined. -/
def Admissible (S : Finset Str) (env : Env ℝ) : FExpr → Prop
  | .num _ => True
  | .sym s => ∀ x ∈ S, s ≠ 'd' :: x
  | .fn u args => (∀ a ∈ args, a.2 = 0) ∧ SmoothIn S (exact env (.fn u args))
  | .deriv e vars => (∃ u args, e = .fn u args) ∧ Admissible S env e ∧ ∀ v ∈ vars, v.1 ∈ S
  | .add a b => Admissible S env a ∧ Admissible S env b
  | .mul a b => Admissible S env a ∧ Admissible S env b
  | .pow a n => Admissible S env a ∧ (0 ≤ n ∨ ∀ p, exact env a p ≠ 0)
  | .func g a => Admissible S env a ∧ ∀ p, ContDiffAt ℝ 1 (env.func g) (exact env a p)

/-- The symbols `dx` have the values of the grid steps `h`. -/
def stepEnv (S : Finset Str) (env : Env ℝ) (h : Str → ℝ) : Env ℝ :=
  { env with sym := fun s => match s with
    | 'd' :: x => if x ∈ S then h x else env.sym ('d' :: x)
    | s => env.sym s }

end Sympkf.Spec.FDSystem
