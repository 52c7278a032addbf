import Verif.Spec.Members

/-!
# Specification: the members of an ensemble as functions on space, at all times
-/

set_option autoImplicit false

namespace Sympkf.Spec.Members

open Text Rand PKF Smooth

/-- The point with the given time and the given coordinates in space. -/
def place {space : List Str} (τ : ℝ) (p : Fin space.length → ℝ) : Point (time :: space) := fun x =>
  if x.1 = time then τ else if h : space.idxOf x.1 < space.length then p ⟨space.idxOf x.1, h⟩ else 0

/-- The member `ω` at the time `τ`, as a function on space. -/
def seen {space : List Str} {Ω : Type} (ω : Ω) (τ : ℝ) : (Ω → F (Point (time :: space))) →+* ((Fin space.length → ℝ) → ℝ) where
  toFun r p := (r ω : Point (time :: space) → ℝ) (place τ p)
  map_one' := rfl
  map_mul' _ _ := rfl
  map_zero' := rfl
  map_add' _ _ := rfl

/-- A function with the period `ℓ i` along the coordinate `i` of space, for all `i`. -/
def Cyclic {space : List Str} (ℓ : Fin space.length → ℝ) (r : F (Point (time :: space))) : Prop :=
  ∀ i q, (r : Point (time :: space) → ℝ) (q + ℓ i • axis (time :: space) space[i]) = (r : Point (time :: space) → ℝ) q

end Sympkf.Spec.Members
