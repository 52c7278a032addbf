import Verif.Props.PDESystem

/-!
# C63: the order of a system
-/

set_option autoImplicit false

namespace Sympkf.Props

open Text PDE Spec.PDE

theorem foldl_max_spec (l : List Sy) (m : ℕ) :
    m ≤ l.foldl (fun m d => max m d.count) m ∧ (∀ d ∈ l, d.count ≤ l.foldl (fun m d => max m d.count) m) ∧
      (l.foldl (fun m d => max m d.count) m = m ∨ ∃ d ∈ l, d.count = l.foldl (fun m d => max m d.count) m) := by
  induction l generalizing m with
  | nil => simp
  | cons a l ih =>
    rw [List.foldl_cons]
    obtain ⟨h1, h2, h3⟩ := ih (max m a.count)
    refine ⟨(le_max_left _ _).trans h1, fun d hd => ?_, ?_⟩
    · rcases List.mem_cons.1 hd with rfl | hd
      · exact (le_max_right _ _).trans h1
      · exact h2 d hd
    · rcases h3 with h3 | ⟨d, hd, h3⟩
      · rcases max_choice m a.count with h | h
        · exact .inl (h3.trans h)
        · exact .inr ⟨a, List.mem_cons_self, (h3.trans h).symm⟩
      · exact .inr ⟨d, List.mem_cons_of_mem _ hd, h3⟩

/-- The total order of a derivative with these variables and orders. -/
def totalOrder : List (Str × ℕ) → ℕ
  | [] => 0
  | (_, n) :: vars => n + totalOrder vars

theorem count_deriv (a : Sy) (vars : List (Str × ℕ)) : (Sy.deriv a vars).count = totalOrder vars := by
  show (vars.map (·.2)).sum = totalOrder vars
  induction vars with
  | nil => rfl
  | cons v vars ih => rw [List.map_cons, List.sum_cons, ih]; rfl

/-- C63: `derivative_max_order` is the largest total order of the derivatives of the right-hand sides, and zero when there are no
derivatives. -/
theorem C63_max_order (iter : List Sy → List Sy) (eqs : List Equation) (s : System) (h : System.build iter eqs = .ok s) :
    (∀ e ∈ eqs, ∀ a vars, Occurs (.deriv a vars) e.rhs → totalOrder vars ≤ s.maxOrder) ∧
    (s.maxOrder = 0 ∨ ∃ e ∈ eqs, ∃ a vars, Occurs (.deriv a vars) e.rhs ∧ totalOrder vars = s.maxOrder) := by
  obtain ⟨c, -, -, -, -, -, -, -, -, -, -, -, h12⟩ := build_ok iter eqs s h
  obtain ⟨-, h2, h3⟩ := foldl_max_spec (eqs.flatMap (fun e => e.rhs.derivatives)).dedup 0
  rw [← h12] at h2 h3
  constructor
  · intro e he a vars ho
    rw [← count_deriv a vars]
    exact h2 _ (List.mem_dedup.2 (List.mem_flatMap.2 ⟨e, he, (mem_derivatives_iff _ _).2 ⟨⟨a, vars, rfl⟩, ho⟩⟩))
  · refine h3.imp id ?_
    rintro ⟨d, hd, hc⟩
    obtain ⟨e, he, hd⟩ := List.mem_flatMap.1 (List.mem_dedup.1 hd)
    obtain ⟨⟨a, vars, rfl⟩, ho⟩ := (mem_derivatives_iff _ _).1 hd
    exact ⟨e, he, a, vars, ho, by rw [← count_deriv a vars]; exact hc⟩

/-- C63: `spatial_derivatives` are the derivatives of the right-hand sides, each once. -/
theorem C63_spatial_derivatives (iter : List Sy → List Sy) (hi : ∀ l, (iter l).Perm l) (eqs : List Equation) (s : System)
    (h : System.build iter eqs = .ok s) :
    s.spatialDerivatives.Nodup ∧
    ∀ d, d ∈ s.spatialDerivatives ↔ (∃ a vars, d = .deriv a vars) ∧ ∃ e ∈ eqs, Occurs d e.rhs := by
  obtain ⟨c, -, -, -, -, -, -, -, -, -, -, h11, -⟩ := build_ok iter eqs s h
  rw [h11]
  refine ⟨(hi _).nodup_iff.2 (List.nodup_dedup _), fun d => ?_⟩
  rw [(hi _).mem_iff, List.mem_dedup, List.mem_flatMap]
  simp only [mem_derivatives_iff]
  constructor
  · rintro ⟨e, he, h1, h2⟩; exact ⟨h1, e, he, h2⟩
  · rintro ⟨h1, e, he, h2⟩; exact ⟨e, he, h1, h2⟩

/-- A case: `u_t = u_xxy + u_x` has order three. -/
example : ∃ s, System.build id [⟨.deriv (.fn "u".toList [time, "x".toList, "y".toList]) [(time, 1)],
      .add (.deriv (.fn "u".toList [time, "x".toList, "y".toList]) [("x".toList, 2), ("y".toList, 1)])
        (.deriv (.fn "u".toList [time, "x".toList, "y".toList]) [("x".toList, 1)])⟩] = .ok s ∧
    s.maxOrder = 3 ∧ s.spatialDerivatives.length = 2 := by
  refine ⟨_, rfl, ?_⟩; decide +kernel

end Sympkf.Props
