import Verif.Props.Reflect
import Verif.Props.MaximumPrinciple

/-!
# The cases of C96
-/

set_option autoImplicit false

namespace Sympkf.Dynamics

open Text PDE Spec.PDE FinDiff Spec Props

theorem parity_of {S : List Str} {π : Sy → ℤˣ} {κ : Str → ℤˣ} {e : Sy} {σ τ : ℤˣ} (h : HasParity S π κ e σ) (hστ : σ = τ) :
    HasParity S π κ e τ := hστ ▸ h

theorem odd_burgers : ∀ e ∈ burgers, HasParity ["x".toList] (fun _ => -1) (fun _ => 1) e.rhs (-1) := by
  intro e he
  rw [show burgers = [_] from rfl, List.mem_singleton] at he
  subst he
  exact .add (parity_of (.mul (.num _) (.mul (.fn _ _) (.deriv _ _ _))) (by decide))
    (parity_of (.mul (.sym _ _) (.deriv _ _ _)) (by decide))

theorem odd_kuramoto : ∀ e ∈ kuramoto, HasParity ["x".toList] (fun _ => -1) (fun _ => 1) e.rhs (-1) := by
  intro e he
  rw [show kuramoto = [_] from rfl, List.mem_singleton] at he
  subst he
  exact .add (parity_of (.mul (.num _) (.mul (.fn _ _) (.deriv _ _ _))) (by decide))
    (.add (parity_of (.mul (.num _) (.mul (.sym _ _) (.deriv _ _ _))) (by decide))
      (parity_of (.mul (.num _) (.mul (.sym _ _) (.deriv _ _ _))) (by decide)))

theorem odd_diffusion : ∀ e ∈ diffusion, HasParity ["x".toList] (fun _ => -1) (fun _ => 1) e.rhs (-1) := by
  intro e he
  rw [show diffusion = [_] from rfl, List.mem_singleton] at he
  subst he
  exact parity_of (.mul (.sym _ _) (.deriv _ _ _)) (by decide)

theorem full_burgers : ∀ e ∈ burgers, FullDerivatives ["x".toList] e.rhs := by
  intro e he
  rw [show burgers = [_] from rfl, List.mem_singleton] at he
  subst he
  exact ⟨⟨trivial, trivial, ⟨_, _, rfl, by decide⟩, by decide⟩, trivial, ⟨_, _, rfl, by decide⟩, by decide⟩

theorem full_kuramoto : ∀ e ∈ kuramoto, FullDerivatives ["x".toList] e.rhs := by
  intro e he
  rw [show kuramoto = [_] from rfl, List.mem_singleton] at he
  subst he
  exact ⟨⟨trivial, trivial, ⟨_, _, rfl, by decide⟩, by decide⟩, ⟨trivial, trivial, ⟨_, _, rfl, by decide⟩, by decide⟩,
    trivial, trivial, ⟨_, _, rfl, by decide⟩, by decide⟩

theorem full_diffusion : ∀ e ∈ diffusion, FullDerivatives ["x".toList] e.rhs := by
  intro e he
  rw [show diffusion = [_] from rfl, List.mem_singleton] at he
  subst he
  exact ⟨trivial, ⟨_, _, rfl, by decide⟩, by decide⟩

/-- **C96** for the equations burgers, Kuramoto-Sivashinsky and diffusion of sympkf, with scalar coefficients: a state that is odd
around a point of the grid, or around the middle of two points, stays odd, with every scheme. -/
theorem C96_one_dimension (iter : List Sy → List Sy) (hi : ∀ l, (iter l).Perm l) (eqs : List Equation)
    (heqs : eqs ∈ [burgers, kuramoto, diffusion]) (n : ℕ) (dx κ η : ℝ) (hdx : dx ≠ 0) (z : ℤ) :
    ∃ s, System.build iter eqs = .ok s ∧ ∃ F : ℝ → (Fin s.prognostic.length → Arr 1 ℝ) → Fin s.prognostic.length → Arr 1 ℝ,
      Implements s (fdArith ["x".toList] (line n) (fun _ => dx)) (fun _ => scalars κ η) F ∧
      ∀ (sch : Integrator.Scheme) (window : List ℝ) (saved : Integrator.SavedTimes ℝ) (x fc),
        (∀ U ∈ arrays x, ∀ k, ∀ j < n, U k (line j) = -U k (line ((z - (j : ℤ)) % (n : ℤ)).toNat)) →
        Integrator.forecast (Integrator.step sch (.fn F)) window x saved = .ok fc →
        ∀ τ y, fc.get? τ = some y → ∀ U ∈ arrays y, ∀ k, ∀ j < n, U k (line j) = -U k (line ((z - (j : ℤ)) % (n : ℤ)).toNat) := by
  have key : ∀ eqs : List Equation, (∀ e ∈ eqs, FullDerivatives ["x".toList] e.rhs) →
      (∀ e ∈ eqs, HasParity ["x".toList] (fun _ => -1) (fun _ => 1) e.rhs (-1)) → ∀ s0, System.build id eqs = .ok s0 →
      (eqs.all (fun e => lhsB e.lhs && supportedB s0.coordinates e.rhs) && decide (eqs.map (fun e => e.lhs)).Nodup) = true →
      WellNamed s0 → s0.exogenous = [] → s0.constantFunctions = [] → ∃ s, System.build iter eqs = .ok s ∧
      ∃ F : ℝ → (Fin s.prognostic.length → Arr 1 ℝ) → Fin s.prognostic.length → Arr 1 ℝ,
      Implements s (fdArith ["x".toList] (line n) (fun _ => dx)) (fun _ => scalars κ η) F ∧
      ∀ (sch : Integrator.Scheme) (window : List ℝ) (saved : Integrator.SavedTimes ℝ) (x fc),
        (∀ U ∈ arrays x, ∀ k, ∀ j < n, U k (line j) = -U k (line ((z - (j : ℤ)) % (n : ℤ)).toNat)) →
        Integrator.forecast (Integrator.step sch (.fn F)) window x saved = .ok fc →
        ∀ τ y, fc.get? τ = some y → ∀ U ∈ arrays y, ∀ k, ∀ j < n, U k (line j) = -U k (line ((z - (j : ℤ)) % (n : ℤ)).toNat) := by
    intro eqs hfull hodd s0 g1 g2 g3 g4 g5
    obtain ⟨s, h1, h2, h3, h4, h5, h6, h7⟩ := system_order eqs s0 g1 g2 g3 g4 iter hi
    obtain ⟨F, hF⟩ := C88_vector_field iter hi eqs s h1 h6 h7 (fdArith ["x".toList] (line n) (fun _ => dx)) (fun _ => scalars κ η)
      (.inl h5)
    refine ⟨s, h1, F, hF, fun sch window saved x fc hx hfc τ y hy => ?_⟩
    have hrel : ∀ U V : Fin s.prognostic.length → Arr 1 ℝ,
        (U, V) ∈ reflection (coords := ["x".toList]) (line n) ["x".toList] (fun _ => z) (fun _ : Fin s.prognostic.length => (-1 : ℤˣ)) ↔
        ∀ k, ∀ j < n, V k (line j) = -U k (line ((z - (j : ℤ)) % (n : ℤ)).toNat) := by
      intro U V
      have hm : ∀ idx : Fin 1 → ℕ, mirror (coords := ["x".toList]) (line n) ["x".toList] (fun _ => z) idx =
          line ((z - (idx 0 : ℤ)) % (n : ℤ)).toNat := by
        intro idx
        funext i
        obtain ⟨i, hi'⟩ := i
        have : i = 0 := by have : i < 1 := hi'; omega
        subst this
        rfl
      constructor
      · intro h k j hj
        have : V k (line j) = (((-1 : ℤˣ) : ℤ) : ℝ) * U k (mirror (coords := ["x".toList]) (line n) ["x".toList] (fun _ => z) (line j)) :=
          h k (line j) (fun _ => hj)
        rw [this, hm]
        show (((-1 : ℤˣ) : ℤ) : ℝ) * U k (line ((z - (j : ℤ)) % (n : ℤ)).toNat) = _
        simp
      · intro h k idx hidx
        show V k idx = (((-1 : ℤˣ) : ℤ) : ℝ) * U k (mirror (coords := ["x".toList]) (line n) ["x".toList] (fun _ => z) idx)
        have e : idx = line (idx 0) := by
          funext i
          obtain ⟨i, hi'⟩ := i
          have : i = 0 := by have : i < 1 := hi'; omega
          subst this
          rfl
        have hk := h k (idx 0) (hidx 0)
        rw [← e] at hk
        rw [hm, hk]
        simp
    have hst : ∀ x : Integrator.StateObj (Fin s.prognostic.length → Arr 1 ℝ),
        StateRel (reflection (coords := ["x".toList]) (line n) ["x".toList] (fun _ => z) (fun _ : Fin s.prognostic.length => (-1 : ℤˣ))) x x ↔
        ∀ U ∈ arrays x, ∀ k, ∀ j < n, U k (line j) = -U k (line ((z - (j : ℤ)) % (n : ℤ)).toNat) := by
      intro x
      cases x with
      | single U => simp only [StateRel, arrays, List.mem_singleton, forall_eq]; exact hrel U U
      | pair U V =>
        simp only [StateRel, arrays, List.mem_cons, List.not_mem_nil, or_false, forall_eq_or_imp, forall_eq]
        exact and_congr (hrel U U) (hrel V V)
    refine (hst y).1 (C96_symmetric iter hi eqs s h1 h6 h7 ["x".toList] (by decide) (by decide) hfull (line n) (fun _ => dx) (fun _ => hdx)
      ["x".toList] (fun _ => z) (fun _ => -1) (fun _ => 1) rfl (fun e he f _ => hodd e he) (fun _ => scalars κ η)
      (fun _ => ⟨?_, ?_, .inl h5⟩) F hF sch window saved x ((hst x).2 hx) fc hfc τ y hy)
    · intro f hf
      rw [g5] at h3
      exact absurd (h3.mem_iff.1 hf) List.not_mem_nil
    · intro c _ idx _
      show (scalars κ η).attr _ _ = (((1 : ℤˣ) : ℤ) : ℝ) * (scalars κ η).attr _ _
      simp [scalars]
  simp only [List.mem_cons, List.not_mem_nil, or_false] at heqs
  rcases heqs with rfl | rfl | rfl
  · exact key _ full_burgers odd_burgers _ rfl (by decide +kernel) (by decide +kernel) (by decide +kernel) (by decide +kernel)
  · exact key _ full_kuramoto odd_kuramoto _ rfl (by decide +kernel) (by decide +kernel) (by decide +kernel) (by decide +kernel)
  · exact key _ full_diffusion odd_diffusion _ rfl (by decide +kernel) (by decide +kernel) (by decide +kernel) (by decide +kernel)

/-- The case of C96_symmetric: the Burgers equation on three points from the odd state `(0, 1, -1)`; the value at the first point stays zero. -/
example (iter : List Sy → List Sy) (hi : ∀ l, (iter l).Perm l) (κ : ℝ) (sch : Integrator.Scheme) (window : List ℝ)
    (saved : Integrator.SavedTimes ℝ) :
    ∃ s, System.build iter burgers = .ok s ∧ ∃ F : ℝ → (Fin s.prognostic.length → Arr 1 ℝ) → Fin s.prognostic.length → Arr 1 ℝ,
      Implements s (fdArith ["x".toList] (line 3) (fun _ => 1)) (fun _ => scalars κ 0) F ∧
      ∀ fc, Integrator.forecast (Integrator.step sch (.fn F)) window
          (.single fun _ idx => if idx 0 = 0 then 0 else if idx 0 = 1 then 1 else -1) saved = .ok fc →
        ∀ τ y, fc.get? τ = some y → ∀ U ∈ arrays y, ∀ k, U k (line 0) = 0 := by
  obtain ⟨s, h1, F, hF, h2⟩ := C96_one_dimension iter hi burgers (by simp) 3 1 κ 0 one_ne_zero 0
  refine ⟨s, h1, F, hF, fun fc hfc τ y hy U hU k => ?_⟩
  have := h2 sch window saved _ fc (fun U hU k j hj => ?_) hfc τ y hy U hU k 0 (by norm_num)
  · have e : U k (line 0) = -U k (line 0) := this
    linarith
  · simp only [arrays, List.mem_singleton] at hU
    subst hU
    have : j = 0 ∨ j = 1 ∨ j = 2 := by omega
    rcases this with rfl | rfl | rfl <;> simp [line]

/-- The case of C96_forecast with attributes that change: the advection in two dimensions, reflected along `x`; the velocity along `x`
changes its sign, the tracer does not. -/
example (iter : List Sy → List Sy) (hi : ∀ l, (iter l).Perm l) (n : Fin 2 → ℕ) (u v u' v' : Arr 2 ℝ)
    (hu : Mirrored (coords := ["x".toList, "y".toList]) n ["x".toList] (fun _ => 0) (-1) u u')
    (hv : Mirrored (coords := ["x".toList, "y".toList]) n ["x".toList] (fun _ => 0) 1 v v') (sch : Integrator.Scheme) (window : List ℝ)
    (saved : Integrator.SavedTimes ℝ) :
    ∃ s, System.build iter advection2 = .ok s ∧ ∃ F F' : ℝ → (Fin s.prognostic.length → Arr 2 ℝ) → Fin s.prognostic.length → Arr 2 ℝ,
      Implements s (fdArith ["x".toList, "y".toList] n (fun _ => 1)) (fun _ => ⟨fun name => if name = "u".toList then u else v, none⟩) F ∧
      Implements s (fdArith ["x".toList, "y".toList] n (fun _ => 1)) (fun _ => ⟨fun name => if name = "u".toList then u' else v', none⟩) F' ∧
      ∀ x x', StateRel (reflection (coords := ["x".toList, "y".toList]) n ["x".toList] (fun _ => 0) (fun _ => 1)) x x' →
        ResultRel (DictRel (StateRel (reflection (coords := ["x".toList, "y".toList]) n ["x".toList] (fun _ => 0) (fun _ => 1))))
          (Integrator.forecast (Integrator.step sch (.fn F)) window x saved)
          (Integrator.forecast (Integrator.step sch (.fn F')) window x' saved) := by
  obtain ⟨s, h1, h2, h3, h4, h5, h6, h7⟩ := system_order advection2 _ rfl (by decide +kernel) (by decide +kernel) (by decide +kernel) iter hi
  obtain ⟨F, hF⟩ := C88_vector_field iter hi advection2 s h1 h6 h7 (fdArith ["x".toList, "y".toList] n (fun _ => 1))
    (fun _ => ⟨fun name => if name = "u".toList then u else v, none⟩) (.inl h5)
  obtain ⟨F', hF'⟩ := C88_vector_field iter hi advection2 s h1 h6 h7 (fdArith ["x".toList, "y".toList] n (fun _ => 1))
    (fun _ => ⟨fun name => if name = "u".toList then u' else v', none⟩) (.inl h5)
  refine ⟨s, h1, F, F', hF, hF', fun x x' hx => ?_⟩
  let π : Sy → ℤˣ := fun f => if f = .fn "u".toList ["x".toList, "y".toList] then -1 else 1
  have hπ : (fun k : Fin s.prognostic.length => π s.prognostic[k]) = fun _ => 1 := by
    funext k
    have hk : ∀ f ∈ s.prognostic, π f = 1 := by rw [h2]; decide +kernel
    exact hk _ (List.getElem_mem _)
  have key := C96_forecast iter hi advection2 s h1 h6 h7 ["x".toList, "y".toList] (by decide) (by decide) ?_ n (fun _ => 1)
    (fun _ => one_ne_zero) ["x".toList] (fun _ => 0) π (fun _ => 1) rfl ?_ _ _ (fun _ => ⟨?_, ?_, .inl h5⟩) F F' hF hF' sch window saved x x'
  · rw [hπ] at key
    exact key hx
  · intro e he
    rw [show advection2 = [_] from rfl, List.mem_singleton] at he
    subst he
    exact ⟨⟨trivial, trivial, ⟨_, _, rfl, by decide⟩, by decide⟩, trivial, trivial, ⟨_, _, rfl, by decide⟩, by decide⟩
  · intro e he f hf
    rw [show advection2 = [_] from rfl, List.mem_singleton] at he
    subst he
    have : f = c2 := (Sy.deriv.inj hf).1.symm
    subst this
    exact .add (parity_of (.mul (.num _) (.mul (.fn _ _) (.deriv _ _ _))) (by decide +kernel))
      (parity_of (.mul (.num _) (.mul (.fn _ _) (.deriv _ _ _))) (by decide +kernel))
  · intro f hf
    have hf' : f = .fn "u".toList ["x".toList, "y".toList] ∨ f = .fn "v".toList ["x".toList, "y".toList] := by
      have : f ∈ [Sy.fn "u".toList ["x".toList, "y".toList], .fn "v".toList ["x".toList, "y".toList]] :=
        (h3.trans (List.Perm.of_eq (by decide +kernel))).mem_iff.1 hf
      simpa using this
    rcases hf' with rfl | rfl
    · exact hu
    · exact hv
  · intro c hcc
    have : Sy.sym .plain c ∈ ([] : List Sy) := (h4.trans (List.Perm.of_eq (by decide +kernel))).mem_iff.1 hcc
    exact absurd this List.not_mem_nil

end Sympkf.Dynamics
