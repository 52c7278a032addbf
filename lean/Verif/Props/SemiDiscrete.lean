import Mathlib.Analysis.ODE.ExistUnique
import Mathlib.Analysis.SpecialFunctions.Pow.Deriv
import Mathlib.Analysis.Calculus.ContDiff.Operations
import Mathlib.Analysis.Calculus.Deriv.Pi
import Mathlib.Analysis.Calculus.Deriv.Prod
import Verif.Spec.SemiDiscrete
import Verif.Spec.FullyDiscrete
import Verif.Props.Translate
import Verif.Props.Convergence

/-!
# C95: on a fixed grid, the forecasts of the generated classes converge in time with the order of the scheme
-/

set_option autoImplicit false

namespace Sympkf.Props

open Text PDE Spec.PDE FinDiff Spec Topology

/-! ## The states on the grid -/

/-- The values of a state at the points of the grid. -/
abbrev GridState (N : ℕ) {d : ℕ} (n : Fin d → ℕ) : Type := Fin N → (∀ i, Fin (n i)) → ℝ

section

variable {N d : ℕ} (n : Fin d → ℕ)

/-- Restriction of the arrays to the grid. -/
def restrict : (Fin N → Arr d ℝ) →ₗ[ℝ] GridState N n where
  toFun U := fun k idx => U k (fun i => idx i)
  map_add' _ _ := rfl
  map_smul' _ _ := rfl

open Classical in
/-- Extension by zero. -/
noncomputable def extend (u : GridState N n) : Fin N → Arr d ℝ :=
  fun k idx => if h : ∀ i, idx i < n i then u k (fun i => ⟨idx i, h i⟩) else 0

theorem extend_apply (u : GridState N n) (k : Fin N) (idx : Fin d → ℕ) (h : ∀ i, idx i < n i) :
    extend n u k idx = u k (fun i => ⟨idx i, h i⟩) := dif_pos h

theorem restrict_extend (u : GridState N n) : restrict n (extend n u) = u := by
  funext k idx
  exact extend_apply n u k _ (fun i => (idx i).2)

theorem extend_restrict (U : Fin N → Arr d ℝ) (k : Fin N) (idx : Fin d → ℕ) (h : ∀ i, idx i < n i) :
    extend n (restrict n U) k idx = U k idx := extend_apply n _ k idx h

theorem norm_restrict (e : ℝ) (he : 0 ≤ e) (U V : Fin N → Arr d ℝ) : ‖restrict n U - restrict n V‖ ≤ e ↔ Within n e U V := by
  rw [pi_norm_le_iff_of_nonneg he]
  constructor
  · intro h k idx hidx
    have := (pi_norm_le_iff_of_nonneg he).1 (h k) (fun i => ⟨idx i, hidx i⟩)
    rwa [Real.norm_eq_abs] at this
  · intro h k
    rw [pi_norm_le_iff_of_nonneg he]
    intro idx
    rw [Real.norm_eq_abs]
    exact h k _ (fun i => (idx i).2)

end

/-! ## Smoothness of the right-hand sides -/

section

variable {X : Type} [NormedAddCommGroup X] [NormedSpace ℝ X] {m : WithTop ℕ∞} {x0 : X}

theorem gridMixed_contDiffAt {d : ℕ} (n : Fin d → ℕ) (h : Fin d → ℝ) (hh : ∀ i, h i ≠ 0) (L : List (Fin d × ℕ)) (a : X → Arr d ℝ)
    (ha : ∀ idx, (∀ i, idx i < n i) → ContDiffAt ℝ m (fun x => a x idx) x0) (idx : Fin d → ℕ) (hidx : ∀ i, idx i < n i) :
    ContDiffAt ℝ m (fun x => gridMixed n h L (a x) idx) x0 := by
  induction L generalizing a with
  | nil => exact ha idx hidx
  | cons p L ih =>
    obtain ⟨i, o⟩ := p
    refine ih (fun x => gridDeriv n h i o (a x)) (fun idx hidx => ?_)
    simp only [gridDeriv_eq_sum n h i o (hh i)]
    exact ContDiffAt.sum (fun ν _ => contDiffAt_const.mul (ha _ ((mem_box n _).1 (sh_mem n i _ idx ((mem_box n idx).2 hidx)))))

variable {coords : List Str} (hc : coords.Nodup) (ht : time ∉ coords) (n : Fin coords.length → ℕ)
  (h : Fin coords.length → ℝ) (hh : ∀ i, h i ≠ 0)
include hc ht hh

theorem rhsValue_contDiffAt (ρ : X → Valuation (Arr coords.length ℝ))
    (hf : ∀ f idx, (∀ i, idx i < n i) → ContDiffAt ℝ m (fun x => (ρ x).fn f idx) x0)
    (hs : ∀ c idx, (∀ i, idx i < n i) → ContDiffAt ℝ m (fun x => (ρ x).sym c idx) x0) (e : Sy) (he : FullDerivatives coords e)
    (hp : PowersDefined (fdArith coords n h) n (ρ x0) e) (idx : Fin coords.length → ℕ) (hidx : ∀ i, idx i < n i) :
    ContDiffAt ℝ m (fun x => rhsValue (fdArith coords n h) (ρ x) e idx) x0 := by
  induction e generalizing idx with
  | num q => exact contDiffAt_const
  | sym k c => exact hs c idx hidx
  | fn u args => exact hf _ idx hidx
  | func g a => exact hf _ idx hidx
  | add a b iha ihb => exact (iha he.1 hp.1 idx hidx).add (ihb he.2 hp.2 idx hidx)
  | mul a b iha ihb => exact (iha he.1 hp.1 idx hidx).mul (ihb he.2 hp.2 idx hidx)
  | pow a b iha _ =>
    obtain ⟨hpa, q, rfl, hq⟩ := hp
    have ha := iha he.1 hpa idx hidx
    show ContDiffAt ℝ m (fun x => rhsValue (fdArith coords n h) (ρ x) a idx ^ ((q : ℚ) : ℝ)) x0
    have key : rhsValue (fdArith coords n h) (ρ x0) a idx ≠ 0 →
        ContDiffAt ℝ m (fun x => rhsValue (fdArith coords n h) (ρ x) a idx ^ ((q : ℚ) : ℝ)) x0 := fun hne =>
      ContDiffAt.comp (g := fun v : ℝ => v ^ ((q : ℚ) : ℝ)) x0 (Real.contDiffAt_rpow_const_of_ne hne) ha
    rcases hq with ⟨k, rfl⟩ | ⟨-, hq⟩ | hq
    · simp only [Rat.cast_natCast, Real.rpow_natCast]
      exact ha.pow k
    · exact key (hq idx hidx)
    · exact key (hq idx hidx).ne'
  | deriv a vars ih =>
    obtain ⟨⟨u, args, rfl, -⟩, hv⟩ := he
    show ContDiffAt ℝ m (fun x => fdDiff coords n h vars ((ρ x).fn _) idx) x0
    simp only [fdDiff_grid hc ht n h hh vars hv _ _ hidx]
    exact gridMixed_contDiffAt n h hh _ _ (hf _) idx hidx

/-- The powers remain defined near a point. -/
theorem powersDefined_eventually (ρ : X → Valuation (Arr coords.length ℝ))
    (hf : ∀ f idx, (∀ i, idx i < n i) → ContDiffAt ℝ 0 (fun x => (ρ x).fn f idx) x0)
    (hs : ∀ c idx, (∀ i, idx i < n i) → ContDiffAt ℝ 0 (fun x => (ρ x).sym c idx) x0) (e : Sy) (he : FullDerivatives coords e)
    (hp : PowersDefined (fdArith coords n h) n (ρ x0) e) : ∀ᶠ x in 𝓝 x0, PowersDefined (fdArith coords n h) n (ρ x) e := by
  induction e with
  | num q => exact .of_forall fun _ => trivial
  | sym k c => exact .of_forall fun _ => trivial
  | fn u args => exact .of_forall fun _ => trivial
  | func g a => exact .of_forall fun _ => trivial
  | deriv a vars => exact .of_forall fun _ => trivial
  | add a b iha ihb => exact (iha he.1 hp.1).and (ihb he.2 hp.2)
  | mul a b iha ihb => exact (iha he.1 hp.1).and (ihb he.2 hp.2)
  | pow a b iha _ =>
    obtain ⟨hpa, q, rfl, hq⟩ := hp
    have hcont : ∀ idx, (∀ i, idx i < n i) → ContinuousAt (fun x => rhsValue (fdArith coords n h) (ρ x) a idx) x0 :=
      fun idx hidx => (rhsValue_contDiffAt hc ht n h hh ρ hf hs a he.1 hpa idx hidx).continuousAt
    have hall : ∀ P : ℝ → Prop, (∀ idx, (∀ i, idx i < n i) → ∀ᶠ x in 𝓝 x0, P (rhsValue (fdArith coords n h) (ρ x) a idx)) →
        ∀ᶠ x in 𝓝 x0, ∀ idx, (∀ i, idx i < n i) → P (rhsValue (fdArith coords n h) (ρ x) a idx) := by
      intro P hP
      have := (Filter.eventually_all_finset (l := 𝓝 x0) (box n)
        (p := fun idx x => P (rhsValue (fdArith coords n h) (ρ x) a idx))).2 (fun idx hidx => hP idx ((mem_box n idx).1 hidx))
      filter_upwards [this] with x hx idx hidx
      exact hx idx ((mem_box n idx).2 hidx)
    rcases hq with hk | ⟨hk, hq⟩ | hq
    · filter_upwards [iha he.1 hpa] with x hx
      exact ⟨hx, q, rfl, .inl hk⟩
    · filter_upwards [iha he.1 hpa, hall (· ≠ 0) (fun idx hidx => (hcont idx hidx).eventually_ne (hq idx hidx))] with x hx hx'
      exact ⟨hx, q, rfl, .inr (.inl ⟨hk, hx'⟩)⟩
    · filter_upwards [iha he.1 hpa, hall (0 < ·) (fun idx hidx => (hcont idx hidx).eventually_const_lt (hq idx hidx))] with x hx hx'
      exact ⟨hx, q, rfl, .inr (.inr hx')⟩

end

/-! ## The vector field on the grid -/

section

variable (iter : List Sy → List Sy) (eqs : List Equation) (s : System)

/-- The vector field is the value of the right-hand sides. -/
theorem field_reading {d : ℕ} (A : Arith (Arr d ℝ)) (n : Fin d → ℕ)
    (O : ℝ → Obj (Arr d ℝ)) (hO : SmoothInTime s n O)
    (F : ℝ → (Fin s.prognostic.length → Arr d ℝ) → Fin s.prognostic.length → Arr d ℝ)
    (hF : Implements s A O F) (t : ℝ) (U : Fin s.prognostic.length → Arr d ℝ) (k : Fin s.prognostic.length)
    (hi : ∀ l, (iter l).Perm l) (h : System.build iter eqs = .ok s) (he : Evolution s.coordinates eqs) (hn : WellNamed s) :
    F t U k = rhsValue A (reading s (O t) t U)
      (eqs[(k : ℕ)]'(by rw [prognostic_length iter hi eqs s h he]; exact k.2)).rhs := by
  classical
  have hnd := functions_nodup s hn
  have nd1 : s.prognostic.Nodup := (List.nodup_append.1 (List.nodup_append.1 hnd).1).1
  have nd3 : s.exogenous.Nodup := (List.nodup_append.1 hnd).2.1
  have c1 : s.prognostic.map (reading s (O t) t U).fn = List.ofFn U := by
    refine List.ext_getElem (by simp) (fun i h1 h2 => ?_)
    rw [List.getElem_map, List.getElem_ofFn]
    have hm : s.prognostic[i]'(by simpa using h1) ∈ s.prognostic := List.getElem_mem _
    simp only [reading, dif_pos hm, nd1.idxOf_getElem]
  have c2 : s.constantFunctions.map (reading s (O t) t U).fn = s.constantFunctions.map (fun f => (O t).attr f.keyvar) := by
    refine List.map_congr_left (fun f hf => ?_)
    have hm : f ∉ s.prognostic := fun hp => (List.nodup_append.1 (List.nodup_append.1 hnd).1).2.2 f hp f hf rfl
    simp only [reading, dif_neg hm, if_pos hf]
  have c4 : s.exogenous = [] ∨ (O t).exogenous = some (s.exogenous.map (reading s (O t) t U).fn) := by
    rcases hO.exogenous with hx | ⟨ψ, hψ, -⟩
    · exact .inl hx
    · refine .inr ?_
      rw [hψ t]
      congr 1
      refine List.ext_getElem (by simp) (fun i h1 h2 => ?_)
      rw [List.getElem_map, List.getElem_ofFn]
      have hm : s.exogenous[i]'(by simpa using h1) ∈ s.exogenous := List.getElem_mem _
      have m1 : s.exogenous[i]'(by simpa using h1) ∉ s.prognostic := fun hp =>
        (List.nodup_append.1 hnd).2.2 _ (List.mem_append_left _ hp) _ hm rfl
      have m2 : s.exogenous[i]'(by simpa using h1) ∉ s.constantFunctions := fun hp =>
        (List.nodup_append.1 hnd).2.2 _ (List.mem_append_right _ hp) _ hm rfl
      have hlt : i < s.exogenous.length := by simpa using h1
      simp only [reading, dif_neg m1, if_neg m2, if_pos hm, nd3.idxOf_getElem, hψ t, Option.getD_some, List.getElem?_ofFn, hlt, dite_true]
  exact field_value iter hi eqs s h he hn A O F hF t _ U _ c1 c2 rfl c4 k

theorem reading_contDiffAt {d : ℕ} (n : Fin d → ℕ) (O : ℝ → Obj (Arr d ℝ)) (hO : SmoothInTime s n O) (m : ℕ)
    (q0 : ℝ × GridState s.prognostic.length n) :
    (∀ f idx, (∀ i, idx i < n i) → ContDiffAt ℝ m (fun q : ℝ × GridState s.prognostic.length n =>
      (reading s (O q.1) q.1 (extend n q.2)).fn f idx) q0) ∧
    ∀ c idx, (∀ i, idx i < n i) → ContDiffAt ℝ m (fun q : ℝ × GridState s.prognostic.length n =>
      (reading s (O q.1) q.1 (extend n q.2)).sym c idx) q0 := by
  classical
  have time : ∀ g : ℝ → ℝ, ContDiff ℝ (⊤ : ℕ∞) g → ContDiffAt ℝ m (fun q : ℝ × GridState s.prognostic.length n => g q.1) q0 := by
    intro g hg
    exact (ContDiff.comp (g := g) (hg.of_le (by exact_mod_cast le_top)) contDiff_fst).contDiffAt
  constructor
  · intro f idx hidx
    unfold reading
    by_cases h1 : f ∈ s.prognostic
    · simp only [dif_pos h1, extend_apply n _ _ idx hidx]
      have := ((contDiff_apply_apply ℝ ℝ (n := (m : WithTop ℕ∞)) (⟨s.prognostic.idxOf f, List.idxOf_lt_length_of_mem h1⟩ : Fin s.prognostic.length)
        (fun i => (⟨idx i, hidx i⟩ : Fin (n i)))).comp (contDiff_snd (E := ℝ))).contDiffAt (x := q0)
      exact this
    · simp only [dif_neg h1]
      by_cases h2 : f ∈ s.constantFunctions
      · simp only [if_pos h2]
        exact time _ (hO.functions f h2 idx hidx)
      · simp only [if_neg h2]
        by_cases h3 : f ∈ s.exogenous
        · simp only [if_pos h3]
          rcases hO.exogenous with hx | ⟨ψ, hψ, hψ'⟩
          · simp [hx] at h3
          · have h4 : s.exogenous.idxOf f < s.exogenous.length := List.idxOf_lt_length_of_mem h3
            simp only [hψ, Option.getD_some, List.getElem?_ofFn, dif_pos h4]
            exact time _ (hψ' _ idx hidx)
        · simp only [if_neg h3]
          exact contDiffAt_const
  · intro c idx hidx
    unfold reading
    by_cases h1 : c = "t".toList
    · simp only [if_pos h1]
      exact time id contDiff_id
    · simp only [if_neg h1]
      by_cases h2 : Sy.sym .plain c ∈ s.constants
      · simp only [if_pos h2]
        exact time _ (hO.constants c h2 idx hidx)
      · simp only [if_neg h2]
        exact contDiffAt_const

/-- The vector field on the values at the points of the grid. -/
noncomputable def gridField {N d : ℕ} (n : Fin d → ℕ) (F : ℝ → (Fin N → Arr d ℝ) → Fin N → Arr d ℝ) (t : ℝ) (u : GridState N n) :
    GridState N n := restrict n (F t (extend n u))

theorem translate_zero {d : ℕ} (n : Fin d → ℕ) (idx : Fin d → ℕ) (hidx : ∀ i, idx i < n i) : translate n (fun _ => 0) idx = idx := by
  funext i
  exact gridIndex_zero _ _ (hidx i)

variable (hi : ∀ l, (iter l).Perm l) (h : System.build iter eqs = .ok s) (he : Evolution s.coordinates eqs) (hn : WellNamed s)
  (coords : List Str) (hc : coords.Nodup) (ht : "t".toList ∉ coords) (hd : ∀ e ∈ eqs, FullDerivatives coords e.rhs)
  (n : Fin coords.length → ℕ) (dx : Fin coords.length → ℝ) (hdx : ∀ i, dx i ≠ 0)
  (O : ℝ → Obj (Arr coords.length ℝ)) (hO : SmoothInTime s n O)
  (F : ℝ → (Fin s.prognostic.length → Arr coords.length ℝ) → Fin s.prognostic.length → Arr coords.length ℝ)
  (hF : Implements s (fdArith coords n dx) O F)
include hi h he hn hc ht hd hdx hO hF

/-- The trend at the points of the grid depends on the values at the points of the grid only. -/
theorem gridField_restrict (t : ℝ) (U : Fin s.prognostic.length → Arr coords.length ℝ) :
    gridField n F t (restrict n U) = restrict n (F t U) := by
  have hself : ∀ a : Arr coords.length ℝ, Translated n (fun _ => 0) a a := fun a idx hidx => by rw [translate_zero n idx hidx]
  have := C91_trend iter hi eqs s h he hn coords hc ht hd n dx hdx (fun _ => 0) O O
    (fun t => ⟨fun _ _ => hself _, fun _ _ => hself _, by
      rcases hO.exogenous with hx | ⟨ψ, hψ, -⟩
      · exact .inl hx
      · refine .inr ⟨_, _, hψ t, hψ t, by simp, ?_⟩
        rw [List.forall₂_same]
        exact fun a _ => hself a⟩) F F hF hF t U (extend n (restrict n U)) (fun k idx hidx => by
      show extend n (restrict n U) k idx = U k _
      rw [translate_zero n idx hidx, extend_restrict n U k idx hidx])
  funext k idx
  have h1 := this k (fun i => idx i) (fun i => (idx i).2)
  rw [translate_zero n _ (fun i => (idx i).2)] at h1
  exact h1

theorem gridField_contDiffAt (m : ℕ) (t : ℝ) (U : Fin s.prognostic.length → Arr coords.length ℝ)
    (hp : ∀ e ∈ eqs, PowersDefined (fdArith coords n dx) n (reading s (O t) t (extend n (restrict n U))) e.rhs) :
    ContDiffAt ℝ m (Integrator.joint (gridField n F)) (t, restrict n U) := by
  obtain ⟨r1, r2⟩ := reading_contDiffAt s n O hO m (t, restrict n U)
  refine contDiffAt_pi.2 (fun k => contDiffAt_pi.2 (fun idx => ?_))
  show ContDiffAt ℝ m (fun q : ℝ × GridState s.prognostic.length n => F q.1 (extend n q.2) k (fun i => idx i)) (t, restrict n U)
  simp only [fun (t : ℝ) U => field_reading iter eqs s (fdArith coords n dx) n O hO F hF t U k hi h he hn]
  exact rhsValue_contDiffAt hc ht n dx hdx _ r1 r2 _ (hd _ (List.getElem_mem _)) (hp _ (List.getElem_mem _)) _ (fun i => (idx i).2)

end

/-- Extending the restriction does not change the definition of the powers. -/
theorem powersDefined_extend (s : System) {coords : List Str} (hc : coords.Nodup) (ht : time ∉ coords) (n : Fin coords.length → ℕ)
    (h : Fin coords.length → ℝ) (hh : ∀ i, h i ≠ 0) (O : Obj (Arr coords.length ℝ)) (t : ℝ)
    (U : Fin s.prognostic.length → Arr coords.length ℝ) (e : Sy) (he : FullDerivatives coords e) :
    PowersDefined (fdArith coords n h) n (reading s O t (extend n (restrict n U))) e ↔
      PowersDefined (fdArith coords n h) n (reading s O t U) e := by
  classical
  have hval : ∀ a, FullDerivatives coords a → ∀ idx, (∀ i, idx i < n i) →
      rhsValue (fdArith coords n h) (reading s O t (extend n (restrict n U))) a idx =
        rhsValue (fdArith coords n h) (reading s O t U) a idx := by
    intro a ha idx hidx
    have := rhsValue_translate hc ht n (fun _ => 0) h hh (reading s O t U) (reading s O t (extend n (restrict n U))) (fun f idx hidx => by
      rw [translate_zero n idx hidx]
      unfold reading
      by_cases h1 : f ∈ s.prognostic
      · simp only [dif_pos h1, extend_restrict n U _ idx hidx]
      · simp only [dif_neg h1]) (fun c idx hidx => by rw [translate_zero n idx hidx]; rfl) a ha idx hidx
    rwa [translate_zero n idx hidx] at this
  induction e with
  | num q => exact Iff.rfl
  | sym k c => exact Iff.rfl
  | fn u args => exact Iff.rfl
  | func g a => exact Iff.rfl
  | deriv a vars => exact Iff.rfl
  | add a b iha ihb => exact and_congr (iha he.1) (ihb he.2)
  | mul a b iha ihb => exact and_congr (iha he.1) (ihb he.2)
  | pow a b iha _ =>
    refine and_congr (iha he.1) (exists_congr fun q => and_congr_right fun _ => or_congr_right (or_congr (and_congr_right fun _ => ?_) ?_))
    · exact forall_congr' fun idx => forall_congr' fun hidx => by rw [hval a he.1 idx hidx]
    · exact forall_congr' fun idx => forall_congr' fun hidx => by rw [hval a he.1 idx hidx]

/-! ## The theorems -/

theorem solves_restrict {N d : ℕ} (n : Fin d → ℕ) (F : ℝ → (Fin N → Arr d ℝ) → Fin N → Arr d ℝ)
    (hF : ∀ t U, gridField n F t (restrict n U) = restrict n (F t U)) (y : ℝ → Fin N → Arr d ℝ) (t : ℝ)
    (hy : ∀ᶠ τ in 𝓝 t, SolvesOnGrid n F y τ) : Integrator.SolvesNear (gridField n F) (fun τ => restrict n (y τ)) t := by
  filter_upwards [hy] with τ hτ
  rw [hF]
  refine hasDerivAt_pi.2 (fun k => hasDerivAt_pi.2 (fun idx => ?_))
  exact hτ k _ (fun i => (idx i).2)

theorem get?_mapped {S S' : Type} (g : S → S') (fc : Dict ℝ S) (τ : ℝ) :
    Dict.get? (fc.map (fun p => (p.1, g p.2))) τ = (fc.get? τ).map g := by
  induction fc with
  | nil => rfl
  | cons p d ih =>
    rw [List.map_cons, Dict.get?_cons, Dict.get?_cons]
    split
    · rfl
    · exact ih

section

variable (iter : List Sy → List Sy) (hi : ∀ l, (iter l).Perm l) (eqs : List Equation) (s : System)
  (h : System.build iter eqs = .ok s) (he : Evolution s.coordinates eqs) (hn : WellNamed s)
  (coords : List Str) (hc : coords.Nodup) (ht : "t".toList ∉ coords) (hd : ∀ e ∈ eqs, FullDerivatives coords e.rhs)
  (n : Fin coords.length → ℕ) (dx : Fin coords.length → ℝ) (hdx : ∀ i, dx i ≠ 0)
  (O : ℝ → Obj (Arr coords.length ℝ)) (hO : SmoothInTime s n O)
  (F : ℝ → (Fin s.prognostic.length → Arr coords.length ℝ) → Fin s.prognostic.length → Arr coords.length ℝ)
  (hF : Implements s (fdArith coords n dx) O F)
include hi h he hn hc ht hd hdx hO hF

/-- **C95** The trend at the points of the grid depends on the values of the state at the points of the grid only. -/
theorem C95_grid_only (t : ℝ) (U V : Fin s.prognostic.length → Arr coords.length ℝ)
    (hUV : ∀ k idx, (∀ i, idx i < n i) → U k idx = V k idx) (k : Fin s.prognostic.length) (idx : Fin coords.length → ℕ)
    (hidx : ∀ i, idx i < n i) : F t U k idx = F t V k idx := by
  have hP := gridField_restrict iter eqs s hi h he hn coords hc ht hd n dx hdx O hO F hF t
  have e : restrict n U = restrict n V := by
    funext k idx
    exact hUV k _ (fun i => (idx i).2)
  have := (hP U).symm.trans ((congrArg _ e).trans (hP V))
  exact congrFun (congrFun this k) (fun i => ⟨idx i, hidx i⟩)

/-- **C95** Convergence in time on a fixed grid.  Let `y` solve, on the grid and around `[a, b]`, the differential system whose
right-hand side is the generated trend, with all the powers defined along `y`.  Then the forecasts with the schemes euler, rk2 and rk4
(`p = 1, 2, 4`) differ from `y`, at every saved time and every point of the grid, by at most `C (η^p + initial error)`, for all windows
of `[a, b]` with steps at most `η`. -/
theorem C95_forecast (sch : Integrator.Scheme) (p : ℕ) (hs : Integrator.Nominal sch p) (a b : ℝ) (hab : a ≤ b)
    (y : ℝ → Fin s.prognostic.length → Arr coords.length ℝ)
    (hy : ∀ t ∈ Set.Icc a b, ∀ᶠ τ in 𝓝 t, SolvesOnGrid n F y τ)
    (hp : ∀ t ∈ Set.Icc a b, ∀ e ∈ eqs, PowersDefined (fdArith coords n dx) n (reading s (O t) t (y t)) e.rhs) :
    ∃ C δ : ℝ, 0 < δ ∧ ∀ η, 0 ≤ η → η ≤ δ → ∀ window, Partition a b η window → ∀ e0, 0 ≤ e0 → e0 ≤ δ → ∀ U0, Within n e0 U0 (y a) →
      ∀ saved, ∃ fc, Integrator.forecast (Integrator.step sch (.fn F)) window (.single U0) (.list saved) = .ok fc ∧
        ∀ τ ∈ window, τ ∈ saved → ∃ U, fc.get? τ = some (.single U) ∧ Within n (C * (η ^ p + e0)) U (y τ) := by
  have hP := gridField_restrict iter eqs s hi h he hn coords hc ht hd n dx hdx O hO F hF
  obtain ⟨C, δ, hδ, H⟩ := Integrator.C86_forecast_converges hs (gridField n F) (fun τ => restrict n (y τ)) hab
    (fun t htt => solves_restrict n F hP y t (hy t htt))
    (fun t htt => gridField_contDiffAt iter eqs s hi h he hn coords hc ht hd n dx hdx O hO F hF (p + 1) t (y t)
      (fun e hee => (powersDefined_extend s hc ht n dx hdx (O t) t (y t) e.rhs (hd e hee)).2 (hp t htt e hee)))
  refine ⟨max C 0, δ, hδ, fun η h0 h1 window hw e0 he0 he1 U0 hU saved => ?_⟩
  have hU' := (norm_restrict n e0 he0 U0 (y a)).2 hU
  obtain ⟨fc', hfc', hval⟩ := H η h0 h1 window hw (restrict n U0) (hU'.trans he1) saved
  have hmap := Integrator.C90_linear_map sch (restrict n) F (gridField n F) hP window (.list saved) (.single U0)
  rw [show mapState (restrict n) (.single U0) = .single (restrict n U0) from rfl, hfc'] at hmap
  cases hfc : Integrator.forecast (Integrator.step sch (.fn F)) window (.single U0) (.list saved) with
  | error e => rw [hfc] at hmap; exact absurd hmap (by simp [Except.map])
  | ok fc =>
    rw [hfc] at hmap
    injection hmap with hmap
    refine ⟨fc, rfl, fun τ h2 h3 => ?_⟩
    obtain ⟨x, hx, hx'⟩ := hval τ h2 h3
    rw [hmap, get?_mapped] at hx
    obtain ⟨st, hst, hstx⟩ := Option.map_eq_some_iff.1 hx
    cases st with
    | pair u v => simp [mapState] at hstx
    | single U =>
      simp only [mapState, Integrator.StateObj.single.injEq] at hstx
      refine ⟨U, hst, (norm_restrict n _ (by positivity) U (y τ)).1 ?_⟩
      rw [hstx]
      refine hx'.trans ?_
      gcongr
      · exact le_max_left _ _

/-- **C95** for leapfrog, on windows of constant step, with the order two: both arrays of the state converge, the first one is a step
behind. -/
theorem C95_leapfrog (a b : ℝ) (hab : a ≤ b) (y : ℝ → Fin s.prognostic.length → Arr coords.length ℝ)
    (hy : ∀ t ∈ Set.Icc a b, ∀ᶠ τ in 𝓝 t, SolvesOnGrid n F y τ)
    (hp : ∀ t ∈ Set.Icc a b, ∀ e ∈ eqs, PowersDefined (fdArith coords n dx) n (reading s (O t) t (y t)) e.rhs) :
    ∃ C δ : ℝ, 0 < δ ∧ ∀ dt, 0 ≤ dt → dt ≤ δ → ∀ window, Uniform a b dt window → ∀ e0, 0 ≤ e0 → e0 ≤ δ → ∀ V0 U0,
      Within n e0 V0 (y (a - dt)) → Within n e0 U0 (y a) →
      ∀ saved, ∃ fc, Integrator.forecast (Integrator.step .leapfrog (.fn F)) window (.pair V0 U0) (.list saved) = .ok fc ∧
        ∀ τ ∈ window, τ ∈ saved → ∃ V U, fc.get? τ = some (.pair V U) ∧ Within n (C * (dt ^ 2 + e0)) V (y (τ - dt)) ∧
          Within n (C * (dt ^ 2 + e0)) U (y τ) := by
  have hP := gridField_restrict iter eqs s hi h he hn coords hc ht hd n dx hdx O hO F hF
  obtain ⟨C, δ, hδ, H⟩ := Integrator.C86_leapfrog_converges (gridField n F) (fun τ => restrict n (y τ)) hab
    (fun t htt => solves_restrict n F hP y t (hy t htt))
    (fun t htt => gridField_contDiffAt iter eqs s hi h he hn coords hc ht hd n dx hdx O hO F hF 3 t (y t)
      (fun e hee => (powersDefined_extend s hc ht n dx hdx (O t) t (y t) e.rhs (hd e hee)).2 (hp t htt e hee)))
  refine ⟨max C 0, δ, hδ, fun dt h0 h1 window hw e0 he0 he1 V0 U0 hV hU saved => ?_⟩
  have hU' := (norm_restrict n e0 he0 U0 (y a)).2 hU
  have hV' := (norm_restrict n e0 he0 V0 (y (a - dt))).2 hV
  obtain ⟨fc', hfc', hval⟩ := H dt h0 h1 window hw (restrict n V0) (restrict n U0) (hV'.trans he1) (hU'.trans he1) saved
  have hmap := Integrator.C90_linear_map .leapfrog (restrict n) F (gridField n F) hP window (.list saved) (.pair V0 U0)
  rw [show mapState (restrict n) (.pair V0 U0) = .pair (restrict n V0) (restrict n U0) from rfl, hfc'] at hmap
  have hle : C * (dt ^ 2 + max ‖restrict n V0 - restrict n (y (a - dt))‖ ‖restrict n U0 - restrict n (y a)‖) ≤
      max C 0 * (dt ^ 2 + e0) := by
    gcongr
    · exact le_max_left _ _
    · exact max_le hV' hU'
  cases hfc : Integrator.forecast (Integrator.step .leapfrog (.fn F)) window (.pair V0 U0) (.list saved) with
  | error e => rw [hfc] at hmap; exact absurd hmap (by simp [Except.map])
  | ok fc =>
    rw [hfc] at hmap
    injection hmap with hmap
    refine ⟨fc, rfl, fun τ h2 h3 => ?_⟩
    obtain ⟨v', u', hx, hv, hu⟩ := hval τ h2 h3
    rw [hmap, get?_mapped] at hx
    obtain ⟨st, hst, hstx⟩ := Option.map_eq_some_iff.1 hx
    cases st with
    | single u => simp [mapState] at hstx
    | pair V U =>
      simp only [mapState, Integrator.StateObj.pair.injEq] at hstx
      refine ⟨V, U, hst, (norm_restrict n _ (by positivity) V (y (τ - dt))).1 ?_, (norm_restrict n _ (by positivity) U (y τ)).1 ?_⟩
      · rw [hstx.1]; exact hv.trans hle
      · rw [hstx.2]; exact hu.trans hle

/-- **C95** Without any assumption on solutions: from every state in which the powers are defined the differential system has a solution
for some time, along which the powers stay defined (so that the forecasts converge to it, by `C95_forecast` and `C95_leapfrog`). -/
theorem C95_solution (a : ℝ) (U0 : Fin s.prognostic.length → Arr coords.length ℝ)
    (hp : ∀ e ∈ eqs, PowersDefined (fdArith coords n dx) n (reading s (O a) a U0) e.rhs) :
    ∃ b > a, ∃ y : ℝ → Fin s.prognostic.length → Arr coords.length ℝ, Within n 0 (y a) U0 ∧
      (∀ t ∈ Set.Icc a b, ∀ᶠ τ in 𝓝 t, SolvesOnGrid n F y τ) ∧
      ∀ t ∈ Set.Icc a b, ∀ e ∈ eqs, PowersDefined (fdArith coords n dx) n (reading s (O t) t (y t)) e.rhs := by
  have hP := gridField_restrict iter eqs s hi h he hn coords hc ht hd n dx hdx O hO F hF
  have hp' : ∀ e ∈ eqs, PowersDefined (fdArith coords n dx) n (reading s (O a) a (extend n (restrict n U0))) e.rhs :=
    fun e hee => (powersDefined_extend s hc ht n dx hdx (O a) a U0 e.rhs (hd e hee)).2 (hp e hee)
  have hsm := gridField_contDiffAt iter eqs s hi h he hn coords hc ht hd n dx hdx O hO F hF 1 a U0 hp'
  have haut : ContDiffAt ℝ 1 (fun q : ℝ × GridState s.prognostic.length n => ((1 : ℝ), Integrator.joint (gridField n F) q))
      (a, restrict n U0) := contDiffAt_const.prodMk (by exact_mod_cast hsm)
  obtain ⟨α, hα0, ε, hε, hα⟩ := haut.exists_forall_mem_closedBall_exists_eq_forall_mem_Ioo_hasDerivAt₀ a
  -- the first component is the time
  have hfst : ∀ z ∈ Set.Ioo (a - ε) (a + ε), HasDerivAt (fun t => (α t).1) 1 z := fun z hz => by
    exact (hasFDerivAt_fst.comp_hasDerivAt z (hα z hz)).congr_deriv rfl
  have htime : ∀ t ∈ Set.Ioo (a - ε) (a + ε), (α t).1 = t := by
    intro t htt
    have hconst : ∀ x ∈ Set.Ioo (a - ε) (a + ε), ∀ y ∈ Set.Ioo (a - ε) (a + ε), (α x).1 - x = (α y).1 - y := by
      intro x hx y hy
      refine (convex_Ioo (a - ε) (a + ε)).is_const_of_fderivWithin_eq_zero (𝕜 := ℝ) (f := fun t => (α t).1 - t) ?_ ?_ hx hy
      · intro z hz
        exact ((hfst z hz).differentiableAt.sub differentiableAt_id).differentiableWithinAt
      · intro z hz
        have h1 : HasDerivAt (fun t => (α t).1 - t) (1 - 1) z := (hfst z hz).sub (hasDerivAt_id z)
        rw [sub_self] at h1
        have h2 := h1.hasFDerivAt.hasFDerivWithinAt (s := Set.Ioo (a - ε) (a + ε))
        rw [h2.fderivWithin (isOpen_Ioo.uniqueDiffWithinAt hz)]
        ext; simp
    have := hconst t htt a ⟨by linarith, by linarith⟩
    rw [hα0] at this
    simpa [sub_eq_zero] using this
  have hsol : ∀ t ∈ Set.Ioo (a - ε) (a + ε), SolvesOnGrid n F (fun τ => extend n (α τ).2) t := by
    intro t htt k idx hidx
    have h1 := (hα t htt).snd
    have h2 := (hasDerivAt_pi.1 (hasDerivAt_pi.1 h1 k)) (fun i => ⟨idx i, hidx i⟩)
    simp only [extend_apply n _ k idx hidx]
    refine h2.congr_deriv ?_
    show F (α t).1 (extend n (α t).2) k _ = _
    rw [htime t htt]
  -- the powers stay defined for some time
  have hcont : ContinuousAt α a := (hα a ⟨by linarith, by linarith⟩).continuousAt
  obtain ⟨r1, r2⟩ := reading_contDiffAt s n O hO 0 (a, restrict n U0)
  have hpow : ∀ᶠ t in 𝓝 a, ∀ e ∈ eqs, PowersDefined (fdArith coords n dx) n (reading s (O (α t).1) (α t).1 (extend n (α t).2)) e.rhs := by
    have : ∀ᶠ q in 𝓝 (a, restrict n U0), ∀ e ∈ eqs,
        PowersDefined (fdArith coords n dx) n (reading s (O q.1) q.1 (extend n q.2)) e.rhs := by
      have hfin : ∀ l : List Equation, (∀ e ∈ l, e ∈ eqs) → ∀ᶠ q in 𝓝 (a, restrict n U0), ∀ e ∈ l,
          PowersDefined (fdArith coords n dx) n (reading s (O q.1) q.1 (extend n q.2)) e.rhs := by
        intro l hl
        induction l with
        | nil => exact .of_forall fun _ _ h => by simp at h
        | cons e l ih =>
          have hmem := hl e List.mem_cons_self
          filter_upwards [ih (fun e' he' => hl e' (List.mem_cons_of_mem _ he')),
            powersDefined_eventually hc ht n dx hdx (fun q : ℝ × GridState s.prognostic.length n => reading s (O q.1) q.1 (extend n q.2))
              (by exact_mod_cast r1) (by exact_mod_cast r2) e.rhs (hd e hmem) (hp' e hmem)] with q h1 h2 e' he'
          rcases List.mem_cons.1 he' with rfl | he'
          · exact h2
          · exact h1 e' he'
      exact hfin eqs (fun _ h => h)
    rw [← hα0] at this
    exact hcont.eventually this
  obtain ⟨ε', hε', hpow⟩ := Metric.eventually_nhds_iff.1 hpow
  have hmin : 0 < min ε ε' := lt_min hε hε'
  have hmem : ∀ t ∈ Set.Icc a (a + min ε ε' / 2), t ∈ Set.Ioo (a - ε) (a + ε) ∧ dist t a < ε' := by
    intro t htt
    have h1 := min_le_left ε ε'
    have h2 := min_le_right ε ε'
    refine ⟨⟨by linarith [htt.1], by linarith [htt.2]⟩, ?_⟩
    rw [Real.dist_eq, abs_of_nonneg (by linarith [htt.1])]
    linarith [htt.2]
  refine ⟨a + min ε ε' / 2, by linarith, fun τ => extend n (α τ).2, ?_, fun t htt => ?_, fun t htt => ?_⟩
  · intro k idx hidx
    show |extend n (α a).2 k idx - U0 k idx| ≤ 0
    rw [hα0, extend_restrict n U0 k idx hidx, sub_self, abs_zero]
  · filter_upwards [isOpen_Ioo.mem_nhds (hmem t htt).1] with τ hτ
    exact hsol τ hτ
  · have := hpow (hmem t htt).2
    rwa [htime t (hmem t htt).1] at this

end

end Sympkf.Props
