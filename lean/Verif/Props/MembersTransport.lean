import Verif.Props.EnergyShallow
import Verif.Props.MembersForecast

/-!
# C110: transport with a constant velocity, from the members to the forecasts with `rk4`
-/

set_option autoImplicit false

namespace Sympkf.Dynamics

open Text PDE Spec.PDE FinDiff Props Spec

/-! ## Three quantities transported with the same velocity -/

/-- The mean, the variance and the metric of the field `u`. -/
def statistics : List Sy := [u1, .fn "{V_{u}}".toList [time, x], .fn "{g_{u,xx}}".toList [time, x]]

/-- `f_t = - c f_x` for the three of them. -/
def transports : List Equation := statistics.map fun f => ⟨d f time 1, neg (.mul (.sym .plain "c".toList) (d f x 1))⟩

def transportsRows : List (Sy × List LinTerm) := statistics.map fun f => (f, [⟨-1 * 1, ["c".toList], f, [(x, 1)]⟩])

theorem transports_skew : SkewSystem ["x".toList] transports transportsRows where
  linear := .cons ⟨rfl, .num _ (.sym _ (by decide) (.deriv _ _ _ (by decide)))⟩ <|
    .cons ⟨rfl, .num _ (.sym _ (by decide) (.deriv _ _ _ (by decide)))⟩ <|
    .cons ⟨rfl, .num _ (.sym _ (by decide) (.deriv _ _ _ (by decide)))⟩ .nil
  closed := by decide +kernel
  skew := by decide +kernel

/-- The values of the three unknowns. -/
noncomputable def statsVal (O : Obj (Arr 1 ℝ)) (clock a b h : Arr 1 ℝ) : Valuation (Arr 1 ℝ) where
  fn g := if g = u1 then a else if g = .fn "{V_{u}}".toList [time, x] then b else h
  sym n := if n = "t".toList then clock else O.attr (cleanLatexName n)

/-- The vector field of the generated class. -/
theorem transports_field (iter : List Sy → List Sy) (hi : ∀ l, (iter l).Perm l) (n : ℕ) (dx : ℝ) (hdx : 0 < dx) (c : ℝ)
    (s : System) (h1 : System.build iter transports = .ok s) (h3 : s.prognostic.length = 3)
    (F : ℝ → (Fin s.prognostic.length → Arr 1 ℝ) → Fin s.prognostic.length → Arr 1 ℝ)
    (hF : Implements s (fdArith ["x".toList] (line n) (fun _ => dx)) (fun _ => speed c) F) (t : ℝ) (V : Fin s.prognostic.length → Arr 1 ℝ)
    (k : Fin s.prognostic.length) (idx : Fin 1 → ℕ) (hidx : ∀ i, idx i < n) :
    F t V k idx = -1 * (c * ((V k (sh (line n) 0 1 idx) - V k (sh (line n) 0 (-1) idx)) / (2 * dx))) := by
  obtain ⟨s1, g1, g2, -, -, -, -, -, -, g9⟩ := trend_order transports _ rfl (evolution_of (by decide +kernel)) (by decide +kernel)
    (by decide +kernel) iter hi
  rw [h1] at g1
  injection g1 with g1
  subst g1
  obtain ⟨m, hm, hout⟩ := hF t V
  obtain ⟨m', hm', hout', -⟩ := g9 (fdArith ["x".toList] (line n) (fun _ => dx)) (speed c)
    (statsVal (speed c) (fun _ => t) (V ⟨0, by omega⟩) (V ⟨1, by omega⟩) (V ⟨2, by omega⟩))
    (by
      intro g hg
      exact absurd hg (by
        have : ∀ g, ¬ g ∈ ([] : List Sy) := fun g => List.not_mem_nil
        exact this g))
    (by
      intro c' hc' n' hn'
      subst hn'
      refine (if_neg ?_).symm
      intro e
      subst e
      revert hc'
      decide +kernel)
  have e : List.ofFn V = [V ⟨0, by omega⟩, V ⟨1, by omega⟩, V ⟨2, by omega⟩] := ofFn_three h3 V
  rw [e] at hm
  have hm2 := hm'.symm.trans hm
  injection hm2 with hm2
  rw [← hm2, hout', ofFn_three h3] at hout
  injection hout with o1 hout
  injection hout with o2 hout
  injection hout with o3 hout
  have key : ∀ a : Arr 1 ℝ, ((-1 : ℚ) : ℝ) * (c * fdDiff ["x".toList] (line n) (fun _ => dx) [("x".toList, 1)] a idx) =
      -1 * (c * ((a (sh (line n) 0 1 idx) - a (sh (line n) 0 (-1) idx)) / (2 * dx))) := by
    intro a
    rw [line_first hdx.ne' _ _ hidx]
    norm_num
  obtain ⟨k, hk⟩ := k
  have hk3 : k < 3 := h3 ▸ hk
  rcases k with _ | _ | _ | k
  · rw [← o1]
    exact key _
  · rw [← o2]
    exact key _
  · rw [← o3]
    exact key _
  · omega

/-- A step such that `(c dt)² ≤ 8 dx²` satisfies the bound of `rk4`. -/
theorem transports_cfl (iter : List Sy → List Sy) (hi : ∀ l, (iter l).Perm l) (n : ℕ) (dx c : ℝ) (hdx : 0 < dx) (s : System)
    (h1 : System.build iter transports = .ok s) (h3 : s.prognostic.length = 3)
    (F : ℝ → (Fin s.prognostic.length → Arr 1 ℝ) → Fin s.prognostic.length → Arr 1 ℝ)
    (hF : Implements s (fdArith ["x".toList] (line n) (fun _ => dx)) (fun _ => speed c) F) (t t' : ℝ) (h8 : (c * (t' - t)) ^ 2 ≤ 8 * dx ^ 2)
    (V : Fin s.prognostic.length → Arr 1 ℝ) :
    (t' - t) ^ 2 * energy (gridProduct (line n) s.prognostic.length) (F t V) ≤ 8 * energy (gridProduct (line n) s.prognostic.length) V := by
  have hval := fun k idx hidx => transports_field iter hi n dx hdx c s h1 h3 F hF t V k idx hidx
  have hE : ∀ k : Fin s.prognostic.length, dx ^ 2 * gridTotal (line n) (fun idx => F t V k idx * F t V k idx) ≤
      c ^ 2 * gridTotal (line n) (fun idx => V k idx * V k idx) := by
    intro k
    have e1 : ∀ m : ℤ, ∑ idx ∈ box (line n), V k (sh (line n) 0 m idx) * V k (sh (line n) 0 m idx) = ∑ idx ∈ box (line n), V k idx * V k idx :=
      fun m => sum_sh (line n) 0 m (fun idx => V k idx * V k idx)
    have e2 : c ^ 2 * gridTotal (line n) (fun idx => V k idx * V k idx) =
        ∑ idx ∈ box (line n), (c ^ 2 / 2 * (V k (sh (line n) 0 1 idx) * V k (sh (line n) 0 1 idx)) +
          c ^ 2 / 2 * (V k (sh (line n) 0 (-1) idx) * V k (sh (line n) 0 (-1) idx))) := by
      rw [Finset.sum_add_distrib, ← Finset.mul_sum, ← Finset.mul_sum, e1, e1]
      show c ^ 2 * ∑ idx ∈ box (line n), _ = _
      ring
    rw [e2]
    show dx ^ 2 * ∑ idx ∈ box (line n), _ ≤ _
    rw [Finset.mul_sum]
    refine Finset.sum_le_sum fun idx hidx => ?_
    rw [hval k idx ((mem_box _ idx).1 hidx)]
    generalize V k (sh (line n) 0 1 idx) = p
    generalize V k (sh (line n) 0 (-1) idx) = q
    have : dx ^ 2 * (-1 * (c * ((p - q) / (2 * dx))) * (-1 * (c * ((p - q) / (2 * dx))))) = c ^ 2 * (p - q) ^ 2 / 4 := by
      field_simp
      ring
    rw [this]
    nlinarith [mul_nonneg (sq_nonneg c) (sq_nonneg (p + q))]
  have hE' : dx ^ 2 * energy (gridProduct (line n) s.prognostic.length) (F t V) ≤ c ^ 2 * energy (gridProduct (line n) s.prognostic.length) V := by
    simp only [energy, gridProduct, LinearMap.mk₂_apply, Finset.mul_sum]
    exact Finset.sum_le_sum fun k _ => hE k
  have hp := gridProduct_nonneg (line n) V
  have h9 : dx ^ 2 * ((t' - t) ^ 2 * energy (gridProduct (line n) s.prognostic.length) (F t V)) ≤
      dx ^ 2 * (8 * energy (gridProduct (line n) s.prognostic.length) V) := by
    have g1 := mul_le_mul_of_nonneg_left hE' (sq_nonneg (t' - t))
    have g2 := mul_le_mul_of_nonneg_right h8 hp
    nlinarith
  exact le_of_mul_le_mul_left h9 (by positivity)

/-- The forecasts of three transported quantities. -/
theorem transports_converge (iter : List Sy → List Sy) (hi : ∀ l, (iter l).Perm l) (ℓ c a b : ℝ) (hℓ : 0 < ℓ) (hab : a < b)
    (φ : Sy → ℝ → (Fin 1 → ℝ) → ℝ) (hφ : ∀ f ∈ statistics, SmoothFamily (φ f) ∧ ∀ τ, Periodic (fun _ => ℓ) (φ f τ))
    (hev : ∀ f ∈ statistics, ∀ τ ∈ Set.Icc a b, ∀ p, HasDerivAt (fun s => φ f s p) (-c * pd 0 (φ f τ) p) τ) :
    ∃ s, System.build iter transports = .ok s ∧ s.prognostic = statistics ∧ ∃ C δ : ℝ, 0 < δ ∧ ∀ n : ℕ, 0 < n → ℓ / n ≤ δ →
      ∃ F : ℝ → (Fin s.prognostic.length → Arr 1 ℝ) → Fin s.prognostic.length → Arr 1 ℝ,
      Implements s (fdArith ["x".toList] (line n) (fun _ => ℓ / n)) (fun _ => speed c) F ∧
      ∀ η window, 0 ≤ η → η ≤ 1 → (c * η) ^ 2 ≤ 8 * (ℓ / n) ^ 2 → Spec.Partition a b η window →
      ∀ U0, (∀ k, ∀ j < n, U0 k (fun _ => j) = φ s.prognostic[k] a (fun _ => j * (ℓ / n))) → ∀ saved,
      ∃ fc, Integrator.forecast (Integrator.step .rk4 (.fn F)) window (.single U0) (.list saved) = .ok fc ∧
        ∀ τ ∈ window, τ ∈ saved → ∃ U, fc.get? τ = some (.single U) ∧ ∀ k,
          ∑ j ∈ Finset.range n, (U k (fun _ => j) - φ s.prognostic[k] τ (fun _ => j * (ℓ / n))) ^ 2 ≤ n * (C * (η ^ 4 + (ℓ / n) ^ 2)) ^ 2 := by
  obtain ⟨s, h1, h2, -, h4, h5, h6, h7⟩ := system_order transports _ rfl (by decide +kernel) (by decide +kernel) (by decide +kernel) iter hi
  have hpr : s.prognostic = statistics := h2.trans (by decide +kernel)
  have h3 : s.prognostic.length = 3 := by rw [hpr]; rfl
  have hsol : Solves ["x".toList] transports φ (fun _ => c) a b := by
    intro e hee f hf τ hτ p
    obtain ⟨g, hg, rfl⟩ := List.mem_map.1 hee
    obtain rfl : g = f := by injection hf
    refine (hev g hg τ hτ p).congr_deriv ?_
    have e3 : exact ["x".toList] (fun g => φ g τ) (Function.update (fun _ => c) "t".toList τ) g = φ g τ := by
      simp only [statistics, List.mem_cons, List.not_mem_nil, or_false] at hg
      rcases hg with rfl | rfl | rfl <;> rfl
    show _ = ((-1 : ℚ) : ℝ) * (Function.update (fun _ => c) "t".toList τ "c".toList * pdMixed (axesOf [x] [(x, 1)]) (exact ["x".toList] _ _ g) p)
    rw [e3, Function.update_of_ne (by decide), axesOf_x]
    show _ = ((-1 : ℚ) : ℝ) * (c * pd 0 (φ g τ) p)
    push_cast
    ring
  obtain ⟨C, δ, hδ, hconv⟩ := C102_converges iter hi transports s h1 h6 h7 ["x".toList] (by decide) (by decide) transportsRows transports_skew
    (by
      intro r hr u args hu
      obtain ⟨g, hg, rfl⟩ := List.mem_map.1 hr
      simp only [statistics, List.mem_cons, List.not_mem_nil, or_false] at hg
      rcases hg with rfl | rfl | rfl <;>
      · injection hu with _ hu
        subst hu
        decide)
    (fun _ => ℓ) (fun _ => hℓ) φ (fun _ => c) hab
    (fun r hr => by
      obtain ⟨g, hg, rfl⟩ := List.mem_map.1 hr
      exact hφ g hg) hsol
  refine ⟨s, h1, hpr, C, δ, hδ, fun n hn hs => ?_⟩
  obtain ⟨F, hF⟩ := C88_vector_field iter hi transports s h1 h6 h7 (fdArith ["x".toList] (line n) (fun _ => ℓ / n)) (fun _ => speed c) (.inl h5)
  refine ⟨F, hF, fun η window hη hη1 hcfl hpart U0 hU0 saved => ?_⟩
  have hn' : (0 : ℝ) < n := by exact_mod_cast hn
  have hpt : ∀ j : ℕ, point (fun _ : Fin 1 => ℓ) (line n) (fun _ => j) = fun _ => j * (ℓ / n) := by
    intro j
    funext i
    simp [point, line]
  have hsamp : ∀ τ k (j : ℕ), sampled (fun _ : Fin 1 => ℓ) φ s (line n) τ k (fun _ => j) = φ s.prognostic[k] τ (fun _ => j * (ℓ / n)) := by
    intro τ k j
    show φ s.prognostic[k] τ (point (fun _ : Fin 1 => ℓ) (line n) (fun _ => j)) = _
    rw [hpt]
  obtain ⟨fc, hfc, hval⟩ := hconv (line n) (fun _ => hn) (fun _ => hs) (fun _ => speed c) (fun _ _ _ => rfl) F hF η window hη hη1 hpart
    (fun i t t' ht ht' V => transports_cfl iter hi n (ℓ / n) c (div_pos hℓ hn') s h1 h3 F hF t t' (by
      obtain ⟨k1, k2⟩ := hpart.step i t t' ht ht'
      refine le_trans ?_ hcfl
      rw [mul_pow, mul_pow]
      exact mul_le_mul_of_nonneg_left (pow_le_pow_left₀ (by linarith) k2 2) (sq_nonneg c)) V)
    U0 0 (le_refl _) (by
      unfold MeanSquare
      refine le_of_eq ?_
      rw [zero_pow two_ne_zero, mul_zero]
      refine Finset.sum_eq_zero fun k _ => ?_
      rw [gridTotal_line]
      refine Finset.sum_eq_zero fun j hj => ?_
      have e := hsamp a k j
      have e' := hU0 k j (Finset.mem_range.1 hj)
      refine pow_eq_zero_iff two_ne_zero |>.2 (sub_eq_zero.2 (e'.trans e.symm))) saved
  refine ⟨fc, hfc, fun τ hτ hsv => ?_⟩
  obtain ⟨U, hU, hb⟩ := hval τ hτ hsv
  refine ⟨U, hU, fun k => ?_⟩
  unfold MeanSquare at hb
  have e1 : ∑ j ∈ Finset.range n, (U k (fun _ => j) - φ s.prognostic[k] τ (fun _ => j * (ℓ / n))) ^ 2 = gridTotal (line n) (fun idx =>
      (U k idx - sampled (fun _ : Fin 1 => ℓ) φ s (line n) τ k idx) ^ 2) := by
    rw [gridTotal_line]
    refine Finset.sum_congr rfl fun j _ => ?_
    have e := hsamp τ k j
    exact congrArg (fun z => (U k (fun _ => j) - z) ^ 2) e.symm
  have e2 := Finset.single_le_sum (f := fun k => gridTotal (line n) (fun idx =>
      (U k idx - sampled (fun _ : Fin 1 => ℓ) φ s (line n) τ k idx) ^ 2))
    (fun k _ => Finset.sum_nonneg fun _ _ => sq_nonneg _) (Finset.mem_univ k)
  refine e1.le.trans ((e2.trans hb).trans (le_of_eq ?_))
  simp [line]

end Sympkf.Dynamics

namespace Sympkf.PKF

open Text Rand Spec Smooth Members

/-! ## The dynamics -/

/-- `Derivative(u, t) = - c * Derivative(u, x)`. -/
def advection : Pkf where
  fields := [fieldU]
  equations := [(Pkf.dt fieldU.value, .mul (.num (-1)) (.mul (.sym "c".toList) (.deriv fieldU.value [("x".toList, 1)])))]

theorem advection_polynomial : Polynomial advection plane 1 where
  order _ _ := .refl _
  arrange _ := .refl _
  same := by decide +kernel
  nodup := by decide +kernel
  time_mem := by decide +kernel
  space := by decide +kernel
  noise := by decide +kernel
  eps := by decide +kernel
  names := ⟨by decide +kernel, by decide +kernel, by decide +kernel, by decide +kernel, by decide +kernel, by decide +kernel⟩
  lhs := rfl
  rhs q hq := by
    obtain rfl := List.mem_singleton.1 hq
    exact ⟨⟨trivial, ⟨by decide +kernel, by decide +kernel⟩, ⟨⟨by decide +kernel, by decide +kernel, by decide +kernel, by decide +kernel⟩,
      by decide +kernel⟩⟩, by decide +kernel⟩

/-- The generated equations. -/
def advectionSystem : List Eqn := [fieldU.value, fieldU.variance, fieldU.metric 0 0].map fun f =>
  (Pkf.dt f, .mul (.num (-1)) (.mul (.sym "c".toList) (.deriv f [("x".toList, 1)])))

theorem advection_metric : advection.inMetric [] = .ok advectionSystem := eq_ok _ _ (by decide +kernel)

theorem advection_code : Sympkf.PDE.ofEqns advectionSystem = some Dynamics.transports := by decide +kernel

variable {Ω : Type} [Fintype Ω] {e : Ensemble plane Ω}

/-- The statistics of the ensemble: mean, variance and metric. -/
noncomputable def advected (e : Ensemble plane Ω) : List (F (Point plane)) := [e.mean fieldU, e.variance fieldU, e.metric fieldU "x".toList "x".toList]

theorem advection_trends (hs : Members.Solves e advection) (ω : Ω) :
    ∀ r ∈ advected e, Members.D time r = Members.const (-e.param "c".toList) * Members.D "x".toList r := by
  obtain ⟨l, hl, htr⟩ := C109_linear advection_polynomial hs [] (fun _ h => by cases h)
  rw [advection_metric] at hl
  injection hl with hl
  subst hl
  have key : ∀ (t : Ex) (r : F (Point plane)), e.Meaning advection.fields t (fun _ => r) →
      den (e.interp advection.fields) (.mul (.num (-1)) (.mul (.sym "c".toList) (.deriv t [("x".toList, 1)]))) ω = Members.D time r →
      Members.D time r = Members.const (-e.param "c".toList) * Members.D "x".toList r := by
    intro t r ht h
    rw [← h]
    show algebraMap ℚ (F (Point plane)) (-1) * (symbol e.param "c".toList * Members.D "x".toList (den (e.interp advection.fields) t ω)) = _
    rw [Ens.den_of advection_polynomial ht]
    have hc : (symbol e.param "c".toList : F (Point plane)) = Members.const (e.param "c".toList) := dif_neg (by decide)
    rw [hc, ← mul_assoc]
    congr 1
    apply Smooth.ext; intro p
    show ((-1 : ℚ) : ℝ) * e.param "c".toList = -e.param "c".toList
    push_cast
    ring
  have hf : fieldU ∈ advection.fields := List.mem_singleton_self _
  change List.Forall₂ _ [e.mean fieldU, e.variance fieldU, e.metric fieldU "x".toList "x".toList] _ at htr
  obtain ⟨k1, htr⟩ := List.forall₂_cons.1 htr
  obtain ⟨k2, htr⟩ := List.forall₂_cons.1 htr
  obtain ⟨k3, -⟩ := List.forall₂_cons.1 htr
  intro r hr
  simp only [advected, List.mem_cons, List.not_mem_nil, or_false] at hr
  rcases hr with rfl | rfl | rfl
  · exact key _ _ (.mean hf) (k1 ω).2
  · exact key _ _ (.variance hf) (k2 ω).2
  · exact key _ _ (.metric (i := 0) (j := 0) hf le_rfl (by decide)) (k3 ω).2

/-- **C110** Transport with the velocity `c` on a circle of length `ℓ`.  For every ensemble of smooth periodic solutions, the forecasts with `rk4` and the
class generated from `in_metric`, started at the mean, the variance and the metric of the ensemble at the time `a`, on a grid with `n` points and
windows with steps at most `η` such that `(c η)² ≤ 8 (ℓ/n)²`, are at all the saved times close to the mean, the variance and the metric of the
ensemble at these times: the root mean square of the difference is at most `C (η⁴ + (ℓ/n)²)`. -/
theorem C110_transport (hs : Members.Solves e advection) (ℓ : ℝ) (hℓ : 0 < ℓ)
    (hm : ∀ ω, Cyclic (space := ["x".toList]) (fun _ => ℓ) (e.member fieldU ω)) (iter : List Sympkf.PDE.Sy → List Sympkf.PDE.Sy) (hi : ∀ l, (iter l).Perm l)
    (a b : ℝ) (hab : a < b) :
    ∃ l eqs s, advection.inMetric [] = .ok l ∧ Sympkf.PDE.ofEqns l = some eqs ∧ Sympkf.PDE.System.build iter eqs = .ok s ∧ s.prognostic.length = 3 ∧
      ∃ C δ : ℝ, 0 < δ ∧ ∀ n : ℕ, 0 < n → ℓ / n ≤ δ →
      ∃ F : ℝ → (Fin s.prognostic.length → Sympkf.PDE.Arr 1 ℝ) → Fin s.prognostic.length → Sympkf.PDE.Arr 1 ℝ,
      Spec.PDE.Implements s (Sympkf.PDE.fdArith ["x".toList] (fun _ => n) (fun _ => ℓ / n)) (fun _ => Dynamics.speed (e.param "c".toList)) F ∧
      ∀ η window, 0 ≤ η → η ≤ 1 → (e.param "c".toList * η) ^ 2 ≤ 8 * (ℓ / n) ^ 2 → Spec.Partition a b η window →
      ∀ U0, (∀ k : Fin s.prognostic.length, ∀ j < n, U0 k (fun _ => j) = ((advected e).getD k 0 : Point plane → ℝ) (place a fun _ => j * (ℓ / n))) → ∀ saved,
      ∃ fc, Integrator.forecast (Integrator.step .rk4 (.fn F)) window (.single U0) (.list saved) = .ok fc ∧
        ∀ τ ∈ window, τ ∈ saved → ∃ U, fc.get? τ = some (.single U) ∧ ∀ k : Fin s.prognostic.length,
          ∑ j ∈ Finset.range n, (U k (fun _ => j) - ((advected e).getD k 0 : Point plane → ℝ) (place τ fun _ => j * (ℓ / n))) ^ 2 ≤
            n * (C * (η ^ 4 + (ℓ / n) ^ 2)) ^ 2 := by
  obtain ⟨ω⟩ : Nonempty Ω := by
    by_contra h
    rw [not_nonempty_iff] at h
    have := hs.total
    simp at this
  have hnd : (time :: ["x".toList]).Nodup := by decide
  have hf : fieldU ∈ advection.fields := List.mem_singleton_self _
  set φ : Sympkf.PDE.Sy → ℝ → (Fin 1 → ℝ) → ℝ := fun g τ => seen (space := ["x".toList]) ω τ (fun _ => (advected e).getD (Dynamics.statistics.idxOf g) 0) with hφ
  have hmem : ∀ g ∈ Dynamics.statistics, (advected e).getD (Dynamics.statistics.idxOf g) 0 ∈ advected e := by
    intro g hg
    have : Dynamics.statistics.idxOf g < (advected e).length := List.idxOf_lt_length_of_mem hg
    rw [List.getD_eq_getElem?_getD, List.getElem?_eq_getElem this, Option.getD_some]
    exact List.getElem_mem _
  have hcyc : ∀ r ∈ advected e, Cyclic (space := ["x".toList]) (fun _ => ℓ) r := by
    intro r hr
    refine Ens.cyclic_iff.2 fun i => ?_
    have h0 : ∀ f ∈ advection.fields, ∀ ω, Ens.shift (ℓ • axis (time :: ["x".toList]) ["x".toList][i]) (e.member f ω) = e.member f ω := by
      intro f hf ω
      obtain rfl := List.mem_singleton.1 hf
      exact Ens.cyclic_iff.1 (hm ω) i
    simp only [advected, List.mem_cons, List.not_mem_nil, or_false] at hr
    rcases hr with rfl | rfl | rfl
    · exact Ens.shift_mean h0 hf
    · exact Ens.shift_variance h0 hf
    · exact Ens.shift_metric h0 hf _ _
  obtain ⟨s, h1, h2, C, δ, hδ, H⟩ := Dynamics.transports_converge iter hi ℓ (e.param "c".toList) a b hℓ hab φ
    (fun g hg => ⟨Ens.smoothFamily ω hnd _, fun τ => Ens.periodic ω hnd _ (hcyc _ (hmem g hg)) τ⟩)
    (fun g hg τ _ p => by
      refine (Ens.evolves e advection ω hnd (fun _ => (advected e).getD (Dynamics.statistics.idxOf g) 0) τ p).congr_deriv ?_
      have hp := congrFun ((Ens.observation e advection ω hnd τ).partials ⟨0, by decide⟩ (fun _ => (advected e).getD (Dynamics.statistics.idxOf g) 0)) p
      refine Eq.trans ?_ (congrArg (-e.param "c".toList * ·) hp)
      show (Members.D time ((advected e).getD (Dynamics.statistics.idxOf g) 0) : Point plane → ℝ) (place τ p) = _
      rw [advection_trends hs ω _ (hmem g hg)]
      rfl)
  refine ⟨_, _, s, advection_metric, advection_code, h1, by rw [h2]; rfl, C, δ, hδ, fun n hn hle => ?_⟩
  obtain ⟨F, hF, hfor⟩ := H n hn hle
  have hidx : ∀ (k : Fin s.prognostic.length) τ (p : Fin 1 → ℝ), φ s.prognostic[k] τ p = ((advected e).getD k 0 : Point plane → ℝ) (place τ p) := by
    intro k τ p
    have hk : Dynamics.statistics.idxOf s.prognostic[k] = k := by
      have hd : Dynamics.statistics.Nodup := by decide +kernel
      have hk' : (k : ℕ) < Dynamics.statistics.length := by rw [← h2]; exact k.2
      have e1 : s.prognostic[k] = Dynamics.statistics[(k : ℕ)] := by
        show s.prognostic[(k : ℕ)] = _
        simp only [h2]
      rw [e1]
      exact hd.idxOf_getElem _ _
    show ((advected e).getD (Dynamics.statistics.idxOf s.prognostic[k]) 0 : Point plane → ℝ) _ = _
    rw [hk]
  refine ⟨F, hF, fun η window hη hη1 hcfl hpart U0 hU0 saved => ?_⟩
  obtain ⟨fc, hfc, hval⟩ := hfor η window hη hη1 hcfl hpart U0 (fun k j hj => by rw [hidx]; exact hU0 k j hj) saved
  refine ⟨fc, hfc, fun τ hτ hsv => ?_⟩
  obtain ⟨U, hU, hb⟩ := hval τ hτ hsv
  refine ⟨U, hU, fun k => ?_⟩
  have := hb k
  simp only [hidx] at this
  exact this

end Sympkf.PKF
