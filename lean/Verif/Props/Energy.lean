import Verif.Spec.Energy
import Verif.Props.Forecast
import Verif.Props.Relation
import Mathlib.Tactic.Linarith
import Mathlib.Tactic.LinearCombination
import Mathlib.Tactic.Positivity

/-!
# C99: the energy of the forecasts of skew-symmetric dynamics
-/

set_option autoImplicit false

namespace Sympkf.Integrator

open Spec

section

variable {K S : Type} [Field K] [CharZero K] [AddCommGroup S] [Module K S] (B : LinearMap.BilinForm K S) (hB : ∀ u v, B u v = B v u)
  (f : K → S → S) (hf : Skew B f)
include hf

omit [CharZero K] in
theorem skew_comb (t t' : K) (c : K) (x y w : S) : B (f t' (x + c • y)) w = B (f t x) w + c * B (f t y) w := by
  rw [hf t' t, hf t t, hf t t]
  simp only [map_add, map_smul, LinearMap.add_apply, LinearMap.smul_apply, smul_eq_mul]
  ring

omit [CharZero K] in
theorem skew_time (t t' : K) (x w : S) : B (f t' x) w = B (f t x) w := by rw [hf t' t, hf t t]

/-- The value of a step, seen by the bilinear form. -/
theorem rk2_seen (t dt : K) (u w : S) :
    B (rk2 f t u dt) w = B u w + dt * B (f t u) w + dt ^ 2 / 2 * B (f t (f t u)) w := by
  unfold rk2
  simp only [map_add, map_smul, LinearMap.add_apply, LinearMap.smul_apply, smul_eq_mul, skew_comb B f hf t]
  ring

theorem rk4_seen (t dt : K) (u w : S) :
    B (rk4 f t u dt) w = B u w + dt * B (f t u) w + dt ^ 2 / 2 * B (f t (f t u)) w + dt ^ 3 / 6 * B (f t (f t (f t u))) w +
      dt ^ 4 / 24 * B (f t (f t (f t (f t u)))) w := by
  unfold rk4
  simp only
  generalize hk1 : f t u = k1
  generalize hk2 : f (t + dt * (1/2)) (u + (dt * (1/2)) • k1) = k2
  generalize hk3 : f (t + dt * (1/2)) (u + (dt * (1/2)) • k2) = k3
  have adj : ∀ x w, B x (f t w) = -B (f t x) w := fun x w => by rw [hf t t, neg_neg]
  have e2 : ∀ w, B k2 w = B k1 w + dt / 2 * B (f t k1) w := by
    intro w
    rw [← hk2, skew_comb B f hf t, hk1]
    ring
  have e3 : ∀ w, B k3 w = B k1 w + dt / 2 * B (f t k1) w + dt ^ 2 / 4 * B (f t (f t k1)) w := by
    intro w
    rw [← hk3, skew_comb B f hf t, hk1, hf t t k2, e2, adj, adj]
    ring
  simp only [map_add, map_smul, LinearMap.add_apply, LinearMap.smul_apply, smul_eq_mul, skew_comb B f hf t]
  rw [hf t t k3, e3, e2, e3, hk1, adj, adj, adj]
  field_simp
  ring

include hB

omit [CharZero K] in
theorem moments (t : K) (u v : S) : B (f t u) v = -B (f t v) u := by rw [hf t t, hB]

theorem moment_self (t : K) (u : S) : B (f t u) u = 0 := self_eq_neg.1 (moments B hB f hf t u u)

/-- **C99** One step of the schemes on skew-symmetric dynamics: `euler` adds `dt² E(f u)` to the energy, `rk2` adds `dt⁴ E(f² u) / 4`, and
`rk4` takes `dt⁶ E(f³ u) / 72` away and adds `dt⁸ E(f⁴ u) / 576`. -/
theorem C99_step (t dt : K) (u : S) :
    energy B (euler f t u dt) = energy B u + dt ^ 2 * energy B (f t u) ∧
    energy B (rk2 f t u dt) = energy B u + dt ^ 4 / 4 * energy B (f t (f t u)) ∧
    energy B (rk4 f t u dt) = energy B u - dt ^ 6 / 72 * energy B (f t (f t (f t u))) +
      dt ^ 8 / 576 * energy B (f t (f t (f t (f t u)))) := by
  have m := moments B hB f hf t
  have s := moment_self B hB f hf t
  have h2 : B (f t (f t u)) u = -B (f t u) (f t u) := m _ _
  have h13 : B (f t (f t (f t u))) (f t u) = -B (f t (f t u)) (f t (f t u)) := m _ _
  have h24 : B (f t (f t (f t (f t u)))) (f t (f t u)) = -B (f t (f t (f t u))) (f t (f t (f t u))) := m _ _
  have h3 : B (f t (f t (f t u))) u = 0 := by rw [m, hB, s, neg_zero]
  have h4 : B (f t (f t (f t (f t u)))) u = B (f t (f t u)) (f t (f t u)) := by rw [m, hB, h13, neg_neg]
  have h14 : B (f t (f t (f t (f t u)))) (f t u) = 0 := by rw [m, hB, s, neg_zero]
  refine ⟨?_, ?_, ?_⟩
  · unfold energy euler
    simp only [map_add, map_smul, LinearMap.add_apply, LinearMap.smul_apply, smul_eq_mul, hB u, s]
    ring
  · unfold energy
    rw [rk2_seen B f hf, hB u, hB (f t u), hB (f t (f t u)) (rk2 f t u dt), rk2_seen B f hf, rk2_seen B f hf, rk2_seen B f hf]
    rw [hB u (f t u), hB u (f t (f t u)), hB (f t u) (f t (f t u)), s, s, h2]
    ring
  · unfold energy
    rw [rk4_seen B f hf, hB u, hB (f t u), hB (f t (f t u)) (rk4 f t u dt), hB (f t (f t (f t u))) (rk4 f t u dt),
      hB (f t (f t (f t (f t u)))) (rk4 f t u dt)]
    simp only [rk4_seen B f hf]
    rw [hB u (f t u), hB u (f t (f t u)), hB u (f t (f t (f t u))), hB u (f t (f t (f t (f t u)))), hB (f t u) (f t (f t u)),
      hB (f t u) (f t (f t (f t u))), hB (f t u) (f t (f t (f t (f t u)))), hB (f t (f t u)) (f t (f t (f t u))),
      hB (f t (f t u)) (f t (f t (f t (f t u)))), hB (f t (f t (f t u))) (f t (f t (f t (f t u)))), s, s, s, s, h2, h3, h4, h13, h14, h24]
    ring

omit [CharZero K] in
/-- **C99** A step of the leapfrog scheme conserves a quadratic form of the two states. -/
theorem C99_leapfrog (t dt : K) (u v : S) :
    staggered B (f t) dt (leapfrog f t (u, v) dt).1 (leapfrog f t (u, v) dt).2 = staggered B (f t) dt u v := by
  unfold staggered leapfrog
  simp only [map_add, map_smul, LinearMap.add_apply, LinearMap.smul_apply, smul_eq_mul]
  rw [hB u (f t v), moments B hB f hf t u v]
  ring

end

/-- A property that the steps keep holds at all the saved times. -/
theorem forecast_induct {K X : Type} [Field K] [DecidableEq K] (st : K → X → K → Except PyErr X) (P : X → Prop) (window : List K)
    (hstep : ∀ (i : ℕ) t t', window[i]? = some t → window[i + 1]? = some t' → ∀ x y, P x → st t x (t' - t) = .ok y → P y)
    (x0 : X) (h0 : P x0) (saved : List K) (fc : Dict K X) (hfc : forecast st window x0 (.list saved) = .ok fc) (τ : K) (x : X)
    (hx : fc.get? τ = some x) : P x := by
  obtain ⟨xs, hxs, -, -, h4⟩ := C01_forecast_sound _ _ _ _ _ hfc
  obtain ⟨-, i, h1, h2, -⟩ := (h4 τ x).1 hx
  clear h4 hx
  induction i generalizing τ x with
  | zero =>
    rw [hxs.start] at h2
    injection h2 with h2
    exact h2 ▸ h0
  | succ i ih =>
    have hlt : i + 1 < window.length := (List.getElem?_eq_some_iff.1 h1).1
    obtain ⟨t, ht⟩ : ∃ t, window[i]? = some t := ⟨_, List.getElem?_eq_getElem (by omega)⟩
    obtain ⟨y, hy⟩ : ∃ y, xs[i]? = some y := ⟨_, List.getElem?_eq_getElem (by rw [hxs.length_eq]; omega)⟩
    obtain ⟨x', h3, h4⟩ := hxs.next i t τ y ht h1 hy
    rw [h2] at h3
    injection h3 with h3
    subst h3
    exact hstep i t τ ht h1 y x (ih t y ht hy) h4

section

variable {K S : Type} [Field K] [LinearOrder K] [IsStrictOrderedRing K] [AddCommGroup S] [Module K S] (B : LinearMap.BilinForm K S)
  (hB : ∀ u v, B u v = B v u) (hp : ∀ u, 0 ≤ energy B u) (f : K → S → S) (hf : Skew B f) (window saved : List K)
include hB hp hf

omit hp in
/-- **C99** `rk4` never increases the energy when the steps satisfy `dt² E(f u) ≤ 8 E(u)`. -/
theorem C99_rk4 (hw : ∀ (i : ℕ) t t', window[i]? = some t → window[i + 1]? = some t' → ∀ u, (t' - t) ^ 2 * energy B (f t u) ≤ 8 * energy B u)
    (u0 : S) (fc : Dict K (StateObj S)) (hfc : forecast (step .rk4 (.fn f)) window (.single u0) (.list saved) = .ok fc) (τ : K) (u : S)
    (hu : fc.get? τ = some (.single u)) : energy B u ≤ energy B u0 := by
  have := forecast_induct (step .rk4 (.fn f)) (fun x => ∀ u, x = .single u → energy B u ≤ energy B u0) window ?_ (.single u0)
    (fun u h => by cases h; exact le_refl _) saved fc hfc τ _ hu u rfl
  · exact this
  · rintro i t t' ht ht' x y hx hy v rfl
    cases x with
    | pair => cases hy
    | single u =>
      simp only [step, Except.ok.injEq, StateObj.single.injEq] at hy
      subst hy
      have h1 := hx u rfl
      rw [(C99_step B hB f hf t (t' - t) u).2.2]
      have h2 := mul_le_mul_of_nonneg_left (hw i t t' ht ht' (f t (f t (f t u)))) (show (0 : K) ≤ (t' - t) ^ 6 / 576 by positivity)
      nlinarith [h2]

/-- **C99** `euler` and `rk2` never decrease the energy, whatever the steps. -/
theorem C99_growth (s : Scheme) (hs : s = .euler ∨ s = .rk2) (u0 : S) (fc : Dict K (StateObj S))
    (hfc : forecast (step s (.fn f)) window (.single u0) (.list saved) = .ok fc) (τ : K) (u : S)
    (hu : fc.get? τ = some (.single u)) : energy B u0 ≤ energy B u := by
  refine forecast_induct (step s (.fn f)) (fun x => ∀ u, x = .single u → energy B u0 ≤ energy B u) window ?_ (.single u0)
    (fun u h => by cases h; exact le_refl _) saved fc hfc τ _ hu u rfl
  rintro i t t' ht ht' x y hx hy v rfl
  cases x with
  | pair => rcases hs with rfl | rfl <;> cases hy
  | single u =>
    have h1 := hx u rfl
    have h2 := hp (f t u)
    have h3 := hp (f t (f t u))
    rcases hs with rfl | rfl <;> simp only [step, Except.ok.injEq, StateObj.single.injEq] at hy <;> subst hy
    · rw [(C99_step B hB f hf t (t' - t) u).1]
      have : 0 ≤ (t' - t) ^ 2 * energy B (f t u) := by positivity
      linarith
    · rw [(C99_step B hB f hf t (t' - t) u).2.1]
      have : 0 ≤ (t' - t) ^ 4 / 4 * energy B (f t (f t u)) := by positivity
      linarith

/-- **C99** The leapfrog scheme with equal steps: the energies stay bounded when `dt² E(f u) ≤ c² E(u)` with `c < 1`. -/
theorem C99_leapfrog_bounded (dt c : K) (hc : 0 < c) (hc1 : c < 1)
    (hw : ∀ (i : ℕ) t t', window[i]? = some t → window[i + 1]? = some t' → t' - t = dt)
    (hcfl : ∀ t u, dt ^ 2 * energy B (f t u) ≤ c ^ 2 * energy B u) (u0 v0 : S) (fc : Dict K (StateObj S))
    (hfc : forecast (step .leapfrog (.fn f)) window (.pair u0 v0) (.list saved) = .ok fc) (τ : K) (u v : S)
    (hu : fc.get? τ = some (.pair u v)) : energy B u + energy B v ≤ (1 + c) / (1 - c) * (energy B u0 + energy B v0) := by
  have cs : ∀ t x y, |2 * dt * B (f t x) y| ≤ c * (energy B x + energy B y) := by
    intro t x y
    have h1 := hp (dt • f t x + c • y)
    have h2 := hp (dt • f t x - c • y)
    have h3 := hcfl t x
    unfold energy at h1 h2 h3 ⊢
    simp only [map_add, map_sub, map_smul, LinearMap.add_apply, LinearMap.sub_apply, LinearMap.smul_apply, smul_eq_mul, hB y (f t x)] at h1 h2
    rw [abs_le]
    constructor
    · have : 0 ≤ c * (c * (B x x + B y y) + 2 * dt * B (f t x) y) := by nlinarith
      have := nonneg_of_mul_nonneg_right this hc
      linarith
    · have : 0 ≤ c * (c * (B x x + B y y) - 2 * dt * B (f t x) y) := by nlinarith
      have := nonneg_of_mul_nonneg_right this hc
      linarith
  have key := forecast_induct (step .leapfrog (.fn f)) (fun x => ∀ u v, x = .pair u v → staggered B (f 0) dt u v = staggered B (f 0) dt u0 v0) window
    ?_ (.pair u0 v0) (fun u v h => by cases h; rfl) saved fc hfc τ _ hu u v rfl
  · have h1 := abs_le.1 (cs 0 u v)
    have h2 := abs_le.1 (cs 0 u0 v0)
    unfold staggered at key
    change energy B u + energy B v - _ = energy B u0 + energy B v0 - _ at key
    rw [div_mul_eq_mul_div, le_div_iff₀ (by linarith)]
    linarith [h1.2, h2.1]
  · rintro i t t' ht ht' x y hx hy u' v' rfl
    cases x with
    | single => cases hy
    | pair u v =>
      simp only [step, Except.ok.injEq, StateObj.pair.injEq] at hy
      obtain ⟨hy1, hy2⟩ := hy
      have h1 := C99_leapfrog B hB f hf t dt u v
      rw [hw i t t' ht ht', ] at hy1 hy2
      rw [hy1, hy2] at h1
      rw [← hx u v rfl]
      unfold staggered at h1 ⊢
      rwa [skew_time B f hf t 0, skew_time B f hf t 0]

end

/-! ### A concrete case: the rotation of the plane -/

/-- The scalar product of the plane. -/
def dot : LinearMap.BilinForm ℚ (ℚ × ℚ) :=
  LinearMap.mk₂ ℚ (fun u v => u.1 * v.1 + u.2 * v.2) (by intros; simp; ring) (by intros; simp; ring) (by intros; simp; ring) (by intros; simp; ring)

/-- The trend of the harmonic oscillator. -/
def turn (_ : ℚ) (u : ℚ × ℚ) : ℚ × ℚ := (u.2, -u.1)

theorem turn_skew : (∀ u v, dot u v = dot v u) ∧ (∀ u, 0 ≤ energy dot u) ∧ Skew dot turn ∧ ∀ t u, energy dot (turn t u) = energy dot u := by
  refine ⟨?_, ?_, ?_, ?_⟩
  · intro u v
    simp only [dot, LinearMap.mk₂_apply]
    ring
  · intro u
    simp only [energy, dot, LinearMap.mk₂_apply]
    nlinarith [mul_self_nonneg u.1, mul_self_nonneg u.2]
  · intro t t' u v
    simp only [dot, LinearMap.mk₂_apply, turn]
    ring
  · intro t u
    simp only [energy, dot, LinearMap.mk₂_apply, turn]
    ring

/-- With `rk4` and steps not longer than `2` the oscillator never gains energy. -/
example (window saved : List ℚ) (hw : ∀ (i : ℕ) t t', window[i]? = some t → window[i + 1]? = some t' → |t' - t| ≤ 2)
    (u0 u : ℚ × ℚ) (fc : Dict ℚ (StateObj (ℚ × ℚ))) (hfc : forecast (step .rk4 (.fn turn)) window (.single u0) (.list saved) = .ok fc) (τ : ℚ)
    (hu : fc.get? τ = some (.single u)) : energy dot u ≤ energy dot u0 := by
  obtain ⟨h1, h2, h3, h4⟩ := turn_skew
  refine C99_rk4 dot h1 turn h3 window saved (fun i t t' ht ht' u => ?_) u0 fc hfc τ u hu
  have h5 : (t' - t) ^ 2 ≤ 2 ^ 2 := sq_le_sq' (by linarith [(abs_le.1 (hw i t t' ht ht')).1]) (by linarith [(abs_le.1 (hw i t t' ht ht')).2])
  rw [h4]
  nlinarith [h2 u]

/-- A forecast of the oscillator with `rk4`: the energy goes from `1` to `569/576` in a step of length `1`… -/
example : (forecast (step .rk4 (.fn turn)) [0, 1] (.single (1, 0)) (.list [1])).toOption =
    some [(1, .single (13 / 24, -5 / 6))] ∧ energy dot (13 / 24, -5 / 6) = 569 / 576 := by
  refine ⟨by decide +kernel, ?_⟩
  simp only [energy, dot, LinearMap.mk₂_apply]
  norm_num

/-- … and the bound on the steps matters: it grows with a step of length `3`. -/
theorem C99_rk4_sharp : ∃ u : ℚ × ℚ, (forecast (step .rk4 (.fn turn)) [0, 3] (.single (1, 0)) (.list [3])).toOption = some [(3, .single u)] ∧
    energy dot ((1, 0) : ℚ × ℚ) < energy dot u := by
  refine ⟨(-1 / 8, 3 / 2), by decide +kernel, ?_⟩
  simp only [energy, dot, LinearMap.mk₂_apply]
  norm_num

/-- `euler` doubles the energy of the oscillator in one step of length `1`, and the leapfrog scheme with the steps `1/2` keeps it
below three times the initial one. -/
example : energy dot (euler turn 0 (1, 0) 1) = 2 * energy dot (1, 0) ∧
    ∀ (window saved : List ℚ), (∀ (i : ℕ) t t', window[i]? = some t → window[i + 1]? = some t' → t' - t = 1 / 2) →
      ∀ (u0 v0 u v : ℚ × ℚ) (fc : Dict ℚ (StateObj (ℚ × ℚ))), forecast (step .leapfrog (.fn turn)) window (.pair u0 v0) (.list saved) = .ok fc →
        ∀ τ, fc.get? τ = some (.pair u v) → energy dot u + energy dot v ≤ 3 * (energy dot u0 + energy dot v0) := by
  obtain ⟨h1, h2, h3, h4⟩ := turn_skew
  refine ⟨?_, fun window saved hw u0 v0 u v fc hfc τ hu => ?_⟩
  · rw [(C99_step dot h1 turn h3 0 1 (1, 0)).1, h4]
    ring
  · have := C99_leapfrog_bounded dot h1 h2 turn h3 window saved (1 / 2) (1 / 2) (by norm_num) (by norm_num) hw
      (fun t u => by rw [h4]) u0 v0 fc hfc τ u v hu
    norm_num at this
    exact this

end Sympkf.Integrator
