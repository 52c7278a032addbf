import Verif.Props.Tl
import Mathlib.Algebra.Module.LinearMap.End
import Mathlib.Algebra.BigOperators.Group.Finset.Basic
import Mathlib.Data.Nat.Factorial.Basic
import Mathlib.Tactic.FieldSimp
import Mathlib.Algebra.Order.Floor.Semiring
import Mathlib.Algebra.Order.Field.Basic
import Mathlib.Data.Rat.Floor
import Mathlib.Algebra.Ring.GeomSum

/-!
# Properties C10, C11, C13, C14, C16, C17: window, scheme selection, algebraic properties of the schemes
-/

set_option autoImplicit false

namespace Sympkf.Integrator

open Sympkf Sympkf.Spec

/-! ## C10 -/

section C10
variable {K : Type} [Field K] [LinearOrder K] [IsStrictOrderedRing K] [FloorRing K]

/-- **C10** (arithmetic progression). -/
theorem C10_window_progression (dt stop start : K) (i : ℕ) (x : K) (h : (window dt stop start)[i]? = some x) :
    x = start + i * dt := by
  simp only [window, arange, List.getElem?_map, Option.map_eq_some_iff] at h
  obtain ⟨j, hj, rfl⟩ := h
  have : j = i := by
    have := List.getElem?_eq_some_iff.1 hj
    obtain ⟨_, h⟩ := this
    simpa using h.symm
  rw [this]

/-- **C10** (exact multiple). -/
theorem C10_window_multiple (dt start : K) (hdt : 0 < dt) (n : ℕ) :
    window dt (start + n * dt) start = (List.range (n + 1)).map (fun i : ℕ => start + (i : K) * dt) ∧
    (window dt (start + n * dt) start).getLast? = some (start + n * dt) := by
  have hc : ⌈(start + n * dt + dt / 3 - start) / dt⌉ = (n : ℤ) + 1 := by
    have : (start + n * dt + dt / 3 - start) / dt = (n : K) + 1 / 3 := by field_simp; ring
    rw [this, Int.ceil_eq_iff]
    push_cast
    constructor
    · have : (0 : K) < 1 / 3 := by positivity
      linarith
    · have : (1 : K) / 3 ≤ 1 := by rw [div_le_one (by positivity)]; norm_num
      linarith
  have h1 : window dt (start + n * dt) start = (List.range (n + 1)).map (fun i : ℕ => start + (i : K) * dt) := by
    simp only [window, arange, hc]
    congr 2
  refine ⟨h1, ?_⟩
  rw [h1]; simp [List.range_succ]

/-- **C10** (general end). The window is not empty as soon as `end > start - dt/3`, its first point is `start` and its
last point lies in `[end - 2dt/3, end + dt/3)`. -/
theorem C10_window_last (dt stop start : K) (hdt : 0 < dt) (h : start - dt / 3 < stop) :
    (window dt stop start)[0]? = some start ∧
    ∃ x, (window dt stop start).getLast? = some x ∧ stop - 2 * dt / 3 ≤ x ∧ x < stop + dt / 3 := by
  set c := ⌈(stop + dt / 3 - start) / dt⌉ with hc
  have hpos : 0 < (stop + dt / 3 - start) / dt := by apply div_pos <;> linarith
  have hc0 : 0 < c := Int.ceil_pos.2 hpos
  obtain ⟨m, hm⟩ : ∃ m : ℕ, c.toNat = m + 1 := ⟨c.toNat - 1, by omega⟩
  have hcm : (c : K) = (m : K) + 1 := by
    have : c = (m : ℤ) + 1 := by omega
    rw [this]; push_cast; ring
  have h1 : window dt stop start = (List.range (m + 1)).map (fun i : ℕ => start + (i : K) * dt) := by
    simp only [window, arange, ← hc, hm]
  refine ⟨by rw [h1]; simp, start + m * dt, by rw [h1]; simp [List.range_succ], ?_, ?_⟩
  · have h2 : (stop + dt / 3 - start) / dt ≤ c := Int.le_ceil _
    rw [div_le_iff₀ hdt, hcm] at h2
    linarith
  · have h2 : (c : K) < (stop + dt / 3 - start) / dt + 1 := Int.ceil_lt_add_one _
    rw [hcm] at h2
    have h3 : (m : K) < (stop + dt / 3 - start) / dt := by linarith
    rw [lt_div_iff₀ hdt] at h3
    linarith

example : window (1/2 : ℚ) 2 1 = [1, 3/2, 2] := by
  have := (C10_window_multiple (1/2 : ℚ) 1 (by norm_num) 2).1
  norm_num [List.range_succ] at this
  exact this

end C10

/-! ## C11 -/

/-- **C11** (one call). The five names are accepted and select their scheme; any other name raises `ValueError` and
changes nothing. -/
theorem C11_set_time_scheme (m : ModelState) (name : String) :
    (name = "leapfrog" → setTimeScheme m name = ({ m with timeScheme := some .leapfrog }, none)) ∧
    (name = "rk4" → setTimeScheme m name = ({ m with timeScheme := some .rk4 }, none)) ∧
    (name = "rk2" → setTimeScheme m name = ({ m with timeScheme := some .rk2 }, none)) ∧
    (name = "euler" → setTimeScheme m name = ({ m with timeScheme := some .euler }, none)) ∧
    (name = "splitting" → setTimeScheme m name = ({ m with timeScheme := some .splitting }, none)) ∧
    (name ∉ ["leapfrog", "rk4", "rk2", "euler", "splitting"] → setTimeScheme m name = (m, some .valueError)) := by
  refine ⟨by rintro rfl; rfl, by rintro rfl; rfl, by rintro rfl; rfl, by rintro rfl; rfl, by rintro rfl; rfl, ?_⟩
  intro h
  simp only [List.mem_cons, List.not_mem_nil, or_false, not_or] at h
  obtain ⟨h1, h2, h3, h4, h5⟩ := h
  simp [setTimeScheme, timeSchemes, Dict.get?, Ne.symm h1, Ne.symm h2, Ne.symm h3, Ne.symm h4, Ne.symm h5]

/-- The name of a scheme. -/
def schemeName : Scheme → String
  | .leapfrog => "leapfrog" | .rk4 => "rk4" | .rk2 => "rk2" | .euler => "euler" | .splitting => "splitting"

theorem setTimeScheme_eq (m : ModelState) (name : String) :
    (∃ s, schemeName s = name ∧ setTimeScheme m name = ({ m with timeScheme := some s }, none)) ∨
    ((∀ s, schemeName s ≠ name) ∧ setTimeScheme m name = (m, some .valueError)) := by
  obtain ⟨h1, h2, h3, h4, h5, h6⟩ := C11_set_time_scheme m name
  by_cases hn : name ∈ ["leapfrog", "rk4", "rk2", "euler", "splitting"]
  · left
    simp only [List.mem_cons, List.not_mem_nil, or_false] at hn
    rcases hn with h | h | h | h | h
    · exact ⟨.leapfrog, h.symm, h1 h⟩
    · exact ⟨.rk4, h.symm, h2 h⟩
    · exact ⟨.rk2, h.symm, h3 h⟩
    · exact ⟨.euler, h.symm, h4 h⟩
    · exact ⟨.splitting, h.symm, h5 h⟩
  · right
    refine ⟨?_, h6 hn⟩
    rintro s rfl
    apply hn
    cases s <;> simp [schemeName]

/-- The object after a history of calls (exceptions caught by the caller). -/
def runSchemes (m : ModelState) (names : List String) : ModelState :=
  names.foldl (fun m n => (setTimeScheme m n).1) m

/-- **C11** (history). After any sequence of calls the scheme is the last accepted one; if none was accepted it is
unchanged. -/
theorem C11_history (m : ModelState) (names : List String) :
    (∀ (before after : List String) s, names = before ++ [schemeName s] ++ after →
      (∀ n ∈ after, ∀ s', schemeName s' ≠ n) → (runSchemes m names).timeScheme = some s) ∧
    ((∀ n ∈ names, ∀ s', schemeName s' ≠ n) → runSchemes m names = m) := by
  have key : ∀ (names : List String) (m : ModelState), (∀ n ∈ names, ∀ s', schemeName s' ≠ n) → runSchemes m names = m := by
    intro names
    induction names with
    | nil => intros; rfl
    | cons n names ih =>
      intro m h
      have hn : (setTimeScheme m n).1 = m := by
        rcases setTimeScheme_eq m n with ⟨s, hs, _⟩ | ⟨_, h2⟩
        · exact absurd hs (h n (by simp) s)
        · rw [h2]
      have := ih m (fun n' hn' => h n' (by simp [hn']))
      simpa [runSchemes, hn] using this
  refine ⟨?_, key names m⟩
  rintro before after s rfl h
  have hs : ∀ m' : ModelState, (setTimeScheme m' (schemeName s)).1.timeScheme = some s := by
    intro m'; cases s <;> rfl
  have : runSchemes m (before ++ [schemeName s] ++ after) =
      runSchemes (setTimeScheme (runSchemes m before) (schemeName s)).1 after := by
    simp [runSchemes]
  rw [this, key after _ h, hs]

/-- **C11** (constructor). -/
theorem C11_constructor (name : String) :
    (∀ s, schemeName s = name → initModel name = .ok ⟨some s⟩) ∧
    ((∀ s, schemeName s ≠ name) → initModel name = .error .valueError) ∧
    initModel = .ok ⟨some .rk4⟩ := by
  refine ⟨?_, ?_, rfl⟩
  · rintro s rfl; cases s <;> rfl
  · intro h
    rcases setTimeScheme_eq { timeScheme := none } name with ⟨s, hs, _⟩ | ⟨_, h2⟩
    · exact absurd hs (h s)
    · simp [initModel, h2]

example : (runSchemes ⟨some .rk4⟩ ["euler", "foo", "RK4"]).timeScheme = some .euler := by decide

/-! ## C13 -/

section C13
variable {K S : Type} [Field K] [CharZero K] [AddCommGroup S] [Module K S]

/-- Taylor polynomial of degree `p` of `exp(dt A)` applied to `u`. -/
def truncExp (p : ℕ) (A : S →ₗ[K] S) (dt : K) (u : S) : S :=
  ∑ k ∈ Finset.range (p + 1), (dt ^ k / (k.factorial : K)) • (A ^ k) u

/-- **C13**. -/
theorem C13_truncated_exponential (A : S →ₗ[K] S) (t dt : K) (u : S) :
    euler (fun _ v => A v) t u dt = truncExp 1 A dt u ∧
    rk2 (fun _ v => A v) t u dt = truncExp 2 A dt u ∧
    rk4 (fun _ v => A v) t u dt = truncExp 4 A dt u := by
  refine ⟨?_, ?_, ?_⟩
  · simp [euler, truncExp, Finset.sum_range_succ]
  · simp only [rk2, truncExp, Finset.sum_range_succ, Finset.sum_range_zero, Nat.factorial, map_add, map_smul,
      pow_zero, pow_succ, Module.End.mul_apply, Module.End.one_apply]
    push_cast
    match_scalars <;> field_simp
  · simp only [rk4, truncExp, Finset.sum_range_succ, Finset.sum_range_zero, Nat.factorial, map_add, map_smul,
      pow_zero, pow_succ, Module.End.mul_apply, Module.End.one_apply]
    push_cast
    match_scalars <;> field_simp <;> ring

end C13

/-- Non-vacuity: on the (non-normal) operator `(u,v) ↦ (v, u + v)`. -/
example : rk4 (fun (_ : ℚ) (w : ℚ × ℚ) => ((LinearMap.snd ℚ ℚ ℚ).prod (LinearMap.fst ℚ ℚ ℚ + LinearMap.snd ℚ ℚ ℚ)) w) 0 (1, 0) 1
    = (1 + 1/2 + 1/6 + 1/12, 1 + 1/2 + 1/3 + 1/8) := by
  norm_num [rk4]

/-! ## C14 -/

section C14
variable {K S : Type} [Field K] [CharZero K] [AddCommGroup S] [Module K S]

/-- The path `t ↦ Σ_{k ≤ d} t^k c_k`. -/
def polyPath (d : ℕ) (c : ℕ → S) (t : K) : S := ∑ k ∈ Finset.range (d + 1), t ^ k • c k

/-- Its time derivative `Σ_{k ≤ d} k t^(k-1) c_k`. -/
def polyPathDeriv (d : ℕ) (c : ℕ → S) (t : K) : S := ∑ k ∈ Finset.range (d + 1), ((k : K) * t ^ (k - 1)) • c k

/-- **C14**. -/
theorem C14_quadrature (c : ℕ → S) (t dt : K) :
    euler (fun s _ => polyPathDeriv 1 c s) t (polyPath 1 c t) dt = polyPath 1 c (t + dt) ∧
    rk2 (fun s _ => polyPathDeriv 2 c s) t (polyPath 2 c t) dt = polyPath 2 c (t + dt) ∧
    rk4 (fun s _ => polyPathDeriv 4 c s) t (polyPath 4 c t) dt = polyPath 4 c (t + dt) := by
  refine ⟨?_, ?_, ?_⟩
  · simp only [euler, polyPath, polyPathDeriv, Finset.sum_range_succ, Finset.sum_range_zero]
    push_cast
    match_scalars <;> simp
  · simp only [rk2, polyPath, polyPathDeriv, Finset.sum_range_succ, Finset.sum_range_zero]
    push_cast
    match_scalars <;> simp <;> field_simp <;> ring
  · simp only [rk4, polyPath, polyPathDeriv, Finset.sum_range_succ, Finset.sum_range_zero]
    push_cast
    match_scalars <;> simp <;> field_simp <;> ring

end C14

/-- The degrees are sharp: rk4 misses a path of degree 5, rk2 one of degree 3, euler one of degree 2. -/
theorem C14_degrees_sharp :
    (∃ c : ℕ → ℚ, euler (fun s _ => polyPathDeriv 2 c s) (0 : ℚ) (polyPath 2 c (0 : ℚ)) 1 ≠ polyPath 2 c (0 + 1 : ℚ)) ∧
    (∃ c : ℕ → ℚ, rk2 (fun s _ => polyPathDeriv 3 c s) (0 : ℚ) (polyPath 3 c (0 : ℚ)) 1 ≠ polyPath 3 c (0 + 1 : ℚ)) ∧
    (∃ c : ℕ → ℚ, rk4 (fun s _ => polyPathDeriv 5 c s) (0 : ℚ) (polyPath 5 c (0 : ℚ)) 1 ≠ polyPath 5 c (0 + 1 : ℚ)) := by
  refine ⟨⟨fun k => if k = 2 then 1 else 0, ?_⟩, ⟨fun k => if k = 3 then 1 else 0, ?_⟩,
    ⟨fun k => if k = 5 then 1 else 0, ?_⟩⟩ <;>
  norm_num [euler, rk2, rk4, polyPath, polyPathDeriv, Finset.sum_range_succ]

/-! ## C16 -/

section C16
variable {K S : Type} [Field K] [AddCommGroup S] [Module K S]

/-- **C16** (one step): what a leapfrog step is, and that it is undone by the step with `-dt` on the swapped pair. -/
theorem C16_leapfrog_step (f : K → S → S) (t dt : K) (u v : S) :
    leapfrog f t (u, v) dt = (v, u + (2 * dt) • f t v) ∧
    (leapfrog f t (leapfrog f t (u, v) dt).swap (-dt)).swap = (u, v) := by
  constructor
  · rfl
  · simp [leapfrog]

/-- State at the end of a window, for a scheme that never raises. -/
def finalState {X : Type} (g : K → X → K → X) : List K → X → X
  | [], u => u
  | [_], u => u
  | t :: t' :: w, u => finalState g (t' :: w) (g t u (t' - t))

theorem finalState_append {X : Type} (g : K → X → K → X) (a : List K) (t t' : K) (u : X) :
    finalState g (a ++ [t] ++ [t']) u = g t (finalState g (a ++ [t]) u) (t' - t) := by
  induction a generalizing u with
  | nil => rfl
  | cons s a ih =>
    cases a with
    | nil => rfl
    | cons s' a => exact ih (g s u (s' - s))

theorem advance_cons {X : Type} (g : K → X → K → X) (t t' : K) (w : List K) (u : X) (i : ℕ) :
    advance g (t :: t' :: w) u (i + 1) = advance g (t' :: w) (g t u (t' - t)) i := by
  induction i with
  | zero => rfl
  | succ i ih =>
    conv_lhs => rw [advance]
    conv_rhs => rw [advance]
    rw [ih]
    rfl

/-- `finalState` is the state the specification gives at the last position of the window. -/
theorem finalState_eq_advance {X : Type} (g : K → X → K → X) (t : K) (w : List K) (u : X) :
    finalState g (t :: w) u = advance g (t :: w) u w.length := by
  induction w generalizing t u with
  | nil => rfl
  | cons t' w ih => rw [List.length_cons, advance_cons, ← ih]; rfl

/-- **C16** (whole forecast). For an autonomous trend, running leapfrog over the reversed window from the swapped
final pair comes back to the swapped initial pair, for every window (uneven steps included). -/
theorem C16_leapfrog_reversible (f : S → S) (window : List K) (p : S × S) :
    finalState (leapfrog (fun _ => f)) window.reverse (finalState (leapfrog (fun _ => f)) window p).swap = p.swap := by
  induction window generalizing p with
  | nil => rfl
  | cons t w ih =>
    cases w with
    | nil => rfl
    | cons t' w =>
      have h1 : (t :: t' :: w).reverse = w.reverse ++ [t'] ++ [t] := by simp
      rw [h1, finalState_append]
      have h2 := ih (leapfrog (fun _ => f) t p (t' - t))
      rw [List.reverse_cons] at h2
      show leapfrog _ _ (finalState _ (w.reverse ++ [t'])
        (Prod.swap (finalState (leapfrog (fun _ => f)) (t' :: w) (leapfrog (fun _ => f) t p (t' - t))))) _ = _
      rw [h2]
      simp only [leapfrog, Prod.swap, Prod.mk.injEq]
      refine ⟨trivial, ?_⟩
      have : (2 * (t - t')) = -(2 * (t' - t)) := by ring
      rw [this, neg_smul]; abel

variable [DecidableEq K]

/-- **C16** through `forecast`: the value saved at the end of a leapfrog forecast, swapped and forecast over the
reversed window, gives back the swapped initial pair at the initial time. -/
theorem C16_leapfrog_forecast (f : S → S) (window : List K) (hw : window ≠ []) (p : S × S) :
    ∃ A B q, forecast (total (leapfrog (fun _ => f))) window p (.list [window.getLast hw]) = .ok A ∧
      A.get? (window.getLast hw) = some q ∧
      forecast (total (leapfrog (fun _ => f))) window.reverse q.swap (.list [window.head hw]) = .ok B ∧
      B.get? (window.head hw) = some p.swap := by
  obtain ⟨A, hA, _, hA3⟩ := forecast_total (leapfrog (fun _ => f)) window hw p [window.getLast hw]
  have hq := hA3 _ _ (by simp) (lastAt_getLast window hw)
  have hw' : window.reverse ≠ [] := by simpa using hw
  obtain ⟨B, hB, _, hB3⟩ := forecast_total (leapfrog (fun _ => f)) window.reverse hw'
    (advance (leapfrog (fun _ => f)) window p (window.length - 1)).swap [window.head hw]
  have hlast : window.reverse.getLast hw' = window.head hw := by simp
  have hq' := hB3 _ _ (by simp) (hlast ▸ lastAt_getLast window.reverse hw')
  refine ⟨A, B, _, hA, hq, hB, ?_⟩
  rw [hq']
  congr 1
  have hfin : ∀ (w : List K) (hw : w ≠ []) (u : S × S),
      advance (leapfrog (fun _ => f)) w u (w.length - 1) = finalState (leapfrog (fun _ => f)) w u := by
    intro w hw u
    cases w with
    | nil => exact absurd rfl hw
    | cons t w => rw [finalState_eq_advance]; rfl
  rw [hfin window hw, hfin window.reverse hw', C16_leapfrog_reversible]

end C16

/-! ## C17 -/

section C17
variable {K S : Type}

/-- **C17** (one entry). An `update` is used whatever else the entry holds; otherwise the scheme of the entry is
applied to its trend; a missing key raises `KeyError`. -/
theorem C17_fraction_step (f : FractionStep K S) (t : K) (u : S) (dt : K) :
    (∀ up, f.update = some up → f.apply t u dt = .ok (up t u dt)) ∧
    (f.update = none → ∀ tr sc, f.trend = some tr → f.scheme = some sc → f.apply t u dt = .ok (sc tr t u dt)) ∧
    (f.update = none → (f.trend = none ∨ f.scheme = none) → f.apply t u dt = .error .keyError) := by
  refine ⟨?_, ?_, ?_⟩
  · intro up h; simp [FractionStep.apply, h]
  · intro h tr sc h1 h2; simp [FractionStep.apply, h, h1, h2]
  · rintro h (h1 | h1)
    · simp [FractionStep.apply, h, h1]
    · cases h2 : f.trend <;> simp [FractionStep.apply, h, h1, h2]

/-- **C17** (composition). -/
theorem C17_splitting (t : K) (u : S) (dt : K) (l l' : List (FractionStep K S)) (f : FractionStep K S) :
    timeSplitting [] t u dt = .ok u ∧
    timeSplitting (f :: l) t u dt = (f.apply t u dt).bind (fun v => timeSplitting l t v dt) ∧
    timeSplitting (l ++ l') t u dt = (timeSplitting l t u dt).bind (fun v => timeSplitting l' t v dt) := by
  refine ⟨rfl, rfl, ?_⟩
  simp [timeSplitting, List.foldlM_append, bind]

/-- When every entry is complete the splitting is the left-to-right composition of its one-step maps, each over the
full `dt` from the same time. -/
theorem C17_splitting_fold (t : K) (u : S) (dt : K) (l : List (FractionStep K S)) (m : FractionStep K S → S → S)
    (hm : ∀ f ∈ l, ∀ v, f.apply t v dt = .ok (m f v)) :
    timeSplitting l t u dt = .ok (l.foldl (fun v f => m f v) u) := by
  induction l generalizing u with
  | nil => rfl
  | cons f l ih =>
    rw [(C17_splitting t u dt l [] f).2.1, hm f (by simp)]
    exact ih _ (fun f' hf' => hm f' (by simp [hf']))

end C17

/-- An update that overrides a trend, then an euler step of a trend: `(3 → 6) → 6 + 1*6`. -/
example : timeSplitting [⟨some (fun _ u _ => 2 * u), some (fun _ _ => 100), some euler⟩, ⟨none, some (fun _ u => u), some euler⟩]
    (0 : ℚ) (3 : ℚ) 1 = .ok 12 := by
  norm_num [timeSplitting, FractionStep.apply, euler, bind, Except.bind, pure, Except.pure]

end Sympkf.Integrator
