import Verif.Spec.Relation
import Verif.Lemmas.Dict
import Mathlib.LinearAlgebra.Prod

/-!
# C90: forecasts respect the linear relations that the trends preserve
-/

set_option autoImplicit false

namespace Sympkf.Integrator

open Spec

section generic

variable {K X X' : Type} [DecidableEq K] [Sub K]

omit [Sub K] in
theorem mem_of_get? {d : Dict K X} {k : K} {v : X} (h : d.get? k = some v) : (k, v) ∈ d := by
  induction d with
  | nil => simp at h
  | cons p d ih =>
    rw [Dict.get?_cons] at h
    split at h
    · rename_i e
      obtain ⟨a, b⟩ := p
      simp_all
    · exact List.mem_cons_of_mem _ (ih h)

theorem ResultRel.bind {α β α' β' : Type} {Q : α → β → Prop} {Q' : α' → β' → Prop} {x : Except PyErr α} {y : Except PyErr β}
    {k : α → Except PyErr α'} {k' : β → Except PyErr β'} (h : ResultRel Q x y) (hk : ∀ a b, Q a b → ResultRel Q' (k a) (k' b)) :
    ResultRel Q' (x >>= k) (y >>= k') := by
  cases x <;> cases y
  · exact h
  · exact h.elim
  · exact h.elim
  · exact hk _ _ h

omit [Sub K] in
theorem DictRel.set {Q : X → X' → Prop} {d : Dict K X} {d' : Dict K X'} (h : DictRel Q d d') (τ : K) {x : X} {x' : X'} (hx : Q x x') :
    DictRel Q (d.set τ x) (d'.set τ x') := by
  unfold DictRel at h ⊢
  induction h with
  | nil => exact .cons ⟨rfl, hx⟩ .nil
  | @cons a b l l' hab _ ih =>
    obtain ⟨k, v⟩ := a
    obtain ⟨k', v'⟩ := b
    obtain ⟨rfl, hv⟩ := hab
    by_cases e : k = τ
    · simp only [Dict.set, if_pos e]
      exact .cons ⟨rfl, hx⟩ ‹_›
    · simp only [Dict.set, if_neg e]
      exact .cons ⟨rfl, hv⟩ ih

theorem forecastLoop_rel (Q : X → X' → Prop) (stp : K → X → K → Except PyErr X) (stp' : K → X' → K → Except PyErr X')
    (h : ∀ t dt x x', Q x x' → ResultRel Q (stp t x dt) (stp' t x' dt)) (saved : SavedTimes K) (l : List (K × K)) :
    ∀ d d' x x', DictRel Q d d' → Q x x' →
      ResultRel (fun p q => DictRel Q p.1 q.1 ∧ Q p.2 q.2) (forecastLoop stp saved l d x) (forecastLoop stp' saved l d' x') := by
  induction l with
  | nil => intro d d' x x' hd hx; exact ⟨hd, hx⟩
  | cons p l ih =>
    intro d d' x x' hd hx
    obtain ⟨t, t'⟩ := p
    show ResultRel _ (isIn t saved >>= _) (isIn t saved >>= _)
    refine ResultRel.bind (Q := Eq) (by cases isIn t saved <;> rfl) (fun b b' hb => ?_)
    subst hb
    refine ResultRel.bind (h t (t' - t) x x' hx) (fun y y' hy => ih _ _ _ _ ?_ hy)
    cases b
    · exact hd
    · exact DictRel.set hd t hx

theorem forecast_rel (Q : X → X' → Prop) (stp : K → X → K → Except PyErr X) (stp' : K → X' → K → Except PyErr X')
    (h : ∀ t dt x x', Q x x' → ResultRel Q (stp t x dt) (stp' t x' dt)) (window : List K) (saved : SavedTimes K) (x : X) (x' : X')
    (hx : Q x x') : ResultRel (DictRel Q) (forecast stp window x saved) (forecast stp' window x' saved) := by
  refine ResultRel.bind (forecastLoop_rel Q stp stp' h _ _ [] [] x x' .nil hx) ?_
  rintro ⟨d, y⟩ ⟨d', y'⟩ ⟨hd, hy⟩
  cases hw : window.getLast? with
  | none => rfl
  | some t =>
    refine ResultRel.bind (Q := Eq) (by cases isIn t (checkSavedTimes window saved) <;> rfl) (fun b b' hb => ?_)
    subst hb
    cases b
    · exact hd
    · exact DictRel.set hd t hy

theorem predictLoop_rel (Q : X → X' → Prop) (stp : K → X → K → Except PyErr X) (stp' : K → X' → K → Except PyErr X')
    (h : ∀ t dt x x', Q x x' → ResultRel Q (stp t x dt) (stp' t x' dt)) (saved : SavedTimes K) (l : List (K × K)) :
    ∀ d d' x x', List.Forall₂ Q d d' → Q x x' →
      ResultRel (fun p q => List.Forall₂ Q p.1 q.1 ∧ Q p.2 q.2) (predictLoop stp saved l d x) (predictLoop stp' saved l d' x') := by
  induction l with
  | nil => intro d d' x x' hd hx; exact ⟨hd, hx⟩
  | cons p l ih =>
    intro d d' x x' hd hx
    obtain ⟨t, t'⟩ := p
    show ResultRel _ (isIn t saved >>= _) (isIn t saved >>= _)
    refine ResultRel.bind (Q := Eq) (by cases isIn t saved <;> rfl) (fun b b' hb => ?_)
    subst hb
    refine ResultRel.bind (h t (t' - t) x x' hx) (fun y y' hy => ih _ _ _ _ ?_ hy)
    cases b
    · exact hd
    · exact List.rel_append hd (.cons hx .nil)

theorem predict_rel (Q : X → X' → Prop) (stp : K → X → K → Except PyErr X) (stp' : K → X' → K → Except PyErr X')
    (h : ∀ t dt x x', Q x x' → ResultRel Q (stp t x dt) (stp' t x' dt)) (window : List K) (saved : SavedTimes K) (x : X) (x' : X')
    (hx : Q x x') : ResultRel (List.Forall₂ Q) (predict stp window x saved) (predict stp' window x' saved) := by
  refine ResultRel.bind (predictLoop_rel Q stp stp' h _ _ [] [] x x' .nil hx) ?_
  rintro ⟨d, y⟩ ⟨d', y'⟩ ⟨hd, hy⟩
  cases hw : window.getLast? with
  | none => rfl
  | some t =>
    refine ResultRel.bind (Q := Eq) (by cases isIn t (checkSavedTimes window saved) <;> rfl) (fun b b' hb => ?_)
    subst hb
    cases b
    · exact hd
    · exact List.rel_append hd (.cons hy .nil)

end generic

section

variable {K S S' : Type} [Field K] [DecidableEq K] [AddCommGroup S] [Module K S] [AddCommGroup S'] [Module K S']
  (R : Submodule K (S × S'))

omit [DecidableEq K] in
theorem euler_rel {f : K → S → S} {g : K → S' → S'} (h : Preserve R f g) (t dt : K) (u : S) (v : S') (huv : (u, v) ∈ R) :
    (euler f t u dt, euler g t v dt) ∈ R := R.add_mem huv (R.smul_mem dt (h t u v huv))

omit [DecidableEq K] in
theorem rk2_rel {f : K → S → S} {g : K → S' → S'} (h : Preserve R f g) (t dt : K) (u : S) (v : S') (huv : (u, v) ∈ R) :
    (rk2 f t u dt, rk2 g t v dt) ∈ R :=
  R.add_mem huv (R.smul_mem dt (h _ _ _ (R.add_mem huv (R.smul_mem _ (h t u v huv)))))

omit [DecidableEq K] in
theorem rk4_rel {f : K → S → S} {g : K → S' → S'} (h : Preserve R f g) (t dt : K) (u : S) (v : S') (huv : (u, v) ∈ R) :
    (rk4 f t u dt, rk4 g t v dt) ∈ R := by
  have k1 := h t u v huv
  have k2 := h (t + dt * (1/2)) _ _ (R.add_mem huv (R.smul_mem (dt * (1/2)) k1))
  have k3 := h (t + dt * (1/2)) _ _ (R.add_mem huv (R.smul_mem (dt * (1/2)) k2))
  have k4 := h (t + dt) _ _ (R.add_mem huv (R.smul_mem dt k3))
  exact R.add_mem huv (R.smul_mem (dt / 6) (R.add_mem (R.add_mem (R.add_mem k1 (R.smul_mem 2 k2)) (R.smul_mem 2 k3)) k4))

omit [DecidableEq K] in
theorem leapfrog_rel {f : K → S → S} {g : K → S' → S'} (h : Preserve R f g) (t dt : K) (u u' : S) (v v' : S') (h0 : (u, v) ∈ R)
    (h1 : (u', v') ∈ R) : (u', v') ∈ R ∧ ((leapfrog f t (u, u') dt).2, (leapfrog g t (v, v') dt).2) ∈ R :=
  ⟨h1, R.add_mem h0 (R.smul_mem (2 * dt) (h t _ _ h1))⟩

omit [DecidableEq K] in
theorem step_rel (s : Scheme) (tr : TrendObj K S) (tr' : TrendObj K S') (h : TrendRel R tr tr') (t dt : K) (x : StateObj S)
    (x' : StateObj S') (hx : StateRel R x x') : ResultRel (StateRel R) (step s tr t x dt) (step s tr' t x' dt) := by
  have hsplit : ∀ (l : List (FractionStep K S)) (l' : List (FractionStep K S')), TrendRel R (.steps l) (.steps l') →
      ∀ u v, (u, v) ∈ R → ResultRel (fun u v => (u, v) ∈ R) (timeSplitting l t u dt) (timeSplitting l' t v dt) := by
    intro l l' hl
    induction hl with
    | nil => intro u v huv; exact huv
    | @cons a b l l' hab _ ih =>
      intro u v huv
      show ResultRel _ (a.apply t u dt >>= fun w => timeSplitting l t w dt) (b.apply t v dt >>= fun w => timeSplitting l' t w dt)
      refine ResultRel.bind ?_ ih
      obtain ⟨h1, h2, h3⟩ := hab
      obtain ⟨up, tr, sc⟩ := a
      obtain ⟨up', tr', sc'⟩ := b
      cases up <;> cases up' <;> first | exact h1.elim | skip
      · cases tr <;> cases tr' <;> first | exact h2.elim | skip
        · rfl
        · cases sc <;> cases sc' <;> first | exact h3.elim | skip
          · rfl
          · exact h3 _ _ h2 t dt u v huv
      · exact h1 t dt u v huv
  cases tr <;> cases tr' <;> first | exact h.elim | skip
  · cases x <;> cases x' <;> first | exact hx.elim | skip
    · cases s <;> first | rfl | skip
      · exact rk4_rel R h t dt _ _ hx
      · exact rk2_rel R h t dt _ _ hx
      · exact euler_rel R h t dt _ _ hx
    · cases s <;> first | rfl | skip
      exact leapfrog_rel R h t dt _ _ _ _ hx.1 hx.2
  · rename_i l l'
    cases x <;> cases x' <;> first | exact hx.elim | skip
    · rename_i u v
      cases s <;> first | rfl | skip
      have := hsplit l l' h u v hx
      show ResultRel _ ((timeSplitting l t u dt).map StateObj.single) ((timeSplitting l' t v dt).map StateObj.single)
      cases h1 : timeSplitting l t u dt <;> cases h2 : timeSplitting l' t v dt <;> rw [h1, h2] at this <;> exact this
    · cases s <;> rfl

/-- **C90** If the two trends preserve the linear relation `R`, then forecasts with any of the schemes, over any window, started from
related states, raise the same exception, or give the same saved times and related states. -/
theorem C90_forecast (s : Scheme) (tr : TrendObj K S) (tr' : TrendObj K S') (h : TrendRel R tr tr') (window : List K)
    (saved : SavedTimes K) (x : StateObj S) (x' : StateObj S') (hx : StateRel R x x') :
    ResultRel (DictRel (StateRel R)) (forecast (step s tr) window x saved) (forecast (step s tr') window x' saved) :=
  forecast_rel _ _ _ (fun t dt _ _ => step_rel R s tr tr' h t dt _ _) window saved x x' hx

/-- **C90** for `predict`. -/
theorem C90_predict (s : Scheme) (tr : TrendObj K S) (tr' : TrendObj K S') (h : TrendRel R tr tr') (window : List K)
    (saved : SavedTimes K) (x : StateObj S) (x' : StateObj S') (hx : StateRel R x x') :
    ResultRel (List.Forall₂ (StateRel R)) (predict (step s tr) window x saved) (predict (step s tr') window x' saved) :=
  predict_rel _ _ _ (fun t dt _ _ => step_rel R s tr tr' h t dt _ _) window saved x x' hx

omit [DecidableEq K] in
theorem stateRel_graph (P : S →ₗ[K] S') (x : StateObj S) (x' : StateObj S') : StateRel P.graph x x' ↔ x' = mapState P x := by
  cases x <;> cases x' <;> simp [StateRel, mapState, LinearMap.mem_graph_iff]

/-- **C90** If a linear map turns a trend into another one, it turns the forecasts into the forecasts, with every scheme of a trend. -/
theorem C90_linear_map (s : Scheme) (P : S →ₗ[K] S') (f : K → S → S) (g : K → S' → S') (h : ∀ t u, g t (P u) = P (f t u))
    (window : List K) (saved : SavedTimes K) (x : StateObj S) :
    forecast (step s (.fn g)) window (mapState P x) saved =
      (forecast (step s (.fn f)) window x saved).map (fun d => d.map (fun p => (p.1, mapState P p.2))) := by
  have hp : TrendRel P.graph (.fn f) (.fn g) := by
    intro t u v huv
    have huv : v = P u := huv
    show g t v = P (f t u)
    rw [huv, h]
  have := C90_forecast P.graph s (.fn f) (.fn g) hp window saved x _ ((stateRel_graph P x _).2 rfl)
  cases h1 : forecast (step s (.fn f)) window x saved <;> cases h2 : forecast (step s (.fn g)) window (mapState P x) saved <;>
    rw [h1, h2] at this
  · exact congrArg Except.error this.symm
  · exact this.elim
  · exact this.elim
  · refine congrArg Except.ok ?_
    rename_i d d'
    have h3 : List.Forall₂ (fun p q => p.1 = q.1 ∧ StateRel P.graph p.2 q.2) d d' := this
    clear this h1 h2
    induction h3 with
    | nil => rfl
    | cons hab _ ih =>
      refine List.cons_eq_cons.2 ⟨?_, ih⟩
      exact Prod.ext hab.1.symm ((stateRel_graph P _ _).1 hab.2)

/-- **C90** A subspace that the trend preserves is preserved by the forecasts. -/
theorem C90_subspace (s : Scheme) (W : Submodule K S) (f : K → S → S) (h : ∀ t, ∀ u ∈ W, f t u ∈ W) (window : List K)
    (saved : SavedTimes K) (x0 : StateObj S) (h0 : ∀ u ∈ arrays x0, u ∈ W) (d : Dict K (StateObj S))
    (hd : forecast (step s (.fn f)) window x0 saved = .ok d) (τ : K) (x : StateObj S) (hx : d.get? τ = some x) :
    ∀ u ∈ arrays x, u ∈ W := by
  have hp : TrendRel (W.prod ⊤ : Submodule K (S × S)) (.fn f) (.fn f) := fun t u v huv => ⟨h t u huv.1, trivial⟩
  have hrel : ∀ y : StateObj S, StateRel (W.prod ⊤ : Submodule K (S × S)) y y ↔ ∀ u ∈ arrays y, u ∈ W := by
    intro y
    cases y <;> simp [StateRel, arrays]
  have := C90_forecast _ s _ _ hp window saved x0 x0 ((hrel x0).2 h0)
  rw [hd] at this
  have h3 : List.Forall₂ (fun p q => p.1 = q.1 ∧ StateRel (W.prod ⊤ : Submodule K (S × S)) p.2 q.2) d d := this
  rw [List.forall₂_same] at h3
  exact (hrel x).1 (h3 _ (mem_of_get? hx)).2

end

/-! ## Cases -/

/-- A nonautonomous nonlinear model with two components, and the same one with the components in the other order. -/
def lotka (t : ℚ) (u : ℚ × ℚ) : ℚ × ℚ := (u.1 - t * u.1 * u.2, u.1 * u.2)
def lotka' (t : ℚ) (u : ℚ × ℚ) : ℚ × ℚ := (u.2 * u.1, u.2 - t * u.2 * u.1)

/-- The case of `C90_linear_map`: the exchange of the components. -/
example (s : Scheme) (window : List ℚ) (saved : SavedTimes ℚ) (x : StateObj (ℚ × ℚ)) :
    forecast (step s (.fn lotka')) window (mapState Prod.swap x) saved =
      (forecast (step s (.fn lotka)) window x saved).map (fun d => d.map (fun p => (p.1, mapState Prod.swap p.2))) :=
  C90_linear_map s (LinearEquiv.prodComm ℚ ℚ ℚ).toLinearMap lotka lotka' (fun _ _ => rfl) window saved x

/-- The case of `C90_subspace`: with two equal components, two equal trends. -/
example : (∀ t : ℚ, ∀ u ∈ LinearMap.eqLocus (LinearMap.fst ℚ ℚ ℚ) (LinearMap.snd ℚ ℚ ℚ),
      (u.2 ^ 2 + t, u.1 * u.2 + t) ∈ LinearMap.eqLocus (LinearMap.fst ℚ ℚ ℚ) (LinearMap.snd ℚ ℚ ℚ)) ∧
    ((2, 2) : ℚ × ℚ) ∈ LinearMap.eqLocus (LinearMap.fst ℚ ℚ ℚ) (LinearMap.snd ℚ ℚ ℚ) ∧
    ((2, 1) : ℚ × ℚ) ∉ LinearMap.eqLocus (LinearMap.fst ℚ ℚ ℚ) (LinearMap.snd ℚ ℚ ℚ) := by
  refine ⟨?_, ?_, ?_⟩
  · intro t u hu
    have hu : u.1 = u.2 := hu
    show u.2 ^ 2 + t = u.1 * u.2 + t
    rw [hu, sq]
  · show (2 : ℚ) = 2
    rfl
  · intro h
    exact absurd (show (2 : ℚ) = 1 from h) (by decide)

/-- The case of `C90_forecast` for splitting: a fraction step with an update and a fraction step with a trend and a scheme, and the
ones with the components in the other order. -/
example : TrendRel (LinearEquiv.prodComm ℚ ℚ ℚ).toLinearMap.graph
    (.steps [⟨some fun t u dt => (u.1 * (1 + dt * t), u.2), none, none⟩, ⟨none, some lotka, some rk2⟩])
    (.steps [⟨some fun t u dt => (u.1, u.2 * (1 + dt * t)), none, none⟩, ⟨none, some lotka', some rk2⟩]) := by
  have hl : Preserve (LinearEquiv.prodComm ℚ ℚ ℚ).toLinearMap.graph lotka lotka' := by
    intro t u v huv
    obtain rfl : v = u.swap := huv
    rfl
  refine .cons ⟨?_, trivial, trivial⟩ (.cons ⟨trivial, hl, ?_⟩ .nil)
  · intro t dt u v huv
    obtain rfl : v = u.swap := huv
    rfl
  · intro f g h t dt u v huv
    exact rk2_rel _ h t dt u v huv

end Sympkf.Integrator
