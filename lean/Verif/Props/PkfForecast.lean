import Verif.Spec.Film
import Verif.Props.Observe
import Verif.Props.FullyDiscrete

/-!
# C101: the forecasts of the generated model converge to the statistics of the random state
-/

set_option autoImplicit false

namespace Sympkf.PKF

open Text Rand Spec Pkf

variable {R : Type} [CommRing R] [Algebra ℚ R] {S : Interp R} {A : Subalgebra ℚ R} {P : Set R} {C : Set Str} {K : Pkf} {user : Dict Ex Ex}
  {space : List Str}

/-- The forecasts with the finite-difference model generated from the equations `l` converge to the quantities `us`, for the times of
`[a, b]`.  There are a constant `c` and a step `δ`, which depend only on the constants `L` and `r` of stability, such that on every grid with
smaller steps and on every window with smaller steps where the steps of Euler's method are stable along the true values (`StableAt`), the
forecast from an initial state at a distance at most `e0` of the true values at `a` does not raise, and is at all the saved times, on the
whole grid, at a distance at most `c (η + sum of the squares of the steps + e0)` of the true values at that time.
(If the names of the code are distinct identifiers and no square root is left; the object has the values of the constants and of the other
functions; `F` is the generated method `trend`.) -/
def Predicts (iter : List PDE.Sy → List PDE.Sy) (S : Interp R) (σ : Str → ℝ) (obs : ℝ → R →+* ((Fin space.length → ℝ) → ℝ))
    (ℓ : Fin space.length → ℝ) (a b : ℝ) (us : List R) (l : List Eqn) : Prop :=
  ∃ eqs s, PDE.ofEqns l = some eqs ∧ PDE.System.build iter eqs = .ok s ∧ s.spatialCoordinates = space.map (.sym .plain) ∧
    (Props.WellNamed s → (∀ e ∈ eqs, Spec.PDE.SquareRootFree e.rhs) → ∀ L r : ℝ, 0 ≤ L → 0 < r →
      ∃ c δ : ℝ, 0 < δ ∧ ∀ n : Fin space.length → ℕ, (∀ i, 0 < n i) → (∀ i, ℓ i / n i ≤ δ) →
      ∀ O : ℝ → PDE.Obj (PDE.Arr space.length ℝ),
      (∀ t ∈ Set.Icc a b, (∀ f ∈ s.constantFunctions, (O t).attr f.keyvar = Spec.PDE.sample ℓ n (observed S (obs t) f)) ∧
        (∀ k, PDE.Sy.sym .plain k ∈ s.constants → (O t).attr (cleanLatexName k) = fun _ => σ k) ∧
        (s.exogenous = [] ∨ (O t).exogenous = some (s.exogenous.map (fun f => Spec.PDE.sample ℓ n (observed S (obs t) f))))) →
      ∀ F, Spec.PDE.Implements (N := us.length) s (PDE.fdArith space n (fun i => ℓ i / n i)) O F →
      ∀ η window, 0 ≤ η → η ≤ δ → Spec.Partition a b η window →
      (∀ (i : ℕ) t t', window[i]? = some t → window[i + 1]? = some t' →
        Spec.PDE.StableAt n (F t) (truth obs ℓ us n t) (t' - t) L r) →
      ∀ U0 e0, 0 ≤ e0 → e0 ≤ δ → Spec.PDE.Within n e0 U0 (truth obs ℓ us n a) → ∀ saved,
      ∃ fc, Integrator.forecast (Integrator.step .euler (.fn F)) window (.single U0) (.list saved) = .ok fc ∧
        ∀ τ ∈ window, τ ∈ saved → ∃ U, fc.get? τ = some (.single U) ∧
          Spec.PDE.Within n (c * (η + ∑ i, (ℓ i / n i) ^ 2 + e0)) U (truth obs ℓ us n τ))

theorem ofEx_fn (e : Ex) (u : Str) (args : List Str) (h : PDE.ofEx e = some (.fn u args)) : e = .fn u args := by
  cases e with
  | fn u args => cases h; rfl
  | num q => cases h
  | sym s => cases h
  | func g a => obtain ⟨x, -, h⟩ := Option.bind_eq_some_iff.1 h; cases h
  | add a b =>
    obtain ⟨x, -, h⟩ := Option.bind_eq_some_iff.1 h
    obtain ⟨y, -, h⟩ := Option.bind_eq_some_iff.1 h
    cases h
  | mul a b =>
    obtain ⟨x, -, h⟩ := Option.bind_eq_some_iff.1 h
    obtain ⟨y, -, h⟩ := Option.bind_eq_some_iff.1 h
    cases h
  | pow a q => obtain ⟨x, -, h⟩ := Option.bind_eq_some_iff.1 h; cases h
  | deriv a vars => obtain ⟨x, -, h⟩ := Option.bind_eq_some_iff.1 h; cases h
  | integ a x => cases h
  | ex a => cases h
  | other b => cases h

theorem ofEx_deriv (e : Ex) (u : Str) (args : List Str) (vars : List (Str × ℕ)) (h : PDE.ofEx e = some (.deriv (.fn u args) vars)) :
    e = .deriv (.fn u args) vars := by
  cases e with
  | deriv a vars =>
    obtain ⟨x, hx, h⟩ := Option.bind_eq_some_iff.1 h
    cases h
    rw [ofEx_fn a u args hx]
  | fn u args => cases h
  | num q => cases h
  | sym s => cases h
  | func g a => obtain ⟨x, -, h⟩ := Option.bind_eq_some_iff.1 h; cases h
  | add a b =>
    obtain ⟨x, -, h⟩ := Option.bind_eq_some_iff.1 h
    obtain ⟨y, -, h⟩ := Option.bind_eq_some_iff.1 h
    cases h
  | mul a b =>
    obtain ⟨x, -, h⟩ := Option.bind_eq_some_iff.1 h
    obtain ⟨y, -, h⟩ := Option.bind_eq_some_iff.1 h
    cases h
  | pow a q => obtain ⟨x, -, h⟩ := Option.bind_eq_some_iff.1 h; cases h
  | integ a x => cases h
  | ex a => cases h
  | other b => cases h

theorem predicts_of (h : Setting S A P C K (time :: space)) (iter : List PDE.Sy → List PDE.Sy) (hi : ∀ l, (iter l).Perm l) (σ : Str → ℝ)
    (obs : ℝ → R →+* ((Fin space.length → ℝ) → ℝ)) (ℓ : Fin space.length → ℝ) (T : Field → ℕ → ℕ → Ex) (hO : Filmed S P C K user T space σ obs ℓ)
    (l : List Eqn) (gs : List Ex) (other : Str → List Str → Prop) (hgen : Generated iter l gs (time :: space) other)
    (hgs : ∀ g ∈ gs, ∃ u, g = .fn u (time :: space)) (us : List R) (hus : gs.map (den S) = us) (htr : Trends S P C us l)
    (hsm : ∀ u args, .fn u args ∈ gs ∨ other u args → Spec.PDE.SmoothFamily (fun τ => obs τ (S.fn u args)) ∧ ∀ τ, Spec.PDE.Periodic ℓ (obs τ (S.fn u args)))
    (hargs : ∀ u args, other u args → args.filter (· ≠ time) = space) (a b : ℝ) (hab : a ≤ b) : Predicts iter S σ obs ℓ a b us l := by
  obtain ⟨eqs, s, h1, h2, h3, h4, h5, h6⟩ := hgen
  obtain ⟨-, -, -, -, -, -, -, -, hsp, -⟩ := Props.build_ok iter eqs s h2
  have hnd := List.nodup_cons.1 h.nodup
  have hspace : s.spatialCoordinates = space.map (.sym .plain) := by
    rw [h4] at hsp
    exact ((List.cons.injEq _ _ _ _).mp hsp).2.symm
  refine ⟨eqs, s, h1, h2, hspace, fun hn hroots L r hL hr => ?_⟩
  obtain ⟨hev, -⟩ := h6 hn
  have hfun := functions_of iter hi gs other hgs eqs s h2 h3 h5
  have hbr := fun τ => bridge_of h iter hi _ (obs τ) ℓ T (hO.observed τ) gs other hgs eqs s h2 h3 h4 h5 hev hargs
  have hall := ofEqns_forall l eqs h1
  have hlen : s.prognostic.length = us.length := by
    rw [← hus, List.length_map]
    simpa using congrArg List.length h3
  have hconv := Props.C88_converges iter hi eqs s h2 ⟨hev, hroots⟩ hn space hspace hnd.2 hnd.1 ℓ (hO.observed a).lengths
    (fun f τ => observed S (obs τ) f) σ hab
    (fun f hf hin => by
      obtain ⟨u, args, rfl, hua⟩ := hfun f hf hin
      exact hsm u args hua)
    (fun τ _ e he => by
      obtain ⟨q, hq, -, hq2⟩ := forall₂_right hall e he
      exact (hbr τ q e he hq2 (htr.valid q hq).2.1).2)
    (fun e he f hf τ _ p => by
      obtain ⟨q, hq, hq1, hq2⟩ := forall₂_right hall e he
      have hv := htr.valid q hq
      rw [show Spec.PDE.exact space (fun g => observed S (obs τ) g) (Function.update σ "t".toList τ) e.rhs = obs τ (den S q.2) from
        (hbr τ q e he hq2 hv.2.1).1, ← hv.2.2]
      obtain ⟨u, args, hl⟩ := hev.lhs e he
      rw [hf] at hl
      injection hl with hl
      subst hl
      rw [hf] at hq1
      rw [ofEx_deriv q.1 u args _ hq1]
      exact hO.evolves _ τ p) L r hL hr
  obtain ⟨c, δ, hδ, H⟩ := hconv
  have hsampled : ∀ n τ, Props.sampled ℓ (fun f τ => observed S (obs τ) f) s n τ = fun k => truth obs ℓ us n τ (k.cast hlen) := by
    intro n τ
    funext k
    have e := congrArg (fun l => l[k.1]?) ((state_of (obs τ) ℓ n gs _ hgs h3).trans (by rw [hus]))
    have hk := k.2
    have hk' : k.1 < us.length := hlen ▸ k.2
    simp only [List.getElem?_map, List.getElem?_eq_getElem hk, List.getElem?_eq_getElem hk', Option.map_some, Option.some.injEq] at e
    exact e
  refine ⟨c, δ, hδ, fun n hn0 hns O hO' => ?_⟩
  have H1 := H n hn0 hns O hO'
  simp only [hsampled] at H1
  clear H hsampled
  revert H1
  have key : ∀ (N : ℕ) (e : s.prognostic.length = N) (V : ℝ → Fin N → PDE.Arr space.length ℝ),
      (∀ F : ℝ → (Fin s.prognostic.length → PDE.Arr space.length ℝ) → Fin s.prognostic.length → PDE.Arr space.length ℝ,
      Spec.PDE.Implements s (PDE.fdArith space n (fun i => ℓ i / n i)) O F →
      ∀ η window, 0 ≤ η → η ≤ δ → Spec.Partition a b η window →
      (∀ (i : ℕ) t t', window[i]? = some t → window[i + 1]? = some t' →
        Spec.PDE.StableAt n (F t) (fun k => V t (k.cast e)) (t' - t) L r) →
      ∀ U0 e0, 0 ≤ e0 → e0 ≤ δ → Spec.PDE.Within n e0 U0 (fun k => V a (k.cast e)) → ∀ saved,
      ∃ fc, Integrator.forecast (Integrator.step .euler (.fn F)) window (.single U0) (.list saved) = .ok fc ∧
        ∀ τ ∈ window, τ ∈ saved → ∃ U, fc.get? τ = some (.single U) ∧
          Spec.PDE.Within n (c * (η + ∑ i, (ℓ i / n i) ^ 2 + e0)) U (fun k => V τ (k.cast e))) →
      (∀ F, Spec.PDE.Implements (N := N) s (PDE.fdArith space n (fun i => ℓ i / n i)) O F →
      ∀ η window, 0 ≤ η → η ≤ δ → Spec.Partition a b η window →
      (∀ (i : ℕ) t t', window[i]? = some t → window[i + 1]? = some t' →
        Spec.PDE.StableAt n (F t) (V t) (t' - t) L r) →
      ∀ U0 e0, 0 ≤ e0 → e0 ≤ δ → Spec.PDE.Within n e0 U0 (V a) → ∀ saved,
      ∃ fc, Integrator.forecast (Integrator.step .euler (.fn F)) window (.single U0) (.list saved) = .ok fc ∧
        ∀ τ ∈ window, τ ∈ saved → ∃ U, fc.get? τ = some (.single U) ∧
          Spec.PDE.Within n (c * (η + ∑ i, (ℓ i / n i) ^ 2 + e0)) U (V τ)) := by
    intro N e V
    subst e
    exact id
  exact key us.length hlen (truth obs ℓ us n)

/-! ## The theorems -/

/-- **C101** The complete chain, in the metric form.  Let a random state, followed in time, have errors that follow the tangent-linear
dynamics and means that follow the average of the second-order expansion; let the closure of the user be true and leave no unclosed term.
The forecasts with the finite-difference model generated from `in_metric` converge to the true means, variances, cross-covariances and
metrics, where the steps are stable. -/
theorem C101_metric (h : Setting S A P C K (time :: space)) (hd : Dynamics S P C K) (ht : Tangent S K) (hmt : MeanTrend S K) (hm : Means S K)
    (htc : TrueClosure S P C user) (he : EvolutionSystem K (time :: space)) (hp : ParameterFree K) (hu : UserClosure user)
    (hG : Generates K (time :: space) user) (hclosed : K.unclosedTerms user = .ok []) (iter : List PDE.Sy → List PDE.Sy) (hi : ∀ l, (iter l).Perm l)
    (σ : Str → ℝ) (obs : ℝ → R →+* ((Fin space.length → ℝ) → ℝ)) (ℓ : Fin space.length → ℝ) (hO : Filmed S P C K user Field.metric space σ obs ℓ)
    (a b : ℝ) (hab : a ≤ b) :
    ∃ l, K.inMetric user = .ok l ∧ Predicts iter S σ obs ℓ a b (K.fields.map (fun f => S.E (den S f.random)) ++
      K.fields.map (fun f => S.E (den S f.error ^ 2)) ++ crossList S K.fields ++ components S K.fields Field.metric) l := by
  obtain ⟨r, hr, -⟩ := h.reynolds_spec hd
  obtain ⟨l, hl, hgen⟩ := C84_metric he hp ⟨r, hr⟩ hu hG hclosed iter hi
  refine ⟨l, hl, predicts_of h iter hi σ obs ℓ Field.metric hO l _ _ hgen (functions_coords he _ (fun _ _ _ => ⟨_, rfl⟩)) _ ?_
    (inMetric_trends h hd ht hmt hm user htc l hl) (fun u args hua => ⟨hO.smooth u args hua, fun τ => ((hO.observed τ).smooth u args hua).2⟩)
    (hO.observed a).args a b hab⟩
  rw [List.map_append, List.map_append, List.map_append, values_den hm, variances_den h, covariances_den h, components_den]

/-- **C101** The same for the aspect tensors, when every expectation of the four systems is a mean or is given by the closure. -/
theorem C101_aspect (h : Setting S A P C K (time :: space)) (hd : Dynamics S P C K) (ht : Tangent S K) (hmt : MeanTrend S K) (hm : Means S K)
    (hT : ∀ f ∈ K.fields, Tensor S P 1 f f.aspect)
    (htc : TrueClosure S P C user) (he : EvolutionSystem K (time :: space)) (hp : ParameterFree K) (hu : UserClosure user)
    (hG : Generates K (time :: space) user) (hcov : Covered K user) (iter : List PDE.Sy → List PDE.Sy) (hi : ∀ l, (iter l).Perm l)
    (σ : Str → ℝ) (obs : ℝ → R →+* ((Fin space.length → ℝ) → ℝ)) (ℓ : Fin space.length → ℝ) (hO : Filmed S P C K user Field.aspect space σ obs ℓ)
    (a b : ℝ) (hab : a ≤ b) :
    ∃ l, K.inAspect user = .ok l ∧ Predicts iter S σ obs ℓ a b (K.fields.map (fun f => S.E (den S f.random)) ++
      K.fields.map (fun f => S.E (den S f.error ^ 2)) ++ crossList S K.fields ++ components S K.fields Field.aspect) l := by
  obtain ⟨r, hr, -⟩ := h.reynolds_spec hd
  obtain ⟨l, hl, hgen⟩ := C84_aspect he hp ⟨r, hr⟩ hu hG hcov iter hi
  refine ⟨l, hl, predicts_of h iter hi σ obs ℓ Field.aspect hO l _ _ hgen (functions_coords he _ (fun _ _ _ => ⟨_, rfl⟩)) _ ?_
    (inAspect_trends h hd ht hmt hm hT user htc l hl)
    (fun u args hua => ⟨hO.smooth u args (hua.imp_right And.left), fun τ => ((hO.observed τ).smooth u args (hua.imp_right And.left)).2⟩)
    (fun u args hua => (hO.observed a).args u args hua.1) a b hab⟩
  rw [List.map_append, List.map_append, List.map_append, values_den hm, variances_den h, covariances_den h, components_den]

/-- **C101** The same for the diffusion tensors; the object has the true cross-covariances among the exogenous functions, when they occur. -/
theorem C101_diffusion (h : Setting S A P C K (time :: space)) (hd : Dynamics S P C K) (ht : Tangent S K) (hmt : MeanTrend S K) (hm : Means S K)
    (hT : ∀ f ∈ K.fields, Tensor S P (1 / 2) f f.diffusion)
    (htc : TrueClosure S P C user) (he : EvolutionSystem K (time :: space)) (hp : ParameterFree K) (hu : UserClosure user)
    (hG : Generates K (time :: space) user) (hcov : Covered K user) (iter : List PDE.Sy → List PDE.Sy) (hi : ∀ l, (iter l).Perm l)
    (σ : Str → ℝ) (obs : ℝ → R →+* ((Fin space.length → ℝ) → ℝ)) (ℓ : Fin space.length → ℝ) (hO : Filmed S P C K user Field.diffusion space σ obs ℓ)
    (a b : ℝ) (hab : a ≤ b) :
    ∃ l, K.inDiffusion user = .ok l ∧ Predicts iter S σ obs ℓ a b (K.fields.map (fun f => S.E (den S f.random)) ++
      K.fields.map (fun f => S.E (den S f.error ^ 2)) ++ components S K.fields Field.diffusion) l := by
  obtain ⟨r, hr, -⟩ := h.reynolds_spec hd
  obtain ⟨l, hl, hgen⟩ := C84_diffusion he hp ⟨r, hr⟩ hu hG hcov iter hi
  have hmem : ∀ g, g ∈ K.fields.map Field.value ++ K.fields.map Field.variance ++ tensorComponents K.fields Field.diffusion →
      g ∈ K.fields.map Field.value ++ K.fields.map Field.variance ++ crossCovariances (time :: space) K.fields ++
        tensorComponents K.fields Field.diffusion := by
    intro g hg
    rcases List.mem_append.1 hg with hg | hg
    · exact List.mem_append_left _ (List.mem_append_left _ hg)
    · exact List.mem_append_right _ hg
  have hcr : ∀ g, g ∈ crossCovariances (time :: space) K.fields →
      g ∈ K.fields.map Field.value ++ K.fields.map Field.variance ++ crossCovariances (time :: space) K.fields ++
        tensorComponents K.fields Field.diffusion := fun g hg => List.mem_append_left _ (List.mem_append_right _ hg)
  refine ⟨l, hl, predicts_of h iter hi σ obs ℓ Field.diffusion hO l _ _ hgen
    (fun g hg => functions_coords he Field.diffusion (fun _ _ _ => ⟨_, rfl⟩) g (hmem g hg)) _ ?_
    (inDiffusion_trends h hd ht hmt hm hT user htc l hl) (fun u args hua => ?_) (fun u args hua => ?_) a b hab⟩
  · rw [List.map_append, List.map_append, values_den hm, variances_den h, components_den]
  · have key : .fn u args ∈ K.fields.map Field.value ++ K.fields.map Field.variance ++ crossCovariances (time :: space) K.fields ++
        tensorComponents K.fields Field.diffusion ∨ Given K user u args := by
      rcases hua with hg | hc | hg
      · exact .inl (hmem _ hg)
      · exact .inl (hcr _ hc)
      · exact .inr hg.1
    exact ⟨hO.smooth u args key, fun τ => ((hO.observed τ).smooth u args key).2⟩
  · rcases hua with hc | hg
    · obtain ⟨u', e⟩ := functions_coords he Field.diffusion (fun _ _ _ => ⟨_, rfl⟩) _ (hcr _ hc)
      cases e
      have hnd := List.nodup_cons.1 h.nodup
      rw [List.filter_cons, if_neg (by simp), List.filter_eq_self]
      intro a ha
      rw [decide_eq_true_eq]
      rintro rfl
      exact hnd.1 ha
    · exact (hO.observed a).args u args hg.1

end Sympkf.PKF
