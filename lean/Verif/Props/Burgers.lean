import Verif.Spec.Burgers
import Verif.Model.Burgers
import Verif.Props.Consistency
import Verif.Lemmas.Burgers
import Verif.Props.Travel

/-!
# C77: the Burgers module
-/

set_option autoImplicit false

namespace Sympkf.Props

open Text PDE Spec.PDE FinDiff

/-! ## The order of the sets -/

theorem prognosticOf_order (iter : List Sy → List Sy) (hi : ∀ l, (iter l).Perm l) (eqs : List Equation)
    (h : ∀ e ∈ eqs, ∃ d, e.derivatives.filter Sy.timeFirst = [d]) : prognosticOf iter eqs = prognosticOf id eqs := by
  unfold prognosticOf
  induction eqs with
  | nil => rfl
  | cons e eqs ih =>
    rw [List.flatMap_cons, List.flatMap_cons, ih (fun e he => h e (List.mem_cons_of_mem _ he))]
    obtain ⟨d, hd⟩ := h e List.mem_cons_self
    have := (hi e.derivatives).filter Sy.timeFirst
    rw [hd, List.perm_singleton] at this
    rw [this, id, hd]

theorem wellNamed_perm {s s' : System} (h : (localNames s).Perm (localNames s')) (hn : WellNamed s) : WellNamed s' :=
  ⟨h.nodup hn.1, fun n hm => hn.2 n (h.mem_iff.2 hm)⟩

/-- The system does not depend on the order of the sets, when each equation has a single derivative whose first variable is the
time. -/
theorem build_order (iter : List Sy → List Sy) (hi : ∀ l, (iter l).Perm l) (eqs : List Equation) (s : System)
    (hs : System.build id eqs = .ok s) (h : ∀ e ∈ eqs, ∃ d, e.derivatives.filter Sy.timeFirst = [d]) :
    ∃ s', System.build iter eqs = .ok s' ∧ s'.prognostic = s.prognostic ∧ s'.coordinates = s.coordinates ∧
      s'.spatialCoordinates = s.spatialCoordinates ∧ s'.constantFunctions.Perm s.constantFunctions ∧
      s'.exogenous.Perm s.exogenous ∧ s'.constants.Perm s.constants ∧ s'.spatialDerivatives.Perm s.spatialDerivatives ∧
      (WellNamed s → WellNamed s') := by
  have hp := prognosticOf_order iter hi eqs h
  simp only [System.build, bind, Except.bind] at hs ⊢
  rw [hp]
  match hc : constantLoop ((functionsOf eqs).filter (· ∉ prognosticOf id eqs)) with
  | .error e => rw [hc] at hs; cases hs
  | .ok c =>
    rw [hc] at hs
    simp only [] at hs ⊢
    match hco : coordinatesOf (prognosticOf id eqs) with
    | [] => rw [hco] at hs; cases hs
    | c0 :: cs =>
      rw [hco] at hs
      simp only [] at hs ⊢
      split at hs
      · rename_i ht
        rw [if_pos ht]
        simp only [pure, Except.pure, Except.ok.injEq] at hs ⊢
        subst hs
        refine ⟨_, rfl, rfl, rfl, rfl, hi _, hi _, hi _, hi _, fun hn => ?_⟩
        refine wellNamed_perm ?_ hn
        unfold localNames
        refine .cons _ (.append (.append (.append (.append (.refl _) ?_) ?_) ?_) ?_)
        · exact (hi _).symm.map _
        · exact (hi _).symm.map _
        · exact (hi _).symm.map _
        · exact (hi _).symm.map _
      · cases hs

end Sympkf.Props

namespace Sympkf.Burgers

open Text Rand PDE Props Spec.PDE FinDiff
open PKF hiding time

/-! ## The closure -/

/-- **C77** The parametric Kalman filter of the Burgers equation has one unclosed term, so that `list(..)[0]` does not depend on the
order of the set. -/
theorem C77_unclosed : pkf.unclosedTerms [] = .ok [.ex (.mul u.epsilon (.deriv u.epsilon [(x, 4)]))] := unclosed_eq

theorem unclosedTerm_eq (iter : List Ex → List Ex) (hi : ∀ l, (iter l).Perm l) :
    unclosedTerm iter = .ok (.ex (.mul u.epsilon (.deriv u.epsilon [(x, 4)]))) := by
  simp only [unclosedTerm, bind, Except.bind, C77_unclosed]
  have := hi [.ex (.mul u.epsilon (.deriv u.epsilon [(x, 4)]))]
  rw [List.perm_singleton] at this
  rw [this]
  rfl

/-- **C77** The closure in terms of the aspect tensor has the value `3 g^2 - 2 g_xx` of the closure in terms of the metric tensor,
wherever the aspect tensor is the inverse of the metric tensor. -/
theorem C77_p18 {R : Type} [CommRing R] [Algebra ℚ R] {S : Spec.Interp R} {P : Set R} {C : Set Str} {A : Subalgebra ℚ R}
    (hS : Spec.Stochastic S A) (hC : Spec.Calculus S P C) (hx : x ∈ C) (hs : Spec.den S s ∈ P) (hg : Spec.den S g * Spec.den S s = 1) :
    Spec.den S p18Aspect = algebraMap ℚ R 3 * Spec.den S g ^ 2 + algebraMap ℚ R (-2) * S.D x (S.D x (Spec.den S g)) := by
  have e : Spec.den S g = S.pw (Spec.den S s) (-1) := by
    have h1 := hC.pw_add _ hs (-1) 1
    have h0 := hS.pw_nat (Spec.den S s) 0
    have h2 := hS.pw_nat (Spec.den S s) 1
    norm_num at h1 h0 h2
    rw [h0, h2] at h1
    calc Spec.den S g = Spec.den S g * (S.pw (Spec.den S s) (-1) * Spec.den S s) := by rw [← h1, mul_one]
      _ = (Spec.den S g * Spec.den S s) * S.pw (Spec.den S s) (-1) := by ring
      _ = _ := by rw [hg, one_mul]
  have hreg : ∀ a, Spec.Regular S P C (.fn a [time, x]) := fun a h => absurd h (by decide)
  obtain ⟨h1, -⟩ := Rand.substEx_spec hS hC g (.pow s (-1)) p18
    ⟨hreg _, ⟨hreg _, .inr hs⟩, e⟩
    ⟨⟨trivial, hreg _, .inl (by decide +kernel)⟩, trivial, hreg _, by simpa using hx⟩
  rw [p18Aspect, h1]
  have h2 := hS.pw_nat (Spec.den S g) 2
  norm_num at h2
  simp only [p18, Spec.den, Spec.derivs, h2, Function.iterate_succ, Function.iterate_zero, Function.comp_apply, id]

/-- The hypotheses of `C77_p18` hold for the travelling waves of `Props/Travel.lean`, whose metric and aspect are one. -/
example : Spec.den travel p18Aspect = algebraMap ℚ _ 3 := by
  have hg : Spec.den travel g = 1 := travelFn_metric "{g_{u,xx}}".toList (by simp)
  have hs : Spec.den travel s = 1 := travelFn_metric "{s_{u,xx}}".toList (by simp)
  have hD : travel.D x 1 = 0 := by
    have := travel_stochastic.D_mul x 1 1
    simpa using this
  have hD0 : travel.D x 0 = 0 := by
    have := travel_stochastic.D_add x 0 0
    simpa using this
  rw [C77_p18 travel_stochastic travel_calculus (.inr rfl) (by rw [hs]; intro ω p; exact one_pos) (by rw [hg, hs, one_mul]), hg, hD, hD0]
  simp

/-! ## The generated model -/

/-- The values of the three functions. -/
private noncomputable def val (u V s : Spec.Burgers.Field) : Sy → Spec.Burgers.Field
  | .fn n _ => if n = "u".toList then u else if n = "{V_{u}}".toList then V else s
  | _ => 0

/-- The values of the time and of the constant. -/
private noncomputable def cst (τ k : ℝ) (n : Str) : ℝ := if n = "t".toList then τ else k

theorem inAspect_eq (iter : List Ex → List Ex) (hi : ∀ l, (iter l).Perm l) :
    ∃ l, inAspect iter = .ok l ∧ ofEqns l = some closed := by
  simp only [inAspect, closure, bind, Except.bind, unclosedTerm_eq iter hi, pure, Except.pure]
  obtain ⟨l, h1, h2⟩ := closed_eq
  exact ⟨l, h1, h2⟩

/-- The derivatives that occur are along `x`. -/
private theorem supported_d (c : List Sy) (a : Str) (n : ℕ) (hn : 0 < n) : Supported c (.deriv (.fn a [time, x]) [(x, n)]) :=
  .deriv _ _ _ (by simp) (by simp) (by
    intro p hp
    simp only [List.mem_singleton] at hp
    subst hp
    exact ⟨hn, show x ≠ "t".toList by decide⟩)

theorem closed_evolution : Evolution [.sym .plain time, .sym .plain x] closed where
  lhs := by
    intro e he
    simp only [closed, List.mem_cons, List.not_mem_nil, or_false] at he
    rcases he with rfl | rfl | rfl <;> exact ⟨_, _, rfl⟩
  distinct := by decide +kernel
  rhs := by
    have hk : Supported [.sym .plain time, .sym .plain x] (.sym .plain "kappa".toList) := .sym _ (.inr (by decide))
    intro e he
    simp only [closed, List.mem_cons, List.not_mem_nil, or_false] at he
    rcases he with rfl | rfl | rfl <;>
      (repeat' first | exact hk | exact .num _ | exact .fn _ _ | exact supported_d _ _ _ (by decide) | refine .add ?_ ?_ | refine .mul ?_ ?_ | refine .pow ?_ ?_)
  roots := by decide +kernel

private theorem regular_d (φ : Sy → (Fin [x].length → ℝ) → ℝ) (σ : Str → ℝ) (a : Str) (n : ℕ) :
    Regular [x] φ σ (.deriv (.fn a [time, x]) [(x, n)]) :=
  ⟨⟨_, _, rfl, by decide⟩, by simp⟩

private theorem regular_pow (φ : Sy → (Fin [x].length → ℝ) → ℝ) (σ : Str → ℝ) (a : Sy) (n : ℕ) (h : Regular [x] φ σ a) :
    Regular [x] φ σ (.pow a (.num (n : ℚ))) := ⟨h, _, rfl, .inl ⟨n, rfl⟩⟩

private theorem exact_d1 (φ : Sy → (Fin [x].length → ℝ) → ℝ) (σ : Str → ℝ) (a : Sy) :
    exact [x] φ σ (.deriv a [(x, 1)]) = Spec.Burgers.dx (exact [x] φ σ a) := by
  have e1 : axesOf [x] [(x, 1)] = [(0, 1)] := by decide +kernel
  simp only [exact, e1, pdMixed, Function.iterate_succ, Function.iterate_zero, Function.comp_apply, id]
  rfl

private theorem exact_d2 (φ : Sy → (Fin [x].length → ℝ) → ℝ) (σ : Str → ℝ) (a : Sy) :
    exact [x] φ σ (.deriv a [(x, 2)]) = Spec.Burgers.dx (Spec.Burgers.dx (exact [x] φ σ a)) := by
  have e1 : axesOf [x] [(x, 2)] = [(0, 2)] := by decide +kernel
  simp only [exact, e1, pdMixed, Function.iterate_succ, Function.iterate_zero, Function.comp_apply, id]
  rfl

section Exact

variable (φ : Sy → (Fin [x].length → ℝ) → ℝ) (σ : Str → ℝ) (a b : Sy) (p : Fin [x].length → ℝ)

private theorem exact_add : exact [x] φ σ (.add a b) p = exact [x] φ σ a p + exact [x] φ σ b p := rfl

private theorem exact_mul : exact [x] φ σ (.mul a b) p = exact [x] φ σ a p * exact [x] φ σ b p := rfl

private theorem exact_num (q : ℚ) : exact [x] φ σ (.num q) p = (q : ℝ) := rfl

private theorem exact_sq : exact [x] φ σ (.pow a (.num 2)) p = exact [x] φ σ a p ^ 2 := by
  show exact [x] φ σ a p ^ (((2 : ℚ)) : ℝ) = _
  norm_num

private theorem exact_inv : exact [x] φ σ (.pow a (.num (-1))) p = (exact [x] φ σ a p)⁻¹ := by
  show exact [x] φ σ a p ^ (((-1 : ℚ)) : ℝ) = _
  rw [Rat.cast_neg, Rat.cast_one, Real.rpow_neg_one]

private theorem exact_invSq : exact [x] φ σ (.pow a (.num (-2))) p = (exact [x] φ σ a p ^ 2)⁻¹ := by
  show exact [x] φ σ a p ^ (((-2 : ℚ)) : ℝ) = _
  have : (((-2 : ℚ)) : ℝ) = ((-2 : ℤ) : ℝ) := by norm_num
  rw [this, Real.rpow_intCast]
  rfl

end Exact

private theorem closed_exact (τ k : ℝ) (u V s : Spec.Burgers.Field) (hV : ∀ p, 0 < V p) (hs : ∀ p, 0 < s p) (p : Fin 1 → ℝ) :
    (∀ e, closed[0]? = some e → exact [x] (val u V s) (cst τ k) e.rhs p = Spec.Burgers.mean k u V s p) ∧
    (∀ e, closed[1]? = some e → exact [x] (val u V s) (cst τ k) e.rhs p = Spec.Burgers.variance k u V s p) ∧
    (∀ e, closed[2]? = some e → exact [x] (val u V s) (cst τ k) e.rhs p = Spec.Burgers.aspect k u V s p) := by
  have vu : exact [x] (val u V s) (cst τ k) (.fn "u".toList [time, x]) = u := rfl
  have vV : exact [x] (val u V s) (cst τ k) (.fn "{V_{u}}".toList [time, x]) = V := rfl
  have vs : exact [x] (val u V s) (cst τ k) (.fn "{s_{u,xx}}".toList [time, x]) = s := rfl
  have vk : exact [x] (val u V s) (cst τ k) (.sym .plain "kappa".toList) = fun _ => k := rfl
  have hV0 := (hV p).ne'
  have hs0 := (hs p).ne'
  refine ⟨?_, ?_, ?_⟩ <;> rintro e ⟨rfl⟩ <;>
    simp only [exact_add, exact_mul, exact_num, exact_d1, exact_d2, exact_sq, exact_inv, exact_invSq, vu, vV, vs, vk,
      Spec.Burgers.mean, Spec.Burgers.variance, Spec.Burgers.aspect] <;>
    push_cast <;> field_simp <;> ring

/-- **C77** The finite-difference model generated from the closed parametric Kalman filter of the Burgers equation exists and is a
second-order discretisation of the three equations of `Spec/Burgers.lean`, for all smooth periodic fields with positive variance and
aspect, and whatever the order of the sets. -/
theorem C77_model (iterE : List Ex → List Ex) (hE : ∀ l, (iterE l).Perm l) (iter : List Sy → List Sy) (hi : ∀ l, (iter l).Perm l)
    (ℓ : ℝ) (hℓ : 0 < ℓ) (τ k : ℝ) (u V s : Spec.Burgers.Field)
    (hu : ContDiff ℝ (⊤ : ℕ∞) u) (hV : ContDiff ℝ (⊤ : ℕ∞) V) (hs : ContDiff ℝ (⊤ : ℕ∞) s)
    (pu : Periodic (fun _ => ℓ) u) (pV : Periodic (fun _ => ℓ) V) (ps : Periodic (fun _ => ℓ) s)
    (hVpos : ∀ p, 0 < V p) (hspos : ∀ p, 0 < s p) :
    ∃ l eqs sys, inAspect iterE = .ok l ∧ ofEqns l = some eqs ∧ System.build iter eqs = .ok sys ∧
      ∃ C δ : ℝ, 0 < δ ∧ ∀ n : ℕ, 0 < n → ℓ / n ≤ δ → ∀ attr : Str → Arr 1 ℝ, attr "kappa".toList = (fun _ => k) →
        ∃ m, sys.trend (fdArith [x] (fun _ => n) (fun _ => ℓ / n)) ⟨attr, none⟩ (fun _ => τ)
            [fun idx => u (fun _ => idx 0 * (ℓ / n)), fun idx => V (fun _ => idx 0 * (ℓ / n)), fun idx => s (fun _ => idx 0 * (ℓ / n))]
            = .ok m ∧
          ∃ a b c, m.out = [a, b, c] ∧ ∀ j < n,
            |a (fun _ => j) - Spec.Burgers.mean k u V s (fun _ => j * (ℓ / n))| ≤ C * (ℓ / n) ^ 2 ∧
            |b (fun _ => j) - Spec.Burgers.variance k u V s (fun _ => j * (ℓ / n))| ≤ C * (ℓ / n) ^ 2 ∧
            |c (fun _ => j) - Spec.Burgers.aspect k u V s (fun _ => j * (ℓ / n))| ≤ C * (ℓ / n) ^ 2 := by
  obtain ⟨l, h1, h2⟩ := inAspect_eq iterE hE
  obtain ⟨s0, hs0, q1, q2, q3, q4, q5, q6, q7⟩ : ∃ s0, System.build id closed = .ok s0 ∧
      s0.prognostic = [.fn "u".toList [time, x], .fn "{V_{u}}".toList [time, x], .fn "{s_{u,xx}}".toList [time, x]] ∧
      s0.constantFunctions = [] ∧ s0.exogenous = [] ∧ s0.constants = [.sym .plain "kappa".toList] ∧
      s0.coordinates = [.sym .plain time, .sym .plain x] ∧ s0.spatialCoordinates = [.sym .plain x] ∧ WellNamed s0 := by
    refine ⟨_, rfl, ?_⟩; decide +kernel
  obtain ⟨sys, hsys, p1, p2, p3, p4, p5, p6, -, p8⟩ := build_order iter hi closed s0 hs0 (by
    intro e he
    simp only [closed, List.mem_cons, List.not_mem_nil, or_false] at he
    rcases he with rfl | rfl | rfl
    · exact ⟨.deriv (.fn "u".toList [time, x]) [(time, 1)], by decide +kernel⟩
    · exact ⟨.deriv (.fn "{V_{u}}".toList [time, x]) [(time, 1)], by decide +kernel⟩
    · exact ⟨.deriv (.fn "{s_{u,xx}}".toList [time, x]) [(time, 1)], by decide +kernel⟩)
  refine ⟨l, closed, sys, h1, h2, hsys, ?_⟩
  rw [q2, List.perm_nil] at p4
  rw [q3, List.perm_nil] at p5
  rw [q4, List.perm_singleton] at p6
  have hreg : ∀ e ∈ closed, Regular [x] (val u V s) (cst τ k) e.rhs := by
    intro e he
    simp only [closed, List.mem_cons, List.not_mem_nil, or_false] at he
    have hd := regular_d (val u V s) (cst τ k)
    have hp2 := fun a h => regular_pow (val u V s) (cst τ k) a 2 h
    have hpV : ∀ q : ℚ, Regular [x] (val u V s) (cst τ k) (.pow (.fn "{V_{u}}".toList [time, x]) (.num q)) :=
      fun q => ⟨trivial, q, rfl, .inr hVpos⟩
    have hps : ∀ q : ℚ, Regular [x] (val u V s) (cst τ k) (.pow (.fn "{s_{u,xx}}".toList [time, x]) (.num q)) :=
      fun q => ⟨trivial, q, rfl, .inr hspos⟩
    rcases he with rfl | rfl | rfl <;>
      (repeat' first | exact trivial | exact hd _ _ | exact hpV _ | exact hps _ | exact hp2 _ (hd _ _) | refine And.intro ?_ ?_)
  obtain ⟨C, δ, hδ, H⟩ := C76_consistent iter hi closed sys hsys (by rw [p2, q5]; exact closed_evolution) (p8 q7) [x]
    (by rw [p3, q6]; rfl) (by decide) (by decide) (fun _ => ℓ) (fun _ => hℓ) (val u V s) (cst τ k)
    (by
      have h0 : ContDiff ℝ (⊤ : ℕ∞) (0 : Spec.Burgers.Field) ∧ Periodic (fun _ => ℓ) (0 : Spec.Burgers.Field) :=
        ⟨contDiff_const, fun _ _ => rfl⟩
      intro f _ _
      cases f with
      | fn n args =>
        show ContDiff ℝ (⊤ : ℕ∞) (if n = "u".toList then u else if n = "{V_{u}}".toList then V else s) ∧
          Periodic (fun _ => ℓ) (if n = "u".toList then u else if n = "{V_{u}}".toList then V else s)
        split
        · exact ⟨hu, pu⟩
        · split
          · exact ⟨hV, pV⟩
          · exact ⟨hs, ps⟩
      | _ => exact h0) hreg
  refine ⟨C, δ, hδ, fun n hn hδn attr hattr => ?_⟩
  obtain ⟨m, hm, hlen, hout⟩ := H (fun _ => n) (fun _ => hn) (fun _ => hδn) ⟨attr, none⟩ (by rw [p4]; simp) (by
    intro c hc
    rw [p6, List.mem_singleton] at hc
    cases hc
    exact hattr) (.inl p5)
  rw [p1, q1] at hm
  have hpt : ∀ idx : Fin 1 → ℕ, point (fun _ => ℓ) (fun _ => n) idx = fun _ : Fin 1 => idx 0 * (ℓ / n) := by
    intro idx
    funext i
    rw [Subsingleton.elim i 0]
    rfl
  refine ⟨m, ?_, ?_⟩
  · rw [← hm]
    have hsm : ∀ f : Spec.Burgers.Field, (fun idx : Fin 1 → ℕ => f (fun _ => idx 0 * (ℓ / n))) = sample (fun _ => ℓ) (fun _ => n) f := by
      intro f
      funext idx
      rw [sample, hpt]
    exact congrArg (sys.trend (fdArith [x] (fun _ => n) (fun _ => ℓ / n)) ⟨attr, none⟩ (fun _ => τ))
      (congrArg₂ List.cons (hsm u) (congrArg₂ List.cons (hsm V) (congrArg₂ List.cons (hsm s) rfl)))
  obtain ⟨a, b, c, habc⟩ : ∃ a b c, m.out = [a, b, c] := by
    match hmo : m.out, hlen with
    | [a, b, c], _ => exact ⟨a, b, c, rfl⟩
    | [], h => simp [closed] at h
    | [_], h => simp [closed] at h
    | [_, _], h => simp [closed] at h
    | _ :: _ :: _ :: _ :: _, h => simp [closed] at h
  refine ⟨a, b, c, habc, fun j hj => ?_⟩
  have e0 := hout 0 _ rfl a (by rw [habc]; rfl) (fun _ => j) (fun _ => hj)
  have e1 := hout 1 _ rfl b (by rw [habc]; rfl) (fun _ => j) (fun _ => hj)
  have e2 := hout 2 _ rfl c (by rw [habc]; rfl) (fun _ => j) (fun _ => hj)
  have hsum : ∑ _i : Fin [x].length, (ℓ / n) ^ 2 = (ℓ / n) ^ 2 := by simp
  rw [hsum] at e0 e1 e2
  obtain ⟨m0, m1, m2⟩ := closed_exact τ k u V s hVpos hspos (fun _ => (j : ℝ) * (ℓ / n))
  exact ⟨le_of_eq_of_le (congrArg (fun z => |a (fun _ => j) - z|) (m0 _ rfl).symm) e0,
    le_of_eq_of_le (congrArg (fun z => |b (fun _ => j) - z|) (m1 _ rfl).symm) e1,
    le_of_eq_of_le (congrArg (fun z => |c (fun _ => j) - z|) (m2 _ rfl).symm) e2⟩

/-- The hypotheses of `C77_model` hold for a sine wave whose variance and aspect vary in space. -/
example : ∃ l eqs sys, inAspect id = .ok l ∧ ofEqns l = some eqs ∧ System.build id eqs = .ok sys ∧
    ∃ δ : ℝ, 0 < δ ∧ ∀ n : ℕ, 0 < n → 2 * Real.pi / n ≤ δ → ∀ attr : Str → Arr 1 ℝ, attr "kappa".toList = (fun _ => 1) →
      ∃ m, sys.trend (fdArith [x] (fun _ => n) (fun _ => 2 * Real.pi / n)) ⟨attr, none⟩ (fun _ => 0)
          [fun idx => Real.sin (idx 0 * (2 * Real.pi / n)), fun idx => 2 + Real.cos (idx 0 * (2 * Real.pi / n)),
            fun idx => 2 + Real.sin (idx 0 * (2 * Real.pi / n))] = .ok m := by
  have hper : ∀ f : ℝ → ℝ, (∀ y, f (y + 2 * Real.pi) = f y) → Periodic (d := 1) (fun _ => 2 * Real.pi) (fun p => f (p 0)) := by
    intro f hf i p
    rw [Subsingleton.elim i 0]
    simp [hf]
  have hsm : ∀ f : ℝ → ℝ, ContDiff ℝ (⊤ : ℕ∞) f → ContDiff ℝ (⊤ : ℕ∞) (fun p : Fin 1 → ℝ => f (p 0)) :=
    fun f hf => hf.comp (contDiff_apply ℝ ℝ (0 : Fin 1))
  obtain ⟨l, eqs, sys, h1, h2, h3, _, δ, hδ, H⟩ := C77_model id (fun _ => .refl _) id (fun _ => .refl _) (2 * Real.pi) Real.two_pi_pos 0 1
    (fun p => Real.sin (p 0)) (fun p => 2 + Real.cos (p 0)) (fun p => 2 + Real.sin (p 0))
    (hsm _ Real.contDiff_sin) (hsm _ (contDiff_const.add Real.contDiff_cos)) (hsm _ (contDiff_const.add Real.contDiff_sin))
    (hper _ (fun y => by simp)) (hper (fun y => 2 + Real.cos y) (fun y => by simp)) (hper (fun y => 2 + Real.sin y) (fun y => by simp))
    (fun p => by linarith [Real.neg_one_le_cos (p 0)]) (fun p => by linarith [Real.neg_one_le_sin (p 0)])
  refine ⟨l, eqs, sys, h1, h2, h3, δ, hδ, fun n hn hδn attr hattr => ?_⟩
  obtain ⟨m, hm, -⟩ := H n hn hδn attr hattr
  exact ⟨m, hm⟩

end Sympkf.Burgers
