import Mathlib.Analysis.Calculus.ContDiff.RCLike
import Verif.Spec.FDSystem

/-!
# Consistency of the finite differences of expressions
-/

set_option autoImplicit false

namespace Sympkf.FinDiff

open Text Spec.FDSystem

variable {S : Finset Str}

/-! ### Functions of finitely many coordinates -/

/-- The coordinates `S` of a point. -/
def restr (S : Finset Str) (p : Str → ℝ) : S → ℝ := fun x => p x

/-- Variables as coordinates of `S`. -/
def varsIn (S : Finset Str) (vars : List (Str × ℕ)) : List (S × ℕ) :=
  vars.filterMap (fun v => if h : v.1 ∈ S then some (⟨v.1, h⟩, v.2) else none)

theorem restr_update (p : Str → ℝ) (x : Str) (hx : x ∈ S) (s : ℝ) :
    restr S (Function.update p x s) = Function.update (restr S p) ⟨x, hx⟩ s := by
  funext y
  obtain ⟨y, hy⟩ := y
  by_cases h : y = x
  · subst h; simp [restr]
  · rw [Function.update_of_ne (by simpa using h)]
    simp [restr, h]

theorem varsIn_cons (x : Str) (o : ℕ) (vars : List (Str × ℕ)) (hx : x ∈ S) :
    varsIn S ((x, o) :: vars) = (⟨x, hx⟩, o) :: varsIn S vars := by
  unfold varsIn
  rw [List.filterMap_cons_some (b := (⟨x, hx⟩, o))]
  simp [hx]

theorem fdMixed_restr (h : Str → ℝ) (vars : List (Str × ℕ)) (hv : ∀ v ∈ vars, v.1 ∈ S) (g : (S → ℝ) → ℝ) (p : Str → ℝ) :
    fdMixed h vars (fun p => g (restr S p)) p = fdMixed (fun x : S => h x) (varsIn S vars) g (restr S p) := by
  induction vars generalizing g with
  | nil => rfl
  | cons v vars ih =>
    obtain ⟨x, o⟩ := v
    have hx : x ∈ S := hv (x, o) (by simp)
    rw [varsIn_cons x o vars hx]
    show fdMixed h vars (fdAlong h x o _) p = fdMixed _ (varsIn S vars) (fdAlong _ _ o g) (restr S p)
    rw [← ih (fun v hv' => hv v (List.mem_cons_of_mem _ hv'))]
    congr 1
    funext q
    unfold fdAlong
    simp only [restr_update q x hx]
    rfl

theorem pd_restr (x : Str) (hx : x ∈ S) (g : (S → ℝ) → ℝ) :
    pd x (fun p => g (restr S p)) = fun p => pd (⟨x, hx⟩ : S) g (restr S p) := by
  funext q
  unfold pd
  simp only [restr_update q x hx]
  rfl

theorem pd_iter_restr (x : Str) (hx : x ∈ S) (o : ℕ) (g : (S → ℝ) → ℝ) :
    (pd x)^[o] (fun p => g (restr S p)) = fun p => (pd (⟨x, hx⟩ : S))^[o] g (restr S p) := by
  induction o generalizing g with
  | zero => rfl
  | succ o ih => rw [Function.iterate_succ_apply, pd_restr x hx, ih, Function.iterate_succ_apply]

theorem pdMixed_restr (vars : List (Str × ℕ)) (hv : ∀ v ∈ vars, v.1 ∈ S) (g : (S → ℝ) → ℝ) (p : Str → ℝ) :
    pdMixed vars (fun p => g (restr S p)) p = pdMixed (varsIn S vars) g (restr S p) := by
  induction vars generalizing g with
  | nil => rfl
  | cons v vars ih =>
    obtain ⟨x, o⟩ := v
    have hx : x ∈ S := hv (x, o) (by simp)
    rw [varsIn_cons x o vars hx]
    show pdMixed vars ((pd x)^[o] _) p = pdMixed (varsIn S vars) ((pd _)^[o] g) (restr S p)
    rw [← ih (fun v hv' => hv v (List.mem_cons_of_mem _ hv')), pd_iter_restr x hx]

/-! ### Approximation at second order -/

/-- A continuous function of the coordinates `S`. -/
def ContIn (S : Finset Str) (f : (Str → ℝ) → ℝ) : Prop := ∃ g : (S → ℝ) → ℝ, Continuous g ∧ ∀ p, f p = g (restr S p)

/-- `F h` is `f` up to the squares of the steps, uniformly on the cube of size `R`. -/
def Near (S : Finset Str) (R : ℝ) (F : (Str → ℝ) → (Str → ℝ) → ℝ) (f : (Str → ℝ) → ℝ) : Prop :=
  ∃ C δ : ℝ, 0 ≤ C ∧ 0 < δ ∧ ∀ h : Str → ℝ, (∀ x ∈ S, h x ≠ 0 ∧ |h x| ≤ δ) → ∀ p : Str → ℝ, (∀ x ∈ S, |p x| ≤ R) →
    |F h p - f p| ≤ C * ∑ x ∈ S, h x ^ 2

theorem Near.refl (R : ℝ) (f : (Str → ℝ) → ℝ) : Near S R (fun _ => f) f :=
  ⟨0, 1, le_rfl, one_pos, by intro h _ p _; simp⟩

theorem Near.congr {R : ℝ} {F G : (Str → ℝ) → (Str → ℝ) → ℝ} {f : (Str → ℝ) → ℝ} (hF : Near S R F f)
    (he : ∀ h : Str → ℝ, (∀ x ∈ S, h x ≠ 0) → ∀ p, G h p = F h p) : Near S R G f := by
  obtain ⟨C, δ, hC, hδ, hF⟩ := hF
  exact ⟨C, δ, hC, hδ, fun h hh p hp => by rw [he h (fun x hx => (hh x hx).1)]; exact hF h hh p hp⟩

theorem norm_restr_le (p : Str → ℝ) (R : ℝ) (hR : 0 ≤ R) (hp : ∀ x ∈ S, |p x| ≤ R) : ‖restr S p‖ ≤ R :=
  (pi_norm_le_iff_of_nonneg hR).2 (fun x => hp x.1 x.2)

theorem sum_sq_steps_nonneg (h : Str → ℝ) : 0 ≤ ∑ x ∈ S, h x ^ 2 := Finset.sum_nonneg (fun _ _ => sq_nonneg _)

theorem sum_sq_steps_le (h : Str → ℝ) (δ : ℝ) (hh : ∀ x ∈ S, |h x| ≤ δ) : ∑ x ∈ S, h x ^ 2 ≤ S.card * δ ^ 2 := by
  have : ∑ x ∈ S, h x ^ 2 ≤ ∑ _x ∈ S, δ ^ 2 := Finset.sum_le_sum (fun x hx => by
    rw [← sq_abs]; exact pow_le_pow_left₀ (abs_nonneg _) (hh x hx) 2)
  simpa using this

theorem ContIn.bounded {f : (Str → ℝ) → ℝ} (hf : ContIn S f) (R : ℝ) :
    ∃ M, 0 ≤ M ∧ ∀ p : Str → ℝ, (∀ x ∈ S, |p x| ≤ R) → |f p| ≤ M := by
  obtain ⟨g, hg, hfg⟩ := hf
  obtain ⟨M, hM, h⟩ := bounded_on_ball g hg (max R 0)
  refine ⟨M, hM, fun p hp => ?_⟩
  rw [hfg]
  exact h _ (norm_restr_le p _ (le_max_right _ _) (fun x hx => (hp x hx).trans (le_max_left _ _)))

theorem Near.add {R : ℝ} {F G : (Str → ℝ) → (Str → ℝ) → ℝ} {f g : (Str → ℝ) → ℝ} (hF : Near S R F f) (hG : Near S R G g) :
    Near S R (fun h p => F h p + G h p) (fun p => f p + g p) := by
  obtain ⟨C, δ, hC, hδ, hF⟩ := hF
  obtain ⟨C', δ', hC', hδ', hG⟩ := hG
  refine ⟨C + C', min δ δ', by positivity, lt_min hδ hδ', fun h hh p hp => ?_⟩
  have h1 := hF h (fun x hx => ⟨(hh x hx).1, (hh x hx).2.trans (min_le_left _ _)⟩) p hp
  have h2 := hG h (fun x hx => ⟨(hh x hx).1, (hh x hx).2.trans (min_le_right _ _)⟩) p hp
  rw [show F h p + G h p - (f p + g p) = (F h p - f p) + (G h p - g p) by ring, add_mul]
  exact (abs_add_le _ _).trans (add_le_add h1 h2)

theorem Near.mul {R : ℝ} {F G : (Str → ℝ) → (Str → ℝ) → ℝ} {f g : (Str → ℝ) → ℝ} (hF : Near S R F f) (hG : Near S R G g)
    (hf : ContIn S f) (hg : ContIn S g) : Near S R (fun h p => F h p * G h p) (fun p => f p * g p) := by
  obtain ⟨C, δ, hC, hδ, hF⟩ := hF
  obtain ⟨C', δ', hC', hδ', hG⟩ := hG
  obtain ⟨M, hM, hfM⟩ := hf.bounded R
  obtain ⟨M', hM', hgM⟩ := hg.bounded R
  refine ⟨C * M' + M * C' + C * C' * S.card, min 1 (min δ δ'), by positivity, by positivity, fun h hh p hp => ?_⟩
  have h1 := hF h (fun x hx => ⟨(hh x hx).1, (hh x hx).2.trans ((min_le_right _ _).trans (min_le_left _ _))⟩) p hp
  have h2 := hG h (fun x hx => ⟨(hh x hx).1, (hh x hx).2.trans ((min_le_right _ _).trans (min_le_right _ _))⟩) p hp
  have h3 := hfM p hp
  have h4 := hgM p hp
  have hs0 := sum_sq_steps_nonneg (S := S) h
  have hs1 := sum_sq_steps_le (S := S) h 1 (fun x hx => (hh x hx).2.trans (min_le_left _ _))
  generalize ∑ x ∈ S, h x ^ 2 = s at *
  rw [show F h p * G h p - f p * g p = (F h p - f p) * g p + f p * (G h p - g p) + (F h p - f p) * (G h p - g p) by ring]
  have e1 : |(F h p - f p) * g p| ≤ C * s * M' := by
    rw [abs_mul]; exact mul_le_mul h1 h4 (abs_nonneg _) (by positivity)
  have e2 : |f p * (G h p - g p)| ≤ M * (C' * s) := by
    rw [abs_mul]; exact mul_le_mul h3 h2 (abs_nonneg _) hM
  have e3 : |(F h p - f p) * (G h p - g p)| ≤ C * s * (C' * s) := by
    rw [abs_mul]; exact mul_le_mul h1 h2 (abs_nonneg _) (by positivity)
  have e4 : C * s * (C' * s) ≤ C * C' * S.card * s := by
    have : C * C' * s * s ≤ C * C' * s * (S.card * 1 ^ 2) := mul_le_mul_of_nonneg_left hs1 (by positivity)
    nlinarith
  refine (abs_add_le _ _).trans ?_
  refine (add_le_add_left (abs_add_le _ _) _).trans ?_
  nlinarith

/-- A function that is `C¹` at the points of a compact set is Lipschitz near it. -/
theorem lipschitz_near (φ : ℝ → ℝ) (A : Set ℝ) (hA : IsCompact A) (hφ : ∀ y ∈ A, ContDiffAt ℝ 1 φ y) :
    ∃ L δ : ℝ, 0 ≤ L ∧ 0 < δ ∧ ∀ y ∈ A, ∀ x, |x - y| ≤ δ → |φ x - φ y| ≤ L * |x - y| := by
  refine hA.induction_on (p := fun s => ∃ L δ : ℝ, 0 ≤ L ∧ 0 < δ ∧ ∀ y ∈ s, ∀ x, |x - y| ≤ δ → |φ x - φ y| ≤ L * |x - y|)
    ⟨0, 1, le_rfl, one_pos, by simp⟩ ?_ ?_ ?_
  · rintro s t hst ⟨L, δ, hL, hδ, h⟩
    exact ⟨L, δ, hL, hδ, fun y hy => h y (hst hy)⟩
  · rintro s t ⟨L, δ, hL, hδ, h⟩ ⟨L', δ', hL', hδ', h'⟩
    refine ⟨max L L', min δ δ', le_max_of_le_left hL, lt_min hδ hδ', ?_⟩
    rintro y (hy | hy) x hx
    · exact (h y hy x (hx.trans (min_le_left _ _))).trans (mul_le_mul_of_nonneg_right (le_max_left _ _) (abs_nonneg _))
    · exact (h' y hy x (hx.trans (min_le_right _ _))).trans (mul_le_mul_of_nonneg_right (le_max_right _ _) (abs_nonneg _))
  · intro y hy
    obtain ⟨k, t, ht, hl⟩ := (hφ y hy).exists_lipschitzOnWith
    obtain ⟨r, hr, hrt⟩ := Metric.mem_nhds_iff.1 ht
    refine ⟨Metric.ball y (r / 2), mem_nhdsWithin_of_mem_nhds (Metric.ball_mem_nhds y (by positivity)), k, r / 3, k.2, by positivity, ?_⟩
    intro z hz x hx
    have hz' : |z - y| < r / 2 := by simpa [Real.dist_eq] using hz
    have hx' : |x - y| < r := by
      have := abs_add_le (x - z) (z - y)
      rw [sub_add_sub_cancel] at this
      linarith
    have := hl.dist_le_mul x (hrt (by simpa [Real.dist_eq] using hx')) z (hrt (by
      simp only [Metric.mem_ball, Real.dist_eq]; linarith))
    simpa [Real.dist_eq] using this

theorem Near.comp {R : ℝ} {F : (Str → ℝ) → (Str → ℝ) → ℝ} {f : (Str → ℝ) → ℝ} (hF : Near S R F f) (hf : ContIn S f) (φ : ℝ → ℝ)
    (hφ : ∀ p, ContDiffAt ℝ 1 φ (f p)) : Near S R (fun h p => φ (F h p)) (fun p => φ (f p)) := by
  obtain ⟨C, δ, hC, hδ, hF⟩ := hF
  obtain ⟨g, hg, hfg⟩ := hf
  have hφ' : ∀ y ∈ g '' Metric.closedBall 0 (max R 0), ContDiffAt ℝ 1 φ y := by
    rintro _ ⟨q, -, rfl⟩
    have := hφ (fun x => if h : x ∈ S then q ⟨x, h⟩ else 0)
    rw [hfg] at this
    have e : restr S (fun x => if h : x ∈ S then q ⟨x, h⟩ else 0) = q := by
      funext x; simp [restr]
    rwa [e] at this
  obtain ⟨L, η, hL, hη, hl⟩ := lipschitz_near φ _ ((isCompact_closedBall (0 : S → ℝ) (max R 0)).image hg) hφ'
  refine ⟨L * C, min δ (min 1 (η / (C * S.card + 1))), by positivity, by positivity, fun h hh p hp => ?_⟩
  have h1 := hF h (fun x hx => ⟨(hh x hx).1, (hh x hx).2.trans (min_le_left _ _)⟩) p hp
  have hs0 := sum_sq_steps_nonneg (S := S) h
  set r := min 1 (η / (C * S.card + 1)) with hr
  have hr0 : 0 < r := by positivity
  have hs1 := sum_sq_steps_le (S := S) h r (fun x hx => (hh x hx).2.trans (min_le_right _ _))
  have hr2 : r ^ 2 ≤ η / (C * S.card + 1) := by
    have h1 : r ≤ 1 := min_le_left _ _
    have h2 : r ≤ η / (C * S.card + 1) := min_le_right _ _
    nlinarith
  have hsmall : C * ∑ x ∈ S, h x ^ 2 ≤ η := by
    have hden : (0 : ℝ) < C * S.card + 1 := by positivity
    calc C * ∑ x ∈ S, h x ^ 2 ≤ C * (S.card * r ^ 2) := mul_le_mul_of_nonneg_left hs1 hC
      _ = (C * S.card) * r ^ 2 := by ring
      _ ≤ (C * S.card) * (η / (C * S.card + 1)) := mul_le_mul_of_nonneg_left hr2 (by positivity)
      _ ≤ (C * S.card + 1) * (η / (C * S.card + 1)) := by
        refine mul_le_mul_of_nonneg_right (by linarith) (by positivity)
      _ = η := by field_simp
  have hmem : f p ∈ g '' Metric.closedBall 0 (max R 0) := by
    rw [hfg]
    refine ⟨_, ?_, rfl⟩
    rw [mem_closedBall_zero_iff]
    exact norm_restr_le p _ (le_max_right _ _) (fun x hx => (hp x hx).trans (le_max_left _ _))
  have h2 := hl (f p) hmem (F h p) (h1.trans hsmall)
  refine h2.trans ?_
  rw [mul_assoc]
  exact mul_le_mul_of_nonneg_left h1 hL

theorem Near.mixed {f : (Str → ℝ) → ℝ} (hf : SmoothIn S f) (R : ℝ) (vars : List (Str × ℕ)) (hv : ∀ v ∈ vars, v.1 ∈ S) :
    Near S R (fun h => fdMixed h vars f) (pdMixed vars f) := by
  obtain ⟨g, hg, hfg⟩ := hf
  have he : f = fun p => g (restr S p) := funext hfg
  obtain ⟨C, hC, hb⟩ := fdMixed_bound (varsIn S vars) g hg (max R 0)
  refine ⟨C * (varsIn S vars).length, 1, by positivity, one_pos, fun h hh p hp => ?_⟩
  rw [he]
  simp only [fdMixed_restr h vars hv, pdMixed_restr vars hv]
  refine (hb (fun x : S => h x) (fun x => (hh x.1 x.2).1) (fun x => (hh x.1 x.2).2) _
    (norm_restr_le p _ (le_max_right _ _) (fun x hx => (hp x hx).trans (le_max_left _ _)))).trans ?_
  rw [mul_assoc]
  refine mul_le_mul_of_nonneg_left ?_ hC
  have := List.sum_le_card_nsmul ((varsIn S vars).map (fun p => h p.1 ^ 2)) (∑ x ∈ S, h x ^ 2) (by
    intro y hy
    rw [List.mem_map] at hy
    obtain ⟨v, -, rfl⟩ := hy
    exact Finset.single_le_sum (f := fun x => h x ^ 2) (fun _ _ => sq_nonneg _) v.1.2)
  simpa using this

/-! ### Expressions -/

theorem SmoothIn.contIn {f : (Str → ℝ) → ℝ} (hf : SmoothIn S f) : ContIn S f := by
  obtain ⟨g, hg, h⟩ := hf
  exact ⟨g, hg.continuous, h⟩

theorem contIn_exact (env : Env ℝ) (e : FExpr) (he : Admissible S env e) : ContIn S (exact env e) := by
  induction e with
  | num q => exact ⟨fun _ => q, continuous_const, fun _ => rfl⟩
  | sym s => exact ⟨fun _ => env.sym s, continuous_const, fun _ => rfl⟩
  | fn u args => exact SmoothIn.contIn he.2
  | deriv e vars ih =>
    obtain ⟨⟨u, args, rfl⟩, ⟨-, g, hg, hfg⟩, hv⟩ := he
    refine ⟨pdMixed (varsIn S vars) g, (pdMixed_smooth _ g hg).continuous, fun p => ?_⟩
    have : exact env (.fn u args) = fun p => g (restr S p) := funext hfg
    show pdMixed vars (exact env (.fn u args)) p = _
    rw [this, pdMixed_restr vars hv]
  | add a b iha ihb =>
    obtain ⟨g, hg, h⟩ := iha he.1
    obtain ⟨g', hg', h'⟩ := ihb he.2
    exact ⟨fun q => g q + g' q, hg.add hg', fun p => by simp only [exact, h, h']⟩
  | mul a b iha ihb =>
    obtain ⟨g, hg, h⟩ := iha he.1
    obtain ⟨g', hg', h'⟩ := ihb he.2
    exact ⟨fun q => g q * g' q, hg.mul hg', fun p => by simp only [exact, h, h']⟩
  | pow a n iha =>
    obtain ⟨g, hg, h⟩ := iha he.1
    refine ⟨fun q => g q ^ n, ?_, fun p => by simp only [exact, h]⟩
    rw [continuous_iff_continuousAt]
    intro q
    refine (hg.continuousAt).zpow₀ n ?_
    rcases he.2 with h0 | h0
    · exact .inr h0
    · left
      have := h0 (fun x => if h : x ∈ S then q ⟨x, h⟩ else 0)
      rw [h] at this
      have e : restr S (fun x => if h : x ∈ S then q ⟨x, h⟩ else 0) = q := by funext x; simp [restr]
      rwa [e] at this
  | func g a iha =>
    obtain ⟨k, hk, h⟩ := iha he.1
    refine ⟨fun q => env.func g (k q), ?_, fun p => by simp only [exact, h]⟩
    rw [continuous_iff_continuousAt]
    intro q
    have := he.2 (fun x => if h : x ∈ S then q ⟨x, h⟩ else 0)
    rw [h] at this
    have e : restr S (fun x => if h : x ∈ S then q ⟨x, h⟩ else 0) = q := by funext x; simp [restr]
    rw [e] at this
    exact ContinuousAt.comp (g := env.func g) this.continuousAt hk.continuousAt

theorem funOf_step (env : Env ℝ) (h : Str → ℝ) (u : Str) (args : List (Str × ℤ)) (ha : ∀ a ∈ args, a.2 = 0) :
    funOf (stepEnv S env h) h u args = exact env (.fn u args) := by
  funext p
  unfold funOf exact stepEnv
  dsimp only
  congr 1
  refine List.map_congr_left (fun a haa => ?_)
  rw [ha a haa]; simp

/-- The finite differences in an expression make its value differ by the squares of the steps. -/
theorem near_value (env : Env ℝ) (R : ℝ) (e : FExpr) (he : Admissible S env e) :
    Near S R (fun h p => value (stepEnv S env h) h p e) (exact env e) := by
  induction e with
  | num q => exact Near.refl R _
  | sym s =>
    refine (Near.refl R (exact env (.sym s))).congr (fun h _ p => ?_)
    show (stepEnv S env h).sym s = env.sym s
    unfold stepEnv
    dsimp only
    split
    · rename_i x
      by_cases hx : x ∈ S
      · exact absurd rfl (he x hx)
      · rw [if_neg hx]
    · rfl
  | fn u args =>
    refine (Near.refl R (exact env (.fn u args))).congr (fun h _ p => ?_)
    exact congrFun (funOf_step env h u args he.1) p
  | deriv e vars ih =>
    obtain ⟨⟨u, args, rfl⟩, hfn, hv⟩ := he
    refine (Near.mixed hfn.2 R vars hv).congr (fun h _ p => ?_)
    show fdMixed h vars (funOf (stepEnv S env h) h u args) p = _
    rw [funOf_step env h u args hfn.1]
  | add a b iha ihb => exact (iha he.1).add (ihb he.2)
  | mul a b iha ihb => exact (iha he.1).mul (ihb he.2) (contIn_exact env a he.1) (contIn_exact env b he.2)
  | pow a n iha =>
    refine (iha he.1).comp (contIn_exact env a he.1) (fun y => y ^ n) (fun p => ?_)
    rcases he.2 with h | h
    · lift n to ℕ using h
      simp only [zpow_natCast]
      exact (contDiff_id.pow n).contDiffAt
    · obtain ⟨k, rfl | rfl⟩ := n.eq_nat_or_neg
      · simp only [zpow_natCast]
        exact (contDiff_id.pow k).contDiffAt
      · simp only [zpow_neg, zpow_natCast]
        exact ((contDiff_id.pow k).contDiffAt).inv (pow_ne_zero _ (h p))
  | func g a iha => exact (iha he.1).comp (contIn_exact env a he.1) (env.func g) he.2

/-- Only coordinates are differentiated. -/
theorem admissible_vars {env : Env ℝ} (e : FExpr) (he : Admissible S env e) : ∀ d ∈ derivs e, ∀ v ∈ d.2, v.1 ∈ S := by
  induction e with
  | num _ | sym _ | fn _ _ => intro d hd; simp [derivs] at hd
  | deriv e vars ih =>
    obtain ⟨⟨u, args, rfl⟩, -, hv⟩ := he
    intro d hd
    simp only [derivs, List.mem_cons, List.not_mem_nil, or_false] at hd
    subst hd; exact hv
  | add a b iha ihb | mul a b iha ihb =>
    intro d hd
    rcases List.mem_append.1 hd with hd | hd
    · exact iha he.1 d hd
    · exact ihb he.2 d hd
  | pow a n iha => exact iha he.1
  | func g a iha => exact iha he.1

end Sympkf.FinDiff
