import Verif.Spec.Family
import Verif.Lemmas.Order
import Verif.Lemmas.PkfMean

/-!
# Lemmas: the jets of the perturbed dynamics are its Taylor coefficients
-/

set_option autoImplicit false

namespace Sympkf.Spec.Smooth

open Text Rand PKF Filter Topology

variable {V : Type} [NormedAddCommGroup V] [NormedSpace ℝ V]

/-- Smooth near `ε = 0`. -/
def Near (φ : ℝ × V → ℝ) : Prop := ∀ p : V, ContDiffAt ℝ (↑(⊤ : ℕ∞)) φ (0, p)

/-- Derivative along a direction. -/
noncomputable def along (v : ℝ × V) (φ : ℝ × V → ℝ) (z : ℝ × V) : ℝ := fderiv ℝ φ z v

/-- The direction of `ε`. -/
def up : ℝ × V := (1, 0)

theorem Near.along {φ : ℝ × V → ℝ} (h : Near φ) (v : ℝ × V) : Near (along v φ) := fun p =>
  ((h p).fderiv_right (m := (↑(⊤ : ℕ∞))) (by simp)).clm_apply contDiffAt_const

theorem le_inf (n : ℕ) : (n : WithTop ℕ∞) ≤ (↑(⊤ : ℕ∞)) := by exact_mod_cast le_top

theorem Near.eventually {φ : ℝ × V → ℝ} (h : Near φ) (n : ℕ) (p : V) : ∀ᶠ z in 𝓝 ((0 : ℝ), p), ContDiffAt ℝ n φ z :=
  ((h p).of_le (le_inf _)).eventually (by simp)

theorem Near.diff {φ : ℝ × V → ℝ} (h : Near φ) (p : V) : ∀ᶠ z in 𝓝 ((0 : ℝ), p), DifferentiableAt ℝ φ z :=
  (h.eventually 1 p).mono fun _ hz => hz.differentiableAt (by simp)

theorem along_congr {φ ψ : ℝ × V → ℝ} {z : ℝ × V} (h : φ =ᶠ[𝓝 z] ψ) (v : ℝ × V) : along v φ z = along v ψ z := by
  unfold along; rw [h.fderiv_eq]

theorem along_congr' {φ ψ : ℝ × V → ℝ} {z : ℝ × V} (h : φ =ᶠ[𝓝 z] ψ) (v : ℝ × V) : along v φ =ᶠ[𝓝 z] along v ψ := by
  filter_upwards [h.eventuallyEq_nhds] with y hy
  exact along_congr hy v

theorem along_add {φ ψ : ℝ × V → ℝ} (hφ : Near φ) (hψ : Near ψ) (v : ℝ × V) (p : V) :
    along v (φ + ψ) =ᶠ[𝓝 (0, p)] along v φ + along v ψ := by
  filter_upwards [hφ.diff p, hψ.diff p] with z h1 h2
  show fderiv ℝ (φ + ψ) z v = fderiv ℝ φ z v + fderiv ℝ ψ z v
  rw [fderiv_add h1 h2]; rfl

theorem along_mul {φ ψ : ℝ × V → ℝ} (hφ : Near φ) (hψ : Near ψ) (v : ℝ × V) (p : V) :
    along v (φ * ψ) =ᶠ[𝓝 (0, p)] along v φ * ψ + φ * along v ψ := by
  filter_upwards [hφ.diff p, hψ.diff p] with z h1 h2
  show fderiv ℝ (φ * ψ) z v = fderiv ℝ φ z v * ψ z + φ z * fderiv ℝ ψ z v
  rw [fderiv_mul h1 h2]
  simp only [_root_.add_apply, smul_apply, smul_eq_mul]
  ring

theorem near_add {φ ψ : ℝ × V → ℝ} (hφ : Near φ) (hψ : Near ψ) : Near (φ + ψ) := fun p => (hφ p).add (hψ p)
theorem near_mul {φ ψ : ℝ × V → ℝ} (hφ : Near φ) (hψ : Near ψ) : Near (φ * ψ) := fun p => (hφ p).mul (hψ p)

/-- Derivatives commute. -/
theorem along_comm {φ : ℝ × V → ℝ} (hφ : Near φ) (v w : ℝ × V) (p : V) :
    along v (along w φ) =ᶠ[𝓝 (0, p)] along w (along v φ) := by
  filter_upwards [hφ.eventually 2 p] with z hz
  have hd : DifferentiableAt ℝ (fderiv ℝ φ) z :=
    (hz.fderiv_right (m := 1) (by norm_num)).differentiableAt (by simp)
  have key : ∀ v w : ℝ × V, fderiv ℝ (fun q => fderiv ℝ φ q w) z v = fderiv ℝ (fderiv ℝ φ) z v w := by
    intro v w
    rw [fderiv_clm_apply hd (differentiableAt_const w)]
    simp
  have hs : IsSymmSndFDerivAt ℝ φ z := hz.isSymmSndFDerivAt (by rw [minSmoothness_of_isRCLikeNormedField]; exact le_rfl)
  show fderiv ℝ (fun q => fderiv ℝ φ q w) z v = fderiv ℝ (fun q => fderiv ℝ φ q v) z w
  rw [key, key]
  exact hs v w

/-- The derivative along a coordinate, at `ε = 0`. -/
theorem along_slice {φ : ℝ × V → ℝ} (hφ : Near φ) (r : F V) (h : ∀ p, φ (0, p) = (r : V → ℝ) p) (v : V) (p : V) :
    along (0, v) φ (0, p) = (dir v r : V → ℝ) p := by
  have h1 : HasFDerivAt (fun p : V => ((0 : ℝ), p)) (ContinuousLinearMap.inr ℝ ℝ V) p := by
    have := (hasFDerivAt_const (0 : ℝ) p).prodMk (hasFDerivAt_id (𝕜 := ℝ) p)
    exact this
  have h2 := (((hφ p).differentiableAt (by simp)).hasFDerivAt).comp p h1
  have h3 : (φ ∘ fun p : V => ((0 : ℝ), p)) = (r : V → ℝ) := funext h
  rw [h3] at h2
  rw [dir_apply, h2.fderiv]
  rfl

/-- Composition with a smooth function of one variable. -/
theorem along_comp {φ : ℝ × V → ℝ} (hφ : Near φ) {g g' : ℝ → ℝ} (v : ℝ × V) (p : V)
    (hg : ∀ᶠ y in 𝓝 (φ (0, p)), HasDerivAt g (g' y) y) :
    along v (g ∘ φ) =ᶠ[𝓝 (0, p)] (g' ∘ φ) * along v φ := by
  have hc : Tendsto φ (𝓝 (0, p)) (𝓝 (φ (0, p))) := (hφ p).continuousAt
  filter_upwards [hφ.diff p, hc.eventually hg] with z h1 h2
  show fderiv ℝ (g ∘ φ) z v = g' (φ z) * fderiv ℝ φ z v
  rw [(h2.comp_hasFDerivAt z h1.hasFDerivAt).fderiv]
  rfl

/-- The expansion of a function near `ε = 0`. -/
structure IsJet (φ : ℝ × V → ℝ) (c0 c1 c2 : F V) : Prop where
  near : Near φ
  val : ∀ p, φ (0, p) = (c0 : V → ℝ) p
  first : ∀ p, along up φ (0, p) = (c1 : V → ℝ) p
  second : ∀ p, along up (along up φ) (0, p) = 2 * (c2 : V → ℝ) p

theorem IsJet.add {φ ψ : ℝ × V → ℝ} {a0 a1 a2 b0 b1 b2 : F V} (h : IsJet φ a0 a1 a2) (h' : IsJet ψ b0 b1 b2) :
    IsJet (φ + ψ) (a0 + b0) (a1 + b1) (a2 + b2) where
  near := near_add h.near h'.near
  val p := by rw [Pi.add_apply, h.val, h'.val]; rfl
  first p := by rw [(along_add h.near h'.near up p).self_of_nhds, Pi.add_apply, h.first, h'.first]; rfl
  second p := by
    rw [along_congr (along_add h.near h'.near up p) up, (along_add (h.near.along up) (h'.near.along up) up p).self_of_nhds,
      Pi.add_apply, h.second, h'.second, add_apply]
    ring

theorem IsJet.mul {φ ψ : ℝ × V → ℝ} {a0 a1 a2 b0 b1 b2 : F V} (h : IsJet φ a0 a1 a2) (h' : IsJet ψ b0 b1 b2) :
    IsJet (φ * ψ) (a0 * b0) (a0 * b1 + a1 * b0) (a0 * b2 + a1 * b1 + a2 * b0) where
  near := near_mul h.near h'.near
  val p := by rw [Pi.mul_apply, h.val, h'.val]; rfl
  first p := by
    rw [(along_mul h.near h'.near up p).self_of_nhds, Pi.add_apply, Pi.mul_apply, Pi.mul_apply, h.first, h'.first, h.val, h'.val,
      add_apply, mul_apply, mul_apply]
    ring
  second p := by
    have n1 := h.near.along up
    have n2 := h'.near.along up
    rw [along_congr (along_mul h.near h'.near up p) up,
      (along_add (near_mul n1 h'.near) (near_mul h.near n2) up p).self_of_nhds, Pi.add_apply,
      (along_mul n1 h'.near up p).self_of_nhds, (along_mul h.near n2 up p).self_of_nhds]
    simp only [Pi.add_apply, Pi.mul_apply, h.first, h'.first, h.val, h'.val, h.second, h'.second, add_apply, mul_apply]
    ring

theorem along_const (r : F V) (z : ℝ × V) : along up (fun z : ℝ × V => (r : V → ℝ) z.2) z = 0 := by
  have h : HasFDerivAt (fun z : ℝ × V => (r : V → ℝ) z.2) ((fderiv ℝ (r : V → ℝ) z.2).comp (ContinuousLinearMap.snd ℝ ℝ V)) z :=
    ((differentiable r z.2).hasFDerivAt).comp z hasFDerivAt_snd
  show fderiv ℝ _ z up = 0
  rw [h.fderiv]
  show fderiv ℝ (r : V → ℝ) z.2 (up (V := V)).2 = 0
  exact map_zero _

theorem near_const (r : F V) : Near (fun z : ℝ × V => (r : V → ℝ) z.2) := fun _ =>
  ((contDiff r).contDiffAt).comp _ contDiffAt_snd

theorem along_zero (v : ℝ × V) (z : ℝ × V) : along v (fun _ => (0 : ℝ)) z = 0 := by
  unfold along; simp

theorem isJet_const (r : F V) : IsJet (fun z : ℝ × V => (r : V → ℝ) z.2) r 0 0 where
  near := near_const r
  val _ := rfl
  first p := along_const r _
  second p := by
    rw [show along up (fun z : ℝ × V => (r : V → ℝ) z.2) = fun _ => 0 from funext (along_const r), along_zero]
    show (0 : ℝ) = 2 * 0
    ring

/-- The small parameter. -/
theorem isJet_eps : IsJet (fun z : ℝ × V => z.1) 0 1 0 := by
  have h : ∀ z : ℝ × V, along up (fun z : ℝ × V => z.1) z = 1 := fun z => by
    show fderiv ℝ (Prod.fst : ℝ × V → ℝ) z up = 1
    rw [fderiv_fst]; rfl
  refine ⟨fun p => contDiffAt_fst, fun p => rfl, fun p => h _, fun p => ?_⟩
  rw [show along up (fun z : ℝ × V => z.1) = fun _ => 1 from funext h]
  have : along up (fun _ : ℝ × V => (1 : ℝ)) (0, p) = 0 := by unfold along; simp
  rw [this]
  show (0 : ℝ) = 2 * 0
  ring

/-- Partial derivatives. -/
theorem IsJet.dir {φ : ℝ × V → ℝ} {a0 a1 a2 : F V} (h : IsJet φ a0 a1 a2) (v : V) :
    IsJet (along (0, v) φ) (dir v a0) (dir v a1) (dir v a2) where
  near := h.near.along _
  val p := along_slice h.near a0 h.val v p
  first p := by
    rw [(along_comm h.near up (0, v) p).self_of_nhds]
    exact along_slice (h.near.along _) a1 h.first v p
  second p := by
    rw [along_congr (along_comm h.near up (0, v) p) up, (along_comm (h.near.along up) up (0, v) p).self_of_nhds]
    have e : ∀ p, along up (along up φ) (0, p) = ((a2 + a2 : F V) : V → ℝ) p := fun p => by
      rw [h.second, add_apply]; ring
    rw [along_slice ((h.near.along _).along _) _ e v p, dir_add, add_apply]
    ring

/-- Functions of one variable. -/
theorem IsJet.comp {φ : ℝ × V → ℝ} {a0 a1 a2 : F V} (h : IsJet φ a0 a1 a2) (g g1 g2 : ℝ → ℝ)
    (hg : ∀ p, ContDiffAt ℝ (↑(⊤ : ℕ∞)) g ((a0 : V → ℝ) p)) (hg1 : ∀ p, ContDiffAt ℝ (↑(⊤ : ℕ∞)) g1 ((a0 : V → ℝ) p))
    (h1 : ∀ p, ∀ᶠ y in 𝓝 ((a0 : V → ℝ) p), HasDerivAt g (g1 y) y)
    (h2 : ∀ p, ∀ᶠ y in 𝓝 ((a0 : V → ℝ) p), HasDerivAt g1 (g2 y) y) (f0 f1 f2 : F V)
    (e0 : ∀ p, (f0 : V → ℝ) p = g ((a0 : V → ℝ) p)) (e1 : ∀ p, (f1 : V → ℝ) p = g1 ((a0 : V → ℝ) p))
    (e2 : ∀ p, (f2 : V → ℝ) p = g2 ((a0 : V → ℝ) p)) :
    IsJet (g ∘ φ) f0 (f1 * a1) (f1 * a2 + algebraMap ℚ (F V) (1 / 2) * f2 * a1 * a1) := by
  have n1 : Near (g1 ∘ φ) := fun p => ContDiffAt.comp (0, p) (by rw [h.val]; exact hg1 p) (h.near p)
  have d1 := fun p => along_comp h.near (g := g) (g' := g1) up p (by rw [h.val]; exact h1 p)
  have d2 := fun p => along_comp h.near (g := g1) (g' := g2) up p (by rw [h.val]; exact h2 p)
  refine ⟨fun p => ContDiffAt.comp (0, p) (by rw [h.val]; exact hg p) (h.near p), fun p => ?_, fun p => ?_, fun p => ?_⟩
  · rw [Function.comp, h.val, e0]
  · rw [(d1 p).self_of_nhds, Pi.mul_apply, Function.comp, h.val, h.first, mul_apply, e1]
  · rw [along_congr (d1 p) up, (along_mul n1 (h.near.along up) up p).self_of_nhds, Pi.add_apply, Pi.mul_apply, Pi.mul_apply,
      (d2 p).self_of_nhds, Pi.mul_apply, Function.comp, Function.comp, h.val, h.first, h.second]
    show g2 _ * _ * _ + g1 _ * _ = 2 * ((f1 : V → ℝ) p * (a2 : V → ℝ) p + ((1 / 2 : ℚ) : ℝ) * (f2 : V → ℝ) p * (a1 : V → ℝ) p * (a1 : V → ℝ) p)
    rw [e1, e2]
    push_cast
    ring

/-- The remainder of the expansion. -/
theorem IsJet.taylor {φ : ℝ × V → ℝ} {a0 a1 a2 : F V} (h : IsJet φ a0 a1 a2) (p : V) :
    (fun ε : ℝ => φ (ε, p) - ((a0 : V → ℝ) p + (a1 : V → ℝ) p * ε + (a2 : V → ℝ) p * ε ^ 2)) =O[𝓝 0] fun ε : ℝ => ε ^ 3 := by
  have hline : ∀ ε : ℝ, HasDerivAt (fun ε : ℝ => (ε, p)) (up : ℝ × V) ε := fun ε =>
    (hasDerivAt_id ε).prodMk (hasDerivAt_const ε p)
  have hc : ContDiff ℝ (↑(⊤ : ℕ∞)) (fun ε : ℝ => (ε, p)) := contDiff_id.prodMk contDiff_const
  have key : ∀ ψ : ℝ × V → ℝ, Near ψ → deriv (fun ε : ℝ => ψ (ε, p)) =ᶠ[𝓝 0] fun ε => along up ψ (ε, p) := by
    intro ψ hψ
    have ht : Tendsto (fun ε : ℝ => (ε, p)) (𝓝 0) (𝓝 (0, p)) := hc.continuous.tendsto' _ _ rfl
    filter_upwards [ht.eventually (hψ.diff p)] with ε hε
    exact ((hε.hasFDerivAt).comp_hasDerivAt ε (hline ε)).deriv
  have hy : ContDiffAt ℝ (3 : ℕ) (fun ε : ℝ => φ (ε, p)) 0 :=
    (ContDiffAt.comp (0 : ℝ) (h.near p) hc.contDiffAt).of_le (le_inf _)
  have T := Order.taylor_O hy
  refine T.congr_left fun ε => ?_
  have i1 : iteratedDeriv 1 (fun ε : ℝ => φ (ε, p)) 0 = (a1 : V → ℝ) p := by
    rw [iteratedDeriv_one, (key φ h.near).self_of_nhds]; exact h.first p
  have i2 : iteratedDeriv 2 (fun ε : ℝ => φ (ε, p)) 0 = 2 * (a2 : V → ℝ) p := by
    rw [iteratedDeriv_succ, iteratedDeriv_one, (key φ h.near).deriv_eq, (key _ (h.near.along up)).self_of_nhds]; exact h.second p
  simp only [Finset.sum_range_succ, Finset.sum_range_zero, iteratedDeriv_zero, i1, i2, h.val, zero_add, smul_eq_mul]
  norm_num
  ring

/-! ## The value of an expression -/

theorem IsJet.congr {φ ψ : ℝ × V → ℝ} {a0 a1 a2 : F V} (h : IsJet φ a0 a1 a2) (e : ψ = φ) : IsJet ψ a0 a1 a2 := e ▸ h

variable {Ω : Type}

/-- The expansions for every event. -/
def JetAt (r : Ω → ℝ × V → ℝ) (j : Jet (Ω → F V)) : Prop := ∀ ω, IsJet (r ω) (j.c0 ω) (j.c1 ω) (j.c2 ω)

theorem JetAt.add {r s : Ω → ℝ × V → ℝ} {j k : Jet (Ω → F V)} (h : JetAt r j) (h' : JetAt s k) : JetAt (r + s) (j + k) :=
  fun ω => (h ω).add (h' ω)

theorem JetAt.mul {r s : Ω → ℝ × V → ℝ} {j k : Jet (Ω → F V)} (h : JetAt r j) (h' : JetAt s k) : JetAt (r * s) (j * k) :=
  fun ω => (h ω).mul (h' ω)

theorem jetAt_const (r : Ω → F V) : JetAt (fun ω z => (r ω : V → ℝ) z.2) (.const r) := fun ω => isJet_const (r ω)

theorem JetAt.pow {r : Ω → ℝ × V → ℝ} {j : Jet (Ω → F V)} (h : JetAt r j) (n : ℕ) : JetAt (r ^ n) (j ^ n) := by
  induction n with
  | zero => rw [pow_zero, pow_zero]; exact jetAt_const 1
  | succ n ih => rw [pow_succ, pow_succ]; exact ih.mul h

variable [Fintype Ω] {w : Ω → F V} {d : Str → V} {sym : Str → Ω → F V} {fn : Str → List Str → Ω → F V}

theorem power_neg_one (f : F V) (h : ∀ p, 0 < (f : V → ℝ) p) (p : V) : (power f (-1) : V → ℝ) p = ((f : V → ℝ) p)⁻¹ := by
  unfold power
  rw [if_neg (by decide +kernel), dif_pos h]
  show (f : V → ℝ) p ^ (((-1 : ℚ)) : ℝ) = _
  rw [Rat.cast_neg, Rat.cast_one, Real.rpow_neg_one]

theorem power_neg_two (f : F V) (h : ∀ p, 0 < (f : V → ℝ) p) (p : V) : (power f (-2) : V → ℝ) p = (((f : V → ℝ) p) ^ 2)⁻¹ := by
  unfold power
  rw [if_neg (by decide +kernel), dif_pos h]
  show (f : V → ℝ) p ^ (((-2 : ℚ)) : ℝ) = _
  rw [Rat.cast_neg, Real.rpow_neg (h p).le]
  norm_num

theorem JetAt.func {P : Set (Ω → F V)} (hP : ∀ r ∈ P, ∀ ω p, 0 < (r ω : V → ℝ) p) {r : Ω → ℝ × V → ℝ} {j : Jet (Ω → F V)} (h : JetAt r j)
    (g : Str) (hg : g ∈ elementaryNames ∨ j = .const j.c0) (hdom : InDomain (interp w d sym fn elementary) P g j.c0) :
    JetAt (fun ω z => realFunc g (r ω z)) (Jet.func (interp w d sym fn elementary) g j) := by
  have ev : ∀ (g : Str) (r : Ω → F V) (ω : Ω) (_ : Smoothly g (r ω)) (p : V),
      ((interp w d sym fn elementary).func g r ω : V → ℝ) p = realFunc g ((r ω : V → ℝ) p) := fun g r ω h p => elementary_value g (r ω) h p
  have dom : ∀ ω, Smoothly g (j.c0 ω) := fun ω => ⟨fun e => hP _ (hdom.1 e) ω, fun e p => by
    have h1 := hP _ (hdom.2.1 e) ω p
    have h2 : ((interp w d sym fn elementary).func "cos".toList j.c0 ω : V → ℝ) p = Real.cos ((j.c0 ω : V → ℝ) p) :=
      ev "cos".toList j.c0 ω (smoothly_of_ne (by decide) (by decide) _) p
    have h3 : 0 < ((interp w d sym fn elementary).func "cos".toList j.c0 ω : V → ℝ) p ^ 2 := h1
    rw [h2] at h3
    exact fun e => by rw [e] at h3; simp at h3⟩
  unfold Jet.func Jet.derivatives
  split
  · rename_i d1 d2 hd
    intro ω
    have cd := fun g hs p => contDiffAt_realFunc g (j.c0 ω) hs p
    have s := fun g h1 h2 => smoothly_of_ne (V := V) (g := g) h1 h2 (j.c0 ω)
    split at hd
    · rename_i e; subst e; cases hd
      exact (h ω).comp (realFunc "exp".toList) (realFunc "exp".toList) (realFunc "exp".toList) (cd _ (dom ω)) (cd _ (dom ω))
        (fun p => .of_forall fun y => Real.hasDerivAt_exp y) (fun p => .of_forall fun y => Real.hasDerivAt_exp y)
        _ _ _ (ev "exp".toList j.c0 ω (dom ω)) (ev "exp".toList j.c0 ω (dom ω)) (ev "exp".toList j.c0 ω (dom ω))
    split at hd
    · rename_i e; subst e; cases hd
      have sc := s "cos".toList (by decide) (by decide)
      exact (h ω).comp (realFunc "sin".toList) (realFunc "cos".toList) (fun y => - realFunc "sin".toList y) (cd _ (dom ω)) (cd _ sc)
        (fun p => .of_forall fun y => Real.hasDerivAt_sin y) (fun p => .of_forall fun y => Real.hasDerivAt_cos y)
        _ _ _ (ev "sin".toList j.c0 ω (dom ω)) (ev "cos".toList j.c0 ω sc) (fun p => congrArg Neg.neg (ev "sin".toList j.c0 ω (dom ω) p))
    split at hd
    · rename_i e; subst e; cases hd
      have ss := s "sin".toList (by decide) (by decide)
      exact (h ω).comp (realFunc "cos".toList) (fun y => - realFunc "sin".toList y) (fun y => - realFunc "cos".toList y)
        (cd _ (dom ω)) (fun p => (cd _ ss p).neg)
        (fun p => .of_forall fun y => Real.hasDerivAt_cos y) (fun p => .of_forall fun y => (Real.hasDerivAt_sin y).neg)
        _ _ _ (ev "cos".toList j.c0 ω (dom ω)) (fun p => congrArg Neg.neg (ev "sin".toList j.c0 ω ss p))
        (fun p => congrArg Neg.neg (ev "cos".toList j.c0 ω (dom ω) p))
    split at hd
    · rename_i e; subst e; cases hd
      have sc := s "cosh".toList (by decide) (by decide)
      exact (h ω).comp (realFunc "sinh".toList) (realFunc "cosh".toList) (realFunc "sinh".toList) (cd _ (dom ω)) (cd _ sc)
        (fun p => .of_forall fun y => Real.hasDerivAt_sinh y) (fun p => .of_forall fun y => Real.hasDerivAt_cosh y)
        _ _ _ (ev "sinh".toList j.c0 ω (dom ω)) (ev "cosh".toList j.c0 ω sc) (ev "sinh".toList j.c0 ω (dom ω))
    split at hd
    · rename_i e; subst e; cases hd
      have ss := s "sinh".toList (by decide) (by decide)
      exact (h ω).comp (realFunc "cosh".toList) (realFunc "sinh".toList) (realFunc "cosh".toList) (cd _ (dom ω)) (cd _ ss)
        (fun p => .of_forall fun y => Real.hasDerivAt_cosh y) (fun p => .of_forall fun y => Real.hasDerivAt_sinh y)
        _ _ _ (ev "cosh".toList j.c0 ω (dom ω)) (ev "sinh".toList j.c0 ω ss) (ev "cosh".toList j.c0 ω (dom ω))
    split at hd
    · rename_i e; subst e; cases hd
      have near : ∀ p, ∀ᶠ y in 𝓝 ((j.c0 ω : V → ℝ) p), Real.cos y ≠ 0 := fun p =>
        Real.continuous_cos.continuousAt.eventually_ne ((dom ω).2 rfl p)
      exact (h ω).comp (realFunc "tan".toList) (fun y => 1 + Real.tan y ^ 2) (fun y => 2 * Real.tan y * (1 + Real.tan y ^ 2))
        (cd _ (dom ω)) (fun p => contDiffAt_const.add ((cd _ (dom ω) p).pow 2))
        (fun p => (near p).mono fun y hy => hasDerivAt_tan y hy)
        (fun p => (near p).mono fun y hy => (((hasDerivAt_tan y hy).pow 2).const_add 1).congr_deriv (by norm_num))
        _ _ _ (ev "tan".toList j.c0 ω (dom ω))
        (fun p => congrArg (fun y : ℝ => 1 + y ^ 2) (ev "tan".toList j.c0 ω (dom ω) p))
        (fun p => congrArg (fun y : ℝ => 2 * y * (1 + y ^ 2)) (ev "tan".toList j.c0 ω (dom ω) p))
    split at hd
    · rename_i e; subst e; cases hd
      exact (h ω).comp (realFunc "tanh".toList) (fun y => 1 - Real.tanh y ^ 2) (fun y => - 2 * Real.tanh y * (1 - Real.tanh y ^ 2))
        (cd _ (dom ω)) (fun p => contDiffAt_const.sub ((cd _ (dom ω) p).pow 2))
        (fun p => .of_forall fun y => hasDerivAt_tanh y)
        (fun p => .of_forall fun y => (((hasDerivAt_tanh y).pow 2).const_sub 1).congr_deriv (by norm_num))
        _ _ _ (ev "tanh".toList j.c0 ω (dom ω))
        (fun p => congrArg (fun y : ℝ => 1 - y ^ 2) (ev "tanh".toList j.c0 ω (dom ω) p))
        (fun p => congrArg (fun y : ℝ => - 2 * y * (1 - y ^ 2)) (ev "tanh".toList j.c0 ω (dom ω) p))
    split at hd
    · rename_i e; subst e; cases hd
      have hpos := (dom ω).1 rfl
      exact (h ω).comp (realFunc "log".toList) (fun y => y⁻¹) (fun y => - (y ^ 2)⁻¹)
        (cd _ (dom ω)) (fun p => contDiffAt_id.inv (hpos p).ne')
        (fun p => (eventually_gt_nhds (hpos p)).mono fun y hy => Real.hasDerivAt_log hy.ne')
        (fun p => (eventually_gt_nhds (hpos p)).mono fun y hy => hasDerivAt_inv hy.ne')
        _ _ _ (ev "log".toList j.c0 ω (dom ω)) (power_neg_one (j.c0 ω) hpos) (fun p => congrArg Neg.neg (power_neg_two (j.c0 ω) hpos p))
    split at hd
    · rename_i e; subst e; cases hd
      have hpos : ∀ p, 0 < ((1 + (j.c0 ω) ^ 2 : F V) : V → ℝ) p := fun p => by
        show (0 : ℝ) < 1 + (j.c0 ω : V → ℝ) p ^ 2
        positivity
      have ne : ∀ y : ℝ, 1 + y ^ 2 ≠ 0 := fun y => by positivity
      have dd : ∀ y : ℝ, HasDerivAt (fun y : ℝ => 1 + y ^ 2) (2 * y) y := fun y =>
        (((hasDerivAt_id y).pow 2).const_add 1).congr_deriv (by simp)
      have v1 : ∀ p, ((interp w d sym fn elementary).pw (1 + j.c0 ^ 2) (-1) ω : V → ℝ) p = (1 + (j.c0 ω : V → ℝ) p ^ 2)⁻¹ := fun p => by
        have := power_neg_one (1 + (j.c0 ω) ^ 2) hpos p
        exact this
      have v2 : ∀ p, ((interp w d sym fn elementary).pw (1 + j.c0 ^ 2) (-2) ω : V → ℝ) p = ((1 + (j.c0 ω : V → ℝ) p ^ 2) ^ 2)⁻¹ :=
        fun p => by
          have := power_neg_two (1 + (j.c0 ω) ^ 2) hpos p
          exact this
      exact (h ω).comp (realFunc "atan".toList) (fun y => (1 + y ^ 2)⁻¹) (fun y => - 2 * y * ((1 + y ^ 2) ^ 2)⁻¹)
        (cd _ (dom ω)) (fun p => (contDiffAt_const.add (contDiffAt_id.pow 2)).inv (ne _))
        (fun p => .of_forall fun y => Real.hasDerivAt_arctan' y)
        (fun p => .of_forall fun y => ((dd y).inv (ne y)).congr_deriv (by ring))
        _ _ _ (ev "atan".toList j.c0 ω (dom ω)) v1
        (fun p => congrArg (fun y : ℝ => - 2 * (j.c0 ω : V → ℝ) p * y) (v2 p))
    · cases hd
  · rename_i hd
    split at hd
    · cases hd
    split at hd
    · cases hd
    split at hd
    · cases hd
    split at hd
    · cases hd
    split at hd
    · cases hd
    split at hd
    · cases hd
    split at hd
    · cases hd
    split at hd
    · cases hd
    split at hd
    · cases hd
    rename_i h1 h2 h3 h4 h5 h6 h7 h8 h9
    have e1 : realFunc g = id := by
      unfold realFunc
      rw [if_neg h1, if_neg h2, if_neg h3, if_neg h4, if_neg h5, if_neg h6, if_neg h7, if_neg h8, if_neg h9]
    have e2 : (interp w d sym fn elementary).func g j.c0 = j.c0 := by
      funext ω; apply Smooth.ext; intro p; rw [ev g j.c0 ω (dom ω), e1]; rfl
    rcases hg with hg | hg
    · exfalso
      simp only [elementaryNames, List.mem_cons, List.not_mem_nil, or_false] at hg
      rcases hg with e | e | e | e | e | e | e | e | e
      exacts [h1 e, h2 e, h3 e, h4 e, h5 e, h6 e, h7 e, h8 e, h9 e]
    · rw [e2, ← hg, e1]; exact h

theorem JetAt.pw {r : Ω → ℝ × V → ℝ} {j : Jet (Ω → F V)} (h : JetAt r j) (q : ℚ)
    (hq : isNat q = true ∨ ∀ ω p, 0 < (j.c0 ω : V → ℝ) p) :
    JetAt (fun ω z => realPow (r ω z) q) (Jet.pw (interp w d sym fn elementary) j q) := by
  unfold Jet.pw realPow
  split
  · exact h.pow _
  · rename_i hn
    have hpos : ∀ ω p, 0 < (j.c0 ω : V → ℝ) p := hq.resolve_left (fun e => hn ((Jet.isNat_eq q).2 e))
    intro ω
    have hp : ∀ (q : ℚ) (p : V), (power (j.c0 ω) q : V → ℝ) p = (j.c0 ω : V → ℝ) p ^ (q : ℝ) := by
      intro q p
      unfold power
      split
      · rename_i hq
        have e : q = ((q.num.toNat : ℕ) : ℚ) := rat_nat hq
        show (j.c0 ω : V → ℝ) p ^ q.num.toNat = _
        conv_rhs => rw [e]
        rw [Rat.cast_natCast, Real.rpow_natCast]
      · rw [dif_pos (hpos ω)]
    have c : ∀ (q : ℝ) (p : V), ContDiffAt ℝ (↑(⊤ : ℕ∞)) (fun y : ℝ => y ^ q) ((j.c0 ω : V → ℝ) p) := fun q p =>
      contDiffAt_id.rpow_const_of_ne (hpos ω p).ne'
    have dd : ∀ (q : ℝ) (p : V), ∀ᶠ y in 𝓝 ((j.c0 ω : V → ℝ) p), HasDerivAt (fun y : ℝ => y ^ q) (q * y ^ (q - 1)) y := fun q p => by
      filter_upwards [eventually_gt_nhds (hpos ω p)] with y hy
      exact Real.hasDerivAt_rpow_const (.inl hy.ne')
    refine ((h ω).comp (fun y => y ^ (q : ℝ)) (fun y => (q : ℝ) * y ^ ((q : ℝ) - 1)) (fun y => (q : ℝ) * (((q : ℝ) - 1) * y ^ ((q : ℝ) - 1 - 1)))
      (c q) (fun p => contDiffAt_const.mul (c _ p)) (dd q) (fun p => (dd _ p).mono fun y hy => hy.const_mul _) _ _ _ (hp q) (fun p => ?_) (fun p => ?_))
    · show ((q : ℚ) : ℝ) * (power (j.c0 ω) (q - 1) : V → ℝ) p = _
      rw [hp]; push_cast; rfl
    · show ((q * (q - 1) : ℚ) : ℝ) * (power (j.c0 ω) (q - 2) : V → ℝ) p = _
      rw [hp]; push_cast
      rw [show (q : ℝ) - 1 - 1 = q - 2 by ring]; ring

/-- The jets are the expansions of the dynamics along the family of states. -/
theorem jet_spec {A : Subalgebra ℚ (Ω → F V)} {P : Set (Ω → F V)} {C : Set Str} (hS : Stochastic (interp w d sym fn elementary) A)
    (hP : ∀ r ∈ P, ∀ ω p, 0 < (r ω : V → ℝ) p) (hε : Pkf.epsSym ∉ C) (l : List Field) (e : Ex)
    (he : Expandable (interp w d sym fn elementary) P C l e) :
    JetAt (den (family w d (interp w d sym fn elementary) l) e) (den (perturbed (interp w d sym fn elementary) l) e) := by
  induction e with
  | num q => exact jetAt_const (algebraMap ℚ (Ω → F V) q)
  | sym s => exact jetAt_const (sym s)
  | fn u args =>
    by_cases hm : (⟨u, args⟩ : Field) ∈ l
    · have e1 : den (family w d (interp w d sym fn elementary) l) (.fn u args) = fun ω z =>
          ((interp w d sym fn elementary).E (den (interp w d sym fn elementary) (Field.random ⟨u, args⟩)) ω : V → ℝ) z.2 +
          z.1 * (den (interp w d sym fn elementary) (Field.error ⟨u, args⟩) ω : V → ℝ) z.2 := by
        funext ω z; exact if_pos hm
      have e2 : den (perturbed (interp w d sym fn elementary) l) (.fn u args) =
          ⟨(interp w d sym fn elementary).E (den (interp w d sym fn elementary) (Field.random ⟨u, args⟩)),
          den (interp w d sym fn elementary) (Field.error ⟨u, args⟩), 0⟩ := if_pos hm
      rw [e1, e2]
      intro ω
      have j := (isJet_const ((interp w d sym fn elementary).E (den (interp w d sym fn elementary) (Field.random ⟨u, args⟩)) ω)).add
        (isJet_eps.mul (isJet_const (den (interp w d sym fn elementary) (Field.error ⟨u, args⟩) ω)))
      simp only [zero_mul, mul_zero, one_mul, add_zero, zero_add] at j
      exact j
    · have e1 : den (family w d (interp w d sym fn elementary) l) (.fn u args) = fun ω z => (fn u args ω : V → ℝ) z.2 := by
        funext ω z; exact if_neg hm
      have e2 : den (perturbed (interp w d sym fn elementary) l) (.fn u args) = .const (fn u args) := if_neg hm
      rw [e1, e2]
      exact jetAt_const _
  | func g a ih =>
    refine (ih he.2).func hP g (he.1.1.imp id fun hf => ?_) he.1.2
    rw [he.2.den_free hS hε hf]; rfl
  | add a b iha ihb => exact (iha he.1).add (ihb he.2)
  | mul a b iha ihb => exact (iha he.1).mul (ihb he.2)
  | pow a q ih => exact (ih he.1).pw q (he.2.imp id fun h => hP _ h)
  | deriv a vars ih =>
    have step : ∀ (x : Str) (r : Ω → ℝ × V → ℝ) (j : Jet (Ω → F V)), JetAt r j →
        JetAt ((family w d (interp w d sym fn elementary) l).D x r) ((perturbed (interp w d sym fn elementary) l).D x j) :=
      fun x r j h ω => (h ω).dir (d x)
    have h0 := ih he.1
    show JetAt (derivs (family w d (interp w d sym fn elementary) l) vars (den (family w d (interp w d sym fn elementary) l) a))
      (derivs (perturbed (interp w d sym fn elementary) l) vars (den (perturbed (interp w d sym fn elementary) l) a))
    generalize den (family w d (interp w d sym fn elementary) l) a = r at h0 ⊢
    generalize den (perturbed (interp w d sym fn elementary) l) a = j at h0 ⊢
    clear ih he
    induction vars generalizing r j with
    | nil => exact h0
    | cons v vars ih =>
      obtain ⟨x, n⟩ := v
      refine ih _ _ ?_
      clear ih
      induction n generalizing r j with
      | zero => exact h0
      | succ n ih =>
        rw [Function.iterate_succ_apply, Function.iterate_succ_apply]
        exact ih _ _ (step x r j h0)
  | integ a x ih => exact jetAt_const 0
  | ex a ih => exact he.elim
  | other b => exact he.elim

end Sympkf.Spec.Smooth
