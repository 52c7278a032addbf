import Mathlib.Analysis.Calculus.ContDiff.Operations
import Mathlib.Analysis.Calculus.FDeriv.Symmetric
import Mathlib.Analysis.SpecialFunctions.Pow.Deriv
import Mathlib.Algebra.Algebra.Pi
import Mathlib.Algebra.Algebra.Subalgebra.Basic
import Mathlib.Analysis.SpecialFunctions.Trigonometric.Deriv
import Mathlib.Analysis.SpecialFunctions.ExpDeriv
import Mathlib.Analysis.SpecialFunctions.Trigonometric.DerivHyp
import Mathlib.Analysis.SpecialFunctions.Trigonometric.ArctanDeriv
import Mathlib.Analysis.SpecialFunctions.Log.Deriv
import Verif.Spec.Stoch

/-!
# Random smooth fields

The stochastic differential rings of `Spec/Stoch.lean` are not an abstraction without example: the smooth fields on a real
normed space `V` (the space of the coordinates), depending on an event of a finite probability space `Ω`, form such a ring.
-/

set_option autoImplicit false

namespace Sympkf.Spec.Smooth

open Text Rand

variable (V : Type) [NormedAddCommGroup V] [NormedSpace ℝ V]

/-- Smooth real functions on `V`. -/
def F : Subalgebra ℚ (V → ℝ) where
  carrier := {f | ContDiff ℝ (↑(⊤ : ℕ∞)) f}
  mul_mem' := by intro a b ha hb; simp only [Set.mem_ofPred_eq] at *; exact ha.mul hb
  add_mem' := by intro a b ha hb; simp only [Set.mem_ofPred_eq] at *; exact ha.add hb
  algebraMap_mem' := by intro q; simp only [Set.mem_ofPred_eq]; exact contDiff_const (c := (q : ℝ))

variable {V}

theorem contDiff (f : F V) : ContDiff ℝ (↑(⊤ : ℕ∞)) (f : V → ℝ) := f.2

theorem differentiable (f : F V) (p : V) : DifferentiableAt ℝ (f : V → ℝ) p :=
  (contDiff f).differentiable (by simp) p

/-- Derivative in the direction `v`. -/
noncomputable def dir (v : V) (f : F V) : F V :=
  ⟨fun p => fderiv ℝ (f : V → ℝ) p v, by
    have : ContDiff ℝ (↑(⊤ : ℕ∞)) (fderiv ℝ (f : V → ℝ)) := (contDiff f).fderiv_right (by simp)
    exact this.clm_apply contDiff_const⟩

theorem dir_apply (v : V) (f : F V) (p : V) : (dir v f : V → ℝ) p = fderiv ℝ (f : V → ℝ) p v := rfl

theorem ext {f g : F V} (h : ∀ p, (f : V → ℝ) p = (g : V → ℝ) p) : f = g := Subtype.ext (funext h)

theorem add_apply (f g : F V) (p : V) : ((f + g : F V) : V → ℝ) p = (f : V → ℝ) p + (g : V → ℝ) p := rfl
theorem mul_apply (f g : F V) (p : V) : ((f * g : F V) : V → ℝ) p = (f : V → ℝ) p * (g : V → ℝ) p := rfl

theorem dir_add (v : V) (f g : F V) : dir v (f + g) = dir v f + dir v g := by
  apply ext; intro p
  have : fderiv ℝ (((f + g : F V)) : V → ℝ) p = fderiv ℝ (f : V → ℝ) p + fderiv ℝ (g : V → ℝ) p :=
    fderiv_add (differentiable f p) (differentiable g p)
  rw [add_apply, dir_apply, dir_apply, dir_apply, this]
  rfl

theorem dir_mul (v : V) (f g : F V) : dir v (f * g) = dir v f * g + f * dir v g := by
  apply ext; intro p
  have : fderiv ℝ (((f * g : F V)) : V → ℝ) p =
      (f : V → ℝ) p • fderiv ℝ (g : V → ℝ) p + (g : V → ℝ) p • fderiv ℝ (f : V → ℝ) p :=
    fderiv_mul (differentiable f p) (differentiable g p)
  rw [add_apply, mul_apply, mul_apply, dir_apply, dir_apply, dir_apply, this]
  simp only [_root_.add_apply, smul_apply, smul_eq_mul]
  ring

theorem dir_comm (v w : V) (f : F V) : dir v (dir w f) = dir w (dir v f) := by
  apply ext; intro p
  have hd : DifferentiableAt ℝ (fderiv ℝ (f : V → ℝ)) p :=
    ((contDiff f).fderiv_right (m := (↑(⊤ : ℕ∞))) (by simp)).differentiable (by simp) p
  have key : ∀ v w : V, fderiv ℝ (fun q => fderiv ℝ (f : V → ℝ) q w) p v = fderiv ℝ (fderiv ℝ (f : V → ℝ)) p v w := by
    intro v w
    rw [fderiv_clm_apply hd (differentiableAt_const w)]
    simp
  have hs : IsSymmSndFDerivAt ℝ (f : V → ℝ) p :=
    (contDiff f).contDiffAt.isSymmSndFDerivAt (by
      rw [minSmoothness_of_isRCLikeNormedField]; exact WithTop.coe_le_coe.2 le_top)
  show fderiv ℝ (fun q => fderiv ℝ (f : V → ℝ) q w) p v = fderiv ℝ (fun q => fderiv ℝ (f : V → ℝ) q v) p w
  rw [key, key]
  exact hs v w

open Classical in
/-- Real power of an everywhere positive function (zero for the others), natural powers of all functions. -/
noncomputable def power (f : F V) (q : ℚ) : F V :=
  if q.den = 1 ∧ 0 ≤ q.num then f ^ q.num.toNat
  else if h : ∀ p, 0 < (f : V → ℝ) p then
    ⟨fun p => (f : V → ℝ) p ^ (q : ℝ), (contDiff f).rpow_const_of_ne (fun p => (h p).ne')⟩
  else 0

/-- A smooth function of a field. -/
def comp (φ : ℝ → ℝ) (hφ : ContDiff ℝ (↑(⊤ : ℕ∞)) φ) (f : F V) : F V := ⟨fun p => φ ((f : V → ℝ) p), hφ.comp (contDiff f)⟩

theorem dir_comp (v : V) (φ φ' : ℝ → ℝ) (hφ : ContDiff ℝ (↑(⊤ : ℕ∞)) φ) (h : ∀ y, HasDerivAt φ (φ' y) y) (f : F V) (p : V) :
    (dir v (comp φ hφ f) : V → ℝ) p = φ' ((f : V → ℝ) p) * (dir v f : V → ℝ) p := by
  have h1 : HasFDerivAt ((comp φ hφ f : F V) : V → ℝ) (φ' ((f : V → ℝ) p) • fderiv ℝ (f : V → ℝ) p) p :=
    (h ((f : V → ℝ) p)).comp_hasFDerivAt p (differentiable f p).hasFDerivAt
  rw [dir_apply, dir_apply, h1.fderiv]
  rfl

/-- The elementary functions of real numbers (the identity for other names). -/
noncomputable def realFunc (g : Str) : ℝ → ℝ :=
  if g = "exp".toList then Real.exp
  else if g = "sin".toList then Real.sin
  else if g = "cos".toList then Real.cos
  else if g = "sinh".toList then Real.sinh
  else if g = "cosh".toList then Real.cosh
  else if g = "tan".toList then Real.tan
  else if g = "tanh".toList then Real.tanh
  else if g = "log".toList then Real.log
  else if g = "atan".toList then Real.arctan
  else id

theorem realFunc_exp : realFunc "exp".toList = Real.exp := rfl
theorem realFunc_sin : realFunc "sin".toList = Real.sin := rfl
theorem realFunc_cos : realFunc "cos".toList = Real.cos := rfl
theorem realFunc_sinh : realFunc "sinh".toList = Real.sinh := rfl
theorem realFunc_cosh : realFunc "cosh".toList = Real.cosh := rfl
theorem realFunc_tan : realFunc "tan".toList = Real.tan := rfl
theorem realFunc_tanh : realFunc "tanh".toList = Real.tanh := rfl
theorem realFunc_log : realFunc "log".toList = Real.log := rfl
theorem realFunc_atan : realFunc "atan".toList = Real.arctan := rfl

open Classical in
/-- An elementary function of a field, where this is smooth (zero otherwise). -/
noncomputable def elementary (g : Str) (f : F V) : F V :=
  if h : ContDiff ℝ (↑(⊤ : ℕ∞)) (fun p => realFunc g ((f : V → ℝ) p)) then ⟨fun p => realFunc g ((f : V → ℝ) p), h⟩ else 0

theorem elementary_apply (g : Str) (f : F V) (h : ∀ p, ContDiffAt ℝ (↑(⊤ : ℕ∞)) (realFunc g) ((f : V → ℝ) p)) (p : V) :
    (elementary g f : V → ℝ) p = realFunc g ((f : V → ℝ) p) := by
  have hc : ContDiff ℝ (↑(⊤ : ℕ∞)) (fun p => realFunc g ((f : V → ℝ) p)) :=
    contDiff_iff_contDiffAt.2 fun p => (h p).comp p (contDiff f).contDiffAt
  unfold elementary
  rw [dif_pos hc]

theorem elementary_exp (f : F V) : elementary "exp".toList f = comp Real.exp Real.contDiff_exp f := by
  apply ext; intro p
  rw [elementary_apply _ _ (fun p => by rw [realFunc_exp]; exact Real.contDiff_exp.contDiffAt)]; rfl

/-- Chain rule. -/
theorem dir_elementary (v : V) (g : Str) (f : F V) (φ' : ℝ → ℝ) (h : ∀ p, ContDiffAt ℝ (↑(⊤ : ℕ∞)) (realFunc g) ((f : V → ℝ) p))
    (hd : ∀ p, HasDerivAt (realFunc g) (φ' ((f : V → ℝ) p)) ((f : V → ℝ) p)) (p : V) :
    (dir v (elementary g f) : V → ℝ) p = φ' ((f : V → ℝ) p) * (dir v f : V → ℝ) p := by
  have e : ((elementary g f : F V) : V → ℝ) = fun p => realFunc g ((f : V → ℝ) p) := funext fun p => elementary_apply g f h p
  have h1 : HasFDerivAt (fun p => realFunc g ((f : V → ℝ) p)) (φ' ((f : V → ℝ) p) • fderiv ℝ (f : V → ℝ) p) p :=
    (hd p).comp_hasFDerivAt p (differentiable f p).hasFDerivAt
  rw [dir_apply, dir_apply, e, h1.fderiv]
  rfl

theorem hasDerivAt_tanh (y : ℝ) : HasDerivAt Real.tanh (1 - Real.tanh y ^ 2) y := by
  have hc := (Real.cosh_pos y).ne'
  have h := (Real.hasDerivAt_sinh y).div (Real.hasDerivAt_cosh y) hc
  have e : (fun y => Real.sinh y / Real.cosh y) = Real.tanh := funext fun y => (Real.tanh_eq_sinh_div_cosh y).symm
  have h' : HasDerivAt Real.tanh ((Real.cosh y * Real.cosh y - Real.sinh y * Real.sinh y) / Real.cosh y ^ 2) y := by
    rw [← e]; exact h
  refine h'.congr_deriv ?_
  rw [Real.tanh_eq_sinh_div_cosh]
  field_simp

theorem contDiff_tanh : ContDiff ℝ (↑(⊤ : ℕ∞)) Real.tanh := by
  have e : (fun y => Real.sinh y / Real.cosh y) = Real.tanh := funext fun y => (Real.tanh_eq_sinh_div_cosh y).symm
  rw [← e]
  exact Real.contDiff_sinh.div Real.contDiff_cosh (fun y => (Real.cosh_pos y).ne')

theorem hasDerivAt_tan (y : ℝ) (h : Real.cos y ≠ 0) : HasDerivAt Real.tan (1 + Real.tan y ^ 2) y := by
  refine (Real.hasDerivAt_tan h).congr_deriv ?_
  rw [Real.tan_eq_sin_div_cos]
  field_simp
  exact (Real.cos_sq_add_sin_sq y).symm

/-- The field is in the domain of the function. -/
def Smoothly (g : Str) (f : F V) : Prop :=
  (g = "log".toList → ∀ p, 0 < (f : V → ℝ) p) ∧ (g = "tan".toList → ∀ p, Real.cos ((f : V → ℝ) p) ≠ 0)

theorem contDiffAt_realFunc (g : Str) (f : F V) (h : Smoothly g f) (p : V) :
    ContDiffAt ℝ (↑(⊤ : ℕ∞)) (realFunc g) ((f : V → ℝ) p) := by
  unfold realFunc
  split
  · exact Real.contDiff_exp.contDiffAt
  split
  · exact Real.contDiff_sin.contDiffAt
  split
  · exact Real.contDiff_cos.contDiffAt
  split
  · exact Real.contDiff_sinh.contDiffAt
  split
  · exact Real.contDiff_cosh.contDiffAt
  split
  · rename_i e; exact Real.contDiffAt_tan.2 (h.2 e p)
  split
  · exact contDiff_tanh.contDiffAt
  split
  · rename_i e; exact Real.contDiffAt_log.2 (h.1 e p).ne'
  split
  · exact Real.contDiff_arctan.contDiffAt
  · exact contDiffAt_id

theorem elementary_value (g : Str) (f : F V) (h : Smoothly g f) (p : V) : (elementary g f : V → ℝ) p = realFunc g ((f : V → ℝ) p) :=
  elementary_apply g f (contDiffAt_realFunc g f h) p

theorem smoothly_of_ne {g : Str} (h1 : g ≠ "log".toList) (h2 : g ≠ "tan".toList) (f : F V) : Smoothly g f :=
  ⟨fun h => absurd h h1, fun h => absurd h h2⟩

theorem dir_exp (v : V) (f : F V) : dir v (elementary "exp".toList f) = elementary "exp".toList f * dir v f := by
  have s := fun g h1 h2 => smoothly_of_ne (V := V) (g := g) h1 h2 f
  apply ext; intro p
  rw [dir_elementary v "exp".toList f Real.exp (contDiffAt_realFunc _ f (s _ (by decide) (by decide))) (fun p => Real.hasDerivAt_exp _), mul_apply,
    elementary_value _ f (s _ (by decide) (by decide))]; rfl

theorem dir_sin (v : V) (f : F V) : dir v (elementary "sin".toList f) = elementary "cos".toList f * dir v f := by
  have s := fun g h1 h2 => smoothly_of_ne (V := V) (g := g) h1 h2 f
  apply ext; intro p
  rw [dir_elementary v "sin".toList f Real.cos (contDiffAt_realFunc _ f (s _ (by decide) (by decide))) (fun p => Real.hasDerivAt_sin _), mul_apply,
    elementary_value _ f (s _ (by decide) (by decide))]; rfl

theorem dir_cos (v : V) (f : F V) : dir v (elementary "cos".toList f) = - elementary "sin".toList f * dir v f := by
  have s := fun g h1 h2 => smoothly_of_ne (V := V) (g := g) h1 h2 f
  apply ext; intro p
  rw [dir_elementary v "cos".toList f (fun y => - Real.sin y) (contDiffAt_realFunc _ f (s _ (by decide) (by decide)))
    (fun p => Real.hasDerivAt_cos _), mul_apply]
  show _ = - (elementary "sin".toList f : V → ℝ) p * _
  rw [elementary_value _ f (s _ (by decide) (by decide))]; rfl

theorem dir_sinh (v : V) (f : F V) : dir v (elementary "sinh".toList f) = elementary "cosh".toList f * dir v f := by
  have s := fun g h1 h2 => smoothly_of_ne (V := V) (g := g) h1 h2 f
  apply ext; intro p
  rw [dir_elementary v "sinh".toList f Real.cosh (contDiffAt_realFunc _ f (s _ (by decide) (by decide))) (fun p => Real.hasDerivAt_sinh _), mul_apply,
    elementary_value _ f (s _ (by decide) (by decide))]; rfl

theorem dir_cosh (v : V) (f : F V) : dir v (elementary "cosh".toList f) = elementary "sinh".toList f * dir v f := by
  have s := fun g h1 h2 => smoothly_of_ne (V := V) (g := g) h1 h2 f
  apply ext; intro p
  rw [dir_elementary v "cosh".toList f Real.sinh (contDiffAt_realFunc _ f (s _ (by decide) (by decide))) (fun p => Real.hasDerivAt_cosh _), mul_apply,
    elementary_value _ f (s _ (by decide) (by decide))]; rfl

theorem dir_tanh (v : V) (f : F V) : dir v (elementary "tanh".toList f) = (1 - elementary "tanh".toList f ^ 2) * dir v f := by
  have s := fun g h1 h2 => smoothly_of_ne (V := V) (g := g) h1 h2 f
  apply ext; intro p
  rw [dir_elementary v "tanh".toList f (fun y => 1 - Real.tanh y ^ 2) (contDiffAt_realFunc _ f (s _ (by decide) (by decide)))
    (fun p => hasDerivAt_tanh _), mul_apply]
  show _ = (1 - (elementary "tanh".toList f : V → ℝ) p ^ 2) * _
  rw [elementary_value _ f (s _ (by decide) (by decide))]; rfl

theorem dir_tan (v : V) (f : F V) (h : ∀ p, Real.cos ((f : V → ℝ) p) ≠ 0) :
    dir v (elementary "tan".toList f) = (1 + elementary "tan".toList f ^ 2) * dir v f := by
  have s : Smoothly "tan".toList f := ⟨fun e => absurd e (by decide), fun _ => h⟩
  apply ext; intro p
  rw [dir_elementary v "tan".toList f (fun y => 1 + Real.tan y ^ 2) (contDiffAt_realFunc _ f s) (fun p => hasDerivAt_tan _ (h p)), mul_apply]
  show _ = (1 + (elementary "tan".toList f : V → ℝ) p ^ 2) * _
  rw [elementary_value _ f s]; rfl

theorem dir_log (v : V) (f : F V) (h : ∀ p, 0 < (f : V → ℝ) p) : dir v (elementary "log".toList f) = power f (-1) * dir v f := by
  have s : Smoothly "log".toList f := ⟨fun _ => h, fun e => absurd e (by decide)⟩
  apply ext; intro p
  rw [dir_elementary v "log".toList f (fun y => y⁻¹) (contDiffAt_realFunc _ f s) (fun p => Real.hasDerivAt_log (h p).ne'), mul_apply]
  unfold power
  rw [if_neg (by decide +kernel), dif_pos h]
  show _ = (f : V → ℝ) p ^ (((-1 : ℚ)) : ℝ) * _
  rw [Rat.cast_neg, Rat.cast_one, Real.rpow_neg_one]

theorem dir_atan (v : V) (f : F V) : dir v (elementary "atan".toList f) = power (1 + f ^ 2) (-1) * dir v f := by
  have s := fun g h1 h2 => smoothly_of_ne (V := V) (g := g) h1 h2 f
  apply ext; intro p
  have h : ∀ p, 0 < ((1 + f ^ 2 : F V) : V → ℝ) p := fun p => by
    show (0 : ℝ) < 1 + (f : V → ℝ) p ^ 2
    positivity
  rw [dir_elementary v "atan".toList f (fun y => (1 + y ^ 2)⁻¹) (contDiffAt_realFunc _ f (s _ (by decide) (by decide)))
    (fun p => Real.hasDerivAt_arctan' _), mul_apply]
  unfold power
  rw [if_neg (by decide +kernel), dif_pos h]
  show _ = (1 + (f : V → ℝ) p ^ 2) ^ (((-1 : ℚ)) : ℝ) * _
  rw [Rat.cast_neg, Rat.cast_one, Real.rpow_neg_one]

variable {Ω : Type} [Fintype Ω]

/-- Random fields. `w`: probability of the events; `d`: direction of each coordinate; the other arguments give the values of
symbols and functions. -/
noncomputable def interp (w : Ω → F V) (d : Str → V) (sym : Str → Ω → F V) (fn : Str → List Str → Ω → F V)
    (func : Str → F V → F V) : Interp (Ω → F V) where
  sym s := sym s
  fn u args := fn u args
  func g r := fun ω => func g (r ω)
  pw r q := fun ω => power (r ω) q
  D x r := fun ω => dir (d x) (r ω)
  I _ _ := 0
  E r := fun _ => ∑ ω, w ω * r ω
  other _ := 0

/-- The fields that do not depend on the event. -/
def det : Subalgebra ℚ (Ω → F V) where
  carrier := {r | ∀ ω ω', r ω = r ω'}
  mul_mem' := by intro a b ha hb ω ω'; simp only [Pi.mul_apply]; rw [ha ω ω', hb ω ω']
  add_mem' := by intro a b ha hb ω ω'; simp only [Pi.add_apply]; rw [ha ω ω', hb ω ω']
  algebraMap_mem' := by intro q ω ω'; rfl

omit [Fintype Ω] in
theorem mem_det (r : Ω → F V) : r ∈ (det : Subalgebra ℚ (Ω → F V)) ↔ ∀ ω ω', r ω = r ω' := Iff.rfl

theorem dir_zero (v : V) : dir v (0 : F V) = 0 := by
  have := dir_add v (0 : F V) 0
  rw [add_zero] at this
  exact left_eq_add.1 this

omit [Fintype Ω] in
theorem dir_sum (v : V) (s : Finset Ω) (r : Ω → F V) : dir v (∑ ω ∈ s, r ω) = ∑ ω ∈ s, dir v (r ω) := by
  classical
  induction s using Finset.induction_on with
  | empty => simp [dir_zero]
  | insert a s ha ih => rw [Finset.sum_insert ha, Finset.sum_insert ha, dir_add, ih]

/-- Random smooth fields form a stochastic differential ring. -/
theorem stochastic (w : Ω → F V) (d : Str → V) (sym : Str → Ω → F V) (fn : Str → List Str → Ω → F V)
    (func : Str → F V → F V) (hw : ∑ ω, w ω = 1) (hw' : ∀ v ω, dir v (w ω) = 0)
    (hsym : ∀ s, s ≠ omega → sym s ∈ (det : Subalgebra ℚ (Ω → F V)))
    (hfn : ∀ u args, omega ∉ args → fn u args ∈ (det : Subalgebra ℚ (Ω → F V))) :
    Stochastic (interp w d sym fn func) det where
  sym_det s h := hsym s h
  fn_det u args h := hfn u args h
  func_det g r h := by intro ω ω'; simp only [interp]; rw [h ω ω']
  pw_det r q h := by intro ω ω'; simp only [interp]; rw [h ω ω']
  pw_nat r n := by funext ω; simp [interp, power]
  D_det x r h := by intro ω ω'; simp only [interp]; rw [h ω ω']
  D_add x r s := by funext ω; simp only [interp, Pi.add_apply, dir_add]
  D_mul x r s := by funext ω; simp only [interp, Pi.add_apply, Pi.mul_apply, dir_mul]
  D_comm x y r := by funext ω; simp only [interp, dir_comm]
  I_det x r _ := Subalgebra.zero_mem _
  I_add x r s := by simp [interp]
  E_det r := by intro ω ω'; rfl
  E_add r s := by funext ω; simp only [interp, Pi.add_apply, mul_add, Finset.sum_add_distrib]
  E_mul a r h := by
    funext ω
    simp only [interp, Pi.mul_apply, Finset.mul_sum]
    refine Finset.sum_congr rfl (fun ω' _ => ?_)
    rw [h ω' ω]; ring
  E_const a h := by
    funext ω
    simp only [interp]
    rw [Finset.sum_congr rfl (fun ω' _ => by rw [h ω' ω]), ← Finset.sum_mul, hw, one_mul]
  E_D x r _ := by
    funext ω
    simp only [interp, dir_sum, dir_mul, hw', zero_mul, zero_add]
  E_I x r _ := by funext ω; simp [interp]
  other_det := Subalgebra.zero_mem _

end Sympkf.Spec.Smooth
