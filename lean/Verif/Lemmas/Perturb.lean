import Verif.Spec.Pkf
import Verif.Lemmas.PolyAll
import Mathlib.Tactic.LinearCombination

/-!
# Lemmas: Taylor polynomials as an interpretation
-/

set_option autoImplicit false

namespace Sympkf.Spec

open Text Rand PKF

variable {R : Type} [CommRing R] [Algebra ℚ R]

/-- The small parameter is the symbol `epsilon`. -/
def liftI (S : Interp R) (l : List Field) : Interp (Jet R) :=
  { perturbed S l with sym := fun s => if s = Pkf.epsSym then .eps else .const (S.sym s) }

variable {S : Interp R} {A : Subalgebra ℚ R} {P : Set R} {C : Set Str}

theorem I_zero (hS : Stochastic S A) (x : Str) : S.I x 0 = 0 := by
  have := hS.I_add x 0 0
  simpa using this

namespace Jet

omit [Algebra ℚ R] in
theorem const_add (r s : R) : const (r + s) = const r + const s := by ext <;> simp

omit [Algebra ℚ R] in
theorem const_mul (r s : R) : const (r * s) = const r * const s := by ext <;> simp

omit [Algebra ℚ R] in
theorem const_pow (r : R) (n : ℕ) : const (r ^ n) = const r ^ n := map_pow constHom r n

omit [Algebra ℚ R] in
theorem map_const (f : R → R) (h0 : f 0 = 0) (r : R) : map f (const r) = const (f r) := by ext <;> simp [map, h0]

theorem algebraMap_eq (q : ℚ) : algebraMap ℚ (Jet R) q = const (algebraMap ℚ R q) := rfl

theorem compose_const (f0 f1 f2 r : R) : compose f0 f1 f2 (const r) = const f0 := by ext <;> simp [compose]

theorem func_const (S : Interp R) (g : Str) (r : R) : func S g (const r) = const (S.func g r) := by
  unfold func
  split
  · rw [compose_const]; rfl
  · rfl

theorem isNat_eq (q : ℚ) : (q.den = 1 ∧ 0 ≤ q.num) ↔ isNat q = true := by simp [isNat]

theorem pw_nat (S : Interp R) (a : Jet R) (n : ℕ) : pw S a (n : ℚ) = a ^ n := by
  unfold pw
  rw [if_pos (by simp)]
  simp

/-- The Taylor expansion of a power. -/
def power (S : Interp R) (a : Jet R) (q : ℚ) : Jet R :=
  compose (S.pw a.c0 q) (algebraMap ℚ R q * S.pw a.c0 (q - 1)) (algebraMap ℚ R (q * (q - 1)) * S.pw a.c0 (q - 2)) a

theorem half_two : algebraMap ℚ R (1 / 2) * 2 = 1 := by
  rw [show (2 : R) = algebraMap ℚ R 2 from (map_ofNat _ 2).symm, ← map_mul]
  norm_num

theorem power_add (hC : Calculus S P C) (a : Jet R) (ha : a.c0 ∈ P) (p q : ℚ) :
    power S a (p + q) = power S a p * power S a q := by
  obtain ⟨i, hi⟩ : ∃ i, i = S.pw a.c0 (-1) := ⟨_, rfl⟩
  have h1 : ∀ r : ℚ, S.pw a.c0 (r - 1) = S.pw a.c0 r * i := fun r => by rw [hi, ← hC.pw_add _ ha, sub_eq_add_neg]
  have h2 : ∀ r : ℚ, S.pw a.c0 (r - 2) = S.pw a.c0 r * i * i := fun r => by rw [← h1, ← h1]; ring_nf
  have hh := half_two (R := R)
  unfold power compose
  ext
  · simp only [mul_c0, hC.pw_add _ ha]
  · simp only [mul_c1, h1, hC.pw_add _ ha, map_add]; ring
  · simp only [mul_c2, h1, h2, hC.pw_add _ ha, map_add, map_mul, map_sub, map_one]
    linear_combination (algebraMap ℚ R p * algebraMap ℚ R q * S.pw a.c0 p * S.pw a.c0 q * i * i * a.c1 * a.c1) * hh

theorem pw_eq (hS : Diff S) (hC : Calculus S P C) (a : Jet R) (ha : a.c0 ∈ P) (q : ℚ) : pw S a q = power S a q := by
  have hn : ∀ n : ℕ, a ^ n = power S a (n : ℚ) := by
    have h1 : power S a 1 = a := by
      have e1 : S.pw a.c0 1 = a.c0 := by simpa using hS.pw_nat a.c0 1
      have e0 : S.pw a.c0 0 = 1 := by simpa using hS.pw_nat a.c0 0
      unfold power compose
      ext <;> simp [e1, e0]
    intro n
    induction n with
    | zero =>
      have e0 : S.pw a.c0 0 = 1 := by simpa using hS.pw_nat a.c0 0
      unfold power compose
      ext <;> simp [e0]
    | succ n ih => rw [pow_succ, ih, Nat.cast_succ, power_add hC a ha, h1]
  unfold pw
  split
  · rename_i h
    obtain ⟨n, rfl⟩ := (isNat_iff q).1 ((isNat_eq q).1 h)
    simpa using hn n
  · rfl

end Jet

open Jet

theorem lift_pw_C (hS : Stochastic S A) (l : List Field) (r : R) (q : ℚ) :
    (liftI S l).pw (const r) q = const (S.pw r q) := by
  show Jet.pw S _ q = _
  unfold Jet.pw
  split
  · rename_i h
    obtain ⟨n, rfl⟩ := (isNat_iff q).1 ((isNat_eq q).1 h)
    rw [hS.pw_nat, const_pow]
    simp
  · rw [compose_const]; rfl

theorem lift_diff (hS : Stochastic S A) (l : List Field) : Diff (liftI S l) where
  pw_nat r n := Jet.pw_nat S r n
  D_add x r s := by ext <;> exact hS.D_add _ _ _
  D_mul x r s := by
    show Jet.map (S.D x) _ = Jet.map (S.D x) _ * _ + _ * Jet.map (S.D x) _
    ext
    · exact hS.D_mul _ _ _
    · simp only [Jet.map, mul_c1, add_c1, hS.D_add, hS.D_mul]; ring
    · simp only [Jet.map, mul_c2, add_c2, hS.D_add, hS.D_mul]; ring
  D_comm x y r := by ext <;> exact hS.D_comm _ _ _

theorem D_neg' (hS : Stochastic S A) (x : Str) (f g r : R) (h : S.D x f = g * r) : S.D x (-f) = -g * r := by
  rw [D_neg hS.diff, h, neg_mul]

theorem compose_D (hS : Stochastic S A) (x : Str) (f0 f1 f2 f3 : R) (r : Jet R) (h0 : S.D x f0 = f1 * S.D x r.c0)
    (h1 : S.D x f1 = f2 * S.D x r.c0) (h2 : S.D x f2 = f3 * S.D x r.c0) :
    Jet.map (S.D x) (compose f0 f1 f2 r) = compose f1 f2 f3 r * Jet.map (S.D x) r := by
  have hh := half_two (R := R)
  unfold compose
  ext
  · simp only [Jet.map, mul_c0, h0]
  · simp only [Jet.map, mul_c1, hS.D_mul, h1]; ring
  · simp only [Jet.map, mul_c2, hS.D_mul, hS.D_add, h1, h2, D_algebraMap hS.diff]
    linear_combination (f2 * r.c1 * S.D x r.c1) * hh

theorem compose_mul (f0 f1 f2 g0 g1 g2 : R) (r : Jet R) :
    compose f0 f1 f2 r * compose g0 g1 g2 r = compose (f0 * g0) (f0 * g1 + f1 * g0) (f0 * g2 + 2 * f1 * g1 + f2 * g0) r := by
  have hh := half_two (R := R)
  unfold compose
  ext
  · simp
  · simp only [mul_c1]; ring
  · simp only [mul_c2]
    linear_combination (- f1 * g1 * r.c1 * r.c1) * hh

theorem D_two (hS : Stochastic S A) (x : Str) : S.D x 2 = 0 := by
  rw [← one_add_one_eq_two, hS.D_add, D_one hS.diff, add_zero]

theorem func_tanh (r : Jet R) : func S "tanh".toList r = compose (S.func "tanh".toList r.c0) (1 - S.func "tanh".toList r.c0 ^ 2)
    (- 2 * S.func "tanh".toList r.c0 * (1 - S.func "tanh".toList r.c0 ^ 2)) r := rfl

theorem func_tan (r : Jet R) : func S "tan".toList r = compose (S.func "tan".toList r.c0) (1 + S.func "tan".toList r.c0 ^ 2)
    (2 * S.func "tan".toList r.c0 * (1 + S.func "tan".toList r.c0 ^ 2)) r := rfl

theorem func_log (r : Jet R) : func S "log".toList r = compose (S.func "log".toList r.c0) (S.pw r.c0 (-1)) (- S.pw r.c0 (-2)) r := rfl

theorem func_atan (r : Jet R) : func S "atan".toList r = compose (S.func "atan".toList r.c0) (S.pw (1 + r.c0 ^ 2) (-1))
    (- 2 * r.c0 * S.pw (1 + r.c0 ^ 2) (-2)) r := rfl

/-- The hyperbolic tangent and the tangent: `f' = 1 + s f²`. -/
theorem riccati_D (hS : Stochastic S A) (x : Str) (t s : R) (r : Jet R) (hs : S.D x s = 0) (ht : S.D x t = (1 + s * t ^ 2) * S.D x r.c0) :
    Jet.map (S.D x) (compose t (1 + s * t ^ 2) (2 * s * t * (1 + s * t ^ 2)) r) =
      (1 + const s * compose t (1 + s * t ^ 2) (2 * s * t * (1 + s * t ^ 2)) r ^ 2) * Jet.map (S.D x) r := by
  have h1 : S.D x (1 + s * t ^ 2) = (2 * s * t * (1 + s * t ^ 2)) * S.D x r.c0 := by
    rw [hS.D_add, D_one hS.diff, hS.D_mul, hs, pow_two, hS.D_mul, ht]; ring
  have h2 : S.D x (2 * s * t * (1 + s * t ^ 2)) =
      (2 * s * (1 + s * t ^ 2) ^ 2 + 4 * s ^ 2 * t ^ 2 * (1 + s * t ^ 2)) * S.D x r.c0 := by
    rw [hS.D_mul, hS.D_mul, hS.D_mul, h1, hs, ht, D_two hS]; ring
  rw [compose_D hS x _ _ _ _ r ht h1 h2, pow_two (compose _ _ _ _), compose_mul]
  congr 1
  unfold compose
  have hh := half_two (R := R)
  ext
  · simp; ring
  · simp; ring
  · simp only [add_c2, mul_c2, const_c0, const_c1, const_c2, one_c2]; ring

theorem compose_neg (f0 f1 f2 : R) (r : Jet R) : compose (-f0) (-f1) (-f2) r = - compose f0 f1 f2 r := by
  unfold compose
  ext
  · rfl
  · simp
  · simp only [neg_c2]; ring

theorem lift_calculus (hS : Stochastic S A) (hC : Calculus S P C) (hε : Pkf.epsSym ∉ C) (l : List Field)
    (hl : ∀ f ∈ l, positiveFn f.value = false) :
    Calculus (liftI S l) {j | j.c0 ∈ P} C where
  omega_notMem := hC.omega_notMem
  zero_notMem := hC.zero_notMem
  D_sym x hx s := by
    show Jet.map (S.D x) (if s = Pkf.epsSym then eps else const (S.sym s)) = _
    by_cases h : s = Pkf.epsSym
    · have hsx : s ≠ x := fun e => hε (h ▸ e ▸ hx)
      rw [if_pos h, if_neg hsx]
      ext <;> simp [Jet.map, D_one hS.diff, D_zero hS.diff]
    · rw [if_neg h, map_const _ (D_zero hS.diff x), hC.D_sym x hx]
      split <;> rfl
  D_fn x hx u args hargs := by
    show Jet.map (S.D x) (if (⟨u, args⟩ : Field) ∈ l then _ else const (S.fn u args)) = 0
    have hxo : x ≠ omega := fun e => hC.omega_notMem (e ▸ hx)
    have hargs' : x ∉ args ++ [omega] := by simp [hargs, hxo]
    split
    · ext
      · show S.D x (S.E (den S (Field.random ⟨u, args⟩))) = 0
        rw [← hS.E_D x _ hxo]
        have : S.D x (den S (Field.random ⟨u, args⟩)) = 0 := hC.D_fn x hx u _ hargs'
        rw [this, E_zero hS]
      · exact hC.D_fn x hx _ _ hargs'
      · exact D_zero hS.diff x
    · rw [map_const _ (D_zero hS.diff x), hC.D_fn x hx u args hargs]; rfl
  pw_add := by
    intro r hr p q
    show Jet.pw S r _ = Jet.pw S r _ * Jet.pw S r _
    rw [pw_eq hS.diff hC r hr, pw_eq hS.diff hC r hr, pw_eq hS.diff hC r hr, power_add hC r hr]
  pw_mul := by
    intro r hr p q
    show Jet.pw S (Jet.pw S r _) _ = Jet.pw S r _
    rw [pw_eq hS.diff hC r hr, pw_eq hS.diff hC r hr]
    unfold Jet.pw
    split
    · rename_i h
      obtain ⟨n, rfl⟩ := (isNat_iff q).1 ((isNat_eq q).1 h)
      simp only [Rat.num_natCast, Int.toNat_natCast]
      clear h
      induction n with
      | zero =>
        have e0 : S.pw r.c0 0 = 1 := by simpa using hS.diff.pw_nat r.c0 0
        rw [pow_zero]
        unfold power compose
        ext <;> simp [e0]
      | succ n ih => rw [pow_succ, ih, ← power_add hC r hr]; congr 1; push_cast; ring
    · have e : (power S r p).c0 = S.pw r.c0 p := rfl
      obtain ⟨i, hi⟩ : ∃ i, i = S.pw r.c0 (-1) := ⟨_, rfl⟩
      have h1 : ∀ q : ℚ, S.pw r.c0 (q - 1) = S.pw r.c0 q * i := fun q => by rw [hi, ← hC.pw_add _ hr, sub_eq_add_neg]
      have h2 : ∀ q : ℚ, S.pw r.c0 (q - 2) = S.pw r.c0 q * i * i := fun q => by rw [← h1, ← h1]; ring_nf
      rw [e, hC.pw_mul _ hr, hC.pw_mul _ hr, hC.pw_mul _ hr]
      have a1 : S.pw r.c0 (p * q) = S.pw r.c0 p * S.pw r.c0 (p * (q - 1)) := by rw [← hC.pw_add _ hr]; ring_nf
      have a2 : S.pw r.c0 (p * (q - 1)) = S.pw r.c0 p * S.pw r.c0 (p * (q - 2)) := by rw [← hC.pw_add _ hr]; ring_nf
      unfold power compose
      ext
      · rfl
      · simp only [h1, a1, a2, map_mul]; ring
      · simp only [h1, h2, a1, a2, map_mul, map_sub, map_one]; ring
  D_pw := by
    intro x hx r hr q
    show Jet.map (S.D x) (Jet.pw S r q) = algebraMap ℚ (Jet R) q * Jet.pw S r (q - 1) * Jet.map (S.D x) r
    rw [pw_eq hS.diff hC r hr, pw_eq hS.diff hC r hr]
    obtain ⟨i, hi⟩ : ∃ i, i = S.pw r.c0 (-1) := ⟨_, rfl⟩
    have h1 : ∀ q : ℚ, S.pw r.c0 (q - 1) = S.pw r.c0 q * i := fun q => by rw [hi, ← hC.pw_add _ hr, sub_eq_add_neg]
    have h2 : ∀ q : ℚ, S.pw r.c0 (q - 2) = S.pw r.c0 q * i * i := fun q => by rw [← h1, ← h1]; ring_nf
    have hD : ∀ q : ℚ, S.D x (S.pw r.c0 q) = algebraMap ℚ R q * (S.pw r.c0 q * i) * S.D x r.c0 := fun q => by rw [hC.D_pw x hx r.c0 hr, h1]
    have hDi : S.D x i = - (i * i) * S.D x r.c0 := by rw [hi, hD, ← hi, map_neg, map_one]; ring
    have hh := half_two (R := R)
    unfold power compose
    ext
    · simp only [Jet.map, mul_c0, hD, algebraMap_eq, const_c0, h1]
    · simp only [Jet.map, mul_c1, mul_c0, algebraMap_eq, const_c0, const_c1, hS.D_mul, D_algebraMap hS.diff, h1, h2, hD, hDi]
      simp only [map_sub, map_one]
      ring
    · simp only [Jet.map, mul_c2, mul_c1, mul_c0, algebraMap_eq, const_c0, const_c1, const_c2, hS.D_mul, hS.D_add,
        D_algebraMap hS.diff, h1, h2, hD, hDi]
      simp only [map_mul, map_sub, map_one]
      obtain ⟨w, hw⟩ : ∃ w, w = algebraMap ℚ R q := ⟨_, rfl⟩
      rw [← hw]
      linear_combination (w * (w - 1) * S.pw r.c0 q * i * i * r.c1 * S.D x r.c1) * hh
  positive := by
    intro u args h
    show (if (⟨u, args⟩ : Field) ∈ l then _ else const (S.fn u args) : Jet R).c0 ∈ P
    split
    · rename_i hm
      have : positiveFn (Ex.fn u args) = false := hl _ hm
      rw [h] at this; cases this
    · exact hC.positive u args h
  D_exp x hx r := by
    have e := compose_D hS x (S.func "exp".toList r.c0) _ _ _ r (hC.D_exp x hx _) (hC.D_exp x hx _) (hC.D_exp x hx _)
    exact e
  D_sin x hx r := by
    have e := compose_D hS x (S.func "sin".toList r.c0) _ _ _ r (hC.D_sin x hx _) (hC.D_cos x hx _) (D_neg' hS x _ _ _ (hC.D_sin x hx _))
    exact e
  D_cos x hx r := by
    have e := compose_D hS x (S.func "cos".toList r.c0) _ _ _ r (hC.D_cos x hx _) (D_neg' hS x _ _ _ (hC.D_sin x hx _)) (D_neg' hS x _ _ _ (hC.D_cos x hx _))
    rw [compose_neg] at e
    exact e
  D_sinh x hx r := by
    have e := compose_D hS x (S.func "sinh".toList r.c0) _ _ _ r (hC.D_sinh x hx _) (hC.D_cosh x hx _) (hC.D_sinh x hx _)
    exact e
  D_cosh x hx r := by
    have e := compose_D hS x (S.func "cosh".toList r.c0) _ _ _ r (hC.D_cosh x hx _) (hC.D_sinh x hx _) (hC.D_cosh x hx _)
    exact e
  D_tanh x hx r := by
    have e := riccati_D hS x (S.func "tanh".toList r.c0) (-1) r (by rw [D_neg hS.diff, D_one hS.diff, neg_zero])
      (by rw [hC.D_tanh x hx]; ring)
    have c : func S "tanh".toList r = compose (S.func "tanh".toList r.c0) (1 + -1 * S.func "tanh".toList r.c0 ^ 2)
        (2 * -1 * S.func "tanh".toList r.c0 * (1 + -1 * S.func "tanh".toList r.c0 ^ 2)) r := by
      rw [func_tanh]; congr 1 <;> ring
    show Jet.map (S.D x) (func S "tanh".toList r) = (1 - func S "tanh".toList r ^ 2) * Jet.map (S.D x) r
    rw [c, e]
    have : (const (-1) : Jet R) = -1 := by ext <;> simp
    rw [this]; ring
  D_tan x hx r hr := by
    have hr' : S.func "cos".toList r.c0 ^ 2 ∈ P := by
      have : (func S "cos".toList r ^ 2).c0 ∈ P := hr
      rw [pow_two] at this ⊢
      exact this
    have e := riccati_D hS x (S.func "tan".toList r.c0) 1 r (D_one hS.diff x) (by rw [hC.D_tan x hx _ hr']; ring)
    have c : func S "tan".toList r = compose (S.func "tan".toList r.c0) (1 + 1 * S.func "tan".toList r.c0 ^ 2)
        (2 * 1 * S.func "tan".toList r.c0 * (1 + 1 * S.func "tan".toList r.c0 ^ 2)) r := by
      rw [func_tan]; congr 1 <;> ring
    show Jet.map (S.D x) (func S "tan".toList r) = (1 + func S "tan".toList r ^ 2) * Jet.map (S.D x) r
    rw [c, e]
    have : (const 1 : Jet R) = 1 := rfl
    rw [this]; ring
  D_log x hx r hr := by
    have hr' : r.c0 ∈ P := hr
    have h1 : S.D x (S.pw r.c0 (-1)) = - S.pw r.c0 (-2) * S.D x r.c0 := by
      rw [hC.D_pw x hx _ hr']; norm_num
    have h2 : S.D x (- S.pw r.c0 (-2)) = 2 * S.pw r.c0 (-3) * S.D x r.c0 := by
      rw [D_neg hS.diff, hC.D_pw x hx _ hr']; norm_num [map_ofNat]
    show Jet.map (S.D x) (func S "log".toList r) = Jet.pw S r (-1) * Jet.map (S.D x) r
    rw [func_log, compose_D hS x _ _ _ _ r (hC.D_log x hx _ hr') h1 h2, pw_eq hS.diff hC r hr]
    unfold power
    congr 2 <;> norm_num [map_ofNat]
  D_atan x hx r hr := by
    obtain ⟨b, hb⟩ : ∃ b, b = 1 + r.c0 ^ 2 := ⟨_, rfl⟩
    have hr0 : (1 + r ^ 2 : Jet R).c0 ∈ P := hr
    have hr' : b ∈ P := by
      rw [pow_two] at hr0
      rw [hb, pow_two]; exact hr0
    have hD : S.D x b = 2 * r.c0 * S.D x r.c0 := by rw [hb, hS.D_add, D_one hS.diff, pow_two, hS.D_mul]; ring
    have h1 : S.D x (S.pw b (-1)) = (- 2 * r.c0 * S.pw b (-2)) * S.D x r.c0 := by
      rw [hC.D_pw x hx _ hr', hD]; norm_num [map_ofNat]; ring
    have h2 : S.D x (- 2 * r.c0 * S.pw b (-2)) = (- 2 * S.pw b (-2) + 8 * r.c0 ^ 2 * S.pw b (-3)) * S.D x r.c0 := by
      rw [hS.D_mul, hS.D_mul, D_neg hS.diff, D_two hS, hC.D_pw x hx _ hr', hD]; norm_num [map_ofNat]; ring
    show Jet.map (S.D x) (func S "atan".toList r) = Jet.pw S (1 + r ^ 2) (-1) * Jet.map (S.D x) r
    have h0 := hC.D_atan x hx r.c0 (by rw [← hb]; exact hr')
    rw [← hb] at h0
    rw [func_atan, ← hb, compose_D hS x _ _ _ _ r h0 h1 h2, pw_eq hS.diff hC _ hr]
    congr 1
    have hh := half_two (R := R)
    have c0 : (1 + r ^ 2 : Jet R).c0 = b := by rw [hb, pow_two, pow_two]; rfl
    unfold power compose
    rw [c0]
    have n1 : (-1 - 1 : ℚ) = -2 := by norm_num
    have n2 : (-1 - 2 : ℚ) = -3 := by norm_num
    rw [n1, n2]
    ext
    · rfl
    · simp only [add_c1, one_c1, pow_two, mul_c1, map_neg, map_one]; ring
    · simp only [add_c1, add_c2, one_c1, one_c2, pow_two, mul_c1, mul_c2, map_neg, map_one, neg_mul, one_mul, neg_neg, map_ofNat]
      linear_combination (- S.pw b (-2) * r.c1 * r.c1) * hh

/-! ## Expressions without fields and parameter -/

theorem lift_derivs_C (hS : Stochastic S A) (l : List Field) (vars : List (Str × ℕ)) (r : R) :
    derivs (liftI S l) vars (const r) = const (derivs S vars r) := by
  induction vars generalizing r with
  | nil => rfl
  | cons v vars ih =>
    obtain ⟨x, n⟩ := v
    rw [derivs, derivs, ← ih]
    congr 1
    clear ih
    induction n generalizing r with
    | zero => rfl
    | succ n ih =>
      rw [Function.iterate_succ_apply, Function.iterate_succ_apply, ← ih]
      congr 1
      exact map_const _ (D_zero hS.diff x) r

theorem den_lift_free (hS : Stochastic S A) (l : List Field) (a : Ex) (h1 : FieldFree l a)
    (h2 : Pkf.occurs Pkf.epsSym a = false) : den (liftI S l) a = const (den S a) := by
  induction a with
  | num q => rfl
  | sym s =>
    have : s ≠ Pkf.epsSym := by simpa [Pkf.occurs] using h2
    show (if s = Pkf.epsSym then eps else const (S.sym s) : Jet R) = _
    rw [if_neg this]; rfl
  | fn u args =>
    show (if (⟨u, args⟩ : Field) ∈ l then _ else const (S.fn u args) : Jet R) = _
    rw [if_neg h1]; rfl
  | func g a ih =>
    show Jet.func S g (den (liftI S l) a) = _
    rw [ih h1 h2, func_const]; rfl
  | add a b iha ihb =>
    simp only [Pkf.occurs, Bool.or_eq_false_iff] at h2
    show den (liftI S l) a + den (liftI S l) b = _
    rw [iha h1.1 h2.1, ihb h1.2 h2.2, ← const_add]; rfl
  | mul a b iha ihb =>
    simp only [Pkf.occurs, Bool.or_eq_false_iff] at h2
    show den (liftI S l) a * den (liftI S l) b = _
    rw [iha h1.1 h2.1, ihb h1.2 h2.2, ← const_mul]; rfl
  | pow a q ih =>
    show (liftI S l).pw (den (liftI S l) a) q = _
    rw [ih h1 h2, lift_pw_C hS]; rfl
  | deriv a vars ih =>
    simp only [Pkf.occurs, Bool.or_eq_false_iff] at h2
    show derivs (liftI S l) vars (den (liftI S l) a) = _
    rw [ih h1 h2.1, lift_derivs_C hS]; rfl
  | integ a x ih =>
    simp only [Pkf.occurs, Bool.or_eq_false_iff] at h2
    show Jet.map (S.I x) (den (liftI S l) a) = _
    rw [ih h1 h2.1, map_const _ (I_zero hS x)]; rfl
  | ex a ih =>
    show Jet.map S.E (den (liftI S l) a) = _
    rw [ih h1 h2, map_const _ (E_zero hS)]; rfl
  | other b => rfl

end Sympkf.Spec
