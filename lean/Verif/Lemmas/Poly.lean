import Verif.Spec.Calculus
import Verif.Lemmas.Random
import Mathlib.Tactic.Ring
import Mathlib.Tactic.LinearCombination

/-!
# Values of polynomials
-/

set_option autoImplicit false

namespace Sympkf.Rand

open Text Spec

variable {R : Type} [CommRing R] [Algebra ℚ R] (S : Interp R)

/-- Value of a monomial. -/
def denM (m : Mono) : R := (m.map (fun f => S.pw (den S f.1) f.2)).prod

/-- Value of a polynomial. -/
def denP (p : Poly) : R := (p.map (fun t => algebraMap ℚ R t.2 * denM S t.1)).sum

@[simp] theorem denM_nil : denM S [] = 1 := rfl
@[simp] theorem denM_cons (f : Ex × ℚ) (m : Mono) : denM S (f :: m) = S.pw (den S f.1) f.2 * denM S m := by simp [denM]
@[simp] theorem denP_nil : denP S [] = 0 := rfl
@[simp] theorem denP_cons (t : Mono × ℚ) (p : Poly) : denP S (t :: p) = algebraMap ℚ R t.2 * denM S t.1 + denP S p := by
  simp [denP]

theorem denP_append (p q : Poly) : denP S (p ++ q) = denP S p + denP S q := by simp [denP]

theorem isNat_iff (q : ℚ) : isNat q = true ↔ ∃ n : ℕ, q = n := by
  unfold isNat
  rw [Bool.and_eq_true, decide_eq_true_eq, decide_eq_true_eq]
  constructor
  · intro h; exact ⟨_, rat_nat h⟩
  · rintro ⟨n, rfl⟩; simp

theorem isNat_toNat {q : ℚ} (h : isNat q = true) : q = ((q.num.toNat : ℕ) : ℚ) := by
  unfold isNat at h
  rw [Bool.and_eq_true, decide_eq_true_eq, decide_eq_true_eq] at h
  exact rat_nat h

/-- `r ^ q` obeys the laws of powers. -/
def PowOK (P : Set R) (r : R) (q : ℚ) : Prop := isNat q = true ∨ r ∈ P

/-- The factor is regular. -/
def FOK (P : Set R) (C : Set Str) (f : Ex × ℚ) : Prop := Regular S P C f.1 ∧ PowOK P (den S f.1) f.2

/-- The monomial is regular. -/
def MOK (P : Set R) (C : Set Str) (m : Mono) : Prop := ∀ f ∈ m, FOK S P C f

/-- The polynomial is regular. -/
def POK (P : Set R) (C : Set Str) (p : Poly) : Prop := ∀ t ∈ p, MOK S P C t.1

variable {S} {A : Subalgebra ℚ R} {P : Set R} {C : Set Str}

section
variable (hS : Diff S) (hC : Calculus S P C)

theorem MOK.nil : MOK S P C [] := by intro f h; cases h
theorem MOK.cons {f : Ex × ℚ} {m : Mono} (hf : FOK S P C f) (hm : MOK S P C m) : MOK S P C (f :: m) := by
  intro g hg
  rcases List.mem_cons.1 hg with rfl | hg
  · exact hf
  · exact hm g hg
theorem MOK.head {f : Ex × ℚ} {m : Mono} (h : MOK S P C (f :: m)) : FOK S P C f := h f (by simp)
theorem MOK.tail {f : Ex × ℚ} {m : Mono} (h : MOK S P C (f :: m)) : MOK S P C m := fun g hg => h g (by simp [hg])
theorem POK.nil : POK S P C [] := by intro f h; cases h
theorem POK.cons {t : Mono × ℚ} {p : Poly} (ht : MOK S P C t.1) (hp : POK S P C p) : POK S P C (t :: p) := by
  intro g hg
  rcases List.mem_cons.1 hg with rfl | hg
  · exact ht
  · exact hp g hg
theorem POK.head {t : Mono × ℚ} {p : Poly} (h : POK S P C (t :: p)) : MOK S P C t.1 := h t (by simp)
theorem POK.tail {t : Mono × ℚ} {p : Poly} (h : POK S P C (t :: p)) : POK S P C p := fun g hg => h g (by simp [hg])

/-! ## Powers -/

include hS in
theorem pw_zero (r : R) : S.pw r 0 = 1 := by
  have := hS.pw_nat r 0
  simpa using this

include hS in
theorem pw_one (r : R) : S.pw r 1 = r := by
  have := hS.pw_nat r 1
  simpa using this

omit [CommRing R] [Algebra ℚ R] in
theorem powOK_add {r : R} {p q : ℚ} (hp : PowOK P r p) (hq : PowOK P r q) : PowOK P r (p + q) := by
  rcases hp with hp | hp
  · rcases hq with hq | hq
    · left
      obtain ⟨m, rfl⟩ := (isNat_iff p).1 hp
      obtain ⟨n, rfl⟩ := (isNat_iff q).1 hq
      exact (isNat_iff _).2 ⟨m + n, by push_cast; rfl⟩
    · exact .inr hq
  · exact .inr hp

include hS hC in
theorem pw_add' {r : R} {p q : ℚ} (hp : PowOK P r p) (hq : PowOK P r q) : S.pw r (p + q) = S.pw r p * S.pw r q := by
  rcases hp with hp | hp
  · rcases hq with hq | hq
    · obtain ⟨m, rfl⟩ := (isNat_iff p).1 hp
      obtain ⟨n, rfl⟩ := (isNat_iff q).1 hq
      have := hS.pw_nat r (m + n)
      push_cast at this
      rw [this, hS.pw_nat, hS.pw_nat, pow_add]
    · exact hC.pw_add r hq p q
  · exact hC.pw_add r hp p q

/-! ## Sums and products -/

include hS hC in
theorem mulAtom_spec (a : Ex) (q : ℚ) (m : Mono) (ha : FOK S P C (a, q)) (hm : MOK S P C m) :
    denM S (mulAtom a q m) = S.pw (den S a) q * denM S m ∧ MOK S P C (mulAtom a q m) := by
  induction m with
  | nil => exact ⟨by simp [mulAtom], MOK.cons ha .nil⟩
  | cons f m ih =>
    obtain ⟨b, p⟩ := f
    obtain ⟨i1, i2⟩ := ih hm.tail
    have hb := hm.head
    unfold mulAtom
    split
    · rename_i hab
      subst hab
      have hadd : S.pw (den S a) (p + q) = S.pw (den S a) p * S.pw (den S a) q := pw_add' hS hC hb.2 ha.2
      split
      · rename_i h0
        rw [h0, pw_zero hS] at hadd
        refine ⟨?_, hm.tail⟩
        rw [denM_cons]
        linear_combination denM S m * hadd
      · refine ⟨?_, MOK.cons ⟨ha.1, powOK_add hb.2 ha.2⟩ hm.tail⟩
        rw [denM_cons, denM_cons, hadd]; ring
    · split
      · exact ⟨by simp, MOK.cons ha hm⟩
      · refine ⟨?_, MOK.cons hb i2⟩
        rw [denM_cons, i1, denM_cons]; ring

include hS hC in
theorem monoMul_spec (m m' : Mono) (hm : MOK S P C m) (hm' : MOK S P C m') :
    denM S (monoMul m m') = denM S m * denM S m' ∧ MOK S P C (monoMul m m') := by
  induction m with
  | nil => exact ⟨by simp [monoMul], hm'⟩
  | cons f m ih =>
    obtain ⟨i1, i2⟩ := ih hm.tail
    obtain ⟨h1, h2⟩ := mulAtom_spec hS hC f.1 f.2 (monoMul m m') hm.head i2
    refine ⟨?_, h2⟩
    show denM S (mulAtom f.1 f.2 (monoMul m m')) = _
    rw [h1, i1, denM_cons]; ring

theorem addTerm_den (m : Mono) (c : ℚ) (p : Poly) : denP S (addTerm m c p) = algebraMap ℚ R c * denM S m + denP S p := by
  induction p with
  | nil =>
    unfold addTerm
    split
    · rename_i h; simp [h]
    · simp
  | cons t p ih =>
    obtain ⟨n, d⟩ := t
    unfold addTerm
    split
    · rename_i h
      subst h
      split
      · rename_i h
        have : algebraMap ℚ R d + algebraMap ℚ R c = 0 := by rw [← map_add, h, map_zero]
        rw [denP_cons]
        linear_combination -denM S m * this
      · simp only [denP_cons, map_add]; ring
    · split
      · rename_i h; simp [h]
      · split
        · simp
        · simp only [denP_cons, ih]; ring

theorem addTerm_ok (m : Mono) (c : ℚ) (p : Poly) (hm : MOK S P C m) (hp : POK S P C p) : POK S P C (addTerm m c p) := by
  induction p with
  | nil =>
    unfold addTerm
    split
    · exact .nil
    · exact POK.cons hm .nil
  | cons t p ih =>
    obtain ⟨n, d⟩ := t
    unfold addTerm
    split
    · split
      · exact hp.tail
      · exact POK.cons hp.head hp.tail
    · split
      · exact hp
      · split
        · exact POK.cons hm hp
        · exact POK.cons hp.head (ih hp.tail)

theorem padd_den (p q : Poly) : denP S (padd p q) = denP S p + denP S q := by
  induction p with
  | nil => simp [padd]
  | cons t p ih =>
    show denP S (addTerm t.1 t.2 (padd p q)) = _
    rw [addTerm_den, ih, denP_cons]; ring

theorem padd_ok (p q : Poly) (hp : POK S P C p) (hq : POK S P C q) : POK S P C (padd p q) := by
  induction p with
  | nil => exact hq
  | cons t p ih => exact addTerm_ok _ _ _ hp.head (ih hp.tail)

theorem pconst_den (c : ℚ) : denP S (pconst c) = algebraMap ℚ R c := by
  unfold pconst
  split
  · rename_i h; simp [h]
  · simp

theorem pconst_ok (c : ℚ) : POK S P C (pconst c) := by
  unfold pconst
  split
  · exact .nil
  · exact POK.cons .nil .nil

include hS in
theorem patom_den (a : Ex) : denP S (patom a) = den S a := by simp [patom, pw_one hS]

theorem patom_ok (a : Ex) (ha : Regular S P C a) : POK S P C (patom a) :=
  POK.cons (MOK.cons ⟨ha, .inl (show isNat 1 = true by decide +kernel)⟩ .nil) .nil

include hS hC in
theorem pmulTerm_spec (m : Mono) (c : ℚ) (q : Poly) (hm : MOK S P C m) (hq : POK S P C q) :
    denP S (pmulTerm m c q) = algebraMap ℚ R c * denM S m * denP S q ∧ POK S P C (pmulTerm m c q) := by
  induction q with
  | nil => exact ⟨by simp [pmulTerm], .nil⟩
  | cons t q ih =>
    obtain ⟨i1, i2⟩ := ih hq.tail
    obtain ⟨h1, h2⟩ := monoMul_spec hS hC m t.1 hm hq.head
    refine ⟨?_, addTerm_ok _ _ _ h2 i2⟩
    show denP S (addTerm (monoMul m t.1) (c * t.2) (pmulTerm m c q)) = _
    rw [addTerm_den, i1, h1, denP_cons, map_mul]; ring

include hS hC in
theorem pmul_spec (p q : Poly) (hp : POK S P C p) (hq : POK S P C q) :
    denP S (pmul p q) = denP S p * denP S q ∧ POK S P C (pmul p q) := by
  induction p with
  | nil => exact ⟨by simp [pmul], .nil⟩
  | cons t p ih =>
    obtain ⟨i1, i2⟩ := ih hp.tail
    obtain ⟨h1, h2⟩ := pmulTerm_spec hS hC t.1 t.2 q hp.head hq
    refine ⟨?_, padd_ok _ _ h2 i2⟩
    show denP S (padd (pmulTerm t.1 t.2 q) (pmul p q)) = _
    rw [padd_den, i1, h1, denP_cons]; ring

include hS hC in
theorem ppowN_spec (p : Poly) (n : ℕ) (hp : POK S P C p) :
    denP S (ppowN p n) = denP S p ^ n ∧ POK S P C (ppowN p n) := by
  induction n with
  | zero => exact ⟨by simp [ppowN, pconst_den], pconst_ok 1⟩
  | succ n ih =>
    obtain ⟨h1, h2⟩ := pmul_spec hS hC p _ hp ih.2
    refine ⟨?_, h2⟩
    show denP S (pmul p (ppowN p n)) = _
    rw [h1, ih.1, pow_succ]; ring

/-! ## Back to expressions -/

include hS in
theorem factorEx_den (f : Ex × ℚ) : den S (factorEx f) = S.pw (den S f.1) f.2 := by
  unfold factorEx
  split
  · rename_i h; rw [h, pw_one hS]
  · rfl

theorem factorEx_ok (f : Ex × ℚ) (h : FOK S P C f) : Regular S P C (factorEx f) := by
  unfold factorEx
  split
  · exact h.1
  · exact h

include hS in
theorem monoEx_den (m : Mono) : den S (monoEx m) = denM S m := by
  unfold monoEx denM
  rw [den_prod, List.map_map]
  congr 1
  exact List.map_congr_left (fun f _ => factorEx_den hS f)

theorem prod_ok (l : List Ex) (h : ∀ a ∈ l, Regular S P C a) : Regular S P C (prod l) := by
  induction l with
  | nil => trivial
  | cons a l ih =>
    cases l with
    | nil => exact h a (by simp)
    | cons b l => exact ⟨h a (by simp), ih (fun c hc => h c (by simp [hc]))⟩

theorem monoEx_ok (m : Mono) (h : MOK S P C m) : Regular S P C (monoEx m) := by
  apply prod_ok
  intro a ha
  obtain ⟨f, hf, rfl⟩ := List.mem_map.1 ha
  exact factorEx_ok f (h f hf)

include hS in
theorem termEx_den (t : Mono × ℚ) : den S (termEx t) = algebraMap ℚ R t.2 * denM S t.1 := by
  unfold termEx
  split
  · rename_i h; rw [monoEx_den hS, h]; simp
  · split
    · rename_i h; rw [h]; simp [den]
    · simp [den, monoEx_den hS]

theorem termEx_ok (t : Mono × ℚ) (h : MOK S P C t.1) : Regular S P C (termEx t) := by
  unfold termEx
  split
  · exact monoEx_ok _ h
  · split
    · trivial
    · exact ⟨trivial, monoEx_ok _ h⟩

include hS in
theorem toEx_den (p : Poly) : den S (toEx p) = denP S p := by
  induction p with
  | nil => simp [toEx, den]
  | cons t p ih =>
    cases p with
    | nil => simp [toEx, termEx_den hS]
    | cons t' p =>
      show den S (.add (termEx t) (toEx (t' :: p))) = _
      simp only [den]
      rw [ih, termEx_den hS, denP_cons S t]

theorem toEx_ok (p : Poly) (h : POK S P C p) : Regular S P C (toEx p) := by
  induction p with
  | nil => trivial
  | cons t p ih =>
    cases p with
    | nil => exact termEx_ok t h.head
    | cons t' p => exact ⟨termEx_ok t h.head, ih h.tail⟩

/-! ## Rational powers -/

include hS hC in
theorem ppow_spec (p : Poly) (q : ℚ) (hp : POK S P C p) (hq : PowOK P (denP S p) q) :
    denP S (ppow p q) = S.pw (denP S p) q ∧ POK S P C (ppow p q) := by
  have opaque' : denP S (patom (.pow (toEx p) q)) = S.pw (denP S p) q ∧ POK S P C (patom (.pow (toEx p) q)) := by
    refine ⟨by rw [patom_den hS]; simp only [den, toEx_den hS], patom_ok _ ⟨toEx_ok p hp, ?_⟩⟩
    rw [toEx_den hS]; exact hq
  unfold ppow
  split
  · rename_i h
    obtain ⟨h1, h2⟩ := ppowN_spec hS hC p q.num.toNat hp
    refine ⟨?_, h2⟩
    have := hS.pw_nat (denP S p) q.num.toNat
    rw [← isNat_toNat h] at this
    rw [h1, this]
  · rename_i hn
    have hr : denP S p ∈ P := hq.resolve_left hn
    split
    · rename_i a k c
      split
      · rename_i h
        obtain ⟨rfl, h⟩ := h
        have ha : FOK S P C (a, k) := hp.head.head
        have hden : denP S [([(a, k)], 1)] = S.pw (den S a) k := by simp
        rcases h with rfl | h
        · rw [hden, pw_one hS] at hr ⊢
          refine ⟨by simp, POK.cons (MOK.cons ⟨ha.1, .inr hr⟩ .nil) .nil⟩
        · have haP : den S a ∈ P := by
            cases a with
            | fn u args => exact hC.positive u args h
            | _ => simp [positiveFn] at h
          refine ⟨?_, POK.cons (MOK.cons ⟨ha.1, .inr haP⟩ .nil) .nil⟩
          rw [hden, hC.pw_mul _ haP]; simp
      · exact opaque'
    · exact opaque'

/-! ## Derivatives -/

include hS in
theorem D_zero (x : Str) : S.D x 0 = 0 := by
  have := hS.D_add x 0 0
  simpa using this

include hS in
theorem D_one (x : Str) : S.D x 1 = 0 := by
  have := hS.D_mul x 1 1
  simpa using this

include hS in
theorem D_natCast (x : Str) (n : ℕ) : S.D x (n : R) = 0 := by
  induction n with
  | zero => simpa using D_zero hS x
  | succ n ih => push_cast; rw [hS.D_add, ih, D_one hS, add_zero]

include hS in
theorem D_neg (x : Str) (r : R) : S.D x (-r) = - S.D x r := by
  have := hS.D_add x r (-r)
  rw [add_neg_cancel, D_zero hS] at this
  linear_combination -this

include hS in
theorem D_algebraMap (x : Str) (q : ℚ) : S.D x (algebraMap ℚ R q) = 0 := by
  have hn : (q.den : ℚ) ≠ 0 := by exact_mod_cast q.den_nz
  have e : algebraMap ℚ R (q.den : ℚ) * algebraMap ℚ R q = algebraMap ℚ R (q.num : ℚ) := by
    rw [← map_mul, Rat.den_mul_eq_num]
  have hint : S.D x (algebraMap ℚ R (q.num : ℚ)) = 0 := by
    rw [map_intCast]
    obtain ⟨n, h | h⟩ := q.num.eq_nat_or_neg
    · rw [h]; push_cast; exact D_natCast hS x n
    · rw [h]; push_cast; rw [D_neg hS, D_natCast hS, neg_zero]
  have := hS.D_mul x (algebraMap ℚ R (q.den : ℚ)) (algebraMap ℚ R q)
  rw [e, hint, map_natCast, D_natCast hS, zero_mul, zero_add] at this
  have hu : algebraMap ℚ R (1 / (q.den : ℚ)) * ((q.den : ℕ) : R) = 1 := by
    rw [← map_natCast (algebraMap ℚ R), ← map_mul, one_div_mul_cancel hn, map_one]
  linear_combination -algebraMap ℚ R (1 / (q.den : ℚ)) * this - S.D x (algebraMap ℚ R q) * hu

include hS in
theorem D_pow' (x : Str) (r : R) (n : ℕ) : S.D x (r ^ (n + 1)) = ((n + 1 : ℕ) : R) * r ^ n * S.D x r := by
  induction n with
  | zero => simp
  | succ n ih =>
    rw [pow_succ, hS.D_mul, ih]; push_cast; ring

include hS in
theorem D_iter_comm (x y : Str) (n : ℕ) (r : R) : S.D x ((S.D y)^[n] r) = (S.D y)^[n] (S.D x r) := by
  induction n generalizing r with
  | zero => rfl
  | succ n ih => rw [Function.iterate_succ_apply, ih, hS.D_comm, ← Function.iterate_succ_apply]

include hS in
theorem D_derivs_comm (x : Str) (vars : List (Str × ℕ)) (r : R) : S.D x (derivs S vars r) = derivs S vars (S.D x r) := by
  induction vars generalizing r with
  | nil => rfl
  | cons v vars ih => rw [derivs, derivs, ih, D_iter_comm hS]

include hS in
theorem bumpVar_derivs (x : Str) (vars : List (Str × ℕ)) (r : R) :
    derivs S (bumpVar x vars) r = S.D x (derivs S vars r) := by
  induction vars generalizing r with
  | nil => rfl
  | cons v vars ih =>
    obtain ⟨y, n⟩ := v
    unfold bumpVar
    split
    · rename_i h; subst h
      rw [derivs, derivs, D_derivs_comm hS, Function.iterate_succ_apply']
    · split
      · rw [derivs, derivs, derivs, D_derivs_comm hS, D_iter_comm hS]; rfl
      · rw [derivs, ih, derivs]

theorem bumpVar_mem (x : Str) (vars : List (Str × ℕ)) (v : Str × ℕ) (hv : v ∈ bumpVar x vars) :
    v.1 = x ∨ ∃ w ∈ vars, w.1 = v.1 := by
  induction vars with
  | nil => simp [bumpVar] at hv; left; rw [hv]
  | cons w vars ih =>
    obtain ⟨y, n⟩ := w
    unfold bumpVar at hv
    split at hv
    · rename_i h
      rcases List.mem_cons.1 hv with rfl | hv
      · exact .inl h.symm
      · exact .inr ⟨v, by simp [hv], rfl⟩
    · split at hv
      · rcases List.mem_cons.1 hv with rfl | hv
        · exact .inl rfl
        · exact .inr ⟨v, hv, rfl⟩
      · rcases List.mem_cons.1 hv with rfl | hv
        · exact .inr ⟨_, by simp, rfl⟩
        · rcases ih hv with h | ⟨w, hw, h⟩
          · exact .inl h
          · exact .inr ⟨w, by simp [hw], h⟩

include hS in
theorem derivs_zero (vars : List (Str × ℕ)) : derivs S vars (0 : R) = 0 := by
  induction vars with
  | nil => rfl
  | cons v vars ih =>
    obtain ⟨y, n⟩ := v
    have : (S.D y)^[n] 0 = 0 := by
      induction n with
      | zero => rfl
      | succ n ihn => rw [Function.iterate_succ_apply, D_zero hS, ihn]
    rw [derivs, this, ih]

include hS hC in
theorem constIn_spec (x : Str) (hx : x ∈ C) (a : Ex) (h : constIn x a = true) : S.D x (den S a) = 0 := by
  induction a with
  | fn u args => exact hC.D_fn x hx u args (by simpa [constIn] using h)
  | deriv b vars ih =>
    simp only [den]
    rw [D_derivs_comm hS, ih h, derivs_zero hS]
  | _ => simp [constIn] at h

include hS hC in
theorem D_pw' (x : Str) (hx : x ∈ C) (r : R) (q : ℚ) (h : PowOK P r q) (h0 : q ≠ 0) :
    S.D x (S.pw r q) = algebraMap ℚ R q * S.pw r (q - 1) * S.D x r ∧ PowOK P r (q - 1) := by
  rcases h with h | h
  · obtain ⟨n, rfl⟩ := (isNat_iff q).1 h
    cases n with
    | zero => simp at h0
    | succ n =>
      have e : ((n + 1 : ℕ) : ℚ) - 1 = (n : ℚ) := by push_cast; ring
      refine ⟨?_, .inl ?_⟩
      · rw [e, hS.pw_nat, hS.pw_nat, D_pow' hS, map_natCast]
      · rw [e]; exact (isNat_iff _).2 ⟨n, rfl⟩
  · exact ⟨hC.D_pw x hx r h q, .inr h⟩

theorem inDomain_of_ne {g : Str} (h1 : g ≠ "log".toList) (h2 : g ≠ "tan".toList) (h3 : g ≠ "atan".toList) (r : R) :
    InDomain S P g r := ⟨fun h => absurd h h1, fun h => absurd h h2, fun h => absurd h h3⟩

theorem inDomain_congr {S' : Interp R} (h : S'.func = S.func) {g : Str} {r : R} (hr : InDomain S' P g r) : InDomain S P g r := by
  unfold InDomain at hr ⊢
  rwa [h] at hr

/-- The functions whose derivatives are evaluated. -/
inductive IsElementary : Str → (Ex → Ex) × (Ex → Ex) → Prop
  | exp : IsElementary "exp".toList (.func "exp".toList, .func "exp".toList)
  | sin : IsElementary "sin".toList (.func "cos".toList, fun a => .mul (.num (-1)) (.func "sin".toList a))
  | cos : IsElementary "cos".toList
      (fun a => .mul (.num (-1)) (.func "sin".toList a), fun a => .mul (.num (-1)) (.func "cos".toList a))
  | sinh : IsElementary "sinh".toList (.func "cosh".toList, .func "sinh".toList)
  | cosh : IsElementary "cosh".toList (.func "sinh".toList, .func "cosh".toList)
  | tan : IsElementary "tan".toList (fun a => .add (.num 1) (.pow (.func "tan".toList a) 2),
      fun a => .mul (.num 2) (.mul (.func "tan".toList a) (.add (.num 1) (.pow (.func "tan".toList a) 2))))
  | tanh : IsElementary "tanh".toList (fun a => .add (.num 1) (.mul (.num (-1)) (.pow (.func "tanh".toList a) 2)),
      fun a => .mul (.num (-2)) (.mul (.func "tanh".toList a) (.add (.num 1) (.mul (.num (-1)) (.pow (.func "tanh".toList a) 2)))))
  | log : IsElementary "log".toList (fun a => .pow a (-1), fun a => .mul (.num (-1)) (.pow a (-2)))
  | atan : IsElementary "atan".toList (fun a => .pow (.add (.num 1) (.pow a 2)) (-1),
      fun a => .mul (.num (-2)) (.mul a (.pow (.add (.num 1) (.pow a 2)) (-2))))

theorem isElementary {g : Str} {d : (Ex → Ex) × (Ex → Ex)} (hg : dfunc g = some d) : IsElementary g d := by
  unfold dfunc at hg
  split at hg
  · rename_i e; cases hg; subst e; exact .exp
  split at hg
  · rename_i e; cases hg; subst e; exact .sin
  split at hg
  · rename_i e; cases hg; subst e; exact .cos
  split at hg
  · rename_i e; cases hg; subst e; exact .sinh
  split at hg
  · rename_i e; cases hg; subst e; exact .cosh
  split at hg
  · rename_i e; cases hg; subst e; exact .tan
  split at hg
  · rename_i e; cases hg; subst e; exact .tanh
  split at hg
  · rename_i e; cases hg; subst e; exact .log
  split at hg
  · rename_i e; cases hg; subst e; exact .atan
  cases hg

include hS in
theorem pw_two (r : R) : S.pw r 2 = r ^ 2 := hS.pw_nat r 2

include hS in
theorem dfunc_regular {g : Str} {d : (Ex → Ex) × (Ex → Ex)} (hg : dfunc g = some d) (a : Ex) (ha : Regular S P C (.func g a)) :
    Regular S P C (d.1 a) ∧ Regular S P C (d.2 a) := by
  have two : isNat 2 = true := by decide +kernel
  have ne : ∀ h : Str, h ≠ "log".toList → h ≠ "tan".toList → h ≠ "atan".toList → Regular S P C (.func h a) :=
    fun h h1 h2 h3 => ⟨ha.1, inDomain_of_ne h1 h2 h3 _⟩
  cases isElementary hg with
  | exp => exact ⟨ha, ha⟩
  | sin => exact ⟨ne _ (by decide) (by decide) (by decide), trivial, ha⟩
  | cos => exact ⟨⟨trivial, ne _ (by decide) (by decide) (by decide)⟩, trivial, ha⟩
  | sinh => exact ⟨ne _ (by decide) (by decide) (by decide), ha⟩
  | cosh => exact ⟨ne _ (by decide) (by decide) (by decide), ha⟩
  | tan => exact ⟨⟨trivial, ha, .inl two⟩, trivial, ha, trivial, ha, .inl two⟩
  | tanh => exact ⟨⟨trivial, trivial, ha, .inl two⟩, trivial, ha, trivial, trivial, ha, .inl two⟩
  | log => exact ⟨⟨ha.1, .inr (ha.2.1 rfl)⟩, trivial, ha.1, .inr (ha.2.1 rfl)⟩
  | atan =>
    have h : den S (.add (.num 1) (.pow a 2)) ∈ P := by
      have := ha.2.2.2 rfl
      simpa only [den, pw_two hS, map_one] using this
    exact ⟨⟨⟨trivial, ha.1, .inl two⟩, .inr h⟩, trivial, ha.1, ⟨trivial, ha.1, .inl two⟩, .inr h⟩

include hS hC in
theorem D_dfunc (x : Str) (hx : x ∈ C) {g : Str} {d : (Ex → Ex) × (Ex → Ex)} (hg : dfunc g = some d) (a : Ex)
    (ha : InDomain S P g (den S a)) : S.D x (S.func g (den S a)) = den S (d.1 a) * S.D x (den S a) := by
  cases isElementary hg with
  | exp => exact hC.D_exp x hx _
  | sin => exact hC.D_sin x hx _
  | cos => rw [hC.D_cos x hx]; simp [den]
  | sinh => exact hC.D_sinh x hx _
  | cosh => exact hC.D_cosh x hx _
  | tan => rw [hC.D_tan x hx _ (ha.2.1 rfl)]; simp only [den, pw_two hS, map_one]
  | tanh => rw [hC.D_tanh x hx]; simp only [den, pw_two hS, map_one, map_neg]; ring
  | log => exact hC.D_log x hx _ (ha.1 rfl)
  | atan => rw [hC.D_atan x hx _ (ha.2.2 rfl)]; simp only [den, pw_two hS, map_one]

include hS hC in
theorem reEx_spec (a : Ex) (ha : Regular S P C a) : denP S (reEx a) = den S a ∧ POK S P C (reEx a) := by
  induction a with
  | num q => exact ⟨pconst_den q, pconst_ok q⟩
  | add a b iha ihb =>
    obtain ⟨a1, a2⟩ := iha ha.1
    obtain ⟨b1, b2⟩ := ihb ha.2
    exact ⟨by rw [reEx, padd_den, a1, b1]; rfl, padd_ok _ _ a2 b2⟩
  | mul a b iha ihb =>
    obtain ⟨a1, a2⟩ := iha ha.1
    obtain ⟨b1, b2⟩ := ihb ha.2
    obtain ⟨h1, h2⟩ := pmul_spec hS hC _ _ a2 b2
    exact ⟨by rw [reEx, h1, a1, b1]; rfl, h2⟩
  | pow a q ih =>
    obtain ⟨a1, a2⟩ := ih ha.1
    obtain ⟨h1, h2⟩ := ppow_spec hS hC _ q a2 (by rw [a1]; exact ha.2)
    exact ⟨by rw [reEx, h1, a1]; rfl, h2⟩
  | _ => exact ⟨patom_den hS _, patom_ok _ ha⟩

include hS hC in
theorem diffAtom_spec (x : Str) (hx : x ∈ C) (a : Ex) (ha : Regular S P C a) :
    denP S (diffAtom x a) = S.D x (den S a) ∧ POK S P C (diffAtom x a) := by
  have opaque' : ∀ a : Ex, Regular S P C a →
      denP S (patom (.deriv a [(x, 1)])) = S.D x (den S a) ∧ POK S P C (patom (.deriv a [(x, 1)])) := by
    intro a ha
    refine ⟨by rw [patom_den hS]; rfl, patom_ok _ ⟨ha, fun v hv => ?_⟩⟩
    rw [List.mem_singleton.1 hv]; exact hx
  have general : ∀ a : Ex, Regular S P C a →
      denP S (if constIn x a then [] else patom (.deriv a [(x, 1)])) = S.D x (den S a) ∧
        POK S P C (if constIn x a then [] else patom (.deriv a [(x, 1)])) := by
    intro a ha
    split
    · rename_i h
      exact ⟨by rw [constIn_spec hS hC x hx a h]; rfl, .nil⟩
    · exact opaque' a ha
  induction a with
  | num q => exact ⟨by simp only [den, D_algebraMap hS]; rfl, .nil⟩
  | sym s =>
    simp only [diffAtom, den, hC.D_sym x hx s]
    split
    · exact ⟨by rw [pconst_den, map_one], pconst_ok 1⟩
    · exact ⟨rfl, .nil⟩
  | func g a ih =>
    simp only [diffAtom]
    split
    · rename_i d hg
      obtain ⟨i1, i2⟩ := ih ha.1
      obtain ⟨h1, h2⟩ := reEx_spec hS hC _ (dfunc_regular hS hg a ha).1
      obtain ⟨h3, h4⟩ := pmul_spec hS hC _ _ h2 i2
      refine ⟨?_, h4⟩
      rw [h3, h1, i1]
      exact (D_dfunc hS hC x hx hg a ha.2).symm
    · exact opaque' _ ha
  | add a b iha ihb =>
    obtain ⟨a1, a2⟩ := iha ha.1
    obtain ⟨b1, b2⟩ := ihb ha.2
    exact ⟨by rw [diffAtom, padd_den, a1, b1]; exact (hS.D_add _ _ _).symm, padd_ok _ _ a2 b2⟩
  | mul a b iha ihb =>
    obtain ⟨a1, a2⟩ := iha ha.1
    obtain ⟨b1, b2⟩ := ihb ha.2
    obtain ⟨a3, a4⟩ := reEx_spec hS hC a ha.1
    obtain ⟨b3, b4⟩ := reEx_spec hS hC b ha.2
    obtain ⟨h1, h2⟩ := pmul_spec hS hC _ _ a2 b4
    obtain ⟨h3, h4⟩ := pmul_spec hS hC _ _ a4 b2
    exact ⟨by rw [diffAtom, padd_den, h1, h3, a1, b1, a3, b3]; exact (hS.D_mul _ _ _).symm, padd_ok _ _ h2 h4⟩
  | pow a q ih =>
    obtain ⟨a1, a2⟩ := ih ha.1
    obtain ⟨a3, a4⟩ := reEx_spec hS hC a ha.1
    by_cases h0 : q = 0
    · subst h0
      have : pconst 0 = [] := by simp [pconst]
      rw [diffAtom, this]
      refine ⟨?_, .nil⟩
      show (0 : R) = S.D x (S.pw _ 0)
      rw [pw_zero hS, D_one hS]
    · obtain ⟨d1, d2⟩ := D_pw' hS hC x hx (den S a) q ha.2 h0
      obtain ⟨p1, p2⟩ := ppow_spec hS hC _ (q - 1) a4 (by rw [a3]; exact d2)
      obtain ⟨h1, h2⟩ := pmul_spec hS hC _ _ (pconst_ok q) p2
      obtain ⟨h3, h4⟩ := pmul_spec hS hC _ _ h2 a2
      refine ⟨?_, h4⟩
      rw [diffAtom, h3, h1, p1, a1, a3, pconst_den]
      exact d1.symm
  | deriv b vars =>
    simp only [diffAtom]
    split
    · rename_i h
      refine ⟨?_, .nil⟩
      rw [constIn_spec hS hC x hx (.deriv b vars) h]; rfl
    · refine ⟨by rw [patom_den hS]; simp only [den]; exact bumpVar_derivs hS _ _ _, patom_ok _ ⟨ha.1, fun v hv => ?_⟩⟩
      rcases bumpVar_mem x vars v hv with h | ⟨w, hw, h⟩
      · rw [h]; exact hx
      · rw [← h]; exact ha.2 w hw
  | _ => exact general _ ha

include hS hC in
theorem diffMono_spec (x : Str) (hx : x ∈ C) (m : Mono) (hm : MOK S P C m) :
    denP S (diffMono x m) = S.D x (denM S m) ∧ POK S P C (diffMono x m) := by
  induction m with
  | nil => exact ⟨by rw [denM_nil, D_one hS]; rfl, .nil⟩
  | cons f m ih =>
    obtain ⟨a, q⟩ := f
    obtain ⟨i1, i2⟩ := ih hm.tail
    have ha := hm.head
    obtain ⟨a1, a2⟩ := diffAtom_spec hS hC x hx a ha.1
    have hm1 : POK S P C [(m, 1)] := POK.cons hm.tail .nil
    have hden1 : denP S [(m, 1)] = denM S m := by simp
    obtain ⟨s1, s2⟩ := pmul_spec hS hC [([(a, q)], 1)] (diffMono x m) (POK.cons (MOK.cons ha .nil) .nil) i2
    have first : denP S (pmul (pmul (pmul (pconst q) (if q = 1 then pconst 1 else [([(a, q - 1)], 1)])) (diffAtom x a)) [(m, 1)])
          = S.D x (S.pw (den S a) q) * denM S m ∧
        POK S P C (pmul (pmul (pmul (pconst q) (if q = 1 then pconst 1 else [([(a, q - 1)], 1)])) (diffAtom x a)) [(m, 1)]) := by
      by_cases h0 : q = 0
      · subst h0
        have : pconst 0 = [] := by simp [pconst]
        rw [this]
        refine ⟨?_, .nil⟩
        rw [pw_zero hS, D_one hS, zero_mul]; rfl
      · obtain ⟨d1, d2⟩ := D_pw' hS hC x hx (den S a) q ha.2 h0
        have hif : denP S (if q = 1 then pconst 1 else [([(a, q - 1)], 1)]) = S.pw (den S a) (q - 1) ∧
            POK S P C (if q = 1 then pconst 1 else [([(a, q - 1)], 1)]) := by
          split
          · rename_i h1
            rw [h1, sub_self, pw_zero hS]
            exact ⟨by rw [pconst_den, map_one], pconst_ok 1⟩
          · exact ⟨by simp, POK.cons (MOK.cons ⟨ha.1, d2⟩ .nil) .nil⟩
        obtain ⟨e1, e2⟩ := pmul_spec hS hC _ _ (pconst_ok q) hif.2
        obtain ⟨e3, e4⟩ := pmul_spec hS hC _ _ e2 a2
        obtain ⟨e5, e6⟩ := pmul_spec hS hC _ _ e4 hm1
        refine ⟨?_, e6⟩
        rw [e5, e3, e1, hif.1, a1, hden1, d1, pconst_den]
    refine ⟨?_, padd_ok _ _ first.2 s2⟩
    show denP S (padd _ _) = _
    rw [padd_den, first.1, s1, i1, denM_cons, hS.D_mul]
    simp

include hS hC in
theorem pdiff_spec (x : Str) (hx : x ∈ C) (p : Poly) (hp : POK S P C p) :
    denP S (pdiff x p) = S.D x (denP S p) ∧ POK S P C (pdiff x p) := by
  induction p with
  | nil => exact ⟨by rw [denP_nil, D_zero hS]; rfl, .nil⟩
  | cons t p ih =>
    obtain ⟨i1, i2⟩ := ih hp.tail
    obtain ⟨h1, h2⟩ := diffMono_spec hS hC x hx t.1 hp.head
    obtain ⟨h3, h4⟩ := pmul_spec hS hC _ _ (pconst_ok t.2) h2
    refine ⟨?_, padd_ok _ _ h4 i2⟩
    show denP S (padd _ (pdiff x p)) = _
    rw [padd_den, h3, i1, h1, denP_cons, hS.D_add, hS.D_mul, D_algebraMap hS, pconst_den]
    ring

include hS hC in
theorem pdiffs_spec (vars : List (Str × ℕ)) (hv : ∀ v ∈ vars, v.1 ∈ C) (p : Poly) (hp : POK S P C p) :
    denP S (pdiffs vars p) = derivs S vars (denP S p) ∧ POK S P C (pdiffs vars p) := by
  induction vars generalizing p with
  | nil => exact ⟨rfl, hp⟩
  | cons v vars ih =>
    obtain ⟨x, n⟩ := v
    have hx : x ∈ C := hv (x, n) (by simp)
    have key : ∀ (n : ℕ) (p : Poly), POK S P C p →
        denP S ((pdiff x)^[n] p) = (S.D x)^[n] (denP S p) ∧ POK S P C ((pdiff x)^[n] p) := by
      intro n
      induction n with
      | zero => intro p hp; exact ⟨rfl, hp⟩
      | succ n ihn =>
        intro p hp
        obtain ⟨h1, h2⟩ := pdiff_spec hS hC x hx p hp
        rw [Function.iterate_succ_apply, Function.iterate_succ_apply]
        obtain ⟨h3, h4⟩ := ihn _ h2
        exact ⟨by rw [h3, h1], h4⟩
    obtain ⟨k1, k2⟩ := key n p hp
    obtain ⟨h1, h2⟩ := ih (fun v h => hv v (by simp [h])) _ k2
    exact ⟨by show denP S (pdiffs vars ((pdiff x)^[n] p)) = _; rw [h1, k1]; rfl, h2⟩

end

/-! ## Expectation -/

section
variable (hS : Stochastic S A) (hC : Calculus S P C)

theorem denM_filter (f : Ex × ℚ → Bool) (m : Mono) :
    denM S m = denM S (m.filter (fun a => !f a)) * denM S (m.filter f) := by
  induction m with
  | nil => simp
  | cons a m ih =>
    cases h : f a <;> simp only [List.filter_cons, h, Bool.not_true, Bool.not_false, if_true, Bool.false_eq_true, if_false,
      denM_cons] <;> rw [ih] <;> ring

include hS in
theorem rnd_false (e : Ex) (h : rnd e = false) : den S e ∈ A := by
  unfold rnd at h
  split at h
  · rename_i b hb
    rw [h] at hb
    exact israndom_det hS e hb
  · cases h

include hS in
theorem denM_det (m : Mono) (h : ∀ f ∈ m, rnd f.1 = false) : denM S m ∈ A := by
  induction m with
  | nil => exact A.one_mem
  | cons f m ih =>
    rw [denM_cons]
    exact A.mul_mem (hS.pw_det _ _ (rnd_false hS _ (h f (by simp)))) (ih (fun g hg => h g (by simp [hg])))

include hS in
theorem E_derivs (vars : List (Str × ℕ)) (h : ∀ v ∈ vars, v.1 ≠ omega) (r : R) :
    S.E (derivs S vars r) = derivs S vars (S.E r) := by
  induction vars generalizing r with
  | nil => rfl
  | cons v vars ih =>
    obtain ⟨x, n⟩ := v
    have hx : x ≠ omega := h (x, n) (by simp)
    rw [derivs, derivs, ih (fun v hv => h v (by simp [hv]))]
    congr 1
    clear ih h
    induction n generalizing r with
    | zero => rfl
    | succ n ihn => rw [Function.iterate_succ_apply, Function.iterate_succ_apply, ihn, hS.E_D x _ hx]

include hS in
theorem E_zero : S.E 0 = 0 := by
  have := hS.E_add 0 0
  simpa using this

include hS hC in
theorem expectTerm_spec (t : Mono × ℚ) (ht : MOK S P C t.1) :
    denP S (expectTerm t) = S.E (algebraMap ℚ R t.2 * denM S t.1) ∧ POK S P C (expectTerm t) := by
  obtain ⟨m, c⟩ := t
  simp only at ht ⊢
  have hd : denM S (m.filter (fun f => !rnd f.1)) ∈ A := by
    apply denM_det hS
    intro f hf
    simpa using (List.mem_filter.1 hf).2
  have hdok : MOK S P C (m.filter (fun f => !rnd f.1)) := fun f hf => ht f (List.mem_filter.1 hf).1
  have hrok : MOK S P C (m.filter (fun f => rnd f.1)) := fun f hf => ht f (List.mem_filter.1 hf).1
  have hrr : ∀ f ∈ m.filter (fun f => rnd f.1), rnd f.1 = true := fun f hf => (List.mem_filter.1 hf).2
  have hsplit : S.E (algebraMap ℚ R c * denM S m) = algebraMap ℚ R c * denM S (m.filter (fun f => !rnd f.1)) *
      S.E (denM S (m.filter (fun f => rnd f.1))) := by
    rw [denM_filter (fun f => rnd f.1) m, ← mul_assoc, hS.E_mul _ _ (A.mul_mem (A.algebraMap_mem c) hd)]
  have fin : ∀ a : Ex, Regular S P C a → den S a = S.E (denM S (m.filter (fun f => rnd f.1))) →
      denP S (pmulTerm (m.filter (fun f => !rnd f.1)) c (patom a)) = S.E (algebraMap ℚ R c * denM S m) ∧
      POK S P C (pmulTerm (m.filter (fun f => !rnd f.1)) c (patom a)) := by
    intro a ha hden
    obtain ⟨h1, h2⟩ := pmulTerm_spec hS.diff hC _ c _ hdok (patom_ok a ha)
    exact ⟨by rw [h1, patom_den hS.diff, hden, hsplit], h2⟩
  have finex : denP S (pmulTerm (m.filter (fun f => !rnd f.1)) c (patom (.ex (monoEx (m.filter (fun f => rnd f.1)))))) =
        S.E (algebraMap ℚ R c * denM S m) ∧
      POK S P C (pmulTerm (m.filter (fun f => !rnd f.1)) c (patom (.ex (monoEx (m.filter (fun f => rnd f.1)))))) :=
    fin _ (.inl (monoEx_ok _ hrok)) (by simp only [den, monoEx_den hS.diff])
  unfold expectTerm
  simp only
  generalize hr : m.filter (fun f => rnd f.1) = r at *
  split
  · refine ⟨?_, POK.cons ht .nil⟩
    have e : denM S m = denM S (m.filter (fun f => !rnd f.1)) := by
      rw [denM_filter (fun f => rnd f.1) m, hr]; simp
    rw [hS.E_const]
    · simp
    · rw [e]; exact A.mul_mem (A.algebraMap_mem c) hd
  · rename_i u args vars q
    split
    · rename_i hq
      subst hq
      have hreg : Regular S P C (.deriv (.fn u args) vars) := hrok.head.1
      have hE : S.E (S.fn u args) = 0 := by
        apply hreg.1
        have := hrr _ (List.mem_singleton.2 rfl)
        simpa [rnd, israndom_deriv, israndom_fn] using this
      refine fin _ ⟨.inr ⟨u, args, rfl⟩, fun v hv => hreg.2 v (List.mem_of_mem_take hv)⟩ ?_
      simp only [den, denM_cons, denM_nil, mul_one, pw_one hS.diff]
      rw [E_derivs hS _ (fun v hv h => hC.omega_notMem (h ▸ hreg.2 v hv)), hE, derivs_zero hS.diff, derivs_zero hS.diff]
    · exact finex
  · rename_i b x q
    split
    · rename_i hq
      subst hq
      have hreg : Regular S P C (.integ b x) := hrok.head.1
      refine fin _ ⟨.inl hreg.1, hreg.2⟩ ?_
      simp only [den, denM_cons, denM_nil, mul_one, pw_one hS.diff]
      rw [hS.E_I _ _ hreg.2]
    · exact finex
  · exact finex

include hS hC in
theorem pexpect_spec (p : Poly) (hp : POK S P C p) :
    denP S (pexpect p) = S.E (denP S p) ∧ POK S P C (pexpect p) := by
  induction p with
  | nil => exact ⟨by rw [denP_nil, E_zero hS]; rfl, .nil⟩
  | cons t p ih =>
    obtain ⟨i1, i2⟩ := ih hp.tail
    obtain ⟨h1, h2⟩ := expectTerm_spec hS hC t hp.head
    refine ⟨?_, padd_ok _ _ h2 i2⟩
    show denP S (padd _ (pexpect p)) = _
    rw [padd_den, h1, i1, denP_cons, hS.E_add]

/-- The expectation of a single function. -/
theorem pexpect_fn (u : Str) (args : List Str) :
    pexpect (patom (.fn u args)) = if omega ∈ args then patom (.ex (.fn u args)) else patom (.fn u args) := by
  have h : rnd (.fn u args) = decide (omega ∈ args) := by simp [rnd, israndom_fn]
  by_cases ho : omega ∈ args
  · simp [pexpect, expectTerm, patom, h, ho, pmulTerm, monoMul, monoEx, factorEx, prod, addTerm, padd]
  · simp [pexpect, expectTerm, patom, h, ho, addTerm, padd]

include hS in
theorem pexpect_fn_spec (u : Str) (args : List Str) :
    denP S (pexpect (patom (.fn u args))) = S.E (S.fn u args) ∧ POK S P C (pexpect (patom (.fn u args))) := by
  rw [pexpect_fn]
  split
  · exact ⟨by rw [patom_den hS.diff]; rfl, patom_ok _ (.inr ⟨u, args, rfl⟩)⟩
  · rename_i h
    refine ⟨?_, patom_ok _ (fun h' => absurd h' h)⟩
    rw [patom_den hS.diff, hS.E_const _ (hS.fn_det u args h)]; rfl

end

/-! ## Substitution -/

section
variable (hS : Diff S) (hC : Calculus S P C)

/-- `S'` and `S` only differ in the value of `old`, and `new` has the value that `S'` gives to `old`. -/
structure Agree (S S' : Interp R) (old : Ex) (new : Poly) : Prop where
  D : S'.D = S.D
  pw : S'.pw = S.pw
  func : S'.func = S.func
  I : S'.I = S.I
  E : S'.E = S.E
  other : S'.other = S.other
  sym : ∀ s, Ex.sym s ≠ old → S'.sym s = S.sym s
  fn : ∀ u args, Ex.fn u args ≠ old → S'.fn u args = S.fn u args
  new : denP S new = den S' old

theorem Agree.derivs {S S' : Interp R} {old : Ex} {new : Poly} (h : Agree S S' old new) (vars : List (Str × ℕ)) (r : R) :
    Spec.derivs S' vars r = Spec.derivs S vars r := by
  induction vars generalizing r with
  | nil => rfl
  | cons v vars ih => obtain ⟨x, n⟩ := v; rw [Spec.derivs, Spec.derivs, ih, h.D]

include hS in
theorem iter_derivs_comm (x : Str) (n : ℕ) (vars : List (Str × ℕ)) (r : R) :
    derivs S vars ((S.D x)^[n] r) = (S.D x)^[n] (derivs S vars r) := by
  induction n generalizing r with
  | zero => rfl
  | succ n ih => rw [Function.iterate_succ_apply, ih, ← D_derivs_comm hS, ← Function.iterate_succ_apply]

include hS in
theorem takeVar_derivs (x : Str) (n : ℕ) (vars rest : List (Str × ℕ)) (h : takeVar x n vars = some rest) (r : R) :
    derivs S rest ((S.D x)^[n] r) = derivs S vars r := by
  induction vars generalizing rest r with
  | nil => cases h
  | cons v vars ih =>
    obtain ⟨y, k⟩ := v
    unfold takeVar at h
    split at h
    · rename_i hxy
      subst hxy
      split at h
      · rename_i hnk
        cases h
        rw [derivs, derivs, ← Function.iterate_add_apply, Nat.sub_add_cancel hnk]
      · cases h
    · obtain ⟨rest', h1, rfl⟩ := Option.map_eq_some_iff.1 h
      rw [derivs, derivs, ← ih rest' h1]
      congr 1
      have hc : Function.Commute (S.D y) (S.D x) := fun r => hS.D_comm y x r
      exact (hc.iterate_iterate k n) r

theorem takeVar_mem (x : Str) (n : ℕ) (vars rest : List (Str × ℕ)) (h : takeVar x n vars = some rest) :
    ∀ v ∈ rest, ∃ w ∈ vars, w.1 = v.1 := by
  induction vars generalizing rest with
  | nil => cases h
  | cons w vars ih =>
    obtain ⟨y, k⟩ := w
    unfold takeVar at h
    split at h
    · split at h
      · cases h
        intro v hv
        rcases List.mem_cons.1 hv with rfl | hv
        · exact ⟨(y, k), by simp, rfl⟩
        · exact ⟨v, by simp [hv], rfl⟩
      · cases h
    · obtain ⟨rest', h1, rfl⟩ := Option.map_eq_some_iff.1 h
      intro v hv
      rcases List.mem_cons.1 hv with rfl | hv
      · exact ⟨_, by simp, rfl⟩
      · obtain ⟨w, hw, e⟩ := ih rest' h1 v hv
        exact ⟨w, by simp [hw], e⟩

include hS in
theorem varsSub_derivs (vs vars rest : List (Str × ℕ)) (h : varsSub vs vars = some rest) (r : R) :
    derivs S rest (derivs S vs r) = derivs S vars r := by
  induction vs generalizing vars r with
  | nil => cases h; rfl
  | cons v vs ih =>
    obtain ⟨x, n⟩ := v
    obtain ⟨mid, h1, h2⟩ := Option.bind_eq_some_iff.1 h
    rw [derivs, ih mid h2, takeVar_derivs hS x n vars mid h1]

theorem varsSub_mem (vs vars rest : List (Str × ℕ)) (h : varsSub vs vars = some rest) :
    ∀ v ∈ rest, ∃ w ∈ vars, w.1 = v.1 := by
  induction vs generalizing vars with
  | nil => cases h; exact fun v hv => ⟨v, hv, rfl⟩
  | cons v vs ih =>
    obtain ⟨mid, h1, h2⟩ := Option.bind_eq_some_iff.1 h
    intro w hw
    obtain ⟨w', hw', e⟩ := ih mid h2 w hw
    obtain ⟨w'', hw'', e'⟩ := takeVar_mem _ _ _ _ h1 w' hw'
    exact ⟨w'', hw'', e'.trans e⟩

theorem derivRest_some (old a : Ex) (vars rest : List (Str × ℕ)) (h : derivRest old a vars = some rest) :
    ∃ vs, old = .deriv a vs ∧ varsSub vs vars = some rest := by
  unfold derivRest at h
  split at h
  · rename_i b vs
    split at h
    · rename_i hab; subst hab; exact ⟨vs, rfl, h⟩
    · cases h
  · cases h

/-- All expectations in the expression are of random functions. -/
def ExFn : Ex → Prop
  | .num _ => True
  | .sym _ => True
  | .fn _ _ => True
  | .func _ a => ExFn a
  | .add a b => ExFn a ∧ ExFn b
  | .mul a b => ExFn a ∧ ExFn b
  | .pow a _ => ExFn a
  | .deriv a _ => ExFn a
  | .integ a _ => ExFn a
  | .ex a => ∃ u args, a = .fn u args ∧ omega ∈ args
  | .other _ => True

include hS hC in
/-- Substitution: the result has in `S` the value of the expression in `S'`.  Expectations are exchanged with the substitution
(if the ring is stochastic), or do not interfere with it. -/
theorem subst_spec' {S' : Interp R} (old : Ex) (new : Poly) (hA : Agree S S' old new) (hnew : POK S P C new) (e : Ex)
    (he : Regular S' P C e)
    (hx : (∃ A : Subalgebra ℚ R, Stochastic S A) ∨ ((∀ u args, omega ∈ args → .fn u args ≠ old) ∧ ExFn e)) :
    denP S (subst old new e) = den S' e ∧ POK S P C (subst old new e) := by
  by_cases h : e = old
  · subst h
    have : subst e new e = new := by unfold subst; simp
    rw [this]
    exact ⟨hA.new, hnew⟩
  induction e with
  | num q =>
    unfold subst; rw [if_neg h]
    exact ⟨pconst_den q, pconst_ok q⟩
  | sym s =>
    unfold subst; rw [if_neg h]
    exact ⟨by rw [patom_den hS]; exact (hA.sym s h).symm, patom_ok _ trivial⟩
  | fn u args =>
    unfold subst; rw [if_neg h]
    refine ⟨by rw [patom_den hS]; exact (hA.fn u args h).symm, patom_ok _ ?_⟩
    intro ho
    have := he ho
    rwa [hA.E, hA.fn u args h] at this
  | other b =>
    unfold subst; rw [if_neg h]
    exact ⟨by rw [patom_den hS]; exact congrFun hA.other.symm b, patom_ok _ trivial⟩
  | func g a ih =>
    have ih' : denP S (subst old new a) = den S' a ∧ POK S P C (subst old new a) := by
      by_cases h' : a = old
      · subst h'
        have : subst a new a = new := by unfold subst; simp
        rw [this]; exact ⟨hA.new, hnew⟩
      · exact ih he.1 hx h'
    unfold subst; rw [if_neg h]
    refine ⟨?_, patom_ok _ ⟨toEx_ok _ ih'.2, ?_⟩⟩
    swap
    · rw [toEx_den hS, ih'.1]; exact inDomain_congr hA.func he.2
    rw [patom_den hS]
    simp only [den, toEx_den hS, ih'.1, hA.func]
  | add a b iha ihb =>
    have ha : denP S (subst old new a) = den S' a ∧ POK S P C (subst old new a) := by
      by_cases h' : a = old
      · subst h'
        have : subst a new a = new := by unfold subst; simp
        rw [this]; exact ⟨hA.new, hnew⟩
      · exact iha he.1 (hx.imp id fun h => ⟨h.1, h.2.1⟩) h'
    have hb : denP S (subst old new b) = den S' b ∧ POK S P C (subst old new b) := by
      by_cases h' : b = old
      · subst h'
        have : subst b new b = new := by unfold subst; simp
        rw [this]; exact ⟨hA.new, hnew⟩
      · exact ihb he.2 (hx.imp id fun h => ⟨h.1, h.2.2⟩) h'
    unfold subst; rw [if_neg h]
    refine ⟨?_, padd_ok _ _ ha.2 hb.2⟩
    rw [padd_den, ha.1, hb.1]; rfl
  | mul a b iha ihb =>
    have ha : denP S (subst old new a) = den S' a ∧ POK S P C (subst old new a) := by
      by_cases h' : a = old
      · subst h'
        have : subst a new a = new := by unfold subst; simp
        rw [this]; exact ⟨hA.new, hnew⟩
      · exact iha he.1 (hx.imp id fun h => ⟨h.1, h.2.1⟩) h'
    have hb : denP S (subst old new b) = den S' b ∧ POK S P C (subst old new b) := by
      by_cases h' : b = old
      · subst h'
        have : subst b new b = new := by unfold subst; simp
        rw [this]; exact ⟨hA.new, hnew⟩
      · exact ihb he.2 (hx.imp id fun h => ⟨h.1, h.2.2⟩) h'
    unfold subst; rw [if_neg h]
    obtain ⟨h1, h2⟩ := pmul_spec hS hC _ _ ha.2 hb.2
    refine ⟨?_, h2⟩
    rw [h1, ha.1, hb.1]; rfl
  | pow a q ih =>
    have ih' : denP S (subst old new a) = den S' a ∧ POK S P C (subst old new a) := by
      by_cases h' : a = old
      · subst h'
        have : subst a new a = new := by unfold subst; simp
        rw [this]; exact ⟨hA.new, hnew⟩
      · exact ih he.1 hx h'
    unfold subst; rw [if_neg h]
    obtain ⟨h1, h2⟩ := ppow_spec hS hC _ q ih'.2 (by rw [ih'.1]; exact he.2)
    refine ⟨?_, h2⟩
    rw [h1, ih'.1]; simp only [den, hA.pw]
  | integ a x ih =>
    have ih' : denP S (subst old new a) = den S' a ∧ POK S P C (subst old new a) := by
      by_cases h' : a = old
      · subst h'
        have : subst a new a = new := by unfold subst; simp
        rw [this]; exact ⟨hA.new, hnew⟩
      · exact ih he.1 hx h'
    unfold subst; rw [if_neg h]
    refine ⟨?_, patom_ok _ ⟨toEx_ok _ ih'.2, he.2⟩⟩
    rw [patom_den hS]
    simp only [den, toEx_den hS, ih'.1, hA.I]
  | deriv a vars ih =>
    have ih' : denP S (subst old new a) = den S' a ∧ POK S P C (subst old new a) := by
      by_cases h' : a = old
      · subst h'
        have : subst a new a = new := by unfold subst; simp
        rw [this]; exact ⟨hA.new, hnew⟩
      · exact ih he.1 hx h'
    unfold subst; rw [if_neg h]
    simp only
    split
    · rename_i rest hrest
      obtain ⟨vs, rfl, hvs⟩ := derivRest_some _ _ _ _ hrest
      obtain ⟨h1, h2⟩ := pdiffs_spec hS hC rest (fun v hv => by
        obtain ⟨w, hw, e⟩ := varsSub_mem _ _ _ hvs v hv
        rw [← e]; exact he.2 w hw) new hnew
      refine ⟨?_, h2⟩
      rw [h1, hA.new]
      simp only [den, hA.derivs]
      exact varsSub_derivs hS _ _ _ hvs _
    · obtain ⟨h1, h2⟩ := pdiffs_spec hS hC vars he.2 _ ih'.2
      refine ⟨?_, h2⟩
      rw [h1, ih'.1]
      simp only [den, hA.derivs]
  | ex a ih =>
    rcases hx with ⟨A, hA'⟩ | ⟨hold, u, args, rfl, ho⟩
    · by_cases h' : a = old
      · subst h'
        have e : subst a new a = new := by unfold subst; simp
        unfold subst; rw [if_neg h]; simp only [e]
        obtain ⟨h1, h2⟩ := pexpect_spec hA' hC new hnew
        refine ⟨?_, h2⟩
        rw [h1, hA.new]; simp only [den, hA.E]
      · rcases he with he | ⟨u, args, rfl⟩
        · obtain ⟨i1, i2⟩ := ih he (.inl ⟨A, hA'⟩) h'
          unfold subst; rw [if_neg h]
          obtain ⟨h1, h2⟩ := pexpect_spec hA' hC _ i2
          refine ⟨?_, h2⟩
          rw [h1, i1]; simp only [den, hA.E]
        · have e : subst old new (.fn u args) = patom (.fn u args) := by unfold subst; rw [if_neg h']
          unfold subst; rw [if_neg h]; simp only [e]
          obtain ⟨h1, h2⟩ := pexpect_fn_spec (P := P) (C := C) hA' u args
          refine ⟨?_, h2⟩
          rw [h1]; simp only [den, hA.E, hA.fn u args h']
    · have h' := hold u args ho
      have e : subst old new (.fn u args) = patom (.fn u args) := by unfold subst; rw [if_neg h']
      unfold subst; rw [if_neg h]; simp only [e]
      rw [pexpect_fn, if_pos ho]
      refine ⟨?_, patom_ok _ (.inr ⟨u, args, rfl⟩)⟩
      rw [patom_den hS]; simp only [den, hA.E, hA.fn u args h']

include hS hC in
/-- `doit` and `expand` preserve values. -/
theorem ofEx_spec' (e : Ex) (he : Regular S P C e) (hx : (∃ A : Subalgebra ℚ R, Stochastic S A) ∨ ExFn e) :
    denP S (ofEx e) = den S e ∧ POK S P C (ofEx e) := by
  induction e with
  | num q => exact ⟨pconst_den q, pconst_ok q⟩
  | sym s => exact ⟨patom_den hS _, patom_ok _ he⟩
  | fn u args => exact ⟨patom_den hS _, patom_ok _ he⟩
  | other b => exact ⟨patom_den hS _, patom_ok _ he⟩
  | func g a ih =>
    obtain ⟨h1, h2⟩ := ih he.1 hx
    exact ⟨by simp only [ofEx, patom_den hS, den, toEx_den hS, h1], patom_ok _ ⟨toEx_ok _ h2, by rw [toEx_den hS, h1]; exact he.2⟩⟩
  | add a b iha ihb =>
    obtain ⟨a1, a2⟩ := iha he.1 (hx.imp id fun h => h.1)
    obtain ⟨b1, b2⟩ := ihb he.2 (hx.imp id fun h => h.2)
    exact ⟨by simp only [ofEx, padd_den, den, a1, b1], padd_ok _ _ a2 b2⟩
  | mul a b iha ihb =>
    obtain ⟨a1, a2⟩ := iha he.1 (hx.imp id fun h => h.1)
    obtain ⟨b1, b2⟩ := ihb he.2 (hx.imp id fun h => h.2)
    obtain ⟨h1, h2⟩ := pmul_spec hS hC _ _ a2 b2
    exact ⟨by simp only [ofEx, h1, den, a1, b1], h2⟩
  | pow a q ih =>
    obtain ⟨a1, a2⟩ := ih he.1 hx
    obtain ⟨h1, h2⟩ := ppow_spec hS hC _ q a2 (by rw [a1]; exact he.2)
    exact ⟨by simp only [ofEx, h1, den, a1], h2⟩
  | deriv a vars ih =>
    obtain ⟨a1, a2⟩ := ih he.1 hx
    obtain ⟨h1, h2⟩ := pdiffs_spec hS hC vars he.2 _ a2
    exact ⟨by simp only [ofEx, h1, den, a1], h2⟩
  | integ a x ih =>
    obtain ⟨a1, a2⟩ := ih he.1 hx
    exact ⟨by simp only [ofEx, patom_den hS, den, toEx_den hS, a1], patom_ok _ ⟨toEx_ok _ a2, he.2⟩⟩
  | ex a ih =>
    rcases hx with ⟨A, hA⟩ | ⟨u, args, rfl, ho⟩
    · rcases he with he | ⟨u, args, rfl⟩
      · obtain ⟨a1, a2⟩ := ih he (.inl ⟨A, hA⟩)
        obtain ⟨h1, h2⟩ := pexpect_spec hA hC _ a2
        exact ⟨by simp only [ofEx, h1, den, a1], h2⟩
      · exact pexpect_fn_spec (P := P) (C := C) hA u args
    · simp only [ofEx]
      rw [pexpect_fn, if_pos ho]
      exact ⟨patom_den hS _, patom_ok _ (.inr ⟨u, args, rfl⟩)⟩

end

section
variable (hS : Stochastic S A) (hC : Calculus S P C)

include hS hC in
/-- Substitution in a stochastic ring. -/
theorem subst_spec {S' : Interp R} (old : Ex) (new : Poly) (hA : Agree S S' old new) (hnew : POK S P C new) (e : Ex)
    (he : Regular S' P C e) : denP S (subst old new e) = den S' e ∧ POK S P C (subst old new e) :=
  subst_spec' hS.diff hC old new hA hnew e he (.inl ⟨A, hS⟩)

include hS hC in
/-- `doit` and `expand` preserve values. -/
theorem ofEx_spec (e : Ex) (he : Regular S P C e) : denP S (ofEx e) = den S e ∧ POK S P C (ofEx e) :=
  ofEx_spec' hS.diff hC e he (.inl ⟨A, hS⟩)

include hS hC in
theorem eval_spec (e : Ex) (he : Regular S P C e) : den S (eval e) = den S e ∧ Regular S P C (eval e) := by
  obtain ⟨h1, h2⟩ := ofEx_spec hS hC e he
  exact ⟨by rw [eval, toEx_den hS.diff, h1], toEx_ok _ h2⟩

/-- A substitution by an expression of the same value. -/
def Valid (S : Interp R) (P : Set R) (C : Set Str) (kv : Ex × Ex) : Prop :=
  Regular S P C kv.1 ∧ Regular S P C kv.2 ∧ den S kv.1 = den S kv.2

include hS hC in
theorem substEx_spec (old new e : Ex) (hv : Valid S P C (old, new)) (he : Regular S P C e) :
    den S (substEx old new e) = den S e ∧ Regular S P C (substEx old new e) := by
  obtain ⟨hv1, hv2, hv3⟩ := hv
  obtain ⟨o1, -⟩ := eval_spec hS hC old hv1
  obtain ⟨n1, n2⟩ := ofEx_spec hS hC new hv2
  obtain ⟨e1, e2⟩ := eval_spec hS hC e he
  have hA : Agree S S (eval old) (ofEx new) :=
    ⟨rfl, rfl, rfl, rfl, rfl, rfl, fun _ _ => rfl, fun _ _ _ => rfl, by rw [n1, o1]; exact hv3.symm⟩
  obtain ⟨h1, h2⟩ := subst_spec hS hC _ _ hA n2 _ e2
  exact ⟨by rw [substEx, toEx_den hS.diff, h1, e1], toEx_ok _ h2⟩

include hS hC in
/-- `e.subs(dict)` preserves the value when every entry of the dictionary is true. -/
theorem substAll_spec (l : List (Ex × Ex)) (hl : ∀ kv ∈ l, Valid S P C kv) (e : Ex) (he : Regular S P C e) :
    den S (substAll l e) = den S e ∧ Regular S P C (substAll l e) := by
  unfold substAll
  obtain ⟨h1, h2⟩ := eval_spec hS hC e he
  rw [← h1]
  clear h1
  generalize eval e = e at h2
  induction l generalizing e with
  | nil => exact ⟨rfl, h2⟩
  | cons kv l ih =>
    obtain ⟨h3, h4⟩ := substEx_spec hS hC kv.1 kv.2 e (hl kv (by simp)) h2
    obtain ⟨h5, h6⟩ := ih (fun kv h => hl kv (by simp [h])) (substEx kv.1 kv.2 e) h4
    exact ⟨h5.trans h3, h6⟩

end

end Sympkf.Rand
