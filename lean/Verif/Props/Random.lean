import Mathlib.Algebra.Polynomial.Derivation
import Mathlib.Tactic.LinearCombination
import Verif.Lemmas.Lossless

/-!
# C42-C44: randomness and expectations
-/

set_option autoImplicit false

namespace Sympkf.Rand

open Text Spec

/-! ## C42 -/

/-- **C42** On supported expressions `israndom` answers, and it answers `True` exactly when `omega` occurs outside every
expectation and outside the variables of derivatives. -/
theorem C42_israndom (e : Ex) (h : Supported e) :
    ∃ b, israndom e = .ok b ∧ (b = true ↔ OmegaVisible e) := by
  rcases israndom_spec e h with ⟨h1, h2⟩ | ⟨h1, h2⟩
  · exact ⟨true, h1, by simp [h2]⟩
  · exact ⟨false, h1, by simp [h2]⟩

/-- **C42** The only error is `NotImplementedError`, and it is only raised for an unsupported object containing `omega`. -/
theorem C42_error (e : Ex) (err : PyErr) (h : israndom e = .error err) :
    err = .notImplementedError ∧ ¬ Supported e := by
  refine ⟨israndom_error e err h, fun hs => ?_⟩
  obtain ⟨b, hb, -⟩ := C42_israndom e hs
  rw [hb] at h; cases h

/-- **C42** The same for equations. -/
theorem C42_israndom_eq (l r : Ex) (hl : Supported l) (hr : Supported r) :
    ∃ b, israndomEq l r = .ok b ∧ (b = true ↔ OmegaVisible l ∨ OmegaVisible r) := by
  unfold israndomEq
  split
  · rename_i h
    refine ⟨false, rfl, ?_⟩
    rcases israndom_spec l hl with ⟨h1, h2⟩ | ⟨h1, h2⟩
    · rw [hasOmega_false h.1] at h1; cases h1
    rcases israndom_spec r hr with ⟨h3, h4⟩ | ⟨h3, h4⟩
    · rw [hasOmega_false h.2] at h3; cases h3
    · simp [h2, h4]
  · simp only [bind, Except.bind, pure, Except.pure]
    rcases israndom_spec l hl with ⟨h1, h2⟩ | ⟨h1, h2⟩ <;>
      rcases israndom_spec r hr with ⟨h3, h4⟩ | ⟨h3, h4⟩ <;>
      exact ⟨_, by rw [h1, h3], by simp [h2, h4]⟩

/-- **C42** Meaning: an expression reported as not random has a deterministic value, in every interpretation. -/
theorem C42_deterministic {R : Type} [CommRing R] [Algebra ℚ R] {S : Interp R} {A : Subalgebra ℚ R}
    (hS : Stochastic S A) (e : Ex) (h : israndom e = .ok false) : den S e ∈ A := israndom_det hS e h

theorem hasSym_iff (s : Str) (hs : s ≠ omega) (a : Ex) : hasSym s a = true ↔ Written s a := by
  induction a with
  | num q => exact ⟨fun h => absurd h (by simp [hasSym]), fun h => by cases h; rename_i hc; cases hc⟩
  | sym s' =>
    refine ⟨fun h => ?_, fun h => ?_⟩
    · have : s' = s := by simpa [hasSym] using h
      subst this; exact .sym
    · cases h with
      | sym => simp [hasSym]
      | child _ hc => cases hc
  | fn u args =>
    refine ⟨fun h => .fn (by simpa [hasSym] using h), fun h => ?_⟩
    cases h with
    | fn h => simpa [hasSym] using h
    | child _ hc => cases hc
  | func g a ih =>
    refine ⟨fun h => .child (ih.1 h) (.func g a), fun h => ?_⟩
    cases h with
    | child h hc => cases hc; exact ih.2 h
  | add a b iha ihb =>
    simp only [hasSym, Bool.or_eq_true]
    refine ⟨fun h => h.elim (fun h => .child (iha.1 h) (.addL a b)) (fun h => .child (ihb.1 h) (.addR a b)), fun h => ?_⟩
    cases h with
    | child h hc =>
      cases hc
      · exact Or.inl (iha.2 h)
      · exact Or.inr (ihb.2 h)
  | mul a b iha ihb =>
    simp only [hasSym, Bool.or_eq_true]
    refine ⟨fun h => h.elim (fun h => .child (iha.1 h) (.mulL a b)) (fun h => .child (ihb.1 h) (.mulR a b)), fun h => ?_⟩
    cases h with
    | child h hc =>
      cases hc
      · exact Or.inl (iha.2 h)
      · exact Or.inr (ihb.2 h)
  | pow a q ih =>
    refine ⟨fun h => .child (ih.1 h) (.pow a q), fun h => ?_⟩
    cases h with
    | child h hc => cases hc; exact ih.2 h
  | deriv a vars ih =>
    simp only [hasSym, Bool.or_eq_true, List.any_eq_true, decide_eq_true_eq]
    refine ⟨fun h => h.elim (fun h => .child (ih.1 h) (.deriv a vars)) ?_, fun h => ?_⟩
    · rintro ⟨⟨x, n⟩, hv, rfl⟩; exact .derivation hv
    · cases h with
      | child h hc => cases hc; exact Or.inl (ih.2 h)
      | derivation hv => exact Or.inr ⟨_, hv, rfl⟩
  | integ a x ih =>
    simp only [hasSym, Bool.or_eq_true, decide_eq_true_eq]
    refine ⟨fun h => h.elim (fun h => .child (ih.1 h) (.integ a x)) ?_, fun h => ?_⟩
    · rintro rfl; exact .integration
    · cases h with
      | child h hc => cases hc; exact Or.inl (ih.2 h)
      | integration => exact Or.inr rfl
  | ex a ih =>
    refine ⟨fun h => .ex (ih.1 h), fun h => ?_⟩
    cases h with
    | child _ hc => cases hc
    | ex h => exact ih.2 h
  | other b =>
    refine ⟨fun h => absurd h (by simp [hasSym, hs]), fun h => by cases h; rename_i hc; cases hc⟩

/-- **C42** `Expectation.has` never sees `omega` but sees every other symbol that is written in its argument. -/
theorem C42_expectation_has (patterns : List Str) (a : Ex) :
    expectationHas patterns (.ex a) = true ↔ ∃ s ∈ patterns, s ≠ omega ∧ Written s a := by
  have key : ∀ (a : Ex) (p : List Str),
      expectationHas p a = true ↔ ∃ s ∈ p, s ≠ omega ∧ hasSym s a = true := by
    intro a
    induction a with
    | ex a ih => intro p; rw [expectationHas, ih]; simp only [hasSym, List.mem_filter, decide_eq_true_eq]; exact ⟨fun ⟨s, h1, h2⟩ => ⟨s, h1.1, h2⟩, fun ⟨s, h1, h2⟩ => ⟨s, ⟨h1, h2.1⟩, h2⟩⟩
    | _ => intro p; simp [expectationHas]
  rw [key (.ex a) patterns]
  exact exists_congr fun s => and_congr_right fun _ => and_congr_right fun hs => hasSym_iff s hs a

/-- A derivative in `t`, of a function of `x` and `omega`: `has(omega)` is false, `has(t)` and `has(x)` are true. -/
example : expectationHas [omega] (.ex (.deriv (.fn "X".toList ["x".toList, omega]) [("t".toList, 1)])) = false ∧
    expectationHas [omega, "t".toList] (.ex (.deriv (.fn "X".toList ["x".toList, omega]) [("t".toList, 1)])) = true ∧
    expectationHas ["x".toList] (.ex (.deriv (.fn "X".toList ["x".toList, omega]) [("t".toList, 1)])) = true := by
  decide +kernel

/-! ## C43 -/

/-- **C43** (partial: when the products are multiplied out, no term is a deterministic factor times a derivative of a random
expression with respect to several variables, or to `omega`: `Lossless`.  The full claim is for all supported expressions;
`C43_counterexample` shows it is false for mixed derivatives that are alone, `C43_mixed` what becomes of them.)
The result of `Expectation` has the value of the expectation of its argument. -/
theorem C43_expectation_partial {R : Type} [CommRing R] [Algebra ℚ R] {S : Interp R} {A : Subalgebra ℚ R}
    (hS : Stochastic S A) (e r : Ex) (hd : Lossless e) (h : expect e = .ok r) : den S r = S.E (den S e) :=
  expectation_den hS _ e r hd h

/-- **C43** In particular when all the derivatives have a single pair (variable, order). -/
theorem C43_simple {R : Type} [CommRing R] [Algebra ℚ R] {S : Interp R} {A : Subalgebra ℚ R}
    (hS : Stochastic S A) (e r : Ex) (hd : SimpleDerivs e) (h : expect e = .ok r) : den S r = S.E (den S e) :=
  expectation_den hS _ e r (lossless_of_simple e hd) h

/-- **C43** Of a mixed derivative of a random expression, alone, only the first pair (variable, order) is kept. -/
theorem C43_mixed {R : Type} [CommRing R] [Algebra ℚ R] {S : Interp R} {A : Subalgebra ℚ R}
    (hS : Stochastic S A) (a r : Ex) (x : Str) (n : ℕ) (rest : List (Str × ℕ)) (hx : x ≠ omega) (ha : Random a) (hl : Lossless a)
    (h : expect (.deriv a ((x, n) :: rest)) = .ok r) : den S r = S.E ((S.D x)^[n] (den S a)) := by
  have e1 : expect (.deriv a ((x, n) :: rest)) = expect (.deriv a [(x, n)]) := by
    unfold expect
    simp only [expand, size, expectation, bind, Except.bind, israndom_deriv]
    rcases hr : israndom (expand a) with err | (_ | _)
    · rfl
    · exact absurd hr (random_israndom _ ((random_expand a).2 ha))
    · rfl
  rw [e1] at h
  exact C43_expectation_partial hS (.deriv a [(x, n)]) r (fun _ => ⟨⟨x, n, rfl, hx⟩, hl⟩) h

/-- **C43** For equations: both sides (same restriction). -/
theorem C43_expectation_eq_partial {R : Type} [CommRing R] [Algebra ℚ R] {S : Interp R} {A : Subalgebra ℚ R}
    (hS : Stochastic S A) (l r l' r' : Ex) (hl : Lossless l) (hr : Lossless r)
    (h : expectEq l r = .ok (l', r')) (heq : den S l = den S r) : den S l' = den S r' ∧ den S l' = S.E (den S l) := by
  simp only [expectEq, bind, Except.bind, pure, Except.pure] at h
  rcases h1 : expect l with err | a
  · rw [h1] at h; cases h
  · rw [h1] at h
    rcases h2 : expect r with err | b
    · rw [h2] at h; cases h
    · rw [h2] at h
      simp only [Except.ok.injEq, Prod.mk.injEq] at h
      obtain ⟨rfl, rfl⟩ := h
      rw [C43_expectation_partial hS l a hl h1, C43_expectation_partial hS r b hr h2, heq]
      exact ⟨rfl, rfl⟩

/-- **C43** For matrices: entry by entry (same restriction). -/
theorem C43_expectation_matrix_partial {R : Type} [CommRing R] [Algebra ℚ R] {S : Interp R} {A : Subalgebra ℚ R}
    (hS : Stochastic S A) (m m' : List Ex) (hm : ∀ e ∈ m, Lossless e) (h : expectMatrix m = .ok m') :
    m'.map (den S) = m.map (fun e => S.E (den S e)) := by
  unfold expectMatrix at h
  induction m generalizing m' with
  | nil =>
    simp only [List.mapM_nil, pure, Except.pure, Except.ok.injEq] at h
    rw [← h]; rfl
  | cons e m ih =>
    simp only [List.mapM_cons, bind, Except.bind, pure, Except.pure] at h
    rcases h1 : expect e with err | a
    · rw [h1] at h; cases h
    · rw [h1] at h
      simp only at h
      rcases h2 : List.mapM expect m with err | b
      · rw [h2] at h; cases h
      · rw [h2] at h
        simp only [Except.ok.injEq] at h
        rw [← h, List.map_cons, List.map_cons, ih b (fun x hx => hm x (List.mem_cons_of_mem _ hx)) h2,
          C43_expectation_partial hS e a (hm e (by simp)) h1]

/-! ## C44 -/

theorem supported_expand {e : Ex} (h : Supported e) : Supported (expand e) :=
  (supported_iff _).2 (allVisible_expand notOther_prop ((supported_iff e).1 h))

/-- **C44** `Expectation` returns on every supported expression (the recursion of the Python code terminates), and the result is
not random. -/
theorem C44_terminates (e : Ex) (h : Supported e) : ∃ r, expect e = .ok r ∧ israndom r = .ok false ∧ ¬ OmegaVisible r := by
  obtain ⟨r, h1, -, -, h2, -⟩ := expectation_normal _ (expand e) (normal_expand e) (supported_expand h) le_rfl
  rw [expectation_expand] at h1
  refine ⟨r, h1, h2, fun ho => ?_⟩
  have key : ∀ e, israndom e = .ok false → ¬ Visible (.sym omega) e ∧ ∀ u args, omega ∈ args → ¬ Visible (.fn u args) e := by
    intro e
    induction e with
    | num q => intro _; simp [visible_num]
    | ex a _ => intro _; simp [visible_ex]
    | other b => intro _; simp [visible_other]
    | sym s =>
      intro h
      rw [israndom_sym] at h
      have : s ≠ omega := by simpa using h
      simp [visible_sym, this.symm]
    | fn u args =>
      intro h
      rw [israndom_fn] at h
      have : omega ∉ args := by simpa using h
      refine ⟨by simp [visible_fn], fun u' args' h1 h2 => ?_⟩
      rw [visible_fn] at h2
      cases h2
      exact this h1
    | func g a ih => intro h; rw [israndom_func] at h; simpa [visible_func] using ih h
    | pow g a ih => intro h; rw [israndom_pow] at h; simpa [visible_pow] using ih h
    | deriv g a ih => intro h; rw [israndom_deriv] at h; simpa [visible_deriv] using ih h
    | integ g a ih => intro h; rw [israndom_integ] at h; simpa [visible_integ] using ih h
    | add a b iha ihb =>
      intro h
      rw [israndom_add, anyE_ok_false] at h
      have h1 := iha h.1
      have h2 := ihb h.2
      refine ⟨by simp [visible_add, h1.1, h2.1], fun u args hu => ?_⟩
      simp [visible_add, h1.2 u args hu, h2.2 u args hu]
    | mul a b iha ihb =>
      intro h
      rw [israndom_mul, anyE_ok_false] at h
      have h1 := iha h.1
      have h2 := ihb h.2
      refine ⟨by simp [visible_mul, h1.1, h2.1], fun u args hu => ?_⟩
      simp [visible_mul, h1.2 u args hu, h2.2 u args hu]
  have hk := key r h2
  rcases ho with ho | ⟨u, args, hu, ho⟩
  · exact hk.1 ho
  · exact hk.2 u args hu ho

/-- **C44** Every expectation remaining in the result is irreducible (if those already present in the argument were: they are left
alone). -/
theorem C44_reduced (e r : Ex) (hs : Supported e) (hg : ∀ a, Visible (.ex a) e → Irreducible a)
    (h : expect e = .ok r) : ∀ a, Visible (.ex a) r → Irreducible a := by
  obtain ⟨r', h1, -, -, -, h2⟩ := expectation_normal _ (expand e) (normal_expand e) (supported_expand hs) le_rfl
  rw [expectation_expand] at h1
  have : r' = r := Except.ok.inj (h1.symm.trans h)
  subst this
  have hg' : AllVisible goodNode e := by
    intro x hx
    cases x with
    | ex a => exact hg a hx
    | _ => trivial
  intro a ha
  exact h2 (allVisible_expand goodNode_prop hg') _ ha

/-- **C44** The expectation of a non-random expression is the expression, expanded. -/
theorem C44_nonrandom (e : Ex) (h : ¬ OmegaVisible e) (hs : Supported e) : expect e = .ok (expand e) := by
  have h1 : israndom (expand e) = .ok false := by
    have hp : NodeProp (fun x => x ≠ .sym omega ∧ ∀ u args, omega ∈ args → x ≠ .fn u args) := by
      constructor <;> simp
    have hv : AllVisible (fun x => x ≠ .sym omega ∧ ∀ u args, omega ∈ args → x ≠ .fn u args) e := by
      intro x hx
      refine ⟨?_, ?_⟩
      · rintro rfl; exact h (.inl hx)
      · rintro u args hu rfl; exact h (.inr ⟨u, args, hu, hx⟩)
    have hv' := allVisible_expand hp hv
    rcases israndom_spec (expand e) (supported_expand hs) with ⟨-, h2 | ⟨u, args, hu, h2⟩⟩ | ⟨h2, -⟩
    · exact absurd rfl (hv' _ h2).1
    · exact absurd rfl ((hv' _ h2).2 u args hu)
    · exact h2
  have hpos := size_pos (expand e)
  obtain ⟨n, hn⟩ : ∃ n, size (expand e) = n + 1 := ⟨size (expand e) - 1, by omega⟩
  show expectation (size (expand e)) e = _
  rw [hn]
  simp only [expectation, bind, Except.bind, pure, Except.pure, h1, if_true]

/-- **C44** `expand` changes nothing the second time. -/
theorem C44_expand_idempotent (e : Ex) : expand (expand e) = expand e := expand_normal _ (normal_expand e)

/-- **C44** Applying `Expectation` twice changes nothing. -/
theorem C44_idempotent (e r : Ex) (hs : Supported e) (h : expect e = .ok r) : expect r = .ok r := by
  obtain ⟨r', h1, hN, -, h2, -⟩ := expectation_normal _ (expand e) (normal_expand e) (supported_expand hs) le_rfl
  rw [expectation_expand] at h1
  have : r' = r := Except.ok.inj (h1.symm.trans h)
  subst this
  have hpos := size_pos (expand r')
  obtain ⟨n, hn⟩ : ∃ n, size (expand r') = n + 1 := ⟨size (expand r') - 1, by omega⟩
  show expectation (size (expand r')) r' = _
  rw [hn]
  simp only [expectation, bind, Except.bind, pure, Except.pure, expand_normal r' hN, h2, if_true]

/-! ## Concrete cases -/

section Examples

/-- `X(t, x, omega)` -/
def exX : Ex := .fn "X".toList ["t".toList, "x".toList, omega]
/-- `u(t, x)` -/
def exU : Ex := .fn "u".toList ["t".toList, "x".toList]

/-- `E((u + X) * X + d X/dx) = u E(X) + E(X X) + d E(X)/dx`. -/
example : expect (.add (.mul (.add exU exX) exX) (.deriv exX [("x".toList, 1)])) =
    .ok (.add (.add (.mul exU (.ex exX)) (.ex (.mul exX exX))) (.deriv (.ex exX) [("x".toList, 1)])) := by
  decide +kernel

/-- `omega` below an expectation does not count. -/
example : israndom (.mul exU (.ex exX)) = .ok false := by decide +kernel
example : israndom (.mul exU exX) = .ok true := by decide +kernel
example : israndom (.other true) = .error .notImplementedError := by decide +kernel
example : israndomEq exU exX = .ok true := by decide +kernel

open Polynomial

/-- Two equiprobable events; fields are polynomials in `x`. -/
noncomputable def twoEvents : Interp (Bool → ℚ[X]) where
  sym s := if s = omega then fun b => if b then 1 else 0 else 0
  fn _ args := if omega ∈ args then fun b => if b then 2 * X else 0 else fun _ => X
  func _ r := r
  pw r q := if q.den = 1 ∧ 0 ≤ q.num then r ^ q.num.toNat else 0
  D x r := if x = "x".toList then fun b => derivative (r b) else 0
  I _ _ := 0
  E r := fun _ => C (1 / 2) * (r true + r false)
  other _ := 0

/-- The deterministic fields: equal in both events. -/
def det : Subalgebra ℚ (Bool → ℚ[X]) where
  carrier := {r | r true = r false}
  mul_mem' := by intro a b ha hb; simp only [Set.mem_ofPred_eq, Pi.mul_apply] at *; rw [ha, hb]
  add_mem' := by intro a b ha hb; simp only [Set.mem_ofPred_eq, Pi.add_apply] at *; rw [ha, hb]
  algebraMap_mem' := by intro q; simp [Pi.algebraMap_apply]

theorem mem_det (r : Bool → ℚ[X]) : r ∈ det ↔ r true = r false := Iff.rfl

theorem half (p : ℚ[X]) : C (1 / 2 : ℚ) * (p + p) = p := by
  have : (C (1 / 2 : ℚ)) * 2 = (1 : ℚ[X]) := by
    rw [show (2 : ℚ[X]) = C 2 from rfl, ← C_mul]; norm_num
  linear_combination p * this

theorem twoEvents_stochastic : Stochastic twoEvents det where
  sym_det s h := by simp [twoEvents, h]
  fn_det u args h := by simp [twoEvents, h, mem_det]
  func_det g r h := h
  pw_det r q h := by
    rw [mem_det] at h ⊢
    simp only [twoEvents]
    split <;> simp [h]
  pw_nat r n := by simp [twoEvents]
  D_det x r h := by
    rw [mem_det] at h ⊢
    simp only [twoEvents]
    split <;> simp [h]
  D_add x r s := by
    simp only [twoEvents]
    split
    · funext b; simp
    · simp
  D_mul x r s := by
    simp only [twoEvents]
    split
    · funext b; simp [derivative_mul]
    · simp
  D_comm x y r := by
    simp only [twoEvents]
    split <;> split <;> rfl
  I_det x r _ := by simp [twoEvents]
  I_add x r s := by simp [twoEvents]
  E_det r := rfl
  E_add r s := by funext b; simp only [twoEvents, Pi.add_apply]; ring
  E_mul a r h := by
    rw [mem_det] at h
    funext b
    have hb : a b = a true := by cases b <;> simp [h]
    simp only [twoEvents, Pi.mul_apply, hb, h]
    ring
  E_const a h := by
    rw [mem_det] at h
    funext b
    have hb : a b = a true := by cases b <;> simp [h]
    simp only [twoEvents, hb, ← h]
    exact half _
  E_D x r _ := by
    simp only [twoEvents]
    split
    · funext b; simp
    · funext b; simp
  E_I x r _ := by funext b; simp [twoEvents]
  other_det := by simp [twoEvents]

/-- `E(u X)` is `X²` for the field `X` equal to `2 x` or `0`. -/
example : twoEvents.E (den twoEvents (.mul exU exX)) = fun _ => X ^ 2 := by
  funext b
  simp only [twoEvents, den, exU, exX]
  rw [if_neg (show ¬ omega ∈ ["t".toList, "x".toList] by decide),
    if_pos (show omega ∈ ["t".toList, "x".toList, omega] by decide)]
  simp only [Pi.mul_apply, if_true, Bool.false_eq_true, if_false, mul_zero]
  have := half (X ^ 2 : ℚ[X])
  linear_combination this

/-- **C43** The full claim is false: of a mixed derivative only the first variable is kept. -/
theorem C43_counterexample : ∃ (S : Interp (Bool → ℚ[X])) (A : Subalgebra ℚ (Bool → ℚ[X])) (e r : Ex),
    Stochastic S A ∧ Supported e ∧ expect e = .ok r ∧ den S r ≠ S.E (den S e) := by
  refine ⟨twoEvents, det, .deriv exX [("x".toList, 1), ("y".toList, 1)], .deriv (.ex exX) [("x".toList, 1)],
    twoEvents_stochastic, ?_, by decide +kernel, ?_⟩
  · unfold Supported exX
    simp [visible_deriv, visible_fn]
  · intro h
    have h1 := congrFun h true
    simp only [den, derivs, exX, twoEvents, Function.iterate_one] at h1
    rw [if_pos (show omega ∈ ["t".toList, "x".toList, omega] by decide), if_pos rfl,
      if_neg (show ¬ "y".toList = "x".toList by decide)] at h1
    simp only [if_true, Bool.false_eq_true, if_false, add_zero, Pi.zero_apply, mul_zero] at h1
    have h2 : C (1 / 2 : ℚ) * (2 * X) = (X : ℚ[X]) := by
      have := half (X : ℚ[X])
      linear_combination this
    rw [h2, derivative_X] at h1
    exact one_ne_zero h1

/-- Non-vacuity of C43: the mixed derivative of `X` is multiplied by a random factor; nothing is lost. -/
example : Lossless (.mul exU (.mul exX (.deriv exX [("x".toList, 1), ("y".toList, 1)]))) ∧
    ¬ SimpleDerivs (.mul exU (.mul exX (.deriv exX [("x".toList, 1), ("y".toList, 1)]))) ∧
    expect (.mul exU (.mul exX (.deriv exX [("x".toList, 1), ("y".toList, 1)]))) =
      .ok (.mul exU (.ex (.mul exX (.deriv exX [("x".toList, 1), ("y".toList, 1)])))) := by
  have hX : RandomTerms exX := show omega ∈ ["t".toList, "x".toList, omega] by decide
  refine ⟨⟨.inl trivial, .inl ⟨.inl trivial, .inr hX⟩⟩, fun h => ?_, by decide +kernel⟩
  obtain ⟨x, n, h, -⟩ := h.1 exX [("x".toList, 1), ("y".toList, 1)] (by simp [visible_mul, visible_deriv])
  simp at h

/-- Non-vacuity of C43_mixed. -/
example : Random exX ∧ Lossless exX ∧
    expect (.deriv exX [("x".toList, 1), ("y".toList, 1)]) = .ok (.deriv (.ex exX) [("x".toList, 1)]) :=
  ⟨show omega ∈ ["t".toList, "x".toList, omega] by decide, trivial, by decide +kernel⟩

end Examples

end Sympkf.Rand
