import Mathlib.Algebra.Polynomial.AlgebraMap
import Mathlib.Algebra.Polynomial.Eval.Degree
import Verif.Lemmas.PkfMean

/-!
# Lemmas: dynamics that are polynomial in the fields
-/

set_option autoImplicit false

namespace Sympkf.Spec

open Text Rand PKF Pkf Polynomial

variable {R : Type} [CommRing R] [Algebra ℚ R] {S : Interp R} {A : Subalgebra ℚ R} {P : Set R} {C : Set Str}
  {K : Pkf} {coords : List Str}

/-- An operation applied to every coefficient of a polynomial. -/
noncomputable def coefMap (f : R → R) (p : R[X]) : R[X] := ∑ n ∈ p.support, monomial n (f (p.coeff n))

/-- Quantities depending polynomially on the small parameter (`X`): the field `f` has the value `E[f] + X e_f`. -/
noncomputable def polyPerturbed (S : Interp R) (fields : List Field) : Interp R[X] where
  sym s := Polynomial.C (S.sym s)
  fn u args :=
    if (⟨u, args⟩ : Field) ∈ fields then
      Polynomial.C (S.E (den S (Field.random ⟨u, args⟩))) + X * Polynomial.C (den S (Field.error ⟨u, args⟩))
    else Polynomial.C (S.fn u args)
  func g p := Polynomial.C (S.func g (p.coeff 0))
  pw p q := if isNat q then p ^ q.num.toNat else Polynomial.C (S.pw (p.coeff 0) q)
  D x := coefMap (S.D x)
  I x := coefMap (S.I x)
  E := coefMap S.E
  other b := Polynomial.C (S.other b)

omit [Algebra ℚ R] in
theorem coeff_coefMap (f : R → R) (h0 : f 0 = 0) (p : R[X]) (n : ℕ) : (coefMap f p).coeff n = f (p.coeff n) := by
  unfold coefMap
  rw [finsetSum_coeff]
  simp only [coeff_monomial]
  rw [Finset.sum_ite_eq']
  split
  · rfl
  · rename_i h
    rw [notMem_support_iff.1 h, h0]

omit [Algebra ℚ R] in
theorem coefMap_C (f : R → R) (h0 : f 0 = 0) (r : R) : coefMap f (Polynomial.C r) = Polynomial.C (f r) := by
  ext n
  rw [coeff_coefMap f h0, coeff_C, coeff_C]
  split
  · rfl
  · exact h0

theorem poly_free (hS : Stochastic S A) (l : List Field) (a : Ex) (h1 : FieldFree l a) :
    den (polyPerturbed S l) a = Polynomial.C (den S a) := by
  induction a with
  | num q => rfl
  | sym s => rfl
  | fn u args => exact if_neg h1
  | func g a ih =>
    show Polynomial.C (S.func g ((den (polyPerturbed S l) a).coeff 0)) = _
    rw [ih h1, coeff_C_zero]; rfl
  | add a b iha ihb =>
    show den (polyPerturbed S l) a + den (polyPerturbed S l) b = _
    rw [iha h1.1, ihb h1.2, ← C_add]; rfl
  | mul a b iha ihb =>
    show den (polyPerturbed S l) a * den (polyPerturbed S l) b = _
    rw [iha h1.1, ihb h1.2, ← C_mul]; rfl
  | pow a q ih =>
    show (if isNat q then _ else _ : R[X]) = _
    rw [ih h1]
    split
    · rename_i h
      rw [← C_pow]
      congr 1
      show _ = S.pw (den S a) q
      conv_rhs => rw [isNat_toNat h, hS.pw_nat]
    · rw [coeff_C_zero]; rfl
  | deriv a vars ih =>
    show derivs (polyPerturbed S l) vars (den (polyPerturbed S l) a) = _
    rw [ih h1]
    show _ = Polynomial.C (derivs S vars (den S a))
    clear ih h1
    generalize den S a = r
    induction vars generalizing r with
    | nil => rfl
    | cons v vars ih =>
      obtain ⟨x, n⟩ := v
      rw [derivs, derivs, ← ih]
      congr 1
      clear ih
      induction n generalizing r with
      | zero => rfl
      | succ n ih =>
        rw [Function.iterate_succ_apply, Function.iterate_succ_apply, ← ih]
        congr 1
        exact coefMap_C _ (D_zero hS.diff x) r
  | integ a x ih =>
    show coefMap (S.I x) (den (polyPerturbed S l) a) = _
    rw [ih h1, coefMap_C _ (I_zero hS x)]; rfl
  | ex a ih =>
    show coefMap S.E (den (polyPerturbed S l) a) = _
    rw [ih h1, coefMap_C _ (E_zero hS)]; rfl
  | other b => rfl

theorem free_const (hS : Stochastic S A) (l : List Field) (a : Ex) (h1 : FieldFree l a) :
    den (perturbed S l) a = .const (den S a) := by
  induction a with
  | num q => rfl
  | sym s => rfl
  | fn u args => exact if_neg h1
  | func g a ih =>
    show Jet.func S g (den (perturbed S l) a) = _
    rw [ih h1, Jet.func_const]; rfl
  | add a b iha ihb =>
    show den (perturbed S l) a + den (perturbed S l) b = _
    rw [iha h1.1, ihb h1.2, ← Jet.const_add]; rfl
  | mul a b iha ihb =>
    show den (perturbed S l) a * den (perturbed S l) b = _
    rw [iha h1.1, ihb h1.2, ← Jet.const_mul]; rfl
  | pow a q ih =>
    show (liftI S l).pw (den (perturbed S l) a) q = _
    rw [ih h1, lift_pw_C hS]; rfl
  | deriv a vars ih =>
    show derivs (perturbed S l) vars (den (perturbed S l) a) = _
    rw [ih h1, ← derivs_lift, lift_derivs_C hS]; rfl
  | integ a x ih =>
    show Jet.map (S.I x) (den (perturbed S l) a) = _
    rw [ih h1, Jet.map_const _ (I_zero hS x)]; rfl
  | ex a ih =>
    show Jet.map S.E (den (perturbed S l) a) = _
    rw [ih h1, Jet.map_const _ (E_zero hS)]; rfl
  | other b => rfl

/-- Polynomials have Taylor expansions. -/
theorem Polynomials.expandable (hS : Stochastic S A) {l : List Field} {e : Ex} (h : Polynomials S P C l e) : Expandable S P C l e := by
  induction e with
  | num q => trivial
  | sym s => exact h
  | fn u args => exact h
  | func g a ih => exact ⟨⟨.inr h.1.1, by rw [free_const hS l a h.1.1]; exact h.1.2⟩, ih h.2⟩
  | add a b iha ihb => exact ⟨iha h.1, ihb h.2⟩
  | mul a b iha ihb => exact ⟨iha h.1, ihb h.2⟩
  | pow a q ih => exact ⟨ih h.1, h.2.imp id fun h' => by rw [free_const hS l a h'.1]; exact h'.2⟩
  | deriv a vars ih => exact ⟨ih h.1, h.2⟩
  | integ a x ih => exact ⟨h.1, ih h.2.1, h.2.2⟩
  | ex a ih => exact h.elim
  | other b => exact h.elim

/-- The Taylor polynomial of degree two. -/
def jetOf (p : R[X]) : Jet R := ⟨p.coeff 0, p.coeff 1, p.coeff 2⟩

omit [Algebra ℚ R] in
theorem jetOf_C (r : R) : jetOf (Polynomial.C r) = .const r := by
  ext <;> simp [jetOf, coeff_C]

omit [Algebra ℚ R] in
theorem jetOf_mul (p q : R[X]) : jetOf (p * q) = jetOf p * jetOf q := by
  ext
  · exact mul_coeff_zero p q
  · simp only [jetOf, mul_coeff_one, Jet.mul_c1]
  · simp only [jetOf, Jet.mul_c2, coeff_mul]
    rw [show Finset.antidiagonal 2 = ({(0, 2), (1, 1), (2, 0)} : Finset (ℕ × ℕ)) from rfl]
    simp
    ring

omit [Algebra ℚ R] in
theorem jetOf_pow (p : R[X]) (n : ℕ) : jetOf (p ^ n) = jetOf p ^ n := by
  induction n with
  | zero => rw [pow_zero, pow_zero]; exact jetOf_C 1
  | succ n ih => rw [pow_succ, pow_succ, jetOf_mul, ih]

/-- The expansion of a polynomial. -/
theorem Polynomials.jet (hS : Stochastic S A) {l : List Field} {e : Ex} (h : Polynomials S P C l e) :
    den (perturbed S l) e = jetOf (den (polyPerturbed S l) e) := by
  have free : ∀ a, FieldFree l a → den (perturbed S l) a = jetOf (den (polyPerturbed S l) a) := fun a ha => by
    rw [free_const hS l a ha, poly_free hS l a ha, jetOf_C]
  induction e with
  | num q => exact (jetOf_C _).symm
  | sym s => exact (jetOf_C _).symm
  | fn u args =>
    show (if (⟨u, args⟩ : Field) ∈ l then _ else _ : Jet R) = jetOf (if (⟨u, args⟩ : Field) ∈ l then _ else _ : R[X])
    split
    · ext <;> simp [jetOf, coeff_C]
    · exact (jetOf_C _).symm
  | func g a ih => exact free _ (by exact h.1.1)
  | add a b iha ihb => simp only [den, iha h.1, ihb h.2]; ext <;> simp [jetOf]
  | mul a b iha ihb => simp only [den, iha h.1, ihb h.2, jetOf_mul]
  | pow a q ih =>
    rcases h.2 with hq | ⟨hf, -⟩
    · show Jet.pw S _ q = jetOf (if isNat q then _ else _ : R[X])
      rw [if_pos hq, jetOf_pow, ih h.1]
      unfold Jet.pw
      rw [if_pos ((Jet.isNat_eq q).2 hq)]
    · exact free _ (by exact hf)
  | deriv a vars ih =>
    simp only [den, ih h.1]
    clear ih h
    generalize den (polyPerturbed S l) a = p
    induction vars generalizing p with
    | nil => rfl
    | cons v vars ihv =>
      obtain ⟨x, n⟩ := v
      show derivs (perturbed S l) vars (((perturbed S l).D x)^[n] (jetOf p)) =
        jetOf (derivs (polyPerturbed S l) vars (((polyPerturbed S l).D x)^[n] p))
      rw [← ihv]
      congr 1
      clear ihv
      induction n generalizing p with
      | zero => rfl
      | succ n ihn =>
        rw [Function.iterate_succ_apply, Function.iterate_succ_apply, ← ihn]
        congr 1
        show Jet.map (S.D x) (jetOf p) = jetOf (coefMap (S.D x) p)
        ext <;> simp [jetOf, Jet.map, coeff_coefMap _ (D_zero hS.diff x)]
  | integ a x ih => exact free _ (by exact h.1)
  | ex a ih => exact h.elim
  | other b => exact h.elim

omit [Algebra ℚ R] in
theorem eval_one_three (p : R[X]) (h : ∀ n, 3 ≤ n → p.coeff n = 0) : p.eval 1 = p.coeff 0 + p.coeff 1 + p.coeff 2 := by
  rw [eval_eq_sum_range' (n := 3) ?_]
  · simp [Finset.sum_range_succ]
  · by_contra hn
    have h3 : 3 ≤ p.natDegree := by omega
    have := h _ h3
    rw [← leadingCoeff, leadingCoeff_eq_zero] at this
    rw [this] at h3
    simp at h3

/-! ## Exactness for quadratic dynamics -/

omit [Algebra ℚ R] in
theorem coefMap_eval (f : R → R) (h0 : f 0 = 0) (hadd : ∀ r s, f (r + s) = f r + f s) (p : R[X]) :
    (coefMap f p).eval 1 = f (p.eval 1) := by
  have hsum : ∀ (s : Finset ℕ) (g : ℕ → R), f (∑ i ∈ s, g i) = ∑ i ∈ s, f (g i) := by
    intro s g
    induction s using Finset.induction_on with
    | empty => simpa using h0
    | insert a s ha ih => rw [Finset.sum_insert ha, Finset.sum_insert ha, hadd, ih]
  rw [eval_eq_sum (p := p), Polynomial.sum_def, hsum]
  unfold coefMap
  rw [eval_finsetSum]
  refine Finset.sum_congr rfl (fun n _ => ?_)
  simp

theorem Polynomials.realised (hS : Stochastic S A) {l : List Field}
    (hX : ∀ f ∈ l, den S f.random = S.E (den S f.random) + den S f.error) {e : Ex} (h : Polynomials S P C l e) :
    den (realised S l) e = (den (polyPerturbed S l) e).eval 1 := by
  have free : ∀ a, FieldFree l a → den (Spec.realised S l) a = den S a := by
    intro a
    induction a with
    | num q => intro _; rfl
    | sym s => intro _; rfl
    | fn u args => intro ha; exact if_neg ha
    | func g a ih => intro ha; simp only [den, ih ha]; rfl
    | add a b iha ihb => intro ha; simp only [den, iha ha.1, ihb ha.2]
    | mul a b iha ihb => intro ha; simp only [den, iha ha.1, ihb ha.2]
    | pow a q ih => intro ha; simp only [den, ih ha]; rfl
    | deriv a vars ih =>
      intro ha
      simp only [den, ih ha]
      clear ih
      generalize den S a = r
      induction vars generalizing r with
      | nil => rfl
      | cons v vars ihv => obtain ⟨x, n⟩ := v; exact ihv ha _
    | integ a x ih => intro ha; simp only [den, ih ha]; rfl
    | ex a ih => intro ha; simp only [den, ih ha]; rfl
    | other b => intro _; rfl
  induction e with
  | num q => show algebraMap ℚ R q = (algebraMap ℚ R[X] q).eval 1; rw [Polynomial.algebraMap_apply, eval_C]
  | sym s => show S.sym s = (Polynomial.C (S.sym s)).eval 1; simp
  | fn u args =>
    show (if (⟨u, args⟩ : Field) ∈ l then _ else _ : R) = (if (⟨u, args⟩ : Field) ∈ l then _ else _ : R[X]).eval 1
    split
    · rename_i hm
      refine (hX _ hm).trans ?_
      simp
    · simp
  | func g a ih => rw [poly_free hS l _ (by exact h.1.1), free _ (by exact h.1.1)]; simp
  | add a b iha ihb => simp only [den, iha h.1, ihb h.2, eval_add]
  | mul a b iha ihb => simp only [den, iha h.1, ihb h.2, eval_mul]
  | pow a q ih =>
    rcases h.2 with hq | ⟨hf, hp⟩
    · show S.pw (den (Spec.realised S l) a) q = (if isNat q then _ else _ : R[X]).eval 1
      rw [if_pos hq, ih h.1, eval_pow]
      conv_lhs => rw [isNat_toNat hq, hS.pw_nat]
    · rw [poly_free hS l _ (by exact hf), free _ (by exact hf)]; simp
  | deriv a vars ih =>
    have hv := h.2
    simp only [den, ih h.1]
    clear ih h
    generalize den (polyPerturbed S l) a = p
    induction vars generalizing p with
    | nil => rfl
    | cons v vars ihv =>
      obtain ⟨x, n⟩ := v
      show derivs (Spec.realised S l) vars (((Spec.realised S l).D x)^[n] (p.eval 1)) =
        (derivs (polyPerturbed S l) vars (((polyPerturbed S l).D x)^[n] p)).eval 1
      rw [← ihv (fun v hv' => hv v (by simp [hv']))]
      congr 1
      clear ihv hv
      induction n generalizing p with
      | zero => rfl
      | succ n ihn =>
        rw [Function.iterate_succ_apply, Function.iterate_succ_apply, ← ihn]
        congr 1
        exact (coefMap_eval _ (D_zero hS.diff x) (hS.D_add x) p).symm
  | integ a x ih => rw [poly_free hS l _ (by exact h.1), free _ (by exact h.1)]; simp
  | ex a ih => exact h.elim
  | other b => exact h.elim

omit [Algebra ℚ R] in
theorem coefMap_natDegree (f : R → R) (h0 : f 0 = 0) (p : R[X]) : (coefMap f p).natDegree ≤ p.natDegree := by
  rw [natDegree_le_iff_coeff_eq_zero]
  intro n hn
  rw [coeff_coefMap f h0, coeff_eq_zero_of_natDegree_lt hn, h0]

theorem Polynomials.natDegree (hS : Stochastic S A) {l : List Field} {e : Ex} (h : Polynomials S P C l e) :
    (den (polyPerturbed S l) e).natDegree ≤ fieldDegree l e := by
  induction e with
  | num q => show (algebraMap ℚ R[X] q).natDegree ≤ 0; rw [Polynomial.algebraMap_apply, natDegree_C]
  | sym s => show (Polynomial.C (S.sym s)).natDegree ≤ 0; simp
  | fn u args =>
    show (if (⟨u, args⟩ : Field) ∈ l then _ else _ : R[X]).natDegree ≤ (if (⟨u, args⟩ : Field) ∈ l then 1 else 0)
    split
    · refine (natDegree_add_le _ _).trans (max_le (by simp) ?_)
      refine natDegree_mul_le.trans ?_
      rw [natDegree_C, add_zero]
      exact natDegree_X_le
    · simp
  | func g a ih => rw [poly_free hS l _ (by exact h.1.1)]; simp
  | add a b iha ihb => exact (natDegree_add_le _ _).trans (max_le_max (iha h.1) (ihb h.2))
  | mul a b iha ihb => exact natDegree_mul_le.trans (add_le_add (iha h.1) (ihb h.2))
  | pow a q ih =>
    rcases h.2 with hq | ⟨hf, hp⟩
    · show (if isNat q then _ else _ : R[X]).natDegree ≤ _
      rw [if_pos hq]
      exact natDegree_pow_le.trans (Nat.mul_le_mul_left _ (ih h.1))
    · rw [poly_free hS l _ (by exact hf)]; simp
  | deriv a vars ih =>
    refine le_trans ?_ (ih h.1)
    show (derivs (polyPerturbed S l) vars (den (polyPerturbed S l) a)).natDegree ≤ _
    clear ih h
    generalize den (polyPerturbed S l) a = p
    induction vars generalizing p with
    | nil => exact le_rfl
    | cons v vars ihv =>
      obtain ⟨x, n⟩ := v
      refine (ihv _).trans ?_
      clear ihv
      induction n generalizing p with
      | zero => exact le_rfl
      | succ n ihn =>
        rw [Function.iterate_succ_apply]
        exact (ihn _).trans (coefMap_natDegree _ (D_zero hS.diff x) p)
  | integ a x ih => rw [poly_free hS l _ (by exact h.1)]; simp
  | ex a ih => exact h.elim
  | other b => exact h.elim

/-- The random fields of a quadratic dynamics: the value is the expansion of second order. -/
theorem Polynomials.exact (hS : Stochastic S A) {l : List Field}
    (hX : ∀ f ∈ l, den S f.random = S.E (den S f.random) + den S f.error) {e : Ex} (h : Polynomials S P C l e)
    (h2 : fieldDegree l e ≤ 2) : den (Spec.realised S l) e = (den (perturbed S l) e).second := by
  rw [h.realised hS hX, eval_one_three _ (fun n hn => coeff_eq_zero_of_natDegree_lt (by have := h.natDegree hS; omega)), h.jet hS]
  rfl

end Sympkf.Spec
