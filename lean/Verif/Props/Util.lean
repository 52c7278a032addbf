import Mathlib.Tactic.Linarith
import Mathlib.Algebra.BigOperators.Group.List.Basic
import Mathlib.Tactic.LinearCombination
import Verif.Lemmas.Random
import Verif.Lemmas.Tree
import Verif.Props.Field
import Verif.Props.Random
import Verif.Spec.Util

/-!
# C67-C72: equations, comparison of expressions, coordinate systems, matrices
-/

set_option autoImplicit false

namespace Sympkf.Util

open Text Rand Spec

variable {R : Type} [CommRing R] [Algebra ℚ R] {S : Interp R} {A : Subalgebra ℚ R}

/-! ## C67 -/

theorem sat_mkEq {decideEq : Ex → Ex → Option Bool} (hd : DecidesTruly S decideEq) (l r : Ex) :
    Sat S (mkEq decideEq l r) ↔ den S l = den S r := by
  unfold mkEq
  cases h : decideEq l r with
  | none => exact Iff.rfl
  | some b => exact hd l r b h

theorem den_neg (e : Ex) : den S (Util.neg e) = - den S e := by simp [Util.neg, den]

/-- **C67** The operations act on both sides, so every valuation that satisfies the operands satisfies the result. -/
theorem C67_arithmetic_partial {decideEq : Ex → Ex → Option Bool} (hd : DecidesTruly S decideEq) (l r l' r' a : Ex)
    (h : Sat S (.eq l r)) :
    (∃ e, Rel.mul decideEq (.eq l r) a = .ok e ∧ Sat S e ∧ (∀ u v, e = .eq u v →
      den S u = den S a * den S l ∧ den S v = den S a * den S r)) ∧
    (∃ e, Rel.neg decideEq (.eq l r) = .ok e ∧ Sat S e ∧ (∀ u v, e = .eq u v →
      den S u = - den S l ∧ den S v = - den S r)) ∧
    (Sat S (.eq l' r') →
      (∃ e, Rel.add decideEq (.eq l r) (.eq l' r') = .ok e ∧ Sat S e ∧ (∀ u v, e = .eq u v →
        den S u = den S l + den S l' ∧ den S v = den S r + den S r')) ∧
      (∃ e, Rel.sub decideEq (.eq l r) (.eq l' r') = .ok e ∧ Sat S e ∧ (∀ u v, e = .eq u v →
        den S u = den S l - den S l' ∧ den S v = den S r - den S r')) ∧
      (∃ e, Rel.imulEq decideEq (.eq l r) (.eq l' r') = .ok e ∧ Sat S e ∧ (∀ u v, e = .eq u v →
        den S u = den S l * den S l' ∧ den S v = den S r * den S r'))) := by
  have key : ∀ x y : Ex, den S x = den S y → ∀ p q : R, den S x = p → den S y = q →
      Sat S (mkEq decideEq x y) ∧ (∀ u v, mkEq decideEq x y = .eq u v → den S u = p ∧ den S v = q) := by
    intro x y hxy p q hp hq
    refine ⟨(sat_mkEq hd x y).2 hxy, fun u v huv => ?_⟩
    unfold mkEq at huv
    split at huv
    · cases huv
    · cases huv; exact ⟨hp, hq⟩
  have h' : den S l = den S r := h
  refine ⟨⟨_, rfl, key _ _ ?_ _ _ rfl rfl⟩, ⟨_, rfl, key _ _ ?_ _ _ (den_neg l) (den_neg r)⟩, fun h2 => ?_⟩
  · simp only [den]; rw [h']
  · rw [den_neg, den_neg, h']
  · have h2' : den S l' = den S r' := h2
    refine ⟨⟨_, rfl, key _ _ ?_ _ _ rfl rfl⟩, ⟨_, rfl, key _ _ ?_ _ _ ?_ ?_⟩, ⟨_, rfl, key _ _ ?_ _ _ rfl rfl⟩⟩
    · simp only [den]; rw [h', h2']
    · simp only [den, den_neg]; rw [h', h2']
    · simp only [den, den_neg]; ring
    · simp only [den, den_neg]; ring
    · simp only [den]; rw [h', h2']

/-- **C67** `subs`, `doit` and `expand` keep the solutions (of the transformed sides), and raise exactly when SymPy decides the
transformed equation: the claim that no operation on equations fails is false. -/
theorem C67_transform {decideEq : Ex → Ex → Option Bool} (f : Ex → Ex) (l r : Ex) :
    (∀ e, Rel.transform decideEq f (.eq l r) = .ok e → (Sat S e ↔ den S (f l) = den S (f r))) ∧
    (decideEq (f l) (f r) ≠ none ↔ Rel.transform decideEq f (.eq l r) = .error .typeError) := by
  unfold Rel.transform
  cases h : decideEq (f l) (f r) with
  | none =>
    have hm : mkEq decideEq (f l) (f r) = .eq (f l) (f r) := by unfold mkEq; rw [h]
    simp only [hm]
    refine ⟨fun e he => ?_, by simp⟩
    cases he
    exact Iff.rfl
  | some b =>
    have hm : mkEq decideEq (f l) (f r) = .bool b := by unfold mkEq; rw [h]
    simp only [hm]
    refine ⟨fun e he => ?_, by simp⟩
    cases he

/-- SymPy's decision of structurally equal sides. -/
def structural (a b : Ex) : Option Bool := if a = b then some true else none

theorem structural_truly : DecidesTruly S structural := by
  intro a b c h
  unfold structural at h
  by_cases hab : a = b
  · rw [if_pos hab] at h
    cases h
    simp [hab]
  · rw [if_neg hab] at h
    cases h

/-- **C67** When the operations crash: multiplication and negation exactly on an equation that SymPy has decided (`TypeError`), sum and
difference exactly when one of the two has been decided (`TypeError` for the first operand, `IndexError` for the second). -/
theorem C67_crash {decideEq : Ex → Ex → Option Bool} (e f : Rel) (a : Ex) (err : PyErr) :
    (Rel.mul decideEq e a = .error err ↔ (∃ b, e = .bool b) ∧ err = .typeError) ∧
    (Rel.neg decideEq e = .error err ↔ (∃ b, e = .bool b) ∧ err = .typeError) ∧
    (Rel.imulEq decideEq e f = .error err ↔ ((∃ b, e = .bool b) ∨ ∃ b, f = .bool b) ∧ err = .typeError) ∧
    (Rel.add decideEq e f = .error err ↔
      (∃ b, e = .bool b) ∧ err = .typeError ∨ (∀ b, e ≠ .bool b) ∧ (∃ b, f = .bool b) ∧ err = .indexError) ∧
    (Rel.sub decideEq e f = .error err ↔
      (∃ b, e = .bool b) ∧ err = .typeError ∨ (∀ b, e ≠ .bool b) ∧ (∃ b, f = .bool b) ∧ err = .indexError) := by
  refine ⟨?_, ?_, ?_, ?_, ?_⟩ <;> cases e <;> cases f <;>
    simp [Rel.mul, Rel.neg, Rel.imulEq, Rel.add, Rel.sub, eq_comm]

/-- **C67** Counterexamples to the clause "an operation on equations never crashes": `Eq(a, b).subs(a, b)`, and
`Eq(a, b) + (Eq(a, b) - Eq(a, b))`. -/
theorem C67_counterexample_crash : ∃ (decideEq : Ex → Ex → Option Bool) (l r : Ex) (f : Ex → Ex) (z : Rel),
    (∀ S : Interp (Bool → Polynomial ℚ), DecidesTruly S decideEq) ∧
    Rel.transform decideEq f (.eq l r) = .error .typeError ∧
    Rel.sub decideEq (.eq l l) (.eq l l) = .ok z ∧ Rel.add decideEq (.eq l r) z = .error .indexError := by
  refine ⟨structural, .sym "a".toList, .sym "b".toList, fun _ => .sym "b".toList, .bool true,
    fun S => structural_truly, by decide +kernel, by decide +kernel, by decide +kernel⟩

/-! ## C68 -/

theorem occurs_iff (x e : Ex) : occurs x e = true ↔ Occurs x e := by
  constructor
  · intro h
    induction e with
    | num q => simp only [occurs, Bool.or_false, decide_eq_true_eq] at h; rw [h]; exact .refl _
    | sym q => simp only [occurs, Bool.or_false, decide_eq_true_eq] at h; rw [h]; exact .refl _
    | fn u q => simp only [occurs, Bool.or_false, decide_eq_true_eq] at h; rw [h]; exact .refl _
    | other q => simp only [occurs, Bool.or_false, decide_eq_true_eq] at h; rw [h]; exact .refl _
    | func g a ih =>
      simp only [occurs, Bool.or_eq_true, decide_eq_true_eq] at h
      rcases h with h | h
      · rw [h]; exact .refl _
      · exact .func g (ih h)
    | add a b iha ihb =>
      simp only [occurs, Bool.or_eq_true, decide_eq_true_eq] at h
      rcases h with h | h | h
      · rw [h]; exact .refl _
      · exact .addL b (iha h)
      · exact .addR a (ihb h)
    | mul a b iha ihb =>
      simp only [occurs, Bool.or_eq_true, decide_eq_true_eq] at h
      rcases h with h | h | h
      · rw [h]; exact .refl _
      · exact .mulL b (iha h)
      · exact .mulR a (ihb h)
    | pow a q ih =>
      simp only [occurs, Bool.or_eq_true, decide_eq_true_eq] at h
      rcases h with h | h
      · rw [h]; exact .refl _
      · exact .pow q (ih h)
    | deriv a q ih =>
      simp only [occurs, Bool.or_eq_true, decide_eq_true_eq] at h
      rcases h with h | h
      · rw [h]; exact .refl _
      · exact .deriv q (ih h)
    | integ a q ih =>
      simp only [occurs, Bool.or_eq_true, decide_eq_true_eq] at h
      rcases h with h | h
      · rw [h]; exact .refl _
      · exact .integ q (ih h)
    | ex a ih =>
      simp only [occurs, Bool.or_eq_true, decide_eq_true_eq] at h
      rcases h with h | h
      · rw [h]; exact .refl _
      · exact .ex (ih h)
  · intro h
    induction h with
    | refl => unfold occurs; simp
    | func g _ ih => unfold occurs; simp [ih]
    | addL c _ ih => unfold occurs; simp [ih]
    | addR c _ ih => unfold occurs; simp [ih]
    | mulL c _ ih => unfold occurs; simp [ih]
    | mulR c _ ih => unfold occurs; simp [ih]
    | pow q _ ih => unfold occurs; simp [ih]
    | deriv q _ ih => unfold occurs; simp [ih]
    | integ q _ ih => unfold occurs; simp [ih]
    | ex _ ih => unfold occurs; simp [ih]

/-- The coefficients of a linear expression. -/
theorem linear_den (x : Ex) (e a b : Ex) (h : linear x e = some (a, b)) : den S e = den S a * den S x + den S b := by
  induction e generalizing a b with
  | add e1 e2 ih1 ih2 =>
    unfold linear at h
    split at h
    · rename_i hx; cases h; rw [← hx]; simp [den]
    · split at h
      · cases h; simp [den]
      · simp only at h
        cases h1 : linear x e1 with
        | none => rw [h1] at h; cases h
        | some p1 =>
          cases h2 : linear x e2 with
          | none => rw [h1, h2] at h; cases h
          | some p2 =>
            obtain ⟨a1, b1⟩ := p1
            obtain ⟨a2, b2⟩ := p2
            rw [h1, h2] at h
            simp only [Option.some.injEq, Prod.mk.injEq] at h
            obtain ⟨rfl, rfl⟩ := h
            simp only [den]
            rw [ih1 a1 b1 h1, ih2 a2 b2 h2]
            ring
  | mul e1 e2 ih1 ih2 =>
    unfold linear at h
    split at h
    · rename_i hx; cases h; rw [← hx]; simp [den]
    · split at h
      · cases h; simp [den]
      · simp only at h
        split at h
        · cases h2 : linear x e2 with
          | none => rw [h2] at h; cases h
          | some p2 =>
            obtain ⟨a2, b2⟩ := p2
            rw [h2] at h
            simp only [Option.map_some, Option.some.injEq, Prod.mk.injEq] at h
            obtain ⟨rfl, rfl⟩ := h
            simp only [den]
            rw [ih2 a2 b2 h2]
            ring
        · split at h
          · cases h1 : linear x e1 with
            | none => rw [h1] at h; cases h
            | some p1 =>
              obtain ⟨a1, b1⟩ := p1
              rw [h1] at h
              simp only [Option.map_some, Option.some.injEq, Prod.mk.injEq] at h
              obtain ⟨rfl, rfl⟩ := h
              simp only [den]
              rw [ih1 a1 b1 h1]
              ring
          · cases h
  | _ =>
    unfold linear at h
    split at h
    · rename_i hx; cases h; rw [← hx]; simp [den]
    · split at h
      · cases h; simp [den]
      · cases h

/-- Expressions of degree at most one in `x`. -/
inductive LinearIn (x : Ex) : Ex → Prop
  | self : LinearIn x x
  | free (e : Ex) (h : ¬ Occurs x e) : LinearIn x e
  | add {a b : Ex} : LinearIn x a → LinearIn x b → LinearIn x (.add a b)
  | mulL {a b : Ex} (h : ¬ Occurs x a) : LinearIn x b → LinearIn x (.mul a b)
  | mulR {a b : Ex} (h : ¬ Occurs x b) : LinearIn x a → LinearIn x (.mul a b)

theorem linear_isSome (x e : Ex) (h : LinearIn x e) : ∃ a b, linear x e = some (a, b) := by
  have focc : ∀ e, ¬ Occurs x e → occurs x e = false := fun e h => by
    rw [← Bool.not_eq_true, occurs_iff]; exact h
  induction h with
  | self => exact ⟨_, _, by unfold linear; rw [if_pos rfl]⟩
  | free e h =>
    have hne : e ≠ x := fun hx => h (hx ▸ .refl _)
    exact ⟨.num 0, e, by unfold linear; rw [if_neg hne, if_pos (focc e h)]⟩
  | @add a b _ _ iha ihb =>
    obtain ⟨a1, b1, h1⟩ := iha
    obtain ⟨a2, b2, h2⟩ := ihb
    unfold linear
    split
    · exact ⟨_, _, rfl⟩
    · split
      · exact ⟨_, _, rfl⟩
      · simp only [h1, h2]; exact ⟨_, _, rfl⟩
  | @mulL a b h _ ih =>
    obtain ⟨a1, b1, h1⟩ := ih
    unfold linear
    split
    · exact ⟨_, _, rfl⟩
    · split
      · exact ⟨_, _, rfl⟩
      · simp only [focc a h, if_true, h1]; exact ⟨_, _, rfl⟩
  | @mulR a b h _ ih =>
    obtain ⟨a1, b1, h1⟩ := ih
    unfold linear
    split
    · exact ⟨_, _, rfl⟩
    · split
      · exact ⟨_, _, rfl⟩
      · rename_i _ hn
        have ha : ¬ occurs x a = false := by
          intro ha
          apply hn
          rename_i hx
          unfold occurs
          simp [ha, focc b h, hx]
        simp only [ha, focc b h, if_true, h1]; exact ⟨_, _, rfl⟩

/-- **C68** `isolate` of an equation linear in `x`: it returns, and when the coefficient of `x` is invertible the result `x = v`
has the same solutions as the equation. -/
theorem C68_isolate {decideEq : Ex → Ex → Option Bool} (hd : DecidesTruly S decideEq) (l r x : Ex)
    (hlin : LinearIn x (.add l (Util.neg r))) (ho : Occurs x l ∨ Occurs x r) :
    ∃ a b e, linear x (.add l (Util.neg r)) = some (a, b) ∧ (∀ {R : Type} [CommRing R] [Algebra ℚ R] (S : Interp R), den S l - den S r = den S a * den S x + den S b) ∧
      isolate decideEq l r x = some (.ok e) ∧
      (den S a * S.pw (den S a) (-1) = 1 → (Sat S e ↔ Sat S (.eq l r))) := by
  obtain ⟨a, b, hl⟩ := linear_isSome x _ hlin
  have hden : ∀ {R : Type} [CommRing R] [Algebra ℚ R] (S : Interp R), den S l - den S r = den S a * den S x + den S b := by
    intro R _ _ S
    have := linear_den (S := S) x _ a b hl
    simp only [den, den_neg] at this
    rw [← this]; ring
  have hocc : (occurs x l || occurs x r) = true := by
    rw [Bool.or_eq_true, occurs_iff, occurs_iff]; exact ho
  have hi : isolate decideEq l r x = some (.ok (mkEq decideEq x (.mul (Util.neg b) (.pow a (-1))))) := by
    unfold isolate solveLinear
    rw [hl]
    simp only [hocc, if_true]
  refine ⟨a, b, _, hl, hden, hi, fun ha => ?_⟩
  have hlin := hden S
  rw [sat_mkEq hd]
  simp only [den, den_neg, Sat]
  constructor
  · intro hx
    rw [hx] at hlin
    linear_combination hlin - den S b * ha
  · intro hlr
    linear_combination (-(S.pw (den S a) (-1))) * (hlin) + S.pw (den S a) (-1) * hlr - den S x * ha

/-- **C68** `IndexError` when the expression does not occur. -/
theorem C68_absent {decideEq : Ex → Ex → Option Bool} (l r x : Ex) (hl : ¬ Occurs x l) (hr : ¬ Occurs x r) :
    isolate decideEq l r x = none ∨ isolate decideEq l r x = some (.error .indexError) := by
  unfold isolate solveLinear
  rw [← occurs_iff, Bool.not_eq_true] at hl hr
  rw [hl, hr]
  cases linear x (.add l (Util.neg r)) with
  | none => exact .inl rfl
  | some p => exact .inr rfl

/-- The lhs is the requested expression, and the value does not contain it. -/
theorem linear_free (x e a b : Ex) (hx : ¬ Occurs x (.num 0)) (hx1 : ¬ Occurs x (.num 1)) (h : linear x e = some (a, b))
    (hn : ∀ p q, x ≠ .add p q ∧ x ≠ .mul p q) : ¬ Occurs x a ∧ ¬ Occurs x b := by
  have nadd : ∀ p q, ¬ Occurs x p → ¬ Occurs x q → ¬ Occurs x (.add p q) := by
    intro p q hp hq h
    cases h with
    | refl => exact (hn p q).1 rfl
    | addL _ h => exact hp h
    | addR _ h => exact hq h
  have nmul : ∀ p q, ¬ Occurs x p → ¬ Occurs x q → ¬ Occurs x (.mul p q) := by
    intro p q hp hq h
    cases h with
    | refl => exact (hn p q).2 rfl
    | mulL _ h => exact hp h
    | mulR _ h => exact hq h
  have nocc : ∀ e, occurs x e = false → ¬ Occurs x e := fun e h => by rw [← occurs_iff, h]; simp
  induction e generalizing a b with
  | add e1 e2 ih1 ih2 =>
    unfold linear at h
    split at h
    · cases h; exact ⟨hx1, hx⟩
    · split at h
      · cases h; exact ⟨hx, nocc _ (by assumption)⟩
      · simp only at h
        cases h1 : linear x e1 with
        | none => rw [h1] at h; cases h
        | some p1 =>
          cases h2 : linear x e2 with
          | none => rw [h1, h2] at h; cases h
          | some p2 =>
            rw [h1, h2] at h
            simp only [Option.some.injEq, Prod.mk.injEq] at h
            obtain ⟨rfl, rfl⟩ := h
            obtain ⟨c1, c2⟩ := ih1 _ _ h1
            obtain ⟨d1, d2⟩ := ih2 _ _ h2
            exact ⟨nadd _ _ c1 d1, nadd _ _ c2 d2⟩
  | mul e1 e2 ih1 ih2 =>
    unfold linear at h
    split at h
    · cases h; exact ⟨hx1, hx⟩
    · split at h
      · cases h; exact ⟨hx, nocc _ (by assumption)⟩
      · simp only at h
        split at h
        · rename_i hocc
          cases h2 : linear x e2 with
          | none => rw [h2] at h; cases h
          | some p2 =>
            rw [h2] at h
            simp only [Option.map_some, Option.some.injEq, Prod.mk.injEq] at h
            obtain ⟨rfl, rfl⟩ := h
            obtain ⟨d1, d2⟩ := ih2 _ _ h2
            exact ⟨nmul _ _ (nocc _ hocc) d1, nmul _ _ (nocc _ hocc) d2⟩
        · split at h
          · rename_i hocc
            cases h1 : linear x e1 with
            | none => rw [h1] at h; cases h
            | some p1 =>
              rw [h1] at h
              simp only [Option.map_some, Option.some.injEq, Prod.mk.injEq] at h
              obtain ⟨rfl, rfl⟩ := h
              obtain ⟨d1, d2⟩ := ih1 _ _ h1
              exact ⟨nmul _ _ (nocc _ hocc) d1, nmul _ _ (nocc _ hocc) d2⟩
          · cases h
  | _ =>
    unfold linear at h
    split at h
    · cases h; exact ⟨hx1, hx⟩
    · split at h
      · cases h; exact ⟨hx, nocc _ (by assumption)⟩
      · cases h

/-- **C68** Isolating a derivative: the left-hand side is that derivative, and it does not occur in the right-hand side. -/
theorem C68_solved {decideEq : Ex → Ex → Option Bool} (l r u v y : Ex) (vars : List (Str × ℕ))
    (h : isolate decideEq l r (.deriv y vars) = some (.ok (.eq u v))) : u = .deriv y vars ∧ ¬ Occurs (.deriv y vars) v := by
  unfold isolate solveLinear at h
  cases hl : linear (.deriv y vars) (.add l (Util.neg r)) with
  | none => rw [hl] at h; cases h
  | some p =>
    obtain ⟨a, b⟩ := p
    rw [hl] at h
    simp only at h
    obtain ⟨fa, fb⟩ := linear_free _ _ a b (by intro h; cases h) (by intro h; cases h) hl (by simp)
    split at h
    · cases h
    · cases h
    · rename_i w ws hv
      split at hv
      · cases hv
        simp only [Option.some.injEq, Except.ok.injEq] at h
        unfold mkEq at h
        split at h
        · cases h
        · cases h
          refine ⟨rfl, fun ho => ?_⟩
          cases ho with
          | mulL _ ho =>
            cases ho with
            | mulL _ ho => cases ho
            | mulR _ ho => exact fb ho
          | mulR _ ho =>
            cases ho with
            | pow _ ho => exact fa ho
      · cases hv

/-- `dV/dt + 2 V = E` solved for `dV/dt`. -/
example : isolate (fun _ _ => none) (.add (.deriv exU [("t".toList, 1)]) (.mul (.num 2) exU)) (.ex exX)
    (.deriv exU [("t".toList, 1)]) ≠ none := by decide +kernel

/-- The coefficient of `dV/dt` in `dV/dt + 2 V = E` is invertible in the ring of smooth random fields. -/
example : ∃ e, isolate structural (.add (.deriv exU [("t".toList, 1)]) (.mul (.num 2) exU)) (.ex exX)
    (.deriv exU [("t".toList, 1)]) = some (.ok e) ∧
    (Sat PKF.waves e ↔ Sat PKF.waves (.eq (.add (.deriv exU [("t".toList, 1)]) (.mul (.num 2) exU)) (.ex exX))) := by
  have hf : ∀ e, occurs (.deriv exU [("t".toList, 1)]) e = false → ¬ Occurs (.deriv exU [("t".toList, 1)]) e :=
    fun e h => by rw [← occurs_iff, h]; simp
  obtain ⟨a, b, e, hl, -, hi, hs⟩ := C68_isolate (S := PKF.waves) (decideEq := structural) structural_truly
    (.add (.deriv exU [("t".toList, 1)]) (.mul (.num 2) exU)) (.ex exX) (.deriv exU [("t".toList, 1)])
    (.add (.add .self (.free _ (hf _ (by decide +kernel)))) (.free _ (hf _ (by decide +kernel)))) (.inl (.addL _ (.refl _)))
  refine ⟨e, hi, hs ?_⟩
  have ha : a = .add (.add (.num 1) (.num 0)) (.num 0) := by
    have : linear (.deriv exU [("t".toList, 1)]) (.add (.add (.deriv exU [("t".toList, 1)]) (.mul (.num 2) exU))
        (Util.neg (.ex exX))) = some (.add (.add (.num 1) (.num 0)) (.num 0), .add (.add (.num 0) (.mul (.num 2) exU))
        (Util.neg (.ex exX))) := by decide +kernel
    exact (Prod.mk.inj (Option.some.inj (hl.symm.trans this))).1
  have hone : den PKF.waves a = 1 := by rw [ha]; simp [den]
  rw [hone, one_mul]
  funext ω
  show Smooth.power 1 (-1) = 1
  unfold Smooth.power
  have h1 : ∀ p, 0 < ((1 : Smooth.F ℝ) : ℝ → ℝ) p := fun p => one_pos
  rw [if_neg (by decide +kernel), dif_pos h1]
  apply Smooth.ext
  intro p
  show (1 : ℝ) ^ ((-1 : ℚ) : ℝ) = 1
  exact Real.one_rpow _

/-! ## C69 -/

/-- **C69** The comparison of two expressions splits their terms. -/
theorem C69_compare (e1 e2 : Ex) :
    (∀ t, t ∈ terms (expand e1) ↔ t ∈ common e1 e2 ∨ t ∈ (specific e1 e2).1) ∧
    (∀ t, t ∈ terms (expand e2) ↔ t ∈ common e1 e2 ∨ t ∈ (specific e1 e2).2) ∧
    (common e1 e2).Disjoint (specific e1 e2).1 ∧ (common e1 e2).Disjoint (specific e1 e2).2 ∧
    (specific e1 e2).1.Disjoint (specific e1 e2).2 ∧
    ((specific e1 e2 = ([], [])) ↔ ∀ t, t ∈ terms (expand e1) ↔ t ∈ terms (expand e2)) := by
  have hc : ∀ t, t ∈ common e1 e2 ↔ t ∈ terms (expand e1) ∧ t ∈ terms (expand e2) := by
    intro t; simp [common, termSet]
  have h1 : ∀ t, t ∈ (specific e1 e2).1 ↔ t ∈ terms (expand e1) ∧ t ∉ terms (expand e2) := by
    intro t
    simp only [specific, termSet, List.mem_filter, List.mem_dedup, decide_eq_true_eq, hc]
    tauto
  have h2 : ∀ t, t ∈ (specific e1 e2).2 ↔ t ∈ terms (expand e2) ∧ t ∉ terms (expand e1) := by
    intro t
    simp only [specific, termSet, List.mem_filter, List.mem_dedup, decide_eq_true_eq, hc]
    tauto
  refine ⟨fun t => by rw [hc, h1]; tauto, fun t => by rw [hc, h2]; tauto, ?_, ?_, ?_, ?_⟩
  · intro t a b; rw [hc] at a; rw [h1] at b; exact b.2 a.2
  · intro t a b; rw [hc] at a; rw [h2] at b; exact b.2 a.1
  · intro t a b; rw [h1] at a; rw [h2] at b; exact b.2 a.1
  · rw [Prod.ext_iff]
    simp only [List.eq_nil_iff_forall_not_mem, h1, h2]
    constructor
    · rintro ⟨a, b⟩ t
      have := a t; have := b t
      tauto
    · intro h
      exact ⟨fun t ht => ht.2 ((h t).1 ht.1), fun t ht => ht.2 ((h t).2 ht.1)⟩

theorem den_terms (e : Ex) : den S e = ((terms e).map (den S)).sum := by
  induction e with
  | add a b iha ihb => simp only [terms, den, List.map_append, List.sum_append, iha, ihb]
  | _ => simp [terms]

/-- **C69** Meaning: expressions whose terms are collected (no term is repeated, as SymPy guarantees) and that have no specific
term are equal in every valuation. -/
theorem C69_equal (hS : Stochastic S A) (e1 e2 : Ex) (h1 : (terms (expand e1)).Nodup) (h2 : (terms (expand e2)).Nodup)
    (h : specific e1 e2 = ([], [])) : den S e1 = den S e2 := by
  have hp : (terms (expand e1)).Perm (terms (expand e2)) :=
    (List.perm_ext_iff_of_nodup h1 h2).2 ((C69_compare e1 e2).2.2.2.2.2.1 h)
  rw [← den_expand hS e1, ← den_expand hS e2, den_terms, den_terms (expand e2)]
  exact (hp.map _).sum_eq

example : common (.add exU exX) (.add exX (.num 1)) = [exX] ∧ specific (.add exU exX) (.add exX (.num 1)) = ([exU], [.num 1]) := by
  decide +kernel

/-! ## C70 -/

/-- A function, an elementary function or an expectation occurring in `e`, with the symbols among its arguments. -/
inductive HasFunction : Ex → List Str → Prop
  | fn (u : Str) (args : List Str) : HasFunction (.fn u args) args
  | func (g : Str) (s : Str) : HasFunction (.func g (.sym s)) [s]
  | func' (g : Str) (a : Ex) (h : ∀ s, a ≠ .sym s) : HasFunction (.func g a) []
  | ex (s : Str) : HasFunction (.ex (.sym s)) [s]
  | ex' (a : Ex) (h : ∀ s, a ≠ .sym s) : HasFunction (.ex a) []

theorem mem_functions (e : Ex) (l : List Str) :
    (∃ u, (u, l) ∈ functions e) ↔ ∃ a, Occurs a e ∧ HasFunction a l := by
  induction e with
  | num q => simp only [functions, List.not_mem_nil, exists_const, false_iff]; rintro ⟨a, h, h'⟩; cases h; cases h'
  | sym q => simp only [functions, List.not_mem_nil, exists_const, false_iff]; rintro ⟨a, h, h'⟩; cases h; cases h'
  | other q => simp only [functions, List.not_mem_nil, exists_const, false_iff]; rintro ⟨a, h, h'⟩; cases h; cases h'
  | fn u args =>
    simp only [functions, List.mem_singleton, Prod.mk.injEq]
    constructor
    · rintro ⟨_, rfl, rfl⟩; exact ⟨_, .refl _, .fn _ _⟩
    · rintro ⟨a, h, h'⟩; cases h; cases h'; exact ⟨_, rfl, rfl⟩
  | func g a ih =>
    simp only [functions, List.mem_cons, Prod.mk.injEq]
    constructor
    · rintro ⟨u, ⟨rfl, rfl⟩ | h⟩
      · refine ⟨_, .refl _, ?_⟩
        cases a with
        | sym s => exact .func _ _
        | _ => exact .func' _ _ (by simp)
      · obtain ⟨b, h1, h2⟩ := ih.1 ⟨u, h⟩
        exact ⟨b, .func g h1, h2⟩
    · rintro ⟨b, h, h'⟩
      cases h with
      | refl =>
        refine ⟨g, .inl ⟨rfl, ?_⟩⟩
        cases h' with
        | func _ s => rfl
        | func' _ _ hn =>
          cases a with
          | sym s => exact absurd rfl (hn s)
          | _ => rfl
      | func _ h =>
        obtain ⟨u, hu⟩ := ih.2 ⟨b, h, h'⟩
        exact ⟨u, .inr hu⟩
  | ex a ih =>
    simp only [functions, List.mem_cons, Prod.mk.injEq]
    constructor
    · rintro ⟨u, ⟨rfl, rfl⟩ | h⟩
      · refine ⟨_, .refl _, ?_⟩
        cases a with
        | sym s => exact .ex _
        | _ => exact .ex' _ (by simp)
      · obtain ⟨b, h1, h2⟩ := ih.1 ⟨u, h⟩
        exact ⟨b, .ex h1, h2⟩
    · rintro ⟨b, h, h'⟩
      cases h with
      | refl =>
        refine ⟨_, .inl ⟨rfl, ?_⟩⟩
        cases h' with
        | ex s => rfl
        | ex' _ hn =>
          cases a with
          | sym s => exact absurd rfl (hn s)
          | _ => rfl
      | ex h =>
        obtain ⟨u, hu⟩ := ih.2 ⟨b, h, h'⟩
        exact ⟨u, .inr hu⟩
  | add a b iha ihb =>
    simp only [functions, List.mem_append]
    constructor
    · rintro ⟨u, h | h⟩
      · obtain ⟨c, h1, h2⟩ := iha.1 ⟨u, h⟩; exact ⟨c, .addL _ h1, h2⟩
      · obtain ⟨c, h1, h2⟩ := ihb.1 ⟨u, h⟩; exact ⟨c, .addR _ h1, h2⟩
    · rintro ⟨c, h, h'⟩
      cases h with
      | refl => cases h'
      | addL _ h => obtain ⟨u, hu⟩ := iha.2 ⟨c, h, h'⟩; exact ⟨u, .inl hu⟩
      | addR _ h => obtain ⟨u, hu⟩ := ihb.2 ⟨c, h, h'⟩; exact ⟨u, .inr hu⟩
  | mul a b iha ihb =>
    simp only [functions, List.mem_append]
    constructor
    · rintro ⟨u, h | h⟩
      · obtain ⟨c, h1, h2⟩ := iha.1 ⟨u, h⟩; exact ⟨c, .mulL _ h1, h2⟩
      · obtain ⟨c, h1, h2⟩ := ihb.1 ⟨u, h⟩; exact ⟨c, .mulR _ h1, h2⟩
    · rintro ⟨c, h, h'⟩
      cases h with
      | refl => cases h'
      | mulL _ h => obtain ⟨u, hu⟩ := iha.2 ⟨c, h, h'⟩; exact ⟨u, .inl hu⟩
      | mulR _ h => obtain ⟨u, hu⟩ := ihb.2 ⟨c, h, h'⟩; exact ⟨u, .inr hu⟩
  | pow a q ih =>
    simp only [functions, ih]
    constructor
    · rintro ⟨b, h, h'⟩; exact ⟨b, .pow q h, h'⟩
    · rintro ⟨b, h, h'⟩
      cases h with
      | refl => cases h'
      | pow _ h => exact ⟨b, h, h'⟩
  | deriv a q ih =>
    simp only [functions, ih]
    constructor
    · rintro ⟨b, h, h'⟩; exact ⟨b, .deriv q h, h'⟩
    · rintro ⟨b, h, h'⟩
      cases h with
      | refl => cases h'
      | deriv _ h => exact ⟨b, h, h'⟩
  | integ a q ih =>
    simp only [functions, ih]
    constructor
    · rintro ⟨b, h, h'⟩; exact ⟨b, .integ q h, h'⟩
    · rintro ⟨b, h, h'⟩
      cases h with
      | refl => cases h'
      | integ _ h => exact ⟨b, h, h'⟩

/-- A field fits a coordinate system: every function of the field has all the coordinates among its arguments. -/
def Fits (coords : List Str) (e : Ex) : Prop := ∀ a l, Occurs a e → HasFunction a l → ∀ x ∈ coords, x ∈ l

theorem checkCompatible_iff (coords : List Str) (e : Ex) :
    (checkCompatible coords e = .ok () ↔ Fits coords e) ∧ (checkCompatible coords e = .error .valueError ↔ ¬ Fits coords e) := by
  have key : (functions e).all (fun f => coords.all (fun x => x ∈ f.2)) = true ↔ Fits coords e := by
    simp only [List.all_eq_true, decide_eq_true_eq]
    constructor
    · intro h a l h1 h2 x hx
      obtain ⟨u, hu⟩ := (mem_functions e l).2 ⟨a, h1, h2⟩
      exact h _ hu x hx
    · rintro h ⟨u, l⟩ hu x hx
      obtain ⟨a, h1, h2⟩ := (mem_functions e l).1 ⟨u, hu⟩
      exact h a l h1 h2 x hx
  unfold checkCompatible
  by_cases hf : Fits coords e
  · rw [if_pos (key.2 hf)]; simp [hf]
  · rw [if_neg (fun h => hf (key.1 h))]; simp [hf]

/-- **C70** `gradient`: one derivative per coordinate, in order; `ValueError` exactly for fields that do not fit. -/
theorem C70_gradient (coords : List Str) (e : Ex) :
    (Fits coords e → ∃ g, gradient coords e = .ok g ∧ g.map (den S) = coords.map (fun x => S.D x (den S e))) ∧
    (¬ Fits coords e ↔ gradient coords e = .error .valueError) := by
  unfold gradient
  by_cases hf : Fits coords e
  · simp only [(checkCompatible_iff coords e).1.2 hf, bind, Except.bind, pure, Except.pure]
    refine ⟨fun _ => ⟨_, rfl, ?_⟩, by simp [hf]⟩
    rw [List.map_map]
    rfl
  · simp only [(checkCompatible_iff coords e).2.2 hf, bind, Except.bind]
    exact ⟨fun h => absurd h hf, by simp [hf]⟩

theorem den_sum (l : List Ex) (a : Ex) : den S (l.foldl .add a) = den S a + (l.map (den S)).sum := by
  induction l generalizing a with
  | nil => simp
  | cons b l ih => rw [List.foldl_cons, ih, List.map_cons, List.sum_cons]; simp only [den]; ring

theorem forM_check (coords : List Str) (v : List Ex) :
    ((∀ e ∈ v, Fits coords e) → v.forM (checkCompatible coords) = .ok ()) ∧
    (¬ (∀ e ∈ v, Fits coords e) → v.forM (checkCompatible coords) = .error .valueError) := by
  induction v with
  | nil => simp [pure, Except.pure]
  | cons e v ih =>
    simp only [List.forM, bind, Except.bind]
    by_cases hf : Fits coords e
    · simp only [(checkCompatible_iff coords e).1.2 hf, List.forall_mem_cons, hf, true_and]
      exact ih
    · simp only [(checkCompatible_iff coords e).2.2 hf, List.forall_mem_cons, hf, false_and, not_false_eq_true]
      exact ⟨fun h => h.elim, fun _ => trivial⟩

/-- **C70** `div`: sum of the derivative of each component with respect to its coordinate; `ValueError` exactly when a component
does not fit. -/
theorem C70_div (coords : List Str) (v : List Ex) :
    ((∀ e ∈ v, Fits coords e) → ∃ d, div coords v = .ok d ∧
      den S d = (v.zipWith (fun e x => S.D x (den S e)) coords).sum) ∧
    (¬ (∀ e ∈ v, Fits coords e) ↔ div coords v = .error .valueError) := by
  unfold div
  by_cases hf : ∀ e ∈ v, Fits coords e
  · simp only [(forM_check coords v).1 hf, bind, Except.bind, pure, Except.pure]
    refine ⟨fun _ => ⟨_, rfl, ?_⟩, by simp; exact hf⟩
    rw [sum, den_sum, List.map_zipWith]
    simp only [den, map_zero, zero_add]
    rfl
  · simp only [(forM_check coords v).2 hf, bind, Except.bind]
    exact ⟨fun h => absurd h hf, by simp [hf]⟩

/-- **C70** The divergence of the gradient is the Laplacian. -/
theorem C70_laplacian (coords : List Str) (e : Ex) (hf : Fits coords e) :
    ∃ g d, gradient coords e = .ok g ∧ div coords g = .ok d ∧ den S d = laplacian S coords (den S e) := by
  have hg : gradient coords e = .ok (coords.map (derivative e)) := by
    unfold gradient
    simp only [(checkCompatible_iff coords e).1.2 hf, bind, Except.bind, pure, Except.pure]
  have hfit : ∀ a ∈ coords.map (derivative e), Fits coords a := by
    intro a ha
    obtain ⟨x, -, rfl⟩ := List.mem_map.1 ha
    intro b l hb hl
    cases hb with
    | refl => cases hl
    | deriv _ hb => exact hf b l hb hl
  obtain ⟨d, hd, hd'⟩ := (C70_div (S := S) coords (coords.map (derivative e))).1 hfit
  refine ⟨_, d, hg, hd, ?_⟩
  rw [hd']
  unfold laplacian
  congr 1
  have key : ∀ l : List Str, ((l.map (derivative e)).zipWith (fun e x => S.D x (den S e)) l) =
      l.map (fun x => S.D x (S.D x (den S e))) := by
    intro l
    induction l with
    | nil => rfl
    | cons x l ih => rw [List.map_cons, List.zipWith_cons_cons, List.map_cons, ih]; rfl
  exact key coords

/-- **C70** The components beyond the number of coordinates are silently ignored (`zip`). -/
theorem C70_truncation (coords : List Str) (v w : List Ex) (h : v.length = coords.length)
    (hf : ∀ e ∈ v ++ w, Fits coords e) : div coords (v ++ w) = div coords v := by
  unfold div
  rw [(forM_check coords _).1 hf, (forM_check coords v).1 (fun e he => hf e (List.mem_append_left _ he))]
  have : (v ++ w).zipWith derivative coords = v.zipWith derivative coords := by
    have := List.zipWith_append (f := derivative) (l₁ := v) (l₁' := w) (l₂ := coords) (l₂' := []) h
    simpa using this
  rw [this]

example : gradient ["x".toList] exU = .ok [.deriv exU [("x".toList, 1)]] := by decide +kernel
example : gradient ["y".toList] exU = .error .valueError := by decide +kernel
/-- `sin(u(t, x))` is rejected although it is a field of `x`. -/
example : gradient ["x".toList] (.func "sin".toList exU) = .error .valueError := by decide +kernel
example : Fits ["x".toList] (.mul exU exU) := by
  rw [← (checkCompatible_iff _ _).1]; decide +kernel

/-! ## C71 -/

theorem sum_triangle (n : ℕ) : 2 * ((List.range n).map (fun i => n - i)).sum = n * (n + 1) := by
  induction n with
  | zero => rfl
  | succ n ih =>
    rw [List.range_succ, List.map_append, List.sum_append]
    have h : (List.range n).map (fun i => n + 1 - i) = (List.range n).map (fun i => (n - i) + 1) := by
      apply List.map_congr_left
      intro i hi
      have := List.mem_range.1 hi
      omega
    rw [h, List.sum_map_add]
    simp only [List.map_const', List.length_range, List.sum_replicate, smul_eq_mul, mul_one, List.map_cons, List.map_nil,
      List.sum_cons, List.sum_nil]
    have : n + 1 - n = 1 := by omega
    rw [this]
    linarith

/-- **C71** `upper_triangle` lists exactly the entries `(i, j)`, `i <= j`, row by row. -/
theorem C71_upper_triangle {α : Type} (n m : ℕ) (a : ℕ → ℕ → α) :
    upperTriangle n m a = (((List.range n).flatMap (fun i => (List.range m).map (fun j => (i, j)))).filter
      (fun p => p.1 ≤ p.2)).map (fun p => a p.1 p.2) := by
  have hr : ∀ i m : ℕ, (List.range m).filter (fun j => decide (i ≤ j)) = List.range' i (m - i) := by
    intro i m
    induction m with
    | zero => simp
    | succ m ih =>
      rw [List.range_succ, List.filter_append, ih]
      by_cases h : i ≤ m
      · rw [List.filter_cons_of_pos (by simpa using h), show m + 1 - i = (m - i) + 1 by omega, List.range'_concat]
        simp only [List.filter_nil, one_mul]
        rw [show i + (m - i) = m by omega]
      · rw [List.filter_cons_of_neg (by simpa using h), show m + 1 - i = m - i by omega]
        simp
  unfold upperTriangle
  rw [List.filter_flatMap, List.map_flatMap]
  congr 1
  funext i
  rw [List.filter_map, List.map_map, ← hr]
  rfl

/-- **C71** A square matrix of size `n` has `n (n + 1) / 2` of them. -/
theorem C71_length {α : Type} (n : ℕ) (a : ℕ → ℕ → α) : (upperTriangle n n a).length = n * (n + 1) / 2 := by
  unfold upperTriangle
  rw [List.length_flatMap]
  simp only [List.length_map, List.length_range']
  have := sum_triangle n
  omega

/-- **C71** A symmetric matrix is determined by its upper triangle. -/
theorem C71_determined {α : Type} (n : ℕ) (a b : ℕ → ℕ → α) (ha : ∀ i j, a i j = a j i) (hb : ∀ i j, b i j = b j i)
    (h : upperTriangle n n a = upperTriangle n n b) (i j : ℕ) (hi : i < n) (hj : j < n) : a i j = b i j := by
  have key : ∀ i j, i ≤ j → j < n → a i j = b i j := by
    intro i j hij hj
    rw [C71_upper_triangle, C71_upper_triangle] at h
    have := (List.map_inj_left.1 h) (i, j) (by
      simp only [List.mem_filter, List.mem_flatMap, List.mem_range, List.mem_map, Prod.mk.injEq, decide_eq_true_eq]
      exact ⟨⟨i, by omega, j, hj, rfl, rfl⟩, hij⟩)
    exact this
  rcases le_total i j with hij | hij
  · exact key i j hij hj
  · rw [ha, hb]; exact key j i hij hi

example : upperTriangle 3 3 (fun i j => (i, j)) = [(0, 0), (0, 1), (0, 2), (1, 1), (1, 2), (2, 2)] := by decide
example : upperTriangle 3 2 (fun i j => (i, j)) = [(0, 0), (0, 1), (1, 1)] := by decide

/-! ## C72 -/

theorem partialOrders_eq (vars : List (Str × ℕ)) (h : (vars.map (·.1)).Nodup) : partialOrders vars = vars := by
  have key : ∀ (l d : List (Str × ℕ)), ((d ++ l).map (·.1)).Nodup →
      l.foldl (fun (d : Dict Str ℕ) v => d.set v.1 v.2) d = d ++ l := by
    intro l
    induction l with
    | nil => intro d _; simp
    | cons v l ih =>
      intro d hd
      have hset : ∀ d : Dict Str ℕ, v.1 ∉ d.map (·.1) → d.set v.1 v.2 = d ++ [v] := by
        intro d
        induction d with
        | nil => intro _; rfl
        | cons w d ihd =>
          intro hw
          simp only [List.map_cons, List.mem_cons, not_or] at hw
          simp only [Dict.set]
          rw [if_neg (fun h => hw.1 h.symm), ihd hw.2]
          rfl
      have hv : v.1 ∉ d.map (·.1) := by
        rw [List.map_append, List.nodup_append] at hd
        intro h
        exact hd.2.2 _ h _ (by simp) rfl
      rw [List.foldl_cons, hset d hv, ih (d ++ [v]) (by simpa using hd)]
      simp
  exact key vars [] (by simpa using h)

/-- **C72** `get_derivative_partial_orders` maps each variable to its order, and nothing else (the variables of a SymPy
derivative are distinct). -/
theorem C72_partial_orders (vars : List (Str × ℕ)) (h : (vars.map (·.1)).Nodup) (x : Str) (n : ℕ) :
    (partialOrders vars).get? x = some n ↔ (x, n) ∈ vars := by
  rw [partialOrders_eq vars h]
  induction vars with
  | nil => simp [Dict.get?]
  | cons v vars ih =>
    obtain ⟨y, k⟩ := v
    simp only [List.map_cons, List.nodup_cons] at h
    simp only [Dict.get?, List.mem_cons, Prod.mk.injEq]
    by_cases hy : y = x
    · subst hy
      rw [if_pos rfl, Option.some.injEq]
      constructor
      · intro hk; exact .inl ⟨rfl, hk.symm⟩
      · rintro (⟨-, hk⟩ | hk)
        · exact hk.symm
        · exact absurd (List.mem_map_of_mem (f := (·.1)) hk) h.1
    · rw [if_neg hy, ih h.2]
      constructor
      · exact .inr
      · rintro (⟨hx, -⟩ | hk)
        · exact absurd hx.symm hy
        · exact hk

/-- **C72** `get_total_order` is the sum of the orders. -/
theorem C72_total_order (vars : List (Str × ℕ)) (h : (vars.map (·.1)).Nodup) : totalOrder vars = (vars.map (·.2)).sum := by
  unfold totalOrder
  rw [partialOrders_eq vars h]

example : totalOrder [("x".toList, 2), ("y".toList, 4)] = 6 := by decide

end Sympkf.Util
