import Verif.Model.Pkf
import Verif.Lemmas.Poly

/-!
# Properties of all factors of a polynomial
-/

set_option autoImplicit false

namespace Sympkf.Rand

open Text

/-- Every factor of every term has the property. -/
def AllF (Q : Ex → ℚ → Prop) (p : Poly) : Prop := ∀ t ∈ p, ∀ f ∈ t.1, Q f.1 f.2

/-- Every factor of the monomial has the property. -/
def AllM (Q : Ex → ℚ → Prop) (m : Mono) : Prop := ∀ f ∈ m, Q f.1 f.2

variable {Q : Ex → ℚ → Prop}

theorem AllF.nil : AllF Q [] := by intro t h; cases h
theorem AllM.nil : AllM Q [] := by intro t h; cases h
theorem AllM.cons {f : Ex × ℚ} {m : Mono} (hf : Q f.1 f.2) (hm : AllM Q m) : AllM Q (f :: m) := by
  intro g hg
  rcases List.mem_cons.1 hg with rfl | hg
  · exact hf
  · exact hm g hg
theorem AllM.head {f : Ex × ℚ} {m : Mono} (h : AllM Q (f :: m)) : Q f.1 f.2 := h f (by simp)
theorem AllM.tail {f : Ex × ℚ} {m : Mono} (h : AllM Q (f :: m)) : AllM Q m := fun g hg => h g (by simp [hg])
theorem AllF.cons {t : Mono × ℚ} {p : Poly} (ht : AllM Q t.1) (hp : AllF Q p) : AllF Q (t :: p) := by
  intro g hg
  rcases List.mem_cons.1 hg with rfl | hg
  · exact ht
  · exact hp g hg
theorem AllF.head {t : Mono × ℚ} {p : Poly} (h : AllF Q (t :: p)) : AllM Q t.1 := h t (by simp)
theorem AllF.tail {t : Mono × ℚ} {p : Poly} (h : AllF Q (t :: p)) : AllF Q p := fun g hg => h g (by simp [hg])

/-- The property allows products. -/
def MulOK (Q : Ex → ℚ → Prop) : Prop := ∀ a p q, Q a p → Q a q → Q a (p + q)

theorem allM_mulAtom (hQ : MulOK Q) (a : Ex) (q : ℚ) (m : Mono) (ha : Q a q) (hm : AllM Q m) : AllM Q (mulAtom a q m) := by
  induction m with
  | nil => exact AllM.cons ha .nil
  | cons f m ih =>
    obtain ⟨b, p⟩ := f
    unfold mulAtom
    split
    · rename_i h; subst h
      split
      · exact hm.tail
      · exact AllM.cons (hQ _ _ _ hm.head ha) hm.tail
    · split
      · exact AllM.cons ha hm
      · exact AllM.cons hm.head (ih hm.tail)

theorem allM_monoMul (hQ : MulOK Q) (m m' : Mono) (hm : AllM Q m) (hm' : AllM Q m') : AllM Q (monoMul m m') := by
  induction m with
  | nil => exact hm'
  | cons f m ih => exact allM_mulAtom hQ _ _ _ hm.head (ih hm.tail)

theorem allF_addTerm (m : Mono) (c : ℚ) (p : Poly) (hm : AllM Q m) (hp : AllF Q p) : AllF Q (addTerm m c p) := by
  induction p with
  | nil =>
    unfold addTerm
    split
    · exact .nil
    · exact AllF.cons hm .nil
  | cons t p ih =>
    obtain ⟨n, d⟩ := t
    unfold addTerm
    split
    · split
      · exact hp.tail
      · exact AllF.cons hp.head hp.tail
    · split
      · exact hp
      · split
        · exact AllF.cons hm hp
        · exact AllF.cons hp.head (ih hp.tail)

theorem allF_padd (p q : Poly) (hp : AllF Q p) (hq : AllF Q q) : AllF Q (padd p q) := by
  induction p with
  | nil => exact hq
  | cons t p ih => exact allF_addTerm _ _ _ hp.head (ih hp.tail)

theorem allF_pconst (c : ℚ) : AllF Q (pconst c) := by
  unfold pconst
  split
  · exact .nil
  · exact AllF.cons .nil .nil

theorem allF_patom (a : Ex) (h : Q a 1) : AllF Q (patom a) := AllF.cons (AllM.cons h .nil) .nil

theorem allF_pmulTerm (hQ : MulOK Q) (m : Mono) (c : ℚ) (q : Poly) (hm : AllM Q m) (hq : AllF Q q) :
    AllF Q (pmulTerm m c q) := by
  induction q with
  | nil => exact .nil
  | cons t q ih => exact allF_addTerm _ _ _ (allM_monoMul hQ _ _ hm hq.head) (ih hq.tail)

theorem allF_pmul (hQ : MulOK Q) (p q : Poly) (hp : AllF Q p) (hq : AllF Q q) : AllF Q (pmul p q) := by
  induction p with
  | nil => exact .nil
  | cons t p ih => exact allF_padd _ _ (allF_pmulTerm hQ _ _ _ hp.head hq) (ih hp.tail)

theorem allF_ppowN (hQ : MulOK Q) (p : Poly) (n : ℕ) (hp : AllF Q p) : AllF Q (ppowN p n) := by
  induction n with
  | zero => exact allF_pconst 1
  | succ n ih => exact allF_pmul hQ _ _ hp ih

/-- The property allows derivatives with respect to `x`. -/
structure DiffOK (Q : Ex → ℚ → Prop) (x : Str) : Prop where
  pred : ∀ a q, Q a q → q ≠ 0 → q ≠ 1 → Q a (q - 1)
  diff : ∀ a q, Q a q → AllF Q (diffAtom x a)

theorem allF_diffMono (hQ : MulOK Q) (x : Str) (hx : DiffOK Q x) (m : Mono) (hm : AllM Q m) : AllF Q (diffMono x m) := by
  induction m with
  | nil => exact .nil
  | cons f m ih =>
    obtain ⟨a, q⟩ := f
    refine allF_padd _ _ ?_ (allF_pmul hQ _ _ (AllF.cons (AllM.cons hm.head .nil) .nil) (ih hm.tail))
    refine allF_pmul hQ _ _ ?_ (AllF.cons hm.tail .nil)
    by_cases h0 : q = 0
    · subst h0
      have : pconst 0 = [] := by simp [pconst]
      rw [this]
      exact .nil
    · refine allF_pmul hQ _ _ (allF_pmul hQ _ _ (allF_pconst q) ?_) (hx.diff a q hm.head)
      split
      · exact allF_pconst 1
      · rename_i h1
        exact AllF.cons (AllM.cons (hx.pred a q hm.head h0 h1) .nil) .nil

theorem allF_pdiff (hQ : MulOK Q) (x : Str) (hx : DiffOK Q x) (p : Poly) (hp : AllF Q p) : AllF Q (pdiff x p) := by
  induction p with
  | nil => exact .nil
  | cons t p ih =>
    exact allF_padd _ _ (allF_pmul hQ _ _ (allF_pconst _) (allF_diffMono hQ x hx _ hp.head)) (ih hp.tail)

theorem allF_pdiffs (hQ : MulOK Q) (vars : List (Str × ℕ)) (hv : ∀ v ∈ vars, DiffOK Q v.1) (p : Poly) (hp : AllF Q p) :
    AllF Q (pdiffs vars p) := by
  induction vars generalizing p with
  | nil => exact hp
  | cons v vars ih =>
    refine ih (fun v h => hv v (by simp [h])) _ ?_
    have hx : DiffOK Q v.1 := hv v (by simp)
    show AllF Q ((pdiff v.1)^[v.2] p)
    generalize v.2 = n
    clear hv ih
    induction n generalizing p with
    | zero => exact hp
    | succ n ih => rw [Function.iterate_succ_apply]; exact ih _ (allF_pdiff hQ v.1 hx p hp)

/-- A property of expressions that holds for products and sums. -/
structure ExprOK (G : Ex → Prop) : Prop where
  num : ∀ q, G (.num q)
  add : ∀ a b, G a → G b → G (.add a b)
  mul : ∀ a b, G a → G b → G (.mul a b)

theorem exprOK_prod {G : Ex → Prop} (hG : ExprOK G) (l : List Ex) (h : ∀ a ∈ l, G a) : G (prod l) := by
  induction l with
  | nil => exact hG.num 1
  | cons a l ih =>
    cases l with
    | nil => exact h a (by simp)
    | cons b l => exact hG.mul _ _ (h a (by simp)) (ih (fun c hc => h c (by simp [hc])))

theorem exprOK_monoEx {G : Ex → Prop} (hG : ExprOK G) (hf : ∀ a q, Q a q → G (factorEx (a, q))) (m : Mono) (hm : AllM Q m) :
    G (monoEx m) := by
  apply exprOK_prod hG
  intro a ha
  obtain ⟨f, h, rfl⟩ := List.mem_map.1 ha
  exact hf f.1 f.2 (hm f h)

theorem exprOK_toEx {G : Ex → Prop} (hG : ExprOK G) (hf : ∀ a q, Q a q → G (factorEx (a, q))) (p : Poly) (hp : AllF Q p) :
    G (toEx p) := by
  have term : ∀ t : Mono × ℚ, AllM Q t.1 → G (termEx t) := by
    intro t ht
    unfold termEx
    split
    · exact exprOK_monoEx hG hf _ ht
    · split
      · exact hG.num _
      · exact hG.mul _ _ (hG.num _) (exprOK_monoEx hG hf _ ht)
  induction p with
  | nil => exact hG.num 0
  | cons t p ih =>
    cases p with
    | nil => exact term t hp.head
    | cons t' p => exact hG.add _ _ (term t hp.head) (ih hp.tail)

/-- A property of expressions that passes to arguments, products, sums, powers, functions and derivatives with respect to `x`. -/
structure Hereditary (G : Ex → Prop) : Prop extends ExprOK G where
  func : ∀ g h a, (dfunc g).isSome → (dfunc h).isSome → G (.func g a) → G a ∧ G (.func h a)
  add_inv : ∀ a b, G (.add a b) → G a ∧ G b
  mul_inv : ∀ a b, G (.mul a b) → G a ∧ G b
  pow : ∀ a q, G (.pow a q) ↔ G a

theorem dfunc_closed {G : Ex → Prop} (hG : ExprOK G) (hp : ∀ a q, G a → G (.pow a q)) {g : Str} {d : (Ex → Ex) × (Ex → Ex)}
    (hg : dfunc g = some d) (a : Ex) (ha : G a) (f : ∀ h, (dfunc h).isSome → G (.func h a)) : G (d.1 a) ∧ G (d.2 a) := by
  have fsin : G (.func "sin".toList a) := f _ (by decide +kernel)
  have fcos : G (.func "cos".toList a) := f _ (by decide +kernel)
  have fsinh : G (.func "sinh".toList a) := f _ (by decide +kernel)
  have fcosh : G (.func "cosh".toList a) := f _ (by decide +kernel)
  have t0 : G (.func g a) := f _ (by rw [hg]; rfl)
  have t1 : ∀ b, G b → G (.add (.num 1) (.pow b 2)) := fun b hb => hG.add _ _ (hG.num 1) (hp _ _ hb)
  have t2 : ∀ b, G b → G (.add (.num 1) (.mul (.num (-1)) (.pow b 2))) := fun b hb =>
    hG.add _ _ (hG.num 1) (hG.mul _ _ (hG.num _) (hp _ _ hb))
  cases isElementary hg with
  | exp => exact ⟨t0, t0⟩
  | sin => exact ⟨fcos, hG.mul _ _ (hG.num _) fsin⟩
  | cos => exact ⟨hG.mul _ _ (hG.num _) fsin, hG.mul _ _ (hG.num _) fcos⟩
  | sinh => exact ⟨fcosh, fsinh⟩
  | cosh => exact ⟨fsinh, fcosh⟩
  | tan => exact ⟨t1 _ t0, hG.mul _ _ (hG.num _) (hG.mul _ _ t0 (t1 _ t0))⟩
  | tanh => exact ⟨t2 _ t0, hG.mul _ _ (hG.num _) (hG.mul _ _ t0 (t2 _ t0))⟩
  | log => exact ⟨hp _ _ ha, hG.mul _ _ (hG.num _) (hp _ _ ha)⟩
  | atan => exact ⟨hp _ _ (t1 _ ha), hG.mul _ _ (hG.num _) (hG.mul _ _ ha (hp _ _ (t1 _ ha)))⟩

theorem Hereditary.dfunc {G : Ex → Prop} (hG : Hereditary G) {g : Str} {d : (Ex → Ex) × (Ex → Ex)} (hg : dfunc g = some d) (a : Ex)
    (ha : G (.func g a)) : G a ∧ G (d.1 a) ∧ G (d.2 a) := by
  have hs : (Rand.dfunc g).isSome := by rw [hg]; rfl
  have h0 : G a := (hG.func g g a hs hs ha).1
  exact ⟨h0, dfunc_closed hG.toExprOK (fun a q h => (hG.pow a q).2 h) hg a h0 (fun h hh => (hG.func g h a hs hh ha).2)⟩

theorem hereditary_toEx {G : Ex → Prop} (hG : Hereditary G) (p : Poly) (hp : AllF (fun a _ => G a) p) : G (toEx p) := by
  refine exprOK_toEx hG.toExprOK (fun a q h => ?_) p hp
  unfold factorEx
  split
  · exact h
  · exact (hG.pow a q).2 h

theorem hereditary_ppow {G : Ex → Prop} (hG : Hereditary G) (p : Poly) (q : ℚ) (hp : AllF (fun a _ => G a) p) :
    AllF (fun a _ => G a) (ppow p q) := by
  have at' : AllF (fun a _ => G a) (patom (.pow (toEx p) q)) := allF_patom _ ((hG.pow _ _).2 (hereditary_toEx hG p hp))
  unfold ppow
  split
  · exact allF_ppowN (fun _ _ _ h _ => h) _ _ hp
  · split
    · split
      · exact .cons (.cons hp.head.head .nil) .nil
      · exact at'
    · exact at'

theorem hereditary_reEx {G : Ex → Prop} (hG : Hereditary G) (a : Ex) (ha : G a) : AllF (fun a _ => G a) (reEx a) := by
  induction a with
  | num q => exact allF_pconst q
  | add a b iha ihb => exact allF_padd _ _ (iha (hG.add_inv _ _ ha).1) (ihb (hG.add_inv _ _ ha).2)
  | mul a b iha ihb => exact allF_pmul (fun _ _ _ h _ => h) _ _ (iha (hG.mul_inv _ _ ha).1) (ihb (hG.mul_inv _ _ ha).2)
  | pow a q ih => exact hereditary_ppow hG _ _ (ih ((hG.pow a q).1 ha))
  | _ => exact allF_patom _ ha

/-- Atoms whose derivatives are not evaluated. -/
def isOpaque : Ex → Bool
  | .func g _ => (dfunc g).isNone
  | .fn _ _ => true
  | .integ _ _ => true
  | .ex _ => true
  | .other _ => true
  | _ => false

/-- Such properties allow derivatives. -/
theorem Hereditary.diffOK {G : Ex → Prop} (hG : Hereditary G) (x : Str)
    (hb : ∀ b vars, G (.deriv b vars) → G (.deriv b (bumpVar x vars))) (h1 : ∀ a, isOpaque a = true → G a → G (.deriv a [(x, 1)])) :
    DiffOK (fun a _ => G a) x := by
  have mul : MulOK (fun a (_ : ℚ) => G a) := fun _ _ _ h _ => h
  refine ⟨fun a q h _ _ => h, fun a _ h => ?_⟩
  induction a with
  | num => exact .nil
  | sym s =>
    simp only [diffAtom]
    split
    · exact allF_pconst 1
    · exact .nil
  | func g a ih =>
    simp only [diffAtom]
    split
    · rename_i hg
      obtain ⟨h0, h1, -⟩ := hG.dfunc hg a h
      exact allF_pmul mul _ _ (hereditary_reEx hG _ h1) (ih h0)
    · rename_i hg
      exact allF_patom _ (h1 _ (by simp [isOpaque, hg]) h)
  | add a b iha ihb => exact allF_padd _ _ (iha (hG.add_inv _ _ h).1) (ihb (hG.add_inv _ _ h).2)
  | mul a b iha ihb =>
    obtain ⟨ha, hb⟩ := hG.mul_inv _ _ h
    exact allF_padd _ _ (allF_pmul mul _ _ (iha ha) (hereditary_reEx hG b hb)) (allF_pmul mul _ _ (hereditary_reEx hG a ha) (ihb hb))
  | pow a q ih =>
    have ha := (hG.pow a q).1 h
    exact allF_pmul mul _ _ (allF_pmul mul _ _ (allF_pconst _) (hereditary_ppow hG _ _ (hereditary_reEx hG a ha))) (ih ha)
  | deriv b vars =>
    simp only [diffAtom]
    split
    · exact .nil
    · exact allF_patom _ (hb _ _ h)
  | _ =>
    simp only [diffAtom]
    split
    · exact .nil
    · exact allF_patom _ (h1 _ rfl h)

end Sympkf.Rand
