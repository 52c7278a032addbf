import Verif.Lemmas.Unclosed

/-!
# Lemmas: expectations of polynomials of random functions are in normal form
-/

set_option autoImplicit false

namespace Sympkf.Spec

open Text Rand PKF Pkf

/-! ## Sorted monomials -/

/-- The factors are sorted. -/
def SortedM (m : Mono) : Prop := m.Pairwise (fun f g => ltNat (code f.1) (code g.1) = true)

/-- The factors of every term are sorted. -/
def SortedP (p : Poly) : Prop := ∀ t ∈ p, SortedM t.1

theorem SortedP.nil : SortedP [] := by intro t h; cases h
theorem SortedP.cons {t : Mono × ℚ} {p : Poly} (ht : SortedM t.1) (hp : SortedP p) : SortedP (t :: p) := by
  intro g hg
  rcases List.mem_cons.1 hg with rfl | hg
  · exact ht
  · exact hp g hg
theorem SortedP.head {t : Mono × ℚ} {p : Poly} (h : SortedP (t :: p)) : SortedM t.1 := h t (by simp)
theorem SortedP.tail {t : Mono × ℚ} {p : Poly} (h : SortedP (t :: p)) : SortedP p := fun g hg => h g (by simp [hg])

theorem SortedM.nil : SortedM [] := List.Pairwise.nil
theorem SortedM.one (f : Ex × ℚ) : SortedM [f] := List.pairwise_singleton _ _

theorem mem_mulAtom (a : Ex) (q : ℚ) (m : Mono) (f : Ex × ℚ) (hf : f ∈ mulAtom a q m) : f.1 = a ∨ ∃ g ∈ m, g.1 = f.1 := by
  induction m with
  | nil => left; rw [mulAtom, List.mem_singleton] at hf; rw [hf]
  | cons g m ih =>
    obtain ⟨b, p⟩ := g
    unfold mulAtom at hf
    split at hf
    · split at hf
      · exact .inr ⟨f, by simp [hf], rfl⟩
      · rcases List.mem_cons.1 hf with h | h
        · exact .inr ⟨(b, p), by simp, by rw [h]⟩
        · exact .inr ⟨f, by simp [h], rfl⟩
    · split at hf
      · rcases List.mem_cons.1 hf with h | h
        · left; rw [h]
        · exact .inr ⟨f, h, rfl⟩
      · rcases List.mem_cons.1 hf with h | h
        · exact .inr ⟨(b, p), by simp, by rw [h]⟩
        · rcases ih h with h | ⟨g, hg, e⟩
          · exact .inl h
          · exact .inr ⟨g, by simp [hg], e⟩

theorem sorted_mulAtom (a : Ex) (q : ℚ) (m : Mono) (hm : SortedM m) : SortedM (mulAtom a q m) := by
  induction m with
  | nil => exact .one _
  | cons g m ih =>
    obtain ⟨b, p⟩ := g
    obtain ⟨h1, h2⟩ := List.pairwise_cons.1 hm
    unfold mulAtom
    split
    · split
      · exact h2
      · exact List.pairwise_cons.2 ⟨h1, h2⟩
    · rename_i hne
      split
      · rename_i hlt
        refine List.pairwise_cons.2 ⟨fun g hg => ?_, hm⟩
        rcases List.mem_cons.1 hg with rfl | hg
        · exact hlt
        · exact ltNat_trans _ _ _ hlt (h1 g hg)
      · rename_i hlt
        refine List.pairwise_cons.2 ⟨fun g hg => ?_, ih h2⟩
        rcases mem_mulAtom a q m g hg with e | ⟨g', hg', e⟩
        · show ltNat (code b) (code g.1) = true
          rw [e]
          exact (code_total hne).resolve_left hlt
        · show ltNat (code b) (code g.1) = true
          rw [← e]; exact h1 g' hg'

theorem sorted_monoMul (m m' : Mono) (hm' : SortedM m') : SortedM (monoMul m m') := by
  induction m with
  | nil => exact hm'
  | cons f m ih => exact sorted_mulAtom _ _ _ ih

theorem sorted_addTerm (m : Mono) (c : ℚ) (p : Poly) (hm : SortedM m) (hp : SortedP p) : SortedP (addTerm m c p) := by
  induction p with
  | nil =>
    unfold addTerm
    split
    · exact .nil
    · exact .cons hm .nil
  | cons t p ih =>
    obtain ⟨n, d⟩ := t
    unfold addTerm
    split
    · split
      · exact hp.tail
      · exact .cons hp.head hp.tail
    · split
      · exact hp
      · split
        · exact .cons hm hp
        · exact .cons hp.head (ih hp.tail)

theorem sorted_padd (p q : Poly) (hp : SortedP p) (hq : SortedP q) : SortedP (padd p q) := by
  induction p with
  | nil => exact hq
  | cons t p ih => exact sorted_addTerm _ _ _ hp.head (ih hp.tail)

theorem sorted_pconst (c : ℚ) : SortedP (pconst c) := by
  unfold pconst
  split
  · exact .nil
  · exact .cons .nil .nil

theorem sorted_patom (a : Ex) : SortedP (patom a) := .cons (.one _) .nil

theorem sorted_pmulTerm (m : Mono) (c : ℚ) (q : Poly) (hq : SortedP q) : SortedP (pmulTerm m c q) := by
  induction q with
  | nil => exact .nil
  | cons t q ih => exact sorted_addTerm _ _ _ (sorted_monoMul _ _ hq.head) (ih hq.tail)

theorem sorted_pmul (p q : Poly) (hq : SortedP q) : SortedP (pmul p q) := by
  induction p with
  | nil => exact .nil
  | cons t p ih => exact sorted_padd _ _ (sorted_pmulTerm _ _ _ hq) ih

theorem sorted_ppowN (p : Poly) (n : ℕ) : SortedP (ppowN p n) := by
  induction n with
  | zero => exact sorted_pconst 1
  | succ n ih => exact sorted_pmul _ _ ih

theorem sorted_ppow (p : Poly) (q : ℚ) : SortedP (ppow p q) := by
  unfold ppow
  split
  · exact sorted_ppowN _ _
  · split
    · split
      · exact .cons (.one _) .nil
      · exact sorted_patom _
    · exact sorted_patom _

theorem sorted_reEx (e : Ex) : SortedP (reEx e) := by
  induction e with
  | num q => exact sorted_pconst q
  | add a b iha ihb => exact sorted_padd _ _ iha ihb
  | mul a b iha ihb => exact sorted_pmul _ _ ihb
  | pow a q ih => exact sorted_ppow _ _
  | _ => exact sorted_patom _

theorem sorted_diffAtom (x : Str) (e : Ex) : SortedP (diffAtom x e) := by
  induction e with
  | num q => exact .nil
  | sym s => simp only [diffAtom]; split; exacts [sorted_pconst 1, .nil]
  | add a b iha ihb => exact sorted_padd _ _ iha ihb
  | mul a b iha ihb => exact sorted_padd _ _ (sorted_pmul _ _ (sorted_reEx b)) (sorted_pmul _ _ ihb)
  | pow a q ih => exact sorted_pmul _ _ ih
  | func g a ih => simp only [diffAtom]; split; exacts [sorted_pmul _ _ ih, sorted_patom _]
  | _ => simp only [diffAtom]; split; exacts [.nil, sorted_patom _]

theorem sorted_diffMono (x : Str) (m : Mono) (hm : SortedM m) : SortedP (diffMono x m) := by
  induction m with
  | nil => exact .nil
  | cons f m ih =>
    have h2 := (List.pairwise_cons.1 hm).2
    exact sorted_padd _ _ (sorted_pmul _ _ (.cons h2 .nil)) (sorted_pmul _ _ (ih h2))

theorem sorted_pdiff (x : Str) (p : Poly) (hp : SortedP p) : SortedP (pdiff x p) := by
  induction p with
  | nil => exact .nil
  | cons t p ih => exact sorted_padd _ _ (sorted_pmul _ _ (sorted_diffMono x _ hp.head)) (ih hp.tail)

theorem sorted_pdiffs (vars : List (Str × ℕ)) (p : Poly) (hp : SortedP p) : SortedP (pdiffs vars p) := by
  induction vars generalizing p with
  | nil => exact hp
  | cons v vars ih =>
    refine ih _ ?_
    show SortedP ((pdiff v.1)^[v.2] p)
    generalize v.2 = n
    induction n generalizing p with
    | zero => exact hp
    | succ n ih => rw [Function.iterate_succ_apply]; exact ih _ (sorted_pdiff v.1 p hp)

theorem sorted_expectTerm (t : Mono × ℚ) (ht : SortedM t.1) : SortedP (expectTerm t) := by
  unfold expectTerm
  simp only []
  split
  · exact .cons ht .nil
  · split <;> exact sorted_pmulTerm _ _ _ (sorted_patom _)
  · split <;> exact sorted_pmulTerm _ _ _ (sorted_patom _)
  · exact sorted_pmulTerm _ _ _ (sorted_patom _)

theorem sorted_pexpect (p : Poly) (hp : SortedP p) : SortedP (pexpect p) := by
  induction p with
  | nil => exact .nil
  | cons t p ih => exact sorted_padd _ _ (sorted_expectTerm t hp.head) (ih hp.tail)

/-- The normal form is sorted. -/
theorem sorted_ofEx (e : Ex) : SortedP (ofEx e) := by
  induction e with
  | num q => exact sorted_pconst q
  | add a b iha ihb => exact sorted_padd _ _ iha ihb
  | mul a b iha ihb => exact sorted_pmul _ _ ihb
  | pow a q ih => exact sorted_ppow _ _
  | deriv a vars ih => exact sorted_pdiffs _ _ ih
  | ex a ih => exact sorted_pexpect _ ih
  | _ => exact sorted_patom _

theorem sorted_subst (old : Ex) (new : Poly) (hn : SortedP new) (e : Ex) : SortedP (subst old new e) := by
  induction e with
  | num q => unfold subst; split; exacts [hn, sorted_pconst q]
  | add a b iha ihb => unfold subst; split; exacts [hn, sorted_padd _ _ iha ihb]
  | mul a b iha ihb => unfold subst; split; exacts [hn, sorted_pmul _ _ ihb]
  | pow a q ih => unfold subst; split; exacts [hn, sorted_ppow _ _]
  | deriv a vars ih =>
    unfold subst
    split
    · exact hn
    · simp only []
      split
      · exact sorted_pdiffs _ _ hn
      · exact sorted_pdiffs _ _ ih
  | ex a ih => unfold subst; split; exacts [hn, sorted_pexpect _ ih]
  | _ => unfold subst; split; exacts [hn, sorted_patom _]

/-! ## Degrees -/

/-- The degree of an atom in the random functions. -/
def wt : Ex → ℚ
  | .fn _ args => if omega ∈ args then 1 else 0
  | .deriv (.fn _ args) _ => if omega ∈ args then 1 else 0
  | _ => 0

/-- The degree of a monomial, for given degrees of the atoms. -/
def degBy (w : Ex → ℚ) (m : Mono) : ℚ := (m.map (fun f => w f.1 * f.2)).sum

theorem degBy_cons (w : Ex → ℚ) (f : Ex × ℚ) (m : Mono) : degBy w (f :: m) = w f.1 * f.2 + degBy w m := by simp [degBy]
theorem degBy_nil (w : Ex → ℚ) : degBy w [] = 0 := rfl

theorem degBy_mulAtom (w : Ex → ℚ) (a : Ex) (q : ℚ) (m : Mono) : degBy w (mulAtom a q m) = w a * q + degBy w m := by
  induction m with
  | nil => rw [mulAtom, degBy_cons]
  | cons f m ih =>
    obtain ⟨b, p⟩ := f
    unfold mulAtom
    split
    · rename_i h; subst h
      split
      · rename_i h0
        rw [degBy_cons]
        have : w a * q + w a * p = 0 := by rw [← mul_add, add_comm q p, h0, mul_zero]
        linarith
      · rw [degBy_cons, degBy_cons]; simp only; ring
    · split
      · rw [degBy_cons]
      · rw [degBy_cons, degBy_cons, ih]; simp only; ring

theorem degBy_monoMul (w : Ex → ℚ) (m m' : Mono) : degBy w (monoMul m m') = degBy w m + degBy w m' := by
  induction m with
  | nil => rw [degBy_nil, zero_add]; rfl
  | cons f m ih =>
    show degBy w (mulAtom f.1 f.2 (monoMul m m')) = _
    rw [degBy_mulAtom, ih, degBy_cons, add_assoc]

/-- The degree of a monomial in the random functions. -/
abbrev wdeg (m : Mono) : ℚ := degBy wt m

theorem wdeg_cons (f : Ex × ℚ) (m : Mono) : wdeg (f :: m) = wt f.1 * f.2 + wdeg m := degBy_cons wt f m
theorem wdeg_nil : wdeg [] = 0 := rfl

/-- Every monomial has the property. -/
def AllMono (P : Mono → Prop) (p : Poly) : Prop := ∀ t ∈ p, P t.1

theorem AllMono.nil {P : Mono → Prop} : AllMono P [] := by intro t h; cases h
theorem AllMono.cons {P : Mono → Prop} {t : Mono × ℚ} {p : Poly} (ht : P t.1) (hp : AllMono P p) : AllMono P (t :: p) := by
  intro g hg
  rcases List.mem_cons.1 hg with rfl | hg
  · exact ht
  · exact hp g hg
theorem AllMono.head {P : Mono → Prop} {t : Mono × ℚ} {p : Poly} (h : AllMono P (t :: p)) : P t.1 := h t (by simp)
theorem AllMono.tail {P : Mono → Prop} {t : Mono × ℚ} {p : Poly} (h : AllMono P (t :: p)) : AllMono P p := fun g hg => h g (by simp [hg])

theorem allMono_addTerm {P : Mono → Prop} (m : Mono) (c : ℚ) (p : Poly) (hm : P m) (hp : AllMono P p) : AllMono P (addTerm m c p) := by
  induction p with
  | nil =>
    unfold addTerm
    split
    · exact .nil
    · exact .cons hm .nil
  | cons t p ih =>
    obtain ⟨n, d⟩ := t
    unfold addTerm
    split
    · split
      · exact hp.tail
      · exact .cons hp.head hp.tail
    · split
      · exact hp
      · split
        · exact .cons hm hp
        · exact .cons hp.head (ih hp.tail)

theorem allMono_padd {P : Mono → Prop} (p q : Poly) (hp : AllMono P p) (hq : AllMono P q) : AllMono P (padd p q) := by
  induction p with
  | nil => exact hq
  | cons t p ih => exact allMono_addTerm _ _ _ hp.head (ih hp.tail)

theorem allMono_pmul {P P' P'' : Mono → Prop} (h : ∀ m m', P m → P' m' → P'' (monoMul m m')) (p q : Poly) (hp : AllMono P p)
    (hq : AllMono P' q) : AllMono P'' (pmul p q) := by
  have term : ∀ m c (q : Poly), P m → AllMono P' q → AllMono P'' (pmulTerm m c q) := by
    intro m c q hm hq
    induction q with
    | nil => exact .nil
    | cons t q ih => exact allMono_addTerm _ _ _ (h _ _ hm hq.head) (ih hq.tail)
  induction p with
  | nil => exact .nil
  | cons t p ih => exact allMono_padd _ _ (term _ _ _ hp.head hq) (ih hp.tail)

/-- The degree of the polynomial is at most `n`, for given degrees of the atoms. -/
def BdBy (w : Ex → ℚ) (n : ℚ) (p : Poly) : Prop := AllMono (fun m => degBy w m ≤ n) p

/-- The degree of the polynomial in the random functions is at most `n`. -/
abbrev Bd (n : ℚ) (p : Poly) : Prop := BdBy wt n p

section
variable {w : Ex → ℚ}

theorem BdBy.mono {n n' : ℚ} (h : n ≤ n') {p : Poly} (hp : BdBy w n p) : BdBy w n' p := fun t ht => le_trans (hp t ht) h

theorem bd_pconst (n c : ℚ) (h : 0 ≤ n) : BdBy w n (pconst c) := by
  unfold pconst
  split
  · exact .nil
  · exact .cons (by simpa [degBy] using h) .nil

theorem bd_patom (n : ℚ) (a : Ex) (h : w a ≤ n) : BdBy w n (patom a) := .cons (by simpa [degBy] using h) .nil

theorem bd_pmul {n i j : ℚ} (h : i + j ≤ n) (p q : Poly) (hp : BdBy w i p) (hq : BdBy w j q) : BdBy w n (pmul p q) :=
  allMono_pmul (fun m m' h1 h2 => by rw [degBy_monoMul]; exact le_trans (add_le_add h1 h2) h) p q hp hq

theorem bd_ppowN {m : ℚ} (p : Poly) (k : ℕ) (hp : BdBy w m p) : BdBy w (k * m) (ppowN p k) := by
  induction k with
  | zero => exact bd_pconst _ 1 (by simp)
  | succ k ih => exact bd_pmul (by push_cast; linarith) _ _ hp ih

theorem bd_diffMono (x : Str) (m : Mono) (hm : ∀ f ∈ m, BdBy w (w f.1) (diffAtom x f.1)) : BdBy w (degBy w m) (diffMono x m) := by
  induction m with
  | nil => exact .nil
  | cons f m ih =>
    obtain ⟨a, q⟩ := f
    rw [degBy_cons]
    refine allMono_padd _ _ ?_ (bd_pmul (le_refl _) _ _ (.cons (by simp [degBy]) .nil) (ih (fun f hf => hm f (by simp [hf]))))
    refine bd_pmul (le_refl _) _ _ ?_ (.cons (le_refl _) .nil)
    refine bd_pmul (i := w a * (q - 1)) (j := w a) (by simp only; linarith) _ _ ?_ (hm (a, q) (by simp))
    refine bd_pmul (i := 0) (by rw [zero_add]) _ _ (bd_pconst 0 q (le_refl _)) ?_
    split
    · rename_i h
      rw [h]
      exact bd_pconst _ 1 (by simp)
    · exact .cons (by simp [degBy]) .nil

theorem bd_pdiff {n : ℚ} (x : Str) (p : Poly) (h : AllF (fun a _ => BdBy w (w a) (diffAtom x a)) p) (hp : BdBy w n p) :
    BdBy w n (pdiff x p) := by
  induction p with
  | nil => exact .nil
  | cons t p ih =>
    refine allMono_padd _ _ ?_ (ih h.tail hp.tail)
    refine bd_pmul (i := 0) (by rw [zero_add]) _ _ (bd_pconst 0 _ (le_refl _)) ((bd_diffMono x t.1 ?_).mono hp.head)
    exact fun f hf => h.head f hf

end

/-! ## Expressions of bounded degree -/

/-- A bound on the degree in the random functions (with their derivatives); expectations have the degree zero, their arguments the
degree two at most, or they are expectations of a function. -/
def Po : Ex → ℚ → Prop
  | .num _, n => 0 ≤ n
  | .sym s, n => s ≠ omega ∧ 0 ≤ n
  | .fn _ args, n => (if omega ∈ args then 1 else 0) ≤ n
  | .func _ a, n => Po a 0 ∧ 0 ≤ n
  | .add x y, n => Po x n ∧ Po y n
  | .mul x y, n => ∃ i j, i + j ≤ n ∧ Po x i ∧ Po y j
  | .pow a q, n => 0 ≤ n ∧ ((∃ m, isNat q = true ∧ 0 < q ∧ q * m ≤ n ∧ Po a m) ∨ Po a 0)
  | .deriv a vars, n => Po a n ∧ ∀ v ∈ vars, v.1 ≠ omega
  | .integ a x, n => Po a 0 ∧ x ≠ omega ∧ 0 ≤ n
  | .ex a, n => 0 ≤ n ∧ (Po a 2 ∨ ∃ u args, a = .fn u args ∧ omega ∈ args)
  | .other _, _ => False

theorem Po.nonneg {e : Ex} {n : ℚ} (h : Po e n) : 0 ≤ n := by
  induction e generalizing n with
  | num => exact h
  | sym => exact h.2
  | fn u args =>
    have h' : (if omega ∈ args then (1 : ℚ) else 0) ≤ n := h
    split at h' <;> linarith
  | func g a ih => exact h.2
  | add x y ihx ihy => exact ihx h.1
  | mul x y ihx ihy =>
    obtain ⟨i, j, hij, hx, hy⟩ := h
    exact le_trans (add_nonneg (ihx hx) (ihy hy)) hij
  | pow a q ih => exact h.1
  | deriv a vars ih => exact ih h.1
  | integ a x ih => exact h.2.2
  | ex a ih => exact h.1
  | other b => exact h.elim

theorem Po.up {e : Ex} {n n' : ℚ} (h : Po e n) (hn : n ≤ n') : Po e n' := by
  have h0 := le_trans h.nonneg hn
  induction e generalizing n n' with
  | num => exact h0
  | sym => exact ⟨h.1, h0⟩
  | fn u args => exact le_trans h hn
  | func g a ih => exact ⟨h.1, h0⟩
  | add x y ihx ihy => exact ⟨ihx h.1 hn h0, ihy h.2 hn h0⟩
  | mul x y ihx ihy =>
    obtain ⟨i, j, hij, hx, hy⟩ := h
    exact ⟨i, j, le_trans hij hn, hx, hy⟩
  | pow a q ih => exact ⟨h0, h.2.imp (fun ⟨m, h1, h2, h3, h4⟩ => ⟨m, h1, h2, le_trans h3 hn, h4⟩) id⟩
  | deriv a vars ih => exact ⟨ih h.1 hn h0, h.2⟩
  | integ a x ih => exact ⟨h.1, h.2.1, h0⟩
  | ex a ih => exact ⟨h0, h.2⟩
  | other b => exact h.elim

/-- The derivatives of a random function. -/
def FnA (a : Ex) : Prop := ∃ u args v, a = fnD u args (bumps v []) ∧ (∀ p ∈ v, p.1 ∈ args ∧ p.1 ≠ omega) ∧ omega ∈ args

/-- A product of derivatives of random functions. -/
def Product (r : Mono) : Prop := r ≠ [] ∧ SortedM r ∧ (∀ f ∈ r, FnA f.1 ∧ ∃ n : ℕ, f.2 = (n : ℚ) + 1) ∧ wdeg r ≤ 2

/-- An expectation in normal form. -/
def Canon (t : Ex) : Prop := Stable t ∧ ∃ r, t = .ex (monoEx r) ∧ Product r

/-- The random functions do not occur, and expectations are in normal form. -/
def Fr (a : Ex) : Prop := Po a 0 ∧ Exs Canon a

/-- The factors of such polynomials. -/
def Fac (a : Ex) (q : ℚ) : Prop := Fr a ∨ (FnA a ∧ ∃ n : ℕ, q = (n : ℚ) + 1)

/-- Polynomials of bounded degree in normal form. -/
def PN (n : ℚ) (p : Poly) : Prop := AllF Fac p ∧ Bd n p

theorem fr_hereditary : Hereditary Fr where
  num _ := ⟨le_refl _, exs_nil rfl⟩
  add _ _ h h' := ⟨⟨h.1, h'.1⟩, exs_add.2 ⟨h.2, h'.2⟩⟩
  mul _ _ h h' := ⟨⟨0, 0, by simp, h.1, h'.1⟩, exs_mul.2 ⟨h.2, h'.2⟩⟩
  func _ _ _ _ _ h := ⟨⟨h.1.1, h.2⟩, h⟩
  add_inv _ _ h := ⟨⟨h.1.1, (exs_add.1 h.2).1⟩, h.1.2, (exs_add.1 h.2).2⟩
  mul_inv _ _ h := by
    obtain ⟨⟨i, j, hij, hx, hy⟩, he⟩ := h
    have := hx.nonneg
    have := hy.nonneg
    exact ⟨⟨hx.up (by linarith), (exs_mul.1 he).1⟩, hy.up (by linarith), (exs_mul.1 he).2⟩
  pow _ q := by
    constructor
    · rintro ⟨⟨-, ⟨m, -, h2, h3, h4⟩ | h⟩, he⟩
      · have := h4.nonneg
        have hm : m ≤ 0 := by
          by_contra hc
          have := mul_pos h2 (lt_of_not_ge hc)
          linarith
        exact ⟨h4.up hm, he⟩
      · exact ⟨h, he⟩
    · exact fun h => ⟨⟨le_refl _, .inr h.1⟩, h.2⟩

theorem fac_mulOK : MulOK Fac := by
  rintro a p q (h | ⟨h, n, rfl⟩) h'
  · exact .inl h
  · rcases h' with h' | ⟨-, m, rfl⟩
    · exact .inl h'
    · exact .inr ⟨h, n + m + 1, by push_cast; ring⟩

theorem Fr.wt {a : Ex} (h : Fr a) : wt a = 0 := by
  have key : ∀ u args, Po (.fn u args) 0 → (if omega ∈ args then (1 : ℚ) else 0) = 0 := by
    intro u args h
    have h' : (if omega ∈ args then (1 : ℚ) else 0) ≤ 0 := h
    split at h'
    · linarith
    · rename_i ho; rw [if_neg ho]
  cases a with
  | fn u args => exact key u args h.1
  | deriv b vars =>
    cases b with
    | fn u args => exact key u args h.1.1
    | _ => rfl
  | _ => rfl

theorem FnA.wt {a : Ex} (h : FnA a) : wt a = 1 := by
  obtain ⟨u, args, v, rfl, -, ho⟩ := h
  unfold fnD
  split
  · exact if_pos ho
  · exact if_pos ho

theorem bd_of_fr {p : Poly} (h : AllF (fun a _ => Fr a) p) : Bd 0 p := by
  intro t ht
  have h1 := h t ht
  generalize t.1 = m at h1
  show wdeg m ≤ 0
  induction m with
  | nil => simp [degBy]
  | cons f m ih =>
    rw [wdeg_cons, (h1 f (by simp)).wt]
    have := ih (fun f hf => h1 f (by simp [hf]))
    linarith

theorem Fac.of {p : Poly} (h : AllF (fun a _ => Fr a) p) : AllF Fac p := fun t ht f hf => .inl (h t ht f hf)

theorem PN.of {n : ℚ} (hn : 0 ≤ n) {p : Poly} (h : AllF (fun a _ => Fr a) p) : PN n p := ⟨.of h, (bd_of_fr h).mono hn⟩

theorem wdeg_nonneg (m : Mono) (h : AllM Fac m) : 0 ≤ wdeg m := by
  induction m with
  | nil => simp [degBy]
  | cons f m ih =>
    rw [wdeg_cons]
    have := ih h.tail
    rcases h.head with h | ⟨h, n, e⟩
    · rw [h.wt]; linarith
    · rw [h.wt, e]; positivity

theorem mem_wdeg (m : Mono) (h : AllM Fac m) (f : Ex × ℚ) (hf : f ∈ m) : wt f.1 * f.2 ≤ wdeg m := by
  induction m with
  | nil => cases hf
  | cons g m ih =>
    rw [wdeg_cons]
    rcases List.mem_cons.1 hf with rfl | hf
    · have := wdeg_nonneg m h.tail
      linarith
    · have := ih h.tail hf
      have h0 : 0 ≤ wt g.1 * g.2 := by
        rcases h.head with h | ⟨h, n, e⟩
        · rw [h.wt]; simp
        · rw [h.wt, e]; positivity
      linarith

theorem PN.fr {p : Poly} (h : PN 0 p) : AllF (fun a _ => Fr a) p := by
  intro t ht f hf
  rcases h.1 t ht f hf with h' | ⟨h', n, e⟩
  · exact h'
  · exfalso
    have h1 := mem_wdeg t.1 (h.1 t ht) f hf
    rw [h'.wt, e] at h1
    have h2 := h.2 t ht
    have : (0 : ℚ) < 1 * ((n : ℚ) + 1) := by positivity
    linarith

theorem PN.up {n n' : ℚ} (hn : n ≤ n') {p : Poly} (h : PN n p) : PN n' p := ⟨h.1, h.2.mono hn⟩

theorem PN.nil {n : ℚ} : PN n [] := ⟨.nil, .nil⟩
theorem pn_padd {n : ℚ} {p q : Poly} (hp : PN n p) (hq : PN n q) : PN n (padd p q) := ⟨allF_padd _ _ hp.1 hq.1, allMono_padd _ _ hp.2 hq.2⟩
theorem pn_pmul {n i j : ℚ} (h : i + j ≤ n) {p q : Poly} (hp : PN i p) (hq : PN j q) : PN n (pmul p q) :=
  ⟨allF_pmul fac_mulOK _ _ hp.1 hq.1, bd_pmul h _ _ hp.2 hq.2⟩
theorem pn_pconst {n : ℚ} (hn : 0 ≤ n) (c : ℚ) : PN n (pconst c) := ⟨allF_pconst c, bd_pconst n c hn⟩
theorem pn_patom {n : ℚ} (hn : 0 ≤ n) {a : Ex} (h : Fr a) : PN n (patom a) := .of hn (allF_patom _ h)
theorem pn_fnA {n : ℚ} (hn : 1 ≤ n) {a : Ex} (h : FnA a) : PN n (patom a) :=
  ⟨allF_patom _ (.inr ⟨h, 0, by simp⟩), bd_patom n a (by rw [h.wt]; exact hn)⟩

theorem pn_ppow {n m q : ℚ} (hq : isNat q = true) (hm : q * m ≤ n) {p : Poly} (hp : PN m p) : PN n (ppow p q) := by
  unfold ppow
  rw [if_pos hq]
  refine ⟨allF_ppowN fac_mulOK _ _ hp.1, (bd_ppowN p _ hp.2).mono ?_⟩
  rw [← isNat_toNat hq]; exact hm

theorem bumps_append (v w vs : List (Str × ℕ)) : bumps (v ++ w) vs = bumps w (bumps v vs) := List.foldl_append

theorem diffAtom_fnD (u : Str) (args : List Str) (vs : List (Str × ℕ)) (x : Str) :
    diffAtom x (fnD u args vs) = if x ∈ args then patom (fnD u args (bumpVar x vs)) else [] := by
  have hne : bumpVar x vs ≠ [] := by
    cases vs with
    | nil => simp [bumpVar]
    | cons w vs =>
      obtain ⟨y, n⟩ := w
      unfold bumpVar
      split
      · simp
      · split <;> simp
  unfold fnD
  rw [if_neg hne]
  split
  · rename_i e
    subst e
    by_cases hm : x ∈ args <;> simp [diffAtom, constIn, hm, bumpVar]
  · by_cases hm : x ∈ args <;> simp [diffAtom, constIn, hm]

theorem FnA.diff {a : Ex} (h : FnA a) (x : Str) (hx : x ≠ omega) : diffAtom x a = [] ∨ ∃ a', FnA a' ∧ diffAtom x a = patom a' := by
  obtain ⟨u, args, v, rfl, hv, hL⟩ := h
  rw [diffAtom_fnD]
  split
  · rename_i hm
    right
    refine ⟨_, ⟨u, args, v ++ [(x, 1)], ?_, fun p hp => ?_, hL⟩, rfl⟩
    · rw [bumps_append]; rfl
    · rcases List.mem_append.1 hp with hp | hp
      · exact hv p hp
      · rw [List.mem_singleton] at hp; subst hp; exact ⟨hm, hx⟩
  · exact .inl rfl

theorem fr_diffOK (x : Str) (hx : x ≠ omega) : DiffOK (fun a (_ : ℚ) => Fr a) x := by
  refine fr_hereditary.diffOK x (fun c vars h => ⟨⟨h.1.1, fun v hv => ?_⟩, h.2⟩) (fun _ _ h => ⟨⟨h.1, by simpa using hx⟩, h.2⟩)
  rcases mem_bumpVar x vars v hv with e | ⟨w, hw, e⟩
  · rw [e]; exact hx
  · rw [← e]; exact h.1.2 w hw

theorem fac_diffOK (x : Str) (hx : x ≠ omega) : DiffOK Fac x := by
  constructor
  · rintro a q (h | ⟨h, n, rfl⟩) h0 h1
    · exact .inl h
    · refine .inr ⟨h, n - 1, ?_⟩
      cases n with
      | zero => simp at h1
      | succ n => simp
  · rintro a q (h | ⟨h, n, rfl⟩)
    · exact .of ((fr_diffOK x hx).diff a q h)
    · rcases h.diff x hx with e | ⟨a', h', e⟩
      · rw [e]; exact .nil
      · rw [e]; exact allF_patom _ (.inr ⟨h', 0, by simp⟩)

theorem fac_bd (x : Str) (hx : x ≠ omega) (a : Ex) (q : ℚ) (h : Fac a q) : Bd (wt a) (diffAtom x a) := by
  rcases h with h | ⟨h, -⟩
  · rw [h.wt]; exact bd_of_fr ((fr_diffOK x hx).diff a q h)
  · rw [h.wt]
    rcases h.diff x hx with e | ⟨a', h', e⟩
    · rw [e]; exact .nil
    · rw [e]; exact bd_patom _ _ (by rw [h'.wt])

theorem pn_pdiff {n : ℚ} (x : Str) (hx : x ≠ omega) {p : Poly} (hp : PN n p) : PN n (pdiff x p) :=
  ⟨allF_pdiff fac_mulOK x (fac_diffOK x hx) p hp.1, bd_pdiff x p (fun t ht f hf => fac_bd x hx f.1 f.2 (hp.1 t ht f hf)) hp.2⟩

theorem pn_pdiffs {n : ℚ} (vars : List (Str × ℕ)) (hv : ∀ v ∈ vars, v.1 ≠ omega) {p : Poly} (hp : PN n p) : PN n (pdiffs vars p) := by
  induction vars generalizing p with
  | nil => exact hp
  | cons v vars ih =>
    refine ih (fun v h => hv v (by simp [h])) ?_
    have hx := hv v (by simp)
    show PN n ((pdiff v.1)^[v.2] p)
    generalize v.2 = k
    clear ih hv
    induction k generalizing p with
    | zero => exact hp
    | succ k ih => rw [Function.iterate_succ_apply]; exact ih (pn_pdiff v.1 hx hp)

/-! ## Expectations -/

theorem po_det (a : Ex) (h : Po a 0) : israndom a = .ok false := by
  induction a with
  | num => rfl
  | sym s => simp [israndom, hasOmega, h.1]
  | fn u args =>
    have h' : (if omega ∈ args then (1 : ℚ) else 0) ≤ 0 := h
    split at h'
    · linarith
    · rename_i ho; simp [israndom, hasOmega, ho]
  | func g a ih => simp only [israndom]; split; exacts [rfl, ih h.1]
  | add x y ihx ihy => simp only [israndom]; split; exacts [rfl, by rw [ihx h.1, ihy h.2]; rfl]
  | mul x y ihx ihy =>
    obtain ⟨i, j, hij, hx, hy⟩ := h
    have := hx.nonneg
    have := hy.nonneg
    simp only [israndom]; split; exacts [rfl, by rw [ihx (hx.up (by linarith)), ihy (hy.up (by linarith))]; rfl]
  | pow a q ih =>
    have h0 : Po a 0 := by
      rcases h.2 with ⟨m, -, h2, h3, h4⟩ | h
      · have := h4.nonneg
        have hm : m ≤ 0 := by
          by_contra hc
          have := mul_pos h2 (lt_of_not_ge hc)
          linarith
        exact h4.up hm
      · exact h
    simp only [israndom]; split; exacts [rfl, by rw [ih h0]; rfl]
  | deriv a vars ih => simp only [israndom]; split; exacts [rfl, ih h.1]
  | integ a x ih => simp only [israndom]; split; exacts [rfl, ih h.1]
  | ex a ih => rfl
  | other b => exact h.elim

theorem FnA.rnd {a : Ex} (h : FnA a) : Rand.rnd a = true := by
  obtain ⟨u, args, v, rfl, -, ho⟩ := h
  exact fnD_rnd u args _ ho

theorem Fr.rnd {a : Ex} (h : Fr a) : Rand.rnd a = false := by
  unfold Rand.rnd
  rw [po_det a h.1]

theorem FnA.ofEx {a : Ex} (h : FnA a) : ofEx a = patom a := by
  obtain ⟨u, args, v, rfl, hv, -⟩ := h
  exact fnD_ofEx u args v (fun p hp => (hv p hp).1)

theorem FnA.exAtoms {a : Ex} (h : FnA a) : exAtoms a = [] := by
  obtain ⟨u, args, v, rfl, hv, -⟩ := h
  exact exAtoms_fnD _ _ _

theorem bumps_names (v vs : List (Str × ℕ)) (P : Str → Prop) (hv : ∀ p ∈ v, P p.1) (hvs : ∀ p ∈ vs, P p.1) : ∀ p ∈ bumps v vs, P p.1 := by
  induction v generalizing vs with
  | nil => exact hvs
  | cons w v ih =>
    refine ih _ (fun p hp => hv p (by simp [hp])) ?_
    show ∀ p ∈ (bumpVar w.1)^[w.2] vs, P p.1
    generalize hk : w.2 = n
    clear hk
    induction n generalizing vs with
    | zero => exact hvs
    | succ n ihn =>
      rw [Function.iterate_succ_apply]
      refine ihn _ (fun p hp => ?_)
      rcases mem_bumpVar w.1 vs p hp with e | ⟨q, hq, e⟩
      · rw [e]; exact hv w (by simp)
      · rw [← e]; exact hvs q hq

theorem FnA.po {a : Ex} (h : FnA a) : Po a 1 := by
  obtain ⟨u, args, v, rfl, hv, ho⟩ := h
  have h1 : Po (.fn u args) 1 := by
    show (if omega ∈ args then (1 : ℚ) else 0) ≤ 1
    rw [if_pos ho]
  unfold fnD
  split
  · exact h1
  · exact ⟨h1, bumps_names v [] (· ≠ omega) (fun p hp => (hv p hp).2) (by simp)⟩

theorem ppow_patom (a : Ex) (n : ℕ) : ppow (patom a) ((n : ℚ) + 1) = [([(a, (n : ℚ) + 1)], 1)] := by
  have hq : isNat ((n : ℚ) + 1) = true := (isNat_iff _).2 ⟨n + 1, by push_cast; rfl⟩
  have hn : (((n : ℚ) + 1).num.toNat) = n + 1 := by
    have := isNat_toNat hq
    exact_mod_cast this.symm
  unfold ppow
  rw [if_pos hq, hn]
  have : ∀ n : ℕ, ppowN (patom a) (n + 1) = [([(a, (n : ℚ) + 1)], 1)] := by
    intro n
    induction n with
    | zero => simp [ppowN, patom, pconst, pmul_single, monoMul, mulAtom]
    | succ n ih =>
      show pmul (patom a) (ppowN (patom a) (n + 1)) = _
      rw [ih]
      have hp : ((n : ℚ) + 1 + 1) ≠ 0 := by positivity
      unfold patom
      rw [pmul_single _ _ (by norm_num) _ _ (by norm_num)]
      simp [monoMul, mulAtom, hp]
  exact this n

theorem ofEx_factor {a : Ex} (h : FnA a) (n : ℕ) : ofEx (factorEx (a, (n : ℚ) + 1)) = [([(a, (n : ℚ) + 1)], 1)] := by
  unfold factorEx
  split
  · rename_i e
    show ofEx a = _
    rw [show ((n : ℚ) + 1) = 1 from e]
    exact h.ofEx
  · show ppow (ofEx a) ((n : ℚ) + 1) = _
    rw [h.ofEx, ppow_patom]

/-- Products of powers of derivatives are in normal form. -/
theorem ofEx_monoEx (r : Mono) (hr : ∀ f ∈ r, FnA f.1 ∧ ∃ n : ℕ, f.2 = (n : ℚ) + 1) (hs : SortedM r) (hne : r ≠ []) :
    ofEx (monoEx r) = [(r, 1)] := by
  induction r with
  | nil => exact absurd rfl hne
  | cons f r ih =>
    obtain ⟨a, q⟩ := f
    obtain ⟨hf, n, hq⟩ := hr (a, q) (by simp)
    simp only at hf hq
    subst hq
    cases r with
    | nil => exact ofEx_factor hf n
    | cons g r =>
      obtain ⟨b, p⟩ := g
      have e : monoEx ((a, (n : ℚ) + 1) :: (b, p) :: r) = .mul (factorEx (a, (n : ℚ) + 1)) (monoEx ((b, p) :: r)) := rfl
      rw [e]
      show pmul (ofEx _) (ofEx _) = _
      rw [ofEx_factor hf n, ih (fun f hf => hr f (by simp [hf])) (List.pairwise_cons.1 hs).2 (by simp),
        pmul_single _ _ (by norm_num) _ _ (by norm_num)]
      have hlt : ltNat (code a) (code b) = true := (List.pairwise_cons.1 hs).1 (b, p) (by simp)
      have hne' : a ≠ b := by
        rintro rfl
        rw [ltNat_irrefl] at hlt; cases hlt
      simp [monoMul, mulAtom, hne', hlt]

theorem exAtoms_prod (l : List Ex) (h : ∀ a ∈ l, exAtoms a = []) : exAtoms (prod l) = [] := by
  induction l with
  | nil => rfl
  | cons a l ih =>
    cases l with
    | nil => exact h a (by simp)
    | cons b l =>
      show exAtoms a ++ exAtoms (prod (b :: l)) = []
      rw [h a (by simp), ih (fun c hc => h c (by simp [hc]))]; rfl

theorem exAtoms_monoEx (r : Mono) (hr : ∀ f ∈ r, exAtoms f.1 = []) : exAtoms (monoEx r) = [] := by
  refine exAtoms_prod _ (fun a ha => ?_)
  obtain ⟨f, hf, rfl⟩ := List.mem_map.1 ha
  unfold factorEx
  split
  · exact hr f hf
  · exact hr f hf

theorem graded_monoEx {w : Ex → ℚ} {G : ℚ → Ex → Prop} (num : ∀ c, G 0 (.num c)) (mul : ∀ i j x y, G i x → G j y → G (i + j) (.mul x y))
    (m : Mono) (hm : AllM (fun a q => G (w a * q) (factorEx (a, q))) m) : G ((m.map (fun f => w f.1 * f.2)).sum) (monoEx m) := by
  induction m with
  | nil => exact num 1
  | cons f m ih =>
    cases m with
    | nil =>
      have h := hm.head
      show G ([w f.1 * f.2].sum) (factorEx f)
      rw [List.sum_singleton]; exact h
    | cons g m => exact mul _ _ _ _ hm.head (ih hm.tail)

theorem graded_termEx {w : Ex → ℚ} {G : ℚ → Ex → Prop} (num : ∀ c, G 0 (.num c)) (mul : ∀ i j x y, G i x → G j y → G (i + j) (.mul x y))
    (t : Mono × ℚ) (hm : AllM (fun a q => G (w a * q) (factorEx (a, q))) t.1) : G ((t.1.map (fun f => w f.1 * f.2)).sum) (termEx t) := by
  have h := graded_monoEx num mul t.1 hm
  unfold termEx
  split
  · exact h
  · split
    · rename_i e; rw [e]; exact num _
    · have := mul _ _ _ _ (num t.2) h
      rwa [zero_add] at this

theorem po_factor {a : Ex} {q : ℚ} (h : Fac a q) : Po (factorEx (a, q)) (wt a * q) ∧ Exs Canon (factorEx (a, q)) := by
  unfold factorEx
  rcases h with h | ⟨h, n, rfl⟩
  · rw [h.wt, zero_mul]
    split
    · exact h
    · exact (fr_hereditary.pow a q).2 h
  · rw [h.wt, one_mul]
    split
    · rename_i e
      simp only at e ⊢
      rw [e]; exact ⟨h.po, exs_nil h.exAtoms⟩
    · have hn : (0 : ℚ) < (n : ℚ) + 1 := by positivity
      exact ⟨⟨le_of_lt hn, .inl ⟨1, (isNat_iff _).2 ⟨n + 1, by push_cast; rfl⟩, hn, by simp, h.po⟩⟩, exs_nil h.exAtoms⟩

theorem po_monoEx (m : Mono) (hm : AllM Fac m) : Po (monoEx m) (wdeg m) ∧ Exs Canon (monoEx m) :=
  graded_monoEx (G := fun n e => Po e n ∧ Exs Canon e) (fun _ => ⟨le_refl _, exs_nil rfl⟩)
    (fun i j _ _ h h' => ⟨⟨i, j, le_refl _, h.1, h'.1⟩, exs_mul.2 ⟨h.2, h'.2⟩⟩) m (fun f hf => po_factor (hm f hf))

/-- The expression of a polynomial in normal form. -/
theorem po_toEx {n : ℚ} (hn : 0 ≤ n) (p : Poly) (hp : PN n p) : Po (toEx p) n ∧ Exs Canon (toEx p) := by
  have term : ∀ t ∈ p, Po (termEx t) n ∧ Exs Canon (termEx t) := by
    intro t ht
    have := graded_termEx (w := wt) (G := fun n e => Po e n ∧ Exs Canon e) (fun _ => ⟨le_refl _, exs_nil rfl⟩)
      (fun i j _ _ h h' => ⟨⟨i, j, le_refl _, h.1, h'.1⟩, exs_mul.2 ⟨h.2, h'.2⟩⟩) t (fun f hf => po_factor (hp.1 t ht f hf))
    exact ⟨this.1.up (hp.2 t ht), this.2⟩
  clear hp
  induction p with
  | nil => exact ⟨hn, exs_nil rfl⟩
  | cons t p ih =>
    cases p with
    | nil => exact term t (by simp)
    | cons t' p =>
      have h1 := term t (by simp)
      have h2 := ih (fun t ht => term t (by simp [ht]))
      exact ⟨⟨h1.1, h2.1⟩, exs_add.2 ⟨h1.2, h2.2⟩⟩

theorem pmulTerm_nil_patom (a : Ex) : pmulTerm [] 1 (patom a) = patom a := by simp [pmulTerm, patom, addTerm, monoMul]

/-- The general case of `Expectation.eval`. -/
theorem stable_mono (r : Mono) (hr : ∀ f ∈ r, FnA f.1 ∧ ∃ n : ℕ, f.2 = (n : ℚ) + 1) (hs : SortedM r) (hne : r ≠ [])
    (hd : ∀ u args vars, r ≠ [(.deriv (.fn u args) vars, 1)]) : Stable (.ex (monoEx r)) := by
  refine ⟨⟨_, rfl, exAtoms_monoEx r (fun f hf => (hr f hf).1.exAtoms)⟩, ?_⟩
  show pexpect (ofEx (monoEx r)) = _
  rw [ofEx_monoEx r hr hs hne]
  show padd (expectTerm (r, 1)) [] = _
  have h1 : r.filter (fun f => rnd f.1) = r := List.filter_eq_self.2 (fun f hf => (hr f hf).1.rnd)
  have h2 : r.filter (fun f => !rnd f.1) = [] := List.filter_eq_nil_iff.2 (fun f hf => by simp [(hr f hf).1.rnd])
  have h3 : expectTerm (r, 1) = patom (.ex (monoEx r)) := by
    unfold expectTerm
    simp only [h1, h2]
    split
    · exact absurd rfl hne
    · split
      · rename_i hq
        subst hq
        exact absurd rfl (hd _ _ _)
      · exact pmulTerm_nil_patom _
    · rename_i b x q
      obtain ⟨u, args, v, e, -⟩ := (hr (.integ b x, q) (by simp)).1
      unfold fnD at e
      split at e <;> cases e
    · exact pmulTerm_nil_patom _
  rw [h3, padd_patom_nil]

theorem stable_fn (u : Str) (args : List Str) (ho : omega ∈ args) : Stable (.ex (.fn u args)) :=
  ⟨⟨_, rfl, rfl⟩, ofEx_exFn u args ho⟩

theorem FnA.fn (u : Str) (args : List Str) (ho : omega ∈ args) : FnA (.fn u args) := ⟨u, args, [], rfl, by simp, ho⟩

theorem good_mono (r : Mono) (hr : Product r) (hd : ∀ u args vars, r ≠ [(.deriv (.fn u args) vars, 1)]) : Canon (.ex (monoEx r)) :=
  ⟨stable_mono r hr.2.2.1 hr.2.1 hr.1 hd, r, rfl, hr⟩

theorem fr_mono (r : Mono) (hr : Product r) (hd : ∀ u args vars, r ≠ [(.deriv (.fn u args) vars, 1)]) : Fr (.ex (monoEx r)) :=
  ⟨⟨le_refl _, .inl ((po_monoEx r (fun f hf => .inr (hr.2.2.1 f hf))).1.up hr.2.2.2)⟩,
    stable_exs (good_mono r hr hd).1 (good_mono r hr hd)⟩

theorem fr_exFn (u : Str) (args : List Str) (ho : omega ∈ args) : Fr (.ex (.fn u args)) := by
  refine fr_mono [(.fn u args, 1)] ⟨by simp, .one _, ?_, ?_⟩ (fun _ _ _ h => by simp at h)
  · intro f hf
    rw [List.mem_singleton] at hf
    subst hf
    exact ⟨.fn u args ho, 0, by simp⟩
  · rw [wdeg_cons, wdeg_nil, (FnA.fn u args ho).wt]; norm_num

theorem wdeg_filter (m : Mono) (hm : AllM Fac m) (f : Ex × ℚ → Bool) : wdeg (m.filter f) ≤ wdeg m := by
  induction m with
  | nil => exact le_refl _
  | cons g m ih =>
    have h0 : 0 ≤ wt g.1 * g.2 := by
      rcases hm.head with h | ⟨h, n, e⟩
      · rw [h.wt]; simp
      · rw [h.wt, e]; positivity
    have := ih hm.tail
    rw [List.filter_cons]
    split
    · rw [wdeg_cons, wdeg_cons]; linarith
    · rw [wdeg_cons]; linarith

theorem fr_pexpect (p : Poly) (hs : SortedP p) (hp : PN 2 p) : AllF (fun a _ => Fr a) (pexpect p) := by
  induction p with
  | nil => exact .nil
  | cons t p ih =>
    refine allF_padd _ _ ?_ (ih hs.tail ⟨hp.1.tail, hp.2.tail⟩)
    have m := mulOK_prop Fr
    have hd : AllM (fun a _ => Fr a) (t.1.filter (fun f => !rnd f.1)) := by
      intro f hf
      obtain ⟨hf, hr⟩ := List.mem_filter.1 hf
      rcases hp.1.head f hf with h | ⟨h, -⟩
      · exact h
      · simp [h.rnd] at hr
    have hr : ∀ f ∈ t.1.filter (fun f => rnd f.1), FnA f.1 ∧ ∃ n : ℕ, f.2 = (n : ℚ) + 1 := by
      intro f hf
      obtain ⟨hf, hr⟩ := List.mem_filter.1 hf
      rcases hp.1.head f hf with h | ⟨h, h'⟩
      · simp [h.rnd] at hr
      · exact ⟨h, h'⟩
    have hsr : SortedM (t.1.filter (fun f => rnd f.1)) := hs.head.filter _
    have hw : wdeg (t.1.filter (fun f => rnd f.1)) ≤ 2 := le_trans (wdeg_filter _ hp.1.head _) hp.2.head
    unfold expectTerm
    simp only []
    generalize hR : t.1.filter (fun f => rnd f.1) = r at hr hsr hw
    split
    · refine .cons (fun f hf => ?_) .nil
      rcases hp.1.head f hf with h | ⟨h, -⟩
      · exact h
      · have : f ∈ t.1.filter (fun f => rnd f.1) := List.mem_filter.2 ⟨hf, h.rnd⟩
        rw [hR] at this
        cases this
    · rename_i u args vars q
      split
      · refine allF_pmulTerm m _ _ _ hd (allF_patom _ ?_)
        obtain ⟨u', args', v, e, hv, ho⟩ := (hr (.deriv (.fn u args) vars, q) (by simp)).1
        unfold fnD at e
        split at e
        · cases e
        · cases e
          refine ⟨⟨(fr_exFn u args ho).1, fun p hp => ?_⟩, (fr_exFn u args ho).2⟩
          exact bumps_names v [] (· ≠ omega) (fun p hp => (hv p hp).2) (by simp) p (List.mem_of_mem_take hp)
      · rename_i hq
        refine allF_pmulTerm m _ _ _ hd (allF_patom _ (fr_mono _ ⟨by simp, hsr, hr, hw⟩ (fun u args vars e => ?_)))
        simp only [List.cons.injEq, Prod.mk.injEq] at e
        exact hq e.1.2
    · rename_i b x q
      obtain ⟨u, args, v, e, -⟩ := (hr (.integ b x, q) (by simp)).1
      unfold fnD at e
      split at e <;> cases e
    · rename_i h1 h2 h3
      exact allF_pmulTerm m _ _ _ hd (allF_patom _ (fr_mono _ ⟨h1, hsr, hr, hw⟩ (fun u args vars e => h2 _ _ _ _ e)))

/-! ## Normalisation -/

theorem fr_toEx (p : Poly) (hp : AllF (fun a _ => Fr a) p) : Fr (toEx p) := hereditary_toEx fr_hereditary p hp

theorem po_ofEx (e : Ex) (n : ℚ) (h : Po e n) : PN n (ofEx e) := by
  have h0 := h.nonneg
  induction e generalizing n with
  | num q => exact pn_pconst h0 q
  | sym s => exact pn_patom h0 ⟨⟨h.1, le_refl _⟩, exs_nil rfl⟩
  | fn u args =>
    have h' : (if omega ∈ args then (1 : ℚ) else 0) ≤ n := h
    split at h'
    · rename_i ho
      exact pn_fnA h' (.fn u args ho)
    · rename_i ho
      refine pn_patom h0 ⟨?_, exs_nil rfl⟩
      show (if omega ∈ args then (1 : ℚ) else 0) ≤ 0
      rw [if_neg ho]
  | func g a ih =>
    have := fr_toEx _ (ih 0 h.1 (le_refl _)).fr
    exact pn_patom h0 ⟨⟨this.1, le_refl _⟩, this.2⟩
  | add x y ihx ihy => exact pn_padd (ihx n h.1 h0) (ihy n h.2 h0)
  | mul x y ihx ihy =>
    obtain ⟨i, j, hij, hx, hy⟩ := h
    exact pn_pmul hij (ihx i hx hx.nonneg) (ihy j hy hy.nonneg)
  | pow a q ih =>
    rcases h.2 with ⟨m, hq, -, hm, h⟩ | h
    · exact pn_ppow hq hm (ih m h h.nonneg)
    · exact .of h0 (hereditary_ppow fr_hereditary _ _ (ih 0 h (le_refl _)).fr)
  | deriv a vars ih => exact pn_pdiffs vars h.2 (ih n h.1 h0)
  | integ a x ih =>
    have := fr_toEx _ (ih 0 h.1 (le_refl _)).fr
    exact pn_patom h0 ⟨⟨this.1, h.2.1, le_refl _⟩, this.2⟩
  | ex a ih =>
    rcases h.2 with h | ⟨u, args, rfl, ho⟩
    · exact .of h0 (fr_pexpect _ (sorted_ofEx a) (ih 2 h h.nonneg))
    · rw [ofEx_exFn u args ho]
      exact pn_patom h0 (fr_exFn u args ho)
  | other b => exact h.elim

theorem po_eval {n : ℚ} (e : Ex) (h : Po e n) : Po (eval e) n := (po_toEx h.nonneg _ (po_ofEx e n h)).1

/-- After one evaluation all expectations are in normal form. -/
theorem exs_eval {n : ℚ} (e : Ex) (h : Po e n) : Exs Canon (eval e) := (po_toEx h.nonneg _ (po_ofEx e n h)).2

/-! ## Substitution -/

theorem po_subst (old : Ex) (new : Poly) (hs : SortedP new) (hn : ∀ n, Po old n → PN n new)
    (hv : ∀ c vs, old = .deriv c vs → ∀ v ∈ vs, v.1 ≠ omega) (e : Ex) (n : ℚ) (h : Po e n) : PN n (subst old new e) := by
  have hnew : ∀ e n, Po e n → e = old → PN n new := fun e n h he => hn n (he ▸ h)
  have h0 := h.nonneg
  induction e generalizing n with
  | num q =>
    unfold subst; split
    · rename_i he; exact hnew _ n h he
    · exact pn_pconst h0 q
  | sym s =>
    unfold subst; split
    · rename_i he; exact hnew _ n h he
    · exact po_ofEx (.sym s) n h
  | fn u args =>
    unfold subst; split
    · rename_i he; exact hnew _ n h he
    · exact po_ofEx (.fn u args) n h
  | func g a ih =>
    unfold subst; split
    · rename_i he; exact hnew _ n h he
    · have := fr_toEx _ (ih 0 h.1 (le_refl _)).fr
      exact pn_patom h0 ⟨⟨this.1, le_refl _⟩, this.2⟩
  | add x y ihx ihy =>
    unfold subst; split
    · rename_i he; exact hnew _ n h he
    · exact pn_padd (ihx n h.1 h0) (ihy n h.2 h0)
  | mul x y ihx ihy =>
    unfold subst; split
    · rename_i he; exact hnew _ n h he
    · obtain ⟨i, j, hij, hx, hy⟩ := h
      exact pn_pmul hij (ihx i hx hx.nonneg) (ihy j hy hy.nonneg)
  | pow a q ih =>
    unfold subst; split
    · rename_i he; exact hnew _ n h he
    · rcases h.2 with ⟨m, hq, -, hm, h⟩ | h
      · exact pn_ppow hq hm (ih m h h.nonneg)
      · exact .of h0 (hereditary_ppow fr_hereditary _ _ (ih 0 h (le_refl _)).fr)
  | deriv a vars ih =>
    unfold subst; split
    · rename_i he; exact hnew _ n h he
    · simp only []
      split
      · rename_i rest hrest
        unfold derivRest at hrest
        split at hrest
        · rename_i c vs _
          split at hrest
          · rename_i hac
            subst hac
            refine pn_pdiffs rest (fun v hv' => ?_) (hn n ⟨h.1, hv a vs rfl⟩)
            obtain ⟨w, hw, e⟩ := mem_varsSub _ _ _ hrest v hv'
            rw [← e]; exact h.2 w hw
          · cases hrest
        · cases hrest
      · exact pn_pdiffs vars h.2 (ih n h.1 h0)
  | integ a x ih =>
    unfold subst; split
    · rename_i he; exact hnew _ n h he
    · have := fr_toEx _ (ih 0 h.1 (le_refl _)).fr
      exact pn_patom h0 ⟨⟨this.1, h.2.1, le_refl _⟩, this.2⟩
  | ex a ih =>
    unfold subst; split
    · rename_i he; exact hnew _ n h he
    · rcases h.2 with h | ⟨u, args, rfl, ho⟩
      · exact .of h0 (fr_pexpect _ (sorted_subst old new hs a) (ih 2 h h.nonneg))
      · exact .of h0 (fr_pexpect _ (sorted_subst old new hs _)
          (ih 2 ((FnA.fn u args ho).po.up (by norm_num)) (by norm_num)))
  | other b => exact h.elim

theorem po_substEx (old new e : Ex) (n : ℚ) (hn : ∀ n, Po (eval old) n → Po new n)
    (hv : ∀ c vs, eval old = .deriv c vs → ∀ v ∈ vs, v.1 ≠ omega) (he : Po e n) :
    Po (substEx old new e) n ∧ Exs Canon (substEx old new e) :=
  po_toEx he.nonneg _ (po_subst _ _ (sorted_ofEx new) (fun n h => po_ofEx new n (hn n h)) hv _ n (po_eval e he))

/-- Substitutions that respect degrees. -/
theorem po_substAll (l : List (Ex × Ex)) (hn : ∀ kv ∈ l, ∀ n, Po (eval kv.1) n → Po kv.2 n)
    (hv : ∀ kv ∈ l, ∀ c vs, eval kv.1 = .deriv c vs → ∀ v ∈ vs, v.1 ≠ omega) (e : Ex) (n : ℚ) (he : Po e n) :
    Po (substAll l e) n ∧ Exs Canon (substAll l e) := by
  unfold substAll
  have h0 := po_eval e he
  have h1 := exs_eval e he
  generalize eval e = e0 at h0 h1
  induction l generalizing e0 with
  | nil => exact ⟨h0, h1⟩
  | cons kv l ih =>
    have := po_substEx _ _ _ n (hn kv (by simp)) (hv kv (by simp)) h0
    exact ih (fun kv h => hn kv (by simp [h])) (fun kv h => hv kv (by simp [h])) _ this.1 this.2

end Sympkf.Spec
