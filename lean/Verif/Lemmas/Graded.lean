import Verif.Lemmas.NormalSystem

/-!
# Lemmas: the order of the derivatives of the random functions
-/

set_option autoImplicit false

namespace Sympkf.Spec.Graded

open Text Rand PKF Pkf

/-- The weights of the derivations, and the bound in the expectations. -/
structure Grade where
  ow : Str → ℚ
  W : ℚ
  ow0 : ∀ x, 0 ≤ ow x
  W1 : 1 ≤ W

variable (G : Grade)

/-- The weight of derivations. -/
def cost (vars : List (Str × ℕ)) : ℚ := (vars.map (fun v => G.ow v.1 * v.2)).sum

theorem cost_nil : cost G [] = 0 := rfl
theorem cost_cons (v : Str × ℕ) (vars : List (Str × ℕ)) : cost G (v :: vars) = G.ow v.1 * v.2 + cost G vars := by simp [cost]

theorem cost_nonneg (vars : List (Str × ℕ)) : 0 ≤ cost G vars := by
  induction vars with
  | nil => exact le_refl _
  | cons v vars ih =>
    rw [cost_cons]
    have := mul_nonneg (G.ow0 v.1) (Nat.cast_nonneg (α := ℚ) v.2)
    linarith

theorem cost_bumpVar (x : Str) (vars : List (Str × ℕ)) : cost G (bumpVar x vars) = G.ow x + cost G vars := by
  induction vars with
  | nil => simp [bumpVar, cost]
  | cons v vars ih =>
    obtain ⟨y, n⟩ := v
    unfold bumpVar
    split
    · rename_i e
      subst e
      rw [cost_cons, cost_cons]
      push_cast
      ring
    · split
      · rw [cost_cons]; push_cast; ring
      · rw [cost_cons, cost_cons, ih]; ring

theorem cost_bumps (v vs : List (Str × ℕ)) : cost G (bumps v vs) = cost G v + cost G vs := by
  induction v generalizing vs with
  | nil => simp [bumps, cost]
  | cons w v ih =>
    show cost G (bumps v ((bumpVar w.1)^[w.2] vs)) = _
    rw [ih, cost_cons]
    have : ∀ (k : ℕ) vs, cost G ((bumpVar w.1)^[k] vs) = G.ow w.1 * k + cost G vs := by
      intro k
      induction k with
      | zero => intro vs; simp
      | succ k ihk =>
        intro vs
        rw [Function.iterate_succ_apply, ihk, cost_bumpVar]
        push_cast
        ring
    rw [this]
    ring

theorem cost_takeVar (x : Str) (n : ℕ) (vars r : List (Str × ℕ)) (h : takeVar x n vars = some r) :
    cost G vars = G.ow x * n + cost G r := by
  induction vars generalizing r with
  | nil => simp [takeVar] at h
  | cons v vars ih =>
    obtain ⟨y, m⟩ := v
    unfold takeVar at h
    split at h
    · rename_i e
      subst e
      split at h
      · rename_i hn
        cases h
        rw [cost_cons, cost_cons]
        simp only
        rw [Nat.cast_sub hn]
        ring
      · cases h
    · obtain ⟨r', h1, rfl⟩ := Option.map_eq_some_iff.1 h
      rw [cost_cons, cost_cons, ih r' h1]
      ring

theorem cost_varsSub (vs vars r : List (Str × ℕ)) (h : varsSub vs vars = some r) : cost G vars = cost G vs + cost G r := by
  induction vs generalizing vars with
  | nil => cases h; rw [cost_nil, zero_add]
  | cons w vs ih =>
    obtain ⟨x, n⟩ := w
    obtain ⟨r', h1, h2⟩ := Option.bind_eq_some_iff.1 h
    rw [cost_takeVar G x n vars r' h1, ih r' h2, cost_cons]
    ring

/-! ## Weights -/

/-- The weight of an atom. -/
def wt : Ex → ℚ
  | .fn _ args => if omega ∈ args then 1 else 0
  | .deriv (.fn _ args) vars => if omega ∈ args then 1 + cost G vars else 0
  | _ => 0

/-- The weight of a monomial. -/
abbrev wdeg (m : Mono) : ℚ := degBy (wt G) m

theorem wdeg_cons (f : Ex × ℚ) (m : Mono) : wdeg G (f :: m) = wt G f.1 * f.2 + wdeg G m := degBy_cons _ f m
theorem wdeg_nil : wdeg G [] = 0 := rfl

/-- The weight of a polynomial is at most `n`. -/
abbrev Bd (n : ℚ) (p : Poly) : Prop := BdBy (wt G) n p

theorem bd_diffMono {w : Ex → ℚ} {c : ℚ} (x : Str) (m : Mono) (hm : ∀ f ∈ m, BdBy w (w f.1 + c) (diffAtom x f.1)) :
    BdBy w (degBy w m + c) (diffMono x m) := by
  induction m with
  | nil => exact .nil
  | cons f m ih =>
    obtain ⟨a, q⟩ := f
    rw [degBy_cons]
    refine allMono_padd _ _ ?_ (bd_pmul (i := w a * q) (by linarith) _ _ (.cons (by simp [degBy]) .nil) (ih (fun f hf => hm f (by simp [hf]))))
    refine bd_pmul (i := w a * q + c) (j := degBy w m) (by linarith) _ _ ?_ (.cons (le_refl _) .nil)
    refine bd_pmul (i := w a * (q - 1)) (j := w a + c) (by linarith) _ _ ?_ (hm (a, q) (by simp))
    refine bd_pmul (i := 0) (by rw [zero_add]) _ _ (bd_pconst 0 q (le_refl _)) ?_
    split
    · rename_i h
      rw [h]
      exact bd_pconst _ 1 (by simp)
    · exact .cons (by simp [degBy]) .nil

theorem bd_pdiff {w : Ex → ℚ} {c n : ℚ} (x : Str) (p : Poly) (h : AllF (fun a _ => BdBy w (w a + c) (diffAtom x a)) p)
    (hp : BdBy w n p) : BdBy w (n + c) (pdiff x p) := by
  induction p with
  | nil => exact .nil
  | cons t p ih =>
    refine allMono_padd _ _ ?_ (ih h.tail hp.tail)
    refine bd_pmul (i := 0) (j := n + c) (by rw [zero_add]) _ _ (bd_pconst 0 _ (le_refl _)) ((bd_diffMono (c := c) x t.1 ?_).mono ?_)
    · exact fun f hf => h.head f hf
    · have h1 : degBy w t.1 ≤ n := hp.head
      linarith

/-! ## Expressions of bounded weight -/

/-- A bound on the weight of the random functions (with their derivatives); expectations have the weight zero, their arguments have the weight
`W` at most, or they are expectations of a function. -/
def Po : Ex → ℚ → Prop
  | .num _, n => 0 ≤ n
  | .sym s, n => s ≠ omega ∧ 0 ≤ n
  | .fn _ args, n => (if omega ∈ args then 1 else 0) ≤ n
  | .func _ a, n => Po a 0 ∧ 0 ≤ n
  | .add x y, n => Po x n ∧ Po y n
  | .mul x y, n => ∃ i j, i + j ≤ n ∧ Po x i ∧ Po y j
  | .pow a q, n => 0 ≤ n ∧ ((∃ m, isNat q = true ∧ 0 < q ∧ q * m ≤ n ∧ Po a m) ∨ Po a 0)
  | .deriv a vars, n => ((∃ m, Po a m ∧ m + cost G vars ≤ n) ∨ (Po a 0 ∧ 0 ≤ n)) ∧ ∀ v ∈ vars, v.1 ≠ omega
  | .integ a x, n => Po a 0 ∧ x ≠ omega ∧ 0 ≤ n
  | .ex a, n => 0 ≤ n ∧ (Po a G.W ∨ ∃ u args, a = .fn u args ∧ omega ∈ args)
  | .other _, _ => False

variable {G}

theorem Po.nonneg {e : Ex} {n : ℚ} (h : Po G e n) : 0 ≤ n := by
  induction e generalizing n with
  | num => exact h
  | sym => exact h.2
  | fn u args =>
    have h' : (if omega ∈ args then (1 : ℚ) else 0) ≤ n := h
    split at h' <;> linarith
  | func g a ih => exact h.2
  | add x y ihx ihy => exact ihx h.1
  | mul x y ihx ihy =>
    obtain ⟨i, j, hij, hx, hy⟩ := h
    exact le_trans (add_nonneg (ihx hx) (ihy hy)) hij
  | pow a q ih => exact h.1
  | deriv a vars ih =>
    rcases h.1 with ⟨m, hm, hmn⟩ | h
    · have := ih hm
      have := cost_nonneg G vars
      linarith
    · exact h.2
  | integ a x ih => exact h.2.2
  | ex a ih => exact h.1
  | other b => exact h.elim

theorem Po.up {e : Ex} {n n' : ℚ} (h : Po G e n) (hn : n ≤ n') : Po G e n' := by
  have h0 := le_trans h.nonneg hn
  induction e generalizing n n' with
  | num => exact h0
  | sym => exact ⟨h.1, h0⟩
  | fn u args => exact le_trans h hn
  | func g a ih => exact ⟨h.1, h0⟩
  | add x y ihx ihy => exact ⟨ihx h.1 hn h0, ihy h.2 hn h0⟩
  | mul x y ihx ihy =>
    obtain ⟨i, j, hij, hx, hy⟩ := h
    exact ⟨i, j, le_trans hij hn, hx, hy⟩
  | pow a q ih => exact ⟨h0, h.2.imp (fun ⟨m, h1, h2, h3, h4⟩ => ⟨m, h1, h2, le_trans h3 hn, h4⟩) id⟩
  | deriv a vars ih => exact ⟨h.1.imp (fun ⟨m, h1, h2⟩ => ⟨m, h1, le_trans h2 hn⟩) (fun h => ⟨h.1, h0⟩), h.2⟩
  | integ a x ih => exact ⟨h.1, h.2.1, h0⟩
  | ex a ih => exact ⟨h0, h.2⟩
  | other b => exact h.elim

theorem Po.deriv_zero {a : Ex} {vars : List (Str × ℕ)} (h : Po G (.deriv a vars) 0) : Po G a 0 := by
  rcases h.1 with ⟨m, hm, hmn⟩ | h
  · have := cost_nonneg G vars
    exact hm.up (by linarith)
  · exact h.1

/-- The random functions do not occur. -/
abbrev Fr (G : Grade) (a : Ex) : Prop := Po G a 0

/-- The factors of such polynomials. -/
def Fac (G : Grade) (a : Ex) (q : ℚ) : Prop := Fr G a ∨ (FnA a ∧ ∃ n : ℕ, q = (n : ℚ) + 1)

/-- Polynomials of bounded weight in normal form. -/
def PN (G : Grade) (n : ℚ) (p : Poly) : Prop := AllF (Fac G) p ∧ Bd G n p

theorem Po.pow_zero {a : Ex} {q : ℚ} (h : Po G (.pow a q) 0) : Po G a 0 := by
  rcases h.2 with ⟨m, -, h2, h3, h4⟩ | h
  · have hm : m ≤ 0 := by
      by_contra hc
      have := mul_pos h2 (lt_of_not_ge hc)
      linarith
    exact h4.up hm
  · exact h

theorem Po.mul_zero {x y : Ex} (h : Po G (.mul x y) 0) : Po G x 0 ∧ Po G y 0 := by
  obtain ⟨i, j, hij, hx, hy⟩ := h
  have := hx.nonneg
  have := hy.nonneg
  exact ⟨hx.up (by linarith), hy.up (by linarith)⟩

theorem fr_hereditary : Hereditary (Fr G) where
  num _ := le_refl (0 : ℚ)
  add _ _ h h' := ⟨h, h'⟩
  mul _ _ h h' := ⟨0, 0, by simp, h, h'⟩
  func _ _ _ _ _ h := ⟨h.1, h⟩
  add_inv _ _ h := h
  mul_inv _ _ h := h.mul_zero
  pow _ q := ⟨Po.pow_zero, fun h => ⟨le_refl _, .inr h⟩⟩

theorem fac_mulOK : MulOK (Fac G) := by
  rintro a p q (h | ⟨h, n, rfl⟩) h'
  · exact .inl h
  · rcases h' with h' | ⟨-, m, rfl⟩
    · exact .inl h'
    · exact .inr ⟨h, n + m + 1, by push_cast; ring⟩

theorem fn_zero {u : Str} {args : List Str} (h : Po G (.fn u args) 0) : omega ∉ args := by
  have h' : (if omega ∈ args then (1 : ℚ) else 0) ≤ 0 := h
  intro ho
  rw [if_pos ho] at h'
  linarith

theorem Po.wt {a : Ex} (h : Po G a 0) : wt G a = 0 := by
  cases a with
  | fn u args => exact if_neg (fn_zero h)
  | deriv b vars =>
    cases b with
    | fn u args => exact if_neg (fn_zero h.deriv_zero)
    | _ => rfl
  | _ => rfl

/-- The order of an atom. -/
def ord (G : Grade) : Ex → ℚ
  | .deriv _ vars => cost G vars
  | _ => 0

theorem ord_nonneg (a : Ex) : 0 ≤ ord G a := by
  cases a with
  | deriv b vars => exact cost_nonneg G vars
  | _ => exact le_refl _

theorem fnA_wt {a : Ex} (h : FnA a) : wt G a = 1 + ord G a := by
  obtain ⟨u, args, v, rfl, -, ho⟩ := h
  unfold fnD
  split
  · simp [wt, ho, ord]
  · exact if_pos ho

theorem fnA_one {a : Ex} (h : FnA a) : 1 ≤ wt G a := by
  rw [fnA_wt h]
  have := ord_nonneg (G := G) a
  linarith

theorem ord_fnD (u : Str) (args : List Str) (vs : List (Str × ℕ)) : ord G (fnD u args vs) = cost G vs := by
  unfold fnD
  split
  · rename_i e; rw [e]; rfl
  · rfl

theorem bd_of_fr {p : Poly} (h : AllF (fun a _ => Fr G a) p) : Bd G 0 p := by
  intro t ht
  have h1 := h t ht
  generalize t.1 = m at h1
  show wdeg G m ≤ 0
  induction m with
  | nil => simp [degBy]
  | cons f m ih =>
    rw [wdeg_cons, (h1 f (by simp)).wt]
    have := ih (fun f hf => h1 f (by simp [hf]))
    linarith

theorem Fac.of {p : Poly} (h : AllF (fun a _ => Fr G a) p) : AllF (Fac G) p := fun t ht f hf => .inl (h t ht f hf)

theorem PN.of {n : ℚ} (hn : 0 ≤ n) {p : Poly} (h : AllF (fun a _ => Fr G a) p) : PN G n p := ⟨.of h, (bd_of_fr h).mono hn⟩

theorem factor_nonneg {a : Ex} {q : ℚ} (h : Fac G a q) : 0 ≤ wt G a * q := by
  rcases h with h | ⟨h, n, e⟩
  · rw [h.wt]; simp
  · have := fnA_one (G := G) h
    rw [e]; positivity

theorem wdeg_nonneg (m : Mono) (h : AllM (Fac G) m) : 0 ≤ wdeg G m := by
  induction m with
  | nil => simp [degBy]
  | cons f m ih =>
    rw [wdeg_cons]
    have := ih h.tail
    have := factor_nonneg h.head
    linarith

theorem mem_wdeg (m : Mono) (h : AllM (Fac G) m) (f : Ex × ℚ) (hf : f ∈ m) : wt G f.1 * f.2 ≤ wdeg G m := by
  induction m with
  | nil => cases hf
  | cons g m ih =>
    rw [wdeg_cons]
    rcases List.mem_cons.1 hf with rfl | hf
    · have := wdeg_nonneg m h.tail
      linarith
    · have := ih h.tail hf
      have := factor_nonneg h.head
      linarith

theorem PN.fr {p : Poly} (h : PN G 0 p) : AllF (fun a _ => Fr G a) p := by
  intro t ht f hf
  rcases h.1 t ht f hf with h' | ⟨h', n, e⟩
  · exact h'
  · exfalso
    have h1 := mem_wdeg t.1 (h.1 t ht) f hf
    rw [e] at h1
    have h2 := h.2 t ht
    have h3 := fnA_one (G := G) h'
    have : (0 : ℚ) < wt G f.1 * ((n : ℚ) + 1) := by positivity
    linarith

theorem PN.up {n n' : ℚ} (hn : n ≤ n') {p : Poly} (h : PN G n p) : PN G n' p := ⟨h.1, h.2.mono hn⟩

theorem PN.nil {n : ℚ} : PN G n [] := ⟨.nil, .nil⟩
theorem pn_padd {n : ℚ} {p q : Poly} (hp : PN G n p) (hq : PN G n q) : PN G n (padd p q) := ⟨allF_padd _ _ hp.1 hq.1, allMono_padd _ _ hp.2 hq.2⟩
theorem pn_pmul {n i j : ℚ} (h : i + j ≤ n) {p q : Poly} (hp : PN G i p) (hq : PN G j q) : PN G n (pmul p q) :=
  ⟨allF_pmul fac_mulOK _ _ hp.1 hq.1, bd_pmul h _ _ hp.2 hq.2⟩
theorem pn_pconst {n : ℚ} (hn : 0 ≤ n) (c : ℚ) : PN G n (pconst c) := ⟨allF_pconst c, bd_pconst n c hn⟩
theorem pn_patom {n : ℚ} (hn : 0 ≤ n) {a : Ex} (h : Fr G a) : PN G n (patom a) := .of hn (allF_patom _ h)
theorem pn_fnA {n : ℚ} {a : Ex} (h : FnA a) (hn : wt G a ≤ n) : PN G n (patom a) :=
  ⟨allF_patom _ (.inr ⟨h, 0, by simp⟩), bd_patom n a hn⟩

theorem pn_ppow {n m q : ℚ} (hq : isNat q = true) (hm : q * m ≤ n) {p : Poly} (hp : PN G m p) : PN G n (ppow p q) := by
  unfold ppow
  rw [if_pos hq]
  refine ⟨allF_ppowN fac_mulOK _ _ hp.1, (bd_ppowN p _ hp.2).mono ?_⟩
  rw [← isNat_toNat hq]; exact hm

theorem fnA_diff {a : Ex} (h : FnA a) (x : Str) (hx : x ≠ omega) :
    diffAtom x a = [] ∨ ∃ a', FnA a' ∧ diffAtom x a = patom a' ∧ wt G a' = wt G a + G.ow x := by
  obtain ⟨u, args, v, rfl, hv, hL⟩ := h
  rw [diffAtom_fnD]
  split
  · rename_i hm
    right
    have hA : FnA (fnD u args (bumpVar x (bumps v []))) := by
      refine ⟨u, args, v ++ [(x, 1)], ?_, fun p hp => ?_, hL⟩
      · rw [bumps_append]; rfl
      · rcases List.mem_append.1 hp with hp | hp
        · exact hv p hp
        · rw [List.mem_singleton] at hp; subst hp; exact ⟨hm, hx⟩
    refine ⟨_, hA, rfl, ?_⟩
    rw [fnA_wt hA, fnA_wt (a := fnD u args (bumps v [])) ⟨u, args, v, rfl, hv, hL⟩, ord_fnD, ord_fnD, cost_bumpVar]
    ring
  · exact .inl rfl

theorem fr_diffOK (x : Str) (hx : x ≠ omega) : DiffOK (fun a (_ : ℚ) => Fr G a) x := by
  refine fr_hereditary.diffOK x (fun c vars h => ⟨.inr ⟨h.deriv_zero, le_refl _⟩, fun v hv => ?_⟩) (fun _ _ h => ⟨.inr ⟨h, le_refl _⟩, by simpa using hx⟩)
  rcases mem_bumpVar x vars v hv with e | ⟨w, hw, e⟩
  · rw [e]; exact hx
  · rw [← e]; exact h.2 w hw

theorem fac_diffOK (x : Str) (hx : x ≠ omega) : DiffOK (Fac G) x := by
  constructor
  · rintro a q (h | ⟨h, n, rfl⟩) h0 h1
    · exact .inl h
    · refine .inr ⟨h, n - 1, ?_⟩
      cases n with
      | zero => simp at h1
      | succ n => simp
  · rintro a q (h | ⟨h, n, rfl⟩)
    · exact .of ((fr_diffOK x hx).diff a q h)
    · rcases fnA_diff (G := G) h x hx with e | ⟨a', h', e, -⟩
      · rw [e]; exact .nil
      · rw [e]; exact allF_patom _ (.inr ⟨h', 0, by simp⟩)

theorem fac_bd (x : Str) (hx : x ≠ omega) (a : Ex) (q : ℚ) (h : Fac G a q) : Bd G (wt G a + G.ow x) (diffAtom x a) := by
  rcases h with h | ⟨h, -⟩
  · rw [h.wt, zero_add]; exact (bd_of_fr ((fr_diffOK x hx).diff a q h)).mono (G.ow0 x)
  · rcases fnA_diff (G := G) h x hx with e | ⟨a', h', e, hw⟩
    · rw [e]; exact .nil
    · rw [e]; exact bd_patom _ _ (le_of_eq hw)

theorem pn_pdiff {n : ℚ} (x : Str) (hx : x ≠ omega) {p : Poly} (hp : PN G n p) : PN G (n + G.ow x) (pdiff x p) :=
  ⟨allF_pdiff fac_mulOK x (fac_diffOK x hx) p hp.1,
    bd_pdiff x p (fun t ht f hf => fac_bd x hx f.1 f.2 (hp.1 t ht f hf)) hp.2⟩

theorem pn_pdiffs {n : ℚ} (vars : List (Str × ℕ)) (hv : ∀ v ∈ vars, v.1 ≠ omega) {p : Poly} (hp : PN G n p) :
    PN G (n + cost G vars) (pdiffs vars p) := by
  induction vars generalizing p n with
  | nil => rw [cost_nil, add_zero]; exact hp
  | cons v vars ih =>
    rw [cost_cons, ← add_assoc]
    refine ih (fun v h => hv v (by simp [h])) ?_
    have hx := hv v (by simp)
    show PN G _ ((pdiff v.1)^[v.2] p)
    generalize v.2 = k
    clear ih hv
    induction k generalizing p n with
    | zero => simpa using hp
    | succ k ih =>
      rw [Function.iterate_succ_apply]
      exact (ih (pn_pdiff v.1 hx hp)).up (by push_cast; linarith)

theorem fr_pdiffs (vars : List (Str × ℕ)) (hv : ∀ v ∈ vars, v.1 ≠ omega) {p : Poly} (hp : PN G 0 p) : PN G 0 (pdiffs vars p) :=
  .of (le_refl _) (allF_pdiffs (mulOK_prop (Fr G)) vars (fun v h => fr_diffOK v.1 (hv v h)) p hp.fr)

/-- Both cases of derivatives. -/
theorem pn_deriv {a : Ex} {n : ℚ} {vars : List (Str × ℕ)} {p : Poly} (ih : ∀ m, Po G a m → PN G m p) (h : Po G (.deriv a vars) n) :
    PN G n (pdiffs vars p) := by
  rcases h.1 with ⟨m, hm, hmn⟩ | ⟨h', h0⟩
  · exact (pn_pdiffs vars h.2 (ih m hm)).up hmn
  · exact (fr_pdiffs vars h.2 (ih 0 h')).up h0

/-! ## Expectations -/

theorem po_det (a : Ex) (h : Po G a 0) : israndom a = .ok false := by
  induction a with
  | num => rfl
  | sym s => simp [israndom, hasOmega, h.1]
  | fn u args => simp [israndom, hasOmega, fn_zero h]
  | func g a ih => simp only [israndom]; split; exacts [rfl, ih h.1]
  | add x y ihx ihy => simp only [israndom]; split; exacts [rfl, by rw [ihx h.1, ihy h.2]; rfl]
  | mul x y ihx ihy => simp only [israndom]; split; exacts [rfl, by rw [ihx h.mul_zero.1, ihy h.mul_zero.2]; rfl]
  | pow a q ih => simp only [israndom]; split; exacts [rfl, by rw [ih h.pow_zero]; rfl]
  | deriv a vars ih => simp only [israndom]; split; exacts [rfl, ih h.deriv_zero]
  | integ a x ih => simp only [israndom]; split; exacts [rfl, ih h.1]
  | ex a ih => rfl
  | other b => exact h.elim

theorem Po.rnd {a : Ex} (h : Po G a 0) : Rand.rnd a = false := by
  unfold Rand.rnd
  rw [po_det a h]

theorem fnA_po {a : Ex} (h : FnA a) : Po G a (wt G a) := by
  rw [fnA_wt h]
  obtain ⟨u, args, v, rfl, hv, ho⟩ := h
  have h1 : Po G (.fn u args) 1 := by
    show (if omega ∈ args then (1 : ℚ) else 0) ≤ 1
    rw [if_pos ho]
  unfold fnD
  split
  · exact h1.up (by simp [ord])
  · exact ⟨.inl ⟨1, h1, le_refl _⟩, bumps_names v [] (· ≠ omega) (fun p hp => (hv p hp).2) (by simp)⟩

theorem po_factor {a : Ex} {q : ℚ} (h : Fac G a q) : Po G (factorEx (a, q)) (wt G a * q) := by
  unfold factorEx
  rcases h with h | ⟨h, n, rfl⟩
  · rw [h.wt, zero_mul]
    split
    · exact h
    · exact (fr_hereditary.pow a q).2 h
  · split
    · rename_i e
      simp only at e ⊢
      rw [e, mul_one]; exact fnA_po h
    · have hn : (0 : ℚ) < (n : ℚ) + 1 := by positivity
      have := fnA_one (G := G) h
      exact ⟨by positivity, .inl ⟨wt G a, (isNat_iff _).2 ⟨n + 1, by push_cast; rfl⟩, hn, by rw [mul_comm], fnA_po h⟩⟩

theorem po_monoEx (m : Mono) (hm : AllM (Fac G) m) : Po G (monoEx m) (wdeg G m) :=
  graded_monoEx (w := wt G) (G := fun n e => Po G e n) (fun _ => le_refl (0 : ℚ)) (fun i j _ _ h h' => ⟨i, j, le_refl _, h, h'⟩) m
    (fun f hf => po_factor (hm f hf))

/-- The expression of a polynomial in normal form. -/
theorem po_toEx {n : ℚ} (hn : 0 ≤ n) (p : Poly) (hp : PN G n p) : Po G (toEx p) n := by
  have term : ∀ t ∈ p, Po G (termEx t) n := by
    intro t ht
    have := graded_termEx (w := wt G) (G := fun n e => Po G e n) (fun _ => le_refl (0 : ℚ))
      (fun i j _ _ h h' => ⟨i, j, le_refl _, h, h'⟩) t (fun f hf => po_factor (hp.1 t ht f hf))
    exact this.up (hp.2 t ht)
  clear hp
  induction p with
  | nil => exact hn
  | cons t p ih =>
    cases p with
    | nil => exact term t (by simp)
    | cons t' p => exact ⟨term t (by simp), ih (fun t ht => term t (by simp [ht]))⟩

theorem wdeg_filter (m : Mono) (hm : AllM (Fac G) m) (f : Ex × ℚ → Bool) : wdeg G (m.filter f) ≤ wdeg G m := by
  induction m with
  | nil => exact le_refl _
  | cons g m ih =>
    have h0 := factor_nonneg hm.head
    have := ih hm.tail
    rw [List.filter_cons]
    split
    · rw [wdeg_cons, wdeg_cons]; linarith
    · rw [wdeg_cons]; linarith

theorem fr_mono (r : Mono) (hr : ∀ f ∈ r, FnA f.1 ∧ ∃ n : ℕ, f.2 = (n : ℚ) + 1) (hw : wdeg G r ≤ G.W) : Fr G (.ex (monoEx r)) :=
  ⟨le_refl _, .inl ((po_monoEx r (fun f hf => .inr (hr f hf))).up hw)⟩

theorem fr_exFn (u : Str) (args : List Str) (ho : omega ∈ args) : Fr G (.ex (.fn u args)) := ⟨le_refl _, .inr ⟨u, args, rfl, ho⟩⟩

theorem fr_pexpect (p : Poly) (hp : PN G G.W p) : AllF (fun a _ => Fr G a) (pexpect p) := by
  induction p with
  | nil => exact .nil
  | cons t p ih =>
    refine allF_padd _ _ ?_ (ih ⟨hp.1.tail, hp.2.tail⟩)
    have m := mulOK_prop (Fr G)
    have hd : AllM (fun a _ => Fr G a) (t.1.filter (fun f => !rnd f.1)) := by
      intro f hf
      obtain ⟨hf, hr⟩ := List.mem_filter.1 hf
      rcases hp.1.head f hf with h | ⟨h, -⟩
      · exact h
      · simp [h.rnd] at hr
    have hr : ∀ f ∈ t.1.filter (fun f => rnd f.1), FnA f.1 ∧ ∃ n : ℕ, f.2 = (n : ℚ) + 1 := by
      intro f hf
      obtain ⟨hf, hr⟩ := List.mem_filter.1 hf
      rcases hp.1.head f hf with h | ⟨h, h'⟩
      · simp [h.rnd] at hr
      · exact ⟨h, h'⟩
    have hw : wdeg G (t.1.filter (fun f => rnd f.1)) ≤ G.W := le_trans (wdeg_filter _ hp.1.head _) hp.2.head
    unfold expectTerm
    simp only []
    generalize hR : t.1.filter (fun f => rnd f.1) = r at hr hw
    split
    · refine .cons (fun f hf => ?_) .nil
      rcases hp.1.head f hf with h | ⟨h, -⟩
      · exact h
      · have : f ∈ t.1.filter (fun f => rnd f.1) := List.mem_filter.2 ⟨hf, h.rnd⟩
        rw [hR] at this
        cases this
    · rename_i u args vars q
      split
      · refine allF_pmulTerm m _ _ _ hd (allF_patom _ ?_)
        obtain ⟨u', args', v, e, hv, ho⟩ := (hr (.deriv (.fn u args) vars, q) (by simp)).1
        unfold fnD at e
        split at e
        · cases e
        · cases e
          refine ⟨.inr ⟨fr_exFn u args ho, le_refl _⟩, fun p hp => ?_⟩
          exact bumps_names v [] (· ≠ omega) (fun p hp => (hv p hp).2) (by simp) p (List.mem_of_mem_take hp)
      · exact allF_pmulTerm m _ _ _ hd (allF_patom _ (fr_mono _ hr hw))
    · rename_i b x q
      obtain ⟨u, args, v, e, -⟩ := (hr (.integ b x, q) (by simp)).1
      unfold fnD at e
      split at e <;> cases e
    · exact allF_pmulTerm m _ _ _ hd (allF_patom _ (fr_mono _ hr hw))

/-! ## Normalisation -/

theorem fr_toEx (p : Poly) (hp : AllF (fun a _ => Fr G a) p) : Fr G (toEx p) := hereditary_toEx fr_hereditary p hp

theorem po_atom (u : Str) (args : List Str) (n : ℚ) (h : Po G (.fn u args) n) : PN G n (patom (.fn u args)) := by
  have h' : (if omega ∈ args then (1 : ℚ) else 0) ≤ n := h
  split at h'
  · rename_i ho
    exact pn_fnA (.fn u args ho) (by rw [fnA_wt (.fn u args ho)]; simpa [ord] using h')
  · rename_i ho
    refine pn_patom h.nonneg ?_
    show (if omega ∈ args then (1 : ℚ) else 0) ≤ 0
    rw [if_neg ho]

theorem po_ofEx (e : Ex) (n : ℚ) (h : Po G e n) : PN G n (ofEx e) := by
  have h0 := h.nonneg
  induction e generalizing n with
  | num q => exact pn_pconst h0 q
  | sym s => exact pn_patom h0 ⟨h.1, le_refl _⟩
  | fn u args => exact po_atom u args n h
  | func g a ih => exact pn_patom h0 ⟨fr_toEx _ (ih 0 h.1 (le_refl _)).fr, le_refl _⟩
  | add x y ihx ihy => exact pn_padd (ihx n h.1 h0) (ihy n h.2 h0)
  | mul x y ihx ihy =>
    obtain ⟨i, j, hij, hx, hy⟩ := h
    exact pn_pmul hij (ihx i hx hx.nonneg) (ihy j hy hy.nonneg)
  | pow a q ih =>
    rcases h.2 with ⟨m, hq, -, hm, h⟩ | h
    · exact pn_ppow hq hm (ih m h h.nonneg)
    · exact .of h0 (hereditary_ppow fr_hereditary _ _ (ih 0 h (le_refl _)).fr)
  | deriv a vars ih => exact pn_deriv (fun m hm => ih m hm hm.nonneg) h
  | integ a x ih => exact pn_patom h0 ⟨fr_toEx _ (ih 0 h.1 (le_refl _)).fr, h.2.1, le_refl _⟩
  | ex a ih =>
    rcases h.2 with h | ⟨u, args, rfl, ho⟩
    · exact .of h0 (fr_pexpect _ (ih G.W h h.nonneg))
    · rw [ofEx_exFn u args ho]
      exact pn_patom h0 (fr_exFn u args ho)
  | other b => exact h.elim

theorem po_eval {n : ℚ} (e : Ex) (h : Po G e n) : Po G (eval e) n := po_toEx h.nonneg _ (po_ofEx e n h)

/-! ## Substitution -/

theorem po_subst (old : Ex) (new : Poly) (hn : ∀ n, Po G old n → PN G n new)
    (hv : ∀ c vs, old = .deriv c vs → ∀ v ∈ vs, v.1 ≠ omega) (e : Ex) (n : ℚ) (h : Po G e n) : PN G n (subst old new e) := by
  have hnew : ∀ e n, Po G e n → e = old → PN G n new := fun e n h he => hn n (he ▸ h)
  have h0 := h.nonneg
  induction e generalizing n with
  | num q =>
    unfold subst; split
    · rename_i he; exact hnew _ n h he
    · exact pn_pconst h0 q
  | sym s =>
    unfold subst; split
    · rename_i he; exact hnew _ n h he
    · exact po_ofEx (.sym s) n h
  | fn u args =>
    unfold subst; split
    · rename_i he; exact hnew _ n h he
    · exact po_ofEx (.fn u args) n h
  | func g a ih =>
    unfold subst; split
    · rename_i he; exact hnew _ n h he
    · exact pn_patom h0 ⟨fr_toEx _ (ih 0 h.1 (le_refl _)).fr, le_refl _⟩
  | add x y ihx ihy =>
    unfold subst; split
    · rename_i he; exact hnew _ n h he
    · exact pn_padd (ihx n h.1 h0) (ihy n h.2 h0)
  | mul x y ihx ihy =>
    unfold subst; split
    · rename_i he; exact hnew _ n h he
    · obtain ⟨i, j, hij, hx, hy⟩ := h
      exact pn_pmul hij (ihx i hx hx.nonneg) (ihy j hy hy.nonneg)
  | pow a q ih =>
    unfold subst; split
    · rename_i he; exact hnew _ n h he
    · rcases h.2 with ⟨m, hq, -, hm, h⟩ | h
      · exact pn_ppow hq hm (ih m h h.nonneg)
      · exact .of h0 (hereditary_ppow fr_hereditary _ _ (ih 0 h (le_refl _)).fr)
  | deriv a vars ih =>
    unfold subst; split
    · rename_i he; exact hnew _ n h he
    · simp only []
      split
      · rename_i rest hrest
        unfold derivRest at hrest
        split at hrest
        · rename_i c vs _
          split at hrest
          · rename_i hac
            subst hac
            have hr : ∀ v ∈ rest, v.1 ≠ omega := fun v hv' => by
              obtain ⟨w, hw, e⟩ := mem_varsSub _ _ _ hrest v hv'
              rw [← e]; exact h.2 w hw
            have hc := cost_varsSub G _ _ _ hrest
            rcases h.1 with ⟨m, hm, hmn⟩ | ⟨h', -⟩
            · refine (pn_pdiffs rest hr (hn (m + cost G vs) ⟨.inl ⟨m, hm, le_refl _⟩, hv a vs rfl⟩)).up ?_
              linarith
            · exact (fr_pdiffs rest hr (hn 0 ⟨.inr ⟨h', le_refl _⟩, hv a vs rfl⟩)).up h0
          · cases hrest
        · cases hrest
      · exact pn_deriv (fun m hm => ih m hm hm.nonneg) h
  | integ a x ih =>
    unfold subst; split
    · rename_i he; exact hnew _ n h he
    · exact pn_patom h0 ⟨fr_toEx _ (ih 0 h.1 (le_refl _)).fr, h.2.1, le_refl _⟩
  | ex a ih =>
    unfold subst; split
    · rename_i he; exact hnew _ n h he
    · rcases h.2 with h | ⟨u, args, rfl, ho⟩
      · exact .of h0 (fr_pexpect _ (ih G.W h h.nonneg))
      · refine .of h0 (fr_pexpect _ (ih G.W ?_ (le_trans zero_le_one G.W1)))
        show (if omega ∈ args then (1 : ℚ) else 0) ≤ G.W
        rw [if_pos ho]; exact G.W1
  | other b => exact h.elim

theorem po_substEx (old new e : Ex) (n : ℚ) (hn : ∀ n, Po G (eval old) n → Po G new n)
    (hv : ∀ c vs, eval old = .deriv c vs → ∀ v ∈ vs, v.1 ≠ omega) (he : Po G e n) : Po G (substEx old new e) n :=
  po_toEx he.nonneg _ (po_subst _ _ (fun n h => po_ofEx new n (hn n h)) hv _ n (po_eval e he))

/-- Substitutions that respect the weights. -/
theorem po_substAll (l : List (Ex × Ex)) (hn : ∀ kv ∈ l, ∀ n, Po G (eval kv.1) n → Po G kv.2 n)
    (hv : ∀ kv ∈ l, ∀ c vs, eval kv.1 = .deriv c vs → ∀ v ∈ vs, v.1 ≠ omega) (e : Ex) (n : ℚ) (he : Po G e n) : Po G (substAll l e) n := by
  unfold substAll
  have h0 := po_eval e he
  generalize eval e = e0 at h0
  induction l generalizing e0 with
  | nil => exact h0
  | cons kv l ih =>
    exact ih (fun kv h => hn kv (by simp [h])) (fun kv h => hv kv (by simp [h])) _ (po_substEx _ _ _ n (hn kv (by simp)) (hv kv (by simp)) h0)

/-- The expectations in an expression of bounded weight. -/
theorem po_exAtoms (e : Ex) (n : ℚ) (h : Po G e n) : ∀ t ∈ exAtoms e, Po G t 0 := by
  induction e generalizing n with
  | func g a ih => exact ih 0 h.1
  | add x y ihx ihy =>
    intro t ht
    rcases List.mem_append.1 ht with ht | ht
    · exact ihx n h.1 t ht
    · exact ihy n h.2 t ht
  | mul x y ihx ihy =>
    obtain ⟨i, j, -, hx, hy⟩ := h
    intro t ht
    rcases List.mem_append.1 ht with ht | ht
    · exact ihx i hx t ht
    · exact ihy j hy t ht
  | pow a q ih =>
    rcases h.2 with ⟨m, -, -, -, h⟩ | h
    · exact ih m h
    · exact ih 0 h
  | deriv a vars ih =>
    rcases h.1 with ⟨m, h, -⟩ | ⟨h, -⟩
    · exact ih m h
    · exact ih 0 h
  | integ a x ih => exact ih 0 h.1
  | ex a ih =>
    intro t ht
    rcases List.mem_cons.1 ht with rfl | ht
    · exact ⟨le_refl _, h.2⟩
    · rcases h.2 with h | ⟨u, args, rfl, -⟩
      · exact ih G.W h t ht
      · cases ht
  | _ => intro t ht; cases ht

end Sympkf.Spec.Graded
