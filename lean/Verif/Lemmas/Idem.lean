import Verif.Lemmas.Normal

/-!
# Lemmas: the normal form of a normal form is itself
-/

set_option autoImplicit false

namespace Sympkf.Spec

open Text Rand PKF Pkf

/-! ## The order of the monomials -/

theorem monoCode_inj {m n : Mono} (h : monoCode m = monoCode n) : m = n := by
  have key : ∀ (f : Ex × ℚ) (m : Mono), monoCode (f :: m) = code f.1 ++ (codeNum f.2 ++ monoCode m) := by
    intro f m; simp [monoCode]
  have pos : ∀ (a : Ex), code a ≠ [] := by intro a; cases a <;> simp [code]
  induction m generalizing n with
  | nil =>
    cases n with
    | nil => rfl
    | cons g n =>
      rw [key] at h
      exact absurd (List.append_eq_nil_iff.1 h.symm).1 (pos _)
  | cons f m ih =>
    cases n with
    | nil =>
      rw [key] at h
      exact absurd (List.append_eq_nil_iff.1 h).1 (pos _)
    | cons g n =>
      rw [key, key] at h
      obtain ⟨e1, e2⟩ := code_append _ _ _ _ h
      obtain ⟨e3, e4⟩ := codeNum_append _ _ _ _ e2
      rw [ih e4, Prod.ext e1 e3]

theorem mono_total {m n : Mono} (h : m ≠ n) : ltNat (monoCode m) (monoCode n) = true ∨ ltNat (monoCode n) (monoCode m) = true :=
  ltNat_total _ _ (fun e => h (monoCode_inj e))

/-- The terms are sorted and have coefficients. -/
def CanonP (p : Poly) : Prop := p.Pairwise (fun t t' => ltNat (monoCode t.1) (monoCode t'.1) = true) ∧ ∀ t ∈ p, t.2 ≠ 0

theorem CanonP.nil : CanonP [] := ⟨.nil, by simp⟩

theorem CanonP.one (m : Mono) {c : ℚ} (hc : c ≠ 0) : CanonP [(m, c)] := ⟨List.pairwise_singleton _ _, by simpa using hc⟩

theorem CanonP.tail {t : Mono × ℚ} {p : Poly} (h : CanonP (t :: p)) : CanonP p := ⟨(List.pairwise_cons.1 h.1).2, fun t ht => h.2 t (by simp [ht])⟩

theorem mem_addTerm (m : Mono) (c : ℚ) (p : Poly) (t : Mono × ℚ) (ht : t ∈ addTerm m c p) : t.1 = m ∨ ∃ t' ∈ p, t'.1 = t.1 := by
  have h := allMono_addTerm (P := fun n => n = m ∨ ∃ t' ∈ p, t'.1 = n) m c p (.inl rfl) (fun t ht => .inr ⟨t, ht, rfl⟩)
  exact h t ht

theorem canon_addTerm (m : Mono) (c : ℚ) (p : Poly) (hp : CanonP p) : CanonP (addTerm m c p) := by
  induction p with
  | nil =>
    unfold addTerm
    split
    · exact .nil
    · exact .one m ‹_›
  | cons t p ih =>
    obtain ⟨n, d⟩ := t
    obtain ⟨h1, h2⟩ := List.pairwise_cons.1 hp.1
    unfold addTerm
    split
    · split
      · exact hp.tail
      · refine ⟨List.pairwise_cons.2 ⟨h1, h2⟩, fun t ht => ?_⟩
        rcases List.mem_cons.1 ht with rfl | ht
        · assumption
        · exact hp.2 t (by simp [ht])
    · rename_i hne
      split
      · exact hp
      · rename_i hc
        split
        · rename_i hlt
          refine ⟨List.pairwise_cons.2 ⟨fun t ht => ?_, hp.1⟩, fun t ht => ?_⟩
          · rcases List.mem_cons.1 ht with rfl | ht
            · exact hlt
            · exact ltNat_trans _ _ _ hlt (h1 t ht)
          · rcases List.mem_cons.1 ht with rfl | ht
            · exact hc
            · exact hp.2 t ht
        · rename_i hlt
          have h3 := ih hp.tail
          refine ⟨List.pairwise_cons.2 ⟨fun t ht => ?_, h3.1⟩, fun t ht => ?_⟩
          · rcases mem_addTerm m c p t ht with e | ⟨t', ht', e⟩
            · show ltNat (monoCode n) (monoCode t.1) = true
              rw [e]
              exact (mono_total hne).resolve_left hlt
            · show ltNat (monoCode n) (monoCode t.1) = true
              rw [← e]; exact h1 t' ht'
          · rcases List.mem_cons.1 ht with rfl | ht
            · exact hp.2 _ (by simp)
            · exact h3.2 t ht

theorem canon_padd (p q : Poly) (hq : CanonP q) : CanonP (padd p q) := by
  induction p with
  | nil => exact hq
  | cons t p ih => exact canon_addTerm _ _ _ ih

theorem canon_pconst (c : ℚ) : CanonP (pconst c) := by
  unfold pconst
  split
  · exact .nil
  · exact .one _ ‹_›

theorem canon_patom (a : Ex) : CanonP (patom a) := .one _ (by norm_num)

theorem canon_pmulTerm (m : Mono) (c : ℚ) (q : Poly) : CanonP (pmulTerm m c q) := by
  induction q with
  | nil => exact .nil
  | cons t q ih => exact canon_addTerm _ _ _ ih

theorem canon_pmul (p q : Poly) : CanonP (pmul p q) := by
  induction p with
  | nil => exact .nil
  | cons t p ih => exact canon_padd _ _ ih

theorem canon_ppowN (p : Poly) (n : ℕ) : CanonP (ppowN p n) := by
  cases n with
  | zero => exact canon_pconst 1
  | succ n => exact canon_pmul _ _

theorem canon_ppow (p : Poly) (q : ℚ) : CanonP (ppow p q) := by
  unfold ppow
  split
  · exact canon_ppowN _ _
  · split
    · split
      · exact .one _ (by norm_num)
      · exact canon_patom _
    · exact canon_patom _

theorem canon_reEx (e : Ex) : CanonP (reEx e) := by
  induction e with
  | num q => exact canon_pconst q
  | add a b iha ihb => exact canon_padd _ _ ihb
  | mul a b iha ihb => exact canon_pmul _ _
  | pow a q ih => exact canon_ppow _ _
  | _ => exact canon_patom _

theorem canon_diffAtom (x : Str) (e : Ex) : CanonP (diffAtom x e) := by
  induction e with
  | num q => exact .nil
  | sym s => simp only [diffAtom]; split; exacts [canon_pconst 1, .nil]
  | func g a ih => simp only [diffAtom]; split; exacts [canon_pmul _ _, canon_patom _]
  | add a b iha ihb => exact canon_padd _ _ ihb
  | mul a b iha ihb => exact canon_padd _ _ (canon_pmul _ _)
  | pow a q ih => exact canon_pmul _ _
  | _ => simp only [diffAtom]; split; exacts [.nil, canon_patom _]

theorem canon_diffMono (x : Str) (m : Mono) : CanonP (diffMono x m) := by
  cases m with
  | nil => exact .nil
  | cons f m => exact canon_padd _ _ (canon_pmul _ _)

theorem canon_pdiff (x : Str) (p : Poly) : CanonP (pdiff x p) := by
  induction p with
  | nil => exact .nil
  | cons t p ih => exact canon_padd _ _ ih

theorem canon_pdiffs (vars : List (Str × ℕ)) (p : Poly) (hp : CanonP p) : CanonP (pdiffs vars p) := by
  induction vars generalizing p with
  | nil => exact hp
  | cons v vars ih =>
    refine ih _ ?_
    show CanonP ((pdiff v.1)^[v.2] p)
    generalize v.2 = n
    induction n generalizing p with
    | zero => exact hp
    | succ n ih => rw [Function.iterate_succ_apply]; exact ih _ (canon_pdiff _ _)

theorem canon_pexpect (p : Poly) : CanonP (pexpect p) := by
  induction p with
  | nil => exact .nil
  | cons t p ih => exact canon_padd _ _ ih

theorem canon_ofEx (e : Ex) : CanonP (ofEx e) := by
  induction e with
  | num q => exact canon_pconst q
  | add a b iha ihb => exact canon_padd _ _ ihb
  | mul a b iha ihb => exact canon_pmul _ _
  | pow a q ih => exact canon_ppow _ _
  | deriv a vars ih => exact canon_pdiffs _ _ ih
  | ex a ih => exact canon_pexpect _
  | _ => exact canon_patom _

/-! ## There and back -/

/-- A map from expressions to polynomials that respects sums, products and powers. -/
structure Hom (Φ : Ex → Poly) : Prop where
  num : ∀ q, Φ (.num q) = pconst q
  add : ∀ a b, Φ (.add a b) = padd (Φ a) (Φ b)
  mul : ∀ a b, Φ (.mul a b) = pmul (Φ a) (Φ b)
  pow : ∀ a q, Φ (.pow a q) = ppow (Φ a) q

theorem hom_ofEx : Hom ofEx := ⟨fun _ => rfl, fun _ _ => rfl, fun _ _ => rfl, fun _ _ => rfl⟩
theorem hom_reEx : Hom reEx := ⟨fun _ => rfl, fun _ _ => rfl, fun _ _ => rfl, fun _ _ => rfl⟩

theorem ppow_atom (a : Ex) (q : ℚ) (hq : q ≠ 0) : ppow (patom a) q = [([(a, q)], 1)] := by
  unfold ppow
  split
  · rename_i h
    obtain ⟨n, rfl⟩ : ∃ n : ℕ, q = (n : ℚ) := by
      simp only [isNat, Bool.and_eq_true, decide_eq_true_eq] at h
      exact ⟨_, rat_nat h⟩
    have : ((n : ℚ)).num.toNat = n := by simp
    rw [this]
    have h0 : n ≠ 0 := fun e => hq (by rw [e]; rfl)
    clear this h hq
    induction n with
    | zero => exact absurd rfl h0
    | succ n ih =>
      by_cases hn : n = 0
      · subst hn
        simp [ppowN, pconst, patom, pmul_single, monoMul, mulAtom]
      · show pmul (patom a) (ppowN (patom a) n) = _
        rw [ih hn]
        have hk : (n : ℚ) + 1 ≠ 0 := by positivity
        simp [patom, pmul_single, monoMul, mulAtom, hk]
  · simp [patom]

/-- What a factor must satisfy. -/
def Round (Φ : Ex → Poly) (m : Mono) : Prop := SortedM m ∧ ∀ f ∈ m, Φ f.1 = patom f.1 ∧ f.2 ≠ 0

theorem Round.tail {Φ : Ex → Poly} {f : Ex × ℚ} {m : Mono} (h : Round Φ (f :: m)) : Round Φ m :=
  ⟨(List.pairwise_cons.1 h.1).2, fun g hg => h.2 g (by simp [hg])⟩

theorem round_factor {Φ : Ex → Poly} (hΦ : Hom Φ) (f : Ex × ℚ) (h : Φ f.1 = patom f.1 ∧ f.2 ≠ 0) : Φ (factorEx f) = [([f], 1)] := by
  obtain ⟨a, q⟩ := f
  unfold factorEx
  split
  · rename_i e
    have e' : q = 1 := e
    subst e'
    exact h.1
  · rw [hΦ.pow, h.1, ppow_atom _ _ h.2]

theorem round_mono {Φ : Ex → Poly} (hΦ : Hom Φ) (m : Mono) (h : Round Φ m) : Φ (monoEx m) = [(m, 1)] := by
  induction m with
  | nil => show Φ (.num 1) = _; rw [hΦ.num]; simp [pconst]
  | cons f m ih =>
    cases m with
    | nil => exact round_factor hΦ f (h.2 f (by simp))
    | cons g m =>
      show Φ (.mul (factorEx f) (monoEx (g :: m))) = _
      rw [hΦ.mul, round_factor hΦ f (h.2 f (by simp)), ih h.tail, pmul_single _ _ (by norm_num) _ _ (by norm_num)]
      have hlt := (List.pairwise_cons.1 h.1).1 g (by simp)
      have hne : f.1 ≠ g.1 := by
        intro e
        rw [e, ltNat_irrefl] at hlt
        cases hlt
      simp [monoMul, mulAtom, hne, hlt]

theorem round_term {Φ : Ex → Poly} (hΦ : Hom Φ) (t : Mono × ℚ) (h : Round Φ t.1) (h0 : t.2 ≠ 0) : Φ (termEx t) = [t] := by
  obtain ⟨m, c⟩ := t
  unfold termEx
  dsimp only at h h0 ⊢
  split
  · rename_i e; rw [round_mono hΦ m h, e]
  · split
    · rename_i e; rw [hΦ.num, e, pconst, if_neg h0]
    · rw [hΦ.mul, hΦ.num, round_mono hΦ m h, pconst, if_neg h0, pmul_single _ _ h0 _ _ (by norm_num)]
      simp [monoMul]

theorem round_poly {Φ : Ex → Poly} (hΦ : Hom Φ) (p : Poly) (hp : CanonP p) (h : AllMono (Round Φ) p) : Φ (toEx p) = p := by
  induction p with
  | nil => show Φ (.num 0) = _; rw [hΦ.num]; simp [pconst]
  | cons t p ih =>
    have ht := round_term hΦ t h.head (hp.2 t (by simp))
    cases p with
    | nil => exact ht
    | cons t' p =>
      show Φ (.add (termEx t) (toEx (t' :: p))) = _
      rw [hΦ.add, ht, ih hp.tail h.tail]
      have hlt := (List.pairwise_cons.1 hp.1).1 t' (by simp)
      have hne : t.1 ≠ t'.1 := by
        intro e
        rw [e, ltNat_irrefl] at hlt
        cases hlt
      have h0 := hp.2 t (by simp)
      simp [padd, addTerm, hne, hlt, h0]

/-! ## Atoms that stay as they are -/

/-- The derivatives `vars` are sorted. -/
def Tidy (vars : List (Str × ℕ)) : Prop := vars ≠ [] ∧ bumps vars [] = vars

theorem tidy_bump {x : Str} {vars : List (Str × ℕ)} (h : vars = [] ∨ Tidy vars) : Tidy (bumpVar x vars) := by
  have hb : bumps vars [] = vars := by
    rcases h with rfl | h
    · rfl
    · exact h.2
  have e : bumps (vars ++ [(x, 1)]) [] = bumpVar x vars := by rw [bumps_append, hb]; rfl
  refine ⟨fun h0 => ?_, by rw [← e]; exact bumps_idem _⟩
  have := (repeated_bump x vars).length_eq
  rw [h0] at this
  simp [repeated] at this

/-- An atom whose derivatives are not evaluated. -/
def Base (vars : List (Str × ℕ)) : Ex → Prop
  | .fn _ args => ∀ v ∈ vars, v.1 ∈ args
  | .func g a => dfunc g = none ∧ eval a = a
  | .integ a _ => eval a = a
  | .ex a => ofEx (.ex a) = patom (.ex a)
  | .other _ => True
  | _ => False

/-- Expressions from which only the normal form is computed. -/
def Keeps : Ex → Prop
  | .num _ => True
  | .sym _ => True
  | .fn _ _ => True
  | .func _ a => Keeps a ∧ eval a = a
  | .add a b => Keeps a ∧ Keeps b
  | .mul a b => Keeps a ∧ Keeps b
  | .pow a _ => Keeps a
  | .deriv a vars => Base vars a ∧ Tidy vars
  | .integ a _ => eval a = a
  | .ex a => ofEx (.ex a) = patom (.ex a)
  | .other _ => True

/-- The atoms. -/
def At (a : Ex) : Prop := Keeps a ∧ ofEx a = patom a ∧ reEx a = patom a

/-- The base `a` with the derivatives `vs`. -/
def baseD (a : Ex) (vs : List (Str × ℕ)) : Ex := if vs = [] then a else .deriv a vs

theorem Base.opaque {vars : List (Str × ℕ)} {a : Ex} (h : Base vars a) : isOpaque a = true := by
  cases a with
  | fn => rfl
  | integ => rfl
  | ex => rfl
  | other => rfl
  | func g a => simp [isOpaque, h.1]
  | _ => exact h.elim

theorem Base.const {vars : List (Str × ℕ)} {a : Ex} (h : Base vars a) {v : Str × ℕ} (hv : v ∈ vars) : constIn v.1 a = false := by
  cases a with
  | fn u args => simpa [constIn] using h v hv
  | deriv => exact h.elim
  | _ => rfl

theorem Base.ofEx {vars : List (Str × ℕ)} {a : Ex} (h : Base vars a) : ofEx a = patom a := by
  cases a with
  | fn u args => rfl
  | integ b x => show patom (.integ (Rand.eval b) x) = _; rw [show Rand.eval b = b from h]
  | ex b => exact h
  | other b => rfl
  | func g b => show patom (.func g (Rand.eval b)) = _; rw [h.2]
  | _ => exact h.elim

theorem bumpVar_nonempty (x : Str) (vs : List (Str × ℕ)) : bumpVar x vs ≠ [] := by
  intro h0
  have := (repeated_bump x vs).length_eq
  rw [h0] at this
  simp [repeated] at this

theorem pdiff_base (x : Str) (a : Ex) (vs : List (Str × ℕ)) (ho : isOpaque a = true) (hc : constIn x a = false) :
    pdiff x (patom (baseD a vs)) = patom (baseD a (bumpVar x vs)) := by
  have key : diffAtom x (baseD a vs) = patom (baseD a (bumpVar x vs)) := by
    unfold baseD
    rw [if_neg (bumpVar_nonempty x vs)]
    by_cases hv : vs = []
    · subst hv
      rw [if_pos rfl]
      cases a with
      | func g b =>
        have : dfunc g = none := by simpa [isOpaque] using ho
        simp [diffAtom, this, bumpVar]
      | fn u args => simp only [diffAtom, hc]; simp [bumpVar]
      | integ b y => simp [diffAtom, constIn, bumpVar]
      | ex b => simp [diffAtom, constIn, bumpVar]
      | other b => simp [diffAtom, constIn, bumpVar]
      | _ => cases ho
    · simp [hv, diffAtom, hc]
  rw [pdiff_patom, key]
  exact .inr ⟨_, key⟩

theorem pdiffs_base (vars : List (Str × ℕ)) (a : Ex) (vs : List (Str × ℕ)) (ho : isOpaque a = true) (hc : ∀ v ∈ vars, constIn v.1 a = false) :
    pdiffs vars (patom (baseD a vs)) = patom (baseD a (bumps vars vs)) := by
  induction vars generalizing vs with
  | nil => rfl
  | cons v vars ih =>
    have it : ∀ (n : ℕ) (vs : List (Str × ℕ)), (pdiff v.1)^[n] (patom (baseD a vs)) = patom (baseD a ((bumpVar v.1)^[n] vs)) := by
      intro n
      induction n with
      | zero => intro vs; rfl
      | succ n ihn =>
        intro vs
        rw [Function.iterate_succ_apply, Function.iterate_succ_apply, pdiff_base v.1 a vs ho (hc v (by simp)), ihn]
    show pdiffs vars ((pdiff v.1)^[v.2] (patom (baseD a vs))) = _
    rw [it]
    exact ih _ (fun w hw => hc w (by simp [hw]))

theorem at_deriv {a : Ex} {vars : List (Str × ℕ)} (h : Keeps (.deriv a vars)) : At (.deriv a vars) := by
  refine ⟨h, ?_, rfl⟩
  have := pdiffs_base vars a [] h.1.opaque (fun v hv => h.1.const hv)
  rw [h.2.2] at this
  show pdiffs vars (ofEx a) = _
  rw [h.1.ofEx]
  unfold baseD at this
  rw [if_pos rfl, if_neg h.2.1] at this
  exact this

theorem at_func {g : Str} {a : Ex} (h : Keeps (.func g a)) : At (.func g a) :=
  ⟨h, by show patom (.func g (Rand.eval a)) = _; rw [h.2], rfl⟩

/-! ## Polynomials in normal form -/

/-- Monomials in normal form. -/
def NM (m : Mono) : Prop := SortedM m ∧ ∀ f ∈ m, At f.1 ∧ f.2 ≠ 0

/-- Polynomials in normal form. -/
def NF (p : Poly) : Prop := CanonP p ∧ AllMono NM p

theorem NM.nil : NM [] := ⟨.nil, by simp⟩
theorem NM.one {a : Ex} {q : ℚ} (h : At a) (hq : q ≠ 0) : NM [(a, q)] := ⟨.one _, by simpa using ⟨h, hq⟩⟩
theorem NM.tail {f : Ex × ℚ} {m : Mono} (h : NM (f :: m)) : NM m := ⟨(List.pairwise_cons.1 h.1).2, fun g hg => h.2 g (by simp [hg])⟩

theorem nm_mulAtom (a : Ex) (q : ℚ) (m : Mono) (ha : At a) (hq : q ≠ 0) (hm : NM m) : NM (mulAtom a q m) := by
  refine ⟨sorted_mulAtom a q m hm.1, ?_⟩
  obtain ⟨-, hm⟩ := hm
  induction m with
  | nil => intro f hf; rw [mulAtom, List.mem_singleton] at hf; subst hf; exact ⟨ha, hq⟩
  | cons g m ih =>
    obtain ⟨b, p⟩ := g
    have h1 := fun f hf => hm f (List.mem_cons_of_mem _ hf)
    unfold mulAtom
    split
    · split
      · exact h1
      · intro f hf
        rcases List.mem_cons.1 hf with rfl | hf
        · exact ⟨(hm (b, p) (List.mem_cons_self ..)).1, by assumption⟩
        · exact h1 f hf
    · split
      · intro f hf
        rcases List.mem_cons.1 hf with rfl | hf
        · exact ⟨ha, hq⟩
        · exact hm f hf
      · intro f hf
        rcases List.mem_cons.1 hf with rfl | hf
        · exact hm _ (by simp)
        · exact ih h1 f hf

theorem nm_monoMul (m m' : Mono) (hm : NM m) (hm' : NM m') : NM (monoMul m m') := by
  induction m with
  | nil => exact hm'
  | cons f m ih => exact nm_mulAtom _ _ _ (hm.2 f (by simp)).1 (hm.2 f (by simp)).2 (ih hm.tail)

theorem NF.nil : NF [] := ⟨.nil, .nil⟩
theorem nf_padd {p q : Poly} (hp : AllMono NM p) (hq : NF q) : NF (padd p q) := ⟨canon_padd _ _ hq.1, allMono_padd _ _ hp hq.2⟩
theorem nf_pmul {p q : Poly} (hp : AllMono NM p) (hq : AllMono NM q) : NF (pmul p q) := ⟨canon_pmul _ _, allMono_pmul nm_monoMul _ _ hp hq⟩
theorem nf_pconst (c : ℚ) : NF (pconst c) := by
  refine ⟨canon_pconst c, ?_⟩
  unfold pconst
  split
  · exact .nil
  · exact .cons .nil .nil
theorem nf_patom {a : Ex} (h : At a) : NF (patom a) := ⟨canon_patom a, .cons (.one h (by norm_num)) .nil⟩
theorem nf_ppowN {p : Poly} (hp : AllMono NM p) (n : ℕ) : NF (ppowN p n) := by
  induction n with
  | zero => exact nf_pconst 1
  | succ n ih => exact nf_pmul hp ih.2

theorem NF.round {p : Poly} (h : NF p) : ofEx (toEx p) = p ∧ reEx (toEx p) = p :=
  ⟨round_poly hom_ofEx p h.1 (fun t ht => ⟨(h.2 t ht).1, fun f hf => ⟨((h.2 t ht).2 f hf).1.2.1, ((h.2 t ht).2 f hf).2⟩⟩),
    round_poly hom_reEx p h.1 (fun t ht => ⟨(h.2 t ht).1, fun f hf => ⟨((h.2 t ht).2 f hf).1.2.2, ((h.2 t ht).2 f hf).2⟩⟩)⟩

theorem NF.eval {p : Poly} (h : NF p) : Rand.eval (toEx p) = toEx p := by unfold Rand.eval; rw [h.round.1]

theorem NF.keeps {p : Poly} (h : NF p) : Keeps (toEx p) :=
  exprOK_toEx (Q := fun a _ => Keeps a) ⟨fun _ => trivial, fun _ _ h h' => ⟨h, h'⟩, fun _ _ h h' => ⟨h, h'⟩⟩
    (fun a q h => by unfold factorEx; split; exacts [h, h]) p (fun t ht f hf => ((h.2 t ht).2 f hf).1.1)

theorem nf_ppow {p : Poly} (hp : NF p) (q : ℚ) : NF (ppow p q) := by
  by_cases hn : isNat q = true
  · unfold ppow
    rw [if_pos hn]
    exact nf_ppowN hp.2 _
  · have hq : q ≠ 0 := by rintro rfl; exact hn (by decide +kernel)
    have at' : ppow p q = patom (.pow (toEx p) q) → At (.pow (toEx p) q) := fun e =>
      ⟨hp.keeps, by show ppow (ofEx (toEx p)) q = _; rw [hp.round.1, e], by show ppow (reEx (toEx p)) q = _; rw [hp.round.2, e]⟩
    have : ppow p q = patom (.pow (toEx p) q) ∨ ∃ a k, (([(a, k)], (1 : ℚ)) : Mono × ℚ) ∈ p ∧ ppow p q = [([(a, k * q)], 1)] := by
      unfold ppow
      rw [if_neg hn]
      split
      · rename_i a k c
        split
        · rename_i hc
          right
          exact ⟨a, k, by rw [← hc.1]; simp, rfl⟩
        · exact .inl rfl
      · exact .inl rfl
    rcases this with e | ⟨a, k, hm, e⟩
    · rw [e]; exact nf_patom (at' e)
    · rw [e]
      have h1 := (hp.2 _ hm).2 (a, k) (by simp)
      exact ⟨.one _ (by norm_num), .cons (.one h1.1 (mul_ne_zero h1.2 hq)) .nil⟩

theorem nf_reEx (e : Ex) (h : Keeps e) : NF (reEx e) := by
  induction e with
  | num q => exact nf_pconst q
  | add a b iha ihb => exact nf_padd (iha h.1).2 (ihb h.2)
  | mul a b iha ihb => exact nf_pmul (iha h.1).2 (ihb h.2).2
  | pow a q ih => exact nf_ppow (ih h) q
  | sym s => exact nf_patom ⟨trivial, rfl, rfl⟩
  | fn u args => exact nf_patom ⟨trivial, rfl, rfl⟩
  | func g a ih => exact nf_patom (at_func h)
  | deriv a vars ih => exact nf_patom (at_deriv h)
  | integ a x ih => exact nf_patom ⟨h, by show patom (.integ (Rand.eval a) x) = _; rw [show Rand.eval a = a from h], rfl⟩
  | ex a ih => exact nf_patom ⟨h, h, rfl⟩
  | other b => exact nf_patom ⟨trivial, rfl, rfl⟩

theorem keeps_base {x : Str} {a : Ex} (ha : Keeps a) (ho : isOpaque a = true) (hc : constIn x a = false) : Keeps (.deriv a [(x, 1)]) := by
  refine ⟨?_, by simp, rfl⟩
  cases a with
  | fn u args => simpa [constIn, Base] using hc
  | func g b => exact ⟨by simpa [isOpaque] using ho, ha.2⟩
  | integ b y => exact ha
  | ex b => exact ha
  | other b => trivial
  | _ => cases ho

theorem keeps_bump {x : Str} {a : Ex} {vars : List (Str × ℕ)} (h : Keeps (.deriv a vars)) (hc : constIn x a = false) :
    Keeps (.deriv a (bumpVar x vars)) := by
  refine ⟨?_, tidy_bump (.inr h.2)⟩
  cases a with
  | fn u args =>
    intro v hv
    rcases mem_bumpVar x vars v hv with e | ⟨w, hw, e⟩
    · rw [e]; simpa [constIn] using hc
    · rw [← e]; exact h.1 w hw
  | func g b => exact h.1
  | integ b y => exact h.1
  | ex b => exact h.1
  | other b => trivial
  | _ => exact h.1.elim

theorem nf_diffAtom (x : Str) (e : Ex) (h : Keeps e) : NF (diffAtom x e) := by
  induction e with
  | num q => exact .nil
  | sym s => simp only [diffAtom]; split; exacts [nf_pconst 1, .nil]
  | func g a ih =>
    simp only [diffAtom]
    split
    · rename_i d hg
      have hd := (dfunc_closed (G := Keeps) ⟨fun _ => trivial, fun _ _ h h' => ⟨h, h'⟩, fun _ _ h h' => ⟨h, h'⟩⟩ (fun _ _ h => h) hg a h.1
        (fun _ _ => h)).1
      exact nf_pmul (nf_reEx _ hd).2 (ih h.1).2
    · rename_i hg
      exact nf_patom (at_deriv (keeps_base h (by simp [isOpaque, hg]) rfl))
  | add a b iha ihb => exact nf_padd (iha h.1).2 (ihb h.2)
  | mul a b iha ihb =>
    exact nf_padd (nf_pmul (iha h.1).2 (nf_reEx b h.2).2).2 (nf_pmul (nf_reEx a h.1).2 (ihb h.2).2)
  | pow a q ih => exact nf_pmul (nf_pmul (nf_pconst q).2 (nf_ppow (nf_reEx a h) _).2).2 (ih h).2
  | deriv b vars =>
    simp only [diffAtom]
    split
    · exact .nil
    · rename_i hc
      exact nf_patom (at_deriv (keeps_bump h (by simpa using hc)))
  | fn u args =>
    simp only [diffAtom]
    split
    · exact .nil
    · rename_i hc
      exact nf_patom (at_deriv (keeps_base h rfl (by simpa using hc)))
  | integ a y =>
    simp only [diffAtom]
    split
    · exact .nil
    · exact nf_patom (at_deriv (keeps_base h rfl rfl))
  | ex a =>
    simp only [diffAtom]
    split
    · exact .nil
    · exact nf_patom (at_deriv (keeps_base h rfl rfl))
  | other b =>
    simp only [diffAtom]
    split
    · exact .nil
    · exact nf_patom (at_deriv (keeps_base h rfl rfl))

theorem nf_diffMono (x : Str) (m : Mono) (hm : NM m) : NF (diffMono x m) := by
  induction m with
  | nil => exact .nil
  | cons f m ih =>
    obtain ⟨a, q⟩ := f
    have hf := hm.2 (a, q) (by simp)
    refine nf_padd (nf_pmul (nf_pmul (nf_pmul (nf_pconst q).2 ?_).2 (nf_diffAtom x a hf.1.1).2).2 (.cons hm.tail .nil)).2
      (nf_pmul (.cons (.one hf.1 hf.2) .nil) (ih hm.tail).2)
    split
    · exact (nf_pconst 1).2
    · rename_i h1
      exact .cons (.one hf.1 (sub_ne_zero.2 h1)) .nil

theorem nf_pdiff (x : Str) {p : Poly} (hp : NF p) : NF (pdiff x p) := by
  obtain ⟨-, hp⟩ := hp
  induction p with
  | nil => exact .nil
  | cons t p ih => exact nf_padd (nf_pmul (nf_pconst _).2 (nf_diffMono x _ hp.head).2).2 (ih hp.tail)

theorem nf_pdiffs (vars : List (Str × ℕ)) {p : Poly} (hp : NF p) : NF (pdiffs vars p) := by
  induction vars generalizing p with
  | nil => exact hp
  | cons v vars ih =>
    refine ih ?_
    show NF ((pdiff v.1)^[v.2] p)
    generalize v.2 = n
    induction n generalizing p with
    | zero => exact hp
    | succ n ih => rw [Function.iterate_succ_apply]; exact ih (nf_pdiff _ hp)

/-- Expressions whose expectations are those of random functions. -/
def Src : Ex → Prop
  | .func _ a => Src a
  | .add a b => Src a ∧ Src b
  | .mul a b => Src a ∧ Src b
  | .pow a _ => Src a
  | .deriv a _ => Src a
  | .integ a _ => Src a
  | .ex a => ∃ u args, a = .fn u args ∧ omega ∈ args
  | _ => True

theorem nf_ofEx (e : Ex) (h : Src e) : NF (ofEx e) := by
  induction e with
  | num q => exact nf_pconst q
  | sym s => exact nf_patom ⟨trivial, rfl, rfl⟩
  | fn u args => exact nf_patom ⟨trivial, rfl, rfl⟩
  | func g a ih => exact nf_patom (at_func ⟨(ih h).keeps, (ih h).eval⟩)
  | add a b iha ihb => exact nf_padd (iha h.1).2 (ihb h.2)
  | mul a b iha ihb => exact nf_pmul (iha h.1).2 (ihb h.2).2
  | pow a q ih => exact nf_ppow (ih h) q
  | deriv a vars ih => exact nf_pdiffs vars (ih h)
  | integ a x ih =>
    have e := (ih h).eval
    refine nf_patom ⟨e, ?_, rfl⟩
    show patom (.integ (Rand.eval (toEx (ofEx a))) x) = _
    rw [e]
  | ex a ih =>
    obtain ⟨u, args, rfl, ho⟩ := h
    rw [ofEx_exFn u args ho]
    have := ofEx_exFn u args ho
    exact nf_patom ⟨this, this, rfl⟩
  | other b => exact nf_patom ⟨trivial, rfl, rfl⟩

end Sympkf.Spec
