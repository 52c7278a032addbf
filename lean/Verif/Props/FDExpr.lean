import Mathlib.Data.List.Sort
import Verif.Model.FDExpr
import Verif.Lemmas.FiniteDiffOrder

/-!
# C32: `finite_difference` of an expression
-/

set_option autoImplicit false

namespace Sympkf.FinDiff

open Text

/-! ## Specification -/

/-- The derivatives that occur in an expression. -/
def derivs : FExpr → List (FExpr × List (Str × ℕ))
  | .num _ => []
  | .sym _ => []
  | .fn _ _ => []
  | .deriv e vars => (e, vars) :: derivs e
  | .add a b => derivs a ++ derivs b
  | .mul a b => derivs a ++ derivs b
  | .pow a _ => derivs a
  | .func _ a => derivs a

/-- The derivatives of an evaluated expression apply to functions. -/
def Evaluated (e : FExpr) : Prop := ∀ p ∈ derivs e, ∃ u args, p.1 = .fn u args

/-- SymPy writes the variables of a derivative in a canonical order: equal multiplicities, equal lists. -/
def CanonicalVars (e : FExpr) : Prop := ∀ p ∈ derivs e, ∀ q ∈ derivs e, p.1 = q.1 →
  (∀ x, countVar p.2 x = countVar q.2 x) → p.2 = q.2

/-- Interpretation of symbols, functions and elementary functions in a field. -/
structure Env (K : Type) where
  sym : Str → K
  fn : Str → List K → K
  func : Str → K → K

variable {K : Type} [Field K]

/-- The function `u(x + k*dx, ..)` of the coordinates. -/
def funOf (env : Env K) (h : Str → K) (u : Str) (args : List (Str × ℤ)) (p : Str → K) : K :=
  env.fn u (args.map (fun a => p a.1 + (a.2 : K) * h a.1))

/-- The value of an expression when every derivative `Derivative(f, (x,o), ..)` stands for the finite difference of `f` at
the point `p` with steps `h`. -/
def value (env : Env K) (h p : Str → K) : FExpr → K
  | .num q => (q : K)
  | .sym s => env.sym s
  | .fn u args => funOf env h u args p
  | .deriv e vars => fdMixed h vars (fun p' => value env h p' e) p
  | .add a b => value env h p a + value env h p b
  | .mul a b => value env h p a * value env h p b
  | .pow a n => value env h p a ^ n
  | .func g a => env.func g (value env h p a)

/-! ## Proof -/

/-- The derivatives of a list replaced by their finite differences. -/
def replP (P : List DAtom) : FExpr → FExpr
  | .num q => .num q
  | .sym s => .sym s
  | .fn u args => .fn u args
  | .deriv (.fn u args) vars => if ⟨u, args, vars⟩ ∈ P then fdExpr u args vars else .deriv (.fn u args) vars
  | .deriv e vars => .deriv e vars
  | .add a b => .add (replP P a) (replP P b)
  | .mul a b => .mul (replP P a) (replP P b)
  | .pow a n => .pow (replP P a) n
  | .func g a => .func g (replP P a)

theorem derivs_stencilSum (x : Str) (o : ℕ) (f : ℤ → FExpr) (l : List (ℚ × ℤ)) (hf : ∀ k, derivs (f k) = []) :
    derivs (stencilSum x o f l) = [] := by
  induction l with
  | nil => rfl
  | cons p l ih =>
    obtain ⟨w, k⟩ := p
    simp [stencilSum, derivs, hf, ih]

theorem derivs_fdExpr (u : Str) (args : List (Str × ℤ)) (vars : List (Str × ℕ)) : derivs (fdExpr u args vars) = [] := by
  induction vars generalizing args with
  | nil => rfl
  | cons p vars ih =>
    obtain ⟨x, o⟩ := p
    exact derivs_stencilSum _ _ _ _ (fun k => ih _)

theorem subsD_of_derivs_nil (d : DAtom) (new e : FExpr) (h : derivs e = []) : subsD d new e = e := by
  induction e with
  | num _ => rfl
  | sym _ => rfl
  | fn _ _ => rfl
  | deriv e vars _ => simp [derivs] at h
  | add a b iha ihb => simp only [derivs, List.append_eq_nil_iff] at h; simp [subsD, iha h.1, ihb h.2]
  | mul a b iha ihb => simp only [derivs, List.append_eq_nil_iff] at h; simp [subsD, iha h.1, ihb h.2]
  | pow a n iha => simp only [derivs] at h; simp [subsD, iha h]
  | func g a iha => simp only [derivs] at h; simp [subsD, iha h]

/-- One substitution, when no remaining derivative is a proper higher derivative. -/
theorem subsD_replP (P : List DAtom) (d : DAtom) (e : FExpr) (he : Evaluated e)
    (hd : ∀ vars, (FExpr.fn d.u d.args, vars) ∈ derivs e → (⟨d.u, d.args, vars⟩ : DAtom) ∉ P → vars ≠ d.vars →
      isSub d.vars vars = false) :
    subsD d (fdExpr d.u d.args d.vars) (replP P e) = replP (d :: P) e := by
  induction e with
  | num _ => rfl
  | sym _ => rfl
  | fn _ _ => rfl
  | deriv e vars _ =>
    obtain ⟨u, args, rfl⟩ := he (e, vars) (by simp [derivs])
    unfold replP
    by_cases h1 : (⟨u, args, vars⟩ : DAtom) ∈ P
    · rw [if_pos h1, if_pos (List.mem_cons_of_mem _ h1)]
      exact subsD_of_derivs_nil _ _ _ (derivs_fdExpr _ _ _)
    · rw [if_neg h1]
      unfold subsD
      by_cases h2 : u = d.u ∧ args = d.args
      · obtain ⟨rfl, rfl⟩ := h2
        rw [if_pos rfl]
        by_cases h3 : vars = d.vars
        · subst h3; simp
        · have h4 := hd vars (by simp [derivs]) h1 h3
          rw [if_neg h3, h4, if_neg (by simp)]
          rw [if_neg]
          intro hm
          rcases List.mem_cons.1 hm with hm | hm
          · exact h3 (congrArg DAtom.vars hm)
          · exact h1 hm
      · rw [if_neg (by simpa using h2)]
        rw [if_neg]
        · rfl
        · intro hm
          rcases List.mem_cons.1 hm with hm | hm
          · exact h2 ⟨congrArg DAtom.u hm, congrArg DAtom.args hm⟩
          · exact h1 hm
  | add a b iha ihb =>
    simp only [replP, subsD]
    rw [iha (fun p hp => he p (by simp [derivs, hp])) (fun v hv => hd v (by simp [derivs, hv])),
      ihb (fun p hp => he p (by simp [derivs, hp])) (fun v hv => hd v (by simp [derivs, hv]))]
  | mul a b iha ihb =>
    simp only [replP, subsD]
    rw [iha (fun p hp => he p (by simp [derivs, hp])) (fun v hv => hd v (by simp [derivs, hv])),
      ihb (fun p hp => he p (by simp [derivs, hp])) (fun v hv => hd v (by simp [derivs, hv]))]
  | pow a n iha =>
    simp only [replP, subsD]
    rw [iha (fun p hp => he p (by simpa [derivs] using hp)) (fun v hv => hd v (by simpa [derivs] using hv))]
  | func g a iha =>
    simp only [replP, subsD]
    rw [iha (fun p hp => he p (by simpa [derivs] using hp)) (fun v hv => hd v (by simpa [derivs] using hv))]

theorem replP_nil (e : FExpr) : replP [] e = e := by
  induction e with
  | num _ => rfl
  | sym _ => rfl
  | fn _ _ => rfl
  | deriv e vars _ => cases e <;> simp [replP]
  | add a b iha ihb => simp [replP, iha, ihb]
  | mul a b iha ihb => simp [replP, iha, ihb]
  | pow a n iha => simp [replP, iha]
  | func g a iha => simp [replP, iha]

theorem countVar_le_sum (vars : List (Str × ℕ)) (x : Str) : countVar vars x ≤ (vars.map Prod.snd).sum := by
  induction vars with
  | nil => simp [countVar]
  | cons p vars ih =>
    unfold countVar at *
    by_cases h : p.1 = x <;> simp [h] <;> omega

/-- The total order is the sum of the multiplicities over any set of variables containing those of the list. -/
theorem sum_countVar (vars : List (Str × ℕ)) (s : Finset Str) (hs : ∀ p ∈ vars, p.1 ∈ s) :
    (vars.map Prod.snd).sum = ∑ x ∈ s, countVar vars x := by
  induction vars with
  | nil => simp [countVar]
  | cons p vars ih =>
    have h1 := ih (fun q hq => hs q (List.mem_cons_of_mem _ hq))
    have h2 : ∀ x ∈ s, countVar (p :: vars) x = (if p.1 = x then p.2 else 0) + countVar vars x := by
      intro x _
      unfold countVar
      by_cases h : p.1 = x <;> simp [h]
    rw [Finset.sum_congr rfl h2, Finset.sum_add_distrib, List.map_cons, List.sum_cons, h1, Finset.sum_ite_eq, if_pos (hs p (by simp))]

theorem countVar_eq_zero (vars : List (Str × ℕ)) (x : Str) (h : ∀ p ∈ vars, p.1 ≠ x) : countVar vars x = 0 := by
  unfold countVar
  rw [List.filter_eq_nil_iff.2 (by intro p hp; simpa using h p hp)]; rfl

/-- A lower derivative of at least the same total order is the same derivative. -/
theorem isSub_same_order (old self : List (Str × ℕ)) (h : isSub old self = true)
    (ho : (self.map Prod.snd).sum ≤ (old.map Prod.snd).sum) : ∀ x, countVar old x = countVar self x := by
  have hle : ∀ x, countVar old x ≤ countVar self x := by
    intro x
    by_cases hx : ∃ p ∈ old, p.1 = x
    · obtain ⟨p, hp, rfl⟩ := hx
      unfold isSub at h
      rw [List.all_eq_true] at h
      simpa using h p hp
    · rw [countVar_eq_zero old x (by intro p hp e; exact hx ⟨p, hp, e⟩)]; omega
  intro x
  let s : Finset Str := insert x ((old.map Prod.fst).toFinset ∪ (self.map Prod.fst).toFinset)
  have h1 := sum_countVar old s (by
    intro p hp; simp only [s, Finset.mem_insert, Finset.mem_union, List.mem_toFinset]
    exact Or.inr (Or.inl (List.mem_map_of_mem hp)))
  have h2 := sum_countVar self s (by
    intro p hp; simp only [s, Finset.mem_insert, Finset.mem_union, List.mem_toFinset]
    exact Or.inr (Or.inr (List.mem_map_of_mem hp)))
  rw [h1, h2] at ho
  have h3 := (Finset.sum_eq_sum_iff_of_le (s := s) (fun i _ => hle i)).1 (le_antisymm (Finset.sum_le_sum (fun i _ => hle i)) ho)
  exact h3 x (by simp [s])

theorem mem_decreasing (atoms : List DAtom) (d : DAtom) : d ∈ decreasing atoms ↔ d ∈ atoms := by
  unfold decreasing
  simp only [List.mem_flatMap, List.mem_mergeSort, List.mem_dedup, List.mem_map, List.mem_filter, decide_eq_true_eq]
  constructor
  · rintro ⟨n, -, h, -⟩; exact h
  · intro h; exact ⟨_, ⟨d, h, rfl⟩, h, rfl⟩

theorem pairwise_decreasing (atoms : List DAtom) : (decreasing atoms).Pairwise (fun a b => totalOrder b ≤ totalOrder a) := by
  unfold decreasing
  rw [List.pairwise_flatMap]
  constructor
  · intro n _
    refine List.Pairwise.imp_of_mem ?_ (List.pairwise_of_forall (l := List.filter _ _) (R := fun _ _ => True) (fun _ _ => trivial))
    intro a b ha hb _
    simp only [List.mem_filter, decide_eq_true_eq] at ha hb
    omega
  · have := List.pairwise_mergeSort (le := fun a b : ℕ => decide (b ≤ a)) (by intro a b c; simp; omega) (by intro a b; simp; omega)
      ((atoms.map totalOrder).dedup)
    refine this.imp ?_
    intro a b hab x hx y hy
    simp only [List.mem_filter, decide_eq_true_eq] at hx hy hab
    omega

theorem foldl_subsD (e : FExpr) (he : Evaluated e) (hc : CanonicalVars e) (ds : List DAtom) (P : List DAtom)
    (hmem : ∀ d, d ∈ P ++ ds ↔ (FExpr.fn d.u d.args, d.vars) ∈ derivs e)
    (hsort : ds.Pairwise (fun a b => totalOrder b ≤ totalOrder a)) :
    ds.foldl (fun e d => subsD d (fdExpr d.u d.args d.vars) e) (replP P e) = replP (ds.reverse ++ P) e := by
  induction ds generalizing P with
  | nil => simp
  | cons d ds ih =>
    rw [List.foldl_cons, subsD_replP P d e he]
    · rw [ih (d :: P) ?_ (List.pairwise_cons.1 hsort).2]
      · simp
      · intro d'
        rw [← hmem d']; simp; tauto
    · intro vars hv hP hne
      by_contra hs
      rw [Bool.not_eq_false] at hs
      have hm : (⟨d.u, d.args, vars⟩ : DAtom) ∈ P ++ d :: ds := (hmem ⟨d.u, d.args, vars⟩).2 hv
      have hle : totalOrder ⟨d.u, d.args, vars⟩ ≤ totalOrder d := by
        rcases List.mem_append.1 hm with hm | hm
        · exact absurd hm hP
        · rcases List.mem_cons.1 hm with hm | hm
          · exact absurd (congrArg DAtom.vars hm) hne
          · exact (List.pairwise_cons.1 hsort).1 _ hm
      have h1 := isSub_same_order d.vars vars hs hle
      have h2 := hc _ ((hmem d).1 (by simp)) _ hv rfl h1
      exact hne h2.symm

theorem finiteDifference_eq (e : FExpr) (he : Evaluated e) (hc : CanonicalVars e) (atoms : List DAtom)
    (hatoms : ∀ d, d ∈ atoms ↔ (FExpr.fn d.u d.args, d.vars) ∈ derivs e) :
    finiteDifference atoms e = replP ((decreasing atoms).reverse) e := by
  unfold finiteDifference
  have := foldl_subsD e he hc (decreasing atoms) [] (by intro d; rw [List.nil_append, mem_decreasing, hatoms]) (pairwise_decreasing atoms)
  rw [replP_nil, List.append_nil] at this
  exact this

theorem derivs_replP (e : FExpr) (he : Evaluated e) (P : List DAtom)
    (hP : ∀ d : DAtom, (FExpr.fn d.u d.args, d.vars) ∈ derivs e → d ∈ P) : derivs (replP P e) = [] := by
  induction e with
  | num _ => rfl
  | sym _ => rfl
  | fn _ _ => rfl
  | deriv e vars _ =>
    obtain ⟨u, args, rfl⟩ := he (e, vars) (by simp [derivs])
    unfold replP
    rw [if_pos (hP ⟨u, args, vars⟩ (by simp [derivs]))]
    exact derivs_fdExpr _ _ _
  | add a b iha ihb =>
    simp only [replP, derivs, List.append_eq_nil_iff]
    exact ⟨iha (fun p hp => he p (by simp [derivs, hp])) (fun d hd => hP d (by simp [derivs, hd])),
      ihb (fun p hp => he p (by simp [derivs, hp])) (fun d hd => hP d (by simp [derivs, hd]))⟩
  | mul a b iha ihb =>
    simp only [replP, derivs, List.append_eq_nil_iff]
    exact ⟨iha (fun p hp => he p (by simp [derivs, hp])) (fun d hd => hP d (by simp [derivs, hd])),
      ihb (fun p hp => he p (by simp [derivs, hp])) (fun d hd => hP d (by simp [derivs, hd]))⟩
  | pow a n iha =>
    exact iha (fun p hp => he p (by simpa [derivs] using hp)) (fun d hd => hP d (by simpa [derivs] using hd))
  | func g a iha =>
    exact iha (fun p hp => he p (by simpa [derivs] using hp)) (fun d hd => hP d (by simpa [derivs] using hd))

/-! ### Values -/

theorem value_stencilSum (env : Env K) (h p : Str → K) (x : Str) (o : ℕ) (f : ℤ → FExpr) (l : List (ℚ × ℤ)) :
    value env h p (stencilSum x o f l)
      = (l.map (fun wk => (wk.1 : K) * env.sym ('d' :: x) ^ (-(o : ℤ)) * value env h p (f wk.2))).sum := by
  induction l with
  | nil => simp [stencilSum, value]
  | cons wk l ih =>
    obtain ⟨w, k⟩ := wk
    simp [stencilSum, value, ih]

theorem fornberg_map (M : ℕ) [CharZero K] (x : ℕ → ℚ) (x0 : ℚ) (n m ν : ℕ) :
    ((fornberg M x x0 n m ν : ℚ) : K) = fornberg M (fun i => (x i : K)) (x0 : K) n m ν := by
  have hC : ∀ n, ((fornbergC x n : ℚ) : K) = fornbergC (fun i => (x i : K)) n := by
    intro n
    rw [fornbergC_eq, fornbergC_eq]; push_cast; rfl
  induction n generalizing m ν with
  | zero => unfold fornberg; split <;> simp
  | succ n ih =>
    unfold fornberg
    split
    · split
      · push_cast; rw [ih, ih]
      · split
        · push_cast; rw [ih, ih, hC, hC]
        · simp
    · simp

theorem unitWeight_cast [CharZero K] (o ν : ℕ) : ((unitWeight ℚ o ν : ℚ) : K) = unitWeight K o ν := by
  unfold unitWeight
  rw [fornberg_map]; simp

theorem funOf_shift (env : Env K) (h : Str → K) (u : Str) (args : List (Str × ℤ)) (x : Str) (k : ℤ) (p : Str → K) :
    funOf env h u (shiftArgs args x k) p = funOf env h u args (p + Pi.single x ((k : K) * h x)) := by
  unfold funOf shiftArgs
  rw [List.map_map]
  congr 1
  refine List.map_congr_left (fun a _ => ?_)
  simp only [Function.comp]
  by_cases hx : a.1 = x
  · simp only [hx, if_true, Pi.add_apply, Pi.single_eq_same]
    push_cast; ring
  · simp [hx]

theorem fdMixed_fdAlong_mem {V : Type} [AddCommGroup V] [Module K V] (h : Str → K) (L : List (Str × ℕ)) (hh : ∀ v ∈ L, h v.1 ≠ 0)
    (i : Str) (hi : h i ≠ 0) (o : ℕ) (u : (Str → K) → V) : fdMixed h L (fdAlong h i o u) = fdAlong h i o (fdMixed h L u) := by
  induction L generalizing u with
  | nil => rfl
  | cons p L ih =>
    obtain ⟨j, n⟩ := p
    show fdMixed h L (fdAlong h j n (fdAlong h i o u)) = fdAlong h i o (fdMixed h L (fdAlong h j n u))
    rw [fdAlong_comm h j i n o (hh (j, n) (by simp)) hi, ih (fun v hv => hh v (List.mem_cons_of_mem _ hv))]

theorem fdMixed_translate {V : Type} [AddCommGroup V] [Module K V] (h : Str → K) (vars : List (Str × ℕ)) (hh : ∀ v ∈ vars, h v.1 ≠ 0)
    (f : (Str → K) → V) (c p : Str → K) : fdMixed h vars (fun q => f (q + c)) p = fdMixed h vars f (p + c) := by
  induction vars generalizing f with
  | nil => rfl
  | cons v vars ih =>
    obtain ⟨x, o⟩ := v
    show fdMixed h vars _ p = fdMixed h vars _ (p + c)
    rw [← ih (fun v hv => hh v (List.mem_cons_of_mem _ hv))]
    congr 1
    funext q
    have hx := hh (x, o) (by simp)
    rw [fdAlong_eq_sum h x o hx, fdAlong_eq_sum h x o hx]
    refine Finset.sum_congr rfl (fun ν _ => ?_)
    rw [add_right_comm]

theorem value_fdExpr [CharZero K] (env : Env K) (h : Str → K) (u : Str) (args : List (Str × ℤ)) (vars : List (Str × ℕ))
    (hh : ∀ v ∈ vars, h v.1 ≠ 0) (hs : ∀ v ∈ vars, env.sym ('d' :: v.1) = h v.1) (p : Str → K) :
    value env h p (fdExpr u args vars) = fdMixed h vars (funOf env h u args) p := by
  induction vars generalizing args p with
  | nil => rfl
  | cons v vars ih =>
    obtain ⟨x, o⟩ := v
    have hx := hh (x, o) (by simp)
    have hh' : ∀ v ∈ vars, h v.1 ≠ 0 := fun v hv => hh v (List.mem_cons_of_mem _ hv)
    have hsx : env.sym ('d' :: x) = h x := hs (x, o) (by simp)
    have hs' : ∀ v ∈ vars, env.sym ('d' :: v.1) = h v.1 := fun v hv => hs v (List.mem_cons_of_mem _ hv)
    unfold fdExpr
    rw [value_stencilSum, weights_points o (1 : ℚ) 0 one_ne_zero, offsets_eq, List.zip_map]
    rw [show fdMixed h ((x, o) :: vars) (funOf env h u args) p = fdMixed h vars (fdAlong h x o (funOf env h u args)) p from rfl,
      fdMixed_fdAlong_mem h vars hh' x hx, fdAlong_eq_sum h x o hx]
    rw [List.map_map]
    have e : (List.range (o + 1)).zip (List.range (o + 1)) = (List.range (o + 1)).map (fun ν => (ν, ν)) := by
      rw [List.zip, List.zipWith_self]
    rw [e, List.map_map]
    refine Eq.trans ?_ (b := ∑ ν ∈ Finset.range (o + 1), (unitWeight K o ν / h x ^ o)
      * fdMixed h vars (funOf env h u (shiftArgs args x (off o ν))) p) ?_
    · show _ = ((List.range (o + 1)).map _).sum
      congr 1
      refine List.map_congr_left (fun ν _ => ?_)
      simp only [Function.comp, Prod.map, ih _ hh' hs', hsx]
      rw [one_pow, div_one, unitWeight_cast, zpow_neg, zpow_natCast, div_eq_mul_inv]
    · refine Finset.sum_congr rfl (fun ν _ => ?_)
      rw [smul_eq_mul]
      have : funOf env h u (shiftArgs args x (off o ν)) = fun q => funOf env h u args (q + Pi.single x ((off o ν : K) * h x)) :=
        funext (funOf_shift env h u args x (off o ν))
      rw [this, fdMixed_translate h vars hh']

theorem value_replP [CharZero K] (env : Env K) (h : Str → K) (P : List DAtom) (e : FExpr)
    (hh : ∀ d ∈ derivs e, ∀ v ∈ d.2, h v.1 ≠ 0) (hs : ∀ d ∈ derivs e, ∀ v ∈ d.2, env.sym ('d' :: v.1) = h v.1) (p : Str → K) : value env h p (replP P e) = value env h p e := by
  induction e with
  | num _ => rfl
  | sym _ => rfl
  | fn _ _ => rfl
  | deriv e vars _ =>
    cases e with
    | fn u args =>
      unfold replP
      split
      · rw [value_fdExpr env h u args vars (hh (.fn u args, vars) (by simp [derivs]))
          (hs (.fn u args, vars) (by simp [derivs]))]; rfl
      · rfl
    | _ => rfl
  | add a b iha ihb | mul a b iha ihb =>
    simp only [derivs, List.mem_append] at hh hs
    simp only [replP, value, iha (fun d hd => hh d (.inl hd)) (fun d hd => hs d (.inl hd)),
      ihb (fun d hd => hh d (.inr hd)) (fun d hd => hs d (.inr hd))]
  | pow a n iha => simp only [replP, value, iha hh hs]
  | func g a iha => simp only [replP, value, iha hh hs]

/-! ## The property -/

/-- C32: `finite_difference(expr)` contains no derivative. -/
theorem C32_no_derivative (e : FExpr) (he : Evaluated e) (hc : CanonicalVars e) (atoms : List DAtom)
    (hatoms : ∀ d, d ∈ atoms ↔ (FExpr.fn d.u d.args, d.vars) ∈ derivs e) : derivs (finiteDifference atoms e) = [] := by
  rw [finiteDifference_eq e he hc atoms hatoms]
  refine derivs_replP e he _ (fun d hd => ?_)
  rw [List.mem_reverse, mem_decreasing, hatoms]; exact hd

/-- C32: its value is the value of `expr` in which every derivative is replaced by its finite difference. -/
theorem C32_value [CharZero K] (e : FExpr) (he : Evaluated e) (hc : CanonicalVars e) (atoms : List DAtom)
    (hatoms : ∀ d, d ∈ atoms ↔ (FExpr.fn d.u d.args, d.vars) ∈ derivs e)
    (env : Env K) (h p : Str → K) (hh : ∀ d ∈ derivs e, ∀ v ∈ d.2, h v.1 ≠ 0)
    (hs : ∀ d ∈ derivs e, ∀ v ∈ d.2, env.sym ('d' :: v.1) = h v.1) :
    value env h p (finiteDifference atoms e) = value env h p e := by
  rw [finiteDifference_eq e he hc atoms hatoms, value_replP env h _ e hh hs]

/-- C32: the result does not depend on the order in which the set of derivatives is iterated. -/
theorem C32_order_independent (e : FExpr) (he : Evaluated e) (hc : CanonicalVars e) (atoms atoms' : List DAtom)
    (h1 : ∀ d, d ∈ atoms ↔ (FExpr.fn d.u d.args, d.vars) ∈ derivs e)
    (h2 : ∀ d, d ∈ atoms' ↔ (FExpr.fn d.u d.args, d.vars) ∈ derivs e) :
    finiteDifference atoms e = finiteDifference atoms' e := by
  rw [finiteDifference_eq e he hc atoms h1, finiteDifference_eq e he hc atoms' h2]
  have hmem : ∀ d, d ∈ (decreasing atoms).reverse ↔ d ∈ (decreasing atoms').reverse := by
    intro d; rw [List.mem_reverse, List.mem_reverse, mem_decreasing, mem_decreasing, h1, h2]
  generalize (decreasing atoms).reverse = P at hmem
  generalize (decreasing atoms').reverse = P' at hmem
  clear h1 h2 he hc
  induction e with
  | num _ => rfl
  | sym _ => rfl
  | fn _ _ => rfl
  | deriv e vars _ => cases e <;> simp [replP, hmem]
  | add a b iha ihb => simp [replP, iha, ihb]
  | mul a b iha ihb => simp [replP, iha, ihb]
  | pow a n iha => simp [replP, iha]
  | func g a iha => simp [replP, iha]

/-- `u u_x + ν u_xx`, where the first derivative is a lower derivative of the second one. -/
def demoExpr : FExpr :=
  let u : FExpr := .fn "u".toList [("t".toList, 0), ("x".toList, 0)]
  .add (.mul u (.deriv u [("x".toList, 1)])) (.mul (.sym "nu".toList) (.deriv u [("x".toList, 2)]))

/-- Non-vacuity: the hypotheses hold for `u u_x + ν u_xx` with the derivatives listed in the "wrong" order. -/
example : Evaluated demoExpr ∧ CanonicalVars demoExpr
    ∧ ∀ d, d ∈ [(⟨"u".toList, [("t".toList, 0), ("x".toList, 0)], [("x".toList, 1)]⟩ : DAtom),
        ⟨"u".toList, [("t".toList, 0), ("x".toList, 0)], [("x".toList, 2)]⟩]
      ↔ (FExpr.fn d.u d.args, d.vars) ∈ derivs demoExpr := by
  refine ⟨?_, ?_, ?_⟩
  · intro p hp
    simp only [demoExpr, derivs, List.nil_append, List.mem_append, List.mem_cons, List.not_mem_nil, or_false] at hp
    rcases hp with rfl | rfl <;> exact ⟨_, _, rfl⟩
  · intro p hp q hq _ hcount
    simp only [demoExpr, derivs, List.nil_append, List.mem_append, List.mem_cons, List.not_mem_nil, or_false] at hp hq
    have := hcount "x".toList
    rcases hp with rfl | rfl <;> rcases hq with rfl | rfl <;> first | rfl | (exfalso; revert this; decide)
  · rintro ⟨u, args, vars⟩
    simp only [demoExpr, derivs, List.nil_append, List.mem_append, List.mem_cons, List.not_mem_nil, or_false, DAtom.mk.injEq,
      Prod.mk.injEq, FExpr.fn.injEq]
    tauto

/-- The decreasing order matters: replacing the first derivative first leaves a derivative in the result. -/
example : derivs (let d1 : DAtom := ⟨"u".toList, [("t".toList, 0), ("x".toList, 0)], [("x".toList, 1)]⟩
    let d2 : DAtom := ⟨"u".toList, [("t".toList, 0), ("x".toList, 0)], [("x".toList, 2)]⟩
    [d1, d2].foldl (fun e d => subsD d (fdExpr d.u d.args d.vars) e) demoExpr) ≠ [] := by
  decide +kernel

end Sympkf.FinDiff
