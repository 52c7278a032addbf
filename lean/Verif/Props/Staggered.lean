import Verif.Props.RegularizeSystem

/-!
# C103: the staggered schemes of SymPy, before their regularization
-/

set_option autoImplicit false

namespace Sympkf.FinDiff

open Text Text.Spec Spec.FDSystem

/-! ## Specification -/

section

variable {K : Type} [Field K]

/-- The grid steps, halved for the variables of odd order. -/
def halfSteps (vars : List (Str × ℕ)) (h : Str → K) (x : Str) : K :=
  if ∃ v ∈ vars, v.1 = x ∧ v.2 % 2 = 1 then h x / 2 else h x

/-! ## Values -/

/-- A function of displaced coordinates. -/
def displaced (env : Env K) (h : Str → K) (u : Str) (args : List (Str × ℚ)) (p : Str → K) : K :=
  env.fn u (args.map (fun a => p a.1 + (a.2 : K) * h a.1))

theorem displaced_shift [CharZero K] (env : Env K) (h : Str → K) (u : Str) (args : List (Str × ℚ)) (x : Str) (k : ℚ) (p : Str → K) :
    displaced env h u (shiftArgsQ args x k) p = displaced env h u args (p + Pi.single x ((k : K) * h x)) := by
  unfold displaced shiftArgsQ
  rw [List.map_map]
  congr 1
  refine List.map_congr_left (fun a _ => ?_)
  simp only [Function.comp]
  by_cases hx : a.1 = x
  · rw [if_pos hx]
    simp only [hx, Pi.add_apply, Pi.single_eq_same]
    push_cast
    ring
  · rw [if_neg hx]
    simp [hx]

theorem svalue_stencilSumQ (env : Env K) (h p : Str → K) (x : Str) (o : ℕ) (f : ℚ → SExpr) (l : List (ℚ × ℚ)) :
    svalue env h p (stencilSumQ x o f l)
      = (l.map (fun wk => (wk.1 : K) * env.sym ('d' :: x) ^ (-(o : ℤ)) * svalue env h p (f wk.2))).sum := by
  induction l with
  | nil => simp [stencilSumQ, svalue]
  | cons wk l ih =>
    obtain ⟨w, k⟩ := wk
    simp [stencilSumQ, svalue, ih]

theorem svalue_staggeredExpr [CharZero K] (env : Env K) (h h' : Str → K) (u : Str) (vars : List (Str × ℕ))
    (hh : ∀ v ∈ vars, h v.1 ≠ 0) (hs : ∀ v ∈ vars, env.sym ('d' :: v.1) = h v.1)
    (he : ∀ v ∈ vars, h' v.1 = h v.1 / (if v.2 % 2 = 0 then 1 else 2)) (args : List (Str × ℚ)) (p : Str → K) :
    svalue env h p (staggeredExpr u args vars) = fdMixed h' vars (displaced env h u args) p := by
  induction vars generalizing args p with
  | nil => simp [staggeredExpr, svalue, fdMixed, displaced]
  | cons v vars ih =>
    obtain ⟨x, o⟩ := v
    have hx : h x ≠ 0 := hh (x, o) (by simp)
    have hsx : env.sym ('d' :: x) = h x := hs (x, o) (by simp)
    have hex : h' x = h x / (if o % 2 = 0 then 1 else 2) := he (x, o) (by simp)
    have hg : (if o % 2 = 0 then (1 : K) else 2) ≠ 0 := by split <;> simp
    have hg' : ∀ n : ℕ, (if n % 2 = 0 then (1 : K) else 2) ≠ 0 := fun n => by split <;> simp
    have hx' : h' x ≠ 0 := by rw [hex]; exact div_ne_zero hx hg
    have hh' : ∀ v ∈ vars, h' v.1 ≠ 0 := fun v hv => by
      rw [he v (List.mem_cons_of_mem _ hv)]
      exact div_ne_zero (hh v (List.mem_cons_of_mem _ hv)) (hg' _)
    unfold staggeredExpr
    rw [svalue_stencilSumQ, weights_staggered]
    rw [show fdMixed h' ((x, o) :: vars) (displaced env h u args) p = fdMixed h' vars (fdAlong h' x o (displaced env h u args)) p from rfl,
      fdMixed_fdAlong_mem h' vars hh' x hx', fdAlong_eq_sum h' x o hx', List.map_map]
    show _ = ((List.range (o + 1)).map _).sum
    congr 1
    refine List.map_congr_left (fun ν _ => ?_)
    simp only [Function.comp]
    rw [ih (fun v hv => hh v (List.mem_cons_of_mem _ hv)) (fun v hv => hs v (List.mem_cons_of_mem _ hv))
      (fun v hv => he v (List.mem_cons_of_mem _ hv))]
    rw [hsx, show displaced env h u (shiftArgsQ args x ((off o ν : ℚ) / (if o % 2 = 0 then 1 else 2)))
          = fun q => displaced env h u args (q + Pi.single x ((((off o ν : ℚ) / (if o % 2 = 0 then 1 else 2) : ℚ) : K) * h x)) from
          funext (displaced_shift env h u args x _), fdMixed_translate h' vars hh', smul_eq_mul]
    have e1 : ((((off o ν : ℚ) / (if o % 2 = 0 then 1 else 2) : ℚ) : K) * h x) = (off o ν : K) * h' x := by
      rw [hex]
      split <;> (push_cast; ring)
    have e2 : ((unitWeight ℚ o ν / (1 / (if o % 2 = 0 then 1 else 2)) ^ o : ℚ) : K) * h x ^ (-(o : ℤ)) = unitWeight K o ν / h' x ^ o := by
      rw [hex, zpow_neg, zpow_natCast]
      split
      · push_cast
        rw [unitWeight_cast]
        simp only [div_one, one_pow]
        field_simp
      · push_cast
        rw [unitWeight_cast, div_pow, div_pow, one_pow]
        field_simp
    rw [e1, e2]

theorem halfSteps_eq (vars : List (Str × ℕ)) (hv : (vars.map Prod.fst).Nodup) (h : Str → K) :
    ∀ v ∈ vars, halfSteps vars h v.1 = h v.1 / (if v.2 % 2 = 0 then 1 else 2) := by
  intro v hvm
  unfold halfSteps
  have huniq : ∀ w ∈ vars, w.1 = v.1 → w = v := fun w hw e => List.inj_on_of_nodup_map hv hw hvm e
  by_cases ho : v.2 % 2 = 1
  · rw [if_pos ⟨v, hvm, rfl, ho⟩, if_neg (by omega)]
  · rw [if_neg, if_pos (by omega), div_one]
    rintro ⟨w, hw, e, ho'⟩
    rw [huniq w hw e] at ho'
    exact ho ho'

/-- **C103** The staggered scheme of a derivative of any order, with respect to distinct variables, is the scheme of `finite_difference`
with the steps of the variables of odd order halved. -/
theorem C103_value [CharZero K] (env : Env K) (h : Str → K) (u : Str) (args : List (Str × ℤ)) (vars : List (Str × ℕ))
    (hv : (vars.map Prod.fst).Nodup) (hh : ∀ v ∈ vars, h v.1 ≠ 0) (hs : ∀ v ∈ vars, env.sym ('d' :: v.1) = h v.1) (p : Str → K) :
    svalue env h p (stagger (.deriv (.fn u args) vars)) = fdMixed (halfSteps vars h) vars (funOf env h u args) p := by
  have e : displaced env h u (args.map (fun a => (a.1, (a.2 : ℚ)))) = funOf env h u args := by
    funext q
    simp [displaced, funOf, List.map_map, Function.comp_def]
  rw [← e]
  exact svalue_staggeredExpr env h _ u vars hh hs (halfSteps_eq vars hv h) _ p

end

/-! ## Consistency -/

theorem halfSteps_bounds (vars : List (Str × ℕ)) (h : Str → ℝ) (x : Str) :
    (h x ≠ 0 → halfSteps vars h x ≠ 0) ∧ |halfSteps vars h x| ≤ |h x| ∧ halfSteps vars h x ^ 2 ≤ h x ^ 2 := by
  unfold halfSteps
  split
  · refine ⟨fun h0 => div_ne_zero h0 two_ne_zero, ?_, ?_⟩
    · rw [abs_div, abs_two]
      linarith [abs_nonneg (h x)]
    · rw [div_pow]
      nlinarith [sq_nonneg (h x)]
  · exact ⟨id, le_rfl, le_rfl⟩

theorem near_stagger {S : Finset Str} (env : Env ℝ) (R : ℝ) (e : FExpr) (he : Admissible S env e)
    (hd : ∀ d ∈ derivs e, (d.2.map Prod.fst).Nodup) : Near S R (fun h p => svalue (stepEnv S env h) h p (stagger e)) (exact env e) := by
  induction e with
  | num q => exact Near.refl R _
  | sym s => exact (near_value env R (.sym s) he).congr (fun h _ p => rfl)
  | fn u args =>
    refine (near_value env R (.fn u args) he).congr (fun h _ p => ?_)
    simp [stagger, svalue, value, funOf, List.map_map, Function.comp_def]
  | deriv e vars ih =>
    obtain ⟨⟨u, args, rfl⟩, hfn, hv⟩ := he
    obtain ⟨C, δ, hC, hδ, hn⟩ := Near.mixed hfn.2 R vars hv
    refine ⟨C, δ, hC, hδ, fun h hh p hp => ?_⟩
    dsimp only
    rw [C103_value (stepEnv S env h) h u args vars (hd (.fn u args, vars) (by simp [derivs])) (fun v hv' => (hh v.1 (hv v hv')).1)
      (fun v hv' => by
        show (if v.1 ∈ S then h v.1 else _) = _
        rw [if_pos (hv v hv')]) p, funOf_step env h u args hfn.1]
    refine (hn (halfSteps vars h) (fun x hx => ⟨(halfSteps_bounds vars h x).1 (hh x hx).1,
      (halfSteps_bounds vars h x).2.1.trans (hh x hx).2⟩) p hp).trans ?_
    exact mul_le_mul_of_nonneg_left (Finset.sum_le_sum fun x _ => (halfSteps_bounds vars h x).2.2) hC
  | add a b iha ihb =>
    exact (iha he.1 (fun d h => hd d (List.mem_append_left _ h))).add (ihb he.2 (fun d h => hd d (List.mem_append_right _ h)))
  | mul a b iha ihb =>
    exact (iha he.1 (fun d h => hd d (List.mem_append_left _ h))).mul (ihb he.2 (fun d h => hd d (List.mem_append_right _ h)))
      (contIn_exact env a he.1) (contIn_exact env b he.2)
  | pow a n iha =>
    refine (iha he.1 hd).comp (contIn_exact env a he.1) (fun y => y ^ n) (fun p => ?_)
    rcases he.2 with h | h
    · lift n to ℕ using h
      simp only [zpow_natCast]
      exact (contDiff_id.pow n).contDiffAt
    · obtain ⟨k, rfl | rfl⟩ := n.eq_nat_or_neg
      · simp only [zpow_natCast]
        exact (contDiff_id.pow k).contDiffAt
      · simp only [zpow_neg, zpow_natCast]
        exact ((contDiff_id.pow k).contDiffAt).inv (pow_ne_zero _ (h p))
  | func g a iha => exact (iha he.1 hd).comp (contIn_exact env a he.1) (env.func g) he.2

/-- **C103** For smooth functions the staggered scheme of an expression is consistent at second order, uniformly on every cube, for
derivatives of all orders and inside elementary functions. -/
theorem C103_second_order (S : Finset Str) (env : Env ℝ) (e : FExpr) (he : Admissible S env e)
    (hd : ∀ d ∈ derivs e, (d.2.map Prod.fst).Nodup) (R : ℝ) :
    ∃ C δ : ℝ, 0 < δ ∧ ∀ step : Str → ℝ, (∀ x ∈ S, step x ≠ 0 ∧ |step x| ≤ δ) → ∀ p : Str → ℝ, (∀ x ∈ S, |p x| ≤ R) →
      |svalue (stepEnv S env step) step p (stagger e) - exact env e p| ≤ C * ∑ x ∈ S, step x ^ 2 := by
  obtain ⟨C, δ, -, hδ, h⟩ := near_stagger env R e he hd
  exact ⟨C, δ, hδ, h⟩

/-- Non-vacuity: `u u_x + ν u_xx + exp(u) / (ν + 2)` with `u = sin(t + x)`. -/
example : ∃ C δ : ℝ, 0 < δ ∧ ∀ step : Str → ℝ, (∀ x ∈ ({"t".toList, "x".toList} : Finset Str), step x ≠ 0 ∧ |step x| ≤ δ) →
    ∀ p : Str → ℝ, (∀ x ∈ ({"t".toList, "x".toList} : Finset Str), |p x| ≤ 5) →
      |svalue (stepEnv {"t".toList, "x".toList} caseEnv step) step p (stagger caseRhs) - exact caseEnv caseRhs p|
        ≤ C * ∑ x ∈ ({"t".toList, "x".toList} : Finset Str), step x ^ 2 :=
  C103_second_order _ caseEnv _ case_admissible (by decide +kernel) 5

end Sympkf.FinDiff
