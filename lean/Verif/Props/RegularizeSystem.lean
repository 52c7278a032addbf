import Verif.Props.FDSystem
import Verif.Lemmas.Text
import Verif.Model.RegularizeSystem
import Verif.Props.Regularize

/-!
# C94: regularization of systems
-/

set_option autoImplicit false

namespace Sympkf.FinDiff

open Text Text.Spec Spec.FDSystem

/-! ## Specification -/

variable {K : Type} [Field K]

/-- The value of an expression at the point `p` with the grid steps `h`. -/
def svalue (env : Env K) (h p : Str → K) : SExpr → K
  | .num q => (q : K)
  | .sym s => env.sym s
  | .fn u args => env.fn u (args.map (fun a => p a.1 + (a.2 : K) * h a.1))
  | .add a b => svalue env h p a + svalue env h p b
  | .mul a b => svalue env h p a * svalue env h p b
  | .pow a n => svalue env h p a ^ n
  | .func g a => env.func g (svalue env h p a)

/-- The same, each function `u(x + (n/d) dx, ..)` being read as the product of the `1/d` and `u(x + n dx, ..)`. -/
def rvalue (env : Env K) (h p : Str → K) : SExpr → K
  | .num q => (q : K)
  | .sym s => env.sym s
  | .fn u args => (args.map (fun a => ((a.2.den : ℕ) : K)⁻¹)).prod * env.fn u (args.map (fun a => p a.1 + (a.2.num : K) * h a.1))
  | .add a b => rvalue env h p a + rvalue env h p b
  | .mul a b => rvalue env h p a * rvalue env h p b
  | .pow a n => rvalue env h p a ^ n
  | .func g a => env.func g (rvalue env h p a)

/-- No elementary function; the names of displaced coordinates do not begin with `d`. -/
def Plain (e : SExpr) : Prop :=
  ∀ f ∈ e.functions, ∃ u args, f = .fn u args ∧ ∀ a ∈ args, a.2 ≠ 0 → PlainName a.1

/-- The functions are on points of the regular grid. -/
def OnGrid (e : SExpr) : Prop := ∀ f ∈ e.functions, ∀ u args, f = .fn u args → ∀ a ∈ args, a.2.den = 1

/-- The expression of an evaluated equation: derivatives of order one or even of functions on the grid, with respect to distinct
arguments of the function; no elementary function; coordinates that do not begin with `d`. -/
def Regularizable : FExpr → Prop
  | .num _ => True
  | .sym _ => True
  | .fn _ args => ∀ a ∈ args, a.2 ≠ 0 → PlainName a.1
  | .deriv e vars => ∃ u args, e = .fn u args ∧ (args.map Prod.fst).Nodup ∧ (vars.map Prod.fst).Nodup
      ∧ (∀ a ∈ args, a.2 = 0 ∧ PlainName a.1) ∧ ∀ v ∈ vars, v.1 ∈ args.map Prod.fst ∧ (v.2 = 1 ∨ v.2 % 2 = 0)
  | .add a b => Regularizable a ∧ Regularizable b
  | .mul a b => Regularizable a ∧ Regularizable b
  | .pow a _ => Regularizable a
  | .func _ _ => False

/-! ## One expression -/

/-- The function read on the regular grid. -/
def onGrid (u : Str) (args : List (Str × ℚ)) : SExpr :=
  scale (scaling (args.map Prod.snd)) (.fn u (args.map (fun a => (a.1, (a.2.num : ℚ)))))

/-- Every function is replaced. -/
def regular : SExpr → SExpr
  | .fn u args => onGrid u args
  | .num q => .num q
  | .sym s => .sym s
  | .add a b => .add (regular a) (regular b)
  | .mul a b => .mul (regular a) (regular b)
  | .pow a n => .pow (regular a) n
  | .func g a => .func g (regular a)

theorem isShifted_args (P : SymPy) (hP : ∀ l, (P.order l).Perm l) (args : List (Str × ℚ)) :
    IsShifted (args.map Prod.fst) (args.map Prod.snd) (args.map (shiftedArg P)) := by
  refine ⟨?_, by simp⟩
  induction args with
  | nil => exact .nil
  | cons a args ih =>
    refine .cons ⟨hP _, ?_⟩ ih
    simp [shiftedArg]

theorem zip_fst_snd {α β : Type} (l : List (α × β)) : (l.map Prod.fst).zip (l.map Prod.snd) = l := by
  induction l with
  | nil => rfl
  | cons a l ih => simp [ih]

theorem replacement_fn (P : SymPy) (hP : ∀ l, (P.order l).Perm l) (u : Str) (args : List (Str × ℚ))
    (h : ∀ a ∈ args, a.2 ≠ 0 → PlainName a.1) : replacement P (.fn u args) = .ok (onGrid u args) := by
  have hx : ∀ p ∈ (args.map Prod.fst).zip (args.map Prod.snd), p.2 ≠ 0 → PlainName p.1 := by
    rw [zip_fst_snd]; exact h
  have hs := isShifted_args P hP args
  simp only [replacement, getFunctionCoordinates_shifted hs hx, getDisplacement_shifted hs hx, bind, Except.bind, pure, Except.pure,
    onGrid]
  congr 3
  clear hx hs h
  induction args with
  | nil => rfl
  | cons a args ih => simpa [newArg] using ih

/-- The functions of a list replaced. -/
def replF (L : List SExpr) : SExpr → SExpr
  | .fn u args => if .fn u args ∈ L then onGrid u args else .fn u args
  | .num q => .num q
  | .sym s => .sym s
  | .add a b => .add (replF L a) (replF L b)
  | .mul a b => .mul (replF L a) (replF L b)
  | .pow a n => .pow (replF L a) n
  | .func g a => .func g (replF L a)

theorem replF_nil (e : SExpr) : replF [] e = e := by
  induction e with
  | fn u args => simp [replF]
  | num _ | sym _ => rfl
  | add a b iha ihb | mul a b iha ihb => simp [replF, iha, ihb]
  | pow a n ih | func g a ih => simp [replF, ih]

theorem replF_all (L : List SExpr) (e : SExpr) (h : ∀ f ∈ e.functions, f ∈ L) : replF L e = regular e := by
  induction e with
  | fn u args => simp only [replF, regular]; rw [if_pos (h _ (by simp [SExpr.functions]))]
  | num _ | sym _ => rfl
  | add a b iha ihb | mul a b iha ihb =>
    simp only [replF, regular]
    rw [iha (fun f hf => h f (List.mem_append_left _ hf)), ihb (fun f hf => h f (List.mem_append_right _ hf))]
  | pow a n ih => simp only [replF, regular]; rw [ih h]
  | func g a ih => simp only [replF, regular]; rw [ih (fun f hf => h f (List.mem_cons_of_mem _ hf))]

theorem scaling_num (args : List (Str × ℚ)) : scaling ((args.map (fun a => (a.1, (a.2.num : ℚ)))).map Prod.snd) = 1 := by
  have := scaling_newDisplacement (args.map Prod.snd)
  simpa [newDisplacement, List.map_map, Function.comp_def] using this

/-- A function on the regular grid is replaced by itself. -/
theorem onGrid_num (u : Str) (args : List (Str × ℚ)) :
    onGrid u (args.map (fun a => (a.1, (a.2.num : ℚ)))) = .fn u (args.map (fun a => (a.1, (a.2.num : ℚ)))) := by
  unfold onGrid
  rw [scaling_num]
  simp [scale, List.map_map, Function.comp_def]

theorem subsF_num (u : Str) (args : List (Str × ℚ)) (v : Str) (brgs : List (Str × ℚ)) :
    subsF (.fn u args) (onGrid u args) (.fn v (brgs.map (fun a => (a.1, (a.2.num : ℚ)))))
      = .fn v (brgs.map (fun a => (a.1, (a.2.num : ℚ)))) := by
  unfold subsF
  split
  · rename_i e
    injection e with e1 e2
    subst e1 e2
    exact onGrid_num _ _
  · rfl

theorem subsF_onGrid (u : Str) (args : List (Str × ℚ)) (v : Str) (brgs : List (Str × ℚ)) :
    subsF (.fn u args) (onGrid u args) (onGrid v brgs) = onGrid v brgs := by
  conv_lhs => arg 3; unfold onGrid scale
  conv_rhs => unfold onGrid scale
  split
  · exact subsF_num u args v brgs
  · unfold subsF
    rw [if_neg (by simp)]
    show SExpr.mul (subsF _ _ (.num _)) (subsF _ _ _) = _
    rw [subsF_num]
    unfold subsF
    rw [if_neg (by simp)]

theorem subsF_replF (L : List SExpr) (u : Str) (args : List (Str × ℚ)) (e : SExpr) :
    subsF (.fn u args) (onGrid u args) (replF L e) = replF (.fn u args :: L) e := by
  induction e with
  | fn v brgs =>
    simp only [replF]
    by_cases h : SExpr.fn v brgs ∈ L
    · rw [if_pos h, if_pos (List.mem_cons_of_mem _ h), subsF_onGrid]
    · rw [if_neg h]
      by_cases h2 : SExpr.fn v brgs = .fn u args
      · rw [if_pos (by rw [h2]; simp), h2]
        injection h2 with h3 h4
        subst h3 h4
        unfold subsF
        rw [if_pos rfl]
      · rw [if_neg (by simpa using ⟨fun a b => h2 (by rw [a, b]), h⟩)]
        unfold subsF
        rw [if_neg h2]
  | num _ | sym _ => unfold subsF; rw [if_neg (by simp [replF])]; rfl
  | add a b iha ihb | mul a b iha ihb =>
    simp only [replF]
    unfold subsF
    rw [if_neg (by simp)]
    simp only [iha, ihb]
  | pow a n ih | func g a ih =>
    simp only [replF]
    unfold subsF
    rw [if_neg (by simp)]
    simp only [ih]

theorem regularizeExpr_eq (P : SymPy) (hP : ∀ l, (P.order l).Perm l) (e : SExpr) (he : Plain e) (atoms : List SExpr)
    (hatoms : ∀ f, f ∈ atoms ↔ f ∈ e.functions) : regularizeExpr P atoms e = .ok (regular e) := by
  have key : ∀ (atoms L : List SExpr), (∀ f ∈ atoms, ∃ u args, f = .fn u args ∧ ∀ a ∈ args, a.2 ≠ 0 → PlainName a.1) →
      regularizeExpr P atoms (replF L e) = .ok (replF (atoms.reverse ++ L) e) := by
    intro atoms
    induction atoms with
    | nil => intro L _; rfl
    | cons f atoms ih =>
      intro L h
      obtain ⟨u, args, rfl, ha⟩ := h f (by simp)
      unfold regularizeExpr
      rw [List.foldlM_cons, replacement_fn P hP u args ha]
      simp only [bind, Except.bind, pure, Except.pure]
      rw [subsF_replF]
      have := ih (.fn u args :: L) (fun f hf => h f (List.mem_cons_of_mem _ hf))
      unfold regularizeExpr at this
      simpa [bind, Except.bind, pure, Except.pure] using this
  have := key atoms [] (fun f hf => he f ((hatoms f).1 hf))
  rw [replF_nil] at this
  rw [this, List.append_nil, replF_all _ e (fun f hf => by simpa using (hatoms f).2 hf)]

theorem svalue_scale [CharZero K] (env : Env K) (h p : Str → K) (q : ℚ) (e : SExpr) :
    svalue env h p (scale q e) = (q : K) * svalue env h p e := by
  unfold scale
  split
  · rename_i hq; rw [hq]; simp
  · rfl

theorem scaling_cast [CharZero K] (l : List ℚ) : ((scaling l : ℚ) : K) = (l.map (fun c : ℚ => ((c.den : ℕ) : K)⁻¹)).prod := by
  unfold scaling
  induction l with
  | nil => simp
  | cons c l ih => simp only [List.map_cons, List.prod_cons]; rw [Rat.cast_mul, ih]; simp

theorem svalue_regular [CharZero K] (env : Env K) (h p : Str → K) (e : SExpr) : svalue env h p (regular e) = rvalue env h p e := by
  induction e with
  | fn u args =>
    simp only [regular, onGrid, rvalue]
    rw [svalue_scale, scaling_cast, List.map_map]
    simp [svalue, List.map_map, Function.comp_def]
  | num _ | sym _ => rfl
  | add a b iha ihb | mul a b iha ihb => simp only [regular, svalue, rvalue, iha, ihb]
  | pow a n ih | func g a ih => simp only [regular, svalue, rvalue, ih]

theorem onGrid_regular (e : SExpr) (he : Plain e) : OnGrid (regular e) := by
  induction e with
  | fn u args =>
    intro f hf v brgs hv
    have : f = .fn u (args.map (fun a => (a.1, (a.2.num : ℚ)))) := by
      simp only [regular, onGrid, scale] at hf
      split at hf <;> simpa [SExpr.functions] using hf
    rw [this] at hv
    injection hv with _ h2
    intro a ha
    rw [← h2] at ha
    obtain ⟨b, -, rfl⟩ := List.mem_map.1 ha
    exact Rat.den_intCast _
  | num _ | sym _ => intro f hf; simp [regular, SExpr.functions] at hf
  | add a b iha ihb | mul a b iha ihb =>
    intro f hf
    rcases List.mem_append.1 hf with hf | hf
    · exact iha (fun f hf => he f (List.mem_append_left _ hf)) f hf
    · exact ihb (fun f hf => he f (List.mem_append_right _ hf)) f hf
  | pow a n ih => exact ih he
  | func g a ih =>
    obtain ⟨u, args, h, -⟩ := he (.func g a) (by simp [SExpr.functions])
    exact absurd h (by simp)

/-- C94: whatever the order of the sets, the regularized expression is on the regular grid, and its value is that of the expression
in which each function `u(x + (n/d) dx, ..)` is read as the product of the `1/d` and `u(x + n dx, ..)`. -/
theorem C94_value [CharZero K] (P : SymPy) (hP : ∀ l, (P.order l).Perm l) (e : SExpr) (he : Plain e) (atoms : List SExpr)
    (hatoms : ∀ f, f ∈ atoms ↔ f ∈ e.functions) :
    ∃ e', regularizeExpr P atoms e = .ok e' ∧ OnGrid e' ∧ ∀ (env : Env K) (h p : Str → K), svalue env h p e' = rvalue env h p e :=
  ⟨_, regularizeExpr_eq P hP e he atoms hatoms, onGrid_regular e he, fun env h p => svalue_regular env h p e⟩

/-! ## Staggered schemes -/

theorem weights_staggered (o : ℕ) : (weights o (staggered o) (0 : ℚ)).zip (staggered o) = (List.range (o + 1)).map (fun ν =>
    (unitWeight ℚ o ν / (1 / (if o % 2 = 0 then 1 else 2)) ^ o, (off o ν : ℚ) / (if o % 2 = 0 then 1 else 2))) := by
  have hg : (if o % 2 = 0 then (1 : ℚ) else 2) ≠ 0 := by split <;> simp
  have hpts : staggered o = points o (1 / (if o % 2 = 0 then (1 : ℚ) else 2)) 0 := by
    rw [staggered_eq]
    unfold points
    rw [offsets_eq, List.map_map]
    refine List.map_congr_left (fun ν _ => ?_)
    simp only [Function.comp]
    split <;> ring
  conv_lhs => arg 1; rw [hpts]
  rw [weights_points o _ 0 (div_ne_zero one_ne_zero hg), staggered_eq, List.zip_map]
  rw [show (List.range (o + 1)).zip (List.range (o + 1)) = (List.range (o + 1)).map (fun ν => (ν, ν)) by
    rw [List.zip, List.zipWith_self], List.map_map]
  rfl

/-- The function of the coordinates read on the regular grid. -/
def gridFun (env : Env K) (h : Str → K) (u : Str) (args : List (Str × ℚ)) (p : Str → K) : K :=
  env.fn u (args.map (fun a => p a.1 + (a.2.num : K) * h a.1))

/-- The product of the inverses of the denominators. -/
def denProd (K : Type) [Field K] (args : List (Str × ℚ)) : K := (args.map (fun a => ((a.2.den : ℕ) : K)⁻¹)).prod

theorem shiftArgsQ_fst (args : List (Str × ℚ)) (x : Str) (k : ℚ) : (shiftArgsQ args x k).map Prod.fst = args.map Prod.fst := by
  unfold shiftArgsQ
  rw [List.map_map]
  refine List.map_congr_left (fun a _ => ?_)
  simp only [Function.comp]
  split <;> rfl

theorem denProd_shift (args : List (Str × ℚ)) (x : Str) (k : ℚ) (hn : (args.map Prod.fst).Nodup) (hx : x ∈ args.map Prod.fst)
    (h0 : ∀ a ∈ args, a.1 = x → a.2 = 0) : denProd K (shiftArgsQ args x k) = ((k.den : ℕ) : K)⁻¹ * denProd K args := by
  induction args with
  | nil => simp at hx
  | cons a args ih =>
    rw [List.map_cons, List.nodup_cons] at hn
    have e : denProd K (shiftArgsQ (a :: args) x k) = (((if a.1 = x then (a.1, a.2 + k) else a).2.den : ℕ) : K)⁻¹
        * denProd K (shiftArgsQ args x k) := rfl
    have e' : denProd K (a :: args) = ((a.2.den : ℕ) : K)⁻¹ * denProd K args := rfl
    rw [e, e']
    by_cases ha : a.1 = x
    · have hs : shiftArgsQ args x k = args := by
        unfold shiftArgsQ
        refine (List.map_congr_left (fun b hb => ?_)).trans (List.map_id _)
        rw [if_neg]
        · rfl
        · intro hbx
          exact hn.1 (by rw [ha, ← hbx]; exact List.mem_map_of_mem hb)
      rw [hs, if_pos ha, h0 a (by simp) ha]
      simp
    · rw [if_neg ha, ih hn.2 ((List.mem_cons.1 hx).resolve_left (fun e => ha e.symm)) (fun b hb => h0 b (List.mem_cons_of_mem _ hb))]
      ring

theorem gridFun_shift (env : Env K) (h : Str → K) (u : Str) (args : List (Str × ℚ)) (x : Str) (k : ℚ)
    (h0 : ∀ a ∈ args, a.1 = x → a.2 = 0) (p : Str → K) :
    gridFun env h u (shiftArgsQ args x k) p = gridFun env h u args (p + Pi.single x ((k.num : K) * h x)) := by
  unfold gridFun shiftArgsQ
  rw [List.map_map]
  congr 1
  refine List.map_congr_left (fun a ha => ?_)
  simp only [Function.comp]
  by_cases hx : a.1 = x
  · rw [if_pos hx, h0 a ha hx, zero_add]
    simp [hx]
  · rw [if_neg hx]
    simp [hx]

theorem rvalue_stencilSumQ (env : Env K) (h p : Str → K) (x : Str) (o : ℕ) (f : ℚ → SExpr) (l : List (ℚ × ℚ)) :
    rvalue env h p (stencilSumQ x o f l)
      = (l.map (fun wk => (wk.1 : K) * env.sym ('d' :: x) ^ (-(o : ℤ)) * rvalue env h p (f wk.2))).sum := by
  induction l with
  | nil => simp [stencilSumQ, rvalue]
  | cons wk l ih =>
    obtain ⟨w, k⟩ := wk
    simp [stencilSumQ, rvalue, ih]

theorem rvalue_staggeredExpr [CharZero K] (env : Env K) (h : Str → K) (u : Str) (vars : List (Str × ℕ))
    (hh : ∀ v ∈ vars, h v.1 ≠ 0) (hs : ∀ v ∈ vars, env.sym ('d' :: v.1) = h v.1) (hv : (vars.map Prod.fst).Nodup)
    (args : List (Str × ℚ)) (hn : (args.map Prod.fst).Nodup) (hm : ∀ v ∈ vars, v.1 ∈ args.map Prod.fst)
    (h0 : ∀ a ∈ args, a.1 ∈ vars.map Prod.fst → a.2 = 0) (p : Str → K) :
    rvalue env h p (staggeredExpr u args vars)
      = denProd K args * (excess (vars.map Prod.snd) : K) * fdMixed h vars (gridFun env h u args) p := by
  induction vars generalizing args p with
  | nil => simp [staggeredExpr, rvalue, denProd, excess, fdMixed, gridFun]
  | cons v vars ih =>
    obtain ⟨x, o⟩ := v
    have hx := hh (x, o) (by simp)
    have hh' : ∀ v ∈ vars, h v.1 ≠ 0 := fun v hv => hh v (List.mem_cons_of_mem _ hv)
    have hsx : env.sym ('d' :: x) = h x := hs (x, o) (by simp)
    have hs' : ∀ v ∈ vars, env.sym ('d' :: v.1) = h v.1 := fun v hv => hs v (List.mem_cons_of_mem _ hv)
    rw [List.map_cons, List.nodup_cons] at hv
    have h0x : ∀ a ∈ args, a.1 = x → a.2 = 0 := fun a ha e => h0 a ha (by simp [e])
    have hxm : x ∈ args.map Prod.fst := hm (x, o) (by simp)
    unfold staggeredExpr
    rw [rvalue_stencilSumQ, weights_staggered]
    rw [show fdMixed h ((x, o) :: vars) (gridFun env h u args) p = fdMixed h vars (fdAlong h x o (gridFun env h u args)) p from rfl,
      fdMixed_fdAlong_mem h vars hh' x hx, fdAlong_eq_sum h x o hx, List.map_map, Finset.mul_sum]
    show _ = ((List.range (o + 1)).map _).sum
    congr 1
    refine List.map_congr_left (fun ν _ => ?_)
    simp only [Function.comp]
    rw [ih hh' hs' hv.2 _ (by rw [shiftArgsQ_fst]; exact hn) (fun v hv => by rw [shiftArgsQ_fst]; exact hm v (List.mem_cons_of_mem _ hv))]
    · rw [denProd_shift args x _ hn hxm h0x, hsx,
        show gridFun env h u (shiftArgsQ args x ((off o ν : ℚ) / (if o % 2 = 0 then 1 else 2)))
          = fun q => gridFun env h u args (q + Pi.single x ((((off o ν : ℚ) / (if o % 2 = 0 then 1 else 2)).num : K) * h x)) from
          funext (gridFun_shift env h u args x _ h0x), fdMixed_translate h vars hh']
      have ee : excess (o :: vars.map Prod.snd) = (if o % 2 = 0 then 1 else 2 ^ (o - 1)) * excess (vars.map Prod.snd) := by
        simp [excess]
      rw [List.map_cons, ee, smul_eq_mul]
      by_cases ho : o % 2 = 0
      · simp only [ho, if_true, div_one, one_pow, Rat.num_intCast, Rat.den_intCast, unitWeight_cast, zpow_neg, zpow_natCast]
        simp only [Nat.cast_one, inv_one, one_mul]
        field_simp
      · simp only [ho, if_false]
        obtain ⟨h1, h2⟩ := rat_half_num_den (off o ν) (off_odd o ν (by omega))
        rw [h1, h2]
        have hp : (2 : K) ^ o = 2 * 2 ^ (o - 1) := by rw [← pow_succ']; congr 1; omega
        rw [zpow_neg, zpow_natCast]
        push_cast
        rw [unitWeight_cast, div_pow, one_pow, hp]
        field_simp
    · intro a ha hav
      obtain ⟨b, hb, rfl⟩ := List.mem_map.1 ha
      have hbx : ¬ b.1 = x := by
        intro e
        rw [if_pos e] at hav
        exact hv.1 (by rw [← e]; exact hav)
      rw [if_neg hbx] at hav ⊢
      exact h0 b hb (by simp only [List.map_cons, List.mem_cons]; exact .inr hav)

/-- The regularized staggered scheme has the value of the regular finite differences. -/
theorem rvalue_stagger [CharZero K] (env : Env K) (h : Str → K) (e : FExpr) (he : Regularizable e)
    (hh : ∀ d ∈ derivs e, ∀ v ∈ d.2, h v.1 ≠ 0) (hs : ∀ d ∈ derivs e, ∀ v ∈ d.2, env.sym ('d' :: v.1) = h v.1) (p : Str → K) :
    rvalue env h p (stagger e) = value env h p e := by
  induction e with
  | num _ | sym _ => rfl
  | fn u args =>
    simp only [stagger, rvalue, value, funOf, List.map_map, Function.comp_def, Rat.num_intCast, Rat.den_intCast]
    simp
  | deriv e vars _ =>
    obtain ⟨u, args, rfl, hn, hv, ha, hvar⟩ := he
    have hex : excess (vars.map Prod.snd) = 1 := by
      refine List.prod_eq_one (fun y hy => ?_)
      obtain ⟨o, ho', rfl⟩ := List.mem_map.1 hy
      obtain ⟨q, hq, rfl⟩ := List.mem_map.1 ho'
      rcases (hvar q hq).2 with e | e <;> simp [e]
    have hfst : (args.map (fun a => (a.1, (a.2 : ℚ)))).map Prod.fst = args.map Prod.fst := by
      rw [List.map_map]; rfl
    have := rvalue_staggeredExpr env h u vars (hh (.fn u args, vars) (by simp [derivs])) (hs (.fn u args, vars) (by simp [derivs])) hv
      (args.map (fun a => (a.1, (a.2 : ℚ)))) (by rw [hfst]; exact hn) (fun v hv => by rw [hfst]; exact (hvar v hv).1)
      (fun a ha' _ => by
        obtain ⟨b, hb, rfl⟩ := List.mem_map.1 ha'
        simp [(ha b hb).1]) p
    simp only [stagger]
    rw [this, hex]
    have e1 : denProd K (args.map (fun a => (a.1, (a.2 : ℚ)))) = 1 := by
      simp [denProd, List.map_map, Function.comp_def]
    have e2 : gridFun env h u (args.map (fun a => (a.1, (a.2 : ℚ)))) = fun p' => value env h p' (.fn u args) := by
      funext p'
      simp [gridFun, value, funOf, List.map_map, Function.comp_def]
    rw [e1, e2]
    simp [value]
  | add a b iha ihb | mul a b iha ihb =>
    simp only [stagger, rvalue, value]
    rw [iha he.1 (fun d hd => hh d (List.mem_append_left _ hd)) (fun d hd => hs d (List.mem_append_left _ hd)),
      ihb he.2 (fun d hd => hh d (List.mem_append_right _ hd)) (fun d hd => hs d (List.mem_append_right _ hd))]
  | pow a n ih => simp only [stagger, rvalue, value]; rw [ih he hh hs]
  | func g a ih => exact he.elim

theorem functions_stencilSumQ (x : Str) (o : ℕ) (f : ℚ → SExpr) (l : List (ℚ × ℚ)) (Q : SExpr → Prop)
    (hf : ∀ k, ∀ g ∈ (f k).functions, Q g) : ∀ g ∈ (stencilSumQ x o f l).functions, Q g := by
  induction l with
  | nil => intro g hg; simp [stencilSumQ, SExpr.functions] at hg
  | cons p l ih =>
    obtain ⟨w, k⟩ := p
    intro g hg
    simp only [stencilSumQ, SExpr.functions, List.nil_append, List.mem_append] at hg
    rcases hg with hg | hg
    · exact hf k g hg
    · exact ih g hg

theorem plain_staggeredExpr (u : Str) (vars : List (Str × ℕ)) (args : List (Str × ℚ)) (h : ∀ x ∈ args.map Prod.fst, PlainName x) :
    Plain (staggeredExpr u args vars) := by
  induction vars generalizing args with
  | nil =>
    intro f hf
    simp only [staggeredExpr, SExpr.functions, List.mem_singleton] at hf
    exact ⟨u, args, hf, fun a ha _ => h a.1 (List.mem_map_of_mem ha)⟩
  | cons v vars ih =>
    obtain ⟨x, o⟩ := v
    exact functions_stencilSumQ x o _ _ _ (fun k => ih _ (by rw [shiftArgsQ_fst]; exact h))

theorem plain_stagger (e : FExpr) (he : Regularizable e) : Plain (stagger e) := by
  induction e with
  | num _ | sym _ => intro f hf; simp [stagger, SExpr.functions] at hf
  | fn u args =>
    intro f hf
    simp only [stagger, SExpr.functions, List.mem_singleton] at hf
    refine ⟨u, _, hf, fun a ha h => ?_⟩
    obtain ⟨b, hb, rfl⟩ := List.mem_map.1 ha
    exact he b hb (by simpa using h)
  | deriv e vars _ =>
    obtain ⟨u, args, rfl, -, -, ha, -⟩ := he
    refine plain_staggeredExpr u vars _ (fun x hx => ?_)
    rw [List.map_map] at hx
    obtain ⟨b, hb, rfl⟩ := List.mem_map.1 hx
    exact (ha b hb).2
  | add a b iha ihb | mul a b iha ihb =>
    intro f hf
    rcases List.mem_append.1 hf with hf | hf
    · exact iha he.1 f hf
    · exact ihb he.2 f hf
  | pow a n ih => exact ih he
  | func g a ih => exact he.elim

/-! ## Systems -/

variable (P : SymPy) (decideEq : FExpr → SExpr → Option Bool) (atomsOf : SExpr → List SExpr)

/-- C94: an equation that SymPy has already decided stops the regularization, unless an equation before it does. -/
theorem C94_decided (sys : List SRel) (b : Bool) (h : SRel.bool b ∈ sys) : ∀ out, regularizeSystem P decideEq atomsOf sys ≠ .ok out := by
  induction sys with
  | nil => simp at h
  | cons e sys ih =>
    cases e with
    | bool _ => intro out h; simp [regularizeSystem] at h
    | eq l r =>
      have hm : SRel.bool b ∈ sys := by simpa using h
      intro out ho
      simp only [regularizeSystem, bind, Except.bind] at ho
      split at ho
      · cases ho
      split at ho
      · cases ho
      · rename_i h2
        exact ih hm _ h2

theorem regularizeSystem_eq (hP : ∀ l, (P.order l).Perm l) (sys : List (FExpr × SExpr))
    (h : ∀ e ∈ sys, Plain e.2 ∧ (∀ f, f ∈ atomsOf e.2 ↔ f ∈ e.2.functions) ∧ ∀ r, decideEq e.1 r = none) :
    regularizeSystem P decideEq atomsOf (sys.map (fun e => .eq e.1 e.2)) = .ok (sys.map (fun e => .eq e.1 (regular e.2))) := by
  induction sys with
  | nil => rfl
  | cons e sys ih =>
    obtain ⟨h1, h2, h3⟩ := h e (by simp)
    simp only [List.map_cons, regularizeSystem]
    rw [regularizeExpr_eq P hP e.2 h1 _ h2]
    simp only [bind, Except.bind, pure, Except.pure]
    rw [ih (fun e he => h e (List.mem_cons_of_mem _ he))]
    simp only [h3]

/-- C94: the equations are regularized one by one, in their order, with the same left-hand sides. -/
theorem C94_equations [CharZero K] (hP : ∀ l, (P.order l).Perm l) (sys : List (FExpr × SExpr))
    (h : ∀ e ∈ sys, Plain e.2 ∧ (∀ f, f ∈ atomsOf e.2 ↔ f ∈ e.2.functions) ∧ ∀ r, decideEq e.1 r = none) :
    ∃ out : List (FExpr × SExpr),
      regularizeSystem P decideEq atomsOf (sys.map (fun e => .eq e.1 e.2)) = .ok (out.map (fun e => .eq e.1 e.2))
      ∧ List.Forall₂ (fun e e' => e'.1 = e.1 ∧ OnGrid e'.2
        ∧ ∀ (env : Env K) (h p : Str → K), svalue env h p e'.2 = rvalue env h p e.2) sys out := by
  refine ⟨sys.map (fun e => (e.1, regular e.2)), ?_, ?_⟩
  · rw [regularizeSystem_eq P decideEq atomsOf hP sys h, List.map_map]; rfl
  · rw [List.forall₂_map_right_iff, List.forall₂_same]
    exact fun e he => ⟨rfl, onGrid_regular e.2 (h e he).1, fun env h p => svalue_regular env h p e.2⟩

/-- C94, partial: for smooth functions, when the right-hand sides have only derivatives of order one or even and no elementary
function, the regularized staggered schemes of the right-hand sides are consistent at second order, uniformly on every cube.  For
other orders and for elementary functions the claim is false (`C73_regularize_value`, `C94_counterexample_elementary`). -/
theorem C94_second_order_partial (hP : ∀ l, (P.order l).Perm l) (S : Finset Str) (env : Env ℝ) (sys : List (FExpr × FExpr))
    (h : ∀ e ∈ sys, Regularizable e.2 ∧ (∀ f, f ∈ atomsOf (stagger e.2) ↔ f ∈ (stagger e.2).functions) ∧ ∀ r, decideEq e.1 r = none)
    (hadm : ∀ e ∈ sys, Admissible S env e.2) (R : ℝ) :
    ∃ out : List (FExpr × SExpr),
      regularizeSystem P decideEq atomsOf (sys.map (fun e => .eq e.1 (stagger e.2))) = .ok (out.map (fun e => .eq e.1 e.2))
      ∧ List.Forall₂ (fun e e' => e'.1 = e.1 ∧ OnGrid e'.2
        ∧ ∃ C δ : ℝ, 0 < δ ∧ ∀ step : Str → ℝ, (∀ x ∈ S, step x ≠ 0 ∧ |step x| ≤ δ) → ∀ p : Str → ℝ, (∀ x ∈ S, |p x| ≤ R) →
            |svalue (stepEnv S env step) step p e'.2 - exact env e.2 p| ≤ C * ∑ x ∈ S, step x ^ 2) sys out := by
  refine ⟨sys.map (fun e => (e.1, regular (stagger e.2))), ?_, ?_⟩
  · have := regularizeSystem_eq P decideEq atomsOf hP (sys.map (fun e => (e.1, stagger e.2))) (by
      intro e he
      obtain ⟨q, hq, rfl⟩ := List.mem_map.1 he
      exact ⟨plain_stagger q.2 (h q hq).1, (h q hq).2⟩)
    rw [List.map_map, List.map_map] at this
    rw [List.map_map]
    exact this
  · rw [List.forall₂_map_right_iff, List.forall₂_same]
    intro e he
    obtain ⟨h1, -⟩ := h e he
    obtain ⟨C, δ, -, hδ, hn⟩ := near_value env R e.2 (hadm e he)
    refine ⟨rfl, onGrid_regular _ (plain_stagger e.2 h1), C, δ, hδ, fun step hstep p hp => ?_⟩
    have hvars : ∀ d ∈ derivs e.2, ∀ v ∈ d.2, v.1 ∈ S := admissible_vars e.2 (hadm e he)
    dsimp only
    rw [svalue_regular, rvalue_stagger (stepEnv S env step) step e.2 h1
      (fun d hd v hv => (hstep v.1 (hvars d hd v hv)).1)
      (fun d hd v hv => by
        show (if v.1 ∈ S then step v.1 else _) = _
        rw [if_pos (hvars d hd v hv)])]
    exact hn step hstep p hp

/-! ## Elementary functions -/

theorem two_perm {α : Type} {l : List α} {a b : α} (h : l.Perm [a, b]) : l = [a, b] ∨ l = [b, a] := by
  match l, h.length_eq with
  | [c, d], _ =>
    have hc : c ∈ [a, b] := h.subset (by simp)
    rcases List.mem_pair.1 hc with rfl | rfl
    · exact .inl (by rw [List.perm_singleton.1 ((List.perm_cons _).1 h)])
    · exact .inr (by rw [List.perm_singleton.1 ((List.perm_cons _).1 (h.trans (List.Perm.swap _ _ _)))])

/-- C94, counterexample: an elementary function of a function of one coordinate is replaced by the elementary function of the
coordinate, e.g. `exp(u(x))` by `exp(x)`. -/
theorem C94_counterexample_elementary (hP : ∀ l, (P.order l).Perm l) (hc : ∀ u args s, P.coeff (.fn u args) s = some 0) (g u x : Str)
    (atoms : List SExpr) (ha : atoms.Perm [.func g (.fn u [(x, 0)]), .fn u [(x, 0)]]) :
    regularizeExpr P atoms (.func g (.fn u [(x, 0)])) = .ok (.func g (.sym x)) := by
  have h1 : replacement P (.func g (.fn u [(x, 0)])) = .ok (.func g (.sym x)) := by
    have ho : P.order (SExpr.symbols (.fn u [(x, 0)])).dedup = [x] := by
      have : (SExpr.symbols (.fn u [(x, 0)])).dedup = [x] := by simp [SExpr.symbols, argSymbols]
      rw [this]; exact List.perm_singleton.1 (hP _)
    simp only [replacement, ho, argCoordinates, bind, Except.bind, hc, pure, Except.pure]
    simp [scaling, scale, newArgument]
  have h2 : replacement P (.fn u [(x, 0)]) = .ok (.fn u [(x, 0)]) := by
    rw [replacement_fn P hP u _ (by simp)]
    simp [onGrid, scaling, scale]
  rcases two_perm ha with rfl | rfl
  · simp only [regularizeExpr, List.foldlM_cons, List.foldlM_nil, h1, h2, bind, Except.bind, pure, Except.pure]
    simp [subsF]
  · simp only [regularizeExpr, List.foldlM_cons, List.foldlM_nil, h1, h2, bind, Except.bind, pure, Except.pure]
    simp [subsF]

theorem regularizeExpr_error (f : SExpr) (err : PyErr) (hf : replacement P f = .error err) (atoms : List SExpr) (h : f ∈ atoms) (e : SExpr) :
    ∀ out, regularizeExpr P atoms e ≠ .ok out := by
  induction atoms generalizing e with
  | nil => simp at h
  | cons f' atoms ih =>
    intro out ho
    unfold regularizeExpr at ho
    rw [List.foldlM_cons] at ho
    rcases List.mem_cons.1 h with rfl | h
    · rw [hf] at ho
      cases ho
    · cases hr : replacement P f' with
      | error _ => rw [hr] at ho; cases ho
      | ok new =>
        rw [hr] at ho
        exact ih h _ out ho

/-- C94: with an elementary function of an expression that does not have one or two symbols nothing is returned, whatever the order of
the sets. -/
theorem C94_elementary (hP : ∀ l, (P.order l).Perm l) (e : SExpr) (g : Str) (a : SExpr) (hf : .func g a ∈ e.functions)
    (hs : a.symbols.toFinset.card = 0 ∨ 2 < a.symbols.toFinset.card) (atoms : List SExpr)
    (hatoms : ∀ f, f ∈ atoms ↔ f ∈ e.functions) : ∀ out, regularizeExpr P atoms e ≠ .ok out := by
  refine regularizeExpr_error P (.func g a) .valueError ?_ atoms ((hatoms _).2 hf) e
  have hl : (P.order a.symbols.dedup).length = a.symbols.toFinset.card := by rw [(hP _).length_eq, List.card_toFinset]
  have : argCoordinates { atoms := P.order a.symbols.dedup, coeff := fun _ => 0, text := [] } = .error .valueError := by
    unfold argCoordinates
    match hat : P.order a.symbols.dedup with
    | [] => rfl
    | [_] => rw [hat] at hl; simp at hl; omega
    | [_, _] => rw [hat] at hl; simp at hl; omega
    | _ :: _ :: _ :: _ => rfl
  simp only [replacement, this, bind, Except.bind]

/-- C94: an elementary function of a displaced coordinate is treated as a function of the coordinate: `g(x + (n/d) dx)` is replaced by
`g(x + n dx) / d`. -/
theorem C94_elementary_displaced [CharZero K] (hP : ∀ l, (P.order l).Perm l) (g x : Str) (hx : PlainName x) (k : ℚ) (hk : k ≠ 0)
    (hc : P.coeff (.add (.sym x) (.mul (.num k) (.sym ('d' :: x)))) ('d' :: x) = some k) :
    ∃ e', regularizeExpr P [.func g (.add (.sym x) (.mul (.num k) (.sym ('d' :: x))))]
        (.func g (.add (.sym x) (.mul (.num k) (.sym ('d' :: x))))) = .ok e' ∧
      ∀ (env : Env K) (h p : Str → K), svalue env h p e' = (k.den : K)⁻¹ * env.func g (env.sym x + (k.num : K) * env.sym ('d' :: x)) := by
  have hne : x ≠ 'd' :: x := fun e => absurd (congrArg List.length e) (by simp)
  have hs : (SExpr.symbols (.add (.sym x) (.mul (.num k) (.sym ('d' :: x))))).dedup = [x, 'd' :: x] := by
    show List.dedup [x, 'd' :: x] = _
    rw [List.dedup_eq_self]
    simp [hne]
  have hcoord := argCoordinates_shift (x := x) (k := k)
    (arg := { atoms := P.order [x, 'd' :: x], coeff := fun _ => k, text := [] }) ⟨by rw [if_neg hk]; exact hP _, rfl⟩ (fun _ => hx)
  have hcoord' : argCoordinates { atoms := P.order [x, 'd' :: x], coeff := fun _ => 0, text := [] } = .ok (x, 'd' :: x) := hcoord
  have hr : replacement P (.func g (.add (.sym x) (.mul (.num k) (.sym ('d' :: x)))))
      = .ok (scale (scaling [k]) (.func g (newArgument x ('d' :: x) k))) := by
    simp only [replacement, hs, hcoord', hc, bind, Except.bind, pure, Except.pure]
  refine ⟨scale (scaling [k]) (.func g (newArgument x ('d' :: x) k)), ?_, fun env h p => ?_⟩
  · simp only [regularizeExpr, List.foldlM_cons, List.foldlM_nil, hr, bind, Except.bind, pure, Except.pure]
    simp [subsF]
  · rw [svalue_scale, scaling_cast]
    have hn : k.num ≠ 0 := Rat.num_ne_zero.2 hk
    simp [svalue, newArgument, hn]

/-! ### A case -/

/-- Non-vacuity of `C94_elementary_displaced`: `sin(x + dx/2)` becomes `sin(x + dx) / 2`. -/
example (env : Env ℝ) (h p : Str → ℝ) : ∃ e', regularizeExpr ⟨id, fun _ _ => some (1 / 2)⟩
      [.func "sin".toList (.add (.sym "x".toList) (.mul (.num (1 / 2)) (.sym "dx".toList)))]
      (.func "sin".toList (.add (.sym "x".toList) (.mul (.num (1 / 2)) (.sym "dx".toList)))) = .ok e' ∧
    svalue env h p e' = (2 : ℝ)⁻¹ * env.func "sin".toList (env.sym "x".toList + env.sym "dx".toList) := by
  obtain ⟨e', h1, h2⟩ := C94_elementary_displaced (K := ℝ) ⟨id, fun _ _ => some (1 / 2)⟩ (fun l => List.Perm.refl l) "sin".toList "x".toList
    ⟨'x', [], rfl, by decide⟩ (1 / 2) (by norm_num) rfl
  refine ⟨e', h1, ?_⟩
  rw [h2, show ((1 / 2 : ℚ).den) = 2 by decide +kernel, show ((1 / 2 : ℚ).num) = 1 by decide +kernel]
  simp only [Nat.cast_ofNat, Int.cast_one, one_mul]
  rfl

/-- SymPy with the symbols in their order, and coefficient zero in every function. -/
def plainSymPy : SymPy := ⟨id, fun _ _ => some 0⟩

theorem demoExpr_regularizable : Regularizable demoExpr := by
  have hp : ∀ a : Str × ℤ, a ∈ [("t".toList, (0 : ℤ)), ("x".toList, 0)] → a.2 = 0 ∧ PlainName a.1 := by
    intro a ha
    simp only [List.mem_cons, List.not_mem_nil, or_false] at ha
    rcases ha with rfl | rfl
    · exact ⟨rfl, 't', [], by decide, by decide⟩
    · exact ⟨rfl, 'x', [], by decide, by decide⟩
  refine ⟨⟨fun a ha h => absurd (hp a ha).1 h, ?_⟩, trivial, ?_⟩ <;>
    exact ⟨_, _, rfl, by decide, by decide, hp, by decide⟩

/-- Non-vacuity: `u u_x + ν u_xx` is regularized to a scheme on the regular grid with the values of `u u_x + ν u_xx`. -/
example (env : Env ℝ) (h p : Str → ℝ) (hx : h "x".toList ≠ 0) (hd : env.sym "dx".toList = h "x".toList) :
    ∃ e', regularizeExpr plainSymPy (stagger demoExpr).functions (stagger demoExpr) = .ok e' ∧ OnGrid e'
      ∧ svalue env h p e' = value env h p demoExpr := by
  obtain ⟨e', h1, h2, h3⟩ := C94_value (K := ℝ) plainSymPy (fun l => List.Perm.refl l) (stagger demoExpr)
    (plain_stagger _ demoExpr_regularizable) _ (fun _ => Iff.rfl)
  refine ⟨e', h1, h2, (h3 env h p).trans (rvalue_stagger env h demoExpr demoExpr_regularizable ?_ ?_ p)⟩
  all_goals
    intro d hd' v hv
    simp only [demoExpr, derivs, List.nil_append, List.mem_append, List.mem_cons, List.not_mem_nil, or_false] at hd'
    rcases hd' with rfl | rfl <;> (simp only [List.mem_cons, List.not_mem_nil, or_false] at hv; subst hv; assumption)

/-- Non-vacuity of `C94_second_order_partial`: `u_t = u u_x + ν u_xx` with `u = sin(t + x)`. -/
example : ∃ out : List (FExpr × SExpr), regularizeSystem plainSymPy (fun _ _ => none) SExpr.functions
      ([(FExpr.deriv caseU [("t".toList, 1)], demoExpr)].map (fun e => .eq e.1 (stagger e.2))) = .ok (out.map (fun e => .eq e.1 e.2))
    ∧ List.Forall₂ (fun e e' => e'.1 = e.1 ∧ OnGrid e'.2 ∧ ∃ C δ : ℝ, 0 < δ ∧ ∀ step : Str → ℝ,
        (∀ x ∈ ({"t".toList, "x".toList} : Finset Str), step x ≠ 0 ∧ |step x| ≤ δ) →
          ∀ p : Str → ℝ, (∀ x ∈ ({"t".toList, "x".toList} : Finset Str), |p x| ≤ 5) →
            |svalue (stepEnv {"t".toList, "x".toList} caseEnv step) step p e'.2 - exact caseEnv e.2 p|
              ≤ C * ∑ x ∈ ({"t".toList, "x".toList} : Finset Str), step x ^ 2)
        [(FExpr.deriv caseU [("t".toList, 1)], demoExpr)] out :=
  C94_second_order_partial plainSymPy (fun _ _ => none) SExpr.functions (fun l => List.Perm.refl l) _ caseEnv _
    (by simpa using demoExpr_regularizable) (by simpa using case_admissible.1) 5

/-- Non-vacuity of `C94_elementary`: `exp(u(t, x + dx/2))` has three symbols. -/
example : (SExpr.symbols (.fn "u".toList [("t".toList, 0), ("x".toList, 1 / 2)])).toFinset.card = 3 := by decide +kernel

/-- The staggered difference of `u` regularized: `(u(x + dx) - u(x - dx)) / (2 dx)`. -/
example : regularizeExpr plainSymPy [.fn "u".toList [("x".toList, 1 / 2)], .fn "u".toList [("x".toList, -1 / 2)]]
    (.add (.fn "u".toList [("x".toList, 1 / 2)]) (.mul (.num (-1)) (.fn "u".toList [("x".toList, -1 / 2)])))
    = .ok (.add (.mul (.num (1 / 2)) (.fn "u".toList [("x".toList, 1)]))
        (.mul (.num (-1)) (.mul (.num (1 / 2)) (.fn "u".toList [("x".toList, -1)])))) := by with_unfolding_all rfl

end Sympkf.FinDiff
