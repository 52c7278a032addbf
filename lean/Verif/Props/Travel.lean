import Verif.Lemmas.PkfStat

/-!
# An example of a random state: waves on `(t, x)`
-/

set_option autoImplicit false

namespace Sympkf.PKF

open Text Rand Spec Smooth

/-- The wave `g(x - t)`. -/
noncomputable def wave (g : F ℝ) : F (ℝ × ℝ) :=
  ⟨fun p => (g : ℝ → ℝ) (p.2 - p.1), (contDiff g).comp (contDiff_snd.sub contDiff_fst)⟩

theorem wave_add (f g : F ℝ) : wave (f + g) = wave f + wave g := rfl
theorem wave_mul (f g : F ℝ) : wave (f * g) = wave f * wave g := rfl
theorem wave_one : wave 1 = 1 := rfl
theorem wave_zero : wave 0 = 0 := rfl
theorem wave_algebraMap (q : ℚ) : wave (algebraMap ℚ (F ℝ) q) = algebraMap ℚ (F (ℝ × ℝ)) q := rfl
theorem wave_pow (f : F ℝ) (n : ℕ) : wave (f ^ n) = wave f ^ n := by
  induction n with
  | zero => rw [pow_zero, pow_zero, wave_one]
  | succ n ih => rw [pow_succ, pow_succ, wave_mul, ih]

theorem wave_power (f : F ℝ) (h : ∀ p, 0 < (f : ℝ → ℝ) p) (q : ℚ) : wave (power f q) = power (wave f) q := by
  unfold power
  have h' : ∀ p, 0 < (wave f : ℝ × ℝ → ℝ) p := fun p => h _
  split
  · exact wave_pow _ _
  · rfl

/-- The directions of the coordinates. -/
noncomputable def dirs (x : Str) : ℝ × ℝ := if x = "t".toList then (1, 0) else if x = "x".toList then (0, 1) else 0

theorem dir_wave_apply (v p : ℝ × ℝ) (g : F ℝ) :
    (dir v (wave g) : ℝ × ℝ → ℝ) p = fderiv ℝ (g : ℝ → ℝ) (p.2 - p.1) (v.2 - v.1) := by
  rw [dir_apply]
  have h1 : HasFDerivAt (fun p : ℝ × ℝ => p.2 - p.1) (ContinuousLinearMap.snd ℝ ℝ ℝ - ContinuousLinearMap.fst ℝ ℝ ℝ) p :=
    hasFDerivAt_snd.sub hasFDerivAt_fst
  have h2 := (differentiable g (p.2 - p.1)).hasFDerivAt.comp p h1
  have h3 : ((wave g : F (ℝ × ℝ)) : ℝ × ℝ → ℝ) = (g : ℝ → ℝ) ∘ fun p : ℝ × ℝ => p.2 - p.1 := rfl
  rw [h3, h2.fderiv]
  rfl

theorem dir_wave_t (g : F ℝ) : dir ((1, 0) : ℝ × ℝ) (wave g) = - wave (dir 1 g) := by
  apply Smooth.ext; intro p
  rw [dir_wave_apply]
  show fderiv ℝ (g : ℝ → ℝ) (p.2 - p.1) (0 - 1) = - fderiv ℝ (g : ℝ → ℝ) (p.2 - p.1) 1
  rw [zero_sub, map_neg]

theorem dir_wave_x (g : F ℝ) : dir ((0, 1) : ℝ × ℝ) (wave g) = wave (dir 1 g) := by
  apply Smooth.ext; intro p
  rw [dir_wave_apply]
  show fderiv ℝ (g : ℝ → ℝ) (p.2 - p.1) (1 - 0) = fderiv ℝ (g : ℝ → ℝ) (p.2 - p.1) 1
  rw [sub_zero]

theorem dir_const (v : ℝ × ℝ) (q : ℚ) : dir v (algebraMap ℚ (F (ℝ × ℝ)) q) = 0 := by
  apply Smooth.ext; intro p
  rw [dir_apply]
  have : ((algebraMap ℚ (F (ℝ × ℝ)) q : F (ℝ × ℝ)) : ℝ × ℝ → ℝ) = fun _ => (q : ℝ) := rfl
  rw [this]
  simp

/-! ## Powers of positive fields -/

theorem power_pos {V : Type} [NormedAddCommGroup V] [NormedSpace ℝ V] (f : F V) (h : ∀ p, 0 < (f : V → ℝ) p) (q : ℚ) (p : V) :
    (power f q : V → ℝ) p = (f : V → ℝ) p ^ (q : ℝ) := by
  unfold power
  split
  · rename_i hq
    have e : q = ((q.num.toNat : ℕ) : ℚ) := by
      have h1 : ((q.num.toNat : ℕ) : ℤ) = q.num := Int.toNat_of_nonneg hq.2
      have h2 : (q.num : ℚ) = q := by
        conv_rhs => rw [← Rat.num_div_den q, hq.1]
        simp
      rw [← h2]
      exact_mod_cast h1.symm
    have : ((f ^ q.num.toNat : F V) : V → ℝ) p = (f : V → ℝ) p ^ q.num.toNat := rfl
    rw [this]
    conv_rhs => rw [e]
    rw [← Real.rpow_natCast]
    norm_num
  · rfl

theorem dir_power {V : Type} [NormedAddCommGroup V] [NormedSpace ℝ V] (v : V) (f : F V) (h : ∀ p, 0 < (f : V → ℝ) p) (q : ℚ) :
    dir v (power f q) = algebraMap ℚ (F V) q * power f (q - 1) * dir v f := by
  apply Smooth.ext; intro p
  have h1 : HasFDerivAt (fun p => (f : V → ℝ) p ^ (q : ℝ)) ((((q : ℝ) * (f : V → ℝ) p ^ ((q : ℝ) - 1)) • fderiv ℝ (f : V → ℝ) p)) p :=
    (differentiable f p).hasFDerivAt.rpow_const (.inl (h p).ne')
  have h2 : ((power f q : F V) : V → ℝ) = fun p => (f : V → ℝ) p ^ (q : ℝ) := funext (power_pos f h q)
  rw [dir_apply, h2, h1.fderiv, Smooth.mul_apply, Smooth.mul_apply, power_pos f h, dir_apply]
  show ((q : ℝ) * (f : V → ℝ) p ^ ((q : ℝ) - 1)) * fderiv ℝ (f : V → ℝ) p v = (q : ℝ) * _ * _
  push_cast
  rfl

/-! ## The state -/

/-- The coordinates as functions. -/
noncomputable def coordF (s : Str) : F (ℝ × ℝ) :=
  if s = "t".toList then ⟨Prod.fst, by exact (contDiff_fst : ContDiff ℝ (↑(⊤ : ℕ∞)) (Prod.fst : ℝ × ℝ → ℝ))⟩
  else if s = "x".toList then ⟨Prod.snd, by exact (contDiff_snd : ContDiff ℝ (↑(⊤ : ℕ∞)) (Prod.snd : ℝ × ℝ → ℝ))⟩ else 1

/-- The errors of `u` and of `v`. -/
noncomputable def errU (ω : Bool × Bool) : F ℝ := epsF ω * power expSin (1 / 2)

/-- The functions of the state: the errors, variances and covariance of `waves`, travelling; the random fields are `1` plus the
error. -/
noncomputable def travelFn (u : Str) (args : List Str) : Bool × Bool → F (ℝ × ℝ) :=
  if "t".toList ∈ args ∧ "x".toList ∈ args then
    if positiveFn (.fn u args) = true then fun _ =>
      wave (if u = "{V_{u}}".toList then expSin else if u = "{\\sigma_{u}}".toList then power expSin (1 / 2) else 1)
    else if omega ∈ args then
      if u = "u".toList then fun ω => 1 + wave (errU ω)
      else if u = "v".toList then fun ω => 1 + wave (epsF ω)
      else if u = "{e_{u}}".toList then fun ω => wave (errU ω)
      else fun ω => wave (epsF ω)
    else if u = "V_uv".toList then fun _ => wave (power expSin (1 / 2))
    else if "{\\nu_{".toList.isPrefixOf u = true then algebraMap ℚ _ (1 / 2)
    else 1
  else 1

/-- Two random waves `u` and `v` around the mean `1`. -/
noncomputable def travel : Interp (Bool × Bool → F (ℝ × ℝ)) :=
  interp (fun _ => algebraMap ℚ (F (ℝ × ℝ)) (1 / 4)) dirs (fun s _ => coordF s) travelFn elementary

theorem travel_stochastic : Stochastic travel Smooth.det := by
  apply stochastic
  · rw [Finset.sum_const, Finset.card_univ]
    simp only [Fintype.card_prod, Fintype.card_bool]
    rw [← map_nsmul, show (2 * 2) • (1 / 4 : ℚ) = 1 by norm_num, map_one]
  · intro v ω; exact dir_const v _
  · intro s _ ω ω'; rfl
  · intro u args h ω ω'
    unfold travelFn
    split
    · split
      · rfl
      · split
        · rfl
        · split <;> rfl
    · rfl

/-- The positive fields. -/
def posSet : Set (Bool × Bool → F (ℝ × ℝ)) := {r | ∀ ω p, 0 < (r ω : ℝ × ℝ → ℝ) p}

/-- The coordinates. -/
def coordSet : Set Str := {s | s = "t".toList ∨ s = "x".toList}

theorem dir_coordF (x s : Str) (hx : x ∈ coordSet) : dir (dirs x) (coordF s) = if s = x then 1 else 0 := by
  apply Smooth.ext; intro p
  rw [dir_apply]
  have key : ∀ v : ℝ × ℝ, fderiv ℝ (coordF s : ℝ × ℝ → ℝ) p v =
      if s = "t".toList then v.1 else if s = "x".toList then v.2 else 0 := by
    intro v
    unfold coordF
    split
    · show fderiv ℝ (Prod.fst : ℝ × ℝ → ℝ) p v = v.1
      rw [fderiv_fst]; rfl
    · split
      · show fderiv ℝ (Prod.snd : ℝ × ℝ → ℝ) p v = v.2
        rw [fderiv_snd]; rfl
      · show fderiv ℝ (fun _ : ℝ × ℝ => (1 : ℝ)) p v = 0
        simp
  rw [key]
  rcases hx with rfl | rfl
  · have e : dirs "t".toList = (1, 0) := by unfold dirs; rw [if_pos rfl]
    rw [e]
    split
    · rfl
    · split <;> rfl
  · have e : dirs "x".toList = (0, 1) := by unfold dirs; rw [if_neg (by decide), if_pos rfl]
    rw [e]
    by_cases h : s = "t".toList
    · rw [if_pos h, if_neg (by rw [h]; decide)]; rfl
    · rw [if_neg h]
      split <;> rfl

theorem travel_calculus : Calculus travel posSet coordSet where
  omega_notMem := by rintro (h | h) <;> exact absurd h (by decide +kernel)
  D_sym x hx s := by
    funext ω
    show dir (dirs x) (coordF s) = _
    rw [dir_coordF x s hx]
    split <;> rfl
  D_fn x hx u args h := by
    have : travelFn u args = 1 := by
      unfold travelFn
      rw [if_neg]
      rintro ⟨h1, h2⟩
      rcases hx with rfl | rfl
      · exact h h1
      · exact h h2
    funext ω
    show dir (dirs x) (travelFn u args ω) = 0
    rw [this]
    have := dir_const (dirs x) 1
    rwa [map_one] at this
  pw_add r hr p q := by
    funext ω
    apply Smooth.ext; intro z
    show (power (r ω) (p + q) : ℝ × ℝ → ℝ) z = (power (r ω) p : ℝ × ℝ → ℝ) z * (power (r ω) q : ℝ × ℝ → ℝ) z
    rw [power_pos _ (hr ω), power_pos _ (hr ω), power_pos _ (hr ω)]
    push_cast
    exact Real.rpow_add (hr ω z) _ _
  pw_mul r hr p q := by
    funext ω
    apply Smooth.ext; intro z
    show (power (power (r ω) p) q : ℝ × ℝ → ℝ) z = (power (r ω) (p * q) : ℝ × ℝ → ℝ) z
    have h1 : ∀ z, 0 < (power (r ω) p : ℝ × ℝ → ℝ) z := fun z => by
      rw [power_pos _ (hr ω)]; exact Real.rpow_pos_of_pos (hr ω z) _
    rw [power_pos _ h1, power_pos _ (hr ω), power_pos _ (hr ω)]
    push_cast
    exact (Real.rpow_mul (hr ω z).le _ _).symm
  D_pw x hx r hr q := by
    funext ω
    exact dir_power _ _ (hr ω) q
  positive u args h := by
    intro ω p
    show 0 < (travelFn u args ω : ℝ × ℝ → ℝ) p
    unfold travelFn
    rw [if_pos h]
    split
    · split
      · exact expSin_pos _
      · split
        · show 0 < (power expSin (1 / 2) : ℝ → ℝ) _
          rw [power_pos _ expSin_pos]
          exact Real.rpow_pos_of_pos (expSin_pos _) _
        · exact one_pos
    · exact one_pos
  zero_notMem h := lt_irrefl 0 (h (true, true) 0)
  D_exp x _ r := by funext ω; exact Smooth.dir_exp _ _
  D_sin x _ r := by funext ω; exact Smooth.dir_sin _ _
  D_cos x _ r := by funext ω; exact Smooth.dir_cos _ _
  D_sinh x _ r := by funext ω; exact Smooth.dir_sinh _ _
  D_cosh x _ r := by funext ω; exact Smooth.dir_cosh _ _
  D_tanh x _ r := by funext ω; exact Smooth.dir_tanh _ _
  D_tan x _ r hr := by
    funext ω
    refine Smooth.dir_tan _ _ fun p e => ?_
    have h1 : 0 < (elementary "cos".toList (r ω) : ℝ × ℝ → ℝ) p ^ 2 := hr ω p
    rw [elementary_value _ _ (smoothly_of_ne (by decide) (by decide) _), realFunc_cos, e] at h1
    simp at h1
  D_log x _ r hr := by funext ω; exact Smooth.dir_log _ _ (hr ω)
  D_atan x _ r _ := by funext ω; exact Smooth.dir_atan _ _

theorem travel_E_wave (r : Bool × Bool → F ℝ) : travel.E (fun ω => wave (r ω)) = fun ω => wave (waves.E r ω) := by
  funext ω
  rw [waves_E]
  simp only [travel, interp, Fintype.sum_prod_type, Fintype.sum_bool]
  simp only [wave_mul, wave_add, wave_algebraMap]
  ring

theorem travel_pw_wave (r : Bool × Bool → F ℝ) (hr : ∀ ω p, 0 < (r ω : ℝ → ℝ) p) (q : ℚ) :
    travel.pw (fun ω => wave (r ω)) q = fun ω => wave (waves.pw r q ω) := by
  funext ω
  exact (wave_power _ (hr ω) q).symm

theorem travel_D_wave (r : Bool × Bool → F ℝ) :
    travel.D "x".toList (fun ω => wave (r ω)) = fun ω => wave (waves.D "x".toList r ω) := by
  funext ω
  show dir (dirs "x".toList) (wave (r ω)) = wave (dir (if "x".toList = "x".toList then 1 else 0) (r ω))
  rw [if_pos rfl, ← dir_wave_x]
  rfl

theorem travel_D_time (r : Bool × Bool → F ℝ) :
    travel.D "t".toList (fun ω => wave (r ω)) = fun ω => - wave (waves.D "x".toList r ω) := by
  funext ω
  show dir (dirs "t".toList) (wave (r ω)) = - wave (dir (if "x".toList = "x".toList then 1 else 0) (r ω))
  rw [if_pos rfl, ← dir_wave_t]
  rfl

/-- A field normalised in `waves` is normalised in `travel`. -/
theorem travel_norm (f : Field) (W : F ℝ) (hW : ∀ p, 0 < (W : ℝ → ℝ) p) (hw : den waves f.variance = fun _ => W)
    (hn : Normalised waves f) (he : den travel f.epsilon = fun ω => wave (den waves f.epsilon ω))
    (hv : den travel f.variance = fun ω => wave (den waves f.variance ω))
    (her : den travel f.error = fun ω => wave (den waves f.error ω))
    (hm : den travel (f.metric 0 0) = fun ω => wave (den waves (f.metric 0 0) ω)) (hl : f.spatial = ["x".toList]) :
    Normalised travel f where
  centred := by rw [he, travel_E_wave, hn.centred]; rfl
  normed := by
    have : (fun ω => wave (den waves f.epsilon ω)) ^ 2 = fun ω => wave ((den waves f.epsilon ^ 2) ω) := by
      funext ω
      exact (wave_pow _ 2).symm
    rw [he, this, travel_E_wave, hn.normed]
    rfl
  sqrt_sq := by
    rw [hv, travel_pw_wave _ (by rw [hw]; exact fun _ => hW)]
    funext ω
    show wave _ ^ 2 = _
    rw [← wave_pow]
    exact congrArg wave (congrFun hn.sqrt_sq ω)
  sqrt_inv := by
    rw [hv, travel_pw_wave _ (by rw [hw]; exact fun _ => hW), travel_pw_wave _ (by rw [hw]; exact fun _ => hW)]
    funext ω
    show wave _ * wave _ = _
    rw [← wave_mul]
    exact congrArg wave (congrFun hn.sqrt_inv ω)
  error := by
    rw [her, he, hv, travel_pw_wave _ (by rw [hw]; exact fun _ => hW), hn.error]
    rfl
  metric := by
    intro i j hij hj
    have hj' := hj
    rw [hl] at hj'
    have hj0 : j = 0 := by simpa using hj'
    have hi0 : i = 0 := by omega
    subst hj0 hi0
    have := hn.metric 0 0 le_rfl hj
    rw [hm, this, he, hl]
    simp only [List.getD_cons_zero]
    rw [travel_D_wave]
    exact (travel_E_wave _).symm

theorem travelFn_error : travelFn "{e_{u}}".toList ["t".toList, "x".toList, omega] = fun ω => wave (errU ω) := by
  unfold travelFn
  rw [if_pos (by decide +kernel), if_neg (by decide +kernel), if_pos (by decide +kernel), if_neg (by decide +kernel),
    if_neg (by decide +kernel), if_pos (by decide +kernel)]

theorem travelFn_eps (u : Str) (h : u ∈ ["{e_{v}}".toList, "{\\varepsilon_{u}}".toList, "{\\varepsilon_{v}}".toList]) :
    travelFn u ["t".toList, "x".toList, omega] = fun ω => wave (epsF ω) := by
  simp only [List.mem_cons, List.not_mem_nil, or_false] at h
  unfold travelFn
  rcases h with rfl | rfl | rfl <;>
  rw [if_pos (by decide +kernel), if_neg (by decide +kernel), if_pos (by decide +kernel), if_neg (by decide +kernel),
    if_neg (by decide +kernel), if_neg (by decide +kernel)]

theorem travelFn_variance (u : Str) (h : u ∈ ["{V_{u}}".toList, "{V_{v}}".toList]) :
    travelFn u ["t".toList, "x".toList] = fun _ => wave (if u = "{V_{u}}".toList then expSin else 1) := by
  simp only [List.mem_cons, List.not_mem_nil, or_false] at h
  unfold travelFn
  rcases h with rfl | rfl <;> rw [if_pos (by decide +kernel), if_pos (by decide +kernel)]
  · rw [if_pos rfl, if_pos rfl]
  · rw [if_neg (by decide +kernel), if_neg (by decide +kernel), if_neg (by decide +kernel)]

/-- The standard deviations. -/
theorem travelFn_std : travelFn "{\\sigma_{u}}".toList ["t".toList, "x".toList] = (fun _ => wave (power expSin (1 / 2))) ∧
    travelFn "{\\sigma_{v}}".toList ["t".toList, "x".toList] = fun _ => wave 1 := by
  unfold travelFn
  constructor <;> rw [if_pos (by decide +kernel), if_pos (by decide +kernel), if_neg (by decide +kernel)]
  · rw [if_pos rfl]
  · rw [if_neg (by decide +kernel)]

theorem travelFn_diffusion (u : Str) (h : u ∈ ["{\\nu_{u,xx}}".toList, "{\\nu_{v,xx}}".toList]) :
    travelFn u ["t".toList, "x".toList] = algebraMap ℚ _ (1 / 2) := by
  simp only [List.mem_cons, List.not_mem_nil, or_false] at h
  unfold travelFn
  rcases h with rfl | rfl <;> rw [if_pos (by decide +kernel), if_neg (by decide +kernel), if_neg (by decide +kernel),
    if_neg (by decide +kernel), if_pos (by decide +kernel)]

theorem travelFn_metric (u : Str) (h : u ∈ ["{g_{u,xx}}".toList, "{g_{v,xx}}".toList, "{s_{u,xx}}".toList,
    "{s_{v,xx}}".toList, "u".toList, "v".toList]) :
    travelFn u ["t".toList, "x".toList] = 1 := by
  simp only [List.mem_cons, List.not_mem_nil, or_false] at h
  unfold travelFn
  rcases h with rfl | rfl | rfl | rfl | rfl | rfl <;> rw [if_pos (by decide +kernel), if_neg (by decide +kernel),
    if_neg (by decide +kernel), if_neg (by decide +kernel), if_neg (by decide +kernel)]

theorem travelFn_cov : travelFn "V_uv".toList ["t".toList, "x".toList] = fun _ => wave (power expSin (1 / 2)) := by
  unfold travelFn
  rw [if_pos (by decide +kernel), if_neg (by decide +kernel), if_neg (by decide +kernel), if_pos (by decide +kernel)]

theorem travel_errorU : den travel fieldU.error = fun ω => wave (den waves fieldU.error ω) := by
  rw [waves_error]; exact travelFn_error

theorem travel_errorV : den travel fieldV.error = fun ω => wave (den waves fieldV.error ω) := by
  rw [waves_error']; exact travelFn_eps "{e_{v}}".toList (by decide +kernel)

theorem waves_eps (f : Field) (h : f = fieldU ∨ f = fieldV) : den waves f.epsilon = epsF := by
  rcases h with rfl | rfl <;>
  · simp only [Field.epsilon, den, waves, interp]
    rw [if_pos (by decide +kernel), if_neg (by decide +kernel)]

theorem waves_metric (f : Field) (h : f = fieldU ∨ f = fieldV) : den waves (f.metric 0 0) = 1 := by
  rcases h with rfl | rfl <;>
  · simp only [Field.metric, den, waves, interp]
    rw [if_neg (by decide +kernel), if_neg (by decide +kernel), if_neg (by decide +kernel)]

theorem waves_varU : den waves fieldU.variance = fun _ => expSin := by
  simp only [Field.variance, den, waves, interp]
  rw [if_neg (by decide +kernel), if_pos (by decide +kernel)]

theorem waves_varV : den waves fieldV.variance = fun _ => 1 := by
  simp only [Field.variance, den, waves, interp]
  rw [if_neg (by decide +kernel), if_neg (by decide +kernel), if_neg (by decide +kernel)]
  rfl

theorem travel_normU : Normalised travel fieldU := by
  refine travel_norm fieldU expSin expSin_pos waves_varU waves_normalised ?_ ?_ travel_errorU ?_ (by decide +kernel)
  · rw [waves_eps _ (.inl rfl)]; exact travelFn_eps "{\\varepsilon_{u}}".toList (by decide +kernel)
  · rw [waves_varU]; exact (travelFn_variance "{V_{u}}".toList (by decide +kernel)).trans (by rw [if_pos (by decide +kernel)])
  · rw [waves_metric _ (.inl rfl)]; exact travelFn_metric "{g_{u,xx}}".toList (by decide +kernel)

theorem travel_normV : Normalised travel fieldV := by
  refine travel_norm fieldV 1 (fun _ => one_pos) waves_varV waves_normalised' ?_ ?_ travel_errorV ?_ (by decide +kernel)
  · rw [waves_eps _ (.inr rfl)]; exact travelFn_eps "{\\varepsilon_{v}}".toList (by decide +kernel)
  · rw [waves_varV]; exact (travelFn_variance "{V_{v}}".toList (by decide +kernel)).trans (by rw [if_neg (by decide +kernel)])
  · rw [waves_metric _ (.inr rfl)]; exact travelFn_metric "{g_{v,xx}}".toList (by decide +kernel)

/-- The value of the covariance function. -/
theorem travel_cov : den travel (.fn "V_uv".toList ["t".toList, "x".toList]) =
    travel.E (den travel fieldU.error * den travel fieldV.error) := by
  have hV : den waves (.fn "V_uv".toList ["t".toList, "x".toList]) = waves.E (den waves fieldU.error * den waves fieldV.error) := by
    rw [waves_error, waves_error', waves_E]
    simp only [den, waves, interp]
    rw [if_neg (by decide +kernel), if_neg (by decide +kernel), if_pos (by decide +kernel)]
    funext ω
    simp only [Pi.mul_apply, epsF, sgn, if_true, Bool.false_eq_true, if_false]
    linear_combination -(power expSin (1 / 2)) * ((cosF ^ 2 + sinF ^ 2) * quarter 1 + cos_sq_add_sin_sq)
  have e : den travel fieldU.error * den travel fieldV.error =
      fun ω => wave ((den waves fieldU.error * den waves fieldV.error) ω) := by
    rw [travel_errorU, travel_errorV]; rfl
  rw [e, travel_E_wave, ← hV]
  have : den waves (.fn "V_uv".toList ["t".toList, "x".toList]) = fun _ => power expSin (1 / 2) := by
    simp only [den, waves, interp]
    rw [if_neg (by decide +kernel), if_neg (by decide +kernel), if_pos (by decide +kernel)]
  rw [this]
  exact travelFn_cov

/-- The random fields. -/
theorem travel_random : (den travel fieldU.random = 1 + den travel fieldU.error) ∧
    den travel fieldV.random = 1 + den travel fieldV.error := by
  constructor
  · have : travelFn "u".toList ["t".toList, "x".toList, omega] = fun ω => 1 + wave (errU ω) := by
      unfold travelFn
      rw [if_pos (by decide +kernel), if_neg (by decide +kernel), if_pos (by decide +kernel), if_pos (by decide +kernel)]
    refine this.trans ?_
    rw [travel_errorU, waves_error]
    rfl
  · have : travelFn "v".toList ["t".toList, "x".toList, omega] = fun ω => 1 + wave (epsF ω) := by
      unfold travelFn
      rw [if_pos (by decide +kernel), if_neg (by decide +kernel), if_pos (by decide +kernel), if_neg (by decide +kernel),
        if_pos (by decide +kernel)]
    refine this.trans ?_
    rw [travel_errorV, waves_error']
    rfl

theorem travel_E_one : travel.E 1 = 1 := by
  have h := travel_E_wave (fun _ => 1)
  have h1 : waves.E (fun _ => 1) = 1 := by
    rw [waves_E]
    funext ω
    show algebraMap ℚ (F ℝ) (1 / 4) * (1 + 1 + 1 + 1) = 1
    linear_combination quarter 1
  have h2 : (fun ω : Bool × Bool => wave ((fun _ => (1 : F ℝ)) ω)) = 1 := rfl
  rw [h2, h1] at h
  exact h

theorem travel_mean (f : Field) (h : f = fieldU ∨ f = fieldV) : travel.E (den travel f.random) = 1 := by
  have hS := travel_stochastic
  have c : ∀ f, Normalised travel f → travel.E (den travel f.error) = 0 → travel.E (1 + den travel f.error) = 1 := by
    intro f _ h0
    rw [hS.E_add, h0, travel_E_one, add_zero]
  have z : ∀ r : Bool × Bool → F ℝ, waves.E r = 0 → travel.E (fun ω => wave (r ω)) = 0 := by
    intro r h
    rw [travel_E_wave, h]; rfl
  rcases h with rfl | rfl
  · rw [travel_random.1]
    apply c _ travel_normU
    rw [travel_errorU]
    apply z
    rw [waves_error, waves_E]
    funext ω
    simp only [epsF, sgn, if_true, Bool.false_eq_true, if_false, Pi.zero_apply]
    ring
  · rw [travel_random.2]
    apply c _ travel_normV
    rw [travel_errorV]
    apply z
    rw [waves_error', waves_E]
    funext ω
    simp only [epsF, sgn, if_true, Bool.false_eq_true, if_false, Pi.zero_apply]
    ring

/-- The errors are transported. -/
theorem travel_transport (f : Field) (h : f = fieldU ∨ f = fieldV) :
    travel.D "t".toList (den travel f.error) = - travel.D "x".toList (den travel f.error) := by
  rcases h with rfl | rfl
  · rw [travel_errorU, travel_D_time, travel_D_wave]; rfl
  · rw [travel_errorV, travel_D_time, travel_D_wave]; rfl

/-! ## Two dynamics -/

/-- `u` transports itself and `v`: `Derivative(u, t) = -u Derivative(u, x)`, `Derivative(v, t) = -u Derivative(v, x)`. -/
def burgers2 : Pkf where
  fields := [fieldU, fieldV]
  equations := [fieldU, fieldV].map (fun f =>
    (Pkf.dt f.value, .mul (.num (-1)) (.mul fieldU.value (.deriv f.value [("x".toList, 1)]))))

/-- A velocity that is not a polynomial: `exp(tanh(log(u))) / u`. -/
def velocity : Ex :=
  .mul (.func "exp".toList (.func "tanh".toList (.func "log".toList fieldU.value))) (.pow fieldU.value (-1))

/-- `Derivative(u, t) = -velocity Derivative(u, x)`, `Derivative(v, t) = -velocity Derivative(v, x)`. -/
def nonlinear2 : Pkf where
  fields := [fieldU, fieldV]
  equations := [fieldU, fieldV].map (fun f =>
    (Pkf.dt f.value, .mul (.num (-1)) (.mul velocity (.deriv f.value [("x".toList, 1)]))))

/-- Linear transport: `Derivative(u, t) = -Derivative(u, x)`, and the same for `v`. -/
def transport2 : Pkf where
  fields := [fieldU, fieldV]
  equations := [fieldU, fieldV].map (fun f => (Pkf.dt f.value, .mul (.num (-1)) (.deriv f.value [("x".toList, 1)])))

theorem travel_setting (K : Pkf) (h : K.fields = [fieldU, fieldV]) (ho : ∀ g l, (K.order g l).Perm l)
    (ha : ∀ d, (K.arrange d).Perm d) : Setting travel Smooth.det posSet coordSet K ["t".toList, "x".toList] where
  stoch := travel_stochastic
  calculus := travel_calculus
  order := ho
  arrange := ha
  same := by rw [h]; decide +kernel
  nodup := by decide +kernel
  sub := by
    intro x hx
    simpa [coordSet] using hx
  time_mem := .inl rfl
  space := by decide +kernel
  names := by rw [h]; decide +kernel
  normal := by
    rw [h]
    intro f hf
    simp only [List.mem_cons, List.not_mem_nil, or_false] at hf
    rcases hf with rfl | rfl
    · exact travel_normU
    · exact travel_normV
  cov := by
    rw [h]
    intro f g hs v hv
    have hfg : [f, g] = [fieldU, fieldV] := hs.eq_of_length rfl
    simp only [List.cons.injEq, and_true] at hfg
    obtain ⟨rfl, rfl⟩ := hfg
    have e : covariance Pkf.label [fieldU, fieldV] fieldU fieldV = .ok (.fn "V_uv".toList ["t".toList, "x".toList]) := by
      decide +kernel
    rw [e] at hv
    rw [← Except.ok.inj hv]
    exact travel_cov

theorem burgers2_setting : Setting travel Smooth.det posSet coordSet burgers2 ["t".toList, "x".toList] :=
  travel_setting _ rfl (fun _ _ => List.Perm.refl _) (fun _ => List.Perm.refl _)

theorem transport2_setting : Setting travel Smooth.det posSet coordSet transport2 ["t".toList, "x".toList] :=
  travel_setting _ rfl (fun _ _ => List.Perm.refl _) (fun _ => List.Perm.refl _)

theorem nonlinear2_setting : Setting travel Smooth.det posSet coordSet nonlinear2 ["t".toList, "x".toList] :=
  travel_setting _ rfl (fun _ _ => List.Perm.refl _) (fun _ => List.Perm.refl _)

theorem eps_notMem : Pkf.epsSym ∉ coordSet := by rintro (h | h) <;> exact absurd h (by decide +kernel)

theorem burgers2_dynamics : Dynamics travel posSet coordSet burgers2 where
  eps := eps_notMem
  lhs := rfl
  rhs := by
    intro q hq
    simp only [burgers2, List.map_cons, List.map_nil, List.mem_cons, List.not_mem_nil, or_false] at hq
    have hx : "x".toList ∈ coordSet := .inr rfl
    rcases hq with rfl | rfl <;>
    · refine ⟨trivial, ?_, ?_, ?_⟩
      · exact ⟨by decide +kernel, by decide +kernel⟩
      · exact ⟨by decide +kernel, by decide +kernel⟩
      · simpa using hx

theorem transport2_dynamics : Dynamics travel posSet coordSet transport2 where
  eps := eps_notMem
  lhs := rfl
  rhs := by
    intro q hq
    simp only [transport2, List.map_cons, List.map_nil, List.mem_cons, List.not_mem_nil, or_false] at hq
    have hx : "x".toList ∈ coordSet := .inr rfl
    rcases hq with rfl | rfl <;>
    · refine ⟨trivial, ?_, ?_⟩
      · exact ⟨by decide +kernel, by decide +kernel⟩
      · simpa using hx

theorem den_perturbed (f : Field) (h : f = fieldU ∨ f = fieldV) :
    den (perturbed travel [fieldU, fieldV]) f.value = ⟨1, den travel f.error, 0⟩ := by
  have hm : f ∈ [fieldU, fieldV] := by simpa using h
  show (if (⟨f.name, f.coordinates⟩ : Field) ∈ [fieldU, fieldV] then _ else _ : Jet _) = _
  rw [if_pos hm, travel_mean f h]

theorem den_perturbed_deriv (f : Field) (h : f = fieldU ∨ f = fieldV) :
    (den (perturbed travel [fieldU, fieldV]) (.deriv f.value [("x".toList, 1)])).c0 = 0 ∧
    (den (perturbed travel [fieldU, fieldV]) (.deriv f.value [("x".toList, 1)])).c1 =
      travel.D "x".toList (den travel f.error) := by
  have e : den (perturbed travel [fieldU, fieldV]) (.deriv f.value [("x".toList, 1)]) =
      Jet.map (travel.D "x".toList) (den (perturbed travel [fieldU, fieldV]) f.value) := rfl
  rw [e, den_perturbed f h]
  refine ⟨?_, rfl⟩
  funext ω
  have := dir_const (dirs "x".toList) 1
  rwa [map_one] at this

theorem den_neg (e : Ex) : (den (perturbed travel [fieldU, fieldV]) (.mul (.num (-1)) e)).c1 =
    - (den (perturbed travel [fieldU, fieldV]) e).c1 := by
  have : den (perturbed travel [fieldU, fieldV]) (.mul (.num (-1)) e) = algebraMap ℚ _ (-1) * den (perturbed travel [fieldU, fieldV]) e := rfl
  generalize den (perturbed travel [fieldU, fieldV]) e = j at this
  rw [this, Jet.mul_c1]
  show algebraMap ℚ _ (-1) * j.c1 + 0 * j.c0 = - j.c1
  rw [map_neg, map_one, zero_mul, add_zero]
  exact neg_one_mul j.c1

/-- If the fields are transported with a velocity that is `1` at the mean, then the waves follow the tangent-linear dynamics. -/
theorem transported_tangent (c : Ex) (f : Field) (hf : f = fieldU ∨ f = fieldV)
    (hc : (den (perturbed travel [fieldU, fieldV]) c).c0 = 1) :
    travel.D "t".toList (den travel f.error) =
      (den (perturbed travel [fieldU, fieldV]) (.mul (.num (-1)) (.mul c (.deriv f.value [("x".toList, 1)])))).c1 := by
  rw [den_neg]
  have e : den (perturbed travel [fieldU, fieldV]) (.mul c (.deriv f.value [("x".toList, 1)])) =
    den (perturbed travel [fieldU, fieldV]) c * den (perturbed travel [fieldU, fieldV]) (.deriv f.value [("x".toList, 1)]) := rfl
  rw [e, Jet.mul_c1, hc, (den_perturbed_deriv f hf).1, (den_perturbed_deriv f hf).2, travel_transport f hf, mul_zero, one_mul, add_zero]

theorem burgers2_tangent : Tangent travel burgers2 := by
  intro fq hfq
  have : ∃ f, (f = fieldU ∨ f = fieldV) ∧ fq = (f, (Pkf.dt f.value, .mul (.num (-1)) (.mul fieldU.value (.deriv f.value [("x".toList, 1)])))) := by
    simp only [burgers2, List.map_cons, List.map_nil, List.zip_cons_cons, List.zip_nil_right, List.mem_cons, List.not_mem_nil, or_false] at hfq
    rcases hfq with rfl | rfl
    · exact ⟨fieldU, .inl rfl, rfl⟩
    · exact ⟨fieldV, .inr rfl, rfl⟩
  obtain ⟨f, hf, rfl⟩ := this
  exact transported_tangent _ f hf (by rw [den_perturbed _ (.inl rfl)])

theorem transport2_tangent : Tangent travel transport2 := by
  intro fq hfq
  have : ∃ f, (f = fieldU ∨ f = fieldV) ∧ fq = (f, (Pkf.dt f.value, .mul (.num (-1)) (.deriv f.value [("x".toList, 1)]))) := by
    simp only [transport2, List.map_cons, List.map_nil, List.zip_cons_cons, List.zip_nil_right, List.mem_cons, List.not_mem_nil, or_false] at hfq
    rcases hfq with rfl | rfl
    · exact ⟨fieldU, .inl rfl, rfl⟩
    · exact ⟨fieldV, .inr rfl, rfl⟩
  obtain ⟨f, hf, rfl⟩ := this
  show travel.D "t".toList (den travel f.error) = (den (perturbed travel [fieldU, fieldV]) _).c1
  rw [den_neg, (den_perturbed_deriv f hf).2, travel_transport f hf]

/-- The mean of a function of a quantity with constant mean. -/
theorem func_mean (g : Str) (hg : g ∈ ["exp".toList, "tanh".toList, "log".toList]) (a : Ex) (r : ℝ) (hr : g = "log".toList → 0 < r)
    (h : ∀ ω p, ((den (perturbed travel [fieldU, fieldV]) a).c0 ω : ℝ × ℝ → ℝ) p = r) (ω : Bool × Bool) (p : ℝ × ℝ) :
    ((den (perturbed travel [fieldU, fieldV]) (.func g a)).c0 ω : ℝ × ℝ → ℝ) p = realFunc g r := by
  have e : (den (perturbed travel [fieldU, fieldV]) (.func g a)).c0 =
      travel.func g (den (perturbed travel [fieldU, fieldV]) a).c0 := by
    show (Jet.func travel g _).c0 = _
    unfold Jet.func Jet.derivatives
    simp only [List.mem_cons, List.not_mem_nil, or_false] at hg
    rcases hg with rfl | rfl | rfl <;> rfl
  rw [e]
  show (elementary g ((den (perturbed travel [fieldU, fieldV]) a).c0 ω) : ℝ × ℝ → ℝ) p = _
  rw [elementary_value _ _ ⟨fun hl p => by rw [h]; exact hr hl, fun ht => by subst ht; exact absurd hg (by decide)⟩, h]

theorem mean_logU (ω : Bool × Bool) (p : ℝ × ℝ) :
    ((den (perturbed travel [fieldU, fieldV]) (.func "log".toList fieldU.value)).c0 ω : ℝ × ℝ → ℝ) p = 0 := by
  rw [func_mean "log".toList (by decide) _ 1 (fun _ => one_pos) (fun ω p => by rw [den_perturbed _ (.inl rfl)]; rfl), realFunc_log, Real.log_one]

theorem mean_tanhU (ω : Bool × Bool) (p : ℝ × ℝ) :
    ((den (perturbed travel [fieldU, fieldV]) (.func "tanh".toList (.func "log".toList fieldU.value))).c0 ω : ℝ × ℝ → ℝ) p = 0 := by
  rw [func_mean "tanh".toList (by decide) _ 0 (fun h => absurd h (by decide)) mean_logU, realFunc_tanh, Real.tanh_zero]

theorem velocity_mean : (den (perturbed travel [fieldU, fieldV]) velocity).c0 = 1 := by
  have hu : (den (perturbed travel [fieldU, fieldV]) fieldU.value).c0 = 1 := by rw [den_perturbed _ (.inl rfl)]
  have h2 : (den (perturbed travel [fieldU, fieldV])
      (.func "exp".toList (.func "tanh".toList (.func "log".toList fieldU.value)))).c0 = 1 := by
    funext ω
    apply Smooth.ext; intro p
    rw [func_mean "exp".toList (by decide) _ 0 (fun h => absurd h (by decide)) mean_tanhU, realFunc_exp]
    exact Real.exp_zero
  have h3 : (den (perturbed travel [fieldU, fieldV]) (.pow fieldU.value (-1))).c0 = 1 := by
    show (Jet.pw travel _ (-1)).c0 = 1
    unfold Jet.pw
    rw [if_neg (by decide +kernel)]
    show travel.pw (den (perturbed travel [fieldU, fieldV]) fieldU.value).c0 (-1) = 1
    rw [hu]
    funext ω
    apply Smooth.ext; intro p
    show (power (1 : F (ℝ × ℝ)) (-1) : ℝ × ℝ → ℝ) p = 1
    rw [power_pos _ (fun _ => one_pos)]
    exact Real.one_rpow _
  show (den (perturbed travel [fieldU, fieldV]) _).c0 * (den (perturbed travel [fieldU, fieldV]) _).c0 = 1
  rw [h2, h3, one_mul]

theorem nonlinear2_dynamics : Dynamics travel posSet coordSet nonlinear2 where
  eps := eps_notMem
  lhs := rfl
  rhs := by
    intro q hq
    simp only [nonlinear2, List.map_cons, List.map_nil, List.mem_cons, List.not_mem_nil, or_false] at hq
    have hx : "x".toList ∈ coordSet := .inr rfl
    have hu : (den (perturbed travel [fieldU, fieldV]) fieldU.value).c0 ∈ posSet := by
      rw [den_perturbed _ (.inl rfl)]
      exact fun _ _ => one_pos
    rcases hq with rfl | rfl <;>
    · refine ⟨trivial, ⟨⟨⟨.inl (by decide +kernel), inDomain_of_ne (by decide) (by decide) (by decide) _⟩,
        ⟨.inl (by decide +kernel), inDomain_of_ne (by decide) (by decide) (by decide) _⟩,
        ⟨.inl (by decide +kernel), fun _ => hu, fun h => absurd h (by decide), fun h => absurd h (by decide)⟩, ?_⟩, ?_, .inr hu⟩, ?_, ?_⟩
      · exact ⟨by decide +kernel, by decide +kernel⟩
      · exact ⟨by decide +kernel, by decide +kernel⟩
      · exact ⟨by decide +kernel, by decide +kernel⟩
      · simpa using hx

theorem nonlinear2_tangent : Tangent travel nonlinear2 := by
  intro fq hfq
  have : ∃ f, (f = fieldU ∨ f = fieldV) ∧ fq = (f, (Pkf.dt f.value, .mul (.num (-1)) (.mul velocity (.deriv f.value [("x".toList, 1)])))) := by
    simp only [nonlinear2, List.map_cons, List.map_nil, List.zip_cons_cons, List.zip_nil_right, List.mem_cons, List.not_mem_nil, or_false] at hfq
    rcases hfq with rfl | rfl
    · exact ⟨fieldU, .inl rfl, rfl⟩
    · exact ⟨fieldV, .inr rfl, rfl⟩
  obtain ⟨f, hf, rfl⟩ := this
  exact transported_tangent _ f hf velocity_mean

/-- The random waves are solutions of the linear transport. -/
theorem transport2_solution : RandomSolution travel transport2 where
  deviation := by
    intro f hf
    have hf' : f = fieldU ∨ f = fieldV := by simpa [transport2] using hf
    rw [travel_mean f hf']
    rcases hf' with rfl | rfl
    · exact travel_random.1
    · exact travel_random.2
  trend := by
    intro fq hfq
    have hD1 : ∀ x, travel.D x 1 = 0 := by
      intro x
      funext ω
      have := dir_const (dirs x) 1
      rwa [map_one] at this
    have : ∃ f, (f = fieldU ∨ f = fieldV) ∧ fq = (f, (Pkf.dt f.value, .mul (.num (-1)) (.deriv f.value [("x".toList, 1)]))) := by
      simp only [transport2, List.map_cons, List.map_nil, List.zip_cons_cons, List.zip_nil_right, List.mem_cons, List.not_mem_nil, or_false] at hfq
      rcases hfq with rfl | rfl
      · exact ⟨fieldU, .inl rfl, rfl⟩
      · exact ⟨fieldV, .inr rfl, rfl⟩
    obtain ⟨f, hf, rfl⟩ := this
    have hr : den travel f.random = 1 + den travel f.error := by
      rcases hf with rfl | rfl
      · exact travel_random.1
      · exact travel_random.2
    have hm : (⟨f.name, f.coordinates⟩ : Field) ∈ [fieldU, fieldV] := by simpa using hf
    have e : den (realised travel transport2.fields) (.mul (.num (-1)) (.deriv f.value [("x".toList, 1)])) =
        algebraMap ℚ _ (-1) * travel.D "x".toList (if (⟨f.name, f.coordinates⟩ : Field) ∈ [fieldU, fieldV] then
          den travel f.random else travel.fn f.name f.coordinates) := rfl
    show travel.D "t".toList _ = _
    rw [e, if_pos hm, hr, travel_stochastic.D_add, travel_stochastic.D_add, hD1, hD1, zero_add, zero_add, travel_transport f hf,
      map_neg, map_one]
    exact (neg_one_mul (travel.D "x".toList (den travel f.error))).symm

end Sympkf.PKF
