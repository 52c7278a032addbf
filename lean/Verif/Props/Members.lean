import Verif.Spec.Members
import Verif.Props.Unknowns
import Verif.Props.Linear

/-!
# C109: the generated equations and ensembles of solutions
-/

set_option autoImplicit false

namespace Sympkf.PKF

open Text Rand Spec Smooth Members

variable {coords : List Str} {Ω : Type} [Fintype Ω]

/-! ## The meaning of the symbols is well defined -/

namespace Ens

variable (e : Ensemble coords Ω)

/-- The statistics, by kinds. -/
noncomputable def kindValue (f : Field) : Kind → Ω → F (Point coords)
  | .error => e.anomaly f
  | .epsilon => e.normalised f
  | .variance => fun _ => e.variance f
  | .std => fun _ => e.std f
  | .metric i j => fun _ => e.metric f (f.spatial.getD i []) (f.spatial.getD j [])
  | .aspect i j => fun _ => e.aspect f i j
  | .diffusion i j => fun _ => e.diffusion f i j

def kindValid (f : Field) : Kind → Prop
  | .metric i j => i ≤ j ∧ j < f.spatial.length
  | .aspect i j => i ≤ j ∧ j < f.spatial.length
  | .diffusion i j => i ≤ j ∧ j < f.spatial.length
  | _ => True

/-- The kinds in four groups. -/
theorem meaning_cases {fields : List Field} {t : Ex} {v : Ω → F (Point coords)} (h : e.Meaning fields t v) :
    (∃ f ∈ fields, t = f.random ∧ v = e.member f) ∨ (∃ f ∈ fields, t = f.value ∧ v = fun _ => e.mean f) ∨
    (∃ f ∈ fields, ∃ k, kindValid f k ∧ t = k.fn f ∧ v = kindValue e f k) ∨
    ∃ f ∈ fields, ∃ g ∈ fields, t = .fn ("V_".toList ++ f.name ++ g.name) coords ∧ v = fun _ => e.covariance f g := by
  cases h with
  | random h => exact .inl ⟨_, h, rfl, rfl⟩
  | mean h => exact .inr (.inl ⟨_, h, rfl, rfl⟩)
  | error h => exact .inr (.inr (.inl ⟨_, h, .error, trivial, rfl, rfl⟩))
  | epsilon h => exact .inr (.inr (.inl ⟨_, h, .epsilon, trivial, rfl, rfl⟩))
  | variance h => exact .inr (.inr (.inl ⟨_, h, .variance, trivial, rfl, rfl⟩))
  | std h => exact .inr (.inr (.inl ⟨_, h, .std, trivial, rfl, rfl⟩))
  | metric h hi hj => exact .inr (.inr (.inl ⟨_, h, .metric _ _, ⟨hi, hj⟩, rfl, rfl⟩))
  | aspect h hi hj => exact .inr (.inr (.inl ⟨_, h, .aspect _ _, ⟨hi, hj⟩, rfl, rfl⟩))
  | diffusion h hi hj => exact .inr (.inr (.inl ⟨_, h, .diffusion _ _, ⟨hi, hj⟩, rfl, rfl⟩))
  | covariance h h' => exact .inr (.inr (.inr ⟨_, h, _, h', rfl, rfl⟩))

theorem kind_brace (f : Field) (k : Kind) : ∃ u args, k.fn f = .fn ('{' :: u) args := by
  cases k <;> exact ⟨_, _, rfl⟩

end Ens

/-- A system of evolution equations whose right-hand sides are polynomials of degree at most `n` in the fields and their derivatives; the names
can be told apart. -/
structure Polynomial (K : Pkf) (coords : List Str) (n : ℕ) : Prop where
  order : ∀ g l, (K.order g l).Perm l
  arrange : ∀ d, (K.arrange d).Perm d
  same : ∀ f ∈ K.fields, f.coordinates = coords
  nodup : coords.Nodup
  time_mem : time ∈ coords
  space : coords.filter (· ≠ time) ≠ []
  noise : omega ∉ coords
  eps : Pkf.epsSym ∉ coords
  names : PlainNames K coords
  lhs : K.equations.map Prod.fst = K.fields.map (fun f => Pkf.dt f.value)
  rhs : ∀ q ∈ K.equations, Rhs K.fields coords q.2 ∧ fieldDegree K.fields q.2 ≤ n

variable {K : Pkf} {n : ℕ} {e : Ensemble coords Ω}

namespace Ens

theorem name_inj (h : Polynomial K coords n) {f g : Field} (hf : f ∈ K.fields) (hg : g ∈ K.fields) (hn : f.name = g.name) : f = g :=
  h.names.codes f hf g hg (by unfold Field.code; rw [hn])

theorem index_inj (h : Polynomial K coords n) {f : Field} (hf : f ∈ K.fields) {i j k l : ℕ} (ha : i ≤ j ∧ j < f.spatial.length)
    (hb : k ≤ l ∧ l < f.spatial.length) (e2 : f.indexCode i j = f.indexCode k l) : i = k ∧ j = l := by
  obtain ⟨h1, h2⟩ := ha
  obtain ⟨h3, h4⟩ := hb
  unfold Field.indexCode Field.spatialCode at e2
  rw [if_neg (by omega), if_neg (by omega)] at e2
  have hsub : ∀ x ∈ f.spatial, x ∈ coords := by
    intro x hx
    rw [← h.same f hf]
    exact List.mem_of_mem_filter hx
  exact append_inj (fun x hx y hy => h.names.coordinates x (hsub x hx) y (hsub y hy))
    (by unfold Field.spatial; rw [h.same f hf]; exact h.nodup.filter _) (by omega) h2 (by omega) h4 e2

theorem kind_functional (h : Polynomial K coords n) {f g : Field} (hf : f ∈ K.fields) (hg : g ∈ K.fields) {a b : Kind} (ha : kindValid f a)
    (hb : kindValid g b) (hab : a.fn f = b.fn g) : kindValue e f a = kindValue e g b := by
  have hs := C106_kinds f g a b hab
  have hc : f.code = g.code → f = g := h.names.codes f hf g hg
  cases a with
  | error =>
    cases b <;> first | cases hs | skip
    rw [hc ((C106_same_function f g 0 0 0 0).2.2.2.2.2.1.1 hab).1]
  | epsilon =>
    cases b <;> first | cases hs | skip
    rw [hc ((C106_same_function f g 0 0 0 0).2.2.2.2.2.2.1 hab).1]
  | variance =>
    cases b <;> first | cases hs | skip
    rw [hc ((C106_same_function f g 0 0 0 0).2.2.2.1.1 hab).1]
  | std =>
    cases b <;> first | cases hs | skip
    rw [hc ((C106_same_function f g 0 0 0 0).2.2.2.2.1.1 hab).1]
  | metric i j =>
    cases b with
    | metric k l =>
      obtain ⟨e1, e2, -⟩ := (C106_same_function f g i j k l).1.1 hab
      obtain rfl := hc e1
      obtain ⟨rfl, rfl⟩ := index_inj h hf ha hb e2
      rfl
    | _ => cases hs
  | aspect i j =>
    cases b with
    | aspect k l =>
      obtain ⟨e1, e2, -⟩ := (C106_same_function f g i j k l).2.1.1 hab
      obtain rfl := hc e1
      obtain ⟨rfl, rfl⟩ := index_inj h hf ha hb e2
      rfl
    | _ => cases hs
  | diffusion i j =>
    cases b with
    | diffusion k l =>
      obtain ⟨e1, e2, -⟩ := (C106_same_function f g i j k l).2.2.1.1 hab
      obtain rfl := hc e1
      obtain ⟨rfl, rfl⟩ := index_inj h hf ha hb e2
      rfl
    | _ => cases hs

theorem random_brace (h : Polynomial K coords n) {f : Field} (hf : f ∈ K.fields) (u args : List _) (t : List Str)
    (ht : Ex.fn f.name t = .fn ('{' :: u) args) : False :=
  h.names.brace f hf (by rw [(Ex.fn.inj ht).1]; rfl)

theorem name_label (h : Polynomial K coords n) {f : Field} (hf : f ∈ K.fields) {a b : Str} {s t : List Str}
    (ht : Ex.fn f.name s = .fn ("V_".toList ++ a ++ b) t) : False :=
  h.names.label f hf (by rw [(Ex.fn.inj ht).1, List.append_assoc]; exact ⟨_, rfl⟩)

theorem value_ne_random (h : Polynomial K coords n) {f g : Field} (hf : f ∈ K.fields) (hg : g ∈ K.fields) (ht : f.value = g.random) : False := by
  have := (Ex.fn.inj ht).2
  rw [h.same f hf, h.same g hg] at this
  have := congrArg List.length this
  simp at this

/-- A symbol has one meaning. -/
theorem meaning_functional (h : Polynomial K coords n) {t : Ex} {v w : Ω → F (Point coords)} (hv : e.Meaning K.fields t v)
    (hw : e.Meaning K.fields t w) : v = w := by
  rcases meaning_cases e hv with ⟨f, hf, rfl, rfl⟩ | ⟨f, hf, rfl, rfl⟩ | ⟨f, hf, k, hk, rfl, rfl⟩ | ⟨f, hf, f', hf', rfl, rfl⟩ <;>
  rcases meaning_cases e hw with ⟨g, hg, ht, rfl⟩ | ⟨g, hg, ht, rfl⟩ | ⟨g, hg, l, hl, ht, rfl⟩ | ⟨g, hg, g', hg', ht, rfl⟩
  · rw [name_inj h hf hg (Ex.fn.inj ht).1]
  · exact (value_ne_random h hg hf ht.symm).elim
  · obtain ⟨u, args, e'⟩ := kind_brace g l
    exact (random_brace h hf u args _ (ht.trans e')).elim
  · exact (name_label h hf ht).elim
  · exact (value_ne_random h hf hg ht).elim
  · rw [name_inj h hf hg (Ex.fn.inj ht).1]
  · obtain ⟨u, args, e'⟩ := kind_brace g l
    exact (random_brace h hf u args _ (ht.trans e')).elim
  · exact (name_label h hf ht).elim
  · obtain ⟨u, args, e'⟩ := kind_brace f k
    exact (random_brace h hg u args _ (ht.symm.trans e')).elim
  · obtain ⟨u, args, e'⟩ := kind_brace f k
    exact (random_brace h hg u args _ (ht.symm.trans e')).elim
  · exact kind_functional h hf hg hk hl ht
  · obtain ⟨u, args, e'⟩ := kind_brace f k
    rw [e'] at ht
    exact absurd (Ex.fn.inj ht).1 (by simp)
  · exact (name_label h hg ht.symm).elim
  · exact (name_label h hg ht.symm).elim
  · obtain ⟨u, args, e'⟩ := kind_brace g l
    rw [e'] at ht
    exact absurd (Ex.fn.inj ht).1 (by simp)
  · obtain ⟨h1, h2⟩ := names_inj (h.names.names f hf g hg) (h.names.names g hg f hf) ht
    rw [name_inj h hf hg h1, name_inj h hf' hg' h2]

theorem function_meaning (h : Polynomial K coords n) {u : Str} {args : List Str} {v : Ω → F (Point coords)}
    (hv : e.Meaning K.fields (.fn u args) v) : e.function K.fields u args = v := by
  have hx : ∃ v, e.Meaning K.fields (.fn u args) v := ⟨v, hv⟩
  unfold Ensemble.function
  rw [dif_pos hx]
  exact meaning_functional h hx.choose_spec hv

theorem function_given {u : Str} {args : List Str} (hv : ∀ v, ¬ e.Meaning K.fields (.fn u args) v) :
    e.function K.fields u args = fun _ => e.given u args := by
  unfold Ensemble.function
  rw [dif_neg (fun ⟨v, h⟩ => hv v h)]

theorem den_of (h : Polynomial K coords n) {t : Ex} {v : Ω → F (Point coords)} (hv : e.Meaning K.fields t v) : den (e.interp K.fields) t = v := by
  have : ∃ u args, t = .fn u args := by cases hv <;> exact ⟨_, _, rfl⟩
  obtain ⟨u, args, rfl⟩ := this
  exact function_meaning h hv

/-- A function with a meaning has all coordinates among its arguments; it is random when it is a member, an error or a normalised
error. -/
theorem meaning_args (h : Polynomial K coords n) {u : Str} {args : List Str} {v : Ω → F (Point coords)}
    (hv : e.Meaning K.fields (.fn u args) v) : (∀ x ∈ coords, x ∈ args) ∧ (omega ∉ args → ∀ ω ω', v ω = v ω') := by
  have hr : ∀ f ∈ K.fields, args = f.coordinates ++ [omega] → (∀ x ∈ coords, x ∈ args) ∧ (omega ∉ args → ∀ ω ω', v ω = v ω') := by
    intro f hf ha
    subst ha
    exact ⟨fun x hx => List.mem_append_left _ (by rw [h.same f hf]; exact hx), fun ho => absurd (by simp) ho⟩
  have hd : ∀ f ∈ K.fields, args = f.coordinates → (∀ ω ω', v ω = v ω') → (∀ x ∈ coords, x ∈ args) ∧ (omega ∉ args → ∀ ω ω', v ω = v ω') := by
    intro f hf ha hc
    subst ha
    exact ⟨fun x hx => by rw [h.same f hf]; exact hx, fun _ => hc⟩
  generalize ht : Ex.fn u args = t at hv
  cases hv with
  | random hf => exact hr _ hf (Ex.fn.inj ht).2
  | mean hf => exact hd _ hf (Ex.fn.inj ht).2 (fun _ _ => rfl)
  | error hf => exact hr _ hf (Ex.fn.inj ht).2
  | epsilon hf => exact hr _ hf (Ex.fn.inj ht).2
  | variance hf => exact hd _ hf (Ex.fn.inj ht).2 (fun _ _ => rfl)
  | std hf => exact hd _ hf (Ex.fn.inj ht).2 (fun _ _ => rfl)
  | metric hf _ _ => exact hd _ hf (Ex.fn.inj ht).2 (fun _ _ => rfl)
  | aspect hf _ _ => exact hd _ hf (Ex.fn.inj ht).2 (fun _ _ => rfl)
  | diffusion hf _ _ => exact hd _ hf (Ex.fn.inj ht).2 (fun _ _ => rfl)
  | covariance hf _ => exact hd _ hf ((Ex.fn.inj ht).2.trans (h.same _ hf).symm) (fun _ _ => rfl)

/-- The positive fields. -/
def positives (coords : List Str) (Ω : Type) : Set (Ω → F (Point coords)) := {r | ∀ ω p, 0 < (r ω : Point coords → ℝ) p}

theorem dir_constant (v : Point coords) (c : ℝ) : dir v (Members.const c : F (Point coords)) = 0 := by
  apply Smooth.ext; intro p
  rw [dir_apply]
  show fderiv ℝ (fun _ : Point coords => c) p v = 0
  simp

theorem D_symbol (param : Str → ℝ) (x s : Str) (hx : x ∈ coords) :
    Members.D x (symbol param s : F (Point coords)) = if s = x then 1 else 0 := by
  unfold Members.D symbol
  split
  · next h =>
    apply Smooth.ext; intro p
    rw [dir_apply]
    show fderiv ℝ (fun p : Point coords => p ⟨s, h⟩) p (axis coords x) = _
    have : fderiv ℝ (fun p : Point coords => p ⟨s, h⟩) p = ContinuousLinearMap.proj ⟨s, h⟩ :=
      (ContinuousLinearMap.proj (R := ℝ) (φ := fun _ : {x // x ∈ coords} => ℝ) ⟨s, h⟩).fderiv
    rw [this]
    show (if s = x then (1 : ℝ) else 0) = _
    split <;> rfl
  · next h =>
    rw [dir_constant, if_neg (fun hs : s = x => h (hs ▸ hx))]

theorem stochastic (h : Polynomial K coords n) (hs : Solves e K) : Stochastic (e.interp K.fields) Smooth.det := by
  apply Smooth.stochastic
  · apply Smooth.ext; intro p
    have := hs.total
    have e1 : ((∑ ω, (Members.const (e.weight ω) : F (Point coords)) : F (Point coords)) : Point coords → ℝ) p = ∑ ω, e.weight ω := by
      rw [AddSubmonoidClass.coe_finsetSum, Finset.sum_apply]
      rfl
    rw [e1, this]
    rfl
  · intro v ω; exact dir_constant v _
  · intro s _ ω ω'; rfl
  · intro u args ho
    by_cases hx : ∃ v, e.Meaning K.fields (.fn u args) v
    · obtain ⟨v, hv⟩ := hx
      rw [function_meaning h hv]
      exact (meaning_args h hv).2 ho
    · rw [function_given (fun v hv => hx ⟨v, hv⟩)]
      exact fun _ _ => rfl

theorem power_add {V : Type} [NormedAddCommGroup V] [NormedSpace ℝ V] (W : F V) (hW : ∀ p, 0 < (W : V → ℝ) p) (p q : ℚ) :
    power W (p + q) = power W p * power W q := by
  apply Smooth.ext; intro z
  rw [Smooth.mul_apply, power_pos _ hW, power_pos _ hW, power_pos _ hW]
  push_cast
  exact Real.rpow_add (hW z) _ _

theorem power_zero {V : Type} [NormedAddCommGroup V] [NormedSpace ℝ V] (W : F V) : power W 0 = 1 := by
  unfold power
  rw [if_pos (by decide +kernel)]
  rfl

theorem power_one {V : Type} [NormedAddCommGroup V] [NormedSpace ℝ V] (W : F V) : power W 1 = W := by
  unfold power
  rw [if_pos (by decide +kernel)]
  exact pow_one W

theorem positive_brace {u : Str} {args : List Str} (h : positiveFn (.fn u args) = true) : u.head? = some '{' := by
  rcases Bool.or_eq_true _ _ |>.mp h with h | h <;>
  · obtain ⟨t, rfl⟩ := List.isPrefixOf_iff_prefix.1 h
    rfl

/-- The laws of derivatives and powers. -/
theorem calculus (h : Polynomial K coords n) (hs : Solves e K) : Calculus (e.interp K.fields) (positives coords Ω) {x | x ∈ coords} where
  omega_notMem := h.noise
  D_sym x hx s := by
    funext ω
    show Members.D x (symbol e.param s) = _
    rw [D_symbol _ x s hx]
    split <;> rfl
  D_fn x hx u args hxa := by
    funext ω
    show Members.D x (e.function K.fields u args ω) = 0
    by_cases hv : ∃ v, e.Meaning K.fields (.fn u args) v
    · obtain ⟨v, hv⟩ := hv
      exact absurd ((meaning_args h hv).1 x hx) hxa
    · rw [function_given (fun v h => hv ⟨v, h⟩)]
      exact hs.args u args x hx hxa
  pw_add r hr p q := by
    funext ω
    exact power_add _ (hr ω) p q
  pw_mul r hr p q := by
    funext ω
    apply Smooth.ext; intro z
    show (power (power (r ω) p) q : Point coords → ℝ) z = (power (r ω) (p * q) : Point coords → ℝ) z
    have h1 : ∀ z, 0 < (power (r ω) p : Point coords → ℝ) z := fun z => by
      rw [power_pos _ (hr ω)]; exact Real.rpow_pos_of_pos (hr ω z) _
    rw [power_pos _ h1, power_pos _ (hr ω), power_pos _ (hr ω)]
    push_cast
    exact (Real.rpow_mul (hr ω z).le _ _).symm
  D_pw x hx r hr q := by
    funext ω
    exact dir_power _ _ (hr ω) q
  positive u args hp := by
    intro ω p
    show 0 < (e.function K.fields u args ω : Point coords → ℝ) p
    by_cases hv : ∃ v, e.Meaning K.fields (.fn u args) v
    · obtain ⟨v, hv⟩ := hv
      rw [function_meaning h hv]
      generalize ht : Ex.fn u args = t at hv
      have hb : ∀ f ∈ K.fields, u ≠ f.name := by
        rintro f hf rfl
        exact h.names.brace f hf (positive_brace hp)
      cases hv with
      | random hf => exact absurd (Ex.fn.inj ht).1 (hb _ hf)
      | mean hf => exact absurd (Ex.fn.inj ht).1 (hb _ hf)
      | error hf => rw [(Ex.fn.inj ht).1] at hp; exact absurd hp (by simp [positiveFn, List.isPrefixOf])
      | epsilon hf => rw [(Ex.fn.inj ht).1] at hp; exact absurd hp (by simp [positiveFn, List.isPrefixOf])
      | variance hf => exact hs.spread _ hf p
      | std hf =>
        show 0 < (power (e.variance _) (1 / 2) : Point coords → ℝ) p
        rw [power_pos _ (hs.spread _ hf)]
        exact Real.rpow_pos_of_pos (hs.spread _ hf p) _
      | metric hf _ _ => rw [(Ex.fn.inj ht).1] at hp; exact absurd hp (by simp [positiveFn, List.isPrefixOf])
      | aspect hf _ _ => rw [(Ex.fn.inj ht).1] at hp; exact absurd hp (by simp [positiveFn, List.isPrefixOf])
      | diffusion hf _ _ => rw [(Ex.fn.inj ht).1] at hp; exact absurd hp (by simp [positiveFn, List.isPrefixOf])
      | covariance hf _ => rw [(Ex.fn.inj ht).1] at hp; exact absurd hp (by simp [positiveFn, List.isPrefixOf])
    · rw [function_given (fun v h => hv ⟨v, h⟩)]
      exact hs.positive u args hp p
  zero_notMem h0 := by
    have : Nonempty Ω := by
      by_contra hne
      rw [not_nonempty_iff] at hne
      have := hs.total
      simp at this
    obtain ⟨ω⟩ := this
    exact lt_irrefl 0 (h0 ω 0)
  D_exp x _ r := by funext ω; exact Smooth.dir_exp _ _
  D_sin x _ r := by funext ω; exact Smooth.dir_sin _ _
  D_cos x _ r := by funext ω; exact Smooth.dir_cos _ _
  D_sinh x _ r := by funext ω; exact Smooth.dir_sinh _ _
  D_cosh x _ r := by funext ω; exact Smooth.dir_cosh _ _
  D_tanh x _ r := by funext ω; exact Smooth.dir_tanh _ _
  D_tan x _ r hr := by
    funext ω
    refine Smooth.dir_tan _ _ fun p e => ?_
    have h1 : 0 < (elementary "cos".toList (r ω) : Point coords → ℝ) p ^ 2 := hr ω p
    rw [elementary_value _ _ (smoothly_of_ne (by decide) (by decide) _), realFunc_cos, e] at h1
    simp at h1
  D_log x _ r hr := by funext ω; exact Smooth.dir_log _ _ (hr ω)
  D_atan x _ r _ := by funext ω; exact Smooth.dir_atan _ _

theorem E_eq (r : Ω → F (Point coords)) : (e.interp K.fields).E r = fun _ => e.average r := rfl

theorem det_const (r : F (Point coords)) : (fun _ => r) ∈ (Smooth.det : Subalgebra ℚ (Ω → F (Point coords))) := fun _ _ => rfl

theorem average_anomaly (h : Polynomial K coords n) (hs : Solves e K) (f : Field) : e.average (e.anomaly f) = 0 := by
  have st := stochastic h hs
  have hne : Nonempty Ω := by
    by_contra hne
    rw [not_nonempty_iff] at hne
    have := hs.total
    simp at this
  obtain ⟨ω⟩ := hne
  have e1 : e.member f = (fun _ => e.mean f) + e.anomaly f := by
    funext ω
    show _ = e.mean f + (e.member f ω - e.mean f)
    ring
  have e2 := congrFun (st.E_add (fun _ => e.mean f) (e.anomaly f)) ω
  rw [← e1, st.E_const _ (det_const _)] at e2
  have e3 : e.mean f = e.mean f + e.average (e.anomaly f) := e2
  exact left_eq_add.1 e3

theorem average_mul (h : Polynomial K coords n) (hs : Solves e K) (a : F (Point coords)) (r : Ω → F (Point coords)) :
    e.average (fun ω => a * r ω) = a * e.average r := by
  have st := stochastic h hs
  have hne : Nonempty Ω := by
    by_contra hne
    rw [not_nonempty_iff] at hne
    have := hs.total
    simp at this
  obtain ⟨ω⟩ := hne
  exact congrFun (st.E_mul (fun _ => a) r (det_const _)) ω

theorem normal (h : Polynomial K coords n) (hs : Solves e K) (f : Field) (hf : f ∈ K.fields) : Normalised (e.interp K.fields) f := by
  have hW := hs.spread f hf
  have q1 : power (e.variance f) (1 / 2) * power (e.variance f) (-1 / 2) = 1 := by
    rw [← power_add _ hW, show (1 / 2 + -1 / 2 : ℚ) = 0 by norm_num, power_zero]
  have q2 : power (e.variance f) (1 / 2) ^ 2 = e.variance f := by
    rw [pow_two, ← power_add _ hW, show (1 / 2 + 1 / 2 : ℚ) = 1 by norm_num, power_one]
  have he := den_of h (.epsilon (e := e) hf)
  have hv := den_of h (.variance (e := e) hf)
  refine ⟨?_, ?_, ?_, ?_, ?_, ?_⟩
  · rw [he, E_eq]
    funext ω
    show e.average (fun ω => e.anomaly f ω * power (e.variance f) (-1 / 2)) = 0
    simp only [mul_comm (e.anomaly f _)]
    rw [average_mul h hs]
    exact (congrArg _ (average_anomaly h hs f)).trans (mul_zero _)
  · rw [he, E_eq]
    funext ω
    show e.average (fun ω => (e.anomaly f ω * power (e.variance f) (-1 / 2)) ^ 2) = 1
    simp only [mul_pow, mul_comm (e.anomaly f _ ^ 2)]
    rw [average_mul h hs]
    show power (e.variance f) (-1 / 2) ^ 2 * e.variance f = 1
    have := congrArg (· ^ 2) q1
    simp only [mul_pow, one_pow] at this
    rw [q2] at this
    rw [mul_comm]
    exact this
  · rw [hv]
    funext ω
    exact q2
  · rw [hv]
    funext ω
    exact q1
  · rw [den_of h (.error (e := e) hf), he, hv]
    funext ω
    show e.anomaly f ω = e.anomaly f ω * power (e.variance f) (-1 / 2) * power (e.variance f) (1 / 2)
    rw [mul_assoc, mul_comm (power _ (-1 / 2)), q1, mul_one]
  · intro i j hij hj
    rw [den_of h (.metric (e := e) hf hij hj), he]
    rfl

theorem expandable (S : Interp (Ω → F (Point coords))) (P : Set (Ω → F (Point coords))) (fields : List Field) (t : Ex) (h : Rhs fields coords t) :
    Expandable S P {x | x ∈ coords} fields t ∧ Polynomials S P {x | x ∈ coords} fields t := by
  have dom : ∀ g ∈ entire, ∀ r, InDomain S P g r := by
    intro g hg r
    refine ⟨fun h => ?_, fun h => ?_, fun h => ?_⟩ <;> (subst h; exact absurd hg (by decide))
  induction t with
  | num q => exact ⟨trivial, trivial⟩
  | sym s => exact ⟨h, h⟩
  | fn u args => exact ⟨⟨h.1, h.2.1⟩, ⟨h.1, h.2.1⟩⟩
  | func g a ih => exact ⟨⟨⟨.inr h.2.1, dom g h.1 _⟩, (ih h.2.2).1⟩, ⟨⟨h.2.1, dom g h.1 _⟩, (ih h.2.2).2⟩⟩
  | add a b iha ihb => exact ⟨⟨(iha h.1).1, (ihb h.2).1⟩, ⟨(iha h.1).2, (ihb h.2).2⟩⟩
  | mul a b iha ihb => exact ⟨⟨(iha h.1).1, (ihb h.2).1⟩, ⟨(iha h.1).2, (ihb h.2).2⟩⟩
  | pow a q ih => exact ⟨⟨(ih h.2).1, .inl h.1⟩, ⟨(ih h.2).2, .inl h.1⟩⟩
  | deriv a vars ih => exact ⟨⟨(ih h.1).1, h.2⟩, ⟨(ih h.1).2, h.2⟩⟩
  | integ a x ih => exact h.elim
  | ex a ih => exact h.elim
  | other b => exact h.elim

/-- The members, one by one. -/
theorem den_state (h : Polynomial K coords n) (t : Ex) (ht : Rhs K.fields coords t) (ω : Ω) :
    den (realised (e.interp K.fields) K.fields) t ω = den (e.state K.fields ω) t := by
  induction t with
  | num q => rfl
  | sym s => rfl
  | fn u args =>
    show (if (⟨u, args⟩ : Field) ∈ K.fields then den (e.interp K.fields) (Field.random ⟨u, args⟩) else e.function K.fields u args) ω =
      if (⟨u, args⟩ : Field) ∈ K.fields then e.member ⟨u, args⟩ ω else e.given u args
    split
    · next hf => rw [den_of h (.random (e := e) hf)]
    · next hf =>
      rw [function_given]
      intro v hv
      rcases meaning_cases e hv with ⟨f, hf', h1, -⟩ | ⟨f, hf', h1, -⟩ | ⟨f, hf', k, -, h1, -⟩ | ⟨f, hf', g, -, h1, -⟩
      · exact ht.2.1 (by rw [(Ex.fn.inj h1).2]; simp)
      · obtain ⟨rfl, rfl⟩ := Ex.fn.inj h1
        exact hf hf'
      · obtain ⟨w, args', h2⟩ := kind_brace f k
        exact ht.2.2.1 (by rw [(Ex.fn.inj (h1.trans h2)).1]; rfl)
      · exact ht.2.2.2 (by rw [(Ex.fn.inj h1).1, List.append_assoc]; exact ⟨_, rfl⟩)
  | func g a ih => exact congrArg (elementary g) (ih ht.2.2)
  | add a b iha ihb => exact congrArg₂ (· + ·) (iha ht.1) (ihb ht.2)
  | mul a b iha ihb => exact congrArg₂ (· * ·) (iha ht.1) (ihb ht.2)
  | pow a q ih => exact congrArg (power · q) (ih ht.2)
  | deriv a vars ih =>
    have key : ∀ (vars : List (Str × ℕ)) (x : Ω → F (Point coords)),
        derivs (realised (e.interp K.fields) K.fields) vars x ω = derivs (e.state K.fields ω) vars (x ω) := by
      intro vars
      induction vars with
      | nil => intro x; rfl
      | cons v vars ihv =>
        intro x
        have hn : ∀ n : ℕ, (((realised (e.interp K.fields) K.fields).D v.1)^[n] x) ω = ((e.state K.fields ω).D v.1)^[n] (x ω) := by
          intro n
          induction n with
          | zero => rfl
          | succ n ihn => rw [Function.iterate_succ_apply', Function.iterate_succ_apply', ← ihn]; rfl
        exact (ihv _).trans (by rw [hn]; rfl)
    exact (key vars _).trans (by rw [ih ht.1]; rfl)
  | integ a x ih => exact ht.elim
  | ex a ih => exact ht.elim
  | other b => exact ht.elim

end Ens

/-- The statistics of an ensemble: means and variances; covariances of the couples of fields, for more than one field; the components of a tensor. -/
noncomputable def moments (e : Ensemble coords Ω) (fields : List Field) : List (F (Point coords)) := fields.map e.mean ++ fields.map e.variance

noncomputable def cross (e : Ensemble coords Ω) (fields : List Field) : List (F (Point coords)) :=
  if fields.length = 1 then [] else (couples fields).map (fun p => e.covariance p.1 p.2)

def tensors (fields : List Field) (T : Field → ℕ → ℕ → F (Point coords)) : List (F (Point coords)) :=
  fields.flatMap (fun f => (upper f.spatial.length).map (fun ij => T f ij.1 ij.2))

/-- **C109** Every ensemble of solutions of polynomial dynamics, whose members differ, is a setting in which the properties of the parametric Kalman filter
apply: the expressions have a meaning in which the expectation is the average over the members, the functions that the package
introduces are the statistics, and the members are a random solution. -/
theorem C109_setting (h : Polynomial K coords n) (hs : Solves e K) :
    Setting (e.interp K.fields) Smooth.det (Ens.positives coords Ω) {x | x ∈ coords} K coords ∧
    Dynamics (e.interp K.fields) (Ens.positives coords Ω) {x | x ∈ coords} K ∧
    DegreeAtMost (e.interp K.fields) (Ens.positives coords Ω) {x | x ∈ coords} K n ∧
    RandomSolution (e.interp K.fields) K ∧ Means (e.interp K.fields) K ∧
    ∀ t v, e.Meaning K.fields t v → den (e.interp K.fields) t = v := by
  refine ⟨?_, ⟨h.eps, h.lhs, fun q hq => (Ens.expandable _ _ _ _ (h.rhs q hq).1).1⟩, fun q hq => ⟨(Ens.expandable _ _ _ _ (h.rhs q hq).1).2, (h.rhs q hq).2⟩,
    ⟨fun f hf => ?_, fun fq hfq => ?_⟩, fun f hf => ?_, fun t v hv => Ens.den_of h hv⟩
  · refine ⟨Ens.stochastic h hs, Ens.calculus h hs, h.order, h.arrange, h.same, h.nodup, fun x hx => hx, h.time_mem, h.space, fun f hf => ?_,
      Ens.normal h hs, fun f g hfg v hv => ?_⟩
    · by_contra hp
      rw [Bool.not_eq_false] at hp
      exact h.names.brace f hf (Ens.positive_brace hp)
    · have hf : f ∈ K.fields := hfg.subset (by simp)
      have hg : g ∈ K.fields := hfg.subset (by simp)
      unfold covariance at hv
      rw [if_pos ⟨hf, hg⟩, if_pos (by rw [h.same f hf, h.same g hg])] at hv
      obtain rfl := Except.ok.inj hv
      rw [h.same f hf]
      rw [Ens.den_of h (.error (e := e) hf), Ens.den_of h (.error (e := e) hg)]
      exact Ens.den_of h (.covariance (e := e) hf hg)
  · rw [Ens.den_of h (.random (e := e) hf), Ens.den_of h (.error (e := e) hf)]
    funext ω
    show e.member f ω = e.mean f + (e.member f ω - e.mean f)
    ring
  · have hf := (List.of_mem_zip hfq).1
    have hq := (List.of_mem_zip hfq).2
    rw [Ens.den_of h (.random (e := e) hf)]
    funext ω
    rw [Ens.den_state h _ (h.rhs _ hq).1]
    exact hs.trend ω fq hfq
  · rw [Ens.den_of h (.mean (e := e) hf), Ens.den_of h (.random (e := e) hf)]
    rfl

/-! ## Other tensors -/

namespace Ens

theorem metric_comm (e : Ensemble coords Ω) (f : Field) (x y : Str) : e.metric f x y = e.metric f y x := by
  unfold Ensemble.metric
  simp only [mul_comm (Members.D x _)]

theorem matrix_symm (e : Ensemble coords Ω) (f : Field) : (e.metricMatrix f).transpose = e.metricMatrix f := by
  exact Matrix.ext fun i j => metric_comm e f _ _

theorem aspect_comm (e : Ensemble coords Ω) (f : Field) (i j : ℕ) : e.aspect f i j = e.aspect f j i := by
  unfold Ensemble.aspect
  by_cases h : i < f.spatial.length ∧ j < f.spatial.length
  · rw [dif_pos h, dif_pos ⟨h.2, h.1⟩]
    congr 1
    have := (e.metricMatrix f).adjugate_transpose
    rw [matrix_symm] at this
    exact congrFun (congrFun this _) _
  · rw [dif_neg h, dif_neg (fun h' => h ⟨h'.2, h'.1⟩)]

theorem index_comm (f : Field) (i j : ℕ) : f.indexCode i j = f.indexCode j i := by
  unfold Field.indexCode
  rcases lt_trichotomy i j with hij | rfl | hij
  · rw [if_neg (by omega), if_pos hij]
  · rfl
  · rw [if_pos hij, if_neg (by omega)]

/-- The components in any order. -/
theorem den_tensor (h : Polynomial K coords n) {f : Field} (hf : f ∈ K.fields) {i j : ℕ} (hi : i < f.spatial.length) (hj : j < f.spatial.length) :
    den (e.interp K.fields) (f.metric i j) = (fun _ => e.metric f (f.spatial.getD i []) (f.spatial.getD j [])) ∧
    den (e.interp K.fields) (f.aspect i j) = (fun _ => e.aspect f i j) ∧ den (e.interp K.fields) (f.diffusion i j) = (fun _ => e.diffusion f i j) := by
  rcases le_total i j with hij | hij
  · exact ⟨den_of h (.metric hf hij hj), den_of h (.aspect hf hij hj), den_of h (.diffusion hf hij hj)⟩
  · refine ⟨?_, ?_, ?_⟩
    · rw [metric_comm, show f.metric i j = f.metric j i by unfold Field.metric; rw [index_comm]]
      exact den_of h (.metric hf hij hi)
    · rw [aspect_comm, show f.aspect i j = f.aspect j i by unfold Field.aspect; rw [index_comm]]
      exact den_of h (.aspect hf hij hi)
    · rw [show e.diffusion f i j = e.diffusion f j i by unfold Ensemble.diffusion; rw [aspect_comm],
        show f.diffusion i j = f.diffusion j i by unfold Field.diffusion; rw [index_comm]]
      exact den_of h (.diffusion hf hij hi)

/-- The aspect tensor is the inverse of the metric tensor. -/
theorem aspect_metric (f : Field) (hp : ∀ p, 0 < ((e.metricMatrix f).det : Point coords → ℝ) p) :
    (Matrix.of fun i j : Fin f.spatial.length => e.aspect f i j) * e.metricMatrix f = 1 := by
  have h1 : power (e.metricMatrix f).det (-1) * (e.metricMatrix f).det = 1 := by
    have := power_add (e.metricMatrix f).det hp (-1) 1
    rw [show (-1 + 1 : ℚ) = 0 by norm_num, power_zero, power_one] at this
    exact this.symm
  have h2 : (Matrix.of fun i j : Fin f.spatial.length => e.aspect f i j) =
      power (e.metricMatrix f).det (-1) • (e.metricMatrix f).adjugate := by
    refine Matrix.ext fun i j => ?_
    show e.aspect f i j = _
    unfold Ensemble.aspect
    rw [dif_pos ⟨i.2, j.2⟩]
    rfl
  rw [h2, Matrix.smul_mul, Matrix.adjugate_mul, smul_smul, h1, one_smul]

theorem tensor_of (h : Polynomial K coords n) {f : Field} (hf : f ∈ K.fields) (hp : ∀ p, 0 < ((e.metricMatrix f).det : Point coords → ℝ) p)
    (c : ℚ) (hc : 0 < c) (T : ℕ → ℕ → Ex) (hT : ∀ i j, i < f.spatial.length → j < f.spatial.length → den (e.interp K.fields) (T i j) =
      fun _ => Members.const c * e.aspect f i j) : Tensor (e.interp K.fields) (positives coords Ω) c f T := by
  have ha := aspect_metric f hp
  refine ⟨fun i j hi hj => ?_, fun ω p => ?_⟩
  · have := congrFun (congrFun ha ⟨i, hi⟩) ⟨j, hj⟩
    rw [Matrix.mul_apply, Matrix.one_apply] at this
    funext ω
    rw [Finset.sum_apply, ← Fin.sum_univ_eq_sum_range (fun k => (den (e.interp K.fields) (T i k) * den (e.interp K.fields) (f.metric k j)) ω)]
    have e1 : ∀ k : Fin f.spatial.length, (den (e.interp K.fields) (T i k) * den (e.interp K.fields) (f.metric k j)) ω =
        Members.const c * (e.aspect f i k * e.metricMatrix f k ⟨j, hj⟩) := by
      intro k
      rw [hT i k hi k.2, (den_tensor h hf k.2 hj).1, ← mul_assoc]
      rfl
    rw [Finset.sum_congr rfl (fun k _ => e1 k), ← Finset.mul_sum]
    refine (congrArg _ this).trans ?_
    simp only [Fin.mk.injEq]
    split
    · rw [mul_one]; rfl
    · rw [mul_zero]; rfl
  · have e1 : (Matrix.of fun i j : Fin f.spatial.length => den (e.interp K.fields) (T i j)).det ω =
        ((Members.const c : F (Point coords)) • Matrix.of fun i j : Fin f.spatial.length => e.aspect f i j).det := by
      refine (RingHom.map_det (Pi.evalRingHom (fun _ : Ω => F (Point coords)) ω) _).trans (congrArg _ (Matrix.ext fun i j => ?_))
      show den (e.interp K.fields) (T i j) ω = _
      rw [hT i j i.2 j.2]
      rfl
    have e2 : ((Members.const c : F (Point coords)) • Matrix.of fun i j : Fin f.spatial.length => e.aspect f i j).det * (e.metricMatrix f).det =
        Members.const c ^ f.spatial.length := by
      rw [← Matrix.det_mul, Matrix.smul_mul, ha, Matrix.det_smul, Matrix.det_one, mul_one, Fintype.card_fin]
    rw [e1]
    have e3 := congrArg (fun r : F (Point coords) => (r : Point coords → ℝ) p) e2
    have e4 : 0 < (c : ℝ) ^ f.spatial.length := pow_pos (by exact_mod_cast hc) _
    have e5 : (((Members.const c : F (Point coords)) • Matrix.of fun i j : Fin f.spatial.length => e.aspect f i j).det : Point coords → ℝ) p *
      ((e.metricMatrix f).det : Point coords → ℝ) p = (c : ℝ) ^ f.spatial.length := e3
    rw [← e5] at e4
    exact (pos_iff_pos_of_mul_pos e4).2 (hp p)

end Ens

theorem moments_eq (h : Polynomial K coords n) :
    K.fields.map (fun f => (e.interp K.fields).E (den (e.interp K.fields) f.random)) ++
      K.fields.map (fun f => (e.interp K.fields).E (den (e.interp K.fields) f.error ^ 2)) = (moments e K.fields).map (fun r _ => r) := by
  unfold moments
  rw [List.map_append, List.map_map, List.map_map]
  congr 1
  · exact List.map_congr_left fun f hf => by rw [Ens.den_of h (.random (e := e) hf)]; rfl
  · exact List.map_congr_left fun f hf => by rw [Ens.den_of h (.error (e := e) hf)]; rfl

theorem cross_eq (h : Polynomial K coords n) : crossList (e.interp K.fields) K.fields = (cross e K.fields).map (fun r _ => r) := by
  unfold crossList cross
  split
  · rfl
  · rw [List.map_map]
    refine List.map_congr_left fun p hp => ?_
    have hsub : p.1 ∈ K.fields ∧ p.2 ∈ K.fields := by
      have := ((C41_couples K.fields).1 p.1 p.2).1 hp
      exact ⟨this.subset (by simp), this.subset (by simp)⟩
    rw [Ens.den_of h (.error (e := e) hsub.1), Ens.den_of h (.error (e := e) hsub.2)]
    rfl

theorem tensors_eq (t : Field → ℕ → ℕ → Ex) (T : Field → ℕ → ℕ → F (Point coords))
    (ht : ∀ f ∈ K.fields, ∀ i j, i < f.spatial.length → j < f.spatial.length → den (e.interp K.fields) (t f i j) = fun _ => T f i j) :
    components (e.interp K.fields) K.fields t = (tensors K.fields T).map (fun r _ => r) := by
  unfold components tensors
  rw [List.map_flatMap]
  refine List.flatMap_congr fun f hf => ?_
  rw [List.map_map]
  refine List.map_congr_left fun ij hij => ?_
  obtain ⟨h1, h2⟩ := mem_upper.1 hij
  exact ht f hf _ _ (by omega) h2

theorem trends_of {rs : List (F (Point coords))} {l : List Eqn} (h : Evolution (e.interp K.fields) (rs.map (fun r _ => r)) l) :
    List.Forall₂ (fun r q => ∀ ω, den (e.interp K.fields) q.1 ω = Members.D time r ∧ den (e.interp K.fields) q.2 ω = Members.D time r) rs l := by
  refine (List.forall₂_map_left_iff.1 h).imp fun r q hq ω => ?_
  rw [← hq.2]
  exact ⟨congrFun hq.1 ω, congrFun hq.1 ω⟩

/-- **C109** For linear dynamics the equations generated in terms of the metric are true of the statistics of every such ensemble: both sides of the
equation of each statistic are its derivative with respect to the time, when the closure is true of the ensemble. -/
theorem C109_linear (h : Polynomial K coords 1) (hs : Solves e K) (user : Dict Ex Ex)
    (hu : TrueClosure (e.interp K.fields) (Ens.positives coords Ω) {x | x ∈ coords} user) :
    ∃ l, K.inMetric user = .ok l ∧ List.Forall₂ (fun r q => ∀ ω, den (e.interp K.fields) q.1 ω = Members.D time r ∧
      den (e.interp K.fields) q.2 ω = Members.D time r) (moments e K.fields ++ cross e K.fields ++
        tensors K.fields fun f i j => e.metric f (f.spatial.getD i []) (f.spatial.getD j [])) l := by
  obtain ⟨h1, h2, h3, h4, h5, -⟩ := C109_setting h hs
  obtain ⟨⟨l, hl, hev⟩, -⟩ := C108_exact h1 h2 h4 h3 h5 user hu
  refine ⟨l, hl, ?_⟩
  rw [moments_eq h, cross_eq h, tensors_eq Field.metric (fun f i j => e.metric f (f.spatial.getD i []) (f.spatial.getD j []))
    (fun f hf i j hi hj => (Ens.den_tensor h hf hi hj).1), ← List.map_append, ← List.map_append] at hev
  exact trends_of hev

/-- **C109** The same for the equations in terms of the aspect and diffusion tensors, when the metric tensors can be inverted.  The equations in
terms of the diffusion tensors do not have the covariances. -/
theorem C109_tensors (h : Polynomial K coords 1) (hs : Solves e K) (hp : ∀ f ∈ K.fields, ∀ p, 0 < ((e.metricMatrix f).det : Point coords → ℝ) p)
    (user : Dict Ex Ex) (hu : TrueClosure (e.interp K.fields) (Ens.positives coords Ω) {x | x ∈ coords} user) :
    (∃ l, K.inAspect user = .ok l ∧ List.Forall₂ (fun r q => ∀ ω, den (e.interp K.fields) q.1 ω = Members.D time r ∧
      den (e.interp K.fields) q.2 ω = Members.D time r) (moments e K.fields ++ cross e K.fields ++ tensors K.fields e.aspect) l) ∧
    ∃ l, K.inDiffusion user = .ok l ∧ List.Forall₂ (fun r q => ∀ ω, den (e.interp K.fields) q.1 ω = Members.D time r ∧
      den (e.interp K.fields) q.2 ω = Members.D time r) (moments e K.fields ++ tensors K.fields e.diffusion) l := by
  obtain ⟨h1, h2, h3, h4, h5, -⟩ := C109_setting h hs
  obtain ⟨-, h6, h7⟩ := C108_exact h1 h2 h4 h3 h5 user hu
  obtain ⟨l, hl, hev⟩ := h6 fun f hf => Ens.tensor_of h hf (hp f hf) 1 one_pos _ fun i j hi hj => by
    rw [(Ens.den_tensor h hf hi hj).2.1]
    funext ω
    rw [show (Members.const ((1 : ℚ) : ℝ) : F (Point coords)) = 1 by rw [Rat.cast_one]; rfl, one_mul]
  obtain ⟨m, hm, hev'⟩ := h7 fun f hf => Ens.tensor_of h hf (hp f hf) (1 / 2) (by norm_num) _ fun i j hi hj => by
    rw [(Ens.den_tensor h hf hi hj).2.2]
    funext ω
    rw [show ((1 / 2 : ℚ) : ℝ) = 1 / 2 by norm_num]
    rfl
  refine ⟨⟨l, hl, ?_⟩, m, hm, ?_⟩
  · rw [moments_eq h, cross_eq h, tensors_eq Field.aspect e.aspect (fun f hf i j hi hj => (Ens.den_tensor h hf hi hj).2.1), ← List.map_append,
      ← List.map_append] at hev
    exact trends_of hev
  · rw [moments_eq h, tensors_eq Field.diffusion e.diffusion (fun f hf i j hi hj => (Ens.den_tensor h hf hi hj).2.2), ← List.map_append] at hev'
    exact trends_of hev'

/-- **C109** For quadratic dynamics the equations of the means are true of every such ensemble. -/
theorem C109_mean (h : Polynomial K coords 2) (hs : Solves e K) :
    ∃ l, K.expectationSystem = .ok l ∧ l.length = K.fields.length ∧ ∀ q ∈ l, den (e.interp K.fields) q.1 = den (e.interp K.fields) q.2 := by
  obtain ⟨h1, h2, h3, h4, -⟩ := C109_setting h hs
  exact C47_exact_partial h1 h2 h4 h3

end Sympkf.PKF
