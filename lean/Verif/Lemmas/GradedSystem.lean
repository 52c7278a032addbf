import Verif.Lemmas.MaxOrder
import Verif.Lemmas.TreeOrder

/-!
# Lemmas: the order of the derivatives in the systems of the PKF
-/

set_option autoImplicit false

namespace Sympkf.Spec.Graded

open Text Rand PKF Pkf

/-- A derivation along a coordinate of space weighs `1`, a derivation along time weighs as much as the trends. -/
def grade (p N : ℕ) : Grade where
  ow x := if x = time then p else 1
  W := 2 + N
  ow0 x := by split <;> positivity
  W1 := by have : (0 : ℚ) ≤ N := by positivity
           linarith

theorem cost_space (p N : ℕ) (vars : List (Str × ℕ)) (h : ∀ v ∈ vars, v.1 ≠ time) : cost (grade p N) vars = ((vars.map Prod.snd).sum : ℕ) := by
  induction vars with
  | nil => simp [cost]
  | cons v vars ih =>
    rw [cost_cons, ih (fun v hv => h v (by simp [hv]))]
    have : (grade p N).ow v.1 = 1 := if_neg (h v (by simp))
    rw [this]
    simp

theorem cost_timeFree (p N : ℕ) (vars : List (Str × ℕ)) (h : ∀ v ∈ vars, v.1 = time → v.2 = 0) :
    cost (grade p N) vars ≤ ((vars.map Prod.snd).sum : ℕ) := by
  induction vars with
  | nil => simp [cost]
  | cons v vars ih =>
    rw [cost_cons]
    have h1 := ih (fun v hv => h v (by simp [hv]))
    have h2 : (grade p N).ow v.1 * v.2 ≤ v.2 := by
      by_cases e : v.1 = time
      · rw [h v (by simp) e]; simp
      · rw [show (grade p N).ow v.1 = 1 from if_neg e, one_mul]
    simp only [List.map_cons, List.sum_cons, Nat.cast_add]
    linarith

theorem mo_of_order (p N : ℕ) (e : Ex) (k : ℕ) (ho : OrderLe k e) (ht : TimeFree e) (hd : Deterministic e) : Mo (grade p N) e k := by
  induction e generalizing k with
  | num => trivial
  | sym => trivial
  | fn => trivial
  | func g a ih => exact ih k ho ht hd
  | add a b iha ihb => exact ⟨iha k ho.1 ht.1 hd.1, ihb k ho.2 ht.2 hd.2⟩
  | mul a b iha ihb => exact ⟨iha k ho.1 ht.1 hd.1, ihb k ho.2 ht.2 hd.2⟩
  | pow a q ih => exact ih k ho ht hd
  | deriv a vars ih =>
    have h1 := cost_timeFree p N vars ht.2
    have h2 : (((vars.map Prod.snd).sum : ℕ) : ℚ) ≤ k := by exact_mod_cast ho.1
    refine ⟨by linarith, (ih _ ho.2 ht.1 hd.1).up ?_⟩
    rw [Nat.cast_sub ho.1]
    linarith
  | integ a x ih => exact ih k ho ht hd.1
  | ex a => exact hd.elim
  | other b => exact hd.elim

variable {G : Grade}

theorem po_of_only {M : Ex → Prop} (e : Ex) (h : Only M (fun _ => False) e) : Po G e 0 := by
  induction e with
  | num => exact le_refl (0 : ℚ)
  | sym s => exact ⟨h, le_refl _⟩
  | fn u args => show (if omega ∈ args then (1 : ℚ) else 0) ≤ 0; rw [if_neg (fun ho => h ho)]
  | func g a ih => exact ⟨ih h, le_refl _⟩
  | add a b iha ihb => exact ⟨iha h.1, ihb h.2⟩
  | mul a b iha ihb => exact ⟨0, 0, by norm_num, iha h.1, ihb h.2⟩
  | pow a q ih => exact ⟨le_refl _, .inr (ih h)⟩
  | deriv a vars ih => exact ⟨.inr ⟨ih h.1, le_refl _⟩, h.2⟩
  | integ a x ih => exact ⟨ih h.1, h.2, le_refl _⟩
  | ex a ih =>
    refine ⟨le_refl _, ?_⟩
    rcases h.2 with h' | ⟨u, args, rfl, -⟩
    · exact .inl ((ih h').up (by linarith [G.W1]))
    · exact .inr ⟨u, args, rfl, by simpa [hasOmega] using h.1⟩
  | other b => exact h.elim

/-! ## Products of derivatives -/

theorem fnA_inv {a : Ex} (ha : FnA a) {n : ℚ} (h : Po G a n) : wt G a ≤ n := by
  rw [fnA_wt ha]
  obtain ⟨u, args, v, rfl, hv, ho⟩ := ha
  have fn : ∀ m, Po G (.fn u args) m → 1 ≤ m := by
    intro m hm
    have : (if omega ∈ args then (1 : ℚ) else 0) ≤ m := hm
    rwa [if_pos ho] at this
  unfold fnD at h ⊢
  split
  · rename_i e
    rw [if_pos e] at h
    simpa [ord] using fn n h
  · rename_i e
    rw [if_neg e] at h
    simp only [ord]
    rcases h.1 with ⟨m, hm, hmn⟩ | ⟨h0, -⟩
    · have := fn m hm
      linarith
    · have := fn 0 h0
      norm_num at this

theorem pair_inv {a b : Ex} (ha : FnA a) (hb : FnA b) {n : ℚ} (h : Po G (.ex (pair a b)) n) : wt G a + wt G b ≤ G.W := by
  have mulCase : ∀ x y : Ex, FnA x → FnA y → Po G (.mul x y) G.W → wt G x + wt G y ≤ G.W := by
    rintro x y hx hy ⟨i, j, hij, h1, h2⟩
    have := fnA_inv hx h1
    have := fnA_inv hy h2
    linarith
  have hp : Po G (pair a b) G.W := by
    rcases h.2 with h | ⟨u, args, e, -⟩
    · exact h
    · unfold pair at e
      split at e
      · cases e
      · split at e <;> cases e
  unfold pair at hp
  split at hp
  · rename_i e
    subst e
    rcases hp.2 with ⟨m, -, -, hm, hm'⟩ | h0
    · have := fnA_inv ha hm'
      linarith
    · have := fnA_inv ha h0
      have := fnA_one (G := G) ha
      linarith
  · split at hp
    · exact mulCase a b ha hb hp
    · have := mulCase b a hb ha hp
      linarith

/-- Substitutions that keep the weight. -/
def Fit (G : Grade) (d : Dict Ex Ex) : Prop :=
  ∀ kv ∈ d, (∀ n, Po G (eval kv.1) n → Po G kv.2 n) ∧ ∀ c vs, eval kv.1 = .deriv c vs → ∀ v ∈ vs, v.1 ≠ omega

theorem po_eps (f : Field) : Po G f.epsilon 1 := by
  show (if omega ∈ f.coordinates ++ [omega] then (1 : ℚ) else 0) ≤ 1
  split <;> norm_num

theorem po_error (f : Field) : Po G f.error 1 := po_eps (G := G) f

theorem sum_toNat {n d : ℕ} {v : List ℤ} (h : IsMultiIndex n d v) : (v.map Int.toNat).sum = d := by
  have h1 := h.sum
  have h2 := h.nonneg
  clear h
  induction v generalizing d with
  | nil => simp only [List.map_nil, List.sum_nil] at h1 ⊢; omega
  | cons a v ih =>
    have ha := h2 a (by simp)
    have hv : 0 ≤ v.sum := List.sum_nonneg (fun x hx => h2 x (by simp [hx]))
    have := ih (d := v.sum.toNat) (by rw [Int.toNat_of_nonneg hv]) (fun x hx => h2 x (by simp [hx]))
    simp only [List.map_cons, List.sum_cons] at h1 ⊢
    omega

theorem cost_multi (p N : ℕ) (coords : List Str) (ht : ∀ x ∈ coords, x ≠ time) {d : ℕ} {v : List ℤ} (h : IsMultiIndex coords.length d v) :
    cost (grade p N) (coords.zip (v.map Int.toNat)) = d := by
  rw [cost_space p N _ (fun w hw => ht _ (List.of_mem_zip hw).1)]
  rw [List.map_snd_zip (by simp [h.length])]
  rw [sum_toNat h]

theorem fit_trends {p N : ℕ} (gs : List Ex) (hg : ∀ g ∈ gs, ∃ u args, g = .fn u args ∧ time ∈ args) (es : List Eqn) (he : EvolutionForm gs es)
    (k : ℚ) (hk : ∀ g ∈ gs, ∀ n, Po (grade p N) (dt g) n → k ≤ n) (hv : ∀ q ∈ es, Po (grade p N) q.2 k) : Fit (grade p N) (trends es) := by
  intro kv hkv
  have hm := Setting.mem_trends _ _ hkv
  have h1 : kv.1 ∈ es.map Prod.fst := List.mem_map_of_mem hm
  rw [he.1] at h1
  obtain ⟨g, hg', e⟩ := List.mem_map.1 h1
  have e2 : eval kv.1 = dt g := by
    rw [← e]; exact EvolutionSystem.Moves.eval (hg g hg')
  rw [e2]
  refine ⟨fun n hn => (hv kv hm).up (hk g hg' n hn), fun c vs e' => ?_⟩
  cases e'
  intro v hv
  rw [List.mem_singleton] at hv
  subst hv
  exact DetSystem.time_ne

theorem cost_dt (p N : ℕ) : cost (grade p N) [(time, 1)] = p := by simp [cost, grade]

/-- The trend of a random function weighs `1 + p`. -/
theorem dt_inv {p N : ℕ} {u : Str} {args : List Str} (ho : omega ∈ args) {n : ℚ} (h : Po (grade p N) (dt (.fn u args)) n) : 1 + (p : ℚ) ≤ n := by
  have fn : ∀ m, Po (grade p N) (.fn u args) m → 1 ≤ m := by
    intro m hm
    have : (if omega ∈ args then (1 : ℚ) else 0) ≤ m := hm
    rwa [if_pos ho] at this
  rcases h.1 with ⟨m, hm, hmn⟩ | ⟨h0, -⟩
  · have := fn m hm
    rw [cost_dt] at hmn
    linarith
  · have := fn 0 h0
    norm_num at this

theorem po_dt {p N : ℕ} {e : Ex} {m : ℚ} (h : Po (grade p N) e m) : Po (grade p N) (dt e) (m + p) :=
  ⟨.inl ⟨m, h, by rw [cost_dt]⟩, by simpa using DetSystem.time_ne⟩

section

variable {K : Pkf} {coords : List Str} (h : EvolutionSystem K coords) {p N : ℕ}
include h

theorem po_subs (d : Dict Ex Ex) (hd : Fit G d) (e : Ex) (n : ℚ) (he : Po G e n) : Po G (K.subs d e) n :=
  po_substAll _ (fun kv hkv => (hd kv ((h.det.arrange d).mem_iff.1 hkv)).1) (fun kv hkv => (hd kv ((h.det.arrange d).mem_iff.1 hkv)).2) e n he

theorem fit_closure (c : Dict Ex Ex) (hc : K.closure = .ok c) : Fit G c := by
  intro kv hkv
  obtain ⟨⟨a, ha⟩, -⟩ := (h.det.entries c hc).1 kv hkv
  rw [ha]
  exact ⟨fun n hn => (po_of_only _ (h.det.closure_only c hc (fun _ => False) kv hkv)).up hn.nonneg, fun _ _ e => by cases e⟩

theorem po_tree (f : Field) (hf : f ∈ K.fields) (m : ℕ) (hm : m ≤ N) (v : Tree.TEx) (hv : Tree.Along f.spatial v)
    (hu : Tree.Upto f.spatial.length m v) : Po (grade p N) (ofTree f.spatial f.epsilon v) 0 := by
  have ne : ∀ x ∈ f.spatial, x ≠ Rand.omega := fun x hx e => h.det.omega_spatial f hf (e ▸ hx)
  have nt : ∀ x ∈ f.spatial, x ≠ time := fun x hx => by simpa using (List.mem_filter.1 hx).2
  have da : ∀ d a, IsMultiIndex f.spatial.length d a → Po (grade p N) (dalpha f.spatial f.epsilon a) (1 + d) :=
    fun d a ha => ⟨.inl ⟨1, po_eps f, by rw [cost_multi p N _ nt ha]⟩, fun v hv => ne _ (List.of_mem_zip hv).1⟩
  induction v with
  | term t =>
    obtain ⟨a, b, ha, hb, hab⟩ := hu
    refine ⟨le_refl _, .inl ⟨1 + a, 1 + b, ?_, da _ _ ha, da _ _ hb⟩⟩
    have : (a : ℚ) + b ≤ N := by exact_mod_cast le_trans hab hm
    show _ ≤ (2 : ℚ) + N
    linarith
  | d x e ih => exact ⟨.inr ⟨ih hv.2 hu, le_refl _⟩, by simpa using ne x hv.1⟩
  | sub e g ihe ihg => exact ⟨ihe hv.1 hu.1, 0, 0, by norm_num, le_refl (0 : ℚ), ihg hv.2 hu.2⟩
  | half e ih => exact ⟨0, 0, by norm_num, le_refl (0 : ℚ), ih hv hu⟩

theorem fnA_eps (f : Field) (hf : f ∈ K.fields) (w : List (Str × ℕ)) (hw : ∀ v ∈ w, v.1 ∈ f.spatial) : FnA (dEps f w) :=
  ⟨_, _, w, rfl, fun v hv => ⟨spatial_args _ (hw v hv), fun e => h.det.omega_spatial f hf (e ▸ hw v hv)⟩, by simp⟩

theorem wt_eps (f : Field) (hf : f ∈ K.fields) (w : List (Str × ℕ)) (hw : ∀ v ∈ w, v.1 ∈ f.spatial) : wt G (dEps f w) = 1 + cost G w := by
  rw [fnA_wt (fnA_eps h f hf w hw), ord_fnD, cost_bumps, cost_nil, add_zero]

theorem fit_tree (c : Dict Ex Ex) (hc : K.closure = .ok c) (f : Field) (hf : f ∈ K.fields) (d : ℕ) (t : Dict Ex Ex)
    (ht : K.closedTree c f d = .ok t) : Fit (grade p N) t := by
  have e := h.det.spatial f hf
  have h0 : f.spatial ≠ [] := e ▸ h.det.space
  have hn : f.spatial.Nodup := e ▸ h.det.nodup.filter _
  have nt : ∀ x ∈ f.spatial, x ≠ time := fun x hx => by simpa using (List.mem_filter.1 hx).2
  have z : ∀ α : List ℤ, ∀ p ∈ f.spatial.zip (α.map Int.toNat), p.1 ∈ f.spatial := fun α p hp => (List.of_mem_zip hp).1
  unfold closedTree at ht
  simp only [bind, Except.bind, pure, Except.pure] at ht
  split at ht
  · cases ht
  rename_i t1 ht1
  cases ht
  intro kv hkv
  have hal := Tree.call_along K.order f.spatial true _ Tree.State.init t1.2 t1.1 ht1 ⟨by simp [Tree.State.init], by simp [Tree.State.init]⟩
  have hlv := Tree.call_level K.order h.det.order f.spatial h0 hn true _ Tree.State.init t1.2 t1.1 ht1
    ⟨by simp [Tree.State.init], by simp [Tree.State.init]⟩
  obtain ⟨tv, htv, rfl⟩ := List.mem_map.1 (Setting.mem_trends _ _ hkv)
  obtain ⟨a, b, α, β, hα, hβ, e1, hu⟩ := hlv _ htv
  have hst := stable_dEps (f := f) _ _ (z α) (z β)
  have key : eval (ofTree f.spatial f.epsilon (.term tv.1)) = .ex (pair (dEps f (f.spatial.zip (α.map Int.toNat))) (dEps f (f.spatial.zip (β.map Int.toNat)))) := by
    unfold eval
    rw [show ofEx (ofTree f.spatial f.epsilon (.term tv.1)) = _ from
      ofEx_ex_mul _ _ _ _ (ofEx_dEps _ (z tv.1.a)) (ofEx_dEps _ (z tv.1.b)) (rnd_dEps _) (rnd_dEps _), toEx_patom]
    rcases Tree.term_ab α β with ⟨x1, x2⟩ | ⟨x1, x2⟩
    · rw [e1, x1, x2]
    · rw [e1, x1, x2, pair_comm]
  have key2 : eval (eval (ofTree f.spatial f.epsilon (.term tv.1))) = _ := (congrArg eval key).trans hst.eval
  refine ⟨fun n hn => ?_, fun c vs e' => ?_⟩
  · rw [key2] at hn
    have h1 := pair_inv (fnA_eps h f hf _ (z α)) (fnA_eps h f hf _ (z β)) hn
    rw [wt_eps h f hf _ (z α), wt_eps h f hf _ (z β), cost_multi p N _ nt hα, cost_multi p N _ nt hβ] at h1
    have h2 : (1 : ℚ) + a + (1 + b) ≤ 2 + N := h1
    have h3 : a + b ≤ N := by
      have : (a : ℚ) + b ≤ N := by linarith
      exact_mod_cast this
    exact (po_subs h c (fit_closure h c hc) _ 0 (po_tree h f hf (a + b) h3 _ (hal _ htv) hu)).up hn.nonneg
  · rw [key2] at e'
    cases e'

theorem po_det' (f : Field) (hf : f ∈ K.fields) (u : Str) : Po G (.fn u f.coordinates) 0 := by
  show (if omega ∈ f.coordinates then (1 : ℚ) else 0) ≤ 0
  rw [if_neg (h.det.omega_field f hf)]

theorem fit_error : Fit G K.subsError := by
  intro kv hkv
  rcases Dict.mem_update _ _ _ hkv with hkv | hkv
  · cases hkv
  obtain ⟨f, hf, rfl⟩ := List.mem_map.1 hkv
  have e : eval f.error = f.error := toEx_patom _
  refine ⟨fun n hn => ?_, fun c vs e' => ?_⟩
  · rw [show eval (f.error, Ex.mul (.pow f.variance (1 / 2)) f.epsilon).1 = f.error from e] at hn
    have : (if omega ∈ f.coordinates ++ [omega] then (1 : ℚ) else 0) ≤ n := hn
    rw [if_pos (by simp)] at this
    exact ⟨0, 1, by linarith, ⟨le_refl _, .inr (po_det' h f hf _)⟩, po_eps f⟩
  · rw [show eval (f.error, Ex.mul (.pow f.variance (1 / 2)) f.epsilon).1 = f.error from e] at e'
    cases e'

variable (heps : ∀ q ∈ K.equations, occurs epsSym q.2 = false) (hord : ∀ q ∈ K.equations, OrderLe p q.2)
include heps hord

theorem po_reynolds (r : List (Eqn × Eqn)) (hr : K.reynolds = .ok r) :
    ∀ q ∈ r, Po (grade p N) q.1.2 (2 + 2 * p) ∧ Po (grade p N) q.2.2 (1 + p) := by
  intro q hq
  unfold reynolds at hr
  obtain ⟨q0, hq0, e⟩ := mem_mapM _ _ _ hr q hq
  have := po_reynoldsEq (G := grade p N) h.det q0 (h.det.equations q0 hq0).2 (heps q0 hq0) p (by positivity)
    (mo_of_order p N q0.2 p (hord q0 hq0) (h.evolution.2 q0 hq0) (h.det.equations q0 hq0).2) q e
  exact ⟨this.1.up (by linarith), this.2⟩

theorem po_errors (hN : p ≤ N) (es : List Eqn) (hes : K.errorSystem = .ok es) : ∀ q ∈ es, Po (grade p N) q.2 (1 + p) := by
  unfold errorSystem tlExpectation firstOrder at hes
  obtain ⟨c, hc, -⟩ := h.det.closure_ok
  simp only [hc, bind, Except.bind, pure, Except.pure] at hes
  split at hes
  · cases hes
  rename_i first hf
  split at hf
  · cases hf
  rename_i r hr
  cases hf
  cases hes
  have hp := po_reynolds h heps hord (N := N) r hr
  have hpN : (p : ℚ) ≤ N := by exact_mod_cast hN
  have hp0 : (0 : ℚ) ≤ p := by positivity
  intro q hq
  obtain ⟨⟨q1, q2⟩, hz, rfl⟩ := List.mem_map.1 hq
  have m := List.of_mem_zip hz
  obtain ⟨q3, hq3, rfl⟩ := List.mem_map.1 m.2
  obtain ⟨r1, hr1, e1⟩ := List.mem_map.1 m.1
  obtain ⟨r3, hr3, e3⟩ := List.mem_map.1 hq3
  have p1 : Po (grade p N) q1.2 (1 + p) := e1 ▸ (hp r1 hr1).2
  have p3 : Po (grade p N) q3.2 (1 + p) := e3 ▸ (hp r3 hr3).2
  have p4 := po_subs h c (fit_closure h c hc) (eval (.ex q3.2)) 0
    (po_eval (G := grade p N) _ ⟨le_refl _, .inl (p3.up (show _ ≤ (2 : ℚ) + N by linarith))⟩)
  exact po_eval (.add q1.2 (.mul (.num (-1)) _)) ⟨p1, 0, 0, by linarith, le_refl (0 : ℚ), p4⟩

omit heps hord in
theorem po_applyInternal (c : Dict Ex Ex) (hc : K.closure = .ok c) (rhs : Ex) (hr : Po (grade p N) rhs 0) (e : Ex)
    (he : K.applyInternal c rhs = .ok e) : Po (grade p N) e 0 := by
  unfold applyInternal at he
  simp only [bind, Except.bind, pure, Except.pure] at he
  split at he
  · cases he
  split at he
  · cases he
  rename_i e1 he1
  cases he
  refine po_subs h _ (fit_closure h c hc) _ 0 (foldlM_ok _ (fun e => Po (grade p N) e 0) _ _ _ he1 hr ?_)
  intro s eps s' _ hs hstep
  unfold applyTree at hstep
  split at hstep
  · cases hstep
  rename_i f hf
  simp only [bind, Except.bind, pure, Except.pure] at hstep
  split at hstep
  · cases hstep
  rename_i tree htree
  cases hstep
  exact po_subs h _ (fit_tree h c hc f (Setting.fieldOf_mem eps f hf).1 _ tree htree) _ 0 hs

variable (r : List (Eqn × Eqn)) (hr : K.reynolds = .ok r)
include hr

theorem fit_errors (hN : p ≤ N) (es : List Eqn) (hes : K.errorSystem = .ok es) : Fit (grade p N) (trends es) := by
  refine fit_trends _ h.errors_fn es (h.error_evolution r hr es hes) (1 + p) (fun g hg n hn => ?_) (po_errors h heps hord hN es hes)
  obtain ⟨f, -, rfl⟩ := List.mem_map.1 hg
  exact dt_inv (by simp) hn

theorem po_variance (hN : p ≤ N) (vs : List Eqn) (hvs : K.varianceSystem = .ok vs) : ∀ q ∈ vs, Po (grade p N) q.2 0 := by
  obtain ⟨es, hes⟩ := h.det.error_ok r hr
  obtain ⟨c, hc, -⟩ := h.det.closure_ok
  have hpN : (p : ℚ) ≤ N := by exact_mod_cast hN
  unfold varianceSystem at hvs
  simp only [hes, hc, bind, Except.bind] at hvs
  intro q hq
  obtain ⟨f, hf, hq⟩ := mem_mapM _ _ _ hvs q hq
  unfold varianceEq at hq
  simp only [bind, Except.bind, pure, Except.pure] at hq
  split at hq
  · cases hq
  rename_i e hap
  cases hq
  have p0 : Po (grade p N) (.ex (dt (.pow f.error 2))) 0 :=
    ⟨le_refl _, .inl ((po_dt (e := .pow f.error 2) (m := 2) ⟨by norm_num, .inl ⟨1, by decide +kernel, by norm_num, by norm_num, po_error f⟩⟩).up
      (show _ ≤ (2 : ℚ) + N by linarith))⟩
  have p1 := po_subs h _ (fit_errors h heps hord r hr hN es hes) _ 0 p0
  have p2 := po_subs h _ (fit_error h) _ 0 p1
  exact po_applyInternal h c hc _ p2 e hap

theorem po_cross (hN : p ≤ N) (cs : Option (List Eqn)) (hcs : K.crossSystem = .ok cs) : ∀ q ∈ cs.getD [], Po (grade p N) q.2 0 := by
  have hpN : (p : ℚ) ≤ N := by exact_mod_cast hN
  unfold crossSystem at hcs
  split at hcs
  · cases hcs
    intro q hq
    cases hq
  obtain ⟨c, hc, -⟩ := h.det.closure_ok
  obtain ⟨es, hes⟩ := h.det.error_ok r hr
  simp only [hes, hc, bind, Except.bind, pure, Except.pure] at hcs
  split at hcs
  · cases hcs
  rename_i l hl
  cases hcs
  intro q hq
  obtain ⟨pr, hp, hq⟩ := mem_mapM _ _ _ hl q hq
  unfold crossEq at hq
  simp only [bind, Except.bind, pure, Except.pure] at hq
  split at hq
  · cases hq
  split at hq
  · cases hq
  rename_i e hap
  cases hq
  have p0 : Po (grade p N) (.ex (dt (.mul pr.1.error pr.2.error))) 0 :=
    ⟨le_refl _, .inl ((po_dt (e := .mul pr.1.error pr.2.error) (m := 2) ⟨1, 1, by norm_num, po_error _, po_error _⟩).up (show _ ≤ (2 : ℚ) + N by linarith))⟩
  have p1 := po_subs h _ (fit_errors h heps hord r hr hN es hes) _ 0 p0
  have p2 := po_subs h _ (fit_error h) _ 0 p1
  exact po_eval _ (po_applyInternal h c hc _ p2 e hap)

theorem po_epsilons (hN : p ≤ N) (es : List Eqn) (hes : K.epsilonSystem = .ok es) : ∀ q ∈ es, Po (grade p N) q.2 (1 + p) := by
  obtain ⟨rs, hrs⟩ := h.det.error_ok r hr
  obtain ⟨vs, hvs, -⟩ := h.det.variance_ok r hr
  unfold epsilonSystem at hes
  simp only [hrs, hvs, bind, Except.bind, pure, Except.pure] at hes
  cases hes
  intro q hq
  obtain ⟨f, hf, rfl⟩ := List.mem_map.1 hq
  have p0 : Po (grade p N) (dt (.mul f.error (.pow f.variance (-1 / 2)))) (1 + p) :=
    po_dt ⟨1, 0, by norm_num, po_error f, le_refl _, .inr (po_det' h f hf _)⟩
  have p1 := po_subs h _ (fit_errors h heps hord r hr hN rs hrs) _ (1 + p) p0
  have hfit : Fit (grade p N) (trends vs) := by
    refine fit_trends _ h.variances_fn vs (h.variance_evolution r hr vs hvs) 0 (fun g _ n hn => hn.nonneg) (fun q hq => ?_)
    exact po_variance h heps hord r hr hN vs hvs q hq
  have p2 := po_subs h _ hfit _ (1 + p) p1
  exact po_subs h _ (fit_error h) _ (1 + p) p2

theorem po_metric (hN : p + 2 ≤ N) (ms : List Eqn) (hms : K.metricSystem = .ok ms) : ∀ q ∈ ms, Po (grade p N) q.2 0 := by
  obtain ⟨es, hes, -⟩ := h.det.epsilon_ok r hr
  obtain ⟨c, hc, -⟩ := h.det.closure_ok
  have hpN : (p : ℚ) + 2 ≤ N := by exact_mod_cast hN
  unfold metricSystem at hms
  simp only [hes, hc, bind, Except.bind] at hms
  intro q hq
  obtain ⟨pr, hp, hq⟩ := mem_mapM _ _ _ hms q hq
  obtain ⟨f, hf, hp⟩ := List.mem_flatMap.1 hp
  obtain ⟨⟨i, j⟩, hij, rfl⟩ := List.mem_map.1 hp
  obtain ⟨hij, hj⟩ := (Setting.mem_pairs _ _ _).1 hij
  have hx : ∀ k, k < f.spatial.length → f.spatial.getD k [] ∈ f.spatial := fun k hk => by
    rw [List.getD_eq_getElem?_getD, List.getElem?_eq_getElem hk, Option.getD_some]
    exact List.getElem_mem hk
  have nt : ∀ x ∈ f.spatial, x ≠ time := fun x hx => by simpa using (List.mem_filter.1 hx).2
  have hd : ∀ k, k < f.spatial.length → Po (grade p N) (.deriv f.epsilon [(f.spatial.getD k [], 1)]) 2 := fun k hk => by
    refine ⟨.inl ⟨1, po_eps f, ?_⟩, ?_⟩
    · rw [cost_space p N _ (by simpa using nt _ (hx k hk))]
      norm_num
    · intro v hv
      rw [List.mem_singleton] at hv
      subst hv
      exact fun e => h.det.omega_spatial f hf (e ▸ hx k hk)
  unfold metricEq at hq
  simp only [bind, Except.bind, pure, Except.pure] at hq
  split at hq
  · cases hq
  rename_i e hap
  cases hq
  have p0 : Po (grade p N) (.ex (dt (.mul (.deriv f.epsilon [(f.spatial.getD i [], 1)]) (.deriv f.epsilon [(f.spatial.getD j [], 1)])))) 0 :=
    ⟨le_refl _, .inl ((po_dt (e := .mul _ _) (m := 4) ⟨2, 2, by norm_num, hd i (by omega), hd j hj⟩).up (show _ ≤ (2 : ℚ) + N by linarith))⟩
  have hfit : Fit (grade p N) (trends es) := by
    refine fit_trends _ h.epsilons_fn es (h.epsilon_evolution r hr es hes) (1 + p) (fun g hg n hn => ?_)
      (po_epsilons h heps hord r hr (by omega) es hes)
    obtain ⟨f, -, rfl⟩ := List.mem_map.1 hg
    exact dt_inv (by simp) hn
  exact po_eval _ (po_applyInternal h c hc _ (po_subs h _ hfit _ 0 p0) e hap)

theorem po_mean (hN : 2 * p ≤ N) (ms : List Eqn) (hms : K.expectationSystem = .ok ms) : ∀ q ∈ ms, Po (grade p N) q.2 0 := by
  obtain ⟨c, hc, -⟩ := h.det.closure_ok
  have hpN : 2 * (p : ℚ) ≤ N := by exact_mod_cast hN
  unfold expectationSystem secondOrder at hms
  simp only [hr, hc, bind, Except.bind, pure, Except.pure] at hms
  cases hms
  intro q hq
  obtain ⟨q1, hq1, rfl⟩ := List.mem_map.1 hq
  obtain ⟨q2, hq2, rfl⟩ := List.mem_map.1 hq1
  have p0 := (po_reynolds h heps hord (N := N) r hr q2 hq2).1
  have p1 : Po (grade p N) (eval (.ex q2.1.2)) 0 := po_eval _ ⟨le_refl _, .inl (p0.up (show _ ≤ (2 : ℚ) + N by linarith))⟩
  exact po_subs h c (fit_closure h c hc) _ 0 (po_subs h _ (fit_error h) _ 0 p1)

end

end Sympkf.Spec.Graded
