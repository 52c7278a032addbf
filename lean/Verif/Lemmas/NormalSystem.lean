import Verif.Lemmas.Weight

/-!
# Lemmas: the normal form of the expectations in the systems of the PKF
-/

set_option autoImplicit false

namespace Sympkf.Spec

open Text Rand PKF Pkf

theorem po_of_only {M : Ex → Prop} (e : Ex) (h : Only M (fun _ => False) e) : Po e 0 := by
  induction e with
  | num => exact le_refl (0 : ℚ)
  | sym s => exact ⟨h, le_refl _⟩
  | fn u args => show (if omega ∈ args then (1 : ℚ) else 0) ≤ 0; rw [if_neg (fun ho => h ho)]
  | func g a ih => exact ⟨ih h, le_refl _⟩
  | add a b iha ihb => exact ⟨iha h.1, ihb h.2⟩
  | mul a b iha ihb => exact ⟨0, 0, by norm_num, iha h.1, ihb h.2⟩
  | pow a q ih => exact ⟨le_refl _, .inr (ih h)⟩
  | deriv a vars ih => exact ⟨ih h.1, h.2⟩
  | integ a x ih => exact ⟨ih h.1, h.2, le_refl _⟩
  | ex a ih =>
    refine ⟨le_refl _, ?_⟩
    rcases h.2 with h' | ⟨u, args, rfl, -⟩
    · exact .inl ((ih h').up (by norm_num))
    · exact .inr ⟨u, args, rfl, by simpa [hasOmega] using h.1⟩
  | other b => exact h.elim

theorem mem_mapM {α β : Type} (g : α → Except PyErr β) (l : List α) (l' : List β) (h : l.mapM g = .ok l') (b : β) (hb : b ∈ l') :
    ∃ a ∈ l, g a = .ok b := by
  have h1 := mapM_ok _ _ _ h
  clear h
  induction h1 with
  | nil => cases hb
  | @cons a b' l l' hab _ ih =>
    rcases List.mem_cons.1 hb with rfl | hb
    · exact ⟨a, by simp, hab⟩
    · obtain ⟨a, ha, e⟩ := ih hb
      exact ⟨a, by simp [ha], e⟩

/-- Substitutions that keep the degree. -/
def Fit (d : Dict Ex Ex) : Prop :=
  ∀ kv ∈ d, (∀ n, Po (eval kv.1) n → Po kv.2 n) ∧ ∀ c vs, eval kv.1 = .deriv c vs → ∀ v ∈ vs, v.1 ≠ omega

namespace EvolutionSystem

variable {K : Pkf} {coords : List Str} (h : EvolutionSystem K coords)
include h

theorem po_subs (d : Dict Ex Ex) (hd : Fit d) (e : Ex) (n : ℚ) (he : Po e n) : Po (K.subs d e) n ∧ Exs Canon (K.subs d e) :=
  po_substAll _ (fun kv hkv => (hd kv ((h.det.arrange d).mem_iff.1 hkv)).1) (fun kv hkv => (hd kv ((h.det.arrange d).mem_iff.1 hkv)).2) e n he

theorem fit_closure (c : Dict Ex Ex) (hc : K.closure = .ok c) : Fit c := by
  intro kv hkv
  obtain ⟨⟨a, ha⟩, -⟩ := (h.det.entries c hc).1 kv hkv
  rw [ha]
  exact ⟨fun n hn => (po_of_only _ (h.det.closure_only c hc (fun _ => False) kv hkv)).up hn.nonneg, fun _ _ e => by cases e⟩

omit h in
theorem po_eps (f : Field) : Po f.epsilon 1 := by
  show (if omega ∈ f.coordinates ++ [omega] then (1 : ℚ) else 0) ≤ 1
  split <;> norm_num

theorem po_tree (f : Field) (hf : f ∈ K.fields) (v : Tree.TEx) (hv : Tree.Along f.spatial v) : Po (ofTree f.spatial f.epsilon v) 0 := by
  have ne : ∀ x ∈ f.spatial, x ≠ Rand.omega := fun x hx e => h.det.omega_spatial f hf (e ▸ hx)
  have da : ∀ a, Po (dalpha f.spatial f.epsilon a) 1 := fun a => ⟨po_eps f, fun v hv => ne _ (List.of_mem_zip hv).1⟩
  induction v with
  | term t => exact ⟨le_refl _, .inl ⟨1, 1, by norm_num, da _, da _⟩⟩
  | d x e ih => exact ⟨ih hv.2, by simpa using ne x hv.1⟩
  | sub e g ihe ihg => exact ⟨ihe hv.1, 0, 0, by norm_num, le_refl (0 : ℚ), ihg hv.2⟩
  | half e ih => exact ⟨0, 0, by norm_num, le_refl (0 : ℚ), ih hv⟩

theorem fit_tree (c : Dict Ex Ex) (hc : K.closure = .ok c) (f : Field) (hf : f ∈ K.fields) (d : ℕ) (t : Dict Ex Ex)
    (ht : K.closedTree c f d = .ok t) : Fit t := by
  have h1 := (h.det.closedTree_spec c hc f hf d t ht).1
  have h2 : ∀ kv ∈ t, Po kv.2 0 := by
    unfold closedTree at ht
    simp only [bind, Except.bind, pure, Except.pure] at ht
    split at ht
    · cases ht
    rename_i t1 ht1
    cases ht
    intro kv hkv
    have hal := Tree.call_along K.order f.spatial true _ Tree.State.init t1.2 t1.1 ht1 ⟨by simp [Tree.State.init], by simp [Tree.State.init]⟩
    obtain ⟨tv, htv, rfl⟩ := List.mem_map.1 (Setting.mem_trends _ _ hkv)
    exact (h.po_subs c (h.fit_closure c hc) _ 0 (h.po_tree f hf _ (hal _ htv))).1
  intro kv hkv
  obtain ⟨⟨a, ha⟩, -⟩ := h1 kv hkv
  rw [ha]
  exact ⟨fun n hn => (h2 kv hkv).up hn.nonneg, fun _ _ e => by cases e⟩

omit h in
theorem po_error (f : Field) : Po f.error 1 := po_eps f

theorem po_det (f : Field) (hf : f ∈ K.fields) (u : Str) : Po (.fn u f.coordinates) 0 := by
  show (if omega ∈ f.coordinates then (1 : ℚ) else 0) ≤ 0
  rw [if_neg (h.det.omega_field f hf)]

theorem fit_error : Fit K.subsError := by
  intro kv hkv
  rcases Dict.mem_update _ _ _ hkv with hkv | hkv
  · cases hkv
  obtain ⟨f, hf, rfl⟩ := List.mem_map.1 hkv
  have e : eval f.error = f.error := toEx_patom _
  refine ⟨fun n hn => ?_, fun c vs e' => ?_⟩
  · rw [show eval (f.error, Ex.mul (.pow f.variance (1 / 2)) f.epsilon).1 = f.error from e] at hn
    have : (if omega ∈ f.coordinates ++ [omega] then (1 : ℚ) else 0) ≤ n := hn
    rw [if_pos (by simp)] at this
    exact ⟨0, 1, by linarith, ⟨le_refl _, .inr (h.po_det f hf _)⟩, po_eps f⟩
  · rw [show eval (f.error, Ex.mul (.pow f.variance (1 / 2)) f.epsilon).1 = f.error from e] at e'
    cases e'

omit h in
theorem fit_trends (gs : List Ex) (hg : ∀ g ∈ gs, ∃ u args, g = .fn u args ∧ time ∈ args) (es : List Eqn) (he : EvolutionForm gs es) (k : ℚ)
    (hk : ∀ g ∈ gs, ∀ n, Po g n → k ≤ n) (hv : ∀ q ∈ es, Po q.2 k) : Fit (trends es) := by
  intro kv hkv
  have hm := Setting.mem_trends _ _ hkv
  have h1 : kv.1 ∈ es.map Prod.fst := List.mem_map_of_mem hm
  rw [he.1] at h1
  obtain ⟨g, hg', e⟩ := List.mem_map.1 h1
  have e2 : eval kv.1 = dt g := by
    rw [← e]; exact EvolutionSystem.Moves.eval (hg g hg')
  rw [e2]
  refine ⟨fun n hn => (hv kv hm).up (hk g hg' n hn.1), fun c vs e' => ?_⟩
  cases e'
  intro v hv
  rw [List.mem_singleton] at hv
  subst hv
  exact DetSystem.time_ne

variable (heps : ∀ q ∈ K.equations, occurs epsSym q.2 = false)
include heps

theorem po_reynolds (r : List (Eqn × Eqn)) (hr : K.reynolds = .ok r) : ∀ q ∈ r, Po q.1.2 2 ∧ Po q.2.2 1 := by
  intro q hq
  unfold reynolds at hr
  obtain ⟨q0, hq0, e⟩ := mem_mapM _ _ _ hr q hq
  exact po_reynoldsEq h.det q0 (h.det.equations q0 hq0).2 (heps q0 hq0) q e

theorem po_errors (es : List Eqn) (hes : K.errorSystem = .ok es) : ∀ q ∈ es, Po q.2 1 := by
  unfold errorSystem tlExpectation firstOrder at hes
  obtain ⟨c, hc, -⟩ := h.det.closure_ok
  simp only [hc, bind, Except.bind, pure, Except.pure] at hes
  split at hes
  · cases hes
  rename_i first hf
  split at hf
  · cases hf
  rename_i r hr
  cases hf
  cases hes
  have hp := h.po_reynolds heps r hr
  intro q hq
  obtain ⟨⟨q1, q2⟩, hz, rfl⟩ := List.mem_map.1 hq
  have m := List.of_mem_zip hz
  obtain ⟨q3, hq3, rfl⟩ := List.mem_map.1 m.2
  obtain ⟨r1, hr1, e1⟩ := List.mem_map.1 m.1
  obtain ⟨r3, hr3, e3⟩ := List.mem_map.1 hq3
  have p1 : Po q1.2 1 := e1 ▸ (hp r1 hr1).2
  have p3 : Po q3.2 1 := e3 ▸ (hp r3 hr3).2
  have p4 := (h.po_subs c (h.fit_closure c hc) (eval (.ex q3.2)) 0 (po_eval _ ⟨le_refl _, .inl (p3.up (by norm_num))⟩)).1
  exact po_eval (.add q1.2 (.mul (.num (-1)) _)) ⟨p1, 0, 0, by norm_num, le_refl (0 : ℚ), p4⟩

omit heps in
theorem po_applyInternal (c : Dict Ex Ex) (hc : K.closure = .ok c) (rhs : Ex) (hr : Po rhs 0) (e : Ex)
    (he : K.applyInternal c rhs = .ok e) : Po e 0 ∧ Exs Canon e := by
  unfold applyInternal at he
  simp only [bind, Except.bind, pure, Except.pure] at he
  split at he
  · cases he
  split at he
  · cases he
  rename_i e1 he1
  cases he
  refine h.po_subs _ (h.fit_closure c hc) _ 0 (foldlM_ok _ (fun e => Po e 0) _ _ _ he1 hr ?_)
  intro s eps s' _ hs hstep
  unfold applyTree at hstep
  split at hstep
  · cases hstep
  rename_i f hf
  simp only [bind, Except.bind, pure, Except.pure] at hstep
  split at hstep
  · cases hstep
  rename_i tree htree
  cases hstep
  exact (h.po_subs _ (h.fit_tree c hc f (Setting.fieldOf_mem eps f hf).1 _ tree htree) _ 0 hs).1

/-- What is known of the expectations after the internal closure. -/
def Left (K : Pkf) (t : Ex) : Prop :=
  Canon t ∧ (∀ f ∈ K.fields, ∀ v w, ¬ Moment f v w t) ∧ ∀ k, ClosedTerms K.fields k → t ≠ eval k

omit heps in
theorem left_applyInternal (c : Dict Ex Ex) (hc : K.closure = .ok c) (rhs : Ex) (hr : Po rhs 0) (hx : Exs Canon rhs) (e : Ex)
    (he : K.applyInternal c rhs = .ok e) : Po e 0 ∧ Exs (Left K) e := by
  obtain ⟨p, hp⟩ := h.po_applyInternal c hc rhs hr e he
  have h2 := h.det.exs_applyInternal c hc rhs (hx.mono (fun _ h => h.1)) e he
  exact ⟨p, fun t ht => ⟨hp t ht, (h2 t ht).2⟩⟩

omit h heps in
theorem left_eval (e : Ex) (hp : Po e 0) (he : Exs (Left K) e) : Exs (Left K) (eval e) := by
  have h2 : Exs (fun t => (∀ f ∈ K.fields, ∀ v w, ¬ Moment f v w t) ∧ ∀ k, ClosedTerms K.fields k → t ≠ eval k) (eval e) :=
    exs_toEx _ (exs_ofEx e (he.mono (fun t h => ⟨h.1.1, h.2⟩)))
  exact fun t ht => ⟨exs_eval e hp t ht, h2 t ht⟩

variable (r : List (Eqn × Eqn)) (hr : K.reynolds = .ok r)
include hr

theorem fit_errors (es : List Eqn) (hes : K.errorSystem = .ok es) : Fit (trends es) := by
  refine fit_trends _ h.errors_fn es (h.error_evolution r hr es hes) 1 (fun g hg n hn => ?_) (h.po_errors heps es hes)
  obtain ⟨f, -, rfl⟩ := List.mem_map.1 hg
  have : (if omega ∈ f.coordinates ++ [omega] then (1 : ℚ) else 0) ≤ n := hn
  rwa [if_pos (by simp)] at this

theorem left_variance (vs : List Eqn) (hvs : K.varianceSystem = .ok vs) : ∀ q ∈ vs, Po q.2 0 ∧ Exs (Left K) q.2 := by
  obtain ⟨es, hes⟩ := h.det.error_ok r hr
  obtain ⟨c, hc, -⟩ := h.det.closure_ok
  unfold varianceSystem at hvs
  simp only [hes, hc, bind, Except.bind] at hvs
  intro q hq
  obtain ⟨f, hf, hq⟩ := mem_mapM _ _ _ hvs q hq
  unfold varianceEq at hq
  simp only [bind, Except.bind, pure, Except.pure] at hq
  split at hq
  · cases hq
  rename_i e hap
  cases hq
  have p0 : Po (.ex (dt (.pow f.error 2))) 0 :=
    ⟨le_refl _, .inl ⟨⟨by norm_num, .inl ⟨1, by decide +kernel, by norm_num, by norm_num, po_error f⟩⟩, by simpa using DetSystem.time_ne⟩⟩
  have p1 := (h.po_subs _ (h.fit_errors heps r hr es hes) _ 0 p0).1
  have p2 := h.po_subs _ h.fit_error _ 0 p1
  exact h.left_applyInternal c hc _ p2.1 p2.2 e hap

theorem left_cross (cs : Option (List Eqn)) (hcs : K.crossSystem = .ok cs) : ∀ q ∈ cs.getD [], Exs (Left K) q.2 := by
  unfold crossSystem at hcs
  split at hcs
  · cases hcs
    intro q hq
    cases hq
  obtain ⟨c, hc, -⟩ := h.det.closure_ok
  obtain ⟨es, hes⟩ := h.det.error_ok r hr
  simp only [hes, hc, bind, Except.bind, pure, Except.pure] at hcs
  split at hcs
  · cases hcs
  rename_i l hl
  cases hcs
  intro q hq
  obtain ⟨p, hp, hq⟩ := mem_mapM _ _ _ hl q hq
  unfold crossEq at hq
  simp only [bind, Except.bind, pure, Except.pure] at hq
  split at hq
  · cases hq
  split at hq
  · cases hq
  rename_i e hap
  cases hq
  have p0 : Po (.ex (dt (.mul p.1.error p.2.error))) 0 :=
    ⟨le_refl _, .inl ⟨⟨1, 1, by norm_num, po_error _, po_error _⟩, by simpa using DetSystem.time_ne⟩⟩
  have p1 := (h.po_subs _ (h.fit_errors heps r hr es hes) _ 0 p0).1
  have p2 := h.po_subs _ h.fit_error _ 0 p1
  have p3 := h.left_applyInternal c hc _ p2.1 p2.2 e hap
  exact left_eval _ p3.1 p3.2

theorem po_epsilons (es : List Eqn) (hes : K.epsilonSystem = .ok es) : ∀ q ∈ es, Po q.2 1 := by
  obtain ⟨rs, hrs⟩ := h.det.error_ok r hr
  obtain ⟨vs, hvs, -⟩ := h.det.variance_ok r hr
  unfold epsilonSystem at hes
  simp only [hrs, hvs, bind, Except.bind, pure, Except.pure] at hes
  cases hes
  intro q hq
  obtain ⟨f, hf, rfl⟩ := List.mem_map.1 hq
  have p0 : Po (dt (.mul f.error (.pow f.variance (-1 / 2)))) 1 :=
    ⟨⟨1, 0, by norm_num, po_error f, le_refl _, .inr (h.po_det f hf _)⟩, by simpa using DetSystem.time_ne⟩
  have p1 := (h.po_subs _ (h.fit_errors heps r hr rs hrs) _ 1 p0).1
  have hfit : Fit (trends vs) := by
    refine fit_trends _ h.variances_fn vs (h.variance_evolution r hr vs hvs) 0 (fun g _ n hn => hn.nonneg) (fun q hq => ?_)
    exact (h.left_variance heps r hr vs hvs q hq).1
  have p2 := (h.po_subs _ hfit _ 1 p1).1
  exact (h.po_subs _ h.fit_error _ 1 p2).1

theorem left_metric (ms : List Eqn) (hms : K.metricSystem = .ok ms) : ∀ q ∈ ms, Exs (Left K) q.2 := by
  obtain ⟨es, hes, -⟩ := h.det.epsilon_ok r hr
  obtain ⟨c, hc, -⟩ := h.det.closure_ok
  unfold metricSystem at hms
  simp only [hes, hc, bind, Except.bind] at hms
  intro q hq
  obtain ⟨p, hp, hq⟩ := mem_mapM _ _ _ hms q hq
  obtain ⟨f, hf, hp⟩ := List.mem_flatMap.1 hp
  obtain ⟨⟨i, j⟩, hij, rfl⟩ := List.mem_map.1 hp
  obtain ⟨hij, hj⟩ := (Setting.mem_pairs _ _ _).1 hij
  have hx : ∀ k, k < f.spatial.length → f.spatial.getD k [] ≠ Rand.omega := fun k hk e => by
    rw [List.getD_eq_getElem?_getD, List.getElem?_eq_getElem hk, Option.getD_some] at e
    exact h.det.omega_spatial f hf (e ▸ List.getElem_mem hk)
  unfold metricEq at hq
  simp only [bind, Except.bind, pure, Except.pure] at hq
  split at hq
  · cases hq
  rename_i e hap
  cases hq
  have p0 : Po (.ex (dt (.mul (.deriv f.epsilon [(f.spatial.getD i [], 1)]) (.deriv f.epsilon [(f.spatial.getD j [], 1)])))) 0 :=
    ⟨le_refl _, .inl ⟨⟨1, 1, by norm_num, ⟨po_eps f, by simpa using hx i (by omega)⟩, po_eps f, by simpa using hx j hj⟩,
      by simpa using DetSystem.time_ne⟩⟩
  have hfit : Fit (trends es) := by
    refine fit_trends _ h.epsilons_fn es (h.epsilon_evolution r hr es hes) 1 (fun g hg n hn => ?_) (h.po_epsilons heps r hr es hes)
    obtain ⟨f, -, rfl⟩ := List.mem_map.1 hg
    have : (if omega ∈ f.coordinates ++ [omega] then (1 : ℚ) else 0) ≤ n := hn
    rwa [if_pos (by simp)] at this
  have p1 := h.po_subs _ hfit _ 0 p0
  have p2 := h.left_applyInternal c hc _ p1.1 p1.2 e hap
  exact left_eval _ p2.1 p2.2

theorem left_mean (ms : List Eqn) (hms : K.expectationSystem = .ok ms) :
    ∀ q ∈ ms, Exs (fun t => Canon t ∧ ∀ k, ClosedTerms K.fields k → t ≠ eval k) q.2 := by
  obtain ⟨c, hc, -⟩ := h.det.closure_ok
  unfold expectationSystem secondOrder at hms
  simp only [hr, hc, bind, Except.bind, pure, Except.pure] at hms
  cases hms
  intro q hq
  obtain ⟨q1, hq1, rfl⟩ := List.mem_map.1 hq
  obtain ⟨q2, hq2, rfl⟩ := List.mem_map.1 hq1
  have p0 := (h.po_reynolds heps r hr q2 hq2).1
  have p1 : Po (eval (.ex q2.1.2)) 0 := po_eval _ ⟨le_refl _, .inl p0⟩
  have p2 := h.po_subs _ h.fit_error _ 0 p1
  have p3 := (h.po_subs c (h.fit_closure c hc) _ 0 p2.1).2
  have p4 := h.det.exs_closure (B := fun _ => True) c hc (K.subs K.subsError (eval (.ex q2.1.2)))
    (exs_ofEx _ (p2.2.mono (fun t ht => ⟨ht.1, ht.1, trivial⟩)))
  exact fun t ht => ⟨p3 t ht, (p4 t ht).2.2⟩

end EvolutionSystem

end Sympkf.Spec
