import Verif.Lemmas.PlainSystem
import Verif.Spec.Generate
import Verif.Props.Unclosed

/-!
# Lemmas: what is left in the complete systems
-/

set_option autoImplicit false
set_option linter.unusedSectionVars false

namespace Sympkf.Spec

open Text Rand PKF Pkf EvolutionSystem

variable {K : Pkf} {coords : List Str} {user : Dict Ex Ex}

/-! ## Values of the closure -/

theorem Deterministic.po {e : Ex} (h : Deterministic e) : Po e 0 := po_of_only (M := fun _ => True) e h.only

theorem Codable.noEx {e : Ex} (h : Codable coords e) : exAtoms e = [] := by
  induction e with
  | num => rfl
  | sym s => rfl
  | fn u args => rfl
  | func g a ih => exact h.elim
  | add a b iha ihb => rw [exAtoms, iha h.1, ihb h.2]; rfl
  | mul a b iha ihb => rw [exAtoms, iha h.1, ihb h.2]; rfl
  | pow a q ih => exact ih h
  | deriv a vars ih => exact ih h
  | integ a x ih => exact h.elim
  | ex a ih => exact h.elim
  | other b => exact h.elim

theorem Codable.plain {F : Str → List Str → Prop} {e : Ex} (h : Codable coords e) (hF : ∀ u args, Within (.fn u args) e → F u args) :
    Plain (fun s => s = time ∨ s ∉ coords) F e := by
  induction e with
  | num => trivial
  | sym s => exact h
  | fn u args => exact hF u args .self
  | func g a ih => exact h.elim
  | add a b iha ihb => exact ⟨iha h.1 (fun u args h => hF u args (.addL h)), ihb h.2 (fun u args h => hF u args (.addR h))⟩
  | mul a b iha ihb => exact ⟨iha h.1 (fun u args h => hF u args (.mulL h)), ihb h.2 (fun u args h => hF u args (.mulR h))⟩
  | pow a q ih => exact ih h (fun u args h => hF u args (.pow h))
  | deriv a vars ih => exact ih h (fun u args h => hF u args (.deriv h))
  | integ a x ih => exact h.elim
  | ex a ih => exact h.elim
  | other b => exact h.elim

theorem Codable.args {e : Ex} (h : Codable coords e) {u : Str} {args : List Str} (hw : Within (.fn u args) e) : args ≠ [] := by
  induction e with
  | num => cases hw
  | sym s => cases hw
  | fn u' args' => cases hw; exact h
  | func g a ih => exact h.elim
  | add a b iha ihb =>
    cases hw with
    | addL hw => exact iha h.1 hw
    | addR hw => exact ihb h.2 hw
  | mul a b iha ihb =>
    cases hw with
    | mulL hw => exact iha h.1 hw
    | mulR hw => exact ihb h.2 hw
  | pow a q ih => cases hw with | pow hw => exact ih h hw
  | deriv a vars ih => cases hw with | deriv hw => exact ih h hw
  | integ a x ih => exact h.elim
  | ex a ih => exact h.elim
  | other b => exact h.elim

/-! ## Functions -/

/-- The symbols that are left. -/
abbrev Syms (coords : List Str) (s : Str) : Prop := s = time ∨ s ∉ coords

/-- The functions that are left when the tensors are `T`. -/
def Fns (K : Pkf) (coords : List Str) (user : Dict Ex Ex) (T : Field → ℕ → ℕ → Ex) (u : Str) (args : List Str) : Prop :=
  omega ∈ args ∨ Ex.fn u args ∈ K.fields.map Field.value ++ K.fields.map Field.variance ++ covariances K coords ++ tensors K T ∨
    (Given K user u args ∧ Ex.fn u args ∉ metrics K)

theorem fns_given {u : Str} {args : List Str} (h : Given K user u args) : Fns K coords user Field.metric u args := by
  by_cases hm : Ex.fn u args ∈ metrics K
  · exact .inr (.inl (List.mem_append_right _ hm))
  · exact .inr (.inr ⟨h, hm⟩)

theorem fns_covers (h : EvolutionSystem K coords) (hG : Generates K coords user) : Covers K (Syms coords) (Fns K coords user Field.metric) where
  value f hf := .inr (.inl (List.mem_append_left _ (List.mem_append_left _ (List.mem_append_left _ (List.mem_map_of_mem hf)))))
  random f _ := .inl (by simp)
  error f _ := .inl (by simp)
  epsilon f _ := .inl (by simp)
  variance f hf := .inr (.inl (List.mem_append_left _ (List.mem_append_left _ (List.mem_append_right _ (List.mem_map_of_mem hf)))))
  metric f hf i j hi hj := .inr (.inl (List.mem_append_right _ (metric_mem f hf i j hi hj)))
  cross p hp := by
    have hm := ((PKF.C41_couples K.fields).1 p.1 p.2).1 hp
    rw [h.det.same p.1 (hm.subset (by simp))]
    exact .inr (.inl (List.mem_append_left _ (List.mem_append_right _ (List.mem_map.2 ⟨p, hp, rfl⟩))))
  equations q hq := (hG.equations q hq).plain (fun _ _ hw => fns_given (.inl ⟨q, hq, hw⟩))

theorem fns_user (hG : Generates K coords user) : ∀ kv ∈ user, Plain (Syms coords) (Fns K coords user Field.metric) kv.2 :=
  fun kv hkv => (hG.values kv hkv).1.plain (fun _ _ hw => fns_given (.inr ⟨kv, hkv, hw⟩))

/-! ## The four systems -/

theorem po_mean (h : EvolutionSystem K coords) (heps : ∀ q ∈ K.equations, occurs epsSym q.2 = false) (r : List (Eqn × Eqn)) (hr : K.reynolds = .ok r)
    (ms : List Eqn) (hms : K.expectationSystem = .ok ms) : ∀ q ∈ ms, Po q.2 0 := by
  obtain ⟨c, hc, -⟩ := h.det.closure_ok
  unfold expectationSystem secondOrder at hms
  simp only [hr, hc, bind, Except.bind, pure, Except.pure] at hms
  cases hms
  intro q hq
  obtain ⟨q1, hq1, rfl⟩ := List.mem_map.1 hq
  obtain ⟨q2, hq2, rfl⟩ := List.mem_map.1 hq1
  have p1 : Po (eval (.ex q2.1.2)) 0 := po_eval _ ⟨le_refl _, .inl (h.po_reynolds heps r hr q2 hq2).1⟩
  exact (h.po_subs c (h.fit_closure c hc) _ 0 (h.po_subs _ h.fit_error _ 0 p1).1).1

theorem po_cross (h : EvolutionSystem K coords) (heps : ∀ q ∈ K.equations, occurs epsSym q.2 = false) (r : List (Eqn × Eqn)) (hr : K.reynolds = .ok r)
    (cs : Option (List Eqn)) (hcs : K.crossSystem = .ok cs) : ∀ q ∈ cs.getD [], Po q.2 0 := by
  unfold crossSystem at hcs
  split at hcs
  · cases hcs
    intro q hq
    cases hq
  obtain ⟨c, hc, -⟩ := h.det.closure_ok
  obtain ⟨es, hes⟩ := h.det.error_ok r hr
  simp only [hes, hc, bind, Except.bind, pure, Except.pure] at hcs
  split at hcs
  · cases hcs
  rename_i l hl
  cases hcs
  intro q hq
  obtain ⟨p, hp, hq⟩ := mem_mapM _ _ _ hl q hq
  unfold crossEq at hq
  simp only [bind, Except.bind, pure, Except.pure] at hq
  split at hq
  · cases hq
  split at hq
  · cases hq
  rename_i e hap
  cases hq
  have p0 : Po (.ex (dt (.mul p.1.error p.2.error))) 0 :=
    ⟨le_refl _, .inl ⟨⟨1, 1, by norm_num, po_error _, po_error _⟩, by simpa using DetSystem.time_ne⟩⟩
  have p1 := (h.po_subs _ (h.fit_errors heps r hr es hes) _ 0 p0).1
  exact po_eval _ (h.po_applyInternal c hc _ (h.po_subs _ h.fit_error _ 0 p1).1 e hap).1

theorem po_metric (h : EvolutionSystem K coords) (heps : ∀ q ∈ K.equations, occurs epsSym q.2 = false) (r : List (Eqn × Eqn)) (hr : K.reynolds = .ok r)
    (ms : List Eqn) (hms : K.metricSystem = .ok ms) : ∀ q ∈ ms, Po q.2 0 := by
  obtain ⟨es, hes, -⟩ := h.det.epsilon_ok r hr
  obtain ⟨c, hc, -⟩ := h.det.closure_ok
  unfold metricSystem at hms
  simp only [hes, hc, bind, Except.bind] at hms
  intro q hq
  obtain ⟨p, hp, hq⟩ := mem_mapM _ _ _ hms q hq
  obtain ⟨f, hf, hp⟩ := List.mem_flatMap.1 hp
  obtain ⟨⟨i, j⟩, hij, rfl⟩ := List.mem_map.1 hp
  obtain ⟨hij, hj⟩ := (Setting.mem_pairs _ _ _).1 hij
  have hx : ∀ k, k < f.spatial.length → f.spatial.getD k [] ≠ Rand.omega := fun k hk e => by
    rw [List.getD_eq_getElem?_getD, List.getElem?_eq_getElem hk, Option.getD_some] at e
    exact h.det.omega_spatial f hf (e ▸ List.getElem_mem hk)
  unfold metricEq at hq
  simp only [bind, Except.bind, pure, Except.pure] at hq
  split at hq
  · cases hq
  rename_i e hap
  cases hq
  have p0 : Po (.ex (dt (.mul (.deriv f.epsilon [(f.spatial.getD i [], 1)]) (.deriv f.epsilon [(f.spatial.getD j [], 1)])))) 0 :=
    ⟨le_refl _, .inl ⟨⟨1, 1, by norm_num, ⟨po_eps f, by simpa using hx i (by omega)⟩, po_eps f, by simpa using hx j hj⟩,
      by simpa using DetSystem.time_ne⟩⟩
  have hfit : Fit (trends es) := by
    refine fit_trends _ h.epsilons_fn es (h.epsilon_evolution r hr es hes) 1 (fun g hg n hn => ?_) (h.po_epsilons heps r hr es hes)
    obtain ⟨f, -, rfl⟩ := List.mem_map.1 hg
    have : (if omega ∈ f.coordinates ++ [omega] then (1 : ℚ) else 0) ≤ n := hn
    rwa [if_pos (by simp)] at this
  exact po_eval _ (h.po_applyInternal c hc _ (h.po_subs _ hfit _ 0 p0).1 e hap).1

/-- What is known of the right-hand sides of the four systems. -/
theorem four_systems (h : EvolutionSystem K coords) (hp : ParameterFree K) (hG : Generates K coords user) (r : List (Eqn × Eqn)) (hr : K.reynolds = .ok r)
    (ms vs gs : List Eqn) (cs : Option (List Eqn)) (hms : K.expectationSystem = .ok ms) (hvs : K.varianceSystem = .ok vs)
    (hcs : K.crossSystem = .ok cs) (hgs : K.metricSystem = .ok gs) : ∀ q ∈ ms ++ vs ++ cs.getD [] ++ gs,
    Neat (Syms coords) (Fns K coords user Field.metric) q.2 ∧ Po q.2 0 ∧ Exs Stable q.2 := by
  have hF := fns_covers h hG
  obtain ⟨m1, m2, m3⟩ := moments_left h hp r hr
  intro q hq
  rcases List.mem_append.1 hq with hq | hq
  · rcases List.mem_append.1 hq with hq | hq
    · rcases List.mem_append.1 hq with hq | hq
      · exact ⟨Covers.mean h.det hF ms hms q hq, po_mean h hp.occurs r hr ms hms q hq, fun t ht => (mean_left h hp r hr ms hms q hq t ht).1⟩
      · exact ⟨Covers.variances h.det hF r hr vs hvs q hq, (h.left_variance hp.occurs r hr vs hvs q hq).1, fun t ht => (m1 vs hvs q hq t ht).1⟩
    · exact ⟨Covers.crosses h.det hF r hr cs hcs q hq, po_cross h hp.occurs r hr cs hcs q hq, fun t ht => (m2 cs hcs q hq t ht).1⟩
  · exact ⟨Covers.metrics h.det hF r hr gs hgs q hq, po_metric h hp.occurs r hr gs hgs q hq, fun t ht => (m3 gs hgs q hq t ht).1⟩

/-! ## The closure of the user -/

theorem fit_user (hu : UserClosure user) (hG : Generates K coords user) : Fit user := by
  intro kv hkv
  obtain ⟨⟨a, ha, -⟩, -⟩ := hu kv hkv
  rw [ha]
  exact ⟨fun n hn => (hG.values kv hkv).2.po.up hn.nonneg, fun _ _ e => by cases e⟩

/-- An expression of the four systems after the closure of the user. -/
def closeBy (K : Pkf) (user : Dict Ex Ex) (e : Ex) : Ex := if user = [] then e else K.subs user e

theorem closed_by {F : Str → List Str → Prop} (h : EvolutionSystem K coords) (hu : UserClosure user) (hG : Generates K coords user)
    (hF : ∀ kv ∈ user, Plain (Syms coords) F kv.2) (e : Ex) (B : Ex → Prop) (hN : Neat (Syms coords) F e) (hP : Po e 0)
    (hE : ∀ t ∈ exAtoms e, Stable t ∧ (B t ∨ ∃ kv ∈ user, eval kv.1 = t)) :
    Neat (Syms coords) F (closeBy K user e) ∧ Po (closeBy K user e) 0 ∧ Exs (fun t => Stable t ∧ B t) (closeBy K user e) := by
  unfold closeBy
  split
  · rename_i hnil
    subst hnil
    exact ⟨hN, hP, fun t ht => ⟨(hE t ht).1, (hE t ht).2.resolve_right (by simp)⟩⟩
  · have hm : ∀ kv, kv ∈ K.arrange user ↔ kv ∈ user := fun kv => (h.det.arrange _).mem_iff
    refine ⟨neat_substAll _ (fun kv hkv => hF kv ((hm kv).1 hkv)) e hN.plain, (h.po_subs user (fit_user hu hG) e 0 hP).1,
      exs_substAll (K.arrange user) (fun kv hkv => ?_) (fun kv hkv => exs_ofEx _ (exs_nil (hG.values kv ((hm kv).1 hkv)).1.noEx)) e
        (exs_ofEx _ (fun t ht => ⟨(hE t ht).1, (hE t ht).1, ?_⟩))⟩
    · obtain ⟨⟨a, ha, -⟩, -⟩ := hu kv ((hm kv).1 hkv)
      exact ⟨a, ha⟩
    · rcases (hE t ht).2 with h1 | ⟨kv, hkv, h1⟩
      · exact .inl h1
      · exact .inr ⟨kv, (hm kv).2 hkv, h1⟩

/-! ## The expectations of the fields are replaced -/

theorem fit_clean (h : EvolutionSystem K coords) : Fit K.cleanDict := by
  intro kv hkv
  obtain ⟨f, hf, rfl⟩ := clean_keys kv hkv
  rw [show eval (Ex.ex f.random, f.value).1 = .ex f.random from eval_random f]
  exact ⟨fun n hn => (h.po_det f hf _).up hn.nonneg, fun _ _ e => by cases e⟩

theorem clean_by {F : Str → List Str → Prop} (h : EvolutionSystem K coords) (hF : ∀ f ∈ K.fields, Plain (Syms coords) F f.value) (e : Ex)
    (hN : Neat (Syms coords) F e) (hP : Po e 0) : Neat (Syms coords) F (K.subs K.cleanDict e) ∧ Po (K.subs K.cleanDict e) 0 := by
  refine ⟨neat_substAll _ (fun kv hkv => ?_) e hN.plain, (h.po_subs _ (fit_clean h) e 0 hP).1⟩
  obtain ⟨f, hf, rfl⟩ := clean_keys kv ((h.det.arrange _).mem_iff.1 hkv)
  exact hF f hf

/-! ## Functions instead of functions -/

theorem exs_subst_fixed {G : Ex → Prop} (old : Ex) (new : Poly) (hn : ExsP G new) (e : Ex)
    (h : Exs (fun t => G t ∧ subst old new t = patom t) e) : ExsP G (subst old new e) := by
  induction e with
  | num q => unfold subst; split; exact hn; exact allF_pconst q
  | sym s => unfold subst; split; exact hn; exact allF_patom _ (exs_nil rfl)
  | fn u args => unfold subst; split; exact hn; exact allF_patom _ (exs_nil rfl)
  | func g a ih => unfold subst; split; exact hn; exact allF_patom _ (exs_toEx _ (ih h))
  | add a b iha ihb => unfold subst; split; exact hn; exact allF_padd _ _ (iha (exs_add.1 h).1) (ihb (exs_add.1 h).2)
  | mul a b iha ihb => unfold subst; split; exact hn; exact allF_pmul exs_mulOK _ _ (iha (exs_mul.1 h).1) (ihb (exs_mul.1 h).2)
  | pow a q ih => unfold subst; split; exact hn; exact hereditary_ppow (exs_hereditary G) _ _ (ih h)
  | deriv a vars ih =>
    unfold subst
    split
    · exact hn
    · dsimp only
      split
      · exact exs_pdiffs _ _ hn
      · exact exs_pdiffs _ _ (ih h)
  | integ a x ih => unfold subst; split; exact hn; exact allF_patom _ (exs_toEx _ (ih h))
  | ex a ih =>
    rw [(h (.ex a) (by simp [exAtoms])).2]
    exact allF_patom _ (fun t ht => (h t ht).1)
  | other b => unfold subst; split; exact hn; exact allF_patom _ (exs_nil rfl)

theorem mean_fixed (old : Ex) (new : Poly) (f : Field) (h1 : old ≠ .ex f.random) (h2 : old ≠ f.random) :
    subst old new (.ex f.random) = patom (.ex f.random) := by
  unfold subst
  rw [if_neg h1.symm]
  show pexpect (subst old new f.random) = _
  have e : subst old new f.random = patom f.random := by
    have h2' : ¬ Ex.fn f.name (f.coordinates ++ [omega]) = old := fun e => h2 e.symm
    show subst old new (.fn _ _) = _
    unfold subst
    rw [if_neg h2']
    rfl
  rw [e]
  have hr : rnd f.random = true := by simp [rnd, Field.random, israndom, hasOmega]
  unfold Field.random at hr ⊢
  simp [patom, pexpect, expectTerm, hr, pmulTerm, monoMul, addTerm, padd, monoEx, factorEx, prod]

/-- Expectations of fields only. -/
abbrev Means (K : Pkf) (t : Ex) : Prop := Stable t ∧ Mean K t

theorem exs_means (l : List (Ex × Ex)) (hk : ∀ kv ∈ l, ∀ f ∈ K.fields, eval kv.1 ≠ .ex f.random ∧ eval kv.1 ≠ f.random)
    (hv : ∀ kv ∈ l, Exs (Means K) kv.2) (e : Ex) (he : Exs (Means K) e) : Exs (Means K) (substAll l e) := by
  have ev : ∀ {e : Ex}, Exs (Means K) e → Exs (Means K) (eval e) := fun he => exs_toEx _ (exs_ofEx _ (he.mono (fun t h => ⟨h.1, h⟩)))
  unfold substAll
  have h0 := ev he
  generalize eval e = e0 at h0
  clear he
  induction l generalizing e0 with
  | nil => exact h0
  | cons kv l ih =>
    refine ih (fun kv h => hk kv (by simp [h])) (fun kv h => hv kv (by simp [h])) _ ?_
    refine exs_toEx _ (exs_subst_fixed _ _ (exs_ofEx _ ((hv kv (by simp)).mono (fun t h => ⟨h.1, h⟩))) _ ((ev h0).mono ?_))
    rintro t ⟨hs, f, hf, rfl⟩
    exact ⟨⟨hs, f, hf, rfl⟩, mean_fixed _ _ f (hk kv (by simp) f hf).1 (hk kv (by simp) f hf).2⟩

/-! ## Tensors -/

theorem plain_sumEx {S : Str → Prop} {F : Str → List Str → Prop} (l : List Ex) (hl : ∀ e ∈ l, Plain S F e) : Plain S F (sumEx l) := by
  unfold sumEx
  induction l with
  | nil => trivial
  | cons e l ih => exact ⟨hl e (by simp), ih (fun e he => hl e (by simp [he]))⟩

theorem plain_det {S : Str → Prop} {F : Str → List Str → Prop} (n : ℕ) (M : ℕ → ℕ → Ex) (hM : ∀ i j, i < n → j < n → Plain S F (M i j)) :
    Plain S F (detEx n M) := by
  induction n generalizing M with
  | zero => trivial
  | succ n ih =>
    refine plain_sumEx _ (fun e he => ?_)
    obtain ⟨j, hj, rfl⟩ := List.mem_map.1 he
    rw [List.mem_range] at hj
    refine ⟨⟨trivial, hM _ _ (by omega) hj⟩, ih _ (fun i k hi hk => hM _ _ (by omega) (by split <;> omega))⟩

theorem plain_inv {S : Str → Prop} {F : Str → List Str → Prop} (n : ℕ) (M : ℕ → ℕ → Ex) (hM : ∀ i j, i < n → j < n → Plain S F (M i j)) (i j : ℕ) :
    Plain S F (invEx n M i j) :=
  ⟨⟨trivial, plain_det _ _ (fun a b ha hb => hM _ _ (by split <;> omega) (by split <;> omega))⟩, plain_det _ _ hM⟩

theorem det_sumEx (l : List Ex) (hl : ∀ e ∈ l, Deterministic e) : Deterministic (sumEx l) := by
  unfold sumEx
  induction l with
  | nil => trivial
  | cons e l ih => exact ⟨hl e (by simp), ih (fun e he => hl e (by simp [he]))⟩

theorem det_det (n : ℕ) (M : ℕ → ℕ → Ex) (hM : ∀ i j, Deterministic (M i j)) : Deterministic (detEx n M) := by
  induction n generalizing M with
  | zero => trivial
  | succ n ih =>
    refine det_sumEx _ (fun e he => ?_)
    obtain ⟨j, hj, rfl⟩ := List.mem_map.1 he
    exact ⟨⟨trivial, hM _ _⟩, ih _ (fun i k => hM _ _)⟩

theorem det_inv (n : ℕ) (M : ℕ → ℕ → Ex) (hM : ∀ i j, Deterministic (M i j)) (i j : ℕ) : Deterministic (invEx n M i j) :=
  ⟨⟨trivial, det_det _ _ (fun _ _ => hM _ _)⟩, det_det _ _ hM⟩

theorem Deterministic.noEx {e : Ex} (h : Deterministic e) : exAtoms e = [] := by
  induction e with
  | num => rfl
  | sym s => rfl
  | fn u args => rfl
  | func g a ih => exact ih h
  | add a b iha ihb => rw [exAtoms, iha h.1, ihb h.2]; rfl
  | mul a b iha ihb => rw [exAtoms, iha h.1, ihb h.2]; rfl
  | pow a q ih => exact ih h
  | deriv a vars ih => exact ih h.1
  | integ a x ih => exact ih h.1
  | ex a ih => exact h.elim
  | other b => exact h.elim

/-- A change of the metric to another tensor. -/
structure Change (K : Pkf) (coords : List Str) (user : Dict Ex Ex) (T : Field → ℕ → ℕ → Ex) (d : Dict Ex Ex) : Prop where
  keys : ∀ g, g ∈ metrics K ↔ ∃ kv ∈ d, kv.1 = g
  values : ∀ kv ∈ d, Plain (Syms coords) (Fns K coords user T) kv.2 ∧ Deterministic kv.2

theorem mem_tensors (T : Field → ℕ → ℕ → Ex) (hT : ∀ f i j, T f i j = T f j i) (f : Field) (hf : f ∈ K.fields) (i j : ℕ) (hi : i < f.spatial.length)
    (hj : j < f.spatial.length) : T f i j ∈ tensors K T := by
  rcases le_total i j with h | h
  · exact List.mem_flatMap.2 ⟨f, hf, List.mem_map.2 ⟨(i, j), (Setting.mem_pairs _ _ _).2 ⟨h, hj⟩, rfl⟩⟩
  · rw [hT]
    exact List.mem_flatMap.2 ⟨f, hf, List.mem_map.2 ⟨(j, i), (Setting.mem_pairs _ _ _).2 ⟨h, hi⟩, rfl⟩⟩

theorem indexCode_symm (f : Field) (i j : ℕ) : f.indexCode i j = f.indexCode j i := by
  unfold Field.indexCode
  rcases Nat.lt_trichotomy i j with h | rfl | h
  · rw [if_neg (by omega), if_pos h]
  · rfl
  · rw [if_pos h, if_neg (by omega)]

theorem plain_tensor (T : Field → ℕ → ℕ → Ex) (hT : ∀ f i j, T f i j = T f j i) (hfn : ∀ f i j, ∃ u, T f i j = .fn u f.coordinates) (f : Field)
    (hf : f ∈ K.fields) (i j : ℕ) (hi : i < f.spatial.length) (hj : j < f.spatial.length) :
    Plain (Syms coords) (Fns K coords user T) (T f i j) := by
  have hm := mem_tensors T hT f hf i j hi hj
  obtain ⟨u, e⟩ := hfn f i j
  rw [e] at hm ⊢
  exact .inr (.inl (List.mem_append_right _ hm))

theorem change_of (h : EvolutionSystem K coords) (T : Field → ℕ → ℕ → Ex) (hT : ∀ f i j, T f i j = T f j i)
    (hfn : ∀ f i j, ∃ u, T f i j = .fn u f.coordinates) (v : Field → ℕ × ℕ → Ex)
    (hv : ∀ f ij, v f ij = invEx f.spatial.length (T f) ij.1 ij.2 ∨ v f ij = .mul (.num (1 / 2)) (invEx f.spatial.length (T f) ij.1 ij.2)) :
    Change K coords user T (Dict.update [] (K.fields.flatMap (fun f => (pairs f.spatial.length).map (fun ij => (f.metric ij.1 ij.2, v f ij))))) := by
  refine ⟨fun g => ?_, fun kv hkv => ?_⟩
  · have : g ∈ metrics K ↔ g ∈ Dict.keys (Dict.update [] (K.fields.flatMap (fun f => (pairs f.spatial.length).map (fun ij => (f.metric ij.1 ij.2, v f ij))))) := by
      rw [Dict.keys_update_iff]
      unfold metrics
      rw [show Dict.keys (K.fields.flatMap (fun f => (pairs f.spatial.length).map (fun ij => (f.metric ij.1 ij.2, v f ij)))) =
        (K.fields.flatMap (fun f => (pairs f.spatial.length).map (fun ij => (f.metric ij.1 ij.2, v f ij)))).map Prod.fst from rfl, List.map_flatMap]
      simp only [List.map_map]
      constructor
      · exact fun h => .inr h
      · exact fun h => h.resolve_left (by simp [Dict.keys])
    rw [this]
    exact List.mem_map
  · rcases Dict.mem_update _ _ _ hkv with hkv | hkv
    · cases hkv
    obtain ⟨f, hf, hkv⟩ := List.mem_flatMap.1 hkv
    obtain ⟨ij, hij, rfl⟩ := List.mem_map.1 hkv
    have d1 : Deterministic (invEx f.spatial.length (T f) ij.1 ij.2) := det_inv _ _ (fun i j => by
      obtain ⟨u, e⟩ := hfn f i j
      rw [e]
      exact h.det.omega_field f hf) _ _
    have d2 := plain_inv f.spatial.length (T f) (plain_tensor (coords := coords) (user := user) T hT hfn f hf) ij.1 ij.2
    show Plain _ _ (v f ij) ∧ Deterministic (v f ij)
    rcases hv f ij with e | e <;> rw [e]
    · exact ⟨d2, d1⟩
    · exact ⟨⟨trivial, d2⟩, trivial, d1⟩

theorem aspect_change (h : EvolutionSystem K coords) : Change K coords user Field.aspect K.metricToAspect :=
  change_of h Field.aspect (fun f i j => by unfold Field.aspect; rw [indexCode_symm]) (fun _ _ _ => ⟨_, rfl⟩)
    (fun f ij => invEx f.spatial.length f.aspect ij.1 ij.2) (fun _ _ => .inl rfl)

theorem diffusion_change (h : EvolutionSystem K coords) : Change K coords user Field.diffusion K.metricToDiffusion :=
  change_of h Field.diffusion (fun f i j => by unfold Field.diffusion; rw [indexCode_symm]) (fun _ _ _ => ⟨_, rfl⟩)
    (fun f ij => .mul (.num (1 / 2)) (invEx f.spatial.length f.diffusion ij.1 ij.2)) (fun _ _ => .inr rfl)

/-- What is known of a closed expression. -/
structure Closed (K : Pkf) (coords : List Str) (F : Str → List Str → Prop) (e : Ex) : Prop where
  neat : Neat (Syms coords) F e
  po : Po e 0
  exs : Exs (Means K) e

theorem fns_change {T : Field → ℕ → ℕ → Ex} (u : Str) (args : List Str) (hf : Fns K coords user Field.metric u args) :
    Fns K coords user T u args ∨ Ex.fn u args ∈ metrics K := by
  rcases hf with h1 | h1 | h1
  · exact .inl (.inl h1)
  · rcases List.mem_append.1 h1 with h1 | h1
    · exact .inl (.inr (.inl (List.mem_append_left _ h1)))
    · exact .inr h1
  · exact .inl (.inr (.inr h1))

theorem metric_ne (h : EvolutionSystem K coords) (g : Ex) (hg : g ∈ metrics K) (f : Field) (hf : f ∈ K.fields) :
    g ≠ .ex f.random ∧ g ≠ f.random := by
  obtain ⟨f', hf', hg⟩ := List.mem_flatMap.1 hg
  obtain ⟨ij, -, rfl⟩ := List.mem_map.1 hg
  refine ⟨by simp [Field.metric], ?_⟩
  simp only [Field.random, Field.metric, ne_eq, Ex.fn.injEq, not_and]
  intro _ e
  rw [h.det.same f hf, h.det.same f' hf'] at e
  simpa using congrArg List.length e

theorem closed_change (h : EvolutionSystem K coords) {T : Field → ℕ → ℕ → Ex} {d : Dict Ex Ex} (hd : Change K coords user T d) (e : Ex)
    (he : Closed K coords (Fns K coords user Field.metric) e) : Closed K coords (Fns K coords user T) (K.subs d e) := by
  have hm : ∀ kv, kv ∈ K.arrange d ↔ kv ∈ d := fun kv => (h.det.arrange _).mem_iff
  have hfn : ∀ kv ∈ d, ∃ u args, kv.1 = .fn u args := fun kv hkv => by
    obtain ⟨f, -, hg⟩ := List.mem_flatMap.1 ((hd.keys kv.1).2 ⟨kv, hkv, rfl⟩)
    obtain ⟨ij, -, e⟩ := List.mem_map.1 hg
    exact ⟨_, _, e.symm⟩
  have hev : ∀ kv ∈ d, eval kv.1 = kv.1 := fun kv hkv => by
    obtain ⟨u, args, e⟩ := hfn kv hkv
    rw [e]
    exact eval_fn u args
  refine ⟨neat_remove _ (fun kv hkv => hfn kv ((hm kv).1 hkv)) (fun kv hkv => (hd.values kv ((hm kv).1 hkv)).1) e
      (he.neat.plain.mono (fun _ h => h) (fun u args hf => ?_)),
    (h.po_subs d (fun kv hkv => ⟨fun n hn => (hd.values kv hkv).2.po.up hn.nonneg, fun c vs e => ?_⟩) e 0 he.po).1,
    exs_means _ (fun kv hkv f hf => ?_) (fun kv hkv => exs_nil (hd.values kv ((hm kv).1 hkv)).2.noEx) e he.exs⟩
  · rcases fns_change u args hf with h1 | h1
    · exact .inl h1
    · obtain ⟨kv, hkv, e⟩ := (hd.keys _).1 h1
      exact .inr ⟨kv, (hm kv).2 hkv, e⟩
  · rw [hev kv hkv] at e
    obtain ⟨u, args, e'⟩ := hfn kv hkv
    rw [e'] at e
    cases e
  · rw [hev kv ((hm kv).1 hkv)]
    exact metric_ne h _ ((hd.keys _).2 ⟨kv, (hm kv).1 hkv, rfl⟩) f hf

/-- The right-hand sides of the equations of a tensor. -/
theorem closed_tensor (h : EvolutionSystem K coords) {T : Field → ℕ → ℕ → Ex} (hT : ∀ f i j, T f i j = T f j i)
    (hfn : ∀ f i j, ∃ u, T f i j = .fn u f.coordinates) {d : Dict Ex Ex} (hd : Change K coords user T d) (factor : ℚ) (gs : List Eqn)
    (hform : EvolutionForm (metrics K) gs) (hgs : ∀ q ∈ gs, Closed K coords (Fns K coords user Field.metric) q.2) (f : Field) (hf : f ∈ K.fields)
    (q : Eqn) (hq : q ∈ K.tensorEqs factor d (trends gs) T f) : Closed K coords (Fns K coords user T) q.2 := by
  obtain ⟨ij, hij, rfl⟩ := List.mem_map.1 hq
  obtain ⟨hij, hj⟩ := (Setting.mem_pairs _ _ _).1 hij
  -- with the metrics and the tensor
  let F2 : Str → List Str → Prop := fun u args => Fns K coords user T u args ∨ Ex.fn u args ∈ metrics K
  have hm : ∀ kv, kv ∈ K.arrange (trends gs) ↔ kv ∈ trends gs := fun kv => (h.det.arrange _).mem_iff
  have hkey : ∀ kv ∈ trends gs, ∃ g ∈ metrics K, eval kv.1 = dt g ∧ kv ∈ gs := fun kv hkv => by
    have hmem := Setting.mem_trends _ _ hkv
    have h1 : kv.1 ∈ gs.map Prod.fst := List.mem_map_of_mem hmem
    rw [hform.1] at h1
    obtain ⟨g, hg', e⟩ := List.mem_map.1 h1
    exact ⟨g, hg', by rw [← e]; exact EvolutionSystem.Moves.eval (h.metrics_moves g hg'), hmem⟩
  have hsand : ∀ (P : Ex → Prop), (∀ q, P (.num q)) → (∀ a b, P a → P b → P (.add a b)) → (∀ a b, P a → P b → P (.mul a b)) →
      (∀ i j, i < f.spatial.length → j < f.spatial.length → P (T f i j)) → (∀ i j, i < f.spatial.length → j < f.spatial.length → P (dt (f.metric i j))) →
      P (.mul (.num factor) (sandwich f.spatial.length (T f) (fun k l => dt (f.metric k l)) ij.1 ij.2)) := by
    intro P h1 h2 h3 h4 h5
    have hs : ∀ l : List Ex, (∀ e ∈ l, P e) → P (sumEx l) := by
      intro l
      unfold sumEx
      induction l with
      | nil => exact fun _ => h1 0
      | cons e l ih => exact fun hl => h2 _ _ (hl e (by simp)) (ih (fun e he => hl e (by simp [he])))
    refine h3 _ _ (h1 _) (hs _ (fun e he => ?_))
    obtain ⟨l, hl, rfl⟩ := List.mem_map.1 he
    rw [List.mem_range] at hl
    refine h3 _ _ (hs _ (fun e he => ?_)) (h4 _ _ hl hj)
    obtain ⟨k, hk, rfl⟩ := List.mem_map.1 he
    rw [List.mem_range] at hk
    exact h3 _ _ (h4 _ _ (by omega) hk) (h5 _ _ hk hl)
  have n0 : Plain (Syms coords) F2 (.mul (.num factor) (sandwich f.spatial.length (T f) (fun k l => dt (f.metric k l)) ij.1 ij.2)) := by
    refine hsand _ (fun _ => trivial) (fun _ _ h1 h2 => ⟨h1, h2⟩) (fun _ _ h1 h2 => ⟨h1, h2⟩) (fun i j hi hj => ?_) (fun i j hi hj => ?_)
    · exact (plain_tensor (coords := coords) (user := user) T hT hfn f hf i j hi hj).mono (fun _ h => h) (fun _ _ h => .inl h)
    · exact .inr (metric_mem f hf i j hi hj)
  have d0 : Deterministic (.mul (.num factor) (sandwich f.spatial.length (T f) (fun k l => dt (f.metric k l)) ij.1 ij.2)) := by
    refine hsand _ (fun _ => trivial) (fun _ _ h1 h2 => ⟨h1, h2⟩) (fun _ _ h1 h2 => ⟨h1, h2⟩) (fun i j hi hj => ?_) (fun i j hi hj => ?_)
    · obtain ⟨u, e⟩ := hfn f i j
      rw [e]
      exact h.det.omega_field f hf
    · exact ⟨h.det.omega_field f hf, by simpa using DetSystem.time_ne⟩
  have hfit : Fit (trends gs) := fit_trends _ h.metrics_moves gs hform 0 (fun g _ n hn => hn.nonneg) (fun q hq => (hgs q hq).po)
  have n1 : Neat (Syms coords) F2 (K.subs (trends gs) (.mul (.num factor) (sandwich f.spatial.length (T f) (fun k l => dt (f.metric k l)) ij.1 ij.2))) :=
    neat_substAll _ (fun kv hkv => by
      obtain ⟨g, -, -, hmem⟩ := hkey kv ((hm kv).1 hkv)
      exact (hgs kv hmem).neat.plain.mono (fun _ h => h) (fun u args h => fns_change u args h)) _ n0
  have p1 := (h.po_subs _ hfit _ 0 d0.po).1
  have x1 : Exs (Means K) (K.subs (trends gs) (.mul (.num factor) (sandwich f.spatial.length (T f) (fun k l => dt (f.metric k l)) ij.1 ij.2))) :=
    exs_means _ (fun kv hkv f hf => by
      obtain ⟨g, -, e, -⟩ := hkey kv ((hm kv).1 hkv)
      rw [e]
      exact ⟨by simp [dt], by simp [dt, Field.random]⟩) (fun kv hkv => by
      obtain ⟨g, -, -, hmem⟩ := hkey kv ((hm kv).1 hkv)
      exact (hgs kv hmem).exs) _ (exs_nil d0.noEx)
  -- the metrics are replaced
  have hm' : ∀ kv, kv ∈ K.arrange d ↔ kv ∈ d := fun kv => (h.det.arrange _).mem_iff
  have hfn' : ∀ kv ∈ d, ∃ u args, kv.1 = .fn u args := fun kv hkv => by
    obtain ⟨f, -, hg⟩ := List.mem_flatMap.1 ((hd.keys kv.1).2 ⟨kv, hkv, rfl⟩)
    obtain ⟨ij, -, e⟩ := List.mem_map.1 hg
    exact ⟨_, _, e.symm⟩
  have hev : ∀ kv ∈ d, eval kv.1 = kv.1 := fun kv hkv => by
    obtain ⟨u, args, e⟩ := hfn' kv hkv
    rw [e]
    exact eval_fn u args
  refine ⟨neat_remove _ (fun kv hkv => hfn' kv ((hm' kv).1 hkv)) (fun kv hkv => (hd.values kv ((hm' kv).1 hkv)).1) _
      (n1.plain.mono (fun _ h => h) (fun u args hf => ?_)),
    (h.po_subs d (fun kv hkv => ⟨fun n hn => (hd.values kv hkv).2.po.up hn.nonneg, fun c vs e => ?_⟩) _ 0 p1).1,
    exs_means _ (fun kv hkv f hf => ?_) (fun kv hkv => exs_nil (hd.values kv ((hm' kv).1 hkv)).2.noEx) _ x1⟩
  · rcases hf with h1 | h1
    · exact .inl h1
    · obtain ⟨kv, hkv, e⟩ := (hd.keys _).1 h1
      exact .inr ⟨kv, (hm' kv).2 hkv, e⟩
  · rw [hev kv hkv] at e
    obtain ⟨u, args, e'⟩ := hfn' kv hkv
    rw [e'] at e
    cases e
  · rw [hev kv ((hm' kv).1 hkv)]
    exact metric_ne h _ ((hd.keys _).2 ⟨kv, (hm' kv).1 hkv, rfl⟩) f hf

end Sympkf.Spec
