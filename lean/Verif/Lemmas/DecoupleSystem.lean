import Verif.Lemmas.Cancel
import Verif.Lemmas.NormalSystem

/-!
# Lemmas: the systems of the PKF for dynamics that are affine in the fields
-/

set_option autoImplicit false
set_option linter.unusedSectionVars false

namespace Sympkf.Spec

open Text Rand PKF Pkf

theorem mem_zip_same {α : Type} (l : List α) (a b : α) (h : (a, b) ∈ l.zip l) : a = b ∧ a ∈ l := by
  induction l with
  | nil => cases h
  | cons x l ih =>
    rw [List.zip_cons_cons, List.mem_cons] at h
    rcases h with h | h
    · cases h; exact ⟨rfl, by simp⟩
    · exact ⟨(ih h).1, by simp [(ih h).2]⟩

namespace AffineSystem

variable {K : Pkf} {coords : List Str} (h : AffineSystem K coords)
include h

local notation "N" => fieldNames K.fields

theorem noomega (f : Field) (hf : f ∈ K.fields) : omega ∉ f.coordinates := by rw [h.same f hf]; exact h.noise

theorem subs (d : Dict Ex Ex) (hd : ∀ kv ∈ d, FreeOf N (eval kv.1) → FreeOf N kv.2) (e : Ex) (he : FreeOf N e) : FreeOf N (K.subs d e) :=
  fieldFree_substAll _ (fun kv hkv => hd kv ((h.arrange d).mem_iff.1 hkv)) e he

theorem closure (c : Dict Ex Ex) (hc : K.closure = .ok c) :
    ∀ kv ∈ c, (∃ k, eval kv.1 = .ex k ∧ FreeOf N k) ∧ FreeOf N kv.2 := by
  have up : ∀ {k : Ex}, FreeOf N k → (∃ a, eval k = .ex a ∧ ∀ u args, a ≠ .fn u args) → ∃ a, eval k = .ex a ∧ FreeOf N a := by
    rintro k hk ⟨a, ha, -⟩
    have := fieldFree_eval k hk
    rw [ha] at this
    exact ⟨a, ha, this⟩
  unfold Pkf.closure internalClosure at hc
  simp only [bind, Except.bind] at hc
  split at hc
  · cases hc
  rename_i c1 hc1
  have r1 : ∀ kv ∈ c1, (∃ k, eval kv.1 = .ex k ∧ FreeOf N k) ∧ FreeOf N kv.2 := by
    refine foldlM_ok _ (fun c : Dict Ex Ex => ∀ kv ∈ c, (∃ k, eval kv.1 = .ex k ∧ FreeOf N k) ∧ FreeOf N kv.2) _ _ _ hc1 (by simp) ?_
    intro s f s' hf hs hstep
    split at hstep
    · cases hstep
    rename_i cf hcf
    cases hstep
    intro kv hkv
    rcases Dict.mem_update _ _ _ hkv with hkv | hkv
    · exact hs kv hkv
    · have e := h.spatial f hf
      obtain ⟨c', h1, -, h3⟩ := internalClosure_spec K.order h.order f (e ▸ h.space) (e ▸ h.nodup.filter _)
      rw [h1] at hcf
      cases hcf
      have he := h.epsilon f hf
      have hr := h.error f hf
      have hsub : ∀ x ∈ f.spatial, x ∈ f.coordinates ++ [omega] := fun x hx => by simp [(List.mem_filter.1 hx).1]
      obtain ⟨E, hE, rE⟩ := ofEx_random ("{\\varepsilon_{".toList ++ f.code ++ "}}".toList) (f.coordinates ++ [omega]) (omega_error f)
      obtain ⟨E', hE', rE'⟩ := ofEx_random ("{e_{".toList ++ f.code ++ "}}".toList) (f.coordinates ++ [omega]) (omega_error f)
      rcases h3 kv hkv with rfl | rfl | rfl | rfl | ⟨x, hx, rfl⟩ | ⟨i, j, hij, hj, rfl⟩ | ⟨k, i, j, hk, hi, hj, rfl⟩
      · exact ⟨⟨_, eval_exFn _ _ (omega_error f), hr⟩, trivial⟩
      · exact ⟨up hr (eval_sq _ _ hE' rE'), h.variance f hf⟩
      · exact ⟨⟨_, eval_exFn _ _ (omega_error f), he⟩, trivial⟩
      · exact ⟨up he (eval_sq _ _ hE rE), trivial⟩
      · obtain ⟨X, h1, h2⟩ := ofEx_derivSeq f.spatial _ _ (omega_error f) hsub [x]
        exact ⟨up ⟨he, he⟩ (eval_pair _ _ _ _ hE h1 rE h2), trivial⟩
      · obtain ⟨X, h1, h2⟩ := ofEx_derivSeq f.spatial _ _ (omega_error f) hsub [f.spatial.getD i [], f.spatial.getD j []]
        exact ⟨up ⟨he, he⟩ (eval_pair _ _ _ _ hE h1 rE h2), trivial, h.metric f hf i j⟩
      · obtain ⟨X, h1, h2⟩ := ofEx_derivSeq f.spatial _ _ (omega_error f) hsub [k, i, j]
        have m := fun x y => h.metric f hf (f.spatial.idxOf x) (f.spatial.idxOf y)
        exact ⟨up ⟨he, he⟩ (eval_pair _ _ _ _ hE h1 rE h2), trivial, ⟨m k j, m i k⟩, m i j⟩
  refine foldlM_ok _ (fun c : Dict Ex Ex => ∀ kv ∈ c, (∃ k, eval kv.1 = .ex k ∧ FreeOf N k) ∧ FreeOf N kv.2) _ _ _ hc r1 ?_
  intro s p s' hp hs hstep
  have hm := ((PKF.C41_couples K.fields).1 p.1 p.2).1 hp
  have m1 : p.1 ∈ K.fields := hm.subset (by simp)
  have m2 : p.2 ∈ K.fields := hm.subset (by simp)
  unfold coupleEntries at hstep
  simp only [bind, Except.bind] at hstep
  split at hstep
  · cases hstep
  rename_i v hv
  have hvo : FreeOf N v := by
    unfold covariance at hv
    split at hv
    · split at hv
      · cases hv
        exact h.cross p hp
      · cases hv
    · cases hv
  cases hstep
  intro kv hkv
  rcases Dict.mem_set _ _ _ _ hkv with rfl | hkv
  · exact ⟨up ⟨h.epsilon _ m1, h.epsilon _ m2⟩ (eval_pair _ _ _ _ rfl rfl (fnD_rnd _ _ [] (omega_error p.1)) (fnD_rnd _ _ [] (omega_error p.2))),
      hvo, h.variance _ m1, h.variance _ m2⟩
  · rcases Dict.mem_set _ _ _ _ hkv with rfl | hkv
    · exact ⟨up ⟨h.error _ m1, h.error _ m2⟩ (eval_pair _ _ _ _ rfl rfl (fnD_rnd _ _ [] (omega_error p.1)) (fnD_rnd _ _ [] (omega_error p.2))),
        hvo⟩
    · exact hs kv hkv

theorem subsClosure (c : Dict Ex Ex) (hc : K.closure = .ok c) (e : Ex) (he : FreeOf N e) : FreeOf N (K.subs c e) :=
  h.subs c (fun kv hkv _ => (h.closure c hc kv hkv).2) e he

theorem subsError (e : Ex) (he : FreeOf N e) : FreeOf N (K.subs K.subsError e) := by
  refine h.subs _ (fun kv hkv _ => ?_) e he
  rcases Dict.mem_update _ _ _ hkv with hkv | hkv
  · cases hkv
  obtain ⟨f, hf, rfl⟩ := List.mem_map.1 hkv
  exact ⟨h.variance f hf, h.epsilon f hf⟩

/-- The tangent-linear equations are affine. -/
theorem first (r : List (Eqn × Eqn)) (hr : K.reynolds = .ok r) : ∀ q ∈ r, Aff K.fields q.2.2 ∧ Src q.2.2 := by
  intro q hq
  obtain ⟨q0, hq0, hrey⟩ := mem_mapM _ _ _ hr q hq
  unfold reynoldsEq at hrey
  obtain ⟨rhs, hrhs, hrey⟩ := bind_eq_ok hrey
  cases hrey
  have hkv : ∀ kv ∈ K.arrange K.subsReynolds, ∃ g ∈ K.fields, kv = (g.value, .add (.ex g.random) (.mul (.sym epsSym) g.error)) := by
    intro kv hkv
    rcases Dict.mem_update _ _ _ ((h.arrange _).mem_iff.1 hkv) with hkv | hkv
    · cases hkv
    obtain ⟨f, hf, rfl⟩ := List.mem_map.1 hkv
    exact ⟨f, hf, rfl⟩
  have hd := (h.equations q0 hq0).2
  have a1 : Aff K.fields (K.subs K.subsReynolds q0.2) := by
    refine aff_substAll _ h.noomega (fun kv hk => ?_) _ ((h.affine q0 hq0).aff hd)
    obtain ⟨g, hg, e⟩ := hkv kv hk
    exact ⟨g, hg, h.error g hg, e⟩
  have s1 : Src (K.subs K.subsReynolds q0.2) := by
    refine src_reynolds _ (fun kv hk => ?_) _ hd.src
    obtain ⟨g, hg, e⟩ := hkv kv hk
    exact ⟨g, h.noomega g hg, e⟩
  have a2 := ldp_taylor _ _ (aff_ofEx _ a1) hrhs
  have s2 := src_taylor _ _ (src_ofEx _ s1) hrhs
  exact ⟨aff_epsOne _ (fun t ht => a2 t (List.mem_of_mem_filter ht)), src_epsOne _ (fun t ht => s2 t (List.mem_of_mem_filter ht))⟩

theorem errors (es : List Eqn) (hes : K.errorSystem = .ok es) : ∀ q ∈ es, FreeOf N q.2 := by
  unfold errorSystem tlExpectation firstOrder at hes
  obtain ⟨c, hc, -⟩ := h.closure_ok
  simp only [hc, bind, Except.bind, pure, Except.pure] at hes
  split at hes
  · cases hes
  rename_i first hf
  split at hf
  · cases hf
  rename_i r hr
  cases hf
  cases hes
  have hp := h.first r hr
  intro q hq
  obtain ⟨⟨q1, q2⟩, hz, rfl⟩ := List.mem_map.1 hq
  have hz' : ∃ q1' ∈ r.map Prod.snd, q1 = q1' ∧ q2 = K.subsEq c (expectEqn q1') := by
    rw [List.zip_map_right, List.mem_map] at hz
    obtain ⟨⟨a, b⟩, hab, e⟩ := hz
    have hab' := mem_zip_same _ a b hab
    cases e
    exact ⟨a, hab'.2, rfl, by rw [hab'.1]⟩
  obtain ⟨q3, hq3, rfl, rfl⟩ := hz'
  obtain ⟨r1, hr1, rfl⟩ := List.mem_map.1 hq3
  exact free_minus _ (hp r1 hr1).1 (hp r1 hr1).2 h.noomega _ (fun kv hkv => h.closure c hc kv ((h.arrange c).mem_iff.1 hkv))

theorem tree (f : Field) (hf : f ∈ K.fields) (v : Tree.TEx) : FreeOf N (ofTree f.spatial f.epsilon v) := by
  induction v with
  | term t => exact ⟨h.epsilon f hf, h.epsilon f hf⟩
  | d x e ih => exact ih
  | sub e g ihe ihg => exact ⟨ihe, trivial, ihg⟩
  | half e ih => exact ⟨trivial, ih⟩

theorem applyInternal (c : Dict Ex Ex) (hc : K.closure = .ok c) (rhs : Ex) (hr : FreeOf N rhs) (e : Ex)
    (he : K.applyInternal c rhs = .ok e) : FreeOf N e := by
  unfold Pkf.applyInternal at he
  simp only [bind, Except.bind, pure, Except.pure] at he
  split at he
  · cases he
  split at he
  · cases he
  rename_i e1 he1
  cases he
  refine h.subsClosure c hc _ (foldlM_ok _ (fun e => FreeOf N e) _ _ _ he1 hr ?_)
  intro s eps s' _ hs hstep
  unfold applyTree at hstep
  split at hstep
  · cases hstep
  rename_i f hf
  simp only [bind, Except.bind, pure, Except.pure] at hstep
  split at hstep
  · cases hstep
  rename_i t htree
  cases hstep
  refine h.subs t (fun kv hkv _ => ?_) _ hs
  unfold closedTree at htree
  simp only [bind, Except.bind, pure, Except.pure] at htree
  split at htree
  · cases htree
  cases htree
  obtain ⟨tv, -, rfl⟩ := List.mem_map.1 (Setting.mem_trends _ _ hkv)
  exact h.subsClosure c hc _ (h.tree f (Setting.fieldOf_mem eps f hf).1 _)

variable (r : List (Eqn × Eqn)) (hr : K.reynolds = .ok r)
include hr

theorem variances (vs : List Eqn) (hvs : K.varianceSystem = .ok vs) : ∀ q ∈ vs, FreeOf N q.2 := by
  obtain ⟨es, hes⟩ := h.error_ok r hr
  obtain ⟨c, hc, -⟩ := h.closure_ok
  unfold varianceSystem at hvs
  simp only [hes, hc, bind, Except.bind] at hvs
  intro q hq
  obtain ⟨f, hf, hq⟩ := mem_mapM _ _ _ hvs q hq
  unfold varianceEq at hq
  simp only [bind, Except.bind, pure, Except.pure] at hq
  split at hq
  · cases hq
  rename_i e hap
  cases hq
  have p1 := h.subs (trends es) (fun kv hkv _ => h.errors es hes kv (Setting.mem_trends _ _ hkv)) (.ex (dt (.pow f.error 2))) (h.error f hf)
  exact h.applyInternal c hc _ (h.subsError _ p1) e hap

theorem crosses (cs : Option (List Eqn)) (hcs : K.crossSystem = .ok cs) : ∀ q ∈ cs.getD [], FreeOf N q.2 := by
  unfold crossSystem at hcs
  split at hcs
  · cases hcs
    intro q hq
    cases hq
  obtain ⟨c, hc, -⟩ := h.closure_ok
  obtain ⟨es, hes⟩ := h.error_ok r hr
  simp only [hes, hc, bind, Except.bind, pure, Except.pure] at hcs
  split at hcs
  · cases hcs
  rename_i l hl
  cases hcs
  intro q hq
  obtain ⟨p, hp, hq⟩ := mem_mapM _ _ _ hl q hq
  have hm := ((PKF.C41_couples K.fields).1 p.1 p.2).1 hp
  unfold crossEq at hq
  simp only [bind, Except.bind, pure, Except.pure] at hq
  split at hq
  · cases hq
  split at hq
  · cases hq
  rename_i e hap
  cases hq
  have p1 := h.subs (trends es) (fun kv hkv _ => h.errors es hes kv (Setting.mem_trends _ _ hkv)) (.ex (dt (.mul p.1.error p.2.error)))
    ⟨h.error _ (hm.subset (by simp)), h.error _ (hm.subset (by simp))⟩
  exact fieldFree_eval _ (h.applyInternal c hc _ (h.subsError _ p1) e hap)

theorem epsilons (es : List Eqn) (hes : K.epsilonSystem = .ok es) : ∀ q ∈ es, FreeOf N q.2 := by
  obtain ⟨rs, hrs⟩ := h.error_ok r hr
  obtain ⟨vs, hvs, -⟩ := h.variance_ok r hr
  unfold epsilonSystem at hes
  simp only [hrs, hvs, bind, Except.bind, pure, Except.pure] at hes
  cases hes
  intro q hq
  obtain ⟨f, hf, rfl⟩ := List.mem_map.1 hq
  have p1 := h.subs (trends rs) (fun kv hkv _ => h.errors rs hrs kv (Setting.mem_trends _ _ hkv))
    (dt (.mul f.error (.pow f.variance (-1 / 2)))) ⟨h.error f hf, h.variance f hf⟩
  have p2 := h.subs (trends vs) (fun kv hkv _ => h.variances r hr vs hvs kv (Setting.mem_trends _ _ hkv)) _ p1
  exact h.subsError _ p2

theorem metrics (ms : List Eqn) (hms : K.metricSystem = .ok ms) : ∀ q ∈ ms, FreeOf N q.2 := by
  obtain ⟨es, hes, -⟩ := h.epsilon_ok r hr
  obtain ⟨c, hc, -⟩ := h.closure_ok
  unfold metricSystem at hms
  simp only [hes, hc, bind, Except.bind] at hms
  intro q hq
  obtain ⟨p, hp, hq⟩ := mem_mapM _ _ _ hms q hq
  obtain ⟨f, hf, hp⟩ := List.mem_flatMap.1 hp
  obtain ⟨⟨i, j⟩, hij, rfl⟩ := List.mem_map.1 hp
  unfold metricEq at hq
  simp only [bind, Except.bind, pure, Except.pure] at hq
  split at hq
  · cases hq
  rename_i e hap
  cases hq
  have p1 := h.subs (trends es) (fun kv hkv _ => h.epsilons r hr es hes kv (Setting.mem_trends _ _ hkv))
    (.ex (dt (.mul (.deriv f.epsilon [(f.spatial.getD i [], 1)]) (.deriv f.epsilon [(f.spatial.getD j [], 1)]))))
    ⟨h.epsilon f hf, h.epsilon f hf⟩
  exact fieldFree_eval _ (h.applyInternal c hc _ p1 e hap)

omit hr in
theorem reynolds_ok {es : List Eqn} (hes : K.errorSystem = .ok es) : ∃ r, K.reynolds = .ok r := by
  cases hr : K.reynolds with
  | ok r => exact ⟨r, rfl⟩
  | error x =>
    unfold errorSystem firstOrder at hes
    simp only [hr, bind, Except.bind] at hes
    cases hes

omit hr in
theorem error_of_variance {vs : List Eqn} (hvs : K.varianceSystem = .ok vs) : ∃ es, K.errorSystem = .ok es := by
  unfold varianceSystem at hvs
  cases he : K.errorSystem with
  | ok es => exact ⟨es, rfl⟩
  | error x =>
    simp only [he, bind, Except.bind] at hvs
    cases hvs

omit hr in
theorem reynolds_of_variance {vs : List Eqn} (hvs : K.varianceSystem = .ok vs) : ∃ r, K.reynolds = .ok r := by
  obtain ⟨es, hes⟩ := h.error_of_variance hvs
  exact h.reynolds_ok hes

omit hr in
/-- Substitutions of the user. -/
theorem applyClosure (user : Dict Ex Ex) (hu : ∀ kv ∈ user, FreeOf N kv.2) (l : List Eqn) (hl : ∀ q ∈ l, FreeOf N q.2) :
    ∀ q ∈ K.applyClosure user l, FreeOf N q.2 := by
  unfold Pkf.applyClosure
  split
  · exact hl
  · intro q hq
    obtain ⟨q0, hq0, rfl⟩ := List.mem_map.1 hq
    exact h.subs user (fun kv hkv _ => hu kv hkv) _ (hl q0 hq0)

omit hr in
theorem clean (l : List Eqn) (hl : ∀ q ∈ l, FreeOf N q.2) : ∀ q ∈ K.clean l, FreeOf N q.2 := by
  intro q hq
  obtain ⟨q0, hq0, rfl⟩ := List.mem_map.1 hq
  refine h.subs _ (fun kv hkv hf => ?_) _ (hl q0 hq0)
  rcases Dict.mem_update _ _ _ hkv with hkv | hkv
  · cases hkv
  obtain ⟨f, hf', rfl⟩ := List.mem_map.1 hkv
  rw [show eval (.ex f.random) = .ex f.random from eval_exFn _ _ (by simp)] at hf
  exact absurd (List.mem_map.2 ⟨f, hf', rfl⟩) hf

omit hr in
theorem det (n : ℕ) (M : ℕ → ℕ → Ex) (hM : ∀ i j, FreeOf N (M i j)) : FreeOf N (detEx n M) := by
  induction n generalizing M with
  | zero => trivial
  | succ n ih =>
    unfold detEx
    generalize hl : (List.range (n + 1)).map _ = l
    have key : ∀ e ∈ l, FreeOf N e := by
      intro e he
      rw [← hl] at he
      obtain ⟨j, -, rfl⟩ := List.mem_map.1 he
      exact ⟨⟨trivial, hM _ _⟩, ih _ (fun _ _ => hM _ _)⟩
    clear hl
    induction l with
    | nil => trivial
    | cons e l ih => exact ⟨key e (by simp), ih (fun e he => key e (by simp [he]))⟩

omit hr in
theorem inv (n : ℕ) (M : ℕ → ℕ → Ex) (hM : ∀ i j, FreeOf N (M i j)) (i j : ℕ) : FreeOf N (invEx n M i j) :=
  ⟨⟨trivial, h.det _ _ (fun _ _ => hM _ _)⟩, h.det _ _ hM⟩

omit hr in
theorem sum (l : List Ex) (hl : ∀ e ∈ l, FreeOf N e) : FreeOf N (sumEx l) := by
  induction l with
  | nil => trivial
  | cons e l ih => exact ⟨hl e (by simp), ih (fun e he => hl e (by simp [he]))⟩

omit hr in
theorem sandwich (n : ℕ) (A B : ℕ → ℕ → Ex) (hA : ∀ i j, FreeOf N (A i j)) (hB : ∀ i j, FreeOf N (B i j)) (i j : ℕ) :
    FreeOf N (Pkf.sandwich n A B i j) := by
  refine h.sum _ (fun e he => ?_)
  obtain ⟨l, -, rfl⟩ := List.mem_map.1 he
  refine ⟨h.sum _ (fun e he => ?_), hA _ _⟩
  obtain ⟨k, -, rfl⟩ := List.mem_map.1 he
  exact ⟨hA _ _, hB _ _⟩

end AffineSystem

end Sympkf.Spec
