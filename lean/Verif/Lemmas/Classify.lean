import Verif.Lemmas.NormalSystem
import Verif.Spec.Unclosed

/-!
# Lemmas: which expectations are left open
-/

set_option autoImplicit false

namespace Sympkf.Spec

open Text Rand PKF Pkf

theorem timeFree_exAtoms (e : Ex) (h : TimeFree e) : ∀ t ∈ exAtoms e, TimeFree t := by
  induction e with
  | func g a ih => exact ih h
  | add a b iha ihb =>
    intro t ht
    rcases List.mem_append.1 ht with ht | ht
    · exact iha h.1 t ht
    · exact ihb h.2 t ht
  | mul a b iha ihb =>
    intro t ht
    rcases List.mem_append.1 ht with ht | ht
    · exact iha h.1 t ht
    · exact ihb h.2 t ht
  | pow a q ih => exact ih h
  | deriv a vars ih => exact ih h.1
  | integ a x ih => exact ih h
  | ex a ih =>
    intro t ht
    rcases List.mem_cons.1 ht with rfl | ht
    · exact h
    · exact ih h t ht
  | _ => intro t ht; cases ht

theorem bumpVar_pos (x : Str) (l : List (Str × ℕ)) (hl : ∀ p ∈ l, 0 < p.2) : ∀ p ∈ bumpVar x l, 0 < p.2 := by
  induction l with
  | nil => intro p hp; simp [bumpVar] at hp; rw [hp]; exact Nat.one_pos
  | cons q l ih =>
    obtain ⟨y, n⟩ := q
    intro p hp
    unfold bumpVar at hp
    split at hp
    · rcases List.mem_cons.1 hp with rfl | hp
      · exact Nat.succ_pos _
      · exact hl p (by simp [hp])
    · split at hp
      · rcases List.mem_cons.1 hp with rfl | hp
        · exact Nat.one_pos
        · exact hl p hp
      · rcases List.mem_cons.1 hp with rfl | hp
        · exact hl _ (by simp)
        · exact ih (fun p hp => hl p (by simp [hp])) p hp

theorem bumps_pos (v vs : List (Str × ℕ)) (hvs : ∀ p ∈ vs, 0 < p.2) : ∀ p ∈ bumps v vs, 0 < p.2 := by
  rw [bumps_repeated]
  generalize repeated v = l
  induction l generalizing vs with
  | nil => exact hvs
  | cons x l ih => exact ih _ (bumpVar_pos x vs hvs)

/-- An atom that is a random function is a derivative in space of a normalised error. -/
theorem eps_shape {K : Pkf} {M : Ex → Prop} {a : Ex} (h : FnA a) (ho : Only M (DetSystem.IsEps K) a) (ht : TimeFree a) :
    ∃ f ∈ K.fields, ∃ w, a = dEps f w ∧ (∀ p ∈ w, p.1 ∈ f.spatial ∧ 0 < p.2) ∧ bumps w [] = w := by
  obtain ⟨u, args, v, rfl, hv, hom⟩ := h
  have hpos := bumps_pos v [] (by simp)
  have hname := bumps_names v [] (fun x => x ∈ args ∧ x ≠ omega) hv (by simp)
  have hidem := bumps_idem v
  generalize bumps v [] = w at *
  have key : DetSystem.IsEps K (.fn u args) ∧ ∀ p ∈ w, p.1 ≠ time := by
    by_cases hw : w = []
    · subst hw
      exact ⟨ho hom, by simp⟩
    · rw [show fnD u args w = .deriv (.fn u args) w from if_neg hw] at ho ht
      exact ⟨ho.1 hom, fun p hp e => absurd (ht.2 p hp e) (hpos p hp).ne'⟩
  obtain ⟨⟨f, hf, e⟩, htime⟩ := key
  rw [epsilon_eq] at e
  injection e with e1 e2
  subst e1 e2
  refine ⟨f, hf, w, by rw [dEps, hidem], fun p hp => ⟨?_, hpos p hp⟩, hidem⟩
  obtain ⟨h1, h2⟩ := hname p hp
  refine List.mem_filter.2 ⟨?_, by simpa using htime p hp⟩
  rcases List.mem_append.1 h1 with h1 | h1
  · exact h1
  · exact absurd (List.mem_singleton.1 h1) h2

theorem dEps_differentiated {f : Field} {w : List (Str × ℕ)} (h : ∀ p ∈ w, p.1 ∈ f.spatial ∧ 0 < p.2) (hi : bumps w [] = w) :
    Differentiated f (w.map Prod.snd).sum (dEps f w) := by
  unfold dEps
  rw [hi]
  by_cases hw : w = []
  · subst hw; exact .none
  · rw [show fnD (epsName f) (f.coordinates ++ [omega]) w = .deriv f.epsilon w from if_neg hw]
    exact .some w hw h

theorem sum_zero {f : Field} {w : List (Str × ℕ)} (h : ∀ p ∈ w, p.1 ∈ f.spatial ∧ 0 < p.2) (h0 : (w.map Prod.snd).sum = 0) : w = [] := by
  cases w with
  | nil => rfl
  | cons p w =>
    have := (h p (by simp)).2
    simp only [List.map_cons, List.sum_cons] at h0
    omega

/-- The products of degree at most two. -/
theorem product_cases (r : Mono) (h : Product r) :
    (∃ a, FnA a ∧ monoEx r = a ∧ r = [(a, 1)]) ∨ (∃ a, FnA a ∧ monoEx r = .pow a 2) ∨
      ∃ a b, FnA a ∧ FnA b ∧ a ≠ b ∧ monoEx r = .mul a b := by
  obtain ⟨hne, hs, hf, hd⟩ := h
  have hpos : ∀ r : Mono, (∀ f ∈ r, FnA f.1 ∧ ∃ n : ℕ, f.2 = (n : ℚ) + 1) → (r.length : ℚ) ≤ wdeg r := by
    intro r
    induction r with
    | nil => intro _; simp [wdeg, degBy]
    | cons f r ih =>
      intro hr
      obtain ⟨h1, n, hn⟩ := hr f (by simp)
      rw [wdeg_cons, h1.wt, hn, List.length_cons]
      have := ih (fun f hf => hr f (by simp [hf]))
      push_cast
      have : (0 : ℚ) ≤ n := by positivity
      linarith
  match r, hne with
  | [(a, q)], _ =>
    obtain ⟨h1, n, hn⟩ := hf (a, q) (by simp)
    simp only at hn h1
    subst hn
    rw [wdeg_cons, wdeg_nil, h1.wt] at hd
    have hn' : n = 0 ∨ n = 1 := by
      have : (n : ℚ) ≤ 1 := by simp only at hd; linarith
      have : n ≤ 1 := by exact_mod_cast this
      omega
    rcases hn' with rfl | rfl
    · exact .inl ⟨a, h1, by simp [monoEx, factorEx, prod], by simp⟩
    · refine .inr (.inl ⟨a, h1, ?_⟩)
      have : ((1 : ℕ) : ℚ) + 1 = 2 := by norm_num
      rw [this]
      simp [monoEx, factorEx, prod]
  | [(a, q), (b, q')], _ =>
    obtain ⟨h1, n, hn⟩ := hf (a, q) (by simp)
    obtain ⟨h2, m, hm⟩ := hf (b, q') (by simp)
    simp only at hn h1 hm h2
    subst hn hm
    rw [wdeg_cons, wdeg_cons, wdeg_nil, h1.wt, h2.wt] at hd
    have : (n : ℚ) + m ≤ 0 := by simp only at hd; linarith
    have : n + m ≤ 0 := by exact_mod_cast this
    have hn0 : n = 0 := by omega
    have hm0 : m = 0 := by omega
    subst hn0 hm0
    refine .inr (.inr ⟨a, b, h1, h2, ?_, by simp [monoEx, factorEx, prod]⟩)
    rintro rfl
    have := (List.pairwise_cons.1 hs).1 _ (List.mem_singleton.2 rfl)
    rw [ltNat_irrefl] at this
    cases this
  | f :: g :: k :: r, _ =>
    have := hpos _ hf
    simp only [List.length_cons] at this
    push_cast at this
    have h0 : (0 : ℚ) ≤ r.length := by positivity
    linarith

theorem sublist_pair {α : Type} (l : List α) (a b : α) (ha : a ∈ l) (hb : b ∈ l) (hne : a ≠ b) :
    [a, b].Sublist l ∨ [b, a].Sublist l := by
  induction l with
  | nil => cases ha
  | cons c l ih =>
    rcases List.mem_cons.1 ha with rfl | ha'
    · rcases List.mem_cons.1 hb with rfl | hb'
      · exact absurd rfl hne
      · exact .inl ((List.singleton_sublist.2 hb').cons_cons _)
    · rcases List.mem_cons.1 hb with rfl | hb'
      · exact .inr ((List.singleton_sublist.2 ha').cons_cons _)
      · exact (ih ha' hb').imp (·.cons _) (·.cons _)

/-! ## Classification -/

theorem ofEx_dEps_self {f : Field} {w : List (Str × ℕ)} (h : ∀ p ∈ w, p.1 ∈ f.spatial) : ofEx (dEps f w) = patom (dEps f w) :=
  fnD_ofEx _ _ w (fun p hp => spatial_args _ (h p hp))

theorem canon_pair {x y : Ex} {t : Ex} (hs : Stable t) (ht : t = .ex (.mul x y)) (hx : ofEx x = patom x) (hy : ofEx y = patom y)
    (rx : rnd x = true) (ry : rnd y = true) : t = .ex (pair x y) := by
  have := hs.2
  rw [ht, ofEx_ex_mul _ _ _ _ hx hy rx ry] at this
  rw [ht]
  exact (patom_inj this).symm

/-- The expectation of a product with a derivative of order one, two or three is a closed term. -/
theorem closed_deriv {f : Field} (hn : f.spatial.Nodup) {w : List (Str × ℕ)} (hw : ∀ p ∈ w, p.1 ∈ f.spatial) (h1 : 1 ≤ (w.map Prod.snd).sum)
    (h3 : (w.map Prod.snd).sum ≤ 3) : ∃ k, ClosedTerm f k ∧ eval k = .ex (pair f.epsilon (dEps f w)) := by
  have hs : ∀ x ∈ repeated w, x ∈ f.spatial := fun x hx => by
    obtain ⟨p, hp, rfl⟩ := mem_repeated w x hx
    exact hw p hp
  refine ⟨_, .deriv (repeated w) hs (by rw [repeated_length]; exact h1) (by rw [repeated_length]; exact h3), ?_⟩
  have hv : ∀ p ∈ (f.spatial.filter (· ∈ repeated w)).map (fun x => (x, (repeated w).count x)), p.1 ∈ f.spatial := by
    intro p hp
    obtain ⟨x, hx, rfl⟩ := List.mem_map.1 hp
    exact (List.mem_filter.1 hx).1
  have e : ofEx (derivSeq f.spatial f.epsilon (repeated w)) = patom (dEps f w) := by
    unfold derivSeq
    rw [ofEx_dEps _ hv]
    congr 1
    unfold dEps
    congr 1
    refine bumps_perm ?_ []
    rw [List.perm_iff_count]
    intro y
    generalize hl : repeated w = l at *
    have : repeated ((f.spatial.filter (· ∈ l)).map (fun x => (x, l.count x))) =
        (f.spatial.filter (· ∈ l)).flatMap (fun x => List.replicate (l.count x) x) := by
      simp [repeated, List.flatMap_map]
    rw [this]
    by_cases hy : y ∈ l
    · exact count_blocks _ l (hn.filter _) y (List.mem_filter.2 ⟨hs y hy, by simpa using hy⟩)
    · rw [List.count_eq_zero.2 hy, List.count_eq_zero]
      intro hm
      obtain ⟨z, hz, hm⟩ := List.mem_flatMap.1 hm
      obtain rfl := List.eq_of_mem_replicate hm
      exact hy (by simpa using (List.mem_filter.1 hz).2)
  have he : ofEx (.ex (.mul f.epsilon (derivSeq f.spatial f.epsilon (repeated w)))) = patom (.ex (pair f.epsilon (dEps f w))) :=
    ofEx_ex_mul _ _ _ _ rfl e (fnD_rnd (epsName f) _ [] (by simp)) (rnd_dEps w)
  unfold Rand.eval
  rw [he, toEx_patom]

/-- The expectations in normal form that are not closed. -/
theorem classify {K : Pkf} {coords : List Str} (h : EvolutionSystem K coords) (t : Ex) (hc : Canon t)
    (hk : ∀ k, ClosedTerms K.fields k → t ≠ eval k) (ho : Only (DetSystem.IsMean K) (DetSystem.IsEps K) t) (htf : TimeFree t) :
    (∃ f ∈ K.fields, t = .ex f.random) ∨ Open K.fields t ∨ ∃ f ∈ K.fields, ∃ v w, (∀ p ∈ v, p.1 ∈ f.spatial) ∧ (∀ p ∈ w, p.1 ∈ f.spatial) ∧
      (t = .ex (.pow (.deriv f.epsilon v) 2) ∧ v ≠ [] ∧ (∀ p ∈ v, 0 < p.2) ∨
        t = .ex (.mul (.deriv f.epsilon v) (.deriv f.epsilon w)) ∧ v ≠ [] ∧ w ≠ [] ∧ (∀ p ∈ v, 0 < p.2) ∧ ∀ p ∈ w, 0 < p.2) := by
  obtain ⟨hst, r, rfl, hp⟩ := hc
  have reps : ∀ f : Field, rnd f.epsilon = true := fun f => fnD_rnd (epsName f) _ [] (by simp)
  rcases product_cases r hp with ⟨a, ha, e, -⟩ | ⟨a, ha, e⟩ | ⟨a, b, ha, hb, hne, e⟩
  · -- one function
    rw [e] at hst hk ho htf ⊢
    obtain ⟨u, args, v, rfl, hv, hom⟩ := ha
    by_cases h0 : bumps v [] = []
    · rw [h0] at hst hk ho htf ⊢
      change Only _ _ (.ex (.fn u args)) at ho
      rcases ho.2 with ho | ⟨-, -, -, f, hf, e⟩
      · obtain ⟨f, hf, e⟩ := ho hom
        refine absurd ?_ (hk _ (.field f hf _ .epsilon))
        show Ex.ex (.fn u args) = _
        rw [← e]
        exact hst.eval.symm
      · left
        exact ⟨f, hf, congrArg Ex.ex e⟩
    · exfalso
      have e1 : fnD u args (bumps v []) = .deriv (.fn u args) (bumps v []) := if_neg h0
      have h1 := hst.2
      have h2 : ofEx (.ex (fnD u args (bumps v []))) = pexpect (patom (fnD u args (bumps v []))) := by
        show pexpect (ofEx _) = _
        rw [fnD_ofEx u args v (fun p hp => (hv p hp).1)]
      have hr := fnD_rnd u args (bumps v []) hom
      rw [h2, e1] at h1
      rw [e1] at hr
      have h3 : pexpect (patom (.deriv (.fn u args) (bumps v []))) = patom (.deriv (.ex (.fn u args)) ((bumps v []).take 1)) := by
        show padd (expectTerm ([(.deriv (.fn u args) (bumps v []), 1)], 1)) [] = _
        have : expectTerm ([(.deriv (.fn u args) (bumps v []), 1)], 1) = patom (.deriv (.ex (.fn u args)) ((bumps v []).take 1)) := by
          unfold expectTerm
          simp only [hr, List.filter_cons, List.filter_nil, if_true, Bool.not_true, Bool.false_eq_true, if_false]
          exact pmulTerm_nil_patom _
        rw [this, padd_patom_nil]
      rw [h3] at h1
      cases patom_inj h1
  · -- a square
    rw [e] at hst hk ho htf ⊢
    have ho' : Only (DetSystem.IsMean K) (DetSystem.IsEps K) a := by
      rcases ho.2 with ho | ⟨_, _, e', -⟩
      · exact ho
      · cases e'
    obtain ⟨f, hf, w, rfl, hw, hi⟩ := eps_shape ha ho' htf
    by_cases h0 : w = []
    · subst h0
      refine absurd ?_ (hk _ (.field f hf _ .epsilon2))
      exact hst.eval.symm
    · right; right
      have e1 : dEps f w = .deriv f.epsilon w := by unfold dEps; rw [hi]; exact if_neg h0
      exact ⟨f, hf, w, w, fun p hp => (hw p hp).1, fun p hp => (hw p hp).1, .inl ⟨by rw [e1], h0, fun p hp => (hw p hp).2⟩⟩
  · -- a product
    rw [e] at hst hk ho htf ⊢
    have ho' : Only (DetSystem.IsMean K) (DetSystem.IsEps K) a ∧ Only (DetSystem.IsMean K) (DetSystem.IsEps K) b := by
      rcases ho.2 with ho | ⟨_, _, e', -⟩
      · exact ho
      · cases e'
    obtain ⟨f, hf, v, rfl, hv, hi⟩ := eps_shape ha ho'.1 htf.1
    obtain ⟨g, hg, w, rfl, hw, hj⟩ := eps_shape hb ho'.2 htf.2
    have spv : ∀ p ∈ v, p.1 ∈ f.spatial := fun p hp => (hv p hp).1
    have spw : ∀ p ∈ w, p.1 ∈ g.spatial := fun p hp => (hw p hp).1
    have hpair := canon_pair hst rfl (ofEx_dEps_self spv) (ofEx_dEps_self spw) (rnd_dEps v) (rnd_dEps w)
    have dv := dEps_differentiated hv hi
    have dw := dEps_differentiated hw hj
    have e0 : ∀ f : Field, dEps f [] = f.epsilon := fun _ => rfl
    have e1 : ∀ (f : Field) (w : List (Str × ℕ)), bumps w [] = w → w ≠ [] → dEps f w = .deriv f.epsilon w :=
      fun f w hi h0 => by unfold dEps; rw [hi]; exact if_neg h0
    have hnodup : ∀ f ∈ K.fields, f.spatial.Nodup := fun f hf => by rw [h.det.spatial f hf]; exact h.det.nodup.filter _
    have big : ∀ z : List (Str × ℕ), (∀ p ∈ z, p.1 ∈ f.spatial ∧ 0 < p.2) → z ≠ [] →
        Ex.ex (.mul (dEps f v) (dEps g w)) = .ex (pair f.epsilon (dEps f z)) → 4 ≤ (z.map Prod.snd).sum := by
      intro z hz h0 ez
      by_contra h4
      obtain ⟨k, hk1, hk2⟩ := closed_deriv (hnodup f hf) (fun p hp => (hz p hp).1)
        (Nat.pos_of_ne_zero (fun e => h0 (sum_zero hz e))) (by omega)
      exact hk k (.field f hf k hk1) (ez.trans hk2.symm)
    by_cases hfg : f = g
    · subst hfg
      by_cases hv0 : v = []
      · subst hv0
        have hw0 : w ≠ [] := fun e => hne (by rw [e])
        right; left
        rw [e0] at hpair ⊢
        exact .left f hf _ (big w hw hw0 (by rw [e0]; exact hpair)) _ dw
      · by_cases hw0 : w = []
        · subst hw0
          right; left
          refine .right f hf _ (big v hv hv0 ?_) _ dv
          rw [hpair, e0, pair_comm]
        · right; right
          refine ⟨f, hf, v, w, spv, spw, .inr ⟨?_, hv0, hw0, fun p hp => (hv p hp).2, fun p hp => (hw p hp).2⟩⟩
          rw [e1 f v hi hv0, e1 f w hj hw0]
    · right; left
      refine .couple f g hf hg hfg _ _ ?_ _ _ dv dw
      by_contra h0
      obtain rfl := sum_zero hv (by omega)
      obtain rfl := sum_zero hw (by omega)
      have key : ∀ f g : Field, eval (.ex (.mul f.epsilon g.epsilon)) = .ex (pair f.epsilon g.epsilon) := by
        intro f g
        unfold Rand.eval
        rw [ofEx_ex_mul _ _ f.epsilon g.epsilon rfl rfl (reps f) (reps g), toEx_patom]
      rcases sublist_pair K.fields f g hf hg hfg with hsub | hsub
      · exact hk _ (.epsilons f g hsub) (by rw [key]; exact hpair)
      · exact hk _ (.epsilons g f hsub) (by rw [key, pair_comm]; exact hpair)

/-! ## The systems -/

namespace EvolutionSystem

variable {K : Pkf} {coords : List Str} (h : EvolutionSystem K coords)
include h

theorem open_left (e : Ex) (hl : Exs (Left K) e) (ho : Only (DetSystem.IsMean K) (DetSystem.IsEps K) e) (ht : TimeFree e) :
    ∀ t ∈ exAtoms e, (∃ f ∈ K.fields, t = .ex f.random) ∨ Open K.fields t := by
  intro t hm
  obtain ⟨hc, hmom, hk⟩ := hl t hm
  rcases classify h t hc hk (only_exAtoms e ho t hm).1 (timeFree_exAtoms e ht t hm) with h0 | h1 | ⟨f, hf, v, w, hv, hw, ⟨e, -⟩ | ⟨e, -⟩⟩
  · exact .inl h0
  · exact .inr h1
  · exact absurd ⟨hv, hv, .inr ⟨rfl, e⟩⟩ (hmom f hf v v)
  · exact absurd ⟨hv, hw, .inl e⟩ (hmom f hf v w)

theorem open_mean (e : Ex) (hl : Exs (fun t => Canon t ∧ ∀ k, ClosedTerms K.fields k → t ≠ eval k) e)
    (ho : Only (DetSystem.IsMean K) (DetSystem.IsEps K) e) (ht : TimeFree e) : ∀ t ∈ exAtoms e, (∃ f ∈ K.fields, t = .ex f.random) ∨ OpenMean K.fields t := by
  have pos : ∀ v : List (Str × ℕ), v ≠ [] → (∀ p ∈ v, 0 < p.2) → 1 ≤ (v.map Prod.snd).sum := by
    intro v h0 hp
    cases v with
    | nil => exact absurd rfl h0
    | cons p v =>
      have := hp p (by simp)
      simp only [List.map_cons, List.sum_cons]
      omega
  intro t hm
  obtain ⟨hc, hk⟩ := hl t hm
  rcases classify h t hc hk (only_exAtoms e ho t hm).1 (timeFree_exAtoms e ht t hm) with
    h0 | h1 | ⟨f, hf, v, w, hv, hw, ⟨rfl, h0, hp⟩ | ⟨rfl, h0, h0', hp, hp'⟩⟩
  · exact .inl h0
  · exact .inr (.other t h1)
  · right; exact .square f hf _ (pos v h0 hp) _ (.some v h0 (fun p hm => ⟨hv p hm, hp p hm⟩))
  · right; exact .product f hf _ _ (pos v h0 hp) (pos w h0' hp') _ _ (.some v h0 (fun p hm => ⟨hv p hm, hp p hm⟩))
      (.some w h0' (fun p hm => ⟨hw p hm, hp' p hm⟩))

theorem only_mean (ms : List Eqn) (hms : K.expectationSystem = .ok ms) : ∀ q ∈ ms, Only (DetSystem.IsMean K) (DetSystem.IsEps K) q.2 := by
  obtain ⟨c, hc, -⟩ := h.det.closure_ok
  unfold expectationSystem secondOrder at hms
  simp only [hc, bind, Except.bind, pure, Except.pure] at hms
  split at hms
  · cases hms
  rename_i l hl
  split at hl
  · cases hl
  rename_i r hr
  cases hl
  cases hms
  intro q hq
  obtain ⟨q1, hq1, rfl⟩ := List.mem_map.1 hq
  obtain ⟨r1, hr1, rfl⟩ := List.mem_map.1 hq1
  exact h.det.only_subs c (h.det.closure_only c hc _) _ (h.det.only_subsError _ (only_eval_ex _ (h.det.second_only r hr r1 hr1)))

theorem only_cross (r : List (Eqn × Eqn)) (hr : K.reynolds = .ok r) (cs : Option (List Eqn)) (hcs : K.crossSystem = .ok cs) :
    ∀ q ∈ cs.getD [], Only (DetSystem.IsMean K) (DetSystem.IsEps K) q.2 := by
  unfold crossSystem at hcs
  split at hcs
  · cases hcs
    intro q hq
    cases hq
  obtain ⟨c, hc, -⟩ := h.det.closure_ok
  obtain ⟨es, hes⟩ := h.det.error_ok r hr
  have he : ∀ kv ∈ trends es, Only (DetSystem.IsMean K) (DetSystem.IsAny K) kv.2 :=
    fun kv hkv => h.det.error_only es hes kv (Setting.mem_trends _ _ hkv)
  simp only [hes, hc, bind, Except.bind, pure, Except.pure] at hcs
  split at hcs
  · cases hcs
  rename_i l hl
  cases hcs
  intro q hq
  obtain ⟨p, hp, hq⟩ := mem_mapM _ _ _ hl q hq
  have hm := ((PKF.C41_couples K.fields).1 p.1 p.2).1 hp
  unfold crossEq at hq
  simp only [bind, Except.bind, pure, Except.pure] at hq
  split at hq
  · cases hq
  split at hq
  · cases hq
  rename_i e hap
  cases hq
  have hreg : Only (DetSystem.IsMean K) (DetSystem.IsAny K) (.ex (dt (.mul p.1.error p.2.error))) :=
    ⟨by simp [hasOmega, dt, Field.error], .inl (DetSystem.only_dt ⟨DetSystem.only_error _ (hm.subset (by simp)), DetSystem.only_error _ (hm.subset (by simp))⟩)⟩
  obtain ⟨e', h1, h2⟩ := h.det.applyInternal_ok c hc _ (h.det.only_subsError _ (h.det.only_subs _ he _ hreg))
  rw [hap] at h1
  cases h1
  exact only_eval _ h2

end EvolutionSystem

end Sympkf.Spec
