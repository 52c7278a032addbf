import Verif.Lemmas.Generate
import Verif.Props.Dynamics

/-!
# Lemmas: the complete systems are accepted by the generation of code
-/

set_option autoImplicit false
set_option linter.unusedSectionVars false

namespace Sympkf.Spec

open Text Rand PKF Pkf EvolutionSystem

variable {K : Pkf} {coords : List Str} {user : Dict Ex Ex}

/-! ## From expressions to the expressions of the generated code -/

theorem supported_of {F : Str → List Str → Prop} (e : Ex) (hN : Neat (Syms coords) F e) {n : ℚ} (hn : n ≤ 0) (hP : Po e n) (hE : exAtoms e = [])
    (hT : TimeFree e) : ∃ sy, PDE.ofEx e = some sy ∧ Spec.PDE.Supported (coords.map (.sym .plain)) sy ∧
      ∀ f ∈ sy.functions, ∃ u args, f = .fn u args ∧ F u args ∧ omega ∉ args := by
  induction e generalizing n with
  | num q => exact ⟨_, rfl, .num q, by simp [PDE.Sy.functions]⟩
  | sym s =>
    refine ⟨_, rfl, .sym s ?_, by simp [PDE.Sy.functions]⟩
    rcases hN with h | h
    · exact .inl h
    · right
      intro h'
      obtain ⟨s', hs', e⟩ := List.mem_map.1 h'
      cases e
      exact h hs'
  | fn u args =>
    refine ⟨_, rfl, .fn u args, fun f hf => ?_⟩
    simp only [PDE.Sy.functions, List.mem_singleton] at hf
    have h' : (if omega ∈ args then (1 : ℚ) else 0) ≤ n := hP
    refine ⟨u, args, hf, hN, fun hw => ?_⟩
    rw [if_pos hw] at h'
    linarith
  | func g a ih => exact hN.elim
  | add a b iha ihb =>
    simp only [exAtoms, List.append_eq_nil_iff] at hE
    obtain ⟨x, hx, h1, h2⟩ := iha hN.1 hn hP.1 hE.1 hT.1
    obtain ⟨y, hy, h3, h4⟩ := ihb hN.2 hn hP.2 hE.2 hT.2
    refine ⟨.add x y, by simp [PDE.ofEx, hx, hy], .add h1 h3, fun f hf => ?_⟩
    rcases List.mem_append.1 hf with hf | hf
    · exact h2 f hf
    · exact h4 f hf
  | mul a b iha ihb =>
    simp only [exAtoms, List.append_eq_nil_iff] at hE
    obtain ⟨i, j, hij, hPa, hPb⟩ := hP
    have hi := hPa.nonneg
    have hj := hPb.nonneg
    obtain ⟨x, hx, h1, h2⟩ := iha hN.1 (by linarith) hPa hE.1 hT.1
    obtain ⟨y, hy, h3, h4⟩ := ihb hN.2 (by linarith) hPb hE.2 hT.2
    refine ⟨.mul x y, by simp [PDE.ofEx, hx, hy], .mul h1 h3, fun f hf => ?_⟩
    rcases List.mem_append.1 hf with hf | hf
    · exact h2 f hf
    · exact h4 f hf
  | pow a q ih =>
    have hPa : ∃ m : ℚ, m ≤ 0 ∧ Po a m := by
      rcases hP.2 with ⟨m, -, hq, hm, hPa⟩ | hPa
      · exact ⟨m, by nlinarith, hPa⟩
      · exact ⟨0, le_refl _, hPa⟩
    obtain ⟨m, hm, hPa⟩ := hPa
    obtain ⟨x, hx, h1, h2⟩ := ih hN hm hPa hE hT
    refine ⟨.pow x (.num q), by simp [PDE.ofEx, hx], .pow h1 (.num q), fun f hf => ?_⟩
    rcases List.mem_append.1 hf with hf | hf
    · exact h2 f hf
    · simp [PDE.Sy.functions] at hf
  | deriv a vars ih =>
    obtain ⟨hNa, hb, hs⟩ := hN
    obtain ⟨x, hx, h1, h2⟩ := ih hNa hn hP.1 hE hT.1
    match a, hb with
    | .fn u args, _ =>
      cases hx
      refine ⟨.deriv (.fn u args) vars, rfl, .deriv u args vars hs.1 hs.nodup (fun v hv => ⟨hs.2.2 v hv, fun e => ?_⟩), h2⟩
      have := hT.2 v hv e
      have := hs.2.2 v hv
      omega
    | .ex a, _ => simp [exAtoms] at hE
  | integ a x ih => exact hN.elim
  | ex a ih => simp [exAtoms] at hE
  | other b => exact hN.elim

/-- The equations of an evolution form without expectations. -/
theorem eqns_of {F : Str → List Str → Prop} (gs : List Ex) (hgs : ∀ g ∈ gs, ∃ u, g = .fn u coords) (l : List Eqn) (hform : EvolutionForm gs l)
    (hl : ∀ q ∈ l, Neat (Syms coords) F q.2 ∧ Po q.2 0 ∧ exAtoms q.2 = []) : ∃ eqs, PDE.ofEqns l = some eqs ∧
      eqs.map (fun e => some e.lhs.base) = gs.map PDE.ofEx ∧
      (∀ e ∈ eqs, (∃ u, e.lhs = .deriv (.fn u coords) [(time, 1)]) ∧ Spec.PDE.Supported (coords.map (.sym .plain)) e.rhs ∧
        ∀ f ∈ e.rhs.functions, ∃ u args, f = .fn u args ∧ F u args ∧ omega ∉ args) := by
  induction l generalizing gs with
  | nil =>
    have : gs = [] := by simpa using hform.1.symm
    subst this
    exact ⟨[], rfl, rfl, by simp⟩
  | cons q l ih =>
    match gs, hform with
    | [], hform => cases hform.1
    | g :: gs, hform =>
      have h1 := hform.1
      rw [List.map_cons, List.map_cons, List.cons.injEq] at h1
      obtain ⟨eqs, e1, e2, e3⟩ := ih gs (fun g hg => hgs g (by simp [hg])) ⟨h1.2, fun q hq => hform.2 q (by simp [hq])⟩ (fun q hq => hl q (by simp [hq]))
      obtain ⟨u, rfl⟩ := hgs g (by simp)
      obtain ⟨n0, p0, x0⟩ := hl q (by simp)
      obtain ⟨sy, s1, s2, s3⟩ := supported_of q.2 n0 (le_refl 0) p0 x0 (hform.2 q (by simp))
      refine ⟨⟨.deriv (.fn u coords) [(time, 1)], sy⟩ :: eqs, ?_, ?_, fun e he => ?_⟩
      · unfold PDE.ofEqns at e1 ⊢
        rw [List.mapM_cons, e1, h1.1, s1]
        rfl
      · rw [List.map_cons, List.map_cons, e2]
        rfl
      · rcases List.mem_cons.1 he with rfl | he
        · exact ⟨⟨u, rfl⟩, s2, s3⟩
        · exact e3 e he

/-- The system is built. -/
theorem build_of (iter : List PDE.Sy → List PDE.Sy) (hi : ∀ l, (iter l).Perm l) (hc : coords.head? = some time) {F : Str → List Str → Prop}
    (hF : ∀ u args, F u args → omega ∉ args → args ≠ []) (eqs : List PDE.Equation) (hne : eqs ≠ [])
    (h : ∀ e ∈ eqs, (∃ u, e.lhs = .deriv (.fn u coords) [(time, 1)]) ∧ Spec.PDE.Supported (coords.map (.sym .plain)) e.rhs ∧
        ∀ f ∈ e.rhs.functions, ∃ u args, f = .fn u args ∧ F u args ∧ omega ∉ args) :
    ∃ s, PDE.System.build iter eqs = .ok s ∧ s.prognostic = eqs.map (fun e => e.lhs.base) ∧ s.coordinates = coords.map (.sym .plain) ∧
      (∀ f, f ∈ s.constantFunctions ∨ f ∈ s.exogenous → ∃ u args, f = .fn u args ∧ F u args ∧ omega ∉ args ∧ f ∉ s.prognostic) := by
  have hsingle : ∀ e ∈ eqs, e.derivatives.filter PDE.Sy.timeFirst = [e.lhs] := by
    intro e he
    obtain ⟨⟨u, hlhs⟩, hrhs, -⟩ := h e he
    refine (Props.eq_singleton_iff _ _ ((List.nodup_dedup _).filter _)).2 ⟨?_, ?_⟩
    · simp only [List.mem_filter, List.mem_dedup, List.mem_append]
      rw [hlhs]
      exact ⟨.inl (by simp [PDE.Sy.derivatives]), rfl⟩
    · intro d hd
      simp only [List.mem_filter, List.mem_dedup, List.mem_append] at hd
      obtain ⟨hd | hd, ht⟩ := hd
      · rw [hlhs] at hd ⊢
        simpa [PDE.Sy.derivatives] using hd
      · obtain ⟨u', args', vars', rfl, -, -, h6, -⟩ := Props.supported_deriv hrhs hd
        match vars', ht with
        | (x, n) :: vars', ht => exact absurd (of_decide_eq_true ht) (h6 (x, n) List.mem_cons_self).2
  have hprog : PDE.prognosticOf iter eqs = eqs.map (fun e => e.lhs.base) := by
    unfold PDE.prognosticOf
    clear hne
    induction eqs with
    | nil => rfl
    | cons e eqs ih =>
      rw [List.flatMap_cons, ih (fun e he => h e (by simp [he])) (fun e he => hsingle e (by simp [he]))]
      have := (hi e.derivatives).filter PDE.Sy.timeFirst
      rw [hsingle e (by simp), List.perm_singleton] at this
      rw [this]
      rfl
  have hcoord : PDE.coordinatesOf (PDE.prognosticOf iter eqs) = coords.map (.sym .plain) := by
    rw [hprog]
    cases eqs with
    | nil => exact absurd rfl hne
    | cons e eqs =>
      obtain ⟨⟨u, hlhs⟩, -⟩ := h e (by simp)
      have hcl : 0 < coords.length := by
        match coords, hc with
        | c :: cs, _ => simp
      rw [List.map_cons, PDE.coordinatesOf, List.foldl_cons, hlhs]
      have e0 : (if ([] : List PDE.Sy).length < (PDE.Sy.deriv (.fn u coords) [(time, 1)]).base.args.length
          then (PDE.Sy.deriv (.fn u coords) [(time, 1)]).base.args else []) = coords.map (.sym .plain) := by
        rw [if_pos (by simpa [PDE.Sy.base, PDE.Sy.args] using hcl)]
        rfl
      rw [e0]
      have h' : ∀ e ∈ eqs, ∃ u, e.lhs = .deriv (.fn u coords) [(time, 1)] := fun e he => (h e (by simp [he])).1
      clear h hsingle hprog
      induction eqs with
      | nil => rfl
      | cons e' eqs ih =>
        obtain ⟨u', hlhs'⟩ := h' e' (by simp)
        rw [List.map_cons, List.foldl_cons, hlhs']
        have : (if (coords.map (PDE.Sy.sym .plain)).length < (PDE.Sy.deriv (.fn u' coords) [(time, 1)]).base.args.length
          then (PDE.Sy.deriv (.fn u' coords) [(time, 1)]).base.args else coords.map (PDE.Sy.sym .plain)) = coords.map (.sym .plain) := by
          rw [if_neg (by simp [PDE.Sy.base, PDE.Sy.args])]
        rw [this]
        exact ih (by simp) (fun e he => h' e (by simp [he]))
  -- the functions
  have hfun : ∀ f ∈ (PDE.functionsOf eqs).filter (· ∉ PDE.prognosticOf iter eqs),
      ∃ u args, f = .fn u args ∧ F u args ∧ omega ∉ args ∧ f ∉ PDE.prognosticOf iter eqs := by
    intro f hf
    obtain ⟨hf, hnp⟩ := List.mem_filter.1 hf
    simp only [decide_eq_true_eq] at hnp
    obtain ⟨e, he, hf⟩ := List.mem_flatMap.1 (List.mem_dedup.1 hf)
    rcases List.mem_append.1 hf with hf | hf
    · exfalso
      apply hnp
      rw [hprog]
      refine List.mem_map.2 ⟨e, he, ?_⟩
      obtain ⟨⟨u, hlhs⟩, -⟩ := h e he
      rw [hlhs] at hf ⊢
      simp only [PDE.Sy.functions, List.mem_singleton] at hf
      exact hf.symm
    · obtain ⟨u, args, h1, h2, h3⟩ := (h e he).2.2 f hf
      exact ⟨u, args, h1, h2, h3, hnp⟩
  match hcl : PDE.constantLoop ((PDE.functionsOf eqs).filter (· ∉ PDE.prognosticOf iter eqs)) with
  | .error er =>
    obtain ⟨-, f, hf, h0⟩ := (Props.constantLoop_error _ _).1 hcl
    obtain ⟨u, args, rfl, h2, h3, -⟩ := hfun f hf
    simp only [PDE.Sy.args, List.map_eq_nil_iff] at h0
    exact absurd h0 (hF u args h2 h3)
  | .ok c =>
    match coords, hc with
    | c0 :: cs, hc =>
      simp only [List.head?_cons, Option.some.injEq] at hc
      subst hc
      have hb : ∃ s, PDE.System.build iter eqs = .ok s := by
        simp only [PDE.System.build, bind, Except.bind, hcl, hcoord]
        rw [List.map_cons]
        exact ⟨_, if_pos rfl⟩
      obtain ⟨s, hs⟩ := hb
      obtain ⟨c', hc', -, -, h2, h3, h4, h5, -⟩ := Props.build_ok iter eqs s hs
      rw [hcl] at hc'
      cases hc'
      refine ⟨s, hs, h2.trans hprog, h5.trans hcoord, fun f hf => ?_⟩
      rw [h2]
      apply hfun f
      rcases hf with hf | hf
      · rw [h3, (hi _).mem_iff] at hf
        exact ((Props.constantLoop_ok _ _ hcl f).1 hf).1
      · rw [h4, (hi _).mem_iff] at hf
        exact (List.mem_filter.1 hf).1

/-! ## The equations of the complete systems -/

theorem applyClosure_mem (user : Dict Ex Ex) (s : List Eqn) (q : Eqn) (hq : q ∈ K.applyClosure user s) : ∃ q' ∈ s, q.2 = closeBy K user q'.2 := by
  unfold applyClosure at hq
  split at hq
  · rename_i e
    exact ⟨q, hq, by rw [closeBy, if_pos e]⟩
  · rename_i e
    obtain ⟨q', hq', rfl⟩ := List.mem_map.1 hq
    exact ⟨q', hq', by rw [closeBy, if_neg e]; rfl⟩

section
variable (h : EvolutionSystem K coords) (hp : ParameterFree K) (hG : Generates K coords user) (hu : UserClosure user)
  (r : List (Eqn × Eqn)) (hr : K.reynolds = .ok r)
include h hp hG hu hr

/-- The four systems after the closure of the user. -/
theorem closed_systems (hcov : Covered K user) (ms vs gs : List Eqn) (cs : Option (List Eqn)) (hms : K.expectationSystem = .ok ms)
    (hvs : K.varianceSystem = .ok vs) (hcs : K.crossSystem = .ok cs) (hgs : K.metricSystem = .ok gs) (s : List Eqn)
    (hs : ∀ q ∈ s, q ∈ ms ++ vs ++ cs.getD [] ++ gs) (q : Eqn) (hq : q ∈ K.applyClosure user s) :
    Closed K coords (Fns K coords user Field.metric) q.2 := by
  obtain ⟨q', hq', e⟩ := applyClosure_mem user s q hq
  obtain ⟨n0, p0, x0⟩ := four_systems h hp hG r hr ms vs gs cs hms hvs hcs hgs q' (hs q' hq')
  obtain ⟨n1, p1, x1⟩ := closed_by (B := Mean K) h hu hG (fns_user hG) q'.2 n0 p0 (fun t ht => ⟨x0 t ht, by
    obtain ⟨⟨a, rfl⟩, hw⟩ := (mem_exAtoms _ _).1 ht
    rcases hcov ms vs cs gs hms hvs hcs hgs q' (hs q' hq') a hw with ⟨f, hf, rfl⟩ | h1
    · exact .inl ⟨f, hf, rfl⟩
    · exact .inr h1⟩)
  rw [e]
  exact ⟨n1, p1, x1⟩

theorem metric_content (hclosed : K.unclosedTerms user = .ok []) (l : List Eqn) (hl : K.inMetric user = .ok l) (q : Eqn) (hq : q ∈ l) :
    Neat (Syms coords) (Fns K coords user Field.metric) q.2 ∧ Po q.2 0 ∧ exAtoms q.2 = [] := by
  obtain ⟨ms, hms⟩ := h.det.expectation_ok r hr
  obtain ⟨vs, hvs, -⟩ := h.det.variance_ok r hr
  obtain ⟨gs, hgs, -⟩ := h.det.metric_ok r hr
  obtain ⟨cs, hcs⟩ := h.det.cross_ok r hr
  have hc := (C56_closed K user l hl).1 hclosed q hq
  obtain ⟨q', hq', e⟩ := inMetric_mem user ms vs gs cs hms hvs hcs hgs l hl q hq
  obtain ⟨n0, p0, x0⟩ := four_systems h hp hG r hr ms vs gs cs hms hvs hcs hgs q' hq'
  obtain ⟨n1, p1, x1⟩ := closed_by (B := fun _ => True) h hu hG (fns_user hG) q'.2 n0 p0 (fun t ht => ⟨x0 t ht, .inl trivial⟩)
  obtain ⟨n2, p2⟩ := clean_by h (fun f hf => (fns_covers h hG).value f hf) _ n1 p1
  have x2 := clean_left (P := fun t => ¬ Mean K t) h _ (fun t ht => ⟨(x1 t ht).1, em _⟩)
  have e' : q.2 = K.subs K.cleanDict (closeBy K user q'.2) := e
  rw [e'] at hc ⊢
  refine ⟨n2, p2, List.eq_nil_iff_forall_not_mem.2 (fun t ht => x2 t ht ?_)⟩
  obtain ⟨⟨a, rfl⟩, hw⟩ := (mem_exAtoms _ _).1 ht
  obtain ⟨f, hf, rfl⟩ := hc a hw
  exact ⟨f, hf, rfl⟩

theorem clean_content {T : Field → ℕ → ℕ → Ex} (e : Ex) (he : Closed K coords (Fns K coords user T) e) :
    Neat (Syms coords) (Fns K coords user T) (K.subs K.cleanDict e) ∧ Po (K.subs K.cleanDict e) 0 ∧ exAtoms (K.subs K.cleanDict e) = [] := by
  obtain ⟨n2, p2⟩ := clean_by h (fun f hf => .inr (.inl (List.mem_append_left _ (List.mem_append_left _ (List.mem_append_left _ (List.mem_map_of_mem hf)))))) _
    he.neat he.po
  have x2 := clean_left (P := fun _ => False) h e (fun t ht => ⟨(he.exs t ht).1, .inl (he.exs t ht).2⟩)
  exact ⟨n2, p2, List.eq_nil_iff_forall_not_mem.2 x2⟩

theorem metric_closed_form (gs : List Eqn) (hgs : K.metricSystem = .ok gs) : EvolutionForm (metrics K) (K.applyClosure user gs) := by
  obtain ⟨_, _, _, gs', -, -, -, hgs', -, -, -, e4⟩ := h.closed_forms r hr user hu
  rw [hgs] at hgs'
  cases hgs'
  exact e4

theorem aspect_content (hcov : Covered K user) (l : List Eqn) (hl : K.inAspect user = .ok l) (q : Eqn) (hq : q ∈ l) :
    Neat (Syms coords) (Fns K coords user Field.aspect) q.2 ∧ Po q.2 0 ∧ exAtoms q.2 = [] := by
  obtain ⟨ms, hms⟩ := h.det.expectation_ok r hr
  obtain ⟨vs, hvs, -⟩ := h.det.variance_ok r hr
  obtain ⟨gs, hgs, -⟩ := h.det.metric_ok r hr
  obtain ⟨cs, hcs⟩ := h.det.cross_ok r hr
  have hC := closed_systems h hp hG hu r hr hcov ms vs gs cs hms hvs hcs hgs
  unfold inAspect at hl
  simp only [hms, hvs, hcs, hgs, bind, Except.bind, pure, Except.pure] at hl
  cases hl
  obtain ⟨q1, hq1, rfl⟩ := List.mem_map.1 hq
  refine clean_content h hp hG hu r hr q1.2 ?_
  rcases List.mem_append.1 hq1 with hq1 | hq1
  · obtain ⟨s, hs, hq1⟩ := List.mem_flatMap.1 hq1
    obtain ⟨q2, hq2, rfl⟩ := List.mem_map.1 hq1
    refine closed_change h (aspect_change h) q2.2 (hC s (fun q0 hq0 => ?_) q2 hq2)
    rcases List.mem_append.1 hs with hs | hs
    · simp only [List.mem_cons, List.not_mem_nil, or_false] at hs
      rcases hs with e | e <;> rw [e] at hq0 <;> simp [hq0]
    · cases cs with
      | none => cases hs
      | some c =>
        simp only [Option.toList_some, List.mem_singleton] at hs
        rw [hs] at hq0
        simp [hq0]
  · obtain ⟨f, hf, hq1⟩ := List.mem_flatMap.1 hq1
    exact closed_tensor h (fun f i j => by rw [indexCode_symm]) (fun _ _ _ => ⟨_, rfl⟩) (aspect_change h) (-1) _
      (metric_closed_form h hp hG hu r hr gs hgs) (hC gs (fun q hq => List.mem_append_right _ hq)) f hf q1 hq1

theorem diffusion_content (hcov : Covered K user) (l : List Eqn) (hl : K.inDiffusion user = .ok l) (q : Eqn) (hq : q ∈ l) :
    Neat (Syms coords) (Fns K coords user Field.diffusion) q.2 ∧ Po q.2 0 ∧ exAtoms q.2 = [] := by
  obtain ⟨ms, hms⟩ := h.det.expectation_ok r hr
  obtain ⟨vs, hvs, -⟩ := h.det.variance_ok r hr
  obtain ⟨gs, hgs, -⟩ := h.det.metric_ok r hr
  obtain ⟨cs, hcs⟩ := h.det.cross_ok r hr
  have hC := closed_systems h hp hG hu r hr hcov ms vs gs cs hms hvs hcs hgs
  unfold inDiffusion at hl
  simp only [hms, hvs, hgs, bind, Except.bind, pure, Except.pure] at hl
  cases hl
  obtain ⟨q1, hq1, rfl⟩ := List.mem_map.1 hq
  refine clean_content h hp hG hu r hr q1.2 ?_
  rcases List.mem_append.1 hq1 with hq1 | hq1
  · obtain ⟨s, hs, hq1⟩ := List.mem_flatMap.1 hq1
    obtain ⟨q2, hq2, rfl⟩ := List.mem_map.1 hq1
    refine closed_change h (diffusion_change h) q2.2 (hC s (fun q0 hq0 => ?_) q2 hq2)
    simp only [List.mem_cons, List.not_mem_nil, or_false] at hs
    rcases hs with e | e <;> rw [e] at hq0 <;> simp [hq0]
  · obtain ⟨f, hf, hq1⟩ := List.mem_flatMap.1 hq1
    exact closed_tensor h (fun f i j => by rw [indexCode_symm]) (fun _ _ _ => ⟨_, rfl⟩) (diffusion_change h) (-2) _
      (metric_closed_form h hp hG hu r hr gs hgs) (hC gs (fun q hq => List.mem_append_right _ hq)) f hf q1 hq1

end

end Sympkf.Spec
