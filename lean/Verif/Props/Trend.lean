import Verif.Props.Builder
import Verif.Lemmas.Builder

/-!
# Properties of the generated trend

C64.
-/

set_option autoImplicit false

namespace Sympkf.Props

open Text PDE Spec.PDE

/-! ## Expressions for which the code is meant -/

theorem supported_deriv {c : List Sy} {e : Sy} (he : Supported c e) {d : Sy} (hd : d ∈ e.derivatives) :
    ∃ u args vars, d = .deriv (.fn u args) vars ∧ vars ≠ [] ∧ (vars.map Prod.fst).Nodup ∧
      (∀ v ∈ vars, 0 < v.2 ∧ v.1 ≠ "t".toList) ∧ Sy.fn u args ∈ e.functions := by
  induction he with
  | num q => simp [Sy.derivatives] at hd
  | sym n _ => simp [Sy.derivatives] at hd
  | fn u args => simp [Sy.derivatives] at hd
  | add _ _ iha ihb =>
    rcases List.mem_append.1 hd with hd | hd
    · obtain ⟨u, args, vars, h, h1, h2, h3, h4⟩ := iha hd
      exact ⟨u, args, vars, h, h1, h2, h3, List.mem_append_left _ h4⟩
    · obtain ⟨u, args, vars, h, h1, h2, h3, h4⟩ := ihb hd
      exact ⟨u, args, vars, h, h1, h2, h3, List.mem_append_right _ h4⟩
  | mul _ _ iha ihb =>
    rcases List.mem_append.1 hd with hd | hd
    · obtain ⟨u, args, vars, h, h1, h2, h3, h4⟩ := iha hd
      exact ⟨u, args, vars, h, h1, h2, h3, List.mem_append_left _ h4⟩
    · obtain ⟨u, args, vars, h, h1, h2, h3, h4⟩ := ihb hd
      exact ⟨u, args, vars, h, h1, h2, h3, List.mem_append_right _ h4⟩
  | pow _ _ iha ihb =>
    rcases List.mem_append.1 hd with hd | hd
    · obtain ⟨u, args, vars, h, h1, h2, h3, h4⟩ := iha hd
      exact ⟨u, args, vars, h, h1, h2, h3, List.mem_append_left _ h4⟩
    · obtain ⟨u, args, vars, h, h1, h2, h3, h4⟩ := ihb hd
      exact ⟨u, args, vars, h, h1, h2, h3, List.mem_append_right _ h4⟩
  | deriv u args vars h1 h2 h3 =>
    simp only [Sy.derivatives, List.mem_singleton] at hd
    exact ⟨u, args, vars, hd, h1, h2, h3, by simp [Sy.functions]⟩

theorem supported_fn {c : List Sy} {e : Sy} (he : Supported c e) {f : Sy} (hf : f ∈ e.functions) : ∃ u args, f = .fn u args := by
  induction he with
  | num q => simp [Sy.functions] at hf
  | sym n _ => simp [Sy.functions] at hf
  | fn u args => exact ⟨u, args, by simpa [Sy.functions] using hf⟩
  | add _ _ iha ihb => exact (List.mem_append.1 hf).elim iha ihb
  | mul _ _ iha ihb => exact (List.mem_append.1 hf).elim iha ihb
  | pow _ _ iha ihb => exact (List.mem_append.1 hf).elim iha ihb
  | deriv u args vars h1 h2 h3 => exact ⟨u, args, by simpa [Sy.functions] using hf⟩

theorem supported_sym {c : List Sy} {e : Sy} (he : Supported c e) {k : Kind} {n : Str} (h : (k, n) ∈ e.symbols) : k = .plain := by
  induction he with
  | num q => simp [Sy.symbols] at h
  | sym n _ => simp only [Sy.symbols, List.mem_singleton, Prod.mk.injEq] at h; exact h.1
  | fn u args => simp only [Sy.symbols, List.mem_map, Prod.mk.injEq] at h; obtain ⟨_, _, h, _⟩ := h; exact h.symm
  | add _ _ iha ihb => exact (List.mem_append.1 h).elim iha ihb
  | mul _ _ iha ihb => exact (List.mem_append.1 h).elim iha ihb
  | pow _ _ iha ihb => exact (List.mem_append.1 h).elim iha ihb
  | deriv u args vars h1 h2 h3 =>
    simp only [Sy.symbols, List.mem_append, List.mem_map, Prod.mk.injEq] at h
    obtain ⟨_, _, h, _⟩ | ⟨_, _, h, _⟩ := h <;> exact h.symm

/-! ## The slots -/

/-- C64: function `k` of the state is the function whose trend is given by equation `k`. -/
theorem C64_slots (iter : List Sy → List Sy) (hi : ∀ l, (iter l).Perm l) (eqs : List Equation) (s : System)
    (h : System.build iter eqs = .ok s) (he : Evolves s.coordinates eqs) :
    s.prognostic.map (fun f => Sy.deriv f [("t".toList, 1)]) = eqs.map (fun e => e.lhs) := by
  obtain ⟨c, -, -, -, h2, -⟩ := build_ok iter eqs s h
  rw [h2, prognosticOf]
  have key : ∀ l : List Equation, (∀ e ∈ l, e ∈ eqs) →
      (l.flatMap (fun e => ((iter e.derivatives).filter Sy.timeFirst).map Sy.base)).map
        (fun f => Sy.deriv f [("t".toList, 1)]) = l.map (fun e => e.lhs) := by
    intro l
    induction l with
    | nil => intro _; rfl
    | cons e l ih =>
      intro hl
      rw [List.flatMap_cons, List.map_append, ih (fun e' he' => hl e' (List.mem_cons_of_mem _ he'))]
      have hee := hl e List.mem_cons_self
      obtain ⟨u, args, hlhs⟩ := he.lhs e hee
      have hf : (iter e.derivatives).filter Sy.timeFirst = [e.lhs] := by
        have hn : (iter e.derivatives).Nodup := (hi _).nodup_iff.2 (List.nodup_dedup _)
        rw [eq_singleton_iff _ _ (hn.filter _)]
        simp only [List.mem_filter, (hi _).mem_iff, mem_eq_derivatives]
        refine ⟨⟨⟨⟨_, _, hlhs⟩, .inl .refl⟩, by rw [hlhs]; rfl⟩, ?_⟩
        rintro d ⟨⟨⟨a, vars, rfl⟩, hd | hd⟩, ht⟩
        · rw [hlhs] at hd
          have := (mem_derivatives_iff _ _).2 ⟨⟨_, _, rfl⟩, hd⟩
          simp only [Sy.derivatives, List.mem_singleton] at this
          rw [hlhs, this]
        · obtain ⟨u', args', vars', h5, -, -, h6, -⟩ :=
            supported_deriv (he.rhs e hee) ((mem_derivatives_iff _ _).2 ⟨⟨_, _, rfl⟩, hd⟩)
          rw [h5] at ht
          match vars', ht with
          | (x, n) :: vars', ht =>
            exact absurd (of_decide_eq_true ht) (h6 (x, n) List.mem_cons_self).2
      rw [hf, hlhs]
      simp [Sy.base, hlhs]
  exact key eqs (fun _ h => h)

/-! ## The lines -/

theorem getItem_names (l : List Sy) (d : Dict Sy Str) (f : Sy) (h : f ∈ l) :
    Dict.getItem (l.foldl (fun (d : Dict Sy Str) f => d.set f f.trendName) d) f = .ok f.trendName := by
  rw [Dict.getItem_eq_ok]
  have key : ∀ (l : List Sy) (d : Dict Sy Str), (f ∈ l ∨ d.get? f = some f.trendName) →
      (l.foldl (fun (d : Dict Sy Str) f => d.set f f.trendName) d).get? f = some f.trendName := by
    intro l
    induction l with
    | nil => intro d h; simpa using h
    | cons g l ih =>
      intro d h
      rw [List.foldl_cons]
      refine ih _ ?_
      rw [Dict.get?_set]
      by_cases hg : g = f
      · subst hg; exact .inr (by rw [if_pos rfl])
      · rw [if_neg hg]
        rcases h with h | h
        · rcases List.mem_cons.1 h with h | h
          · exact absurd h.symm hg
          · exact .inl h
        · exact .inr h
  exact key l d (.inl h)

theorem mapM_eq_map {α β : Type} (f : α → Except PyErr β) (g : α → β) (l : List α) (h : ∀ a ∈ l, f a = .ok (g a)) :
    l.mapM f = .ok (l.map g) := by
  induction l with
  | nil => rfl
  | cons a l ih =>
    rw [List.mapM_cons, h a List.mem_cons_self, ih (fun a ha => h a (List.mem_cons_of_mem _ ha))]
    rfl

theorem le_foldl_max (l : List Sy) (m : ℕ) : m ≤ l.foldl (fun m d => max m d.count) m ∧
    ∀ d ∈ l, d.count ≤ l.foldl (fun m d => max m d.count) m := by
  induction l generalizing m with
  | nil => simp
  | cons a l ih =>
    rw [List.foldl_cons]
    obtain ⟨h1, h2⟩ := ih (max m a.count)
    refine ⟨(le_max_left _ _).trans h1, ?_⟩
    intro d hd
    rcases List.mem_cons.1 hd with rfl | hd
    · exact (le_max_right _ _).trans h1
    · exact h2 d hd

/-- The lines of the trend. -/
theorem trendCode_eq (iter : List Sy → List Sy) (hi : ∀ l, (iter l).Perm l) (eqs : List Equation) (s : System)
    (h : System.build iter eqs = .ok s) (he : Evolves s.coordinates eqs) :
    s.trendCode = .ok (eqs.map (fun e => (e.lhs.base.trendName, tr e.rhs.derivatives e.rhs.functions s.constants e.rhs))) := by
  have hslots := C64_slots iter hi eqs s h he
  have hcon := C63_constants iter hi eqs s h
  obtain ⟨c, -, h0, h1, h2, -, -, -, -, -, -, h10, h11⟩ := build_ok iter eqs s h
  have hpseudo : s.pseudo = .ok (eqs.map (fun e => ⟨e.lhs, tr e.rhs.derivatives e.rhs.functions s.constants e.rhs⟩)) := by
    rw [System.pseudo, h0]
    refine mapM_eq_map _ _ _ (fun e hee => ?_)
    obtain ⟨u, args, hlhs⟩ := he.lhs e hee
    have hs := he.rhs e hee
    have ht : e.lhsIsTrend = true := by
      rw [lhsIsTrend_iff]
      refine ⟨⟨_, _, hlhs⟩, ?_⟩
      rintro f vars (hd | hd)
      · rw [hlhs] at hd ⊢
        have := (mem_derivatives_iff _ _).2 ⟨⟨_, _, rfl⟩, hd⟩
        simpa only [Sy.derivatives, List.mem_singleton] using this
      · obtain ⟨u', args', vars', h5, -, -, h6, -⟩ := supported_deriv hs ((mem_derivatives_iff _ _).2 ⟨⟨_, _, rfl⟩, hd⟩)
        injection h5 with _ h5
        exact absurd rfl (h6 ("t".toList, 1) (by rw [← h5]; exact List.mem_cons_self)).2
    rw [if_pos ht, pseudo_rhs s hs]
    · intro d hd
      rw [h10, (hi _).mem_iff, List.mem_dedup] at hd
      obtain ⟨e', he', hd⟩ := List.mem_flatMap.1 hd
      obtain ⟨u', args', vars', h5, -⟩ := supported_deriv (he.rhs e' he') hd
      exact ⟨_, _, h5⟩
    · intro d hd
      have hmem : d ∈ (eqs.flatMap (fun e => e.rhs.derivatives)).dedup :=
        List.mem_dedup.2 (List.mem_flatMap.2 ⟨e, hee, hd⟩)
      obtain ⟨u', args', vars', rfl, h6, h7, h8, -⟩ := supported_deriv hs hd
      have ho : (metaDerivative (.deriv (.fn u' args') vars')).order = (vars'.map (·.2)).sum := Util.C72_total_order vars' h7
      refine ⟨by rw [h10, (hi _).mem_iff]; exact hmem, ?_, ?_⟩
      · rw [ho]
        match vars', h6, h8 with
        | v :: vars', _, h8 =>
          have := (h8 v List.mem_cons_self).1
          simp only [List.map_cons, List.sum_cons]; omega
      · rw [ho, h11]
        exact (le_foldl_max _ 0).2 _ hmem
    · intro f hf
      rw [h1, (hi _).mem_iff, mem_functionsOf] at hf
      obtain ⟨hf, e', he', hf' | hf'⟩ := hf
      · obtain ⟨u', args', hlhs'⟩ := he.lhs e' he'
        have := (mem_functions_iff f _).2 ⟨hf, hf'⟩
        rw [hlhs'] at this
        exact ⟨u', args', by simpa [Sy.functions] using this⟩
      · exact supported_fn (he.rhs e' he') ((mem_functions_iff f _).2 ⟨hf, hf'⟩)
    · intro f hf
      obtain ⟨h6, h7⟩ := (mem_functions_iff f _).1 hf
      rw [h1, (hi _).mem_iff, mem_functionsOf]
      exact ⟨h6, e, hee, .inr h7⟩
    · intro a ha
      obtain ⟨k, n, rfl, -, -, e', he', ho⟩ := (hcon a).1 ha
      obtain rfl := supported_sym (he.rhs e' he') ((mem_symbols_iff k n _).2 ho)
      exact ⟨n, rfl⟩
  simp only [System.trendCode, bind, Except.bind, hpseudo, pure, Except.pure]
  rw [mapM_eq_map _ (fun e => (e.lhs.base.trendName, e.rhs))]
  · simp
  · intro e' he'
    obtain ⟨e, hee, rfl⟩ := List.mem_map.1 he'
    have : e.lhs.base ∈ s.prognostic := by
      have hm : e.lhs ∈ s.prognostic.map (fun f => Sy.deriv f [("t".toList, 1)]) := by
        rw [hslots]; exact List.mem_map_of_mem hee
      obtain ⟨f, hf, hfe⟩ := List.mem_map.1 hm
      rw [← hfe]; exact hf
    simp only [getItem_names _ _ _ this]

/-! ## C64 -/

/-- The local names assigned by the generated trend. -/
def localNames (s : System) : List Str :=
  "t".toList :: (s.prognostic.map Sy.trendName ++ s.prognostic.map Sy.keyvar ++ s.constantFunctions.map Sy.keyvar ++
    s.constants.map Sy.symName ++ s.exogenous.map Sy.keyvar ++ s.spatialDerivatives.map (fun d => (metaDerivative d).keyvar))

/-- The local names are distinct identifiers, and none is another name of the method. -/
def WellNamed (s : System) : Prop :=
  (localNames s).Nodup ∧ ∀ n ∈ localNames s, Identifier n ∧ n ∉ ["self", "np", "state", "dstate", "exogenous"].map String.toList

instance (c : Char) : Decidable (Letter c) := inferInstanceAs (Decidable (_ ∨ _))

instance (s : Str) : Decidable (Reserved s) := inferInstanceAs (Decidable (_ ∈ _))

instance (s : Str) : Decidable (Identifier s) :=
  match s with
  | [] => .isFalse id
  | _ :: _ => inferInstanceAs (Decidable (_ ∧ _))

instance (s : System) : Decidable (WellNamed s) := inferInstanceAs (Decidable (_ ∧ _))

instance decidableRoots : (e : Sy) → Decidable (SquareRootFree e)
  | .num _ | .sym _ _ | .fn _ _ => .isTrue trivial
  | .func _ a => decidableRoots a
  | .add a b => @instDecidableAnd _ _ (decidableRoots a) (decidableRoots b)
  | .mul a b => @instDecidableAnd _ _ (decidableRoots a) (decidableRoots b)
  | .pow a b => @instDecidableAnd _ _ inferInstance (@instDecidableAnd _ _ inferInstance
      (@instDecidableAnd _ _ (decidableRoots a) (decidableRoots b)))
  | .deriv a _ => decidableRoots a

theorem letter_iff (c : Char) : (c.isAlpha || c == '_') = true ↔ Letter c := by
  simp only [Char.isAlpha, Char.isUpper, Char.isLower, Letter, Bool.or_eq_true, beq_iff_eq, Bool.and_eq_true, decide_eq_true_eq, Char.le_def]
  tauto

theorem isName_iff (n : Str) : isName n = true ↔ Identifier n := by
  cases n with
  | nil => simp [isName, Identifier]
  | cons c cs =>
    have hd : ∀ d : Char, (d.isAlphanum || d == '_') = true ↔ Letter d ∨ ('0' ≤ d ∧ d ≤ '9') := by
      intro d
      rw [← letter_iff]
      simp only [Char.isAlphanum, Char.isDigit, Bool.or_eq_true, beq_iff_eq, decide_eq_true_eq, Bool.and_eq_true, Char.le_def]
      tauto
    simp only [isName, Identifier, Bool.and_eq_true, letter_iff, List.all_eq_true, hd, decide_eq_true_eq, and_assoc]
    exact Iff.rfl

theorem assigned_ok {s : System} (h : ∀ n ∈ localNames s, Identifier n) : s.assigned.all isName = true := by
  rw [List.all_eq_true]
  exact fun n hn => (isName_iff n).2 (h n (List.mem_cons_of_mem _ hn))

theorem trend_named {R : Type} {s : System} (h : s.assigned.all isName = true) (A : Arith R) (O : Obj R) (time : R) (state : List R) :
    s.trend A O time state = (do s.execute (← s.trendCode) A O time state) := by
  simp only [System.trend, h, if_true]

theorem trend_misnamed {R : Type} {s : System} {lines : List (Str × Sy)} (hl : s.trendCode = .ok lines) (h : s.assigned.all isName = false)
    (A : Arith R) (O : Obj R) (time : R) (state : List R) : s.trend A O time state = .error .syntaxError := by
  simp only [System.trend, hl, h, bind, Except.bind, Bool.false_eq_true, if_false]

theorem ok_of_bind {ε α β : Type} {x : Except ε α} {f : α → Except ε β} {b : β} (h : Bind.bind x f = .ok b) : ∃ a, x = .ok a ∧ f a = .ok b := by
  match x, h with
  | .ok a, h => exact ⟨a, rfl, h⟩

theorem eval_root {R : Type} (A : Arith R) (m : Mem R) {SD SF SC c : List Sy} {e : Sy} (he : Supported c e) (hr : ¬ SquareRootFree e) :
    ∃ err, m.eval A (tr SD SF SC e) = .error err := by
  have two : ∀ {x y : Except PyErr R} (f : R → R → R), (∃ err, x = .error err) ∨ (∃ err, y = .error err) →
      ∃ err, (do return f (← x) (← y) : Except PyErr R) = .error err := by
    intro x y f h
    match x, y, h with
    | .error e, _, _ => exact ⟨e, rfl⟩
    | .ok _, .error e, _ => exact ⟨e, rfl⟩
    | .ok _, .ok _, .inl ⟨_, h⟩ => cases h
    | .ok _, .ok _, .inr ⟨_, h⟩ => cases h
  induction he with
  | num q => exact absurd trivial hr
  | sym n hn => exact absurd trivial hr
  | fn u args => exact absurd trivial hr
  | add _ _ iha ihb => exact two A.add ((not_and_or.1 hr).imp iha ihb)
  | mul _ _ iha ihb => exact two A.mul ((not_and_or.1 hr).imp iha ihb)
  | @pow a b _ hb iha ihb =>
    simp only [tr, Mem.eval]
    split
    · unfold Mem.call
      split <;> exact ⟨_, rfl⟩
    · rename_i hn
      refine two A.pow ?_
      have h1 : b ≠ .num (1 / 2) := fun e => hn (.inl (by rw [e]; rfl))
      have h2 : b ≠ .num (-1 / 2) := fun e => hn (.inr (by rw [e]; rfl))
      exact (not_and_or.1 (fun h => hr ⟨h1, h2, h⟩)).imp iha ihb
  | deriv u args vars _ _ _ => exact absurd trivial hr

theorem runLines_fails {R : Type} (A : Arith R) (lines : List (Str × Sy)) (l : Str × Sy) (hl : l ∈ lines)
    (h : ∀ m : Mem R, ∃ err, m.eval A l.2 = .error err) (m m' : Mem R) : runLines A lines m ≠ .ok m' := by
  induction lines generalizing m with
  | nil => cases hl
  | cons l' lines ih =>
    intro hm
    simp only [runLines, List.foldlM_cons] at hm
    obtain ⟨m1, h1, hm⟩ := ok_of_bind hm
    rcases List.mem_cons.1 hl with rfl | hl
    · obtain ⟨r, h2, -⟩ := ok_of_bind h1
      obtain ⟨err, h⟩ := h m
      rw [h] at h2
      cases h2
    · exact ih hl m1 hm

theorem mem_zip_map {α β γ : Type} (f : α → β) (g : α → γ) (l : List α) (a : α) (h : a ∈ l) :
    (f a, g a) ∈ (l.map f).zip (l.map g) := by
  induction l with
  | nil => simp at h
  | cons b l ih =>
    rcases List.mem_cons.1 h with rfl | h
    · simp
    · exact List.mem_cons_of_mem _ (ih h)

/-- C64, for the systems of `Evolution` (polynomials and powers of symbols, functions and derivatives of functions), when the local
names are distinct: the generated trend returns, in row `k`, the value of the right-hand side of equation `k`; every derivative is
the discretised derivative of the value of its function.  The state is not modified.  What is missing: systems with equal names
(`C64_counterexample_alias`), elementary functions (`C64_counterexample_function`), coordinates and trainable scalars in the
right-hand sides (`C64_counterexample_coordinate`, `C64_counterexample_trainable`), exogenous functions when `compute_exogenous` is
not redefined (`C64_counterexample_exogenous`), square roots (`C64_square_root`) and names that are not identifiers (`C64_syntax`). -/
theorem C64_trend_partial {R : Type} (iter : List Sy → List Sy) (hi : ∀ l, (iter l).Perm l) (eqs : List Equation) (s : System)
    (h : System.build iter eqs = .ok s) (he : Evolution s.coordinates eqs) (hn : WellNamed s)
    (A : Arith R) (O : Obj R) (time : R) (state : List R) (ρ : Valuation R)
    (hstate : state = s.prognostic.map ρ.fn) (htime : ρ.sym "t".toList = time)
    (hcf : ∀ f ∈ s.constantFunctions, O.attr f.keyvar = ρ.fn f)
    (hcs : ∀ n, Sy.sym .plain n ∈ s.constants → O.attr (cleanLatexName n) = ρ.sym n)
    (hex : s.exogenous = [] ∨ O.exogenous = some (s.exogenous.map ρ.fn)) :
    ∃ m, s.trend A O time state = .ok m ∧ m.out = eqs.map (fun e => rhsValue A ρ e.rhs) ∧ m.state = state := by
  have hslots := C64_slots iter hi eqs s h he.toEvolves
  have hcode := trendCode_eq iter hi eqs s h he.toEvolves
  have hcon := C63_constants iter hi eqs s h
  have hpart := C62_partition iter hi eqs s h
  have hcoord : s.coordinates = t :: s.spatialCoordinates := (C63_coordinates iter eqs s h).2
  obtain ⟨c, -, h0, h1, h2, -, -, -, -, -, -, h10, h11⟩ := build_ok iter eqs s h
  have hlen : s.prognostic.length = state.length := by rw [hstate, List.length_map]
  have hlen' : s.prognostic.length = eqs.length := by
    have := congrArg List.length hslots
    simpa using this
  -- the list of bindings
  set L1 : Dict Str (Ref R) := ((s.prognostic.map Sy.trendName).zipIdx 0).map (fun p => (p.1, Ref.out p.2)) with hL1
  set L2 : Dict Str (Ref R) := ((s.prognostic.map Sy.keyvar).zipIdx 0).map (fun p => (p.1, Ref.state p.2)) with hL2
  set L3 : Dict Str (Ref R) := (s.constantFunctions.map Sy.keyvar).map (fun n => (n, Ref.value (O.attr n))) with hL3
  set L4 : Dict Str (Ref R) := (s.constants.map Sy.symName).map (fun n => (n, Ref.value (O.attr n))) with hL4
  set L5 : Dict Str (Ref R) := (s.exogenous.map Sy.keyvar).zip ((s.exogenous.map ρ.fn).map Ref.value) with hL5
  set L6 : Dict Str (Ref R) := (s.spatialDerivatives.map metaDerivative).map
    (fun d => (d.keyvar, Ref.value (A.diff d.orders (rhsValue A ρ d.symbolic.base)))) with hL6
  set m0 : Mem R := ⟨[("t".toList, .value time)], List.replicate state.length (A.num 0), state⟩ with hm0
  have k1 : Dict.keys L1 = s.prognostic.map Sy.trendName := by
    simp [hL1, Dict.keys, Function.comp_def]
  have k2 : Dict.keys L2 = s.prognostic.map Sy.keyvar := by
    simp [hL2, Dict.keys, Function.comp_def]
  have k3 : Dict.keys L3 = s.constantFunctions.map Sy.keyvar := by
    simp [hL3, Dict.keys, Function.comp_def]
  have k4 : Dict.keys L4 = s.constants.map Sy.symName := by
    simp [hL4, Dict.keys, Function.comp_def]
  have k5 : Dict.keys L5 = s.exogenous.map Sy.keyvar := by
    simp only [hL5, Dict.keys]
    rw [List.map_fst_zip]
    simp
  have k6 : Dict.keys L6 = s.spatialDerivatives.map (fun d => (metaDerivative d).keyvar) := by
    simp [hL6, Dict.keys, Function.comp_def]
  set L : Dict Str (Ref R) := L1 ++ L2 ++ L3 ++ L4 ++ L5 with hL
  have kL : localNames s = "t".toList :: (Dict.keys L ++ Dict.keys L6) := by
    simp only [localNames, hL, ← k1, ← k2, ← k3, ← k4, ← k5, ← k6, Dict.keys, List.map_append]
  obtain ⟨hn, hid⟩ := hn
  rw [kL] at hn
  obtain ⟨hnt, hn⟩ := List.nodup_cons.1 hn
  obtain ⟨hnL, hnL6, hdis⟩ := List.nodup_append'.1 hn
  -- what the names refer to after the functions and constants are bound
  set m5 := m0.extend L with hm5
  have get5 : ∀ k v, (k, v) ∈ L → m5.names.get? k = some v := fun k v hkv => Dict.get?_update_of_mem _ _ hnL k v hkv
  have hprog : ∀ f ∈ s.prognostic, m5.holds f.keyvar (ρ.fn f) := by
    intro f hf
    obtain ⟨k, hk, rfl⟩ := List.mem_iff_getElem.1 hf
    refine .inr ⟨k, get5 _ _ ?_, ?_⟩
    · simp only [hL, List.mem_append]
      refine .inl (.inl (.inl (.inr ?_)))
      rw [hL2, List.mem_map]
      refine ⟨(s.prognostic[k].keyvar, k), ?_, rfl⟩
      rw [List.mk_mem_zipIdx_iff_getElem?]
      simp [hk]
    · show state[k]? = _
      rw [hstate]; simp [hk]
  have hfun : ∀ f, IsFunction f → InSystem eqs f → m5.holds f.keyvar (ρ.fn f) := by
    intro f hf hin
    rcases (hpart f hf).1.1 hin with hf | hf | hf
    · exact hprog f hf
    · refine .inl (get5 _ _ ?_)
      simp only [hL, List.mem_append]
      refine .inl (.inl (.inr ?_))
      rw [hL3, List.mem_map]
      exact ⟨f.keyvar, List.mem_map_of_mem hf, by rw [hcf f hf]⟩
    · refine .inl (get5 _ _ ?_)
      simp only [hL, List.mem_append]
      refine .inr ?_
      rw [hL5, List.map_map]
      exact mem_zip_map Sy.keyvar (Ref.value ∘ ρ.fn) _ f hf
  have hsym : ∀ n, Sy.sym .plain n ∈ s.constants → m5.holds (cleanLatexName n) (ρ.sym n) := by
    intro n hnc
    refine .inl (get5 _ _ ?_)
    simp only [hL, List.mem_append]
    refine .inl (.inr ?_)
    rw [hL4, List.mem_map]
    exact ⟨cleanLatexName n, List.mem_map.2 ⟨_, hnc, rfl⟩, by rw [hcs n hnc]⟩
  have htm : m5.holds "t".toList (ρ.sym "t".toList) := by
    refine .inl ?_
    rw [hm5, htime]
    show Dict.get? (Dict.update _ L) _ = _
    rw [Dict.get?_update_of_notMem _ _ _ (fun hm => hnt (List.mem_append_left _ hm))]
    rfl
  -- the derivatives
  have hder : ∀ d ∈ s.spatialDerivatives, ∃ u args vars, d = .deriv (.fn u args) vars ∧ vars ≠ [] ∧
      (vars.map Prod.fst).Nodup ∧ InSystem eqs (.fn u args) := by
    intro d hd
    rw [h10, (hi _).mem_iff, List.mem_dedup] at hd
    obtain ⟨e, hee, hd⟩ := List.mem_flatMap.1 hd
    obtain ⟨u, args, vars, hd, h6, h7, -, h8⟩ := supported_deriv (he.rhs e hee) hd
    exact ⟨u, args, vars, hd, h6, h7, e, hee, .inr ((mem_functions_iff _ _).1 h8).2⟩
  set m6 := m5.extend L6 with hm6
  have hbind : bindDerivatives A (s.spatialDerivatives.map metaDerivative) m5 = .ok m6 := by
    refine bindDerivatives_eq A m5 (fun d => rhsValue A ρ d.symbolic.base) _ ?_ ?_
    · intro d hd
      obtain ⟨d, hds, rfl⟩ := List.mem_map.1 hd
      obtain ⟨u, args, vars, rfl, -, -, hin⟩ := hder d hds
      exact hfun _ trivial hin
    · intro d hd d' hd'
      obtain ⟨d, hds, rfl⟩ := List.mem_map.1 hd
      obtain ⟨d', hds', rfl⟩ := List.mem_map.1 hd'
      obtain ⟨u, args, vars, rfl, -, -, hin⟩ := hder d hds
      intro heq
      have hk : (Sy.fn u args).keyvar ∈ Dict.keys L := by
        have : (Sy.fn u args).keyvar ∈ s.prognostic.map Sy.keyvar ∨ (Sy.fn u args).keyvar ∈ s.constantFunctions.map Sy.keyvar ∨
            (Sy.fn u args).keyvar ∈ s.exogenous.map Sy.keyvar := by
          rcases (hpart (.fn u args) trivial).1.1 hin with hf | hf | hf
          · exact .inl (List.mem_map_of_mem hf)
          · exact .inr (.inl (List.mem_map_of_mem hf))
          · exact .inr (.inr (List.mem_map_of_mem hf))
        simp only [hL, Dict.keys, List.map_append, List.mem_append]
        rw [← k2, ← k3, ← k5] at this
        simp only [Dict.keys] at this
        tauto
      refine hdis hk ?_
      rw [k6]
      exact List.mem_map.2 ⟨d', hds', heq.symm⟩
  have lift : ∀ n r, m5.holds n r → n ∈ "t".toList :: Dict.keys L → m6.holds n r := by
    intro n r hr hk
    refine (holds_extend_of_notMem L6 ?_).2 hr
    rcases List.mem_cons.1 hk with rfl | hk
    · exact fun hm => hnt (List.mem_append_right _ hm)
    · exact fun hm => hdis hk hm
  have key5 : ∀ n, n ∈ s.prognostic.map Sy.keyvar ∨ n ∈ s.constantFunctions.map Sy.keyvar ∨ n ∈ s.constants.map Sy.symName ∨
      n ∈ s.exogenous.map Sy.keyvar → n ∈ Dict.keys L := by
    intro n hk
    rw [← k2, ← k3, ← k4, ← k5] at hk
    simp only [hL, Dict.keys, List.map_append, List.mem_append] at hk ⊢
    tauto
  -- the values of the right-hand sides
  have hval : ∀ e ∈ eqs, ∀ m' : Mem R, m'.names = m6.names → m'.state = m6.state →
      m'.eval A (tr e.rhs.derivatives e.rhs.functions s.constants e.rhs) = .ok (rhsValue A ρ e.rhs) := by
    intro e hee m' hm1 hm2
    have up : ∀ n r, m6.holds n r → m'.holds n r := by
      intro n r hr
      simpa only [Mem.holds, hm1, hm2] using hr
    refine eval_tr A ρ m' s.constants (he.rhs e hee) (he.roots e hee) ?_ ?_ ?_ ?_ _ _ (fun _ h => h) (fun _ h => h)
    · intro f hf
      obtain ⟨h6, h7⟩ := (mem_functions_iff f _).1 hf
      have hin : InSystem eqs f := ⟨e, hee, .inr h7⟩
      refine up _ _ (lift _ _ (hfun f h6 hin) (List.mem_cons_of_mem _ (key5 _ ?_)))
      rcases (hpart f h6).1.1 hin with hf | hf | hf
      · exact .inl (List.mem_map_of_mem hf)
      · exact .inr (.inl (List.mem_map_of_mem hf))
      · exact .inr (.inr (.inr (List.mem_map_of_mem hf)))
    · intro n hnc
      exact up _ _ (lift _ _ (hsym n hnc) (List.mem_cons_of_mem _ (key5 _ (.inr (.inr (.inl (List.mem_map.2 ⟨_, hnc, rfl⟩)))))))
    · intro n ho hor hnc
      have hnt : n = "t".toList := by
        rcases hor with hor | hor
        · exact hor
        · exact absurd ((hcon _).2 ⟨_, _, rfl, by decide, hor, e, hee, ho⟩) hnc
      rw [hnt]
      exact up _ _ (lift _ _ htm List.mem_cons_self)
    · intro a vars hd
      obtain ⟨u, args, vars', h5, h6, h7, -, -⟩ := supported_deriv (he.rhs e hee) hd
      simp only [Sy.deriv.injEq] at h5
      obtain ⟨rfl, rfl⟩ := h5
      refine up _ _ (.inl ?_)
      refine Dict.get?_update_of_mem _ _ hnL6 _ _ ?_
      rw [hL6, List.mem_map]
      refine ⟨metaDerivative (.deriv (.fn u args) vars), List.mem_map_of_mem ?_, ?_⟩
      · rw [h10, (hi _).mem_iff, List.mem_dedup]
        exact List.mem_flatMap.2 ⟨e, hee, hd⟩
      · have : (metaDerivative (.deriv (.fn u args) vars)).orders = vars := Util.partialOrders_eq vars h7
        rw [this]; rfl
  -- the run
  have hrun := runLines_eq A (eqs.map (fun e => (e.lhs.base.trendName, tr e.rhs.derivatives e.rhs.functions s.constants e.rhs)))
    (eqs.map (fun e => rhsValue A ρ e.rhs)) m6 0 [] (List.replicate state.length (A.num 0)) rfl rfl
    (by simp [← hlen, hlen']) (by simp)
    (by
      intro j n e hj
      rw [List.getElem?_map, Option.map_eq_some_iff] at hj
      obtain ⟨e', he', hj⟩ := hj
      injection hj with hj _
      have hmem : (e'.lhs.base.trendName, Ref.out j) ∈ L1 := by
        rw [hL1, List.mem_map]
        refine ⟨(e'.lhs.base.trendName, j), ?_, rfl⟩
        rw [List.mk_mem_zipIdx_iff_getElem?, List.getElem?_map]
        have : (s.prognostic.map (fun f => Sy.deriv f [("t".toList, 1)]))[j]? = some e'.lhs := by
          rw [hslots]; simp [he']
        rw [List.getElem?_map, Option.map_eq_some_iff] at this
        obtain ⟨f, hf, hfe⟩ := this
        rw [hf, ← hfe]; rfl
      rw [← hj, Nat.zero_add, hm6]
      show Dict.get? (Dict.update _ L6) _ = _
      have hkL : e'.lhs.base.trendName ∈ Dict.keys L := by
        have : e'.lhs.base.trendName ∈ Dict.keys L1 := List.mem_map.2 ⟨_, hmem, rfl⟩
        simp only [hL, Dict.keys, List.map_append, List.mem_append] at this ⊢
        tauto
      rw [Dict.get?_update_of_notMem _ _ _ (fun hm => hdis hkL hm)]
      exact get5 _ _ (by simp only [hL, List.mem_append]; tauto))
    (by
      intro j n e hj m' hm1 hm2
      rw [List.getElem?_map, Option.map_eq_some_iff] at hj
      obtain ⟨e', he', hj⟩ := hj
      injection hj with _ hj
      rw [← hj, hval e' (List.mem_of_getElem? he') m' hm1 hm2, List.getElem?_map, he']
      rfl)
  obtain ⟨m, hm, hout, hst⟩ := hrun
  refine ⟨m, ?_, by simpa using hout, hst⟩
  rw [trend_named (assigned_ok (fun n h => (hid n h).1))]
  simp only [System.execute, bind, Except.bind, hcode]
  rw [bindRows_eq _ _ _ _ _ (by simp [hlen])]
  simp only []
  rw [bindRows_eq _ _ _ _ _ (by simp [hlen])]
  simp only [bindAttrs_eq, ← extend_append]
  have hexo : bindExogenous O (s.exogenous.map Sy.keyvar) 0 (m0.extend (L1 ++ L2 ++ L3 ++ L4)) = .ok m5 := by
    rcases hex with hex | hex
    · simp only [hm5, hL, hL5, hex, List.map_nil, bindExogenous, List.zip_nil_left, List.append_nil]
    · rw [bindExogenous_eq O _ hex _ _ _ (s.exogenous.map ρ.fn) (by simp) (fun j _ => by simp)]
      rw [hm5, hL, ← extend_append]
  rw [hexo]
  simp only [hbind]
  exact hm

/-- C64: as generated, `compute_exogenous` returns `None`; the trend of a system with exogenous functions raises `TypeError`. -/
theorem C64_exogenous_default {R : Type} (iter : List Sy → List Sy) (hi : ∀ l, (iter l).Perm l) (eqs : List Equation) (s : System)
    (h : System.build iter eqs = .ok s) (he : Evolves s.coordinates eqs) (hid : ∀ n ∈ localNames s, Identifier n)
    (hne : s.exogenous ≠ []) (A : Arith R) (O : Obj R)
    (hO : O.exogenous = none) (time : R) (state : List R) (hlen : s.prognostic.length = state.length) :
    s.trend A O time state = .error .typeError := by
  rw [trend_named (assigned_ok hid)]
  simp only [System.execute, bind, Except.bind, trendCode_eq iter hi eqs s h he]
  rw [bindRows_eq _ _ _ _ _ (by simp [hlen])]
  simp only []
  rw [bindRows_eq _ _ _ _ _ (by simp [hlen])]
  simp only []
  match s.exogenous, hne with
  | f :: fs, _ => simp [bindExogenous, hO]

/-- C64: the generated module cannot be imported when a function or a constant has a name that is not an identifier. -/
theorem C64_syntax {R : Type} (iter : List Sy → List Sy) (hi : ∀ l, (iter l).Perm l) (eqs : List Equation) (s : System)
    (h : System.build iter eqs = .ok s) (he : Evolves s.coordinates eqs) (n : Str) (hn : n ∈ localNames s) (hid : ¬ Identifier n)
    (A : Arith R) (O : Obj R) (time : R) (state : List R) : s.trend A O time state = .error .syntaxError := by
  have : s.assigned.all isName = false := by
    rw [List.all_eq_false]
    rcases List.mem_cons.1 hn with rfl | hn
    · exact absurd (by decide) hid
    · exact ⟨n, hn, fun h => hid ((isName_iff n).1 h)⟩
  simp only [System.trend, bind, Except.bind, trendCode_eq iter hi eqs s h he, this, Bool.false_eq_true, if_false]

/-- C64: the trend generated from equations in which a square root occurs fails. -/
theorem C64_square_root {R : Type} (iter : List Sy → List Sy) (hi : ∀ l, (iter l).Perm l) (eqs : List Equation) (s : System)
    (h : System.build iter eqs = .ok s) (he : Evolves s.coordinates eqs) (hr : ∃ e ∈ eqs, ¬ SquareRootFree e.rhs)
    (A : Arith R) (O : Obj R) (time : R) (state : List R) : ∃ err, s.trend A O time state = .error err := by
  match ht : s.trend A O time state with
  | .error err => exact ⟨err, rfl⟩
  | .ok m =>
    exfalso
    simp only [System.trend] at ht
    obtain ⟨lines, h1, ht⟩ := ok_of_bind ht
    rw [trendCode_eq iter hi eqs s h he, Except.ok.injEq] at h1
    subst h1
    split at ht
    swap
    · cases ht
    simp only [System.execute] at ht
    obtain ⟨_, -, ht⟩ := ok_of_bind ht
    obtain ⟨_, -, ht⟩ := ok_of_bind ht
    obtain ⟨_, -, ht⟩ := ok_of_bind ht
    obtain ⟨_, -, ht⟩ := ok_of_bind ht
    obtain ⟨e, hee, hr⟩ := hr
    exact runLines_fails A _ _ (List.mem_map_of_mem hee) (fun m' => eval_root A m' (he.rhs e hee) hr) _ _ ht

/-! ## Concrete systems -/

section Examples

private def tt : Str := "t".toList
private def x : Str := "x".toList
private def u : Sy := .fn "u".toList [tt, x]
private def v : Sy := .fn "{V_{u}}".toList [tt, x]
private def c : Sy := .fn "c".toList [x]
private def w : Sy := .fn "w".toList [tt, x]
private def k : Sy := .sym .plain "\\kappa".toList

/-- `u_t = - c(x) u_x + kappa u_xx + w t`, `(V_u)_t = (V_u)^(3/2) - V_u c_x`. -/
private def two : List Equation :=
  [⟨.deriv u [(tt, 1)], .add (.mul (.num (-1)) (.mul c (.deriv u [(x, 1)])))
      (.add (.mul k (.deriv u [(x, 2)])) (.mul w (.sym .plain tt)))⟩,
   ⟨.deriv v [(tt, 1)], .add (.pow v (.num (3 / 2))) (.mul (.num (-1)) (.mul v (.deriv c [(x, 1)])))⟩]

private theorem two_supported (coords : List Sy) (hk : k ∉ coords) : Evolution coords two where
  lhs := by
    intro e he
    simp only [two, List.mem_cons, List.not_mem_nil, or_false] at he
    rcases he with rfl | rfl
    · exact ⟨_, _, rfl⟩
    · exact ⟨_, _, rfl⟩
  distinct := by decide +kernel
  rhs := by
    have hd : ∀ n : ℕ, 0 < n → ∀ p ∈ [(x, n)], 0 < p.2 ∧ p.1 ≠ "t".toList := by
      intro n hn p hp
      simp only [List.mem_singleton] at hp
      subst hp
      exact ⟨hn, show x ≠ "t".toList by decide⟩
    intro e he
    simp only [two, List.mem_cons, List.not_mem_nil, or_false] at he
    rcases he with rfl | rfl
    · exact .add (.mul (.num _) (.mul (.fn _ _) (.deriv _ _ _ (by simp) (by simp) (hd 1 (by omega)))))
        (.add (.mul (.sym _ (.inr hk)) (.deriv _ _ _ (by simp) (by simp) (hd 2 (by omega)))) (.mul (.fn _ _) (.sym _ (.inl rfl))))
    · exact .add (.pow (.fn _ _) (.num _)) (.mul (.num _) (.mul (.fn _ _) (.deriv _ _ _ (by simp) (by simp) (hd 1 (by omega)))))
  roots := by decide +kernel

/-- The hypotheses of `C64_trend_partial` hold, whatever the arithmetic and the values. -/
example {R : Type} (A : Arith R) (ρ : Valuation R) : ∃ s, System.build id two = .ok s ∧
    localNames s = ["t".toList, "du".toList, "dV_u".toList, "u".toList, "V_u".toList, "c".toList, "kappa".toList, "w".toList,
      "Du_x_o1".toList, "Du_x_o2".toList, "Dc_x_o1".toList] ∧
    ∃ (O : Obj R) (m : Mem R), s.trend A O (ρ.sym tt) [ρ.fn u, ρ.fn v] = .ok m ∧
      m.out = [A.add (A.mul (A.num (-1)) (A.mul (ρ.fn c) (A.diff [(x, 1)] (ρ.fn u))))
          (A.add (A.mul (ρ.sym "\\kappa".toList) (A.diff [(x, 2)] (ρ.fn u))) (A.mul (ρ.fn w) (ρ.sym tt))),
        A.add (A.pow (ρ.fn v) (A.num (3 / 2))) (A.mul (A.num (-1)) (A.mul (ρ.fn v) (A.diff [(x, 1)] (ρ.fn c))))] ∧
      m.state = [ρ.fn u, ρ.fn v] := by
  obtain ⟨s, hs, h1, h2, h3, h4, h5, h6⟩ : ∃ s, System.build id two = .ok s ∧ s.prognostic = [u, v] ∧
      s.constantFunctions = [c] ∧ s.exogenous = [w] ∧ s.constants = [k] ∧ s.coordinates = [.sym .plain tt, .sym .plain x] ∧
      localNames s = ["t".toList, "du".toList, "dV_u".toList, "u".toList, "V_u".toList, "c".toList, "kappa".toList, "w".toList,
        "Du_x_o1".toList, "Du_x_o2".toList, "Dc_x_o1".toList] := by
    refine ⟨_, rfl, ?_⟩; decide +kernel
  refine ⟨s, hs, h6, ⟨fun n => if n = "c".toList then ρ.fn c else ρ.sym "\\kappa".toList, some [ρ.fn w]⟩, ?_⟩
  have := C64_trend_partial id (fun _ => .rfl) two s hs (two_supported _ (by rw [h5]; decide)) (by unfold WellNamed; rw [h6]; decide +kernel) A
    ⟨fun n => if n = "c".toList then ρ.fn c else ρ.sym "\\kappa".toList, some [ρ.fn w]⟩ (ρ.sym tt) [ρ.fn u, ρ.fn v] ρ
    (by rw [h1]; rfl) rfl
    (by rw [h2]; intro f hf; simp only [List.mem_singleton] at hf; subst hf; simp only [show c.keyvar = "c".toList by decide +kernel, if_true])
    (by
      rw [h4]; intro n hn
      simp only [List.mem_singleton, k, Sy.sym.injEq, true_and] at hn
      subst hn
      simp only [show cleanLatexName "\\kappa".toList ≠ "c".toList by decide +kernel, if_false])
    (.inr (by rw [h3]; rfl))
  exact this

/-- A function named `du` shadows the alias of the trend of `u`: for `u_t = u`, `(du)_t = 2 du` the trend of `u` is
written into the *state* of `du`, and the trend returned for `u` is zero. -/
theorem C64_counterexample_alias : ∃ (eqs : List Equation) (s : System), System.build id eqs = .ok s ∧
    Evolution s.coordinates eqs ∧ s.exogenous = [] ∧ s.constants = [] ∧ s.constantFunctions = [] ∧
    ∀ {R : Type} (A : Arith R) (O : Obj R) (time a b : R), ∃ m, s.trend A O time [a, b] = .ok m ∧
      m.out = [A.num 0, A.mul (A.num 2) a] ∧ m.state = [a, a] := by
  refine ⟨[⟨.deriv u [(tt, 1)], u⟩, ⟨.deriv (.fn "du".toList [tt, x]) [(tt, 1)], .mul (.num 2) (.fn "du".toList [tt, x])⟩],
    _, rfl, ⟨⟨?_, by decide +kernel, ?_⟩, by decide +kernel⟩, rfl, rfl, rfl, fun A O time a b => ⟨_, (trend_named (by decide +kernel) _ _ _ _).trans rfl, rfl, rfl⟩⟩
  · intro e he
    simp only [List.mem_cons, List.not_mem_nil, or_false] at he
    rcases he with rfl | rfl
    · exact ⟨_, _, rfl⟩
    · exact ⟨_, _, rfl⟩
  · intro e he
    simp only [List.mem_cons, List.not_mem_nil, or_false] at he
    rcases he with rfl | rfl
    · exact .fn _ _
    · exact .mul (.num _) (.fn _ _)

/-- `u_t = sin(u)`: `sin(u)` is taken for an exogenous function.  Depending on the iteration order of a set, the generated code
reads the value of `sin(u)` from `compute_exogenous`, or calls that value and raises `TypeError`. -/
theorem C64_counterexample_function : ∃ (eqs : List Equation) (s s' : System), System.build id eqs = .ok s ∧
    System.build List.reverse eqs = .ok s' ∧ s.exogenous = [.func "sin".toList u] ∧ s'.exogenous = [.func "sin".toList u] ∧
    ∀ {R : Type} (A : Arith R) (O : Obj R) (time a b : R), O.exogenous = some [b] →
      (∃ m, s.trend A O time [a] = .ok m ∧ m.out = [b]) ∧ s'.trend A O time [a] = .error .typeError := by
  refine ⟨[⟨.deriv u [(tt, 1)], .func "sin".toList u⟩], _, _, rfl, rfl, rfl, rfl, fun A O time a b hO => ?_⟩
  obtain ⟨attr, ex⟩ := O
  simp only at hO
  subst hO
  exact ⟨⟨_, (trend_named (by decide +kernel) _ _ _ _).trans rfl, rfl⟩, (trend_named (by decide +kernel) _ _ _ _).trans rfl⟩

/-- `u_t = x u`: the coordinate is not a local name of the trend. -/
theorem C64_counterexample_coordinate : ∃ (eqs : List Equation) (s : System), System.build id eqs = .ok s ∧
    ∀ {R : Type} (A : Arith R) (O : Obj R) (time a : R), s.trend A O time [a] = .error .nameError :=
  ⟨[⟨.deriv u [(tt, 1)], .mul (.sym .plain x) u⟩], _, rfl, fun _ _ _ _ => (trend_named (by decide +kernel) _ _ _ _).trans rfl⟩

/-- `u_t = theta u`, `theta` trainable: trainable scalars are not local names of the trend. -/
theorem C64_counterexample_trainable : ∃ (eqs : List Equation) (s : System), System.build id eqs = .ok s ∧
    s.trainable = [.sym .trainable "theta".toList] ∧
    ∀ {R : Type} (A : Arith R) (O : Obj R) (time a : R), s.trend A O time [a] = .error .nameError :=
  ⟨[⟨.deriv u [(tt, 1)], .mul (.sym .trainable "theta".toList) u⟩], _, rfl, rfl, fun _ _ _ _ => (trend_named (by decide +kernel) _ _ _ _).trans rfl⟩

/-- `u_t = u^(1/2)`: the code calls `sqrt`, which the module does not import. -/
theorem C64_counterexample_root : ∃ (eqs : List Equation) (s : System), System.build id eqs = .ok s ∧
    Evolves s.coordinates eqs ∧ WellNamed s ∧ s.exogenous = [] ∧ s.constants = [] ∧ s.constantFunctions = [] ∧
    ∀ {R : Type} (A : Arith R) (O : Obj R) (time a : R), s.trend A O time [a] = .error .nameError := by
  refine ⟨[⟨.deriv u [(tt, 1)], .pow u (.num (1 / 2))⟩], _, rfl, ⟨?_, by decide +kernel, ?_⟩, by decide +kernel, rfl, rfl, rfl, fun _ _ _ _ => (trend_named (by decide +kernel) _ _ _ _).trans (by with_unfolding_all rfl)⟩
  · intro e he
    simp only [List.mem_cons, List.not_mem_nil, or_false] at he
    subst he
    exact ⟨_, _, rfl⟩
  · intro e he
    simp only [List.mem_cons, List.not_mem_nil, or_false] at he
    subst he
    exact .pow (.fn _ _) (.num _)

/-- `u_t = - lambda u`: the module assigns to `lambda`.  So does `(el)_t = el`, whose trend is called `del`. -/
theorem C64_counterexample_keyword : ∃ (eqs eqs' : List Equation) (s s' : System), System.build id eqs = .ok s ∧
    System.build id eqs' = .ok s' ∧ s.constants = [.sym .plain "lambda".toList] ∧ s'.prognostic = [.fn "el".toList [tt, x]] ∧
    (localNames s).Nodup ∧ (localNames s').Nodup ∧
    ∀ {R : Type} (A : Arith R) (O : Obj R) (time a : R), s.trend A O time [a] = .error .syntaxError ∧ s'.trend A O time [a] = .error .syntaxError :=
  ⟨[⟨.deriv u [(tt, 1)], .mul (.num (-1)) (.mul (.sym .plain "lambda".toList) u)⟩],
    [⟨.deriv (.fn "el".toList [tt, x]) [(tt, 1)], .fn "el".toList [tt, x]⟩], _, _, rfl, rfl, rfl, rfl, by decide +kernel, by decide +kernel,
    fun _ _ _ _ => ⟨trend_misnamed rfl (by decide +kernel) _ _ _ _, trend_misnamed rfl (by decide +kernel) _ _ _ _⟩⟩

/-- An exogenous function when `compute_exogenous` is not redefined. -/
theorem C64_counterexample_exogenous : ∃ (eqs : List Equation) (s : System), System.build id eqs = .ok s ∧
    ∀ {R : Type} (A : Arith R) (O : Obj R) (time a : R), O.exogenous = none → s.trend A O time [a] = .error .typeError :=
  ⟨[⟨.deriv u [(tt, 1)], w⟩], _, rfl, fun A O time a hO => by
    obtain ⟨attr, ex⟩ := O
    simp only at hO
    subst hO
    exact (trend_named (by decide +kernel) _ _ _ _).trans rfl⟩

/-- The hypotheses of `C64_exogenous_default` hold for `two`. -/
example {R : Type} (A : Arith R) (attr : Str → R) (time a b : R) : ∃ s, System.build id two = .ok s ∧
    s.trend A ⟨attr, none⟩ time [a, b] = .error .typeError := by
  obtain ⟨s, hs, h1, h3, h5, h6⟩ : ∃ s, System.build id two = .ok s ∧ s.prognostic = [u, v] ∧ s.exogenous = [w] ∧
      s.coordinates = [.sym .plain tt, .sym .plain x] ∧ ∀ n ∈ localNames s, Identifier n := by
    refine ⟨_, rfl, ?_⟩; decide +kernel
  exact ⟨s, hs, C64_exogenous_default id (fun _ => .rfl) two s hs (two_supported _ (by rw [h5]; decide)).toEvolves h6 (by rw [h3]; simp) A _ rfl
    time [a, b] (by rw [h1]; rfl)⟩

end Examples

end Sympkf.Props
