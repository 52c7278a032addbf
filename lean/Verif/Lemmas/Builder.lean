import Verif.Spec.PDE
import Verif.Lemmas.Tree
import Verif.Props.PDESystem

/-! # Lemmas on the code generator -/

set_option autoImplicit false

namespace Sympkf.Dict

variable {κ α : Type} [DecidableEq κ]

theorem get?_update_of_notMem (d d' : Dict κ α) (k : κ) (h : k ∉ d'.keys) : (d.update d').get? k = d.get? k := by
  induction d' generalizing d with
  | nil => rfl
  | cons kv d' ih =>
    simp only [keys, List.map_cons, List.mem_cons, not_or] at h
    show (update (set d kv.1 kv.2) d').get? k = _
    rw [ih _ h.2, get?_set, if_neg (fun e => h.1 e.symm)]

theorem get?_update_of_mem (d d' : Dict κ α) (hn : d'.keys.Nodup) (k : κ) (v : α) (h : (k, v) ∈ d') :
    (d.update d').get? k = some v := by
  induction d' generalizing d with
  | nil => simp at h
  | cons kv d' ih =>
    simp only [keys, List.map_cons, List.nodup_cons] at hn
    rcases List.mem_cons.1 h with rfl | h
    · show (update (set d k v) d').get? k = _
      rw [get?_update_of_notMem _ _ _ hn.1, get?_set_self]
    · exact ih (set d kv.1 kv.2) hn.2 h

theorem update_append (d d' d'' : Dict κ α) : d.update (d' ++ d'') = (d.update d').update d'' := by
  simp [update, List.foldl_append]

end Sympkf.Dict

namespace Sympkf.PDE

open Text Spec.PDE

/-! ## The substitutions -/

/-- The derivatives of `SD`, the functions of `SF` and the symbols of `SC` are replaced by their names. -/
def tr (SD SF SC : List Sy) : Sy → Sy
  | .num q => .num q
  | .sym k s => if .sym k s ∈ SC then .sym .scalarSymbol (cleanLatexName s) else .sym k s
  | .fn u args => if .fn u args ∈ SF then .sym .functionSymbol (cleanLatexName u) else .fn u args
  | .func g a => .func g (tr SD SF SC a)
  | .add a b => .add (tr SD SF SC a) (tr SD SF SC b)
  | .mul a b => .mul (tr SD SF SC a) (tr SD SF SC b)
  | .pow a b => .pow (tr SD SF SC a) (tr SD SF SC b)
  | .deriv a vars => if .deriv a vars ∈ SD then .sym .functionSymbol (metaDerivative (.deriv a vars)).keyvar else .deriv a vars

theorem tr_nil {c : List Sy} {e : Sy} (he : Supported c e) : tr [] [] [] e = e := by
  induction he with
  | num q => rfl
  | sym s _ => simp [tr]
  | fn u args => simp [tr]
  | add _ _ h1 h2 => simp [tr, h1, h2]
  | mul _ _ h1 h2 => simp [tr, h1, h2]
  | pow _ _ h1 h2 => simp [tr, h1, h2]
  | deriv u args vars => simp [tr]

theorem subs_deriv {c : List Sy} {e : Sy} (he : Supported c e) (SD : List Sy) (a : Sy) (vars : List (Str × ℕ)) :
    (tr SD [] [] e).subs (.deriv a vars) (.sym .functionSymbol (metaDerivative (.deriv a vars)).keyvar) =
      tr (.deriv a vars :: SD) [] [] e := by
  induction he with
  | num q => simp [tr, Sy.subs]
  | sym s _ => simp [tr, Sy.subs]
  | fn u args => simp [tr, Sy.subs]
  | add _ _ h1 h2 => simp [tr, Sy.subs, h1, h2]
  | mul _ _ h1 h2 => simp [tr, Sy.subs, h1, h2]
  | pow _ _ h1 h2 => simp [tr, Sy.subs, h1, h2]
  | deriv u args w _ _ _ =>
    simp only [tr, List.mem_cons]
    by_cases h1 : Sy.deriv (.fn u args) w ∈ SD
    · rw [if_pos h1, if_pos (.inr h1)]; simp [Sy.subs]
    · rw [if_neg h1]
      by_cases h2 : Sy.deriv (.fn u args) w = .deriv a vars
      · rw [if_pos (.inl h2), h2, Sy.subs.eq_def, if_pos rfl]
      · rw [if_neg (by simp [h1, h2]), Sy.subs.eq_def, if_neg h2]
        simp [Sy.subs]

theorem subs_fn {c : List Sy} {e : Sy} (he : Supported c e) (SD SF : List Sy) (hD : ∀ d ∈ e.derivatives, d ∈ SD)
    (u : Str) (args : List Str) :
    (tr SD SF [] e).subs (.fn u args) (.sym .functionSymbol (cleanLatexName u)) = tr SD (.fn u args :: SF) [] e := by
  induction he with
  | num q => simp [tr, Sy.subs]
  | sym s _ => simp [tr, Sy.subs]
  | fn v args' =>
    simp only [tr, List.mem_cons]
    by_cases h1 : Sy.fn v args' ∈ SF
    · rw [if_pos h1, if_pos (.inr h1)]; simp [Sy.subs]
    · rw [if_neg h1]
      by_cases h2 : Sy.fn v args' = .fn u args
      · rw [if_pos (.inl h2), Sy.subs.eq_def, if_pos h2]; injection h2 with h2 _; rw [h2]
      · rw [if_neg (by simp only [h1, h2, or_self, not_false_iff]), Sy.subs.eq_def, if_neg h2]
  | add _ _ h1 h2 =>
    simp only [Sy.derivatives, List.mem_append] at hD
    simp [tr, Sy.subs, h1 (fun d hd => hD d (.inl hd)), h2 (fun d hd => hD d (.inr hd))]
  | mul _ _ h1 h2 =>
    simp only [Sy.derivatives, List.mem_append] at hD
    simp [tr, Sy.subs, h1 (fun d hd => hD d (.inl hd)), h2 (fun d hd => hD d (.inr hd))]
  | pow _ _ h1 h2 =>
    simp only [Sy.derivatives, List.mem_append] at hD
    simp [tr, Sy.subs, h1 (fun d hd => hD d (.inl hd)), h2 (fun d hd => hD d (.inr hd))]
  | deriv v args' w _ _ _ =>
    have := hD _ (by simp only [Sy.derivatives]; exact List.mem_cons_self)
    simp [tr, this, Sy.subs]

theorem subs_sym {c : List Sy} {e : Sy} (he : Supported c e) (SD SF SC : List Sy) (hD : ∀ d ∈ e.derivatives, d ∈ SD)
    (hF : ∀ f ∈ e.functions, f ∈ SF) (s : Str) :
    (tr SD SF SC e).subs (.sym .plain s) (.sym .scalarSymbol (cleanLatexName s)) = tr SD SF (.sym .plain s :: SC) e := by
  induction he with
  | num q => simp [tr, Sy.subs]
  | sym s' _ =>
    simp only [tr, List.mem_cons]
    by_cases h1 : Sy.sym .plain s' ∈ SC
    · rw [if_pos h1, if_pos (.inr h1)]; simp [Sy.subs]
    · rw [if_neg h1]
      by_cases h2 : Sy.sym .plain s' = .sym .plain s
      · rw [if_pos (.inl h2), Sy.subs.eq_def, if_pos h2]; injection h2 with _ h2; rw [h2]
      · rw [if_neg (by simp only [h1, h2, or_self, not_false_iff]), Sy.subs.eq_def, if_neg h2]
  | fn v args' =>
    have := hF (.fn v args') (by simp [Sy.functions])
    simp [tr, this, Sy.subs]
  | add _ _ h1 h2 =>
    simp only [Sy.derivatives, Sy.functions, List.mem_append] at hD hF
    simp [tr, Sy.subs, h1 (fun d hd => hD d (.inl hd)) (fun d hd => hF d (.inl hd)),
      h2 (fun d hd => hD d (.inr hd)) (fun d hd => hF d (.inr hd))]
  | mul _ _ h1 h2 =>
    simp only [Sy.derivatives, Sy.functions, List.mem_append] at hD hF
    simp [tr, Sy.subs, h1 (fun d hd => hD d (.inl hd)) (fun d hd => hF d (.inl hd)),
      h2 (fun d hd => hD d (.inr hd)) (fun d hd => hF d (.inr hd))]
  | pow _ _ h1 h2 =>
    simp only [Sy.derivatives, Sy.functions, List.mem_append] at hD hF
    simp [tr, Sy.subs, h1 (fun d hd => hD d (.inl hd)) (fun d hd => hF d (.inl hd)),
      h2 (fun d hd => hD d (.inr hd)) (fun d hd => hF d (.inr hd))]
  | deriv v args' w _ _ _ =>
    have := hD _ (by simp only [Sy.derivatives]; exact List.mem_cons_self)
    simp [tr, this, Sy.subs]

/-- Only membership matters. -/
theorem tr_congr {SD SD' SF SF' SC SC' : List Sy} (e : Sy) (hD : ∀ d ∈ e.derivatives, d ∈ SD ↔ d ∈ SD')
    (hF : ∀ f ∈ e.functions, f ∈ SF ↔ f ∈ SF') (hC : ∀ p ∈ e.symbols, ofSymbol p ∈ SC ↔ ofSymbol p ∈ SC') :
    tr SD SF SC e = tr SD' SF' SC' e := by
  induction e with
  | num q => rfl
  | sym k s => simp only [tr, show (Sy.sym k s ∈ SC ↔ Sy.sym k s ∈ SC') from hC (k, s) (by simp [Sy.symbols])]
  | fn u args => simp only [tr, hF (.fn u args) (by simp [Sy.functions])]
  | func g a ih =>
    simp only [tr]
    rw [ih hD (fun f hf => hF f (by simp [Sy.functions, hf])) hC]
  | add a b iha ihb =>
    simp only [Sy.derivatives, Sy.functions, Sy.symbols, List.mem_append] at hD hF hC
    simp only [tr]
    rw [iha (fun d h => hD d (.inl h)) (fun d h => hF d (.inl h)) (fun d h => hC d (.inl h)),
      ihb (fun d h => hD d (.inr h)) (fun d h => hF d (.inr h)) (fun d h => hC d (.inr h))]
  | mul a b iha ihb =>
    simp only [Sy.derivatives, Sy.functions, Sy.symbols, List.mem_append] at hD hF hC
    simp only [tr]
    rw [iha (fun d h => hD d (.inl h)) (fun d h => hF d (.inl h)) (fun d h => hC d (.inl h)),
      ihb (fun d h => hD d (.inr h)) (fun d h => hF d (.inr h)) (fun d h => hC d (.inr h))]
  | pow a b iha ihb =>
    simp only [Sy.derivatives, Sy.functions, Sy.symbols, List.mem_append] at hD hF hC
    simp only [tr]
    rw [iha (fun d h => hD d (.inl h)) (fun d h => hF d (.inl h)) (fun d h => hC d (.inl h)),
      ihb (fun d h => hD d (.inr h)) (fun d h => hF d (.inr h)) (fun d h => hC d (.inr h))]
  | deriv a vars ih =>
    simp only [tr, hD (.deriv a vars) (by simp only [Sy.derivatives]; exact List.mem_cons_self)]

theorem foldl_subs_deriv {c : List Sy} {e : Sy} (he : Supported c e) (L : List Sy) (hL : ∀ d ∈ L, ∃ a vars, d = .deriv a vars)
    (SD : List Sy) :
    L.foldl (fun rhs d => rhs.subs (metaDerivative d).symbolic (.sym .functionSymbol (metaDerivative d).keyvar)) (tr SD [] [] e) =
      tr (L.reverse ++ SD) [] [] e := by
  induction L generalizing SD with
  | nil => rfl
  | cons d L ih =>
    obtain ⟨a, vars, rfl⟩ := hL d List.mem_cons_self
    rw [List.foldl_cons, show (metaDerivative (.deriv a vars)).symbolic = .deriv a vars from rfl, subs_deriv he,
      ih (fun d hd => hL d (List.mem_cons_of_mem _ hd))]
    simp

theorem foldl_subs_fn {c : List Sy} {e : Sy} (he : Supported c e) (L : List Sy) (hL : ∀ f ∈ L, ∃ u args, f = .fn u args)
    (SD SF : List Sy) (hD : ∀ d ∈ e.derivatives, d ∈ SD) :
    L.foldl (fun rhs f => rhs.subs f (.sym .functionSymbol f.keyvar)) (tr SD SF [] e) = tr SD (L.reverse ++ SF) [] e := by
  induction L generalizing SF with
  | nil => rfl
  | cons d L ih =>
    obtain ⟨a, vars, rfl⟩ := hL d List.mem_cons_self
    rw [List.foldl_cons, show (Sy.fn a vars).keyvar = cleanLatexName a from rfl, subs_fn he _ _ hD,
      ih (fun d hd => hL d (List.mem_cons_of_mem _ hd))]
    simp

theorem foldl_subs_sym {c : List Sy} {e : Sy} (he : Supported c e) (L : List Sy) (hL : ∀ f ∈ L, ∃ s, f = .sym .plain s)
    (SD SF SC : List Sy) (hD : ∀ d ∈ e.derivatives, d ∈ SD) (hF : ∀ f ∈ e.functions, f ∈ SF) :
    L.foldl (fun rhs c => rhs.subs c (.sym .scalarSymbol c.symName)) (tr SD SF SC e) = tr SD SF (L.reverse ++ SC) e := by
  induction L generalizing SC with
  | nil => rfl
  | cons d L ih =>
    obtain ⟨a, rfl⟩ := hL d List.mem_cons_self
    rw [List.foldl_cons, show (Sy.sym .plain a).symName = cleanLatexName a from rfl, subs_sym he _ _ _ hD hF,
      ih (fun d hd => hL d (List.mem_cons_of_mem _ hd))]
    simp

theorem foldl_skip {α β : Type} (p : β → Bool) (f : α → β → α) (l : List β) (a : α) :
    l.foldl (fun a b => if p b then f a b else a) a = (l.filter p).foldl f a := by
  induction l generalizing a with
  | nil => rfl
  | cons b l ih =>
    rw [List.foldl_cons, ih, List.filter_cons]
    split <;> rfl

theorem foldl_foldl {α β γ : Type} (f : α → β → α) (g : γ → List β) (l : List γ) (a : α) :
    l.foldl (fun a c => (g c).foldl f a) a = (l.flatMap g).foldl f a := by
  induction l generalizing a with
  | nil => rfl
  | cons c l ih => rw [List.foldl_cons, ih, List.flatMap_cons, List.foldl_append]

/-- The right-hand side of the pseudo-algebraic system. -/
theorem pseudo_rhs (s : System) {c : List Sy} {e : Sy} (he : Supported c e)
    (hd : ∀ d ∈ s.spatialDerivatives, ∃ a vars, d = .deriv a vars)
    (hmax : ∀ d ∈ e.derivatives, d ∈ s.spatialDerivatives ∧ 0 < (metaDerivative d).order ∧ (metaDerivative d).order ≤ s.maxOrder)
    (hf : ∀ f ∈ s.functions, ∃ u args, f = .fn u args) (hef : ∀ f ∈ e.functions, f ∈ s.functions)
    (hc : ∀ k ∈ s.constants, ∃ n, k = .sym .plain n) :
    s.subsConstants (s.subsFunctions (s.subsDerivatives e)) = tr e.derivatives e.functions s.constants e := by
  have h1 : s.subsDerivatives e = tr e.derivatives [] [] e := by
    unfold System.subsDerivatives
    have hfun : (fun rhs (o : ℕ) => s.spatialDerivatives.foldl (fun rhs d =>
        let m := metaDerivative d
        if m.order ≠ o then rhs else rhs.subs m.symbolic (.sym .functionSymbol m.keyvar)) rhs) =
      (fun (rhs : Sy) (o : ℕ) => (s.spatialDerivatives.filter (fun d => (metaDerivative d).order = o)).foldl
        (fun rhs d => rhs.subs (metaDerivative d).symbolic (.sym .functionSymbol (metaDerivative d).keyvar)) rhs) := by
      funext rhs o
      rw [← foldl_skip]
      congr 1
      funext rhs d
      by_cases h : (metaDerivative d).order = o <;> simp [h]
    rw [hfun, foldl_foldl]
    conv_lhs => rw [← tr_nil he]
    rw [foldl_subs_deriv he _ _ []]
    · refine tr_congr e (fun d hde => ?_) (fun _ _ => Iff.rfl) (fun _ _ => Iff.rfl)
      obtain ⟨hm, h0, hle⟩ := hmax d hde
      simp only [List.append_nil, List.mem_reverse, List.mem_flatMap, List.mem_filter, hde, iff_true]
      refine ⟨(metaDerivative d).order, ?_, hm, by simp⟩
      rw [List.mem_range'_1]; omega
    · intro d hd'
      simp only [List.mem_flatMap, List.mem_filter] at hd'
      obtain ⟨_, _, hd', _⟩ := hd'
      exact hd d hd'
  have h2 : s.subsFunctions (tr e.derivatives [] [] e) = tr e.derivatives e.functions [] e := by
    unfold System.subsFunctions
    rw [foldl_subs_fn he _ hf _ _ (fun _ h => h)]
    refine tr_congr e (fun _ _ => Iff.rfl) (fun f hf' => ?_) (fun _ _ => Iff.rfl)
    simp [hf', hef f hf']
  have h3 : s.subsConstants (tr e.derivatives e.functions [] e) = tr e.derivatives e.functions s.constants e := by
    unfold System.subsConstants
    rw [foldl_subs_sym he _ hc _ _ _ (fun _ h => h) (fun _ h => h)]
    refine tr_congr e (fun _ _ => Iff.rfl) (fun _ _ => Iff.rfl) (fun p hp => ?_)
    simp
  rw [h1, h2, h3]

/-! ## The memory -/

variable {R : Type}

/-- The names refer to constant data: a row of the state or a value. -/
def Mem.holds (m : Mem R) (n : Str) (r : R) : Prop :=
  m.names.get? n = some (.value r) ∨ ∃ k, m.names.get? n = some (.state k) ∧ m.state[k]? = some r

theorem Mem.read_of_holds {m : Mem R} {n : Str} {r : R} (h : m.holds n r) : m.read n = .ok r := by
  rcases h with h | ⟨k, h, h'⟩
  · simp [Mem.read, h]
  · simp [Mem.read, h, h']

theorem tr_num {c : List Sy} {e : Sy} (he : Supported c e) {SD SF SC : List Sy} {q : ℚ} (h : tr SD SF SC e = .num q) : e = .num q := by
  cases he with
  | num q => exact h
  | sym n hn => simp only [tr] at h; split at h <;> cases h
  | fn u args => simp only [tr] at h; split at h <;> cases h
  | add _ _ => cases h
  | mul _ _ => cases h
  | pow _ _ => cases h
  | deriv u args vars _ _ _ => simp only [tr] at h; split at h <;> cases h

theorem eval_tr (A : Arith R) (ρ : Valuation R) (m : Mem R) (SC : List Sy) {c : List Sy} {e : Sy} (he : Supported c e) (hr : SquareRootFree e)
    (hf : ∀ f ∈ e.functions, m.holds f.keyvar (ρ.fn f))
    (hs : ∀ n, Sy.sym .plain n ∈ SC → m.holds (cleanLatexName n) (ρ.sym n))
    (ht : ∀ n, Occurs (.sym .plain n) e → (n = "t".toList ∨ Sy.sym .plain n ∉ c) → Sy.sym .plain n ∉ SC → m.holds n (ρ.sym n))
    (hd : ∀ a vars, Sy.deriv a vars ∈ e.derivatives →
      m.holds (metaDerivative (.deriv a vars)).keyvar (A.diff vars (rhsValue A ρ a)))
    (SD SF : List Sy) (hSD : ∀ d ∈ e.derivatives, d ∈ SD) (hSF : ∀ f ∈ e.functions, f ∈ SF) :
    m.eval A (tr SD SF SC e) = .ok (rhsValue A ρ e) := by
  induction he with
  | num q => rfl
  | sym n hn =>
    simp only [tr]
    split
    · next h => exact Mem.read_of_holds (hs n h)
    · next h => exact Mem.read_of_holds (ht n .refl hn h)
  | fn u args =>
    have h := hSF (.fn u args) (by simp [Sy.functions])
    simp only [tr, if_pos h]
    exact Mem.read_of_holds (hf (.fn u args) (by simp [Sy.functions]))
  | add _ _ iha ihb =>
    simp only [Sy.functions, Sy.derivatives, List.mem_append] at hf hd hSD hSF
    simp only [tr, Mem.eval, bind, Except.bind, pure, Except.pure, rhsValue]
    rw [iha hr.1 (fun f h => hf f (.inl h)) (fun n h => ht n (.addL _ h)) (fun a v h => hd a v (.inl h)) (fun d h => hSD d (.inl h))
        (fun d h => hSF d (.inl h)),
      ihb hr.2 (fun f h => hf f (.inr h)) (fun n h => ht n (.addR _ h)) (fun a v h => hd a v (.inr h)) (fun d h => hSD d (.inr h))
        (fun d h => hSF d (.inr h))]
  | mul _ _ iha ihb =>
    simp only [Sy.functions, Sy.derivatives, List.mem_append] at hf hd hSD hSF
    simp only [tr, Mem.eval, bind, Except.bind, pure, Except.pure, rhsValue]
    rw [iha hr.1 (fun f h => hf f (.inl h)) (fun n h => ht n (.mulL _ h)) (fun a v h => hd a v (.inl h)) (fun d h => hSD d (.inl h))
        (fun d h => hSF d (.inl h)),
      ihb hr.2 (fun f h => hf f (.inr h)) (fun n h => ht n (.mulR _ h)) (fun a v h => hd a v (.inr h)) (fun d h => hSD d (.inr h))
        (fun d h => hSF d (.inr h))]
  | pow _ hb iha ihb =>
    simp only [Sy.functions, Sy.derivatives, List.mem_append] at hf hd hSD hSF
    obtain ⟨hr1, hr2, hr⟩ := hr
    simp only [tr, Mem.eval, bind, Except.bind, pure, Except.pure, rhsValue]
    rw [if_neg (not_or.2 ⟨fun e => hr1 (tr_num hb e), fun e => hr2 (tr_num hb e)⟩), iha hr.1 (fun f h => hf f (.inl h)) (fun n h => ht n (.powL _ h)) (fun a v h => hd a v (.inl h)) (fun d h => hSD d (.inl h))
        (fun d h => hSF d (.inl h)),
      ihb hr.2 (fun f h => hf f (.inr h)) (fun n h => ht n (.powR _ h)) (fun a v h => hd a v (.inr h)) (fun d h => hSD d (.inr h))
        (fun d h => hSF d (.inr h))]
  | deriv u args vars _ _ _ =>
    have hm : Sy.deriv (.fn u args) vars ∈ (Sy.deriv (.fn u args) vars).derivatives := by
      simp only [Sy.derivatives]; exact List.mem_cons_self
    simp only [tr, if_pos (hSD _ hm)]
    exact Mem.read_of_holds (hd _ _ hm)

/-- `m` with more names. -/
def Mem.extend (m : Mem R) (l : Dict Str (Ref R)) : Mem R := { m with names := Dict.update m.names l }

theorem extend_append (m : Mem R) (l l' : Dict Str (Ref R)) : m.extend (l ++ l') = (m.extend l).extend l' := by
  simp [Mem.extend, Dict.update_append]

theorem bindRows_eq (rows : ℕ) (ref : ℕ → Ref R) (ns : List Str) (k : ℕ) (m : Mem R) (h : k + ns.length ≤ rows) :
    bindRows rows ref ns k m = .ok (m.extend (ns.zipIdx k |>.map (fun p => (p.1, ref p.2)))) := by
  induction ns generalizing k m with
  | nil => rfl
  | cons n ns ih =>
    simp only [List.length_cons] at h
    rw [bindRows, if_pos (by omega), ih (k + 1) _ (by omega)]
    rfl

theorem bindAttrs_eq (O : Obj R) (ns : List Str) (m : Mem R) :
    bindAttrs O ns m = m.extend (ns.map (fun n => (n, .value (O.attr n)))) := by
  induction ns generalizing m with
  | nil => rfl
  | cons n ns ih =>
    rw [bindAttrs, List.foldl_cons]
    exact ih _

theorem bindExogenous_eq (O : Obj R) (l : List R) (hO : O.exogenous = some l) (ns : List Str) (k : ℕ) (m : Mem R)
    (vals : List R) (hl : vals.length = ns.length) (h : ∀ j, j < ns.length → l[k + j]? = vals[j]?) :
    bindExogenous O ns k m = .ok (m.extend (ns.zip (vals.map Ref.value))) := by
  induction ns generalizing k m vals with
  | nil => rfl
  | cons n ns ih =>
    match vals, hl with
    | v :: vals, hl =>
      have h0 := h 0 (by simp)
      simp only [Nat.add_zero, List.getElem?_cons_zero] at h0
      simp only [bindExogenous, hO, h0]
      rw [ih (k + 1) _ vals (by simpa using hl)]
      · rfl
      · intro j hj
        have := h (j + 1) (by simpa using hj)
        simpa [Nat.add_assoc, Nat.add_comm 1 j] using this

theorem holds_extend_of_notMem {m : Mem R} {n : Str} {r : R} (l : Dict Str (Ref R)) (h : n ∉ l.keys) :
    (m.extend l).holds n r ↔ m.holds n r := by
  simp only [Mem.holds, Mem.extend, Dict.get?_update_of_notMem _ _ _ h]

theorem bindDerivatives_eq (A : Arith R) (m : Mem R) (val : MetaDerivative → R) (ds : List MetaDerivative)
    (hr : ∀ d ∈ ds, m.holds d.function (val d)) (hk : ∀ d ∈ ds, ∀ d' ∈ ds, d.function ≠ d'.keyvar) :
    bindDerivatives A ds m = .ok (m.extend (ds.map (fun d => (d.keyvar, .value (A.diff d.orders (val d)))))) := by
  induction ds generalizing m with
  | nil => rfl
  | cons d ds ih =>
    have h1 := Mem.read_of_holds (hr d List.mem_cons_self)
    simp only [bindDerivatives, List.foldlM_cons, bind, Except.bind, h1, pure, Except.pure]
    have := ih (m.bindName d.keyvar (.value (A.diff d.orders (val d)))) (fun d' hd' => by
      have := hr d' (List.mem_cons_of_mem _ hd')
      refine (holds_extend_of_notMem (m := m) [(d.keyvar, _)] ?_).2 this
      simp only [Dict.keys, List.map_cons, List.map_nil, List.mem_singleton]
      exact hk d' (List.mem_cons_of_mem _ hd') d List.mem_cons_self)
      (fun d' hd' d'' hd'' => hk d' (List.mem_cons_of_mem _ hd') d'' (List.mem_cons_of_mem _ hd''))
    simp only [bindDerivatives, bind, Except.bind, pure, Except.pure] at this
    rw [this]
    rfl

/-- The lines of the trend: row `k + j` of the output receives the value of line `j`. -/
theorem runLines_eq (A : Arith R) (lines : List (Str × Sy)) (vals : List R) (m : Mem R) (k : ℕ) (pre post : List R)
    (hm : m.out = pre ++ post) (hpre : pre.length = k) (hpost : post.length = lines.length) (hl : vals.length = lines.length)
    (hw : ∀ (j : ℕ) n e, lines[j]? = some (n, e) → m.names.get? n = some (.out (k + j)))
    (hv : ∀ (j : ℕ) n e, lines[j]? = some (n, e) → ∀ m' : Mem R, m'.names = m.names → m'.state = m.state →
      (vals[j]?).map Except.ok = some (m'.eval A e)) :
    ∃ m', runLines A lines m = .ok m' ∧ m'.out = pre ++ vals ∧ m'.state = m.state := by
  induction lines generalizing vals m k pre post with
  | nil =>
    match vals, hl, post, hpost with
    | [], _, [], _ => exact ⟨m, rfl, hm, rfl⟩
  | cons l lines ih =>
    match vals, hl, post, hpost with
    | v :: vals, hl, p :: post, hpost =>
      have h0 := hv 0 l.1 l.2 rfl m rfl rfl
      simp only [List.getElem?_cons_zero, Option.map_some, Option.some.injEq] at h0
      have h1 := hw 0 l.1 l.2 rfl
      have hwr : m.write l.1 v = .ok { m with out := m.out.set k v } := by simp only [Mem.write, h1, Nat.add_zero]
      simp only [runLines, List.foldlM_cons, bind, Except.bind, ← h0, hwr]
      have := ih vals { m with out := m.out.set k v } (k + 1) (pre ++ [v]) post
        (by
          simp only [hm]
          rw [List.set_append_right _ _ (by omega), hpre, Nat.sub_self]; simp)
        (by simp [hpre]) (by simpa using hpost) (by simpa using hl)
        (fun j n e hj => by
          have := hw (j + 1) n e (by simpa using hj)
          rw [this]; congr 2; omega)
        (fun j n e hj m' hm1 hm2 => by
          have := hv (j + 1) n e (by simpa using hj) m' hm1 hm2
          simpa using this)
      obtain ⟨m', h2, h3, h4⟩ := this
      refine ⟨m', ?_, by simpa using h3, h4⟩
      simpa only [runLines, bind, Except.bind] using h2

end Sympkf.PDE
