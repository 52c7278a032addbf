import Mathlib.Data.List.Induction
import Mathlib.Data.List.Infix
import Verif.Spec.CodeObject
import Verif.Props.Render

/-!
# C111: objects of the class `Code`
-/

set_option autoImplicit false

namespace Sympkf.Text

open Spec

theorem step_read_none {w : List Code} {i : ℕ} (iter : List AppliedFun → List AppliedFun) (h : w[i]? = none) :
    (CodeOp.read i iter).step w = (w, some (.error .nameError)) := by simp only [CodeOp.step, h]

theorem step_read_some {w : List Code} {i : ℕ} {c : Code} (iter : List AppliedFun → List AppliedFun) (h : w[i]? = some c) :
    (CodeOp.read i iter).step w = (w.set i (c.read iter).2, some (c.read iter).1) := by simp only [CodeOp.step, h]

theorem step_assign_none {w : List Code} {i : ℕ} (e : Expression) (h : w[i]? = none) :
    (CodeOp.assign i e).step w = (w, some (.error .nameError)) := by simp only [CodeOp.step, h]

theorem step_assign_some {w : List Code} {i : ℕ} {c : Code} (e : Expression) (h : w[i]? = some c) :
    (CodeOp.assign i e).step w = (w.set i { c with expr := e }, none) := by simp only [CodeOp.step, h]

/-- Without caches a program only moves expressions. -/
theorem held_run (ops : List CodeOp) (w : List Code) :
    (runCode w ops).map Code.expr = ops.foldl (fun l op => match op with
      | .new e => l ++ [e]
      | .read _ _ => l
      | .assign i e => l.set i e) (w.map Code.expr) := by
  induction ops generalizing w with
  | nil => rfl
  | cons op ops ih =>
    show (runCode (op.step w).1 ops).map Code.expr = _
    rw [ih, List.foldl_cons]
    congr 1
    cases op with
    | new e => simp [CodeOp.step, Code.init]
    | read i iter =>
      show ((CodeOp.read i iter).step w).1.map Code.expr = w.map Code.expr
      cases h : w[i]? with
      | none => rw [step_read_none iter h]
      | some c =>
        rw [step_read_some iter h]
        have e : (c.read iter).2.expr = c.expr := by
          unfold Code.read
          cases c.cache with
          | some s => rfl
          | none => dsimp only; split <;> rfl
        show (w.set i (c.read iter).2).map Code.expr = w.map Code.expr
        rw [List.map_set, e]
        apply List.ext_getElem?
        intro j
        rw [List.getElem?_set]
        split_ifs with h1 h2
        · subst h1; rw [List.getElem?_map, h]; rfl
        · subst h1; rw [List.getElem?_map, h]; simp at h2; simp [List.getElem?_eq_none h2] at h
        · rfl
    | assign i e =>
      show ((CodeOp.assign i e).step w).1.map Code.expr = (w.map Code.expr).set i e
      cases h : w[i]? with
      | none =>
        rw [step_assign_none e h]
        show w.map Code.expr = _
        rw [List.set_eq_of_length_le]
        simpa using h
      | some c => rw [step_assign_some e h]; show (w.set i _).map Code.expr = _; rw [List.map_set]

/-- The expression of an object. -/
theorem held_getElem (ops : List CodeOp) (i : ℕ) : (held ops)[i]? = ((runCode [] ops)[i]?).map Code.expr := by
  rw [← List.getElem?_map, held_run]; rfl

theorem runCode_append (w : List Code) (a b : List CodeOp) : runCode w (a ++ b) = runCode (runCode w a) b := by
  unfold runCode; rw [List.foldl_append]

/-- A filled cache is never changed. -/
theorem cache_stays (ops : List CodeOp) (w : List Code) (i : ℕ) (c : Code) (s : Str) (h : w[i]? = some c) (hc : c.cache = some s) :
    ∃ c', (runCode w ops)[i]? = some c' ∧ c'.cache = some s := by
  induction ops generalizing w c with
  | nil => exact ⟨c, h, hc⟩
  | cons op ops ih =>
    have hlt : i < w.length := (List.getElem?_eq_some_iff.1 h).1
    show ∃ c', (runCode (op.step w).1 ops)[i]? = some c' ∧ _
    cases op with
    | new e => exact ih (w ++ [Code.init e]) c (by rw [List.getElem?_append_left hlt]; exact h) hc
    | read j iter =>
      cases hj : w[j]? with
      | none => rw [step_read_none iter hj]; exact ih w c h hc
      | some d =>
        rw [step_read_some iter hj]
        by_cases e : j = i
        · subst e
          obtain rfl : d = c := Option.some.inj (hj.symm.trans h)
          refine ih (w.set j (d.read iter).2) d ?_ hc
          rw [List.getElem?_set_self hlt]
          unfold Code.read; rw [hc]
        · exact ih (w.set j (d.read iter).2) c (by rw [List.getElem?_set_ne e]; exact h) hc
    | assign j e =>
      cases hj : w[j]? with
      | none => rw [step_assign_none e hj]; exact ih w c h hc
      | some d =>
        rw [step_assign_some e hj]
        by_cases e' : j = i
        · subst e'
          obtain rfl : d = c := Option.some.inj (hj.symm.trans h)
          exact ih (w.set j { d with expr := e }) _ (List.getElem?_set_self hlt) hc
        · exact ih (w.set j { d with expr := e }) c (by rw [List.getElem?_set_ne e']; exact h) hc

/-- The cache of an object whose expression is kept is the text of its expression in some order of the set. -/
theorem cache_rendered (ops : List CodeOp) (i : ℕ) (hk : Keeps i ops) (c : Code) (h : (runCode [] ops)[i]? = some c) (s : Str)
    (hc : c.cache = some s) : ∃ iter, CodeOp.read i iter ∈ ops ∧ rendered c.expr iter = .ok s := by
  induction ops using List.reverseRecOn generalizing c with
  | nil => simp [runCode] at h
  | append_singleton ops op ih =>
    have hk' : Keeps i ops := fun e he => hk e (List.mem_append_left _ he)
    rw [runCode_append] at h
    generalize hw : runCode [] ops = w at h ih
    have h : (op.step w).1[i]? = some c := h
    have old : w[i]? = some c → ∃ iter, CodeOp.read i iter ∈ ops ++ [op] ∧ rendered c.expr iter = .ok s := by
      intro hi
      obtain ⟨iter, hm, hr⟩ := ih hk' c hi hc
      exact ⟨iter, List.mem_append_left _ hm, hr⟩
    cases op with
    | new e =>
      simp only [CodeOp.step] at h
      by_cases hlt : i < w.length
      · rw [List.getElem?_append_left hlt] at h; exact old h
      · rw [List.getElem?_append_right (not_lt.1 hlt)] at h
        cases hi : i - w.length with
        | zero => rw [hi] at h; cases h; cases hc
        | succ n => rw [hi] at h; cases h
    | read j iter =>
      cases hj : w[j]? with
      | none => rw [step_read_none iter hj] at h; exact old h
      | some d =>
        rw [step_read_some iter hj] at h
        by_cases e : j = i
        · subst e
          have hlt : j < w.length := (List.getElem?_eq_some_iff.1 hj).1
          have h : (w.set j (d.read iter).2)[j]? = some c := h
          rw [List.getElem?_set_self hlt] at h
          obtain rfl := Option.some.inj h
          cases hd : d.cache with
          | some s' =>
            have e2 : (d.read iter).2 = d := by unfold Code.read; rw [hd]
            rw [e2] at hc ⊢
            obtain ⟨it, hm, hr⟩ := ih hk' d hj hc
            exact ⟨it, List.mem_append_left _ hm, hr⟩
          | none =>
            refine ⟨iter, List.mem_append_right _ (List.mem_singleton.2 rfl), ?_⟩
            unfold Code.read at hc ⊢
            rw [hd] at hc ⊢
            dsimp only at hc ⊢
            unfold rendered
            split at hc
            · rename_i s1 hs1
              cases hc
              exact hs1
            · rw [hd] at hc; cases hc
        · have h : (w.set j (d.read iter).2)[i]? = some c := h
          rw [List.getElem?_set_ne e] at h; exact old h
    | assign j e =>
      cases hj : w[j]? with
      | none => rw [step_assign_none e hj] at h; exact old h
      | some d =>
        rw [step_assign_some e hj] at h
        have e' : j ≠ i := by
          rintro rfl; exact hk e (List.mem_append_right _ (List.mem_singleton.2 rfl))
        have h : (w.set j { d with expr := e })[i]? = some c := h
        rw [List.getElem?_set_ne e'] at h; exact old h

/-- **C111** Every read of `code` of an object whose expression is not reassigned gives the text of its own expression, in the order
of the set at this read or at an earlier one, whatever else the program does with this and other objects.
Missing: objects whose attribute `expr` is assigned after a read (`C111_counterexample_stale`). -/
theorem C111_own_expression_partial (ops : List CodeOp) (i : ℕ) (hk : Keeps i ops) (iter : List AppliedFun → List AppliedFun)
    (e : Expression) (he : (held ops)[i]? = some e) :
    ∃ r, codeAfter ops i iter = some r ∧
      (r = rendered e iter ∨ ∃ iter', CodeOp.read i iter' ∈ ops ∧ r = rendered e iter' ∧ ∃ s, r = .ok s) := by
  rw [held_getElem] at he
  obtain ⟨c, hc, rfl⟩ := Option.map_eq_some_iff.1 he
  refine ⟨(c.read iter).1, ?_, ?_⟩
  · unfold codeAfter; rw [step_read_some iter hc]
  · cases hcache : c.cache with
    | some s =>
      obtain ⟨it, hm, hr⟩ := cache_rendered ops i hk c hc s hcache
      have e1 : (c.read iter).1 = .ok s := by unfold Code.read; rw [hcache]
      exact .inr ⟨it, hm, e1.trans hr.symm, s, e1⟩
    | none =>
      left
      unfold Code.read rendered
      rw [hcache]
      dsimp only
      split <;> (rename_i h; exact h.symm)

/-- **C111** Two reads: once `code` has been computed, it stays, whatever happens between the reads (also when other objects are
created and read, and when the order of the set changes). -/
theorem C111_stable (ops more : List CodeOp) (i : ℕ) (iter iter' : List AppliedFun → List AppliedFun) (s : Str)
    (h : codeAfter ops i iter = some (.ok s)) : codeAfter (ops ++ CodeOp.read i iter :: more) i iter' = some (.ok s) := by
  unfold codeAfter at h ⊢
  rw [runCode_append]
  generalize runCode [] ops = w at h ⊢
  cases hi : w[i]? with
  | none => rw [step_read_none iter hi] at h; cases h
  | some c =>
    rw [step_read_some iter hi] at h
    have h : (c.read iter).1 = .ok s := Option.some.inj h
    have hlt : i < w.length := (List.getElem?_eq_some_iff.1 hi).1
    have hcs : (c.read iter).2.cache = some s := by
      unfold Code.read at h ⊢
      cases hcache : c.cache with
      | some s' => rw [hcache] at h; cases h; exact hcache
      | none =>
        rw [hcache] at h
        dsimp only at h ⊢
        split at h
        · rename_i s1 hs1; cases h; rfl
        · cases h
    have hstep : ((CodeOp.read i iter).step w).1 = w.set i (c.read iter).2 := by rw [step_read_some iter hi]
    obtain ⟨c', hc', hs'⟩ := cache_stays more ((CodeOp.read i iter).step w).1 i (c.read iter).2 s
      (by rw [hstep, List.getElem?_set_self hlt]) hcs
    have e : runCode w (CodeOp.read i iter :: more) = runCode ((CodeOp.read i iter).step w).1 more := rfl
    rw [e, step_read_some iter' hc']
    unfold Code.read
    rw [hs']

/-- **C111** A failed read leaves no trace: while all reads of the object fail, each of them fails by itself. -/
theorem C111_failure (ops : List CodeOp) (i : ℕ) (hk : Keeps i ops) (e : Expression) (he : (held ops)[i]? = some e)
    (hf : ∀ iter, CodeOp.read i iter ∈ ops → ∀ s, rendered e iter ≠ .ok s) (iter : List AppliedFun → List AppliedFun) :
    codeAfter ops i iter = some (rendered e iter) := by
  obtain ⟨r, hr, h⟩ := C111_own_expression_partial ops i hk iter e he
  rcases h with rfl | ⟨it, hm, h, s, hs⟩
  · exact hr
  · exact absurd (h.symm.trans hs) (hf it hm s)

/-- **C111** `Code(f).code` of an applied function at shifts of the regular grid is what `_render_function` gives, when no increment
occurs in that text (`C111_counterexample_render` has one). -/
theorem C111_function_partial (f : AppliedFun) (xs : List Str) (code : Str) (hname : IsName f.name)
    (hargs : ∀ c ∈ joinArgs (f.args.map Arg.text), c ≠ '(' ∧ c ≠ ')' ∧ c ≠ '\'') (h : Coded f xs code)
    (hfree : ∀ x ∈ xs, ¬ ('d' :: x) <:+: code) (ops : List CodeOp) (i : ℕ) (hk : Keeps i ops)
    (he : (held ops)[i]? = some ⟨f.str, [f]⟩) (iter : List AppliedFun → List AppliedFun)
    (hi : ∀ it, it = iter ∨ CodeOp.read i it ∈ ops → (it [f]).Perm [f]) :
    codeAfter ops i iter = some (.ok code) ∧ codeRegularFunction sliceCodingRule f.name f.args = .ok code := by
  have key : ∀ it : List AppliedFun → List AppliedFun, (it [f]).Perm [f] → rendered ⟨f.str, [f]⟩ it = .ok code := by
    intro it hp
    have h1 := C23_render_partial (fun _ => xs) (fun _ => code) dxCodingRule [.call f] [f] trivial
      (by intro s hs; simp at hs) (by intro g hg; simpa using hg) (by intro x hx; simp at hx)
      (by intro g hg; obtain rfl := List.mem_singleton.1 hg; exact hname)
      (by intro g hg; obtain rfl := List.mem_singleton.1 hg; exact hargs)
      (by intro g hg; obtain rfl := List.mem_singleton.1 hg; exact h)
      (by intros; rfl)
      (by intro g hg k hk' _
          obtain rfl := List.mem_singleton.1 hg
          obtain rfl := List.mem_singleton.1 hk'
          rfl)
      (by
        intro x hx
        refine ⟨by intro s hs; simp at hs, fun g _ => hfree x (by simpa using hx), by intro y hy; simp at hy⟩)
      (List.pairwise_of_forall (by intro y x hy; simp at hy))
    unfold rendered
    rw [List.perm_singleton.1 hp]
    simpa [Tok.text, Tok.render] using h1
  refine ⟨?_, coded_code h⟩
  obtain ⟨r, hr, h1⟩ := C111_own_expression_partial ops i hk iter _ he
  rw [hr]
  rcases h1 with rfl | ⟨it, hm, rfl, -⟩
  · rw [key iter (hi iter (.inl rfl))]
  · rw [key it (hi it (.inr hm))]

/-! ## counterexamples and cases -/

/-- `f^u_xy(t + k*dt, x, y)` -/
def fuxy (k : ℤ) (text : Str) : AppliedFun :=
  ⟨"f^u_xy".toList, [printedArg "t".toList k text, printedArg "x".toList 0 "x".toList, printedArg "y".toList 0 "y".toList]⟩

/-- **C111** An expression that is assigned after a read is ignored: the object goes on to return the text of the former one. -/
theorem C111_counterexample_stale : ∃ (ops : List CodeOp) (e : Expression), (held ops)[0]? = some e ∧
    codeAfter ops 0 id = some (.ok "f_u_xyp1".toList) ∧ rendered e id = .ok "f_u_xym2".toList :=
  ⟨[.new ⟨(fuxy 1 "dt + t".toList).str, [fuxy 1 "dt + t".toList]⟩, .read 0 id,
    .assign 0 ⟨(fuxy (-2) "-2*dt + t".toList).str, [fuxy (-2) "-2*dt + t".toList]⟩],
    ⟨(fuxy (-2) "-2*dt + t".toList).str, [fuxy (-2) "-2*dt + t".toList]⟩, rfl, by decide +kernel, by decide +kernel⟩

/-- **C111** The text of `_render_function` and the property `code` differ when an increment occurs in it: the coordinate `ex` has the
increment `dex`, which is in `self.index`. -/
theorem C111_counterexample_render : ∃ f : AppliedFun,
    codeRegularFunction sliceCodingRule f.name f.args = .ok "u[np.ix_(self.index('ex',1))]".toList ∧
    codeAfter [.new ⟨f.str, [f]⟩] 0 id = some (.ok "u[np.ix_(self.inself.dx['ex']('ex',1))]".toList) :=
  ⟨⟨"u".toList, [printedArg "ex".toList 1 "dex + ex".toList]⟩, by decide +kernel, by decide +kernel⟩

/-- **C111** The tag of the time comes after the whole name (the documentation of `_render_function`, finite_difference.py 406-411,
announces `fp1_u_xy` and `fm2_u_xy`). -/
theorem C111_tag_position : codeAfter [.new ⟨(fuxy 1 "dt + t".toList).str, [fuxy 1 "dt + t".toList]⟩] 0 id
    = some (.ok "f_u_xyp1".toList) ∧ codeAfter [.new ⟨(fuxy (-2) "-2*dt + t".toList).str, [fuxy (-2) "-2*dt + t".toList]⟩] 0 id
    = some (.ok "f_u_xym2".toList) := by
  constructor <;> decide +kernel

/-- A case: two objects, read in turn. -/
example : codeAfter [.new ⟨(uTX 1 "dx + x".toList).str, [uTX 1 "dx + x".toList]⟩, .read 0 List.reverse,
    .new ⟨(fuxy 1 "dt + t".toList).str, [fuxy 1 "dt + t".toList]⟩, .read 1 id] 0 id = some (.ok ("u".toList ++ spaceText ["x".toList] [1])) :=
  (C111_function_partial (uTX 1 "dx + x".toList) ["t".toList, "x".toList] _ ⟨by decide, by decide⟩ (by decide)
    (coded_uTX 1 "dx + x".toList) (by
      intro x hx hin
      have : ('d' :: x) ∈ ("u".toList ++ spaceText ["x".toList] [1]).tails.flatMap List.inits := by
        obtain ⟨p, q, e⟩ := hin
        refine List.mem_flatMap.2 ⟨('d' :: x) ++ q, (List.mem_tails _ _).2 ⟨p, by rw [← List.append_assoc]; exact e⟩,
          (List.mem_inits _ _).2 ⟨q, rfl⟩⟩
      revert this
      simp only [List.mem_cons, List.not_mem_nil, or_false] at hx
      rcases hx with rfl | rfl <;> decide +kernel) _ 0
    (by intro e he; simp at he) rfl id (by
      rintro it (rfl | h)
      · exact .refl _
      · simp at h; subst h; exact .refl _)).1

/-- A function that is not on the regular grid fails at every read. -/
example : codeAfter [.new ⟨"u(t, dx/2 + x)".toList, [⟨"u".toList, [printedArg "t".toList 0 "t".toList,
    ⟨["x".toList, "dx".toList], fun s => if s = "dx".toList then 1 / 2 else 1, "dx/2 + x".toList⟩]⟩]⟩, .read 0 id] 0 id
    = some (.error .assertionError) := by decide +kernel

end Sympkf.Text
