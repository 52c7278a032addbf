import Verif.Model.PkfObject
import Verif.Props.Tree

/-!
# The caches of `SymbolicPKF` hold what would be computed
-/

set_option autoImplicit false

namespace Sympkf.PKF

open Text POD Rand

namespace M

variable {α β : Type}

instance : LawfulMonad M := LawfulMonad.mk' M
  (id_map := by
    intro α m; funext c
    show M.bind m (fun a => fun c => (.ok a, c)) c = m c
    unfold M.bind; rcases m c with ⟨_ | _, _⟩ <;> rfl)
  (pure_bind := by intros; rfl)
  (bind_assoc := by
    intro α β γ m f g; funext c
    show M.bind (M.bind m f) g c = M.bind m (fun a => M.bind (f a) g) c
    unfold M.bind; rcases m c with ⟨_ | _, _⟩ <;> rfl)

/-- In every state with `I`, the computation gives `r` and keeps `I`. -/
def Reads (I : Cache → Prop) (m : M α) (r : Except PyErr α) : Prop := ∀ c, I c → (m c).1 = r ∧ I (m c).2

variable {I : Cache → Prop}

/-- The value that is read, written in another way. -/
theorem Reads.cast {m : M α} {a b : Except PyErr α} (h : Reads I m a) (e : a = b) : Reads I m b := e ▸ h

theorem Reads.pure (a : α) : Reads I (Pure.pure a) (.ok a) := fun _ h => ⟨rfl, h⟩

theorem Reads.lift (r : Except PyErr α) : Reads I (M.lift r) r := fun _ h => ⟨rfl, h⟩

theorem Reads.bind {m : M α} {r : Except PyErr α} {f : α → M β} {g : α → Except PyErr β} (hm : Reads I m r)
    (hf : ∀ a, r = .ok a → Reads I (f a) (g a)) : Reads I (m >>= f) (r >>= g) := by
  intro c hc
  obtain ⟨h1, h2⟩ := hm c hc
  show (M.bind m f c).1 = _ ∧ I (M.bind m f c).2
  unfold M.bind
  rcases hmc : m c with ⟨e | a, c'⟩
  · rw [hmc] at h1 h2
    subst h1
    exact ⟨rfl, h2⟩
  · rw [hmc] at h1 h2
    subst h1
    exact hf a rfl c' h2

theorem Reads.map {m : M α} {r : Except PyErr α} (f : α → β) (hm : Reads I m r) :
    Reads I (do return f (← m)) (do return f (← r)) := hm.bind (fun _ _ => Reads.pure _)

theorem Reads.mapM (l : List α) {f : α → M β} {g : α → Except PyErr β} (hf : ∀ a ∈ l, Reads I (f a) (g a)) :
    Reads I (l.mapM f) (l.mapM g) := by
  induction l with
  | nil => simp only [List.mapM_nil]; exact Reads.pure _
  | cons a l ih =>
    simp only [List.mapM_cons]
    exact (hf a List.mem_cons_self).bind (fun _ _ => (ih (fun b hb => hf b (List.mem_cons_of_mem _ hb))).bind (fun _ _ => Reads.pure _))

theorem Reads.foldlM (l : List α) {f : β → α → M β} {g : β → α → Except PyErr β} (hf : ∀ b, ∀ a ∈ l, Reads I (f b a) (g b a)) (b : β) :
    Reads I (l.foldlM f b) (l.foldlM g b) := by
  induction l generalizing b with
  | nil => simp only [List.foldlM_nil]; exact Reads.pure _
  | cons a l ih =>
    simp only [List.foldlM_cons]
    exact (hf b a List.mem_cons_self).bind (fun _ _ => ih (fun b a ha => hf b a (List.mem_cons_of_mem _ ha)) _)

theorem Reads.lazy {get : Cache → Option α} {set : Cache → α → Cache} {m : M α} {r : Except PyErr α}
    (hg : ∀ c, I c → ∀ v, get c = some v → r = .ok v) (hs : ∀ c v, I c → r = .ok v → I (set c v)) (hm : Reads I m r) :
    Reads I (M.lazy get set m) r := by
  intro c hc
  unfold M.lazy
  rcases hget : get c with _ | v
  · obtain ⟨h1, h2⟩ := hm c hc
    rcases hmc : m c with ⟨e | v, c'⟩
    · rw [hmc] at h1 h2
      exact ⟨h1, h2⟩
    · rw [hmc] at h1 h2
      exact ⟨h1, hs _ _ h2 h1.symm⟩
  · exact ⟨(hg c hc v hget).symm, hc⟩

/-- The computation keeps `I`. -/
def Keeps (I : Cache → Prop) (m : M α) : Prop := ∀ c, I c → I (m c).2

theorem Reads.keeps {m : M α} {r : Except PyErr α} (h : Reads I m r) : Keeps I m := fun c hc => (h c hc).2

theorem Keeps.bind {m : M α} {f : α → M β} (hm : Keeps I m) (hf : ∀ a, Keeps I (f a)) : Keeps I (m >>= f) := by
  intro c hc
  have h := hm c hc
  show I (M.bind m f c).2
  unfold M.bind
  rcases hmc : m c with ⟨e | a, c'⟩
  · rw [hmc] at h; exact h
  · rw [hmc] at h; exact hf a c' h

theorem Keeps.foldlM (l : List α) {f : β → α → M β} (hf : ∀ b, ∀ a ∈ l, Keeps I (f b a)) (b : β) : Keeps I (l.foldlM f b) := by
  induction l generalizing b with
  | nil => simp only [List.foldlM_nil]; exact (Reads.pure _).keeps
  | cons a l ih =>
    simp only [List.foldlM_cons]
    exact (hf b a List.mem_cons_self).bind (fun _ => ih (fun b a ha => hf b a (List.mem_cons_of_mem _ ha)) _)

end M

namespace Pkf

open M (Reads Keeps)

/-- The conditions under which nothing is left half done: the internal closure and the cross-covariances can be computed, and
the trees are those of fields with distinct spatial coordinates. -/
structure Computable (K : Pkf) : Prop where
  closure : ∃ d, K.closure = .ok d
  cross : ∃ x, K.crossSystem = .ok x
  order : ∀ g l, (K.order g l).Perm l
  spatial : ∀ f ∈ K.fields, f.spatial ≠ [] ∧ f.spatial.Nodup ∧ omega ∉ f.spatial

/-- Every cache is empty or holds what would be computed; `X` and `Y` are about `_cross_covariance_system` and
`_internal_closure`, which the code fills step by step. -/
structure Good (K : Pkf) (user : Dict Ex Ex) (X : Option (List Eqn) → Prop) (Y : Option (Dict Ex Ex) → Prop) (c : Cache) : Prop where
  first : ∀ l, c.first = some l → K.firstOrder = .ok l
  second : ∀ l, c.second = some l → K.secondOrder = .ok l
  expectation : ∀ l, c.expectation = some l → K.expectationSystem = .ok l
  tl : ∀ l, c.tl = some l → K.tlExpectation = .ok l
  error : ∀ l, c.error = some l → K.errorSystem = .ok l
  epsilon : ∀ l, c.epsilon = some l → K.epsilonSystem = .ok l
  variance : ∀ l, c.variance = some l → K.varianceSystem = .ok l
  metric : ∀ l, c.metric = some l → K.metricSystem = .ok l
  inMetric : ∀ l, c.inMetric = some l → K.inMetric user = .ok l
  inDiffusion : ∀ l, c.inDiffusion = some l → K.inDiffusion user = .ok l
  inAspect : ∀ l, c.inAspect = some l → K.inAspect user = .ok l
  fields : ∀ f d, c.fields f = some d → f.internalClosure K.order = .ok d
  trees : ∀ f ∈ K.fields, Tree.Reachable K.order f.spatial true (c.trees f)
  cross : X c.cross
  internal : Y c.internal

/-- `_internal_closure` is empty or complete. -/
def ClosureOk (K : Pkf) (y : Option (Dict Ex Ex)) : Prop := ∀ d, y = some d → K.closure = .ok d

/-- `_cross_covariance_system` is empty or complete. -/
def CrossOk (K : Pkf) (x : Option (List Eqn)) : Prop := ∀ l, x = some l → K.crossSystem = .ok (some l)

variable {K : Pkf} {user : Dict Ex Ex} {X : Option (List Eqn) → Prop} {Y : Option (Dict Ex Ex) → Prop}

theorem good_init : Good K user (CrossOk K) (ClosureOk K) Cache.init where
  first := by intro l h; cases h
  second := by intro l h; cases h
  expectation := by intro l h; cases h
  tl := by intro l h; cases h
  error := by intro l h; cases h
  epsilon := by intro l h; cases h
  variance := by intro l h; cases h
  metric := by intro l h; cases h
  inMetric := by intro l h; cases h
  inDiffusion := by intro l h; cases h
  inAspect := by intro l h; cases h
  fields := by intro f l h; cases h
  trees := fun _ _ => ⟨[], rfl⟩
  cross := by intro l h; cases h
  internal := by intro l h; cases h

theorem reads_compute {c : Cache} (hc : Good K user X Y c) :
    (∃ r c', K.reynolds = .ok r ∧ K.computeReynolds c = (.ok (), c') ∧ Good K user X Y c' ∧ c'.first = some (r.map Prod.snd) ∧
      c'.second = some (r.map Prod.fst)) ∨
    (∃ e, K.reynolds = .error e ∧ K.computeReynolds c = (.error e, c)) := by
  rcases hr : K.reynolds with e | r
  · right
    refine ⟨e, rfl, ?_⟩
    show M.bind (M.lift K.reynolds) _ c = _
    unfold M.bind M.lift
    rw [hr]
  · left
    refine ⟨r, { c with first := some (r.map Prod.snd), second := some (r.map Prod.fst) }, rfl, ?_, ?_, rfl, rfl⟩
    · show M.bind (M.lift K.reynolds) _ c = _
      unfold M.bind M.lift
      rw [hr]
      rfl
    · exact { hc with
        first := by
          intro l hl
          cases hl
          unfold firstOrder; rw [hr]; rfl
        second := by
          intro l hl
          cases hl
          unfold secondOrder; rw [hr]; rfl }

theorem reads_first : Reads (Good K user X Y) K.readFirst K.firstOrder := by
  intro c hc
  unfold readFirst
  rcases hf : c.first with _ | l
  · rcases reads_compute hc with ⟨r, c', h1, h2, h3, h4, h5⟩ | ⟨e, h1, h2⟩
    · have : (do K.computeReynolds; fun c => (.ok (c.first.getD []), c) : M (List Eqn)) c = (.ok (r.map Prod.snd), c') := by
        show M.bind _ _ c = _
        unfold M.bind
        rw [h2]
        simp [h4]
      simp only [this]
      refine ⟨?_, h3⟩
      unfold firstOrder; rw [h1]; rfl
    · have : (do K.computeReynolds; fun c => (.ok (c.first.getD []), c) : M (List Eqn)) c = (.error e, c) := by
        show M.bind _ _ c = _
        unfold M.bind
        rw [h2]
      simp only [this]
      refine ⟨?_, hc⟩
      unfold firstOrder; rw [h1]; rfl
  · exact ⟨(hc.first l hf).symm, hc⟩

theorem reads_second : Reads (Good K user X Y) K.readSecond K.secondOrder := by
  intro c hc
  unfold readSecond
  rcases hf : c.second with _ | l
  · rcases reads_compute hc with ⟨r, c', h1, h2, h3, h4, h5⟩ | ⟨e, h1, h2⟩
    · have : (do K.computeReynolds; fun c => (.ok (c.second.getD []), c) : M (List Eqn)) c = (.ok (r.map Prod.fst), c') := by
        show M.bind _ _ c = _
        unfold M.bind
        rw [h2]
        simp [h5]
      simp only [this]
      refine ⟨?_, h3⟩
      unfold secondOrder; rw [h1]; rfl
    · have : (do K.computeReynolds; fun c => (.ok (c.second.getD []), c) : M (List Eqn)) c = (.error e, c) := by
        show M.bind _ _ c = _
        unfold M.bind
        rw [h2]
      simp only [this]
      refine ⟨?_, hc⟩
      unfold secondOrder; rw [h1]; rfl
  · exact ⟨(hc.second l hf).symm, hc⟩

theorem reads_field (f : Field) : Reads (Good K user X Y) (K.readField f) (f.internalClosure K.order) := by
  refine Reads.lazy (fun c hc d hd => hc.fields f d hd) (fun c d hc hd => ?_) (Reads.lift _)
  exact { hc with
    fields := by
      intro g e hg
      by_cases hgf : g = f
      · subst hgf
        simp only [Function.update_self, Option.some.injEq] at hg
        exact hg ▸ hd
      · simp only [Function.update_of_ne hgf] at hg
        exact hc.fields g e hg }

theorem fill_fields (l : List Field) (d d' : Dict Ex Ex) (c : Cache) (hc : Good K user X (· = some d) c)
    (h : l.foldlM (fun (c : Dict Ex Ex) f => do return c.update (← f.internalClosure K.order)) d = .ok d') :
    ∃ c', l.forM K.fillField c = (.ok (), c') ∧ Good K user X (· = some d') c' := by
  induction l generalizing d c with
  | nil => cases h; exact ⟨c, rfl, hc⟩
  | cons f l ih =>
    simp only [List.foldlM_cons] at h
    rcases hf : f.internalClosure K.order with e | df
    · rw [hf] at h; cases h
    · rw [hf] at h
      obtain ⟨h1, h2⟩ := reads_field f c hc
      rw [hf] at h1
      have hstep : K.fillField f c = (.ok (), { (K.readField f c).2 with internal := some (d.update df) }) := by
        show M.bind (K.readField f) _ c = _
        unfold M.bind
        rcases hrc : K.readField f c with ⟨e | a, c'⟩
        · rw [hrc] at h1; cases h1
        · rw [hrc] at h1 h2
          cases h1
          show (Except.ok (), { c' with internal := some ((c'.internal.getD []).update df) }) = _
          rw [show c'.internal = some d from h2.internal]
          rfl
      obtain ⟨c', h3, h4⟩ := ih (d.update df) { (K.readField f c).2 with internal := some (d.update df) }
        { h2 with internal := rfl } h
      refine ⟨c', ?_, h4⟩
      show M.bind (K.fillField f) (fun _ => l.forM K.fillField) c = _
      unfold M.bind
      rw [hstep]
      exact h3

theorem fill_couples (l : List (Field × Field)) (d d' : Dict Ex Ex) (c : Cache) (hc : Good K user X (· = some d) c)
    (h : l.foldlM (coupleEntries label K.fields) d = .ok d') :
    ∃ c', l.forM K.fillCouple c = (.ok (), c') ∧ Good K user X (· = some d') c' := by
  induction l generalizing d c with
  | nil => cases h; exact ⟨c, rfl, hc⟩
  | cons p l ih =>
    simp only [List.foldlM_cons] at h
    rcases hp : coupleEntries label K.fields d p with e | dp
    · rw [hp] at h; cases h
    · rw [hp] at h
      have hstep : K.fillCouple p c = (.ok (), { c with internal := some dp }) := by
        unfold fillCouple
        rw [show c.internal = some d from hc.internal]
        simp [hp]
      obtain ⟨c', h3, h4⟩ := ih dp { c with internal := some dp } { hc with internal := rfl } h
      refine ⟨c', ?_, h4⟩
      show M.bind (K.fillCouple p) (fun _ => l.forM K.fillCouple) c = _
      unfold M.bind
      rw [hstep]
      exact h3

theorem reads_closure (h : K.Computable) : Reads (Good K user X (ClosureOk K)) K.readClosure K.closure := by
  obtain ⟨d, hd⟩ := h.closure
  intro c hc
  unfold readClosure
  rcases hi : c.internal with _ | d'
  · have hd0 := hd
    unfold closure internalClosure at hd
    simp only [bind, Except.bind] at hd
    split at hd
    · cases hd
    rename_i d1 h1
    obtain ⟨c1, h2, h3⟩ := fill_fields (user := user) (X := X) K.fields [] d1 { c with internal := some [] } { hc with internal := rfl } h1
    obtain ⟨c2, h4, h5⟩ := fill_couples (couples K.fields) d1 d c1 h3 hd
    have : (do
      M.modify (fun c => { c with internal := some [] })
      K.fields.forM K.fillField
      (couples K.fields).forM K.fillCouple
      fun c => (.ok (c.internal.getD []), c) : M (Dict Ex Ex)) c = (.ok d, c2) := by
      show M.bind (K.fields.forM K.fillField) _ { c with internal := some [] } = _
      unfold M.bind
      rw [h2]
      show M.bind ((couples K.fields).forM K.fillCouple) _ c1 = _
      unfold M.bind
      rw [h4]
      simp [show c2.internal = some d from h5.internal]
    simp only [this]
    refine ⟨hd0.symm, { h5 with internal := ?_ }⟩
    intro e he
    rw [show c2.internal = some d from h5.internal] at he
    cases he
    exact hd0
  · exact ⟨(hc.internal d' hi).symm, hc⟩

theorem history_snoc (order : ℕ → List (List ℤ) → List (List ℤ)) (coords : List Str) (b : Bool) (ds : List (Option ℕ)) (d : Option ℕ)
    (s : Tree.State) : Tree.history order coords b (ds ++ [d]) s =
      (do Tree.history order coords b [d] (← Tree.history order coords b ds s)) := by
  induction ds generalizing s with
  | nil => rfl
  | cons e ds ih =>
    simp only [List.cons_append, Tree.history, bind, Except.bind]
    rcases Tree.call order coords b e s with e' | r
    · rfl
    · exact ih r.2

/-- A read of the tree gives what a new tree gives. -/
theorem reads_tree (h : K.Computable) (f : Field) (hf : f ∈ K.fields) (n : ℕ) :
    Reads (Good K user X Y) (K.readTree f (some n)) (do return (← Tree.call K.order f.spatial true (some n) Tree.State.init).1) := by
  intro c hc
  obtain ⟨h0, hn, ho⟩ := h.spatial f hf
  obtain ⟨ds, hds⟩ := hc.trees f hf
  obtain ⟨s, tree, s', s'', h1, h2, h3⟩ := Tree.C39_tree_history K.order h.order f.spatial h0 hn ho true ds n
  rw [hds] at h1
  cases h1
  unfold readTree
  rw [h2, h3]
  refine ⟨rfl, { hc with trees := ?_ }⟩
  intro g hg
  by_cases hgf : g = f
  · subst hgf
    simp only [Function.update_self]
    refine ⟨ds ++ [some n], ?_⟩
    rw [history_snoc, hds]
    simp only [bind, Except.bind, Tree.history]
    rw [h2]
  · simp only [Function.update_of_ne hgf]
    exact hc.trees g hg

theorem reads_tree_none (f : Field) (hf : f ∈ K.fields) (c : Cache) (hc : Good K user X Y c) :
    Good K user X Y (K.readTree f none c).2 := by
  obtain ⟨ds, hds⟩ := hc.trees f hf
  unfold readTree
  rcases hcall : Tree.call K.order f.spatial true none (c.trees f) with e | r
  · exact hc
  · refine { hc with trees := ?_ }
    intro g hg
    by_cases hgf : g = f
    · subst hgf
      simp only [Function.update_self]
      refine ⟨ds ++ [none], ?_⟩
      rw [history_snoc, hds]
      simp only [bind, Except.bind, Tree.history]
      rw [hcall]
    · simp only [Function.update_of_ne hgf]
      exact hc.trees g hg

theorem reads_closeTree (h : K.Computable) (d : Dict Ex Ex) (hd : K.closure = .ok d) (f : Field) (tree : Dict Tree.Term Tree.TEx) :
    Reads (Good K user X (ClosureOk K)) (K.closeTree f tree) (.ok (Dict.update [] (tree.map (fun kv =>
      (eval (ofTree f.spatial f.epsilon (.term kv.1)), K.subs d (ofTree f.spatial f.epsilon kv.2)))))) := by
  unfold closeTree
  by_cases ht : tree = []
  · subst ht
    simp only [if_true]
    exact Reads.pure _
  · simp only [if_neg ht]
    have := (reads_closure (user := user) (X := X) h).map (fun c => Dict.update ([] : Dict Ex Ex) (tree.map (fun kv =>
      (eval (ofTree f.spatial f.epsilon (.term kv.1)), K.subs c (ofTree f.spatial f.epsilon kv.2)))))
    rw [hd] at this
    exact this

theorem fieldOf_mem (eps : Ex) (f : Field) (h : K.fieldOf eps = some f) : f ∈ K.fields :=
  List.mem_reverse.1 (List.mem_of_find?_eq_some h)

theorem reads_runTree (h : K.Computable) (d : Dict Ex Ex) (hd : K.closure = .ok d) (unis : List (Ex × ℕ)) (rhs eps : Ex) :
    Reads (Good K user X (ClosureOk K)) (K.runTree unis rhs eps) (K.applyTree d unis rhs eps) := by
  unfold runTree applyTree
  rcases hf : K.fieldOf eps with _ | f
  · exact Reads.lift _
  · simp only
    generalize ((unis.filter (fun u => u.1 = eps)).map Prod.snd).foldr max 0 = n
    have h1 := reads_tree (user := user) (X := X) (Y := ClosureOk K) h f (fieldOf_mem eps f hf) n
    refine (h1.bind (fun tree _ => (reads_closeTree h d hd f tree).bind (fun _ _ => Reads.pure _))).cast ?_
    unfold closedTree
    simp only [bind, Except.bind, pure, Except.pure]
    rcases Tree.call K.order f.spatial true (some n) Tree.State.init with _ | _ <;> rfl

theorem reads_internal (h : K.Computable) (d : Dict Ex Ex) (hd : K.closure = .ok d) (rhs : Ex) :
    Reads (Good K user X (ClosureOk K)) (K.runInternal rhs) (K.applyInternal d rhs) := by
  unfold runInternal applyInternal
  simp only
  split
  · exact Reads.lift _
  · refine Reads.bind (Reads.foldlM _ (fun b a _ => reads_runTree h d hd _ b a) rhs) (fun a _ => ?_)
    have := (reads_closure (user := user) (X := X) h).map (fun c => K.subs c a)
    rw [hd] at this
    exact this

theorem mapM_pure {α β : Type} (l : List α) (g : α → β) :
    l.mapM (fun a => (.ok (g a) : Except PyErr β)) = .ok (l.map g) := by
  induction l with
  | nil => rfl
  | cons a l ih => simp only [List.mapM_cons, ih, List.map_cons]; rfl

theorem reads_expectation (h : K.Computable) : Reads (Good K user X (ClosureOk K)) K.readExpectation K.expectationSystem := by
  obtain ⟨d, hd⟩ := h.closure
  refine Reads.lazy (fun c hc l hl => hc.expectation l hl) (fun c l hc hl => { hc with expectation := fun _ h' => by cases h'; exact hl }) ?_
  unfold expectationSystem
  refine Reads.bind reads_second (fun second _ => ?_)
  refine (Reads.mapM second (fun q _ => (reads_closure h).map _)).cast ?_
  rw [hd]
  exact mapM_pure second _

theorem reads_tl (h : K.Computable) : Reads (Good K user X (ClosureOk K)) K.readTl K.tlExpectation := by
  obtain ⟨d, hd⟩ := h.closure
  refine Reads.lazy (fun c hc l hl => hc.tl l hl) (fun c l hc hl => { hc with tl := fun _ h' => by cases h'; exact hl }) ?_
  unfold tlExpectation
  refine Reads.bind reads_first (fun first _ => ?_)
  refine (Reads.mapM first (fun q _ => (reads_closure h).map _)).cast ?_
  rw [hd]
  exact mapM_pure first _

theorem reads_error (h : K.Computable) : Reads (Good K user X (ClosureOk K)) K.readError K.errorSystem := by
  refine Reads.lazy (fun c hc l hl => hc.error l hl) (fun c l hc hl => { hc with error := fun _ h' => by cases h'; exact hl }) ?_
  exact Reads.bind reads_first (fun first _ => Reads.bind (reads_tl h) (fun tl _ => Reads.pure _))

theorem reads_variance (h : K.Computable) : Reads (Good K user X (ClosureOk K)) K.readVariance K.varianceSystem := by
  obtain ⟨d, hd⟩ := h.closure
  refine Reads.lazy (fun c hc l hl => hc.variance l hl) (fun c l hc hl => { hc with variance := fun _ h' => by cases h'; exact hl }) ?_
  unfold varianceSystem
  refine Reads.bind (reads_error h) (fun errors _ => ?_)
  rw [hd]
  exact Reads.mapM K.fields (fun f _ => (reads_internal h d hd _).map _)

theorem reads_epsilon (h : K.Computable) : Reads (Good K user X (ClosureOk K)) K.readEpsilon K.epsilonSystem := by
  refine Reads.lazy (fun c hc l hl => hc.epsilon l hl) (fun c l hc hl => { hc with epsilon := fun _ h' => by cases h'; exact hl }) ?_
  exact Reads.bind (reads_error h) (fun first _ => Reads.bind (reads_variance h) (fun tl _ => Reads.pure _))

theorem reads_metric (h : K.Computable) : Reads (Good K user X (ClosureOk K)) K.readMetric K.metricSystem := by
  obtain ⟨d, hd⟩ := h.closure
  refine Reads.lazy (fun c hc l hl => hc.metric l hl) (fun c l hc hl => { hc with metric := fun _ h' => by cases h'; exact hl }) ?_
  unfold metricSystem
  refine Reads.bind (reads_epsilon h) (fun errors _ => ?_)
  rw [hd]
  exact Reads.mapM _ (fun f _ => (reads_internal h d hd _).map _)

theorem fill_cross (h : K.Computable) (d : Dict Ex Ex) (hd : K.closure = .ok d) (errors : Dict Ex Ex) (l : List (Field × Field))
    (acc res : List Eqn) (c : Cache) (hc : Good K user (· = some acc) (ClosureOk K) c) (hres : l.mapM (K.crossEq d errors) = .ok res) :
    ∃ c', l.forM (K.fillCross errors) c = (.ok (), c') ∧ Good K user (· = some (acc ++ res)) (ClosureOk K) c' := by
  induction l generalizing acc res c with
  | nil => cases hres; exact ⟨c, rfl, by simpa using hc⟩
  | cons p l ih =>
    simp only [List.mapM_cons] at hres
    rcases hp : K.crossEq d errors p with e | q
    · rw [hp] at hres; cases hres
    rw [hp] at hres
    rcases hl : l.mapM (K.crossEq d errors) with e | qs
    · rw [hl] at hres; cases hres
    rw [hl] at hres
    cases hres
    have hread : Reads (Good K user (· = some acc) (ClosureOk K)) (do
        let c ← K.readClosure
        let v12 ← M.lift (Dict.getItem c (.ex (.mul p.1.error p.2.error)))
        let rhs ← K.runInternal (K.subs K.subsError (K.subs errors (.ex (dt (.mul p.1.error p.2.error)))))
        return (dt v12, eval rhs)) (K.crossEq d errors p) := by
      unfold crossEq
      refine (Reads.bind (reads_closure h) (g := fun c => do
        let v12 ← Dict.getItem c (.ex (.mul p.1.error p.2.error))
        let rhs ← K.applyInternal d (K.subs K.subsError (K.subs errors (.ex (dt (.mul p.1.error p.2.error)))))
        return (dt v12, eval rhs)) (fun c _ => Reads.bind (Reads.lift _) (fun v _ => Reads.bind (reads_internal h d hd _)
          (fun _ _ => Reads.pure _)))).cast ?_
      rw [hd]
      rfl
    obtain ⟨h1, h2⟩ := hread c hc
    have hsplit : K.fillCross errors p = ((do
        let c ← K.readClosure
        let v12 ← M.lift (Dict.getItem c (.ex (.mul p.1.error p.2.error)))
        let rhs ← K.runInternal (K.subs K.subsError (K.subs errors (.ex (dt (.mul p.1.error p.2.error)))))
        return (dt v12, eval rhs) : M Eqn) >>= fun q => M.modify (fun c => { c with cross := some (c.cross.getD [] ++ [q]) })) := by
      unfold fillCross
      simp only [bind_assoc, pure_bind]
    generalize (do
        let c ← K.readClosure
        let v12 ← M.lift (Dict.getItem c (.ex (.mul p.1.error p.2.error)))
        let rhs ← K.runInternal (K.subs K.subsError (K.subs errors (.ex (dt (.mul p.1.error p.2.error)))))
        return (dt v12, eval rhs) : M Eqn) = m at h1 h2 hsplit
    rcases hm : m c with ⟨e | q', c'⟩
    · rw [hm, hp] at h1; cases h1
    rw [hm] at h1 h2
    rw [hp] at h1
    cases h1
    have hstep : K.fillCross errors p c = (.ok (), { c' with cross := some (acc ++ [q]) }) := by
      rw [hsplit]
      show M.bind m _ c = _
      unfold M.bind
      rw [hm]
      show (Except.ok (), { c' with cross := some (c'.cross.getD [] ++ [q]) }) = _
      rw [show c'.cross = some acc from h2.cross]
      rfl
    obtain ⟨c2, h3, h4⟩ := ih (acc ++ [q]) qs { c' with cross := some (acc ++ [q]) } { h2 with cross := rfl } hl
    refine ⟨c2, ?_, by simpa using h4⟩
    show M.bind (K.fillCross errors p) (fun _ => l.forM (K.fillCross errors)) c = _
    unfold M.bind
    rw [hstep]
    exact h3

theorem reads_cross (h : K.Computable) : Reads (Good K user (CrossOk K) (ClosureOk K)) K.readCross K.crossSystem := by
  obtain ⟨d, hd⟩ := h.closure
  obtain ⟨x, hx⟩ := h.cross
  intro c hc
  unfold readCross
  rcases hi : c.cross with _ | l
  · simp only
    by_cases h1 : K.fields.length = 1
    · simp only [if_pos h1]
      exact ⟨by unfold crossSystem; rw [if_pos h1]; rfl, hc⟩
    · simp only [if_neg h1]
      have hx0 := hx
      unfold crossSystem at hx
      rw [if_neg h1] at hx
      rcases he : K.errorSystem with e | errors
      · rw [he] at hx; cases hx
      rw [he, hd] at hx
      simp only [bind, Except.bind, pure, Except.pure] at hx
      split at hx
      · cases hx
      rename_i res hres
      cases hx
      obtain ⟨h2, h3⟩ := reads_error h c hc
      rw [he] at h2
      rcases hm : K.readError c with ⟨e | q', c'⟩
      · rw [hm] at h2; cases h2
      rw [hm] at h2 h3
      cases h2
      obtain ⟨c2, h4, h5⟩ := fill_cross h d hd (trends errors) (couples K.fields) [] res { c' with cross := some [] }
        { h3 with cross := rfl } hres
      have : (do
          let errors ← K.readError
          M.modify (fun c => { c with cross := some [] })
          (couples K.fields).forM (K.fillCross (trends errors))
          fun c => (.ok c.cross, c) : M (Option (List Eqn))) c = (.ok (some res), c2) := by
        show M.bind K.readError _ c = _
        unfold M.bind
        rw [hm]
        show M.bind ((couples K.fields).forM (K.fillCross (trends errors))) _ { c' with cross := some [] } = _
        unfold M.bind
        rw [h4]
        show (Except.ok c2.cross, c2) = _
        rw [show c2.cross = some ([] ++ res) from h5.cross]
        rfl
      simp only [this]
      refine ⟨hx0.symm, { h5 with cross := ?_ }⟩
      intro l hl
      rw [show c2.cross = some ([] ++ res) from h5.cross] at hl
      cases hl
      exact hx0
  · exact ⟨(hc.cross l hi).symm, hc⟩

theorem reads_inMetric (h : K.Computable) : Reads (Good K user (CrossOk K) (ClosureOk K)) (K.readInMetric user) (K.inMetric user) := by
  refine Reads.lazy (fun c hc l hl => hc.inMetric l hl) (fun c l hc hl => { hc with inMetric := fun _ h' => by cases h'; exact hl }) ?_
  exact Reads.bind (reads_expectation h) (fun _ _ => Reads.bind (reads_variance h) (fun _ _ => Reads.bind (reads_cross h)
    (fun _ _ => Reads.bind (reads_metric h) (fun _ _ => Reads.pure _))))

theorem reads_inDiffusion (h : K.Computable) :
    Reads (Good K user (CrossOk K) (ClosureOk K)) (K.readInDiffusion user) (K.inDiffusion user) := by
  refine Reads.lazy (fun c hc l hl => hc.inDiffusion l hl) (fun c l hc hl => { hc with inDiffusion := fun _ h' => by cases h'; exact hl }) ?_
  exact Reads.bind (reads_metric h) (fun _ _ => Reads.bind (reads_expectation h) (fun _ _ => Reads.bind (reads_variance h)
    (fun _ _ => Reads.pure _)))

theorem reads_inAspect (h : K.Computable) :
    Reads (Good K user (CrossOk K) (ClosureOk K)) (K.readInAspect user) (K.inAspect user) := by
  refine Reads.lazy (fun c hc l hl => hc.inAspect l hl) (fun c l hc hl => { hc with inAspect := fun _ h' => by cases h'; exact hl }) ?_
  exact Reads.bind (reads_metric h) (fun _ _ => Reads.bind (reads_expectation h) (fun _ _ => Reads.bind (reads_variance h)
    (fun _ _ => Reads.bind (reads_cross h) (fun _ _ => Reads.pure _))))

theorem reads_unclosed (h : K.Computable) :
    Reads (Good K user (CrossOk K) (ClosureOk K)) (K.readUnclosed user) (K.unclosedTerms user) :=
  (reads_inMetric h).map _

/-- Reading `subs_tree` keeps the caches right. -/
theorem keeps_subsTree (h : K.Computable) : Keeps (Good K user X (ClosureOk K)) K.readSubsTree := by
  obtain ⟨dd, hd⟩ := h.closure
  refine Keeps.foldlM K.fields (fun d f hf => ?_) []
  exact Keeps.bind (fun c hc => reads_tree_none f hf c hc) (fun tree => Keeps.bind (reads_closeTree h dd hd f tree).keeps
    (fun _ => (Reads.pure _).keeps))

end Pkf
end Sympkf.PKF
