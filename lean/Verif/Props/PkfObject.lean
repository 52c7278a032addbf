import Verif.Spec.PkfObject
import Verif.Lemmas.PkfObject
import Verif.Props.PkfSystems

/-!
# C54-C56: closures, caches and unclosed terms of `SymbolicPKF`
-/

set_option autoImplicit false

namespace Sympkf.PKF

open Text POD Rand Spec

namespace Pkf

open M (Reads Keeps)

variable {K : Pkf} {user : Dict Ex Ex}

/-- What a property is, computed without caches; `subs_tree` is not such a property. -/
def value (K : Pkf) (user : Dict Ex Ex) : Property → Except PyErr Value
  | .first => do return .system (some (← K.firstOrder))
  | .second => do return .system (some (← K.secondOrder))
  | .expectation => do return .system (some (← K.expectationSystem))
  | .tl => do return .system (some (← K.tlExpectation))
  | .error => do return .system (some (← K.errorSystem))
  | .variance => do return .system (some (← K.varianceSystem))
  | .epsilon => do return .system (some (← K.epsilonSystem))
  | .cross => do return .system (← K.crossSystem)
  | .metric => do return .system (some (← K.metricSystem))
  | .inMetric => do return .system (some (← K.inMetric user))
  | .inDiffusion => do return .system (some (← K.inDiffusion user))
  | .inAspect => do return .system (some (← K.inAspect user))
  | .closure => do return .dict (← K.closure)
  | .unclosed => do return .terms (← K.unclosedTerms user)
  | .subsTree => .ok (.dict [])

/-- The caches are right. -/
abbrev Right (K : Pkf) (user : Dict Ex Ex) : Cache → Prop := Good K user (CrossOk K) (ClosureOk K)

theorem reads_read (h : K.Computable) (p : Property) (hp : p ≠ .subsTree) : Reads (Right K user) (K.read user p) (K.value user p) := by
  cases p with
  | first => exact reads_first.map _
  | second => exact reads_second.map _
  | expectation => exact (reads_expectation h).map _
  | tl => exact (reads_tl h).map _
  | error => exact (reads_error h).map _
  | variance => exact (reads_variance h).map _
  | epsilon => exact (reads_epsilon h).map _
  | cross => exact (reads_cross h).map _
  | metric => exact (reads_metric h).map _
  | inMetric => exact (reads_inMetric h).map _
  | inDiffusion => exact (reads_inDiffusion h).map _
  | inAspect => exact (reads_inAspect h).map _
  | closure => exact (reads_closure h).map _
  | unclosed => exact (reads_unclosed h).map _
  | subsTree => exact absurd rfl hp

theorem keeps_read (h : K.Computable) (p : Property) : Keeps (Right K user) (K.read user p) := by
  by_cases hp : p = .subsTree
  · subst hp
    exact (keeps_subsTree h).bind (fun _ => (Reads.pure _).keeps)
  · exact (reads_read h p hp).keeps

/-- The state of an object after some reads; exceptions are caught by the program. -/
def after (K : Pkf) (user : Dict Ex Ex) (history : List Property) : Cache := history.foldl (fun c p => (K.read user p c).2) Cache.init

theorem right_after (h : K.Computable) (history : List Property) : Right K user (K.after user history) := by
  unfold after
  have : ∀ (l : List Property) (c : Cache), Right K user c → Right K user (l.foldl (fun c p => (K.read user p c).2) c) := by
    intro l
    induction l with
    | nil => intro c hc; exact hc
    | cons p l ih => intro c hc; exact ih _ (keeps_read h p c hc)
  exact this history Cache.init good_init

/-- **C55** Whatever was read before, a property returns (or raises) what it returns on a new object.
Not covered: `subs_tree`, and systems whose internal closure or cross-covariances cannot be computed; for them it is false. -/
theorem C55_order_partial (h : K.Computable) (history : List Property) (p : Property) (hp : p ≠ .subsTree) :
    (K.read user p (K.after user history)).1 = (K.read user p Cache.init).1 := by
  rw [(reads_read h p hp _ (right_after h history)).1, (reads_read h p hp _ good_init).1]

/-- **C55** What is read is the system studied in C45-C53. -/
theorem C55_value_partial (h : K.Computable) (history : List Property) (p : Property) (hp : p ≠ .subsTree) :
    (K.read user p (K.after user history)).1 = K.value user p :=
  (reads_read h p hp _ (right_after h history)).1

end Pkf

/-! ## Several objects -/

namespace World

open Pkf

/-- The caches of all objects are right for their closures, and no closure is shared. -/
structure Inv (w : World) : Prop where
  bound : ∀ o ∈ w.objs, o.ref < w.dicts.length
  nodup : (w.objs.map Obj.ref).Nodup
  right : ∀ o ∈ w.objs, Right o.pkf (w.user o) o.cache
  computable : ∀ o ∈ w.objs, o.pkf.Computable

theorem inv_init : Inv init :=
  ⟨fun _ h => (List.not_mem_nil h).elim, List.nodup_nil, fun _ h => (List.not_mem_nil h).elim, fun _ h => (List.not_mem_nil h).elim⟩

theorem user_append (w : World) (d : Dict Ex Ex) (objs : List Obj) (o : Obj) (h : o.ref < w.dicts.length) :
    (⟨w.dicts ++ [d], objs⟩ : World).user o = w.user o := by
  unfold user
  simp only
  rw [List.getD_eq_getElem?_getD, List.getD_eq_getElem?_getD, List.getElem?_append_left h]

theorem mem_set {α : Type} (l : List α) (i : ℕ) (a b : α) (h : b ∈ l.set i a) : b = a ∨ b ∈ l := by
  rcases List.mem_or_eq_of_mem_set h with h | h
  · exact .inr h
  · exact .inl h

theorem ref_inj {w : World} (h : Inv w) (i j : ℕ) (o o' : Obj) (hi : w.objs[i]? = some o) (hj : w.objs[j]? = some o')
    (hr : o.ref = o'.ref) : i = j := by
  have hn := h.nodup
  rw [List.nodup_iff_injective_getElem] at hn
  obtain ⟨hi', hi⟩ := List.getElem?_eq_some_iff.1 hi
  obtain ⟨hj', hj⟩ := List.getElem?_eq_some_iff.1 hj
  have := @hn ⟨i, by simpa using hi'⟩ ⟨j, by simpa using hj'⟩ (by simp [hi, hj, hr])
  simpa using this

theorem user_set {w : World} (h : Inv w) (i j : ℕ) (o o' : Obj) (hi : w.objs[i]? = some o) (hj : w.objs[j]? = some o') (d : Dict Ex Ex)
    (objs : List Obj) : (⟨w.dicts.modify o.ref (fun c => c.update d), objs⟩ : World).user o' =
      if j = i then (w.user o').update d else w.user o' := by
  unfold user
  simp only [List.getD_eq_getElem?_getD, List.getElem?_modify]
  by_cases hij : j = i
  · subst hij
    rw [hi] at hj
    cases hj
    have hb := h.bound o (List.mem_of_getElem? hi)
    simp [List.getElem?_eq_getElem hb]
  · have hr : o.ref ≠ o'.ref := fun e => hij (ref_inj h i j o o' hi hj e).symm
    simp [hr, hij]

theorem right_reset {K : Pkf} {user user' : Dict Ex Ex} {c : Cache} (h : Right K user c) :
    Right K user' { c with inMetric := none, inDiffusion := none, inAspect := none } :=
  { h with
    inMetric := fun _ h' => by cases h'
    inDiffusion := fun _ h' => by cases h'
    inAspect := fun _ h' => by cases h' }

theorem inv_step {w : World} (h : Inv w) (op : Op) (hu : match op with
      | .new _ (some r) => r < w.dicts.length ∧ ∀ o ∈ w.objs, o.ref ≠ r
      | _ => True) (hc : ∀ P c, op = .new P c → P.Computable) : Inv (w.step op) := by
  cases op with
  | dict d =>
    refine ⟨fun o ho => ?_, h.nodup, fun o ho => ?_, h.computable⟩
    · have := h.bound o ho
      simp only [step, List.length_append, List.length_singleton]
      omega
    · simp only [step]
      rw [user_append w d _ o (h.bound o ho)]
      exact h.right o ho
  | new P c =>
    cases c with
    | none =>
      refine ⟨fun o ho => ?_, ?_, fun o ho => ?_, fun o ho => ?_⟩
      · simp only [step, new, List.mem_append, List.mem_singleton] at ho
        simp only [step, new, List.length_append, List.length_singleton]
        rcases ho with ho | ho
        · have := h.bound o ho; omega
        · subst ho; simp
      · simp only [step, new, List.map_append, List.map_cons, List.map_nil]
        refine List.nodup_append'.2 ⟨h.nodup, List.nodup_singleton _, ?_⟩
        intro r hr hr'
        obtain ⟨o, ho, rfl⟩ := List.mem_map.1 hr
        have := h.bound o ho
        simp only [List.mem_singleton] at hr'
        omega
      · simp only [step, new, List.mem_append, List.mem_singleton] at ho ⊢
        rcases ho with ho | ho
        · rw [user_append w [] _ o (h.bound o ho)]
          exact h.right o ho
        · subst ho; exact good_init
      · simp only [step, new, List.mem_append, List.mem_singleton] at ho
        rcases ho with ho | ho
        · exact h.computable o ho
        · subst ho; exact hc P none rfl
    | some r =>
      refine ⟨fun o ho => ?_, ?_, fun o ho => ?_, fun o ho => ?_⟩
      · simp only [step, new, List.mem_append, List.mem_singleton] at ho
        rcases ho with ho | ho
        · exact h.bound o ho
        · subst ho; exact hu.1
      · simp only [step, new, List.map_append, List.map_cons, List.map_nil]
        refine List.nodup_append'.2 ⟨h.nodup, List.nodup_singleton _, ?_⟩
        intro r' hr hr'
        obtain ⟨o, ho, rfl⟩ := List.mem_map.1 hr
        exact hu.2 o ho (List.mem_singleton.1 hr')
      · simp only [step, new, List.mem_append, List.mem_singleton] at ho ⊢
        rcases ho with ho | ho
        · exact h.right o ho
        · subst ho; exact good_init
      · simp only [step, new, List.mem_append, List.mem_singleton] at ho
        rcases ho with ho | ho
        · exact h.computable o ho
        · subst ho; exact hc P (some r) rfl
  | set i d =>
    simp only [step, setClosure]
    rcases hi : w.objs[i]? with _ | o
    · exact h
    · have hmem := List.mem_of_getElem? hi
      refine ⟨fun o' ho' => ?_, ?_, fun o' ho' => ?_, fun o' ho' => ?_⟩
      · simp only [List.length_modify]
        rcases mem_set _ _ _ _ ho' with rfl | ho'
        · exact h.bound o hmem
        · exact h.bound o' ho'
      · simp only [List.map_set]
        rw [show (w.objs.map Obj.ref).set i o.ref = w.objs.map Obj.ref from ?_]
        · exact h.nodup
        · apply List.ext_getElem?
          intro k
          rw [List.getElem?_set]
          split
          · rename_i hk
            subst hk
            split
            · simp [hi]
            · rename_i hl
              simp only [List.length_map] at hl
              rw [List.getElem?_eq_none (by simpa using hl)]
          · rfl
      · obtain ⟨j, hj⟩ := List.getElem?_of_mem ho'
        rw [List.getElem?_set] at hj
        split at hj
        · rename_i hij
          subst hij
          split at hj
          · cases hj
            exact right_reset (h.right o hmem)
          · cases hj
        · rename_i hij
          rw [user_set h i j o o' hi hj, if_neg (fun e => hij e.symm)]
          exact h.right o' (List.mem_of_getElem? hj)
      · rcases mem_set _ _ _ _ ho' with rfl | ho'
        · exact h.computable o hmem
        · exact h.computable o' ho'
  | read i p =>
    simp only [step, readProp]
    rcases hi : w.objs[i]? with _ | o
    · exact h
    · have hmem := List.mem_of_getElem? hi
      refine ⟨fun o' ho' => ?_, ?_, fun o' ho' => ?_, fun o' ho' => ?_⟩
      · rcases mem_set _ _ _ _ ho' with rfl | ho'
        · exact h.bound o hmem
        · exact h.bound o' ho'
      · simp only [List.map_set]
        rw [show (w.objs.map Obj.ref).set i o.ref = w.objs.map Obj.ref from ?_]
        · exact h.nodup
        · apply List.ext_getElem?
          intro k
          rw [List.getElem?_set]
          split
          · rename_i hk
            subst hk
            split
            · simp [hi]
            · rename_i hl
              simp only [List.length_map] at hl
              rw [List.getElem?_eq_none (by simpa using hl)]
          · rfl
      · rcases mem_set _ _ _ _ ho' with rfl | ho'
        · exact keeps_read (h.computable o hmem) p o.cache (h.right o hmem)
        · exact h.right o' ho'
      · rcases mem_set _ _ _ _ ho' with rfl | ho'
        · exact h.computable o hmem
        · exact h.computable o' ho'

theorem inv_run {w : World} (h : Inv w) (ops : List Op) (hu : Unshared w ops) (hc : ∀ P c, Op.new P c ∈ ops → P.Computable) :
    Inv (w.run ops) := by
  induction ops generalizing w with
  | nil => exact h
  | cons op ops ih =>
    have h1 := inv_step h op hu.1 (fun P c he => hc P c (he ▸ List.mem_cons_self))
    exact ih h1 hu.2 (fun P c hm => hc P c (List.mem_cons_of_mem _ hm))

end World

open World Pkf

/-- **C54** After any program in which no dictionary is the closure of two objects, what is read from an object is what a new
object with its present closure gives. -/
theorem C54_fresh_partial (ops : List Op) (hu : Unshared init ops) (hc : ∀ P c, Op.new P c ∈ ops → P.Computable) (i : ℕ) (o : Obj)
    (ho : (init.run ops).objs[i]? = some o) (p : Property) (hp : p ≠ .subsTree) :
    ((init.run ops).readProp i p).1 = some (o.pkf.read ((init.run ops).user o) p Cache.init).1 := by
  have h := inv_run inv_init ops hu hc
  have hm := List.mem_of_getElem? ho
  unfold readProp
  rw [ho]
  simp only [Option.some.injEq]
  rw [(reads_read (h.computable o hm) p hp _ (h.right o hm)).1, (reads_read (h.computable o hm) p hp _ good_init).1]

theorem find?_reverse_update (d d' : Dict Ex Ex) (k : Ex) :
    (d.update d').get? k = ((d'.reverse.find? (fun kv => kv.1 = k)).map Prod.snd).or (d.get? k) := by
  induction d' generalizing d with
  | nil => rfl
  | cons kv d' ih =>
    rw [show d.update (kv :: d') = (d.set kv.1 kv.2).update d' from rfl, ih, List.reverse_cons, List.find?_append, Dict.get?_set]
    rcases hf : d'.reverse.find? (fun kv => kv.1 = k) with _ | x
    · by_cases hk : kv.1 = k
      · simp [hk]
      · simp [hk]
    · simp [hf]

theorem get?_updates (ds : List (Dict Ex Ex)) (d : Dict Ex Ex) (k : Ex) :
    (ds.foldl (fun c e => c.update e) d).get? k = (latest ds k).or (d.get? k) := by
  induction ds generalizing d with
  | nil => rfl
  | cons e ds ih =>
    rw [List.foldl_cons, ih, find?_reverse_update, latest, Option.or_assoc]

/-- The closure of the object `i`. -/
def World.closureOf (w : World) (i : ℕ) : Dict Ex Ex := ((w.objs[i]?).map w.user).getD []

theorem closureOf_step {w : World} (h : Inv w) (op : Op) (i : ℕ) (hi : i < w.objs.length) :
    (w.step op).closureOf i = (givenTo i [op]).foldl (fun c e => c.update e) (w.closureOf i) ∧ i < (w.step op).objs.length := by
  have hio : w.objs[i]? = some w.objs[i] := List.getElem?_eq_getElem hi
  have hb := h.bound _ (List.getElem_mem hi)
  cases op with
  | dict d =>
    refine ⟨?_, hi⟩
    simp only [closureOf, step, givenTo, List.foldl_nil, hio, Option.map_some, Option.getD_some]
    exact user_append w d _ _ hb
  | new P c =>
    cases c with
    | none =>
      refine ⟨?_, by simp [step, new]; omega⟩
      simp only [closureOf, step, new, givenTo, List.foldl_nil, List.getElem?_append_left hi, hio, Option.map_some, Option.getD_some]
      exact user_append w [] _ _ hb
    | some r =>
      refine ⟨?_, by simp [step, new]; omega⟩
      simp only [closureOf, step, new, givenTo, List.foldl_nil, List.getElem?_append_left hi, hio, Option.map_some, Option.getD_some]
      rfl
  | set j d =>
    simp only [step, setClosure]
    rcases hj : w.objs[j]? with _ | o
    · refine ⟨?_, hi⟩
      have : j ≠ i := fun e => by subst e; rw [hio] at hj; cases hj
      simp [givenTo, this]
    · refine ⟨?_, by simpa using hi⟩
      simp only [closureOf, List.getElem?_set]
      by_cases hji : j = i
      · subst hji
        rw [hio] at hj
        cases hj
        have hl : j < w.objs.length := hi
        simp only [if_true, hl, Option.map_some, Option.getD_some, hio, givenTo, List.foldl_cons, List.foldl_nil]
        have := user_set h j j _ _ hio hio d (w.objs.set j { w.objs[j] with cache := { w.objs[j].cache with inMetric := none, inDiffusion := none, inAspect := none } })
        rw [if_pos rfl] at this
        exact this
      · simp only [if_neg hji, hio, Option.map_some, Option.getD_some, givenTo, List.foldl_nil]
        rw [user_set h j i o _ hj hio, if_neg (fun e => hji e.symm)]
  | read j p =>
    simp only [step, readProp]
    rcases hj : w.objs[j]? with _ | o
    · exact ⟨rfl, hi⟩
    · refine ⟨?_, by simpa using hi⟩
      simp only [closureOf, List.getElem?_set, givenTo, List.foldl_nil]
      by_cases hji : j = i
      · subst hji
        rw [hio] at hj
        cases hj
        have hl : j < w.objs.length := hi
        simp only [if_true, hl, Option.map_some, Option.getD_some, hio]
        rfl
      · simp only [if_neg hji]
        rfl

/-- **C54** Closures accumulate: whatever else the program does, the closure of an object maps a key to its value in the last
dictionary given to `set_closure` of this object that has the key, and otherwise to its value before. -/
theorem C54_accumulates_partial (ops more : List Op) (hu : Unshared init (ops ++ more))
    (hc : ∀ P c, Op.new P c ∈ ops ++ more → P.Computable) (i : ℕ) (hi : i < (init.run ops).objs.length) (k : Ex) :
    ((init.run (ops ++ more)).closureOf i).get? k = (latest (givenTo i more) k).or (((init.run ops).closureOf i).get? k) := by
  have split : ∀ (l : List Op) (w : World), Unshared w (l ++ more) → Unshared w l ∧ Unshared (w.run l) more := by
    intro l
    induction l with
    | nil => intro w h; exact ⟨trivial, h⟩
    | cons op l ih => intro w h; exact ⟨⟨h.1, (ih _ h.2).1⟩, (ih _ h.2).2⟩
  obtain ⟨h1, h2⟩ := split ops init hu
  have hinv := inv_run inv_init ops h1 (fun P c hm => hc P c (List.mem_append_left _ hm))
  rw [show init.run (ops ++ more) = (init.run ops).run more from List.foldl_append, ← get?_updates]
  congr 1
  have hc' : ∀ P c, Op.new P c ∈ more → P.Computable := fun P c hm => hc P c (List.mem_append_right _ hm)
  clear split hu hc h1
  generalize init.run ops = w at hi h2 hinv
  induction more generalizing w with
  | nil => rfl
  | cons op more ih =>
    obtain ⟨h3, h4⟩ := closureOf_step hinv op i hi
    have h5 := inv_step hinv op h2.1 (fun P c he => hc' P c (he ▸ List.mem_cons_self))
    rw [show w.run (op :: more) = (w.step op).run more from rfl,
      ih (fun P c hm => hc' P c (List.mem_cons_of_mem _ hm)) (w.step op) h4 h2.2 h5, h3, ← List.foldl_append]
    congr 1
    cases op with
    | set j d => by_cases hji : j = i <;> simp [givenTo, hji]
    | _ => rfl

/-- **C54** `set_closure` changes neither the other objects and their closures nor the other dictionaries. -/
theorem C54_frame_partial (ops : List Op) (hu : Unshared init ops) (hc : ∀ P c, Op.new P c ∈ ops → P.Computable) (i : ℕ) (o : Obj)
    (ho : (init.run ops).objs[i]? = some o) (d : Dict Ex Ex) :
    let w := init.run ops
    let w' := w.step (.set i d)
    (∀ j, j ≠ i → w'.objs[j]? = w.objs[j]? ∧ w'.closureOf j = w.closureOf j) ∧
      (∀ r, r ≠ o.ref → w'.dicts[r]? = w.dicts[r]?) ∧ ∀ j, j ≠ i → ∀ p, (w'.readProp j p).1 = (w.readProp j p).1 := by
  have h := inv_run inv_init ops hu hc
  generalize init.run ops = w at h ho
  simp only
  have h1 : ∀ j, j ≠ i → (w.step (.set i d)).objs[j]? = w.objs[j]? := by
    intro j hj
    simp only [step, setClosure, ho]
    rw [List.getElem?_set, if_neg (fun e => hj e.symm)]
  have h2 : ∀ j, j ≠ i → (w.step (.set i d)).closureOf j = w.closureOf j := by
    intro j hj
    by_cases hl : j < w.objs.length
    · rw [(closureOf_step h (.set i d) j hl).1]
      simp [givenTo, Ne.symm hj]
    · have := List.getElem?_eq_none (not_lt.1 hl)
      simp only [closureOf, h1 j hj, this, Option.map_none]
  refine ⟨fun j hj => ⟨h1 j hj, h2 j hj⟩, fun r hr => ?_, fun j hj p => ?_⟩
  · simp only [step, setClosure, ho]
    rw [List.getElem?_modify]
    simp [Ne.symm hr]
  · unfold readProp
    rw [h1 j hj]
    rcases hoj : w.objs[j]? with _ | o'
    · rfl
    · have h3 := h2 j hj
      simp only [closureOf, h1 j hj, hoj, Option.map_some, Option.getD_some] at h3
      simp only
      rw [h3]

/-! ## Unclosed terms -/

theorem mem_exAtoms (s e : Ex) : s ∈ exAtoms e ↔ (∃ a, s = .ex a) ∧ Within s e := by
  constructor
  · intro h
    induction e with
    | ex a ih =>
      simp only [exAtoms, List.mem_cons] at h
      rcases h with rfl | h
      · exact ⟨⟨a, rfl⟩, .self⟩
      · exact ⟨(ih h).1, .ex (ih h).2⟩
    | func g a ih => exact ⟨(ih h).1, .func (ih h).2⟩
    | add a b iha ihb =>
      rcases List.mem_append.1 h with h | h
      · exact ⟨(iha h).1, .addL (iha h).2⟩
      · exact ⟨(ihb h).1, .addR (ihb h).2⟩
    | mul a b iha ihb =>
      rcases List.mem_append.1 h with h | h
      · exact ⟨(iha h).1, .mulL (iha h).2⟩
      · exact ⟨(ihb h).1, .mulR (ihb h).2⟩
    | pow a q ih => exact ⟨(ih h).1, .pow (ih h).2⟩
    | deriv a v ih => exact ⟨(ih h).1, .deriv (ih h).2⟩
    | integ a x ih => exact ⟨(ih h).1, .integ (ih h).2⟩
    | num q => cases h
    | sym x => cases h
    | fn u args => cases h
    | other b => cases h
  · rintro ⟨⟨a, rfl⟩, h⟩
    induction h with
    | self => exact List.mem_cons_self
    | func _ ih => exact ih
    | addL _ ih => exact List.mem_append_left _ ih
    | addR _ ih => exact List.mem_append_right _ ih
    | mulL _ ih => exact List.mem_append_left _ ih
    | mulR _ ih => exact List.mem_append_right _ ih
    | pow _ ih => exact ih
    | deriv _ ih => exact ih
    | integ _ ih => exact ih
    | ex _ ih => exact List.mem_cons_of_mem _ ih

theorem eval_random (f : Field) : eval (.ex f.random) = .ex f.random := by
  have hr : rnd f.random = true := by simp [rnd, Field.random, israndom, hasOmega]
  unfold Field.random at hr ⊢
  simp [eval, ofEx, patom, pexpect, expectTerm, hr, pmulTerm, monoMul, addTerm, padd, toEx, termEx, monoEx, factorEx, prod]

/-- **C56** `unclosed_terms` is the set of the expectations in the right-hand sides of `in_metric`, except the means of the fields. -/
theorem C56_unclosed (K : Pkf) (user : Dict Ex Ex) (system : List Eqn) (hs : K.inMetric user = .ok system) :
    ∃ terms, K.unclosedTerms user = .ok terms ∧ terms.Nodup ∧ ∀ s, s ∈ terms ↔
      (∃ a, s = .ex a) ∧ (∃ q ∈ system, Within s q.2) ∧ ∀ f ∈ K.fields, s ≠ .ex f.random := by
  refine ⟨_, by unfold unclosedTerms; rw [hs]; rfl, (List.nodup_dedup _).filter _, fun s => ?_⟩
  simp only [List.mem_filter, List.mem_dedup, List.mem_flatMap, List.mem_map, decide_eq_true_eq, mem_exAtoms, eval_random]
  constructor
  · rintro ⟨⟨q, hq, ha, hw⟩, h⟩
    exact ⟨ha, ⟨q, hq, hw⟩, fun f hf e => h ⟨f, hf, e.symm⟩⟩
  · rintro ⟨ha, ⟨q, hq, hw⟩, h⟩
    exact ⟨⟨q, hq, ha, hw⟩, fun ⟨f, hf, e⟩ => h f hf e.symm⟩

/-- **C56** It is empty exactly when every expectation in the right-hand sides is the mean of a field. -/
theorem C56_closed (K : Pkf) (user : Dict Ex Ex) (system : List Eqn) (hs : K.inMetric user = .ok system) :
    K.unclosedTerms user = .ok [] ↔ ∀ q ∈ system, ∀ a, Within (.ex a) q.2 → ∃ f ∈ K.fields, a = f.random := by
  obtain ⟨terms, h1, -, h2⟩ := C56_unclosed K user system hs
  rw [h1]
  constructor
  · intro h q hq a hw
    cases h
    by_contra hne
    push Not at hne
    exact List.not_mem_nil ((h2 (.ex a)).2 ⟨⟨a, rfl⟩, ⟨q, hq, hw⟩, fun f hf e => hne f hf (by injection e)⟩)
  · intro h
    congr 1
    rw [List.eq_nil_iff_forall_not_mem]
    intro s hs
    obtain ⟨⟨a, rfl⟩, ⟨q, hq, hw⟩, h3⟩ := (h2 s).1 hs
    obtain ⟨f, hf, rfl⟩ := h q hq a hw
    exact h3 f hf rfl

section
variable {R : Type} [CommRing R] [Algebra ℚ R]

theorem den_closed (S : Interp R) (E' : R → R) (fields : List Field) (hE : ∀ f ∈ fields, E' (den S f.random) = S.E (den S f.random))
    (e : Ex) (h : ∀ a, Within (.ex a) e → ∃ f ∈ fields, a = f.random) : den { S with E := E' } e = den S e := by
  have hd : ∀ (vars : List (Str × ℕ)) (r : R), derivs { S with E := E' } vars r = derivs S vars r := by
    intro vars
    induction vars with
    | nil => intro r; rfl
    | cons v vars ih => intro r; exact ih _
  induction e with
  | ex a =>
    obtain ⟨f, hf, rfl⟩ := h a .self
    exact hE f hf
  | func g a ih => exact congrArg (S.func g) (ih (fun b hb => h b (.func hb)))
  | add a b iha ihb => exact congrArg₂ (· + ·) (iha (fun c hc => h c (.addL hc))) (ihb (fun c hc => h c (.addR hc)))
  | mul a b iha ihb => exact congrArg₂ (· * ·) (iha (fun c hc => h c (.mulL hc))) (ihb (fun c hc => h c (.mulR hc)))
  | pow a q ih => exact congrArg (fun r => S.pw r q) (ih (fun b hb => h b (.pow hb)))
  | deriv a v ih => exact (hd v _).trans (congrArg (derivs S v) (ih (fun b hb => h b (.deriv hb))))
  | integ a x ih => exact congrArg (S.I x) (ih (fun b hb => h b (.integ hb)))
  | num q => rfl
  | sym x => rfl
  | fn u args => rfl
  | other b => rfl

/-- **C56** When `unclosed_terms` is empty, the right-hand sides depend on the expectation operator only through the means of the
fields. -/
theorem C56_autonomous (K : Pkf) (user : Dict Ex Ex) (system : List Eqn) (hs : K.inMetric user = .ok system)
    (h : K.unclosedTerms user = .ok []) (S : Interp R) (E' : R → R)
    (hE : ∀ f ∈ K.fields, E' (den S f.random) = S.E (den S f.random)) : ∀ q ∈ system, den { S with E := E' } q.2 = den S q.2 :=
  fun q hq => den_closed S E' K.fields hE q.2 ((C56_closed K user system hs).1 h q hq)

end

/-! ## Examples and counterexamples -/

/-- **C54**, **C55** apply to every deterministic system whose Reynolds equations are computed. -/
theorem C55_applies {K : Pkf} {coords : List Str} (h : DetSystem K coords) (hr : ∃ r, K.reynolds = .ok r) : K.Computable where
  closure := let ⟨c, hc, _⟩ := h.closure_ok; ⟨c, hc⟩
  cross := let ⟨r, hr⟩ := hr; h.cross_ok r hr
  order := h.order
  spatial := fun f hf => by
    have e : f.spatial = coords.filter (· ≠ time) := by unfold Field.spatial; rw [h.same f hf]
    rw [e]
    exact ⟨h.space, h.nodup.filter _, fun ho => h.noise (List.mem_of_mem_filter ho)⟩

theorem transport2_computable : transport2.Computable :=
  C55_applies (transport2_setting.detSystem transport2_dynamics)
    (let ⟨r, hr, _⟩ := transport2_setting.reynolds_spec transport2_dynamics; ⟨r, hr⟩)

/-- The heat equation `Derivative(u, t) = Derivative(u, x, 2)`. -/
def heat : Pkf where
  fields := [fieldU]
  equations := [(Pkf.dt fieldU.value, .deriv fieldU.value [("x".toList, 2)])]

/-- The expectation that the heat equation does not close: `E[eps d_x^4 eps]`. -/
def fourth : Ex := .ex (.mul fieldU.epsilon (.deriv fieldU.epsilon [("x".toList, 4)]))

theorem eq_ok {α : Type} [DecidableEq α] (r : Except PyErr α) (x : α) (h : (match r with | .ok y => decide (y = x) | .error _ => false) = true) :
    r = .ok x := by
  cases r with
  | error e => cases h
  | ok y => exact congrArg _ (of_decide_eq_true h)

theorem eq_error {α : Type} (r : Except PyErr α) (x : PyErr) (h : (match r with | .ok _ => false | .error e => decide (e = x)) = true) :
    r = .error x := by
  cases r with
  | error e => exact congrArg _ (of_decide_eq_true h)
  | ok y => cases h

/-- A closure for the heat equation: `E[eps d_x^4 eps] = 3 g^2 - 2 Derivative(g, x, 2)`. -/
def closeFourth : Dict Ex Ex := [(fourth, .add (.mul (.num 3) (.pow (fieldU.metric 0 0) 2))
  (.mul (.num (-2)) (.deriv (fieldU.metric 0 0) [("x".toList, 2)])))]

/-- The heat equation leaves one expectation open, and none with the closure. -/
theorem heat_unclosed : heat.unclosedTerms [] = .ok [fourth] ∧ heat.unclosedTerms closeFourth = .ok [] :=
  ⟨eq_ok _ _ (by decide +kernel), eq_ok _ _ (by decide +kernel)⟩

theorem heat_det : DetSystem heat ["t".toList, "x".toList] where
  order := fun _ _ => List.Perm.refl _
  arrange := fun _ => List.Perm.refl _
  same := by decide +kernel
  nodup := by decide +kernel
  noise := by decide +kernel
  space := by decide +kernel
  equations := by
    intro q hq
    rw [heat, List.mem_singleton] at hq
    subst hq
    simp [Deterministic, Pkf.dt, omega, time, Field.value, fieldU]

theorem heat_computable : heat.Computable := C55_applies heat_det (ok_of_isSome _ (by decide +kernel))

/-- After reading other properties, `unclosed_terms` is still the same. -/
example : (heat.read [] .unclosed (heat.after [] [.subsTree, .metric, .inAspect, .unclosed])).1 = .ok (.terms [fourth]) := by
  rw [C55_value_partial heat_computable _ _ (by decide)]
  simp only [value, heat_unclosed.1]
  rfl

/-- Two objects; one is closed after it has been read. -/
def twoObjects : List Op := [.new transport2 none, .new heat none, .read 1 .second, .set 1 closeFourth, .set 0 unitMetric]

theorem twoObjects_computable : ∀ P c, Op.new P c ∈ twoObjects → P.Computable := by
  intro P c h
  simp only [twoObjects, List.mem_cons, Op.new.injEq, List.not_mem_nil, reduceCtorEq, or_false] at h
  rcases h with ⟨rfl, -⟩ | ⟨rfl, -⟩
  · exact transport2_computable
  · exact heat_computable

theorem twoObjects_unshared : Unshared init twoObjects := ⟨trivial, trivial, trivial, trivial, trivial, trivial⟩

theorem run_heat : ∃ o, (init.run twoObjects).objs[1]? = some o ∧ o.pkf = heat ∧ (init.run twoObjects).user o = closeFourth :=
  ⟨_, rfl, rfl, by decide +kernel⟩

/-- The second object is closed, whatever was read before. -/
example : ((init.run twoObjects).readProp 1 .unclosed).1 = some (.ok (.terms [])) := by
  obtain ⟨o, h1, h2, h3⟩ := run_heat
  rw [C54_fresh_partial twoObjects twoObjects_unshared twoObjects_computable 1 o h1 .unclosed (by decide), h2, h3]
  rw [show (heat.read closeFourth .unclosed Cache.init).1 = heat.value closeFourth .unclosed from
    C55_value_partial heat_computable [] .unclosed (by decide)]
  simp only [value, heat_unclosed.2]
  rfl

/-- The closure of the first object has the entry given to it, and not the one given to the second object. -/
example : ((init.run twoObjects).closureOf 0).get? (fieldU.metric 0 0) = some (.num 1) ∧
    ((init.run twoObjects).closureOf 0).get? fourth = none := by
  have h := C54_accumulates_partial (twoObjects.take 2) (twoObjects.drop 2) twoObjects_unshared twoObjects_computable 0 (by decide)
  rw [show twoObjects = twoObjects.take 2 ++ twoObjects.drop 2 from rfl, h, h]
  exact ⟨by decide +kernel, by decide +kernel⟩

/-- Linear transport of one field: `Derivative(u, t) = -Derivative(u, x)`. -/
def transport1 : Pkf where
  fields := [fieldU]
  equations := [(Pkf.dt fieldU.value, .mul (.num (-1)) (.deriv fieldU.value [("x".toList, 1)]))]

/-- The right-hand side of the last equation of a system. -/
def lastRhs : Option (Except PyErr Value) → Option Ex
  | some (.ok (.system (some l))) => l.getLast?.map Prod.snd
  | _ => none

/-- **C54** Two objects built with the same dictionary: after `set_closure` on the second, the first has the new closure but
returns the system without it; a new object with this closure returns another system. -/
theorem C54_counterexample_shared : ∃ (ops : List Op) (o : Obj), (∀ P c, Op.new P c ∈ ops → P = transport1) ∧
    (init.run ops).objs[0]? = some o ∧ (init.run ops).user o = unitMetric ∧
    lastRhs ((init.run ops).readProp 0 .inMetric).1 = some (.mul (.num (-1)) (.deriv (fieldU.metric 0 0) [("x".toList, 1)])) ∧
    lastRhs (some (o.pkf.read unitMetric .inMetric Cache.init).1) = some (.num 0) := by
  refine ⟨[.dict [], .new transport1 (some 0), .new transport1 (some 0), .read 0 .inMetric, .set 1 unitMetric], _, ?_, rfl, ?_, ?_, ?_⟩
  · intro P c h
    simp only [List.mem_cons, Op.new.injEq, List.not_mem_nil, reduceCtorEq, or_false, false_or] at h
    rcases h with ⟨rfl, -⟩ | ⟨rfl, -⟩ <;> rfl
  · decide +kernel
  · decide +kernel
  · decide +kernel

/-- **C54** `set_closure` changes the dictionary that was given to the constructor. -/
theorem C54_counterexample_argument : (init.run [.dict [], .new heat (some 0)]).dicts = [[]] ∧
    (init.run [.dict [], .new heat (some 0), .set 0 closeFourth]).dicts = [closeFourth] := ⟨rfl, by decide +kernel⟩

/-- Fields with different coordinates: `u(t, x)` and `w(t, x, y)`, both constant in time. -/
def surface : Pkf where
  fields := [fieldU, ⟨"w".toList, ["t".toList, "x".toList, "y".toList]⟩]
  equations := [(Pkf.dt fieldU.value, .num 0), (Pkf.dt (.fn "w".toList ["t".toList, "x".toList, "y".toList]), .num 0)]

/-- **C55** When the internal closure cannot be computed, the first read raises AssertionError and the second returns a
system: the half-filled dictionary is taken for the closure. -/
theorem C55_counterexample_closure : (surface.read [] .expectation Cache.init).1 = .error .assertionError ∧
    ∃ v, (surface.read [] .expectation (surface.after [] [.expectation])).1 = .ok v :=
  ⟨eq_error _ _ (by decide +kernel), ok_of_isSome _ (by decide +kernel)⟩

/-- Two fields, one of them with a random forcing. -/
def forced2 : Pkf where
  fields := [fieldU, fieldV]
  equations := [(Pkf.dt fieldU.value, .mul forcing (.deriv forcing [("x".toList, 1)])), (Pkf.dt fieldV.value, .num 0)]

/-- **C55** When a cross-covariance cannot be computed, the first read raises and the second returns an empty list. -/
theorem C55_counterexample_cross : (forced2.read [] .cross Cache.init).1 = .error .runtimeError ∧
    (forced2.read [] .cross (forced2.after [] [.cross])).1 = .ok (.system (some [])) :=
  ⟨eq_error _ _ (by decide +kernel), eq_ok _ _ (by decide +kernel)⟩

/-- **C55** `subs_tree` depends on what was computed before. -/
theorem C55_counterexample_subs_tree : (transport1.read [] .subsTree Cache.init).1 = .ok (.dict []) ∧
    (transport1.read [] .subsTree (transport1.after [] [.metric])).1 ≠ .ok (.dict []) := by
  refine ⟨eq_ok _ _ (by decide +kernel), fun h => ?_⟩
  have : (match (transport1.read [] .subsTree (transport1.after [] [.metric])).1 with | .ok (.dict []) => true | _ => false) = false := by
    decide +kernel
  rw [h] at this
  cases this

end Sympkf.PKF
