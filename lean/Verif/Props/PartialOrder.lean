import Verif.Lemmas.PartialOrder

/-!
# C34-C36: partial orders of derivatives
-/

set_option autoImplicit false

namespace Sympkf.POD

open Text Spec

/-- **C35** The constructor succeeds exactly on the three formats, with the orders they denote, and raises `TypeError` on
everything else. -/
theorem C35_build_iff (coords : List Str) (hn : coords.Nodup) (p : PArg) :
    (∀ l, build coords p = .ok l ↔ ∃ f, Denotes coords p f ∧ l = coords.map f) ∧
      (∀ e, build coords p = .error e ↔ (¬ ∃ f, Denotes coords p f) ∧ e = .typeError) := by
  refine ⟨fun l => build_ok_iff coords hn p l, fun e => ⟨fun h => ⟨?_, build_error _ _ _ h⟩, ?_⟩⟩
  · rintro ⟨f, hf⟩
    rw [(build_ok_iff coords hn p _).2 ⟨f, hf, rfl⟩] at h
    cases h
  · rintro ⟨h, rfl⟩
    cases hb : build coords p with
    | error e => rw [build_error _ _ _ hb]
    | ok l =>
      obtain ⟨f, hf, -⟩ := (build_ok_iff coords hn p l).1 hb
      exact absurd ⟨f, hf⟩ h

/-- **C35** No argument can be read in two ways: the orders of the coordinates are determined. -/
theorem C35_unambiguous (coords : List Str) (hn : coords.Nodup) (p : PArg) (f g : Str → ℤ)
    (hf : Denotes coords p f) (hg : Denotes coords p g) : ∀ x ∈ coords, f x = g x := by
  have h1 := (build_ok_iff coords hn p _).2 ⟨f, hf, rfl⟩
  have h2 := (build_ok_iff coords hn p _).2 ⟨g, hg, rfl⟩
  rw [h1] at h2
  exact List.map_inj_left.1 (Except.ok.inj h2)

/-- **C35** Sequences and lists of couples may be written in any order. -/
theorem C35_any_order (coords : List Str) (hn : coords.Nodup) (l l' : List Item) (h : l.Perm l') :
    build coords (.list l) = build coords (.list l') := by
  have key : ∀ l l' : List Item, l.Perm l' → ∀ r, build coords (.list l) = .ok r → build coords (.list l') = .ok r := by
    intro l l' h r hr
    obtain ⟨f, hf, rfl⟩ := (build_ok_iff coords hn _ r).1 hr
    rw [build_ok_iff coords hn]
    cases hf with
    | couples cs h0 hc =>
      obtain ⟨cs', hp, rfl⟩ : ∃ cs', cs.Perm cs' ∧ l' = cs'.map (fun c => Item.tup [.sym c.1, .int c.2]) := by
        exact permMap h
      refine ⟨_, .couples cs' ?_ (fun c hc' => hc c (hp.mem_iff.2 hc')), ?_⟩
      · rintro rfl; exact h0 hp.eq_nil
      · apply List.map_congr_left
        intro y _
        exact ((hp.filter _).map _).sum_eq
    | sequence s hs =>
      obtain ⟨s', hp, rfl⟩ : ∃ s', s.Perm s' ∧ l' = s'.map (fun x => Item.atom (.sym x)) := permMap h
      refine ⟨_, .sequence s' (fun c hc' => hs c (hp.mem_iff.2 hc')), ?_⟩
      apply List.map_congr_left
      intro y _
      rw [hp.count_eq]
  cases h1 : build coords (.list l) with
  | ok r => exact (key l l' h r h1).symm
  | error e =>
    cases h2 : build coords (.list l') with
    | ok r => rw [key l' l h.symm r h2] at h1; cases h1
    | error e' => rw [build_error _ _ _ h1, build_error _ _ _ h2]

/-- Coordinates `x`, `y`: a couple repeated, a sequence in disorder, rejected arguments (a tuple of couples, a foreign symbol,
a number, a tuple of the wrong length). -/
example :
    let c := ["x".toList, "y".toList]
    let x := Item.atom (.sym "x".toList); let y := Item.atom (.sym "y".toList)
    build c (.list [.tup [.sym "y".toList, .int 2], .tup [.sym "y".toList, .int 1]]) = .ok [0, 3] ∧
    build c (.list [y, x, y]) = .ok [1, 2] ∧
    build c (.tuple [y, .atom (.int 4)]) = .ok [0, 4] ∧
    build c (.tuple [.atom (.int 1), .atom (.int 0)]) = .ok [1, 0] ∧
    build c (.list []) = .ok [0, 0] ∧
    build c (.tuple [.tup [.sym "x".toList, .int 2], .tup [.sym "y".toList, .int 1]]) = .error .typeError ∧
    build c (.list [.atom (.sym "z".toList)]) = .error .typeError ∧
    build c (.scalar (.int 3)) = .error .typeError ∧
    build c (.tuple [.atom (.int 1)]) = .error .typeError := by decide +kernel

/-- **C34** An object rebuilt from any of its three forms is the same object (distinct coordinates; non-negative orders for
the sequence). -/
theorem C34_formats (p : POrder) (hn : p.coordinates.Nodup) (hl : p.orders.length = p.coordinates.length) :
    p.new p.asTuple = .ok p ∧ p.new p.asCouples = .ok p ∧ p.copy = .ok p ∧
      ((∀ n ∈ p.orders, 0 ≤ n) → p.new p.asSequence = .ok p) := by
  obtain ⟨c, o⟩ := p
  dsimp only at hn hl
  obtain ⟨f, rfl⟩ : ∃ f : Str → ℤ, o = c.map f := ⟨_, (map_getD_idxOf c hn o hl).symm⟩
  have tup : build c (POrder.asTuple ⟨c, c.map f⟩) = .ok (c.map f) := by
    rw [build_ok_iff c hn]
    refine ⟨f, ?_, rfl⟩
    have := Denotes.tuple (coords := c) f
    unfold POrder.asTuple
    rwa [List.map_map]
  refine ⟨?_, ?_, ?_, ?_⟩
  · show (build c _).map _ = _
    rw [tup]; rfl
  · show (build c _).map _ = _
    have : build c (POrder.asCouples ⟨c, c.map f⟩) = .ok (c.map f) := by
      rw [build_ok_iff c hn]
      unfold POrder.asCouples
      have e : List.zipWith (fun (x : Str) n => Item.tup [.sym x, .int n]) c (c.map f) =
          (c.map (fun x => (x, f x))).map (fun c => Item.tup [.sym c.1, .int c.2]) := by
        rw [List.map_map]
        clear tup hl hn
        induction c with
        | nil => rfl
        | cons x c ih => simp [ih]
      dsimp only
      rw [e]
      by_cases h0 : c = []
      · subst h0
        exact ⟨_, Denotes.sequence [] (by simp), rfl⟩
      · refine ⟨_, .couples _ (by simpa using h0) (by simp), ?_⟩
        apply List.map_congr_left
        intro y hy
        exact (filter_graph_sum c hn f y hy).symm
    rw [this]; rfl
  · show (build c _).map _ = _
    rw [tup]; rfl
  · intro h0
    show (build c _).map _ = _
    have : build c (POrder.asSequence ⟨c, c.map f⟩) = .ok (c.map f) := by
      rw [build_ok_iff c hn]
      refine ⟨_, .sequence _ ?_, ?_⟩
      · exact fun x hx => sequence_mem c f x hx
      · apply List.map_congr_left
        intro y hy
        rw [sequence_count c f hn (fun n hn' => h0 n hn') y hy]
    rw [this]; rfl

/-- Negative orders are lost by the sequence. -/
example : let p : POrder := ⟨["x".toList, "y".toList], [-1, 2]⟩
    p.new p.asCouples = .ok p ∧ p.new p.asSequence = .ok ⟨["x".toList, "y".toList], [0, 2]⟩ := by decide +kernel

/-- **C36** `all_of_degree` yields every multi-index of the degree once, whatever the iteration order of the sets, and their
number is the binomial coefficient. -/
theorem C36_all_of_degree (order : ℕ → List (List ℤ) → List (List ℤ)) (ho : ∀ g l, (order g l).Perm l)
    (coords : List Str) (h0 : coords ≠ []) (d : ℕ) :
    ∃ L, allOfDegree order coords d = .ok L ∧ L.Nodup ∧
      (∀ p, p ∈ L ↔ p.coordinates = coords ∧ IsMultiIndex coords.length d p.orders) ∧
      L.length = (coords.length + d - 1).choose d := by
  cases coords with
  | nil => exact absurd rfl h0
  | cons x rest =>
    obtain ⟨h1, h2⟩ := generations_spec order ho rest.length d (d + 1) 0 [(d : ℤ) :: List.replicate rest.length 0]
      (by simp) (start_generation _ _)
    have h2' : ∀ v, v ∈ generations order (d + 1) 0 [(d : ℤ) :: List.replicate rest.length 0] ↔
        IsMultiIndex (rest.length + 1) d v := fun v => by rw [h2, generation_iff]
    refine ⟨_, rfl, h1.map (fun a b h => by simpa using h), fun p => ?_, ?_⟩
    · rw [List.mem_map]
      constructor
      · rintro ⟨v, hv, rfl⟩; exact ⟨rfl, (h2' v).1 hv⟩
      · rintro ⟨hc, hp⟩
        exact ⟨p.orders, (h2' _).2 hp, by cases p; cases hc; rfl⟩
    · rw [List.length_map]
      have : (generations order (d + 1) 0 [(d : ℤ) :: List.replicate rest.length 0]).Perm (comps (rest.length + 1) d) :=
        (List.perm_ext_iff_of_nodup h1 (nodup_comps _ _)).2 (fun v => by rw [h2', mem_comps])
      rw [this.length_eq, length_comps, List.length_cons]
      congr 1; omega

/-- The result does not depend on the iteration order of the sets, up to the order of the yielded objects. -/
theorem C36_order_independent (order order' : ℕ → List (List ℤ) → List (List ℤ)) (ho : ∀ g l, (order g l).Perm l)
    (ho' : ∀ g l, (order' g l).Perm l) (coords : List Str) (h0 : coords ≠ []) (d : ℕ) :
    ∃ L L', allOfDegree order coords d = .ok L ∧ allOfDegree order' coords d = .ok L' ∧ L.Perm L' := by
  obtain ⟨L, h1, h2, h3, -⟩ := C36_all_of_degree order ho coords h0 d
  obtain ⟨L', h1', h2', h3', -⟩ := C36_all_of_degree order' ho' coords h0 d
  exact ⟨L, L', h1, h1', (List.perm_ext_iff_of_nodup h2 h2').2 (fun p => by rw [h3, h3'])⟩

/-- Without coordinates `start[0]` raises. -/
theorem C36_no_coordinate (order : ℕ → List (List ℤ) → List (List ℤ)) (d : ℕ) :
    allOfDegree order [] d = .error .indexError := rfl

/-- Three coordinates, degree two, the sets iterated backwards. -/
example : (allOfDegree (fun _ l => l.reverse) ["x".toList, "y".toList, "z".toList] 2).map (·.map POrder.orders) =
    .ok [[2, 0, 0], [1, 0, 1], [1, 1, 0], [0, 1, 1], [0, 2, 0], [0, 0, 2]] := by decide +kernel

end Sympkf.POD
