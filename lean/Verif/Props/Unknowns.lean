import Verif.Props.Evolution
import Verif.Props.Text

/-!
# C106: distinct unknowns of the PKF are distinct functions
-/

set_option autoImplicit false

namespace Sympkf.PKF

open Text Rand Spec Pkf

/-! ## Functions of different kinds -/

/-- The functions that the package introduces for a field. -/
inductive Kind
  | error | epsilon | variance | std
  | metric (i j : ℕ) | aspect (i j : ℕ) | diffusion (i j : ℕ)

namespace Kind

/-- Different quantities; the indices of the components do not matter. -/
def sort : Kind → ℕ
  | .error => 0 | .epsilon => 1 | .variance => 2 | .std => 3 | .metric _ _ => 4 | .aspect _ _ => 5 | .diffusion _ _ => 6

/-- The function of a field. -/
def fn (f : Field) : Kind → Ex
  | .error => f.error
  | .epsilon => f.epsilon
  | .variance => f.variance
  | .std => f.std
  | .metric i j => f.metric i j
  | .aspect i j => f.aspect i j
  | .diffusion i j => f.diffusion i j

end Kind

/-- **C106** Functions of different kinds are different, for any two fields and whatever their names are. -/
theorem C106_kinds (f g : Field) (a b : Kind) (h : a.fn f = b.fn g) : a.sort = b.sort := by
  cases a <;> cases b <;>
    first
    | rfl
    | exact absurd h (by simp [Kind.fn, Field.error, Field.epsilon, Field.variance, Field.std, Field.metric, Field.aspect, Field.diffusion])

theorem split_comma {a b a' b' : Str} (ha : ',' ∉ a) (ha' : ',' ∉ a') (h : a ++ ',' :: b = a' ++ ',' :: b') : a = a' ∧ b = b' := by
  induction a generalizing a' with
  | nil =>
    cases a' with
    | nil => simpa using h
    | cons c a' =>
      simp only [List.nil_append, List.cons_append, List.cons.injEq] at h
      exact absurd (h.1 ▸ List.mem_cons_self) ha'
  | cons c a ih =>
    cases a' with
    | nil =>
      simp only [List.nil_append, List.cons_append, List.cons.injEq] at h
      exact absurd (h.1 ▸ List.mem_cons_self) ha
    | cons c' a' =>
      simp only [List.cons_append, List.cons.injEq] at h
      obtain ⟨h1, h2⟩ := ih (fun h => ha (by simp [h])) (fun h => ha' (by simp [h])) h.2
      exact ⟨by rw [h.1, h1], h2⟩

theorem code_comma (f : Field) : ',' ∉ f.code := fun h => Text.C20_clean_no_special f.name ',' h (by decide)

theorem tensor_name {p : Str} {f g : Field} {x y : Str} : p ++ f.code ++ ",".toList ++ x ++ "}}".toList = p ++ g.code ++ ",".toList ++ y ++ "}}".toList ↔
    f.code = g.code ∧ x = y := by
  constructor
  · intro h
    rw [List.append_cancel_right_eq, List.append_assoc, List.append_assoc p, List.append_assoc, List.append_assoc p, List.append_cancel_left_eq] at h
    exact split_comma (code_comma f) (code_comma g) h
  · rintro ⟨h, rfl⟩
    rw [h]

/-- **C106** Exactly when two components of tensors are the same function: the fields have the same name without LaTeX characters and
the same coordinates, and the names of the two coordinates, without LaTeX characters, give the same text, written one after the
other.  Two variances (errors, normalised errors, standard deviations) are the same function exactly when the fields have the same name
without LaTeX characters and the same coordinates. -/
theorem C106_same_function (f g : Field) (i j k l : ℕ) :
    (f.metric i j = g.metric k l ↔ f.code = g.code ∧ f.indexCode i j = g.indexCode k l ∧ f.coordinates = g.coordinates) ∧
    (f.aspect i j = g.aspect k l ↔ f.code = g.code ∧ f.indexCode i j = g.indexCode k l ∧ f.coordinates = g.coordinates) ∧
    (f.diffusion i j = g.diffusion k l ↔ f.code = g.code ∧ f.indexCode i j = g.indexCode k l ∧ f.coordinates = g.coordinates) ∧
    (f.variance = g.variance ↔ f.code = g.code ∧ f.coordinates = g.coordinates) ∧
    (f.std = g.std ↔ f.code = g.code ∧ f.coordinates = g.coordinates) ∧
    (f.error = g.error ↔ f.code = g.code ∧ f.coordinates = g.coordinates) ∧
    (f.epsilon = g.epsilon ↔ f.code = g.code ∧ f.coordinates = g.coordinates) := by
  refine ⟨?_, ?_, ?_, ?_, ?_, ?_, ?_⟩
  · unfold Field.metric
    rw [Ex.fn.injEq, tensor_name, and_assoc]
  · unfold Field.aspect
    rw [Ex.fn.injEq, tensor_name, and_assoc]
  · unfold Field.diffusion
    rw [Ex.fn.injEq, tensor_name, and_assoc]
  · simp [Field.variance]
  · simp [Field.std]
  · simp [Field.error]
  · simp [Field.epsilon]

/-! ## The unknowns of a system -/

/-- The names of the fields and of the coordinates can be told apart when written one after the other, and the fields are not called like the
functions that the package introduces. -/
structure PlainNames (K : Pkf) (coords : List Str) : Prop where
  brace : ∀ f ∈ K.fields, f.name.head? ≠ some '{'
  label : ∀ f ∈ K.fields, ¬ "V_".toList <+: f.name
  fields : K.fields.Nodup
  codes : ∀ f ∈ K.fields, ∀ g ∈ K.fields, f.code = g.code → f = g
  names : ∀ f ∈ K.fields, ∀ g ∈ K.fields, f.name <+: g.name → f.name = g.name
  coordinates : ∀ x ∈ coords, ∀ y ∈ coords, cleanLatexName x <+: cleanLatexName y → x = y

variable {K : Pkf} {coords : List Str}

theorem append_inj {l : List Str} (hl : ∀ x ∈ l, ∀ y ∈ l, cleanLatexName x <+: cleanLatexName y → x = y) (hn : l.Nodup) {i j k m : ℕ}
    (hi : i < l.length) (hj : j < l.length) (hk : k < l.length) (hm : m < l.length)
    (h : (l.map cleanLatexName).getD i [] ++ (l.map cleanLatexName).getD j [] = (l.map cleanLatexName).getD k [] ++ (l.map cleanLatexName).getD m []) :
    i = k ∧ j = m := by
  have e : ∀ n (hn : n < l.length), (l.map cleanLatexName).getD n [] = cleanLatexName l[n] := by
    intro n hn
    rw [List.getD_eq_getElem?_getD, List.getElem?_map, List.getElem?_eq_getElem hn]; rfl
  rw [e i hi, e j hj, e k hk, e m hm] at h
  have h1 : l[i] = l[k] := by
    rcases List.prefix_or_prefix_of_prefix ⟨_, h⟩ ⟨_, rfl⟩ with h | h
    · exact hl _ (List.getElem_mem hi) _ (List.getElem_mem hk) h
    · exact (hl _ (List.getElem_mem hk) _ (List.getElem_mem hi) h).symm
  have h2 : l[j] = l[m] := by
    rw [h1] at h
    have := List.append_cancel_left h
    exact hl _ (List.getElem_mem hj) _ (List.getElem_mem hm) (this ▸ List.prefix_rfl)
  exact ⟨(hn.getElem_inj_iff).1 h1, (hn.getElem_inj_iff).1 h2⟩

theorem mem_upper {n : ℕ} {p : ℕ × ℕ} : p ∈ upper n ↔ p.1 ≤ p.2 ∧ p.2 < n := by
  unfold upper
  rw [List.mem_filter]
  obtain ⟨i, j⟩ := p
  rw [List.pair_mem_product, List.mem_range, List.mem_range, decide_eq_true_eq]
  omega

theorem upper_nodup (n : ℕ) : (upper n).Nodup := by
  unfold upper
  exact (List.Nodup.product List.nodup_range List.nodup_range).filter _

theorem mem_crossCovariances {fields : List Field} {e : Ex} (h : e ∈ crossCovariances coords fields) :
    ∃ f ∈ fields, ∃ g ∈ fields, e = .fn ("V_".toList ++ f.name ++ g.name) coords := by
  induction fields with
  | nil => cases h
  | cons f fields ih =>
    rcases List.mem_append.1 h with h | h
    · obtain ⟨g, hg, rfl⟩ := List.mem_map.1 h
      exact ⟨f, by simp, g, by simp [hg], rfl⟩
    · obtain ⟨f', hf, g, hg, e⟩ := ih h
      exact ⟨f', by simp [hf], g, by simp [hg], e⟩

theorem names_inj {f g f' g' : Field} (h1 : f.name <+: g.name → f.name = g.name) (h2 : g.name <+: f.name → g.name = f.name)
    (h : (Ex.fn ("V_".toList ++ f.name ++ f'.name) coords) = .fn ("V_".toList ++ g.name ++ g'.name) coords) : f.name = g.name ∧ f'.name = g'.name := by
  have e := (Ex.fn.inj h).1
  rw [List.append_assoc, List.append_assoc, List.append_cancel_left_eq] at e
  have n1 : f.name = g.name := by
    rcases List.prefix_or_prefix_of_prefix ⟨_, e⟩ ⟨_, rfl⟩ with h | h
    · exact h1 h
    · exact (h2 h).symm
  rw [n1] at e
  exact ⟨n1, List.append_cancel_left e⟩

theorem crossCovariances_nodup {fields : List Field} (hn : fields.Nodup) (he : ∀ f ∈ fields, ∀ g ∈ fields, f.name = g.name → f = g)
    (hp : ∀ f ∈ fields, ∀ g ∈ fields, f.name <+: g.name → f.name = g.name) : (crossCovariances coords fields).Nodup := by
  induction fields with
  | nil => exact List.nodup_nil
  | cons f fields ih =>
    obtain ⟨h1, h2⟩ := List.nodup_cons.1 hn
    refine List.nodup_append.2 ⟨?_, ih h2 (fun a ha b hb => he a (by simp [ha]) b (by simp [hb]))
      (fun a ha b hb => hp a (by simp [ha]) b (by simp [hb])), ?_⟩
    · refine List.Nodup.map_on (fun a ha b hb h => ?_) h2
      exact he a (by simp [ha]) b (by simp [hb]) (names_inj (f := f) (g := f) (fun _ => rfl) (fun _ => rfl) h).2
    · rintro a ha b hb rfl
      obtain ⟨g, hg, rfl⟩ := List.mem_map.1 ha
      obtain ⟨f', hf', g', hg', e⟩ := mem_crossCovariances hb
      have := (names_inj (hp _ (by simp) _ (by simp [hf'])) (hp _ (by simp [hf']) _ (by simp)) e).1
      have := he _ (by simp) _ (by simp [hf']) this
      exact h1 (this ▸ hf')

/-- The components of a tensor are different functions. -/
theorem components_nodup (hd : DetSystem K coords) (hp : PlainNames K coords) (T : Field → ℕ → ℕ → Ex)
    (hT : ∀ f g i j k l, T f i j = T g k l → f.code = g.code ∧ f.indexCode i j = g.indexCode k l) : (tensorComponents K.fields T).Nodup := by
  unfold tensorComponents
  rw [List.nodup_flatMap]
  constructor
  · intro f hf
    refine List.Nodup.map_on ?_ (upper_nodup _)
    rintro ⟨i, j⟩ hij ⟨k, l⟩ hkl h
    obtain ⟨h1, h2⟩ := mem_upper.1 hij
    obtain ⟨h3, h4⟩ := mem_upper.1 hkl
    dsimp only at h1 h2 h3 h4 h
    have e := (hT _ _ _ _ _ _ h).2
    unfold Field.indexCode Field.spatialCode at e
    rw [if_neg (by omega), if_neg (by omega)] at e
    have hs : ∀ x ∈ f.spatial, x ∈ coords := by
      intro x hx
      rw [← hd.same f hf]
      exact List.mem_of_mem_filter hx
    obtain ⟨rfl, rfl⟩ := append_inj (fun x hx y hy => hp.coordinates x (hs x hx) y (hs y hy))
      (by unfold Field.spatial; rw [hd.same f hf]; exact hd.nodup.filter _) (by omega) h2 (by omega) h4 e
    rfl
  · refine hp.fields.imp_of_mem ?_
    intro f g hf hg hfg
    show List.Disjoint _ _
    intro e h1 h2
    obtain ⟨a, -, rfl⟩ := List.mem_map.1 h1
    obtain ⟨b, -, e⟩ := List.mem_map.1 h2
    exact hfg (hp.codes f hf g hg (hT _ _ _ _ _ _ e).1.symm)

theorem mem_tensor {fields : List Field} {T : Field → ℕ → ℕ → Ex} {e : Ex} (h : e ∈ tensorComponents fields T) : ∃ f ∈ fields, ∃ i j, e = T f i j := by
  obtain ⟨f, hf, h⟩ := List.mem_flatMap.1 h
  obtain ⟨a, -, rfl⟩ := List.mem_map.1 h
  exact ⟨f, hf, _, _, rfl⟩

/-- The unknowns of a system are different functions, for a tensor with names in braces. -/
theorem unknowns_nodup (hd : DetSystem K coords) (hp : PlainNames K coords) (T : Field → ℕ → ℕ → Ex)
    (hT : ∀ f g i j k l, T f i j = T g k l → f.code = g.code ∧ f.indexCode i j = g.indexCode k l)
    (hb : ∀ f i j, ∃ u args, T f i j = .fn ('{' :: u) args) (hv : ∀ (f g : Field) i j, f.variance ≠ T g i j) :
    (K.fields.map Field.value ++ K.fields.map Field.variance ++ crossCovariances coords K.fields ++ tensorComponents K.fields T).Nodup := by
  have he : ∀ f ∈ K.fields, ∀ g ∈ K.fields, f.name = g.name → f = g :=
    fun f hf g hg h => hp.codes f hf g hg (by unfold Field.code; rw [h])
  have vb : ∀ f ∈ K.fields, ∀ u args, f.value ≠ .fn ('{' :: u) args := by
    intro f hf u args h
    have := (Ex.fn.inj h).1
    exact hp.brace f hf (by rw [this]; rfl)
  refine List.nodup_append.2 ⟨List.nodup_append.2 ⟨List.nodup_append.2 ⟨?_, ?_, ?_⟩, crossCovariances_nodup hp.fields he hp.names, ?_⟩,
    components_nodup hd hp T hT, ?_⟩
  · exact List.Nodup.map_on (fun f hf g hg h => he f hf g hg (Ex.fn.inj h).1) hp.fields
  · exact List.Nodup.map_on (fun f hf g hg h => hp.codes f hf g hg ((C106_same_function f g 0 0 0 0).2.2.2.1.1 h).1) hp.fields
  · rintro a ha b hb rfl
    obtain ⟨f, hf, rfl⟩ := List.mem_map.1 ha
    obtain ⟨g, -, e⟩ := List.mem_map.1 hb
    exact vb f hf _ _ e.symm
  · rintro a ha b hb rfl
    obtain ⟨f', hf', g', hg', e⟩ := mem_crossCovariances hb
    rcases List.mem_append.1 ha with h | h
    · obtain ⟨f, hf, rfl⟩ := List.mem_map.1 h
      have := (Ex.fn.inj e).1
      exact hp.label f hf (by rw [this, List.append_assoc]; exact ⟨_, rfl⟩)
    · obtain ⟨f, hf, rfl⟩ := List.mem_map.1 h
      exact absurd (Ex.fn.inj e).1 (by simp)
  · rintro a ha b hb' rfl
    obtain ⟨g, -, i, j, e⟩ := mem_tensor hb'
    obtain ⟨u, args, e'⟩ := hb g i j
    rcases List.mem_append.1 ha with h | h
    · rcases List.mem_append.1 h with h | h
      · obtain ⟨f, hf, rfl⟩ := List.mem_map.1 h
        exact vb f hf _ _ (e.trans e')
      · obtain ⟨f, hf, rfl⟩ := List.mem_map.1 h
        exact hv f g i j e
    · obtain ⟨f', hf', g', hg', e1⟩ := mem_crossCovariances h
      rw [e1] at e
      exact absurd (Ex.fn.inj (e.trans e')).1 (by simp)

/-- **C106** With names that can be told apart, no two equations of the generated systems are for the same unknown. -/
theorem C106_distinct (h : EvolutionSystem K coords) (hp : PlainNames K coords) (hr : ∃ r, K.reynolds = .ok r) (user : Dict Ex Ex)
    (hu : UserClosure user) : (∃ l, K.inMetric user = .ok l ∧ (l.map Prod.fst).Nodup) ∧ (∃ l, K.inAspect user = .ok l ∧ (l.map Prod.fst).Nodup) ∧
      ∃ l, K.inDiffusion user = .ok l ∧ (l.map Prod.fst).Nodup := by
  have hd : Function.Injective (fun g : Ex => Ex.deriv g [(PKF.time, 1)]) := fun a b h => (Ex.deriv.inj h).1
  obtain ⟨⟨l1, a1, b1, -⟩, ⟨l2, a2, b2, -⟩, l3, a3, b3, -⟩ := C74_complete h hr user hu
  refine ⟨⟨l1, a1, ?_⟩, ⟨l2, a2, ?_⟩, l3, a3, ?_⟩
  · rw [b1]
    refine (unknowns_nodup h.det hp _ (fun f g i j k l e => ?_) (fun f i j => ⟨_, _, rfl⟩) (fun f g i j e => ?_)).map hd
    · exact ⟨((C106_same_function f g i j k l).1.1 e).1, ((C106_same_function f g i j k l).1.1 e).2.1⟩
    · exact absurd (C106_kinds f g .variance (.metric i j) e) (by simp [Kind.sort])
  · rw [b2]
    refine (unknowns_nodup h.det hp _ (fun f g i j k l e => ?_) (fun f i j => ⟨_, _, rfl⟩) (fun f g i j e => ?_)).map hd
    · exact ⟨((C106_same_function f g i j k l).2.1.1 e).1, ((C106_same_function f g i j k l).2.1.1 e).2.1⟩
    · exact absurd (C106_kinds f g .variance (.aspect i j) e) (by simp [Kind.sort])
  · rw [b3]
    have := unknowns_nodup h.det hp Field.diffusion (fun f g i j k l e => ?_) (fun f i j => ⟨_, _, rfl⟩) (fun f g i j e => ?_)
    · exact (List.Nodup.sublist (List.Sublist.append (List.sublist_append_left _ _) (List.Sublist.refl _)) this).map hd
    · exact ⟨((C106_same_function f g i j k l).2.2.1.1 e).1, ((C106_same_function f g i j k l).2.2.1.1 e).2.1⟩
    · exact absurd (C106_kinds f g .variance (.diffusion i j) e) (by simp [Kind.sort])

/-! ## Cases -/

/-- The tracer in two dimensions has names that can be told apart. -/
theorem tracer_plain : PlainNames tracer ["t".toList, "x".toList, "y".toList] where
  brace := by decide +kernel
  label := by decide +kernel
  fields := by decide +kernel
  codes := by decide +kernel
  names := by decide +kernel
  coordinates := by decide +kernel

example : ∃ l, tracer.inMetric [] = .ok l ∧ (l.map Prod.fst).Nodup :=
  (C106_distinct tracer_evolution tracer_plain (ok_of_isSome _ (by decide +kernel)) [] (fun _ h => by cases h)).1

/-- **C106** Coordinates called `a`, `aa` and `aaa`: two components of the metric are the same function, and in_metric has two
equations for it. -/
theorem C106_coordinates_counterexample (f : Field) (hf : f = ⟨"u".toList, ["t".toList, "a".toList, "aa".toList, "aaa".toList]⟩) :
    f.metric 0 2 = f.metric 1 1 ∧ (0, 2) ∈ upper f.spatial.length ∧ (1, 1) ∈ upper f.spatial.length := by
  subst hf
  decide +kernel

/-- Two fields with the same name without LaTeX characters, `u^1` and `u_1`: the first one grows, the second one decays. -/
def twins : Pkf where
  fields := [⟨"u^1".toList, ["t".toList, "x".toList]⟩, ⟨"u_1".toList, ["t".toList, "x".toList]⟩]
  equations := [(dt (.fn "u^1".toList ["t".toList, "x".toList]), .fn "u^1".toList ["t".toList, "x".toList]),
    (dt (.fn "u_1".toList ["t".toList, "x".toList]), .mul (.num (-1)) (.fn "u_1".toList ["t".toList, "x".toList]))]

/-- **C106** The two fields share their error and their variance: both equations of the variances have the trend of the second field, that
the variance decays, although the error of the first field grows, as the equation of its mean. -/
theorem C106_codes_counterexample (V : Ex) (hV : V = .fn "{V_{u_1}}".toList ["t".toList, "x".toList]) :
    (∀ f ∈ twins.fields, f.variance = V) ∧
    twins.varianceSystem = .ok [(dt V, .mul (.num (-2)) V), (dt V, .mul (.num (-2)) V)] ∧
    (Pkf.varianceSystem { fields := twins.fields.take 1, equations := twins.equations.take 1 }) = .ok [(dt V, .mul (.num 2) V)] := by
  subst hV
  have key : ∀ (r : Except PyErr (List Eqn)) (l : List Eqn), (match r with
      | .ok l' => decide (l' = l)
      | _ => false) = true → r = .ok l := by
    intro r l h
    cases r with
    | error e => cases h
    | ok l' => rw [of_decide_eq_true h]
  exact ⟨by decide +kernel, key _ _ (by decide +kernel), key _ _ (by decide +kernel)⟩

end Sympkf.PKF
