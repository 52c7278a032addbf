import Verif.Lemmas.PkfMean

/-!
# Lemmas: the systems of the statistics
-/

set_option autoImplicit false

namespace Sympkf

theorem mapM_ok {α β : Type} (g : α → Except PyErr β) (l : List α) (l' : List β) (h : l.mapM g = .ok l') :
    List.Forall₂ (fun a b => g a = .ok b) l l' := by
  induction l generalizing l' with
  | nil => cases h; exact .nil
  | cons a l ih =>
    rw [List.mapM_cons] at h
    simp only [bind, Except.bind] at h
    split at h
    · cases h
    · rename_i b hb
      split at h
      · cases h
      · rename_i bs hbs
        cases h
        exact .cons hb (ih bs hbs)

namespace Spec

open Text Rand PKF Pkf

variable {R : Type} [CommRing R] [Algebra ℚ R] {S : Interp R} {A : Subalgebra ℚ R} {P : Set R} {C : Set Str}
  {K : Pkf} {coords : List Str}

theorem forall₂_right {α β : Type} {r : α → β → Prop} {l : List α} {l' : List β} (h : List.Forall₂ r l l') (b : β) (hb : b ∈ l') :
    ∃ a ∈ l, r a b := by
  induction h with
  | nil => simp at hb
  | cons hab _ ih =>
    rcases List.mem_cons.1 hb with rfl | hb
    · exact ⟨_, by simp, hab⟩
    · obtain ⟨a, ha, hr⟩ := ih hb
      exact ⟨a, by simp [ha], hr⟩

theorem forall₂_left {α β : Type} {r : α → β → Prop} {l : List α} {l' : List β} (h : List.Forall₂ r l l') (a : α) (ha : a ∈ l) :
    ∃ b ∈ l', r a b := by
  induction h with
  | nil => simp at ha
  | cons hab _ ih =>
    rcases List.mem_cons.1 ha with rfl | ha
    · exact ⟨_, by simp, hab⟩
    · obtain ⟨b, hb, hr⟩ := ih ha
      exact ⟨b, by simp [hb], hr⟩

namespace Setting

variable (h : Setting S A P C K coords) (hd : Dynamics S P C K) (ht : Tangent S K)
include h

omit h in
theorem den_dt' (e : Ex) : den S (dt e) = S.D time (den S e) := rfl

omit h in
theorem valid_trends (l : List Eqn) (hl : ∀ q ∈ l, Valid S P C q) : ∀ kv ∈ trends l, Valid S P C kv :=
  fun kv hkv => hl kv (mem_trends l kv hkv)

include hd ht in
theorem error_valid (es : List Eqn) (hes : K.errorSystem = .ok es) : ∀ q ∈ es, Valid S P C q := by
  obtain ⟨es', h1, h2⟩ := h.error_spec hd
  rw [h1] at hes
  cases hes
  intro q hq
  obtain ⟨fq, hfq, hv⟩ := forall₂_right h2 q hq
  exact ⟨hv.reg.1, hv.reg.2, by rw [hv.lhs, hv.rhs, ht fq hfq]⟩

/-- A statistical equation: the average of an expression, after substitution of the trends of the errors. -/
theorem stat_spec (c : Dict Ex Ex) (hc : K.closure = .ok c) (d : Dict Ex Ex) (hdv : ∀ kv ∈ d, Valid S P C kv) (e : Ex)
    (he : Regular S P C e) (r : Ex) (hr : K.applyInternal c (K.subs K.subsError (K.subs d e)) = .ok r) :
    den S r = den S e ∧ Regular S P C r := by
  obtain ⟨a1, a2⟩ := h.subs_spec d hdv e he
  obtain ⟨b1, b2⟩ := h.subs_spec _ h.subsError_valid _ a2
  obtain ⟨c1, c2⟩ := (h.applyInternal_spec c (h.closure_valid c hc) _ b2).1 r hr
  exact ⟨c1.trans (b1.trans a1), c2⟩

include hd ht

theorem variance_spec (vs : List Eqn) (hvs : K.varianceSystem = .ok vs) :
    List.Forall₂ (fun f q => q.1 = dt f.variance ∧ den S q.2 = S.D time (S.E (den S f.error ^ 2)) ∧ Valid S P C q) K.fields vs := by
  obtain ⟨es, he, -⟩ := h.error_spec hd
  obtain ⟨c, hc⟩ := h.closure_ok
  have hev := valid_trends _ (h.error_valid hd ht es he)
  unfold varianceSystem at hvs
  simp only [he, hc, bind, Except.bind] at hvs
  refine forall₂_mem (mapM_ok _ _ _ hvs) (fun f hf q hq => ?_)
  unfold varianceEq at hq
  simp only [bind, Except.bind] at hq
  split at hq
  · cases hq
  rename_i r hr
  cases hq
  have two : isNat 2 = true := by decide +kernel
  have hreg : Regular S P C (.ex (dt (.pow f.error 2))) :=
    .inl (h.regular_dt _ ⟨h.regular_error f hf, .inl two⟩)
  obtain ⟨e1, e2⟩ := h.stat_spec c hc _ hev _ hreg r hr
  have e3 : den S (.ex (dt (.pow f.error 2))) = S.D time (S.E (den S f.error ^ 2)) := by
    show S.E (S.D time (S.pw (den S f.error) 2)) = _
    rw [h.stoch.E_D _ _ h.time_ne, show (2 : ℚ) = ((2 : ℕ) : ℚ) by norm_num, h.stoch.pw_nat]
  refine ⟨rfl, e1.trans e3, h.regular_dt _ (h.regular_variance f hf), e2, ?_⟩
  show S.D time (den S f.variance) = den S r
  rw [e1, e3, h.error_var f hf]

theorem epsilon_spec (eps : List Eqn) (heps : K.epsilonSystem = .ok eps) :
    List.Forall₂ (fun f q => q.1 = dt f.epsilon ∧ Valid S P C q) K.fields eps := by
  obtain ⟨es, he, -⟩ := h.error_spec hd
  unfold epsilonSystem at heps
  simp only [he, bind, Except.bind] at heps
  split at heps
  · cases heps
  rename_i vs hvs
  cases heps
  have hev := valid_trends _ (h.error_valid hd ht es he)
  have hvv : ∀ kv ∈ trends vs, Valid S P C kv := valid_trends _ (fun q hq => by
    obtain ⟨f, -, hv⟩ := forall₂_right (h.variance_spec hd ht vs hvs) q hq
    exact hv.2.2)
  rw [List.forall₂_map_right_iff]
  rw [List.forall₂_same]
  intro f hf
  have hreg : Regular S P C (dt (.mul f.error (.pow f.variance (-1 / 2)))) :=
    h.regular_dt _ ⟨h.regular_error f hf, h.regular_pow f hf _⟩
  obtain ⟨a1, a2⟩ := h.subs_spec _ hev _ hreg
  obtain ⟨b1, b2⟩ := h.subs_spec _ hvv _ a2
  obtain ⟨c1, c2⟩ := h.subs_spec _ h.subsError_valid _ b2
  refine ⟨rfl, h.regular_dt _ (h.regular_epsilon f hf), c2, ?_⟩
  refine Eq.trans ?_ (c1.trans (b1.trans a1)).symm
  show S.D time (den S f.epsilon) = S.D time (den S f.error * S.pw (den S f.variance) (-1 / 2))
  rw [(h.normal f hf).error, mul_assoc, (h.normal f hf).sqrt_inv, mul_one]

theorem cross_spec (cs : Option (List Eqn)) (hcs : K.crossSystem = .ok cs) :
    (K.fields.length = 1 → cs = none) ∧ (K.fields.length ≠ 1 → ∃ l, cs = some l ∧
      List.Forall₂ (fun p q => ∃ v, K.closure.toOption.bind (·.get? (.ex (.mul p.1.error p.2.error))) = some v ∧ q.1 = dt v ∧
        den S v = S.E (den S p.1.error * den S p.2.error) ∧ Valid S P C q) (couples K.fields) l) := by
  unfold crossSystem at hcs
  refine ⟨fun h1 => ?_, fun h1 => ?_⟩
  · rw [if_pos h1] at hcs
    cases hcs
    rfl
  · rw [if_neg h1] at hcs
    obtain ⟨es, he, -⟩ := h.error_spec hd
    obtain ⟨c, hc⟩ := h.closure_ok
    simp only [he, hc, bind, Except.bind] at hcs
    split at hcs
    · cases hcs
    rename_i l hl
    cases hcs
    refine ⟨l, rfl, ?_⟩
    have hev := valid_trends _ (h.error_valid hd ht es he)
    refine forall₂_mem (mapM_ok _ _ _ hl) (fun p hp q hq => ?_)
    have hm := ((PKF.C41_couples K.fields).1 p.1 p.2).1 hp
    have m1 : p.1 ∈ K.fields := hm.subset (by simp)
    have m2 : p.2 ∈ K.fields := hm.subset (by simp)
    unfold crossEq at hq
    simp only [bind, Except.bind] at hq
    split at hq
    · cases hq
    rename_i v hv
    split at hq
    · cases hq
    rename_i r hr
    cases hq
    have hg : c.get? (.ex (.mul p.1.error p.2.error)) = some v := by
      unfold Dict.getItem at hv
      split at hv
      · rename_i v' hv'
        cases hv
        exact hv'
      · cases hv
    have hval := h.closure_valid c hc _ (Dict.mem_of_get? _ _ _ hg)
    have hreg : Regular S P C (.ex (dt (.mul p.1.error p.2.error))) :=
      .inl (h.regular_dt _ ⟨h.regular_error _ m1, h.regular_error _ m2⟩)
    obtain ⟨e1, e2⟩ := h.stat_spec c hc _ hev _ hreg r hr
    obtain ⟨f1, f2⟩ := eval_spec h.stoch h.calculus r e2
    have hv2 : den S v = S.E (den S p.1.error * den S p.2.error) := hval.2.2.symm
    refine ⟨v, by rw [hc]; exact hg, rfl, hv2, h.regular_dt _ hval.2.1, f2, ?_⟩
    show S.D time (den S v) = den S (eval r)
    rw [f1, e1, hv2]
    exact (h.stoch.E_D _ _ h.time_ne).symm

omit h hd ht in
theorem mem_pairs (n i j : ℕ) : (i, j) ∈ pairs n ↔ i ≤ j ∧ j < n := by
  unfold pairs
  simp only [List.mem_flatMap, List.mem_range, List.mem_map, List.mem_range'_1, Prod.mk.injEq]
  constructor
  · rintro ⟨a, ha, b, hb, rfl, rfl⟩; omega
  · rintro ⟨h1, h2⟩; exact ⟨i, by omega, j, by omega, rfl, rfl⟩

theorem metric_spec (ms : List Eqn) (hms : K.metricSystem = .ok ms) :
    List.Forall₂ (fun p q => q.1 = dt (p.1.metric p.2.1 p.2.2) ∧ Valid S P C q)
      (K.fields.flatMap (fun f => (pairs f.spatial.length).map (fun ij => (f, ij)))) ms := by
  obtain ⟨c, hc⟩ := h.closure_ok
  unfold metricSystem at hms
  simp only [hc, bind, Except.bind] at hms
  split at hms
  · cases hms
  rename_i eps heps
  have hev : ∀ kv ∈ trends eps, Valid S P C kv := valid_trends _ (fun q hq => by
    obtain ⟨f, -, hv⟩ := forall₂_right (h.epsilon_spec hd ht eps heps) q hq
    exact hv.2)
  refine forall₂_mem (mapM_ok _ _ _ hms) (fun p hp q hq => ?_)
  obtain ⟨f, hf, hp⟩ := List.mem_flatMap.1 hp
  obtain ⟨⟨i, j⟩, hij, rfl⟩ := List.mem_map.1 hp
  obtain ⟨hij, hj⟩ := (mem_pairs _ _ _).1 hij
  unfold metricEq at hq
  simp only [bind, Except.bind] at hq
  split at hq
  · cases hq
  rename_i r hr
  cases hq
  have hx : ∀ k, k < f.spatial.length → f.spatial.getD k [] ∈ C := fun k hk => by
    rw [List.getD_eq_getElem?_getD, List.getElem?_eq_getElem hk, Option.getD_some]
    exact h.spatial_mem f hf _ (List.getElem_mem hk)
  have hreg : Regular S P C (.ex (dt (.mul (.deriv f.epsilon [(f.spatial.getD i [], 1)]) (.deriv f.epsilon [(f.spatial.getD j [], 1)])))) :=
    .inl (h.regular_dt _ ⟨⟨h.regular_epsilon f hf, by simpa using hx i (by omega)⟩, h.regular_epsilon f hf, by simpa using hx j hj⟩)
  obtain ⟨a1, a2⟩ := h.subs_spec _ hev _ hreg
  obtain ⟨c1, c2⟩ := (h.applyInternal_spec c (h.closure_valid c hc) _ a2).1 r hr
  obtain ⟨f1, f2⟩ := eval_spec h.stoch h.calculus r c2
  refine ⟨rfl, h.regular_dt _ (h.regular_metric f hf i j), f2, ?_⟩
  show S.D time (den S (f.metric i j)) = den S (eval r)
  rw [f1, c1, a1, (h.normal f hf).metric i j hij hj]
  exact (h.stoch.E_D _ _ h.time_ne).symm

end Setting
end Spec
end Sympkf
