import Verif.Props.Pkf
import Verif.Lemmas.Family

/-!
# Properties: the Reynolds systems are Taylor polynomials in the sense of analysis (C81)

C45-C47 describe the Reynolds systems by formal expansions (`Jet`).  Here the state is a family of smooth random fields that
depends on a real parameter `ε`, the fields take the values `E[f] + ε e_f`, and the derivatives, the elementary functions and the
powers in the dynamics are those of real analysis (`Spec.Smooth.family`): no formal expansion occurs in the statements.
-/

set_option autoImplicit false

namespace Sympkf.PKF

open Text Rand Spec Spec.Smooth Asymptotics Topology

variable {V : Type} [NormedAddCommGroup V] [NormedSpace ℝ V] {Ω : Type} [Fintype Ω] {w : Ω → F V} {d : Str → V}
  {sym : Str → Ω → F V} {fn : Str → List Str → Ω → F V} {A : Subalgebra ℚ (Ω → F V)} {P : Set (Ω → F V)} {C : Set Str}
  {K : Pkf} {coords : List Str}

/-- The right-hand side `e` of the dynamics for the event `ω` at the position `p`, when the fields have the values
`E[f] + ε e_f`. -/
noncomputable def dynamicsAt (w : Ω → F V) (d : Str → V) (S : Interp (Ω → F V)) (K : Pkf) (e : Ex) (ω : Ω) (p : V) (ε : ℝ) : ℝ :=
  den (family w d S K.fields) e ω (ε, p)

/-- **C81**  For every finite family of smooth random fields, the Reynolds systems and the error system are Taylor polynomials: the
right-hand side of each equation of the dynamics at `E[f] + ε e_f` is `c0 + c1 ε + c2 ε^2 + O(ε^3)` at every event and position,
and there `c0 + c1 + c2` is the value of the right-hand side of the second-order system, `c0 + c1` that of the first-order system,
and `c1` that of the error system. -/
theorem C81_taylor (h : Setting (interp w d sym fn elementary) A P C K coords)
    (hd : Dynamics (interp w d sym fn elementary) P C K) (hP : ∀ r ∈ P, ∀ ω p, 0 < (r ω : V → ℝ) p) :
    ∃ second first es, K.secondOrder = .ok second ∧ K.firstOrder = .ok first ∧ K.errorSystem = .ok es ∧
      second.length = K.equations.length ∧ first.length = K.equations.length ∧ es.length = K.equations.length ∧
      ∀ (i : ℕ) (q q2 q1 qe : Eqn), K.equations[i]? = some q → second[i]? = some q2 → first[i]? = some q1 → es[i]? = some qe →
      ∀ ω p, ∃ c0 c1 c2 : ℝ,
        (fun ε => dynamicsAt w d (interp w d sym fn elementary) K q.2 ω p ε - (c0 + c1 * ε + c2 * ε ^ 2)) =O[𝓝 0] (fun ε => ε ^ 3) ∧
        (den (interp w d sym fn elementary) q2.2 ω : V → ℝ) p = c0 + c1 + c2 ∧
        (den (interp w d sym fn elementary) q1.2 ω : V → ℝ) p = c0 + c1 ∧
        (den (interp w d sym fn elementary) qe.2 ω : V → ℝ) p = c1 := by
  obtain ⟨second, first, h1, h2, h3, h4⟩ := C45_reynolds_partial h hd
  obtain ⟨es, h5, h6⟩ := C46_error_partial h hd
  have hl : (K.fields.zip K.equations).length = K.equations.length := by
    rw [List.length_zip, Setting.length_eq hd, min_self]
  refine ⟨second, first, es, h1, h2, h5, by rw [← h3.length_eq, hl], by rw [← h4.length_eq, hl], by rw [← h6.length_eq, hl], ?_⟩
  intro i q q2 q1 qe g g2 g1 ge ω p
  have hi : i < (K.fields.zip K.equations).length := by rw [hl]; exact (List.getElem?_eq_some_iff.1 g).1
  obtain ⟨i2, e2⟩ := List.getElem?_eq_some_iff.1 g2
  obtain ⟨i1, e1⟩ := List.getElem?_eq_some_iff.1 g1
  obtain ⟨ie, ee⟩ := List.getElem?_eq_some_iff.1 ge
  have a2 := (h3.get hi i2).2
  have a1 := (h4.get hi i1).2
  have ae := (h6.get hi ie).2
  simp only [List.get_eq_getElem, e2, e1, ee] at a2 a1 ae
  have hq : (K.fields.zip K.equations)[i].2 = q := by
    rw [List.getElem_zip]; exact (List.getElem?_eq_some_iff.1 g).2
  rw [hq] at a2 a1 ae
  have J := jet_spec h.stoch hP hd.eps K.fields q.2 (hd.rhs q (List.mem_of_getElem? g)) ω
  exact ⟨_, _, _, J.taylor p, by rw [a2]; rfl, by rw [a1]; rfl, by rw [ae]⟩

/-- **C81**  The mean of the dynamics: when the errors are multiplied by `ε`, the mean of the right-hand side of each equation of
the dynamics is `m0 + m2 ε^2 + O(ε^3)`, and `m0 + m2` is the value of the right-hand side of the expectation system. -/
theorem C81_mean (h : Setting (interp w d sym fn elementary) A P C K coords)
    (hd : Dynamics (interp w d sym fn elementary) P C K) (hP : ∀ r ∈ P, ∀ ω p, 0 < (r ω : V → ℝ) p) :
    ∃ m, K.expectationSystem = .ok m ∧ m.length = K.equations.length ∧
      ∀ (i : ℕ) (q qm : Eqn), K.equations[i]? = some q → m[i]? = some qm → ∀ ω p, ∃ m0 m2 : ℝ,
        (fun ε => ∑ ω', (w ω' : V → ℝ) p * dynamicsAt w d (interp w d sym fn elementary) K q.2 ω' p ε - (m0 + m2 * ε ^ 2))
          =O[𝓝 0] (fun ε => ε ^ 3) ∧
        (den (interp w d sym fn elementary) qm.2 ω : V → ℝ) p = m0 + m2 := by
  obtain ⟨m, h1, h2⟩ := C47_expectation_partial h hd
  have hl : (K.fields.zip K.equations).length = K.equations.length := by
    rw [List.length_zip, Setting.length_eq hd, min_self]
  refine ⟨m, h1, by rw [← h2.length_eq, hl], ?_⟩
  intro i q qm g gm ω p
  have hi : i < (K.fields.zip K.equations).length := by rw [hl]; exact (List.getElem?_eq_some_iff.1 g).1
  obtain ⟨im, em⟩ := List.getElem?_eq_some_iff.1 gm
  have am := (h2.get hi im).2
  simp only [List.get_eq_getElem, em] at am
  have hq : (K.fields.zip K.equations)[i].2 = q := by
    rw [List.getElem_zip]; exact (List.getElem?_eq_some_iff.1 g).2
  have hz := (h.split_rhs hd _ (List.getElem_mem hi)).2
  rw [hq] at am hz
  have J := jet_spec h.stoch hP hd.eps K.fields q.2 (hd.rhs q (List.mem_of_getElem? g))
  obtain ⟨j, hj⟩ : ∃ j, j = den (perturbed (interp w d sym fn elementary) K.fields) q.2 := ⟨_, rfl⟩
  rw [← hj] at am hz J
  have ev : ∀ (r : Ω → F V), ((interp w d sym fn elementary).E r ω : V → ℝ) p = ∑ ω', (w ω' : V → ℝ) p * (r ω' : V → ℝ) p := by
    intro r
    show ((∑ ω', w ω' * r ω' : F V) : V → ℝ) p = _
    rw [AddSubmonoidClass.coe_finsetSum, Finset.sum_apply]; rfl
  have hz' : ∑ ω', (w ω' : V → ℝ) p * (j.c1 ω' : V → ℝ) p = 0 := by
    rw [← ev, hz]; rfl
  refine ⟨∑ ω', (w ω' : V → ℝ) p * (j.c0 ω' : V → ℝ) p, ∑ ω', (w ω' : V → ℝ) p * (j.c2 ω' : V → ℝ) p, ?_, ?_⟩
  · have T : (fun ε : ℝ => ∑ ω', (w ω' : V → ℝ) p * (dynamicsAt w d (interp w d sym fn elementary) K q.2 ω' p ε -
        ((j.c0 ω' : V → ℝ) p + (j.c1 ω' : V → ℝ) p * ε + (j.c2 ω' : V → ℝ) p * ε ^ 2))) =O[𝓝 0] (fun ε : ℝ => ε ^ 3) :=
      IsBigO.fun_sum fun ω' _ => ((J ω').taylor p).const_mul_left _
    refine T.congr_left fun ε => ?_
    have : ∑ ω', (w ω' : V → ℝ) p * ((j.c1 ω' : V → ℝ) p * ε) = 0 := by
      simp only [← mul_assoc]; rw [← Finset.sum_mul, hz', zero_mul]
    simp only [mul_sub, mul_add, Finset.sum_sub_distrib, Finset.sum_add_distrib, ← mul_assoc, ← Finset.sum_mul] at this ⊢
    rw [hz']; ring
  · rw [am, Jet.second]
    rw [ev]
    have : ∀ ω', ((j.c0 + j.c1 + j.c2) ω' : V → ℝ) p = (j.c0 ω' : V → ℝ) p + (j.c1 ω' : V → ℝ) p + (j.c2 ω' : V → ℝ) p := fun _ => rfl
    simp only [this, mul_add, Finset.sum_add_distrib, hz', add_zero]

/-- Transport at the velocity `exp(tanh(log(u))) / u`, for two waves. -/
example : ∃ second, nonlinear2.secondOrder = .ok second ∧ second.length = 2 := by
  obtain ⟨s, _, _, h1, _, _, h4, _⟩ := C81_taylor nonlinear2_setting nonlinear2_dynamics (fun r hr => hr)
  exact ⟨s, h1, h4⟩

example : ∃ m, nonlinear2.expectationSystem = .ok m ∧ m.length = 2 := by
  obtain ⟨m, h1, h2, _⟩ := C81_mean nonlinear2_setting nonlinear2_dynamics (fun r hr => hr)
  exact ⟨m, h1, h2⟩

end Sympkf.PKF
