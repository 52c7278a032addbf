import Verif.Model.Dynamics
import Verif.Props.Burgers
import Verif.Spec.Dynamics

/-!
# C78: the predefined dynamics
-/

set_option autoImplicit false

namespace Sympkf.Dynamics

open Text PDE Props Spec.PDE FinDiff

/-! ## Evolution equations, decided -/

/-- `Supported`, decided. -/
def supportedB (coords : List Sy) : Sy → Bool
  | .num _ => true
  | .sym .plain s => decide (s = "t".toList) || decide (Sy.sym .plain s ∉ coords)
  | .fn _ _ => true
  | .add a b => supportedB coords a && supportedB coords b
  | .mul a b => supportedB coords a && supportedB coords b
  | .pow a b => decide (b ≠ .num (1 / 2)) && decide (b ≠ .num (-1 / 2)) && (supportedB coords a && supportedB coords b)
  | .deriv (.fn _ _) vars => decide (vars ≠ []) && decide (vars.map Prod.fst).Nodup && decide (∀ v ∈ vars, 0 < v.2 ∧ v.1 ≠ "t".toList)
  | _ => false

theorem supported_of {coords : List Sy} {e : Sy} (h : supportedB coords e = true) : Supported coords e := by
  induction e with
  | num q => exact .num q
  | sym k s =>
    cases k <;> first | cases h | skip
    simp only [supportedB, Bool.or_eq_true, decide_eq_true_eq] at h
    exact .sym s h
  | fn u args => exact .fn u args
  | func g a => cases h
  | add a b iha ihb =>
    simp only [supportedB, Bool.and_eq_true] at h
    exact .add (iha h.1) (ihb h.2)
  | mul a b iha ihb =>
    simp only [supportedB, Bool.and_eq_true] at h
    exact .mul (iha h.1) (ihb h.2)
  | pow a b iha ihb =>
    simp only [supportedB, Bool.and_eq_true] at h
    exact .pow (iha h.2.1) (ihb h.2.2)
  | deriv a vars _ =>
    cases a <;> first | cases h | skip
    simp only [supportedB, Bool.and_eq_true, decide_eq_true_eq] at h
    exact .deriv _ _ _ h.1.1 h.1.2 h.2

theorem roots_of {coords : List Sy} {e : Sy} (h : supportedB coords e = true) : SquareRootFree e := by
  induction e with
  | num q => trivial
  | sym k s => trivial
  | fn u args => trivial
  | func g a => cases h
  | add a b iha ihb =>
    simp only [supportedB, Bool.and_eq_true] at h
    exact ⟨iha h.1, ihb h.2⟩
  | mul a b iha ihb =>
    simp only [supportedB, Bool.and_eq_true] at h
    exact ⟨iha h.1, ihb h.2⟩
  | pow a b iha ihb =>
    simp only [supportedB, Bool.and_eq_true, decide_eq_true_eq] at h
    exact ⟨h.1.1, h.1.2, iha h.2.1, ihb h.2.2⟩
  | deriv a vars _ =>
    cases a <;> first | cases h | trivial

/-- The left-hand sides are time derivatives of functions. -/
def lhsB : Sy → Bool
  | .deriv (.fn _ _) vars => decide (vars = [("t".toList, 1)])
  | _ => false

theorem lhs_of {e : Sy} (h : lhsB e = true) : ∃ u args, e = .deriv (.fn u args) [("t".toList, 1)] := by
  match e, h with
  | .deriv (.fn u args) vars, h =>
    simp only [lhsB, decide_eq_true_eq] at h
    exact ⟨u, args, by rw [h]⟩

theorem evolution_of {coords : List Sy} {eqs : List Equation}
    (h : (eqs.all (fun e => lhsB e.lhs && supportedB coords e.rhs) && decide (eqs.map (fun e => e.lhs)).Nodup) = true) :
    Evolution coords eqs := by
  simp only [Bool.and_eq_true, List.all_eq_true, decide_eq_true_eq] at h
  exact ⟨⟨fun e he => lhs_of (h.1 e he).1, h.2, fun e he => supported_of (h.1 e he).2⟩, fun e he => roots_of (h.1 e he).2⟩

/-- The equations of an evolution system have a single derivative whose first variable is the time. -/
theorem single_time {coords : List Sy} {eqs : List Equation} (he : Evolution coords eqs) (e : Equation) (hee : e ∈ eqs) :
    ∃ d, e.derivatives.filter Sy.timeFirst = [d] := by
  obtain ⟨u, args, hlhs⟩ := he.lhs e hee
  refine ⟨e.lhs, (eq_singleton_iff _ _ ((List.nodup_dedup _).filter _)).2 ⟨?_, ?_⟩⟩
  · simp only [List.mem_filter, List.mem_dedup, List.mem_append]
    rw [hlhs]
    exact ⟨.inl (by simp [Sy.derivatives]), rfl⟩
  · intro d hd
    simp only [List.mem_filter, List.mem_dedup, List.mem_append] at hd
    obtain ⟨hd | hd, ht⟩ := hd
    · rw [hlhs] at hd ⊢
      simpa [Sy.derivatives] using hd
    · obtain ⟨u', args', vars', rfl, -, -, h6, -⟩ := supported_deriv (he.rhs e hee) hd
      match vars', ht with
      | (x, n) :: vars', ht => exact absurd (of_decide_eq_true ht) (h6 (x, n) List.mem_cons_self).2

/-- C64 for a system that is computed with the sets in a given order: the order does not matter. -/
theorem trend_order (eqs : List Equation) (s0 : System) (hs0 : System.build id eqs = .ok s0)
    (he : Evolution s0.coordinates eqs) (hn : WellNamed s0) (hex : s0.exogenous = [])
    (iter : List Sy → List Sy) (hi : ∀ l, (iter l).Perm l) :
    ∃ s, System.build iter eqs = .ok s ∧ s.prognostic = s0.prognostic ∧ s.spatialCoordinates = s0.spatialCoordinates ∧
      s.constantFunctions.Perm s0.constantFunctions ∧ s.constants.Perm s0.constants ∧ s.exogenous = [] ∧
      Evolution s.coordinates eqs ∧ WellNamed s ∧
      ∀ {R : Type} (A : Arith R) (O : Obj R) (ρ : Valuation R),
        (∀ f ∈ s0.constantFunctions, O.attr f.keyvar = ρ.fn f) →
        (∀ c ∈ s0.constants, ∀ n, c = .sym .plain n → O.attr (cleanLatexName n) = ρ.sym n) →
        ∃ m, s.trend A O (ρ.sym "t".toList) (s0.prognostic.map ρ.fn) = .ok m ∧ m.out = eqs.map (fun e => rhsValue A ρ e.rhs) ∧
          m.state = s0.prognostic.map ρ.fn := by
  obtain ⟨s, hs, p1, p2, p3, p4, p5, p6, -, p8⟩ := build_order iter hi eqs s0 hs0 (single_time he)
  have hx : s.exogenous = [] := by rw [hex, List.perm_nil] at p5; exact p5
  have he' : Evolution s.coordinates eqs := by rw [p2]; exact he
  refine ⟨s, hs, p1, p3, p4, p6, hx, he', p8 hn, fun A O ρ h1 h2 => ?_⟩
  exact C64_trend_partial iter hi eqs s hs he' (p8 hn) A O _ _ ρ (by rw [p1]) rfl
    (fun f hf => h1 f (p4.mem_iff.1 hf)) (fun n hc => h2 _ (p6.mem_iff.1 hc) n rfl) (.inl hx)

/-- The values of the functions and symbols: the state is the value of `f`, the others are attributes of the object. -/
def attrVal {R : Type} (f : Sy) (O : Obj R) (time a : R) : Valuation R where
  fn g := if g = f then a else O.attr g.keyvar
  sym n := if n = "t".toList then time else O.attr (cleanLatexName n)

/-- A system of one equation. -/
theorem trend_one (eqs : List Equation) (f : Sy) (s0 : System) (hs0 : System.build id eqs = .ok s0) (hf : s0.prognostic = [f])
    (he : (eqs.all (fun e => lhsB e.lhs && supportedB s0.coordinates e.rhs) && decide (eqs.map (fun e => e.lhs)).Nodup) = true)
    (hn : WellNamed s0) (hex : s0.exogenous = []) (hcf : f ∉ s0.constantFunctions)
    (hcs : Sy.sym .plain "t".toList ∉ s0.constants) (iter : List Sy → List Sy) (hi : ∀ l, (iter l).Perm l) :
    ∃ s, System.build iter eqs = .ok s ∧ s.prognostic = [f] ∧ s.spatialCoordinates = s0.spatialCoordinates ∧
      s.constantFunctions.Perm s0.constantFunctions ∧ s.constants.Perm s0.constants ∧ s.exogenous = [] ∧
      ∀ {R : Type} (A : Arith R) (O : Obj R) (time a : R),
        ∃ m, s.trend A O time [a] = .ok m ∧ m.out = eqs.map (fun e => rhsValue A (attrVal f O time a) e.rhs) := by
  obtain ⟨s, h1, h2, h3, h4, h5, h6, -, -, h7⟩ := trend_order eqs s0 hs0 (evolution_of he) hn hex iter hi
  refine ⟨s, h1, by rw [h2, hf], h3, h4, h5, h6, fun A O time a => ?_⟩
  obtain ⟨m, hm, hout, -⟩ := h7 A O (attrVal f O time a)
    (fun g hg => (if_neg (fun h : g = f => hcf (h ▸ hg))).symm)
    (fun c hc n hn => (if_neg (fun h : n = "t".toList => hcs (by rw [← h, ← hn]; exact hc))).symm)
  refine ⟨m, ?_, hout⟩
  rw [← hm, hf]
  simp [attrVal]

/-! ## One dimension -/

/-- **C78** The Burgers equation: `u_t = - u u_x + kappa u_xx`. -/
theorem C78_burgers (iter : List Sy → List Sy) (hi : ∀ l, (iter l).Perm l) :
    ∃ s, System.build iter burgers = .ok s ∧ s.prognostic = [.fn "u".toList ["t".toList, "x".toList]] ∧
      s.spatialCoordinates = [.sym .plain "x".toList] ∧
      s.constantFunctions = [] ∧ s.constants = [.sym .plain "\\kappa".toList] ∧ s.exogenous = [] ∧
      ∀ {R : Type} (A : Arith R) (O : Obj R) (time a : R), ∃ m, s.trend A O time [a] = .ok m ∧
        m.out = [A.add (A.mul (A.num (-1)) (A.mul a (A.diff [("x".toList, 1)] a))) (A.mul (O.attr "kappa".toList) (A.diff [("x".toList, 2)] a))] := by
  obtain ⟨s, h1, h2, h3, h4, h5, h6, h7⟩ := trend_one burgers u1 _ rfl (by decide +kernel) (by decide +kernel) (by decide +kernel)
    (by decide +kernel) (by decide +kernel) (by decide +kernel) iter hi
  refine ⟨s, h1, h2, h3, List.perm_nil.1 h4, List.perm_singleton.1 h5, h6, fun A O time a => ?_⟩
  obtain ⟨m, hm, hout⟩ := h7 A O time a
  exact ⟨m, hm, hout⟩

/-- **C78** The Kuramoto-Sivashinsky equation: `u_t = - u u_x - kappa u_xx - eta u_xxxx`. -/
theorem C78_kuramoto (iter : List Sy → List Sy) (hi : ∀ l, (iter l).Perm l) :
    ∃ s, System.build iter kuramoto = .ok s ∧ s.prognostic = [.fn "u".toList ["t".toList, "x".toList]] ∧
      s.spatialCoordinates = [.sym .plain "x".toList] ∧
      s.constantFunctions = [] ∧ s.constants.Perm [.sym .plain "\\kappa".toList, .sym .plain "\\eta".toList] ∧ s.exogenous = [] ∧
      ∀ {R : Type} (A : Arith R) (O : Obj R) (time a : R), ∃ m, s.trend A O time [a] = .ok m ∧
        m.out = [A.add (A.mul (A.num (-1)) (A.mul a (A.diff [("x".toList, 1)] a))) (A.add (A.mul (A.num (-1)) (A.mul (O.attr "kappa".toList) (A.diff [("x".toList, 2)] a))) (A.mul (A.num (-1)) (A.mul (O.attr "eta".toList) (A.diff [("x".toList, 4)] a))))] := by
  obtain ⟨s, h1, h2, h3, h4, h5, h6, h7⟩ := trend_one kuramoto u1 _ rfl (by decide +kernel) (by decide +kernel) (by decide +kernel)
    (by decide +kernel) (by decide +kernel) (by decide +kernel) iter hi
  refine ⟨s, h1, h2, h3, List.perm_nil.1 h4, h5, h6, fun A O time a => ?_⟩
  obtain ⟨m, hm, hout⟩ := h7 A O time a
  exact ⟨m, hm, hout⟩

/-- **C78** The diffusion equation: `u_t = kappa u_xx`. -/
theorem C78_diffusion (iter : List Sy → List Sy) (hi : ∀ l, (iter l).Perm l) :
    ∃ s, System.build iter diffusion = .ok s ∧ s.prognostic = [.fn "u".toList ["t".toList, "x".toList]] ∧
      s.spatialCoordinates = [.sym .plain "x".toList] ∧
      s.constantFunctions = [] ∧ s.constants = [.sym .plain "\\kappa".toList] ∧ s.exogenous = [] ∧
      ∀ {R : Type} (A : Arith R) (O : Obj R) (time a : R), ∃ m, s.trend A O time [a] = .ok m ∧
        m.out = [A.mul (O.attr "kappa".toList) (A.diff [("x".toList, 2)] a)] := by
  obtain ⟨s, h1, h2, h3, h4, h5, h6, h7⟩ := trend_one diffusion u1 _ rfl (by decide +kernel) (by decide +kernel) (by decide +kernel)
    (by decide +kernel) (by decide +kernel) (by decide +kernel) iter hi
  refine ⟨s, h1, h2, h3, List.perm_nil.1 h4, List.perm_singleton.1 h5, h6, fun A O time a => ?_⟩
  obtain ⟨m, hm, hout⟩ := h7 A O time a
  exact ⟨m, hm, hout⟩

/-! ## Two and three dimensions -/

/-- **C78** Advection in two dimensions: `c_t = - u c_x - v c_y`, with a stationary velocity. -/
theorem C78_advection2 (iter : List Sy → List Sy) (hi : ∀ l, (iter l).Perm l) :
    ∃ s, System.build iter advection2 = .ok s ∧ s.prognostic = [.fn "c".toList ["t".toList, "x".toList, "y".toList]] ∧
      s.spatialCoordinates = [.sym .plain "x".toList, .sym .plain "y".toList] ∧
      s.constantFunctions.Perm [.fn "u".toList ["x".toList, "y".toList], .fn "v".toList ["x".toList, "y".toList]] ∧ s.constants = [] ∧ s.exogenous = [] ∧
      ∀ {R : Type} (A : Arith R) (O : Obj R) (time a : R), ∃ m, s.trend A O time [a] = .ok m ∧
        m.out = [A.add (A.mul (A.num (-1)) (A.mul (O.attr "u".toList) (A.diff [("x".toList, 1)] a))) (A.mul (A.num (-1)) (A.mul (O.attr "v".toList) (A.diff [("y".toList, 1)] a)))] := by
  obtain ⟨s, h1, h2, h3, h4, h5, h6, h7⟩ := trend_one advection2 c2 _ rfl (by decide +kernel) (by decide +kernel) (by decide +kernel)
    (by decide +kernel) (by decide +kernel) (by decide +kernel) iter hi
  refine ⟨s, h1, h2, h3, h4, List.perm_nil.1 h5, h6, fun A O time a => ?_⟩
  obtain ⟨m, hm, hout⟩ := h7 A O time a
  exact ⟨m, hm, hout⟩

/-- **C78** Advection in three dimensions: `c_t = - u c_x - v c_y - w c_z`, with a stationary velocity. -/
theorem C78_advection3 (iter : List Sy → List Sy) (hi : ∀ l, (iter l).Perm l) :
    ∃ s, System.build iter advection3 = .ok s ∧ s.prognostic = [.fn "c".toList ["t".toList, "x".toList, "y".toList, "z".toList]] ∧
      s.spatialCoordinates = [.sym .plain "x".toList, .sym .plain "y".toList, .sym .plain "z".toList] ∧
      s.constantFunctions.Perm [.fn "u".toList ["x".toList, "y".toList, "z".toList], .fn "v".toList ["x".toList, "y".toList, "z".toList], .fn "w".toList ["x".toList, "y".toList, "z".toList]] ∧ s.constants = [] ∧ s.exogenous = [] ∧
      ∀ {R : Type} (A : Arith R) (O : Obj R) (time a : R), ∃ m, s.trend A O time [a] = .ok m ∧
        m.out = [A.add (A.mul (A.num (-1)) (A.mul (O.attr "u".toList) (A.diff [("x".toList, 1)] a))) (A.add (A.mul (A.num (-1)) (A.mul (O.attr "v".toList) (A.diff [("y".toList, 1)] a))) (A.mul (A.num (-1)) (A.mul (O.attr "w".toList) (A.diff [("z".toList, 1)] a))))] := by
  obtain ⟨s, h1, h2, h3, h4, h5, h6, h7⟩ := trend_one advection3 c3 _ rfl (by decide +kernel) (by decide +kernel) (by decide +kernel)
    (by decide +kernel) (by decide +kernel) (by decide +kernel) iter hi
  refine ⟨s, h1, h2, h3, h4, List.perm_nil.1 h5, h6, fun A O time a => ?_⟩
  obtain ⟨m, hm, hout⟩ := h7 A O time a
  exact ⟨m, hm, hout⟩

/-- The right-hand side, computed. -/
def diffusion2Expanded : Sy :=
  let k11 : Sy := .fn "\\kappa_{11}".toList [x, y]
  let k12 : Sy := .fn "\\kappa_{12}".toList [x, y]
  let k22 : Sy := .fn "\\kappa_{22}".toList [x, y]
  let u : Sy := .fn "u".toList [time, x, y]
  .add (.mul k11 (d u x 2)) (.add (.mul (.num 2) (.mul k12 (.deriv u [(x, 1), (y, 1)]))) (.add (.mul k22 (d u y 2))
    (.add (.mul (d k11 x 1) (d u x 1)) (.add (.mul (d k12 x 1) (d u y 1)) (.add (.mul (d k12 y 1) (d u x 1))
      (.mul (d k22 y 1) (d u y 1)))))))

theorem diffusion2_eq : diffusion2 = .ok [⟨d (.fn "u".toList [time, x, y]) time 1, diffusion2Expanded⟩] :=
  PKF.eq_ok _ _ (by decide +kernel)

theorem pd_add_apply {n : ℕ} (i : Fin n) (f g : (Fin n → ℝ) → ℝ) (hf : ContDiff ℝ (⊤ : ℕ∞) f) (hg : ContDiff ℝ (⊤ : ℕ∞) g)
    (p : Fin n → ℝ) : pd i (fun q => f q + g q) p = pd i f p + pd i g p := by
  have hf' := hf.differentiable (by simp)
  have hg' := hg.differentiable (by simp)
  rw [show (fun q => f q + g q) = f + g from rfl, pd_eq_fderiv i _ (hf'.add hg'), pd_eq_fderiv i _ hf', pd_eq_fderiv i _ hg',
    fderiv_add (hf' p) (hg' p)]
  rfl

theorem pd_mul_apply {n : ℕ} (i : Fin n) (f g : (Fin n → ℝ) → ℝ) (hf : ContDiff ℝ (⊤ : ℕ∞) f) (hg : ContDiff ℝ (⊤ : ℕ∞) g)
    (p : Fin n → ℝ) : pd i (fun q => f q * g q) p = f p * pd i g p + g p * pd i f p := by
  have hf' := hf.differentiable (by simp)
  have hg' := hg.differentiable (by simp)
  rw [show (fun q => f q * g q) = f * g from rfl, pd_eq_fderiv i _ (hf'.mul hg'), pd_eq_fderiv i _ hf', pd_eq_fderiv i _ hg',
    fderiv_mul (hf' p) (hg' p)]
  simp [smul_eq_mul]

/-- The values of the functions. -/
private noncomputable def val (k11 k12 k22 u : (Fin 2 → ℝ) → ℝ) : Sy → (Fin [x, y].length → ℝ) → ℝ
  | .fn n _ => if n = "u".toList then u else if n = "\\kappa_{11}".toList then k11 else if n = "\\kappa_{12}".toList then k12 else k22
  | _ => 0

private theorem diffusion2_exact (k11 k12 k22 u : (Fin 2 → ℝ) → ℝ) (h11 : ContDiff ℝ (⊤ : ℕ∞) k11) (h12 : ContDiff ℝ (⊤ : ℕ∞) k12)
    (h22 : ContDiff ℝ (⊤ : ℕ∞) k22) (hu : ContDiff ℝ (⊤ : ℕ∞) u) (σ : Str → ℝ) (p : Fin 2 → ℝ) :
    exact [x, y] (val k11 k12 k22 u) σ diffusion2Expanded p = Spec.Dynamics.diffusion k11 k12 k22 u p := by
  have e : exact [x, y] (val k11 k12 k22 u) σ diffusion2Expanded p
      = k11 p * pd 0 (pd 0 u) p + (((2 : ℚ) : ℝ) * (k12 p * pd 1 (pd 0 u) p) + (k22 p * pd 1 (pd 1 u) p +
        (pd 0 k11 p * pd 0 u p + (pd 0 k12 p * pd 1 u p + (pd 1 k12 p * pd 0 u p + pd 1 k22 p * pd 1 u p))))) := rfl
  have s0 := pd_smooth 0 u hu
  have s1 := pd_smooth 1 u hu
  rw [e, Spec.Dynamics.diffusion, pd_add_apply 0 _ _ (h11.mul s0) (h12.mul s1), pd_add_apply 1 _ _ (h12.mul s0) (h22.mul s1),
    pd_mul_apply 0 _ _ h11 s0, pd_mul_apply 0 _ _ h12 s1, pd_mul_apply 1 _ _ h12 s0, pd_mul_apply 1 _ _ h22 s1, pd_comm 0 1 u hu]
  push_cast
  ring

/-- **C78** Diffusion in two dimensions: the expanded right-hand side is the divergence of the flux; the generated model exists and
is a second-order discretisation of it, whatever the order of the sets, for all smooth periodic fields. -/
theorem C78_diffusion2 (iter : List Sy → List Sy) (hi : ∀ l, (iter l).Perm l) :
    ∃ eqs s, diffusion2 = .ok eqs ∧ System.build iter eqs = .ok s ∧ s.prognostic = [.fn "u".toList ["t".toList, "x".toList, "y".toList]] ∧
      s.spatialCoordinates = [.sym .plain "x".toList, .sym .plain "y".toList] ∧
      s.constantFunctions.Perm [.fn "\\kappa_{11}".toList ["x".toList, "y".toList], .fn "\\kappa_{12}".toList ["x".toList, "y".toList],
        .fn "\\kappa_{22}".toList ["x".toList, "y".toList]] ∧ s.constants = [] ∧ s.exogenous = [] ∧
      ∀ (ℓ : Fin 2 → ℝ), (∀ i, 0 < ℓ i) → ∀ (τ : ℝ) (k11 k12 k22 u : (Fin 2 → ℝ) → ℝ),
        (∀ f ∈ [k11, k12, k22, u], ContDiff ℝ (⊤ : ℕ∞) f ∧ Periodic ℓ f) →
        ∃ C δ : ℝ, 0 < δ ∧ ∀ n : Fin 2 → ℕ, (∀ i, 0 < n i) → (∀ i, ℓ i / n i ≤ δ) → ∀ O : Obj (Arr 2 ℝ),
          O.attr "kappa_11".toList = sample ℓ n k11 → O.attr "kappa_12".toList = sample ℓ n k12 →
          O.attr "kappa_22".toList = sample ℓ n k22 →
          ∃ m a, s.trend (fdArith ["x".toList, "y".toList] n (fun i => ℓ i / n i)) O (fun _ => τ) [sample ℓ n u] = .ok m ∧ m.out = [a] ∧
            ∀ idx, (∀ i, idx i < n i) →
              |a idx - Spec.Dynamics.diffusion k11 k12 k22 u (point ℓ n idx)| ≤ C * ∑ i, (ℓ i / n i) ^ 2 := by
  obtain ⟨s0, hs0, q1, q2, q3, q4, q5, q6, q7⟩ : ∃ s0, System.build id [⟨d (.fn "u".toList [time, x, y]) time 1, diffusion2Expanded⟩]
      = .ok s0 ∧ s0.prognostic = [.fn "u".toList [time, x, y]] ∧
      s0.constantFunctions = [.fn "\\kappa_{11}".toList ["x".toList, "y".toList], .fn "\\kappa_{12}".toList ["x".toList, "y".toList],
        .fn "\\kappa_{22}".toList ["x".toList, "y".toList]] ∧ s0.exogenous = [] ∧ s0.constants = [] ∧
      s0.coordinates = [.sym .plain time, .sym .plain x, .sym .plain y] ∧
      s0.spatialCoordinates = [.sym .plain x, .sym .plain y] ∧ WellNamed s0 := by
    refine ⟨_, rfl, ?_⟩; decide +kernel
  have hev : Evolution s0.coordinates [⟨d (.fn "u".toList [time, x, y]) time 1, diffusion2Expanded⟩] := by
    rw [q5]; exact evolution_of (by decide +kernel)
  obtain ⟨s, h1, h2, h3, h4, h5, h6, h7, h8, -⟩ := trend_order _ s0 hs0 hev q7 q3 iter hi
  rw [q4, List.perm_nil] at h5
  refine ⟨_, s, diffusion2_eq, h1, by rw [h2, q1]; rfl, by rw [h3, q6]; rfl, by rw [← q2]; exact h4, h5, h6, ?_⟩
  intro ℓ hℓ τ k11 k12 k22 u hf
  obtain ⟨C, δ, hδ, H⟩ := C76_consistent iter hi _ s h1 h7 h8 [x, y] (by rw [h3, q6]; rfl) (by decide) (by decide) ℓ hℓ
    (val k11 k12 k22 u) (fun _ => τ)
    (by
      intro f _ _
      cases f with
      | fn n args =>
        show ContDiff ℝ (⊤ : ℕ∞) (if n = "u".toList then u else if n = "\\kappa_{11}".toList then k11 else
            if n = "\\kappa_{12}".toList then k12 else k22) ∧ Periodic ℓ (if n = "u".toList then u else
            if n = "\\kappa_{11}".toList then k11 else if n = "\\kappa_{12}".toList then k12 else k22)
        split
        · exact hf _ (by simp)
        · split
          · exact hf _ (by simp)
          · split
            · exact hf _ (by simp)
            · exact hf _ (by simp)
      | _ => exact ⟨contDiff_const, fun _ _ => rfl⟩)
    (by
      intro e he
      rw [List.mem_singleton] at he
      subst he
      have hd : ∀ (n : Str) (args : List Str) (vars : List (Str × ℕ)), (args.filter (· ≠ "t".toList) = [x, y]) → (∀ v ∈ vars, v.1 ∈ [x, y]) →
          Regular [x, y] (val k11 k12 k22 u) (fun _ => τ) (.deriv (.fn n args) vars) :=
        fun n args vars ha hv => ⟨⟨_, _, rfl, ha⟩, hv⟩
      show Regular [x, y] (val k11 k12 k22 u) (fun _ => τ) diffusion2Expanded
      simp only [diffusion2Expanded, d]
      repeat' first | exact trivial | exact hd _ _ _ (by decide) (by decide) | refine And.intro ?_ ?_)
  refine ⟨C, δ, hδ, fun n hn hs O o1 o2 o3 => ?_⟩
  obtain ⟨m, hm, hlen, hout⟩ := H n hn hs O (by
      intro f hf
      have := h4.mem_iff.1 hf
      rw [q2] at this
      simp only [List.mem_cons, List.not_mem_nil, or_false] at this
      rcases this with rfl | rfl | rfl
      · exact o1
      · exact o2
      · exact o3) (by rw [h5]; simp) (.inl h6)
  rw [h2, q1] at hm
  obtain ⟨a, ha⟩ : ∃ a, m.out = [a] := by
    match hmo : m.out, hlen with
    | [a], _ => exact ⟨a, rfl⟩
    | [], h => simp at h
    | _ :: _ :: _, h => simp at h
  refine ⟨m, a, hm, ha, fun idx hidx => ?_⟩
  have e := hout 0 _ rfl a (by rw [ha]; rfl) idx hidx
  have ex := diffusion2_exact k11 k12 k22 u (hf k11 (by simp)).1 (hf k12 (by simp)).1 (hf k22 (by simp)).1 (hf u (by simp)).1
    (fun _ => τ) (point ℓ n idx)
  exact le_of_eq_of_le (congrArg (fun z => |a idx - z|) ex.symm) e

/-- The hypotheses of `C78_diffusion2` hold for a diffusion tensor that varies in space. -/
example (ℓ : Fin 2 → ℝ) (hℓ : ∀ i, ℓ i = 2 * Real.pi) :
    ∀ f ∈ [fun p : Fin 2 → ℝ => 3 + Real.sin (p 0), fun p => Real.cos (p 1), fun p => 3 + Real.sin (p 0), fun p => Real.sin (p 0) * Real.cos (p 1)],
      ContDiff ℝ (⊤ : ℕ∞) f ∧ Periodic ℓ f := by
  have s0 : ContDiff ℝ (⊤ : ℕ∞) (fun p : Fin 2 → ℝ => Real.sin (p 0)) := Real.contDiff_sin.comp (contDiff_apply ℝ ℝ (0 : Fin 2))
  have c1 : ContDiff ℝ (⊤ : ℕ∞) (fun p : Fin 2 → ℝ => Real.cos (p 1)) := Real.contDiff_cos.comp (contDiff_apply ℝ ℝ (1 : Fin 2))
  have ps0 : Periodic ℓ (fun p : Fin 2 → ℝ => Real.sin (p 0)) := by
    intro i p
    fin_cases i <;> simp [hℓ]
  have pc1 : Periodic ℓ (fun p : Fin 2 → ℝ => Real.cos (p 1)) := by
    intro i p
    fin_cases i <;> simp [hℓ]
  have p3 : Periodic ℓ (fun p : Fin 2 → ℝ => 3 + Real.sin (p 0)) := fun i p => congrArg (fun z => 3 + z) (ps0 i p)
  intro f hf
  simp only [List.mem_cons, List.not_mem_nil, or_false] at hf
  rcases hf with rfl | rfl | rfl | rfl
  · exact ⟨contDiff_const.add s0, p3⟩
  · exact ⟨c1, pc1⟩
  · exact ⟨contDiff_const.add s0, p3⟩
  · exact ⟨s0.mul c1, fun i p => congrArg₂ (· * ·) (ps0 i p) (pc1 i p)⟩

/-! ## Advection in one dimension -/

/-- The two functions of the one-dimensional advection have the same name: as generated, the trend does not depend on the state; the
velocity is advected by itself. -/
theorem C78_counterexample_advection (iter : List Sy → List Sy) (hi : ∀ l, (iter l).Perm l) :
    ∃ s, System.build iter advection = .ok s ∧ s.prognostic = [.fn "u".toList ["t".toList, "x".toList]] ∧
      s.constantFunctions = [.fn "u".toList ["x".toList]] ∧ Evolution s.coordinates advection ∧
      ∀ {R : Type} (A : Arith R) (O : Obj R) (time a : R), ∃ m, s.trend A O time [a] = .ok m ∧
        m.out = [A.mul (A.num (-1)) (A.mul (O.attr "u".toList) (A.diff [("x".toList, 1)] (O.attr "u".toList)))] := by
  obtain ⟨s0, hs0, q1, q2, q3, q4, q5, q6⟩ : ∃ s0, System.build id advection = .ok s0 ∧ s0.prognostic = [tracer1] ∧
      s0.constantFunctions = [velocity1] ∧ s0.exogenous = [] ∧ s0.constants = [] ∧
      s0.coordinates = [.sym .plain time, .sym .plain x] ∧ s0.spatialDerivatives = [d tracer1 x 1] := by
    refine ⟨_, rfl, ?_⟩; decide +kernel
  have hev : Evolution s0.coordinates advection := by rw [q5]; exact evolution_of (by decide +kernel)
  obtain ⟨s, hs, p1, p2, p3, p4, p5, p6, p7, -⟩ := build_order iter hi advection s0 hs0 (single_time hev)
  rw [q2, List.perm_singleton] at p4
  rw [q3, List.perm_nil] at p5
  rw [q4, List.perm_nil] at p6
  rw [q6, List.perm_singleton] at p7
  have he : Evolution s.coordinates advection := by rw [p2]; exact hev
  refine ⟨s, hs, by rw [p1, q1]; rfl, p4, he, fun A O time a => ?_⟩
  rw [trend_named (by simp only [System.assigned, p1, q1, p4, p5, p6, p7]; decide +kernel)]
  simp only [System.execute, bind, Except.bind, trendCode_eq iter hi _ s hs he.toEvolves, p1, q1, p4, p5, p6, p7]
  exact ⟨_, rfl, rfl⟩

end Sympkf.Dynamics
