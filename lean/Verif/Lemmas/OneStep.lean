import Verif.Lemmas.Convergence
import Verif.Spec.Convergence
import Verif.Spec.Trajectory

/-!
Convergence of a one-step method and of a two-step method along a compact piece of a solution.
-/

set_option autoImplicit false

namespace Sympkf.Order

open Asymptotics Filter Topology Sympkf.Spec

variable {E : Type} [NormedAddCommGroup E] [NormedSpace ℝ E]

theorem getD_of {X : Type} {l : List X} {i : ℕ} {x d : X} (h : l[i]? = some x) : l[i]?.getD d = x := by rw [h]; rfl

theorem exists_getElem? {X : Type} (l : List X) (i : ℕ) (h : i < l.length) : ∃ x, l[i]? = some x :=
  ⟨l[i], List.getElem?_eq_getElem h⟩

theorem lt_of_getElem? {X : Type} {l : List X} {i : ℕ} {x : X} (h : l[i]? = some x) : i < l.length :=
  (List.getElem?_eq_some_iff.1 h).1

theorem partition_mem {a b η : ℝ} {window : List ℝ} (hw : Partition a b η window) :
    ∀ (i : ℕ) t, window[i]? = some t → t ∈ Set.Icc a b := by
  intro i
  induction i with
  | zero =>
    intro t ht
    obtain rfl : a = t := by simpa [hw.start] using ht
    exact ⟨le_rfl, hw.bounded 0 a hw.start⟩
  | succ i ih =>
    intro t ht
    obtain ⟨s, hs⟩ := exists_getElem? window i (by have := lt_of_getElem? ht; omega)
    exact ⟨(ih s hs).1.trans (hw.step i s t hs ht).1, hw.bounded _ t ht⟩

/-- A one-step method `u + h • inc(t, u, h)` whose local error on the solution `y` is `O(h^(p+1))` converges with order
`p`, uniformly over the windows of the interval. -/
theorem one_step_convergence {a b : ℝ} (hab : a ≤ b) {y : ℝ → E} {g : ℝ → E → ℝ → E} {inc : ℝ × E × ℝ → E} {p : ℕ}
    (hp : 1 ≤ p) (hg : ∀ t u h, g t u h = u + h • inc (t, u, h))
    (hy : ∀ t ∈ Set.Icc a b, ContDiffAt ℝ (p + 1 : ℕ) y t)
    (hinc : ∀ t ∈ Set.Icc a b, ContDiffAt ℝ (p + 1 : ℕ) inc (t, y t, 0))
    (hloc : ∀ t ∈ Set.Icc a b, O (p + 1) (fun h => y (t + h) - g t (y t) h)) :
    ∃ C δ : ℝ, 0 ≤ C ∧ 0 < δ ∧ ∀ η, 0 ≤ η → η ≤ δ → ∀ window, Partition a b η window → ∀ u0 xs,
      IsTrajectory (fun t u dt => .ok (g t u dt)) window u0 xs → ‖u0 - y a‖ ≤ δ →
      ∀ (i : ℕ) t x, window[i]? = some t → xs[i]? = some x → ‖x - y t‖ ≤ C * (η ^ p + ‖u0 - y a‖) := by
  have hyc : ContinuousOn y (Set.Icc a b) := fun t ht => (hy t ht).continuousAt.continuousWithinAt
  obtain ⟨L, r, hL0, hr0, hL⟩ := uniform_lipschitz hyc (inc := inc)
    (fun t ht => (hinc t ht).of_le (by exact_mod_cast (by omega : 1 ≤ p + 1)))
  obtain ⟨M, δ₁, hM0, hδ₁, hM⟩ := uniform_local_error (a := a) (b := b) (p + 1)
    (fun q : ℝ × ℝ => y (q.1 + q.2) - g q.1 (y q.1) q.2)
    (fun t ht => by
      have h1 : ContDiffAt ℝ (p + 1 : ℕ) (fun q : ℝ × ℝ => y q.1) (t, 0) :=
        ContDiffAt.comp (g := y) (f := Prod.fst) (t, (0 : ℝ)) (hy t ht) contDiffAt_fst
      have h2 : ContDiffAt ℝ (p + 1 : ℕ) (fun q : ℝ × ℝ => y (q.1 + q.2)) (t, 0) :=
        ContDiffAt.comp (g := y) (f := fun q : ℝ × ℝ => q.1 + q.2) (t, (0 : ℝ))
          (by simpa using hy t ht) (contDiffAt_fst.add contDiffAt_snd)
      have h3 : ContDiffAt ℝ (p + 1 : ℕ) (fun q : ℝ × ℝ => inc (q.1, y q.1, q.2)) (t, 0) :=
        ContDiffAt.comp (g := inc) (f := fun q : ℝ × ℝ => (q.1, y q.1, q.2)) (t, (0 : ℝ)) (hinc t ht)
          (contDiffAt_fst.prodMk (h1.prodMk contDiffAt_snd))
      simp only [hg]
      exact h2.sub (h1.add (contDiffAt_snd.smul h3)))
    hloc
  obtain ⟨C, δ, hC0, hδ, hprop⟩ := error_propagation hL0 hM0 hr0 hab hp
  refine ⟨C, min δ (min (r / 2) (δ₁ / 2)), hC0, by positivity, ?_⟩
  intro η hη0 hη window hw u0 xs hxs hu0 i t x ht hx
  have hηδ : η ≤ δ := hη.trans (min_le_left _ _)
  have hηr : η < r := lt_of_le_of_lt (hη.trans ((min_le_right _ _).trans (min_le_left _ _))) (by linarith)
  have hη1 : η < δ₁ := lt_of_le_of_lt (hη.trans ((min_le_right _ _).trans (min_le_right _ _))) (by linarith)
  set T : ℕ → ℝ := fun i => window[i]?.getD 0 with hT
  set e : ℕ → ℝ := fun i => ‖xs[i]?.getD 0 - y (T i)‖ with he
  have hT0 : T 0 = a := getD_of hw.start
  have he0 : e 0 = ‖u0 - y a‖ := by simp only [he, hT0, hxs.start, Option.getD_some]
  have hlen : i < window.length := lt_of_getElem? ht
  have hwin : ∀ j, j ≤ i → window[j]? = some (T j) := fun j hj => by
    obtain ⟨s, hs⟩ := exists_getElem? window j (by omega)
    rw [hs]; simp only [hT, hs, Option.getD_some]
  have hst : ∀ j, j ≤ i → xs[j]? = some (xs[j]?.getD 0) := fun j hj => by
    obtain ⟨s, hs⟩ := exists_getElem? xs j (by rw [hxs.length_eq]; omega)
    rw [hs]; rfl
  have hfin := hprop η hηδ i e T hT0 (fun j hj => hw.bounded j _ (hwin j hj))
    (fun j hj => hw.step j _ _ (hwin j (by omega)) (hwin (j + 1) (by omega))) hη0 (fun j => norm_nonneg _)
    (he0 ▸ hu0.trans (min_le_left _ _))
    (fun j hj hlt => by
      have hmem := partition_mem hw j _ (hwin j (by omega))
      obtain ⟨hs0, hs1⟩ := hw.step j _ _ (hwin j (by omega)) (hwin (j + 1) (by omega))
      set h := T (j + 1) - T j with hh
      have hh0 : 0 ≤ h := by linarith
      have habs : |h| = h := abs_of_nonneg hh0
      obtain ⟨x', hx1, hx2⟩ := hxs.next j _ _ _ (hwin j (by omega)) (hwin (j + 1) (by omega)) (hst j (by omega))
      simp only [Except.ok.injEq] at hx2
      have hT1 : T (j + 1) = T j + h := by rw [hh]; ring
      have e1 : e (j + 1) = ‖x' - y (T j + h)‖ := by
        simp only [he, hx1, Option.getD_some, hT1]
      set v := xs[j]?.getD 0 with hv
      have l1 := hL (T j) hmem v (y (T j)) h hlt (by simpa using hr0) (by rw [habs]; linarith)
      have l2 := hM (T j) hmem h (by rw [habs]; linarith)
      rw [habs] at l2
      have l3 : x' - y (T j + h) = (v - y (T j)) + h • (inc (T j, v, h) - inc (T j, y (T j), h)) -
          (y (T j + h) - g (T j) (y (T j)) h) := by
        rw [← hx2, hg, hg, smul_sub]; abel
      have l4 : ‖x' - y (T j + h)‖ ≤ ‖v - y (T j)‖ + h * (L * ‖v - y (T j)‖) + M * h ^ (p + 1) := by
        rw [l3]
        refine (norm_sub_le _ _).trans (add_le_add ((norm_add_le _ _).trans (add_le_add le_rfl ?_)) l2)
        rw [norm_smul, Real.norm_of_nonneg hh0]
        exact mul_le_mul_of_nonneg_left l1 hh0
      rw [e1]
      refine l4.trans (le_of_eq ?_)
      simp only [he, ← hv]; ring)
    i le_rfl
  have := hfin.2
  rw [he0] at this
  simpa only [he, hT, ht, hx, Option.getD_some] using this

/-- The two-step method `(v, u) ↦ (u, v + 2h f(t, u))` whose local error on the solution `y` is `O(h^(p+1))` converges
with order `p` on windows with a constant step. -/
theorem two_step_convergence {a b : ℝ} (hab : a ≤ b) {y : ℝ → E} {f : ℝ → E → E} {p : ℕ} (hp : 1 ≤ p)
    (hy : ∀ t ∈ Set.Icc a b, ContDiffAt ℝ (p + 1 : ℕ) y t)
    (hf : ∀ t ∈ Set.Icc a b, ContDiffAt ℝ (p + 1 : ℕ) (fun q : ℝ × E => f q.1 q.2) (t, y t))
    (hloc : ∀ t ∈ Set.Icc a b, O (p + 1) (fun h => y (t + h) - (y (t - h) + (2 * h) • f t (y t)))) :
    ∃ C δ : ℝ, 0 ≤ C ∧ 0 < δ ∧ ∀ dt, 0 ≤ dt → dt ≤ δ → ∀ window, Uniform a b dt window → ∀ (p0 : E × E) xs,
      IsTrajectory (fun t (q : E × E) dt => .ok (q.2, q.1 + (2 * dt) • f t q.2)) window p0 xs →
      max ‖p0.1 - y (a - dt)‖ ‖p0.2 - y a‖ ≤ δ →
      ∀ (i : ℕ) t x, window[i]? = some t → xs[i]? = some x → max ‖x.1 - y (t - dt)‖ ‖x.2 - y t‖ ≤
        C * (dt ^ p + max ‖p0.1 - y (a - dt)‖ ‖p0.2 - y a‖) := by
  have hyc : ContinuousOn y (Set.Icc a b) := fun t ht => (hy t ht).continuousAt.continuousWithinAt
  obtain ⟨L, r, hL0, hr0, hL⟩ := uniform_lipschitz hyc (inc := fun q : ℝ × E × ℝ => f q.1 q.2.1)
    (fun t ht => by
      have h1 : ContDiffAt ℝ 1 (fun q : ℝ × E => f q.1 q.2) (t, y t) :=
        (hf t ht).of_le (by exact_mod_cast (by omega : 1 ≤ p + 1))
      exact ContDiffAt.comp (g := fun q : ℝ × E => f q.1 q.2) (f := fun q : ℝ × E × ℝ => (q.1, q.2.1))
        (t, y t, (0 : ℝ)) h1 (contDiffAt_fst.prodMk (contDiffAt_fst.comp _ contDiffAt_snd)))
  obtain ⟨M, δ₁, hM0, hδ₁, hM⟩ := uniform_local_error (a := a) (b := b) (p + 1)
    (fun q : ℝ × ℝ => y (q.1 + q.2) - (y (q.1 - q.2) + (2 * q.2) • f q.1 (y q.1)))
    (fun t ht => by
      have h1 : ContDiffAt ℝ (p + 1 : ℕ) (fun q : ℝ × ℝ => y q.1) (t, 0) :=
        ContDiffAt.comp (g := y) (f := Prod.fst) (t, (0 : ℝ)) (hy t ht) contDiffAt_fst
      have h2 : ContDiffAt ℝ (p + 1 : ℕ) (fun q : ℝ × ℝ => y (q.1 + q.2)) (t, 0) :=
        ContDiffAt.comp (g := y) (f := fun q : ℝ × ℝ => q.1 + q.2) (t, (0 : ℝ))
          (by simpa using hy t ht) (contDiffAt_fst.add contDiffAt_snd)
      have h2' : ContDiffAt ℝ (p + 1 : ℕ) (fun q : ℝ × ℝ => y (q.1 - q.2)) (t, 0) :=
        ContDiffAt.comp (g := y) (f := fun q : ℝ × ℝ => q.1 - q.2) (t, (0 : ℝ))
          (by simpa using hy t ht) (contDiffAt_fst.sub contDiffAt_snd)
      have h3 : ContDiffAt ℝ (p + 1 : ℕ) (fun q : ℝ × ℝ => f q.1 (y q.1)) (t, 0) :=
        ContDiffAt.comp (g := fun q : ℝ × E => f q.1 q.2) (f := fun q : ℝ × ℝ => (q.1, y q.1)) (t, (0 : ℝ)) (hf t ht)
          (contDiffAt_fst.prodMk h1)
      exact h2.sub (h2'.add ((contDiffAt_const.mul contDiffAt_snd).smul h3)))
    hloc
  obtain ⟨C, δ, hC0, hδ, hprop⟩ := error_propagation (by positivity : 0 ≤ 2 * L) hM0 hr0 hab hp
  refine ⟨C, min δ (min (r / 2) (δ₁ / 2)), hC0, by positivity, ?_⟩
  intro dt hη0 hη window hw p0 xs hxs hu0 i t x ht hx
  have hηδ : dt ≤ δ := hη.trans (min_le_left _ _)
  have hηr : dt < r := lt_of_le_of_lt (hη.trans ((min_le_right _ _).trans (min_le_left _ _))) (by linarith)
  have hη1 : dt < δ₁ := lt_of_le_of_lt (hη.trans ((min_le_right _ _).trans (min_le_right _ _))) (by linarith)
  have hwp : Partition a b dt window := ⟨hw.start, hw.bounded, fun i t t' h1 h2 => by
    have := hw.step i t t' h1 h2
    constructor <;> linarith⟩
  set T : ℕ → ℝ := fun i => window[i]?.getD 0 with hT
  set e : ℕ → ℝ := fun i => max ‖(xs[i]?.getD 0).1 - y (T i - dt)‖ ‖(xs[i]?.getD 0).2 - y (T i)‖ with he
  have hT0 : T 0 = a := getD_of hw.start
  have he0 : e 0 = max ‖p0.1 - y (a - dt)‖ ‖p0.2 - y a‖ := by simp only [he, hT0, hxs.start, Option.getD_some]
  have hlen : i < window.length := lt_of_getElem? ht
  have hwin : ∀ j, j ≤ i → window[j]? = some (T j) := fun j hj => by
    obtain ⟨s, hs⟩ := exists_getElem? window j (by omega)
    rw [hs]; simp only [hT, hs, Option.getD_some]
  have hst : ∀ j, j ≤ i → xs[j]? = some (xs[j]?.getD 0) := fun j hj => by
    obtain ⟨s, hs⟩ := exists_getElem? xs j (by rw [hxs.length_eq]; omega)
    rw [hs]; rfl
  have hfin := hprop dt hηδ i e T hT0 (fun j hj => hw.bounded j _ (hwin j hj))
    (fun j hj => hwp.step j _ _ (hwin j (by omega)) (hwin (j + 1) (by omega))) hη0
    (fun j => le_max_of_le_left (norm_nonneg _))
    (he0 ▸ hu0.trans (min_le_left _ _))
    (fun j hj hlt => by
      have hmem := partition_mem hwp j _ (hwin j (by omega))
      have hT1 : T (j + 1) = T j + dt := hw.step j _ _ (hwin j (by omega)) (hwin (j + 1) (by omega))
      have hsub : T (j + 1) - T j = dt := by linarith
      have habs : |dt| = dt := abs_of_nonneg hη0
      obtain ⟨x', hx1, hx2⟩ := hxs.next j _ _ _ (hwin j (by omega)) (hwin (j + 1) (by omega)) (hst j (by omega))
      rw [hsub] at hx2 ⊢
      simp only [Except.ok.injEq] at hx2
      set v := xs[j]?.getD 0 with hv
      have ej : e j = max ‖v.1 - y (T j - dt)‖ ‖v.2 - y (T j)‖ := rfl
      have e1 : e (j + 1) = max ‖v.2 - y (T j)‖ ‖v.1 + (2 * dt) • f (T j) v.2 - y (T j + dt)‖ := by
        simp only [he, hx1, Option.getD_some, hT1, ← hx2, add_sub_cancel_right]
      have m1 : ‖v.1 - y (T j - dt)‖ ≤ e j := le_max_left _ _
      have m2 : ‖v.2 - y (T j)‖ ≤ e j := le_max_right _ _
      have l1 := hL (T j) hmem v.2 (y (T j)) dt (lt_of_le_of_lt m2 hlt) (by simpa using hr0) (by rw [habs]; linarith)
      have l2 := hM (T j) hmem dt (by rw [habs]; linarith)
      rw [habs] at l2
      have l3 : v.1 + (2 * dt) • f (T j) v.2 - y (T j + dt) =
          (v.1 - y (T j - dt)) + (2 * dt) • (f (T j) v.2 - f (T j) (y (T j))) -
          (y (T j + dt) - (y (T j - dt) + (2 * dt) • f (T j) (y (T j)))) := by
        rw [smul_sub]; abel
      have l4 : ‖v.1 + (2 * dt) • f (T j) v.2 - y (T j + dt)‖ ≤ e j + (2 * dt) * (L * e j) + M * dt ^ (p + 1) := by
        rw [l3]
        refine (norm_sub_le _ _).trans (add_le_add ((norm_add_le _ _).trans (add_le_add m1 ?_)) l2)
        rw [norm_smul, Real.norm_of_nonneg (by positivity)]
        exact mul_le_mul_of_nonneg_left (l1.trans (mul_le_mul_of_nonneg_left m2 hL0)) (by positivity)
      have hej : 0 ≤ e j := le_max_of_le_left (norm_nonneg _)
      rw [e1]
      refine max_le ?_ (l4.trans (le_of_eq (by ring)))
      have n1 : 0 ≤ dt * (2 * L) * e j := by positivity
      have n2 : 0 ≤ M * dt ^ (p + 1) := by positivity
      nlinarith)
    i le_rfl
  have := hfin.2
  rw [he0] at this
  simpa only [he, hT, ht, hx, Option.getD_some] using this

end Sympkf.Order
