import Verif.Spec.Observe
import Verif.Model.Burgers
import Verif.Lemmas.Poly

/-!
# Lemmas: the value of an expression on space
-/

set_option autoImplicit false

namespace Sympkf.Spec

open Text Rand

variable {R : Type} [CommRing R] [Algebra ℚ R]

/-- The values of the functions. -/
def observed (S : Interp R) {space : List Str} (obs : R →+* ((Fin space.length → ℝ) → ℝ)) : PDE.Sy → (Fin space.length → ℝ) → ℝ
  | .fn u args => obs (S.fn u args)
  | _ => 0

section
variable {S : Interp R} {P : Set R} {space : List Str} {σ : Str → ℝ} {obs : R →+* ((Fin space.length → ℝ) → ℝ)}
  (h : Observation S P space σ obs)
include h

theorem observe_derivs (vars : List (Str × ℕ)) (hv : ∀ v ∈ vars, v.1 ∈ space) (r : R) :
    obs (derivs S vars r) = FinDiff.pdMixed (PDE.axesOf space vars) (obs r) := by
  induction vars generalizing r with
  | nil => rfl
  | cons v vars ih =>
    obtain ⟨x, o⟩ := v
    have hx : space.idxOf x < space.length := List.idxOf_lt_length_iff.2 (hv _ List.mem_cons_self)
    have e : PDE.axesOf space ((x, o) :: vars) = (⟨space.idxOf x, hx⟩, o) :: PDE.axesOf space vars := by
      unfold PDE.axesOf
      rw [List.filterMap_cons, dif_pos hx]
    rw [e, derivs, ih (fun v hv' => hv v (List.mem_cons_of_mem _ hv')), FinDiff.pdMixed]
    congr 1
    clear e ih hv
    induction o generalizing r with
    | zero => rfl
    | succ o ih =>
      rw [Function.iterate_succ_apply, ih, Function.iterate_succ_apply]
      congr 1
      have := h.partials ⟨space.idxOf x, hx⟩ r
      simpa using this

theorem observe_of {C : Set Str} (hpw : ∀ r (n : ℕ), S.pw r (n : ℚ) = r ^ n) (ht : "t".toList ∉ space) (hC : ∀ x ∈ C, x ∈ "t".toList :: space)
    (e : Ex) (sy : PDE.Sy) (he : PDE.ofEx e = some sy) (hR : Regular S P C e)
    (hsup : PDE.Supported (("t".toList :: space).map (.sym .plain)) sy)
    (hargs : ∀ u args, .fn u args ∈ sy.functions → args.filter (· ≠ "t".toList) = space) :
    PDE.exact space (observed S obs) σ sy = obs (den S e) ∧ PDE.Regular space (observed S obs) σ sy := by
  induction e generalizing sy with
  | num q =>
    cases he
    refine ⟨?_, trivial⟩
    show (fun _ => (q : ℝ)) = obs (algebraMap ℚ R q)
    have := RingHom.ext_iff.1 (RingHom.ext_rat (obs.comp (algebraMap ℚ R)) (algebraMap ℚ ((Fin space.length → ℝ) → ℝ))) q
    exact this.symm
  | sym s =>
    cases he
    refine ⟨?_, trivial⟩
    cases hsup with
    | sym _ hs =>
      refine (h.sym s (fun hm => ?_)).symm
      rcases hs with rfl | hs
      · exact ht hm
      · exact hs (List.mem_map_of_mem (List.mem_cons_of_mem _ hm))
  | fn u args =>
    cases he
    exact ⟨rfl, trivial⟩
  | func g a ih =>
    obtain ⟨x, hx, he⟩ := Option.bind_eq_some_iff.1 he
    cases he
    cases hsup
  | add a b iha ihb =>
    obtain ⟨x, hx, he⟩ := Option.bind_eq_some_iff.1 he
    obtain ⟨y, hy, he⟩ := Option.bind_eq_some_iff.1 he
    cases he
    cases hsup with
    | add h1 h2 =>
      obtain ⟨e1, r1⟩ := iha x hx hR.1 h1 (fun u args hf => hargs u args (List.mem_append_left _ hf))
      obtain ⟨e2, r2⟩ := ihb y hy hR.2 h2 (fun u args hf => hargs u args (List.mem_append_right _ hf))
      refine ⟨?_, r1, r2⟩
      show (fun p => PDE.exact _ _ _ x p + PDE.exact _ _ _ y p) = obs (den S a + den S b)
      rw [e1, e2, map_add]
      rfl
  | mul a b iha ihb =>
    obtain ⟨x, hx, he⟩ := Option.bind_eq_some_iff.1 he
    obtain ⟨y, hy, he⟩ := Option.bind_eq_some_iff.1 he
    cases he
    cases hsup with
    | mul h1 h2 =>
      obtain ⟨e1, r1⟩ := iha x hx hR.1 h1 (fun u args hf => hargs u args (List.mem_append_left _ hf))
      obtain ⟨e2, r2⟩ := ihb y hy hR.2 h2 (fun u args hf => hargs u args (List.mem_append_right _ hf))
      refine ⟨?_, r1, r2⟩
      show (fun p => PDE.exact _ _ _ x p * PDE.exact _ _ _ y p) = obs (den S a * den S b)
      rw [e1, e2, map_mul]
      rfl
  | pow a q ih =>
    obtain ⟨x, hx, he⟩ := Option.bind_eq_some_iff.1 he
    cases he
    cases hsup with
    | pow h1 h2 =>
      obtain ⟨e1, r1⟩ := ih x hx hR.1 h1 (fun u args hf => hargs u args (List.mem_append_left _ hf))
      have e0 : PDE.exact space (observed S obs) σ (.pow x (.num q)) = fun p => obs (den S a) p ^ (q : ℝ) := by
        rw [← e1]
        rfl
      rw [e0]
      rcases hR.2 with hq | hP
      · obtain ⟨k, rfl⟩ : ∃ k : ℕ, q = k := (isNat_iff q).1 hq
        refine ⟨?_, r1, _, rfl, .inl ⟨k, rfl⟩⟩
        show _ = obs (S.pw (den S a) (k : ℚ))
        rw [hpw, map_pow]
        funext p
        rw [Rat.cast_natCast, Real.rpow_natCast]
        rfl
      · exact ⟨(h.power _ hP q).symm, r1, _, rfl, .inr (fun p => by rw [e1]; exact h.positive _ hP p)⟩
  | deriv a vars ih =>
    obtain ⟨x, hx, he⟩ := Option.bind_eq_some_iff.1 he
    cases he
    cases hsup with
    | deriv u args _ h1 h2 h3 =>
      have hv : ∀ v ∈ vars, v.1 ∈ space := fun v hv => by
        rcases List.mem_cons.1 (hC _ (hR.2 v hv)) with e | e
        · exact absurd e (h3 v hv).2
        · exact e
      obtain ⟨e1, -⟩ := ih _ hx hR.1 (.fn u args) hargs
      refine ⟨?_, ⟨u, args, rfl, hargs u args (by simp [PDE.Sy.functions])⟩, hv⟩
      show FinDiff.pdMixed (PDE.axesOf space vars) (PDE.exact space (observed S obs) σ (.fn u args)) = obs (derivs S vars (den S a))
      rw [e1, observe_derivs h vars hv]
  | integ a x ih => cases he
  | ex a ih => cases he
  | other b => cases he

end

end Sympkf.Spec
