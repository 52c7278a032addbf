import Verif.Spec.Calculus
import Verif.Spec.Consistency
import Verif.Spec.Generate

/-!
# Specification: the fields as functions on space, at a given time
-/

set_option autoImplicit false

namespace Sympkf.Spec

open Text Rand PKF

variable {R : Type} [CommRing R] [Algebra ℚ R]

/-- `obs r` is the field `r` at a given time, as a function on space: the symbols that are not coordinates of space have the values `σ`
(the time among them), derivatives along the coordinates of space are partial derivatives, the fields of `P` are positive and their powers
are powers of real numbers. -/
structure Observation (S : Interp R) (P : Set R) (space : List Str) (σ : Str → ℝ) (obs : R →+* ((Fin space.length → ℝ) → ℝ)) : Prop where
  sym : ∀ s, s ∉ space → obs (S.sym s) = fun _ => σ s
  partials : ∀ (i : Fin space.length) (r : R), obs (S.D space[i] r) = FinDiff.pd i (obs r)
  positive : ∀ r ∈ P, ∀ p, 0 < obs r p
  power : ∀ r ∈ P, ∀ q : ℚ, obs (S.pw r q) = fun p => obs r p ^ (q : ℝ)

/-- A random state observed on a periodic domain of lengths `ℓ`: the fields depend on the time and on the coordinates `space`, and the
other functions on all the coordinates of space; the statistics (means, variances, covariances, tensors `T`) and the other functions are
smooth and periodic. -/
structure Observed (S : Interp R) (P : Set R) (C : Set Str) (K : Pkf) (user : Dict Ex Ex) (T : Field → ℕ → ℕ → Ex) (space : List Str)
    (σ : Str → ℝ) (obs : R →+* ((Fin space.length → ℝ) → ℝ)) (ℓ : Fin space.length → ℝ) : Prop where
  observation : Observation S P space σ obs
  coordinates : ∀ x ∈ C, x ∈ time :: space
  lengths : ∀ i, 0 < ℓ i
  args : ∀ u args, Given K user u args → args.filter (· ≠ time) = space
  smooth : ∀ u args, .fn u args ∈ K.fields.map Field.value ++ K.fields.map Field.variance ++ crossCovariances (time :: space) K.fields ++
      tensorComponents K.fields T ∨ Given K user u args →
    ContDiff ℝ (⊤ : ℕ∞) (obs (S.fn u args)) ∧ PDE.Periodic ℓ (obs (S.fn u args))

end Sympkf.Spec
