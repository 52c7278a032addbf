import Verif.Model.FDBuilder
import Verif.Props.GridDeriv
import Verif.Props.FDExpr
import Verif.Lemmas.FiniteDiffOrder

/-!
# Lemmas: the arrays of a generated finite-difference model
-/

set_option autoImplicit false

namespace Sympkf.PDE

open Text FinDiff

variable {K : Type} [Field K]

section code

variable {coords : List Str} (n : Fin coords.length → ℕ) (h : Fin coords.length → K)

theorem axisShape_get (hc : coords.Nodup) (i : Fin coords.length) : axisShape coords n (coords[i]) = n i := by
  have hi : coords.idxOf coords[i] = i.1 := hc.idxOf_getElem i.1 i.2
  unfold axisShape
  rw [dif_pos (by rw [hi]; exact i.2)]
  congr 1
  exact Fin.ext hi

theorem axisStep_get (hc : coords.Nodup) (i : Fin coords.length) : axisStep coords h (coords[i]) = h i := by
  have hi : coords.idxOf coords[i] = i.1 := hc.idxOf_getElem i.1 i.2
  unfold axisStep
  rw [dif_pos (by rw [hi]; exact i.2)]
  congr 1
  exact Fin.ext hi

/-- The arguments `x + k*dx`. -/
def shifted (coords : List Str) (k : Fin coords.length → ℤ) : List (Str × ℤ) := List.ofFn (fun i => (coords[i], k i))

/-- All axes shifted. -/
def shAll (k : Fin coords.length → ℤ) (idx : Fin coords.length → ℕ) : Fin coords.length → ℕ :=
  fun i => gridIndex (n i) (k i) (idx i)

theorem shiftArgs_shifted (hc : coords.Nodup) (k : Fin coords.length → ℤ) (i : Fin coords.length) (m : ℤ) :
    shiftArgs (shifted coords k) (coords[i]) m = shifted coords (Function.update k i (k i + m)) := by
  unfold shiftArgs shifted
  rw [List.map_ofFn]
  congr 1
  funext j
  simp only [Function.comp]
  by_cases hj : j = i
  · subst hj; simp
  · have : coords[j] ≠ coords[i] := fun e => hj (Fin.ext ((hc.getElem_inj_iff).1 e))
    rw [if_neg this, Function.update_of_ne hj]

theorem codeValue_stencil (a : Arr coords.length K) (hc : coords.Nodup) (i : Fin coords.length) (o : ℕ) (f : ℤ → FExpr)
    (l : List (ℚ × ℤ)) (idx : Fin coords.length → ℕ) :
    codeValue coords n h a (stencilSum (coords[i]) o f l) idx
      = (l.map (fun wk => (wk.1 : K) * h i ^ (-(o : ℤ)) * codeValue coords n h a (f wk.2) idx)).sum := by
  induction l with
  | nil => simp [stencilSum, codeValue]
  | cons wk l ih =>
    obtain ⟨w, k⟩ := wk
    simp only [stencilSum, codeValue, List.map_cons, List.sum_cons, ih, axisStep_get h hc]

omit [Field K] in
theorem ixRead_shifted (a : Arr coords.length K) (hc : coords.Nodup) (ht : time ∉ coords) (k : Fin coords.length → ℤ) :
    ixRead coords n ((shifted coords k).filter (fun p => p.1 ≠ time)) a = fun idx => a (shAll n k idx) := by
  have hf : (shifted coords k).filter (fun p => p.1 ≠ time) = shifted coords k := by
    rw [List.filter_eq_self]
    intro p hp
    unfold shifted at hp
    rw [List.mem_ofFn] at hp
    obtain ⟨i, rfl⟩ := hp
    have : coords[i] ≠ time := fun e => ht (e ▸ List.getElem_mem i.2)
    simpa using this
  rw [hf]
  funext idx
  unfold ixRead shAll
  congr 1
  funext i
  have : (shifted coords k)[i.1]? = some (coords[i], k i) := by
    unfold shifted
    rw [List.getElem?_ofFn, dif_pos i.2]
  rw [this]
  simp only [axisShape_get n hc]

theorem shAll_update (k : Fin coords.length → ℤ) (i : Fin coords.length) (m : ℤ) (idx : Fin coords.length → ℕ)
    (hidx : idx ∈ box n) : shAll n (Function.update k i (k i + m)) idx = shAll n k (sh n i m idx) := by
  have hi := (mem_box n idx).1 hidx i
  funext j
  unfold shAll sh
  by_cases hj : j = i
  · subst hj
    simp only [Function.update_self]
    rw [gridIndex_add _ _ _ _ hi, add_comm]
  · simp only [Function.update_of_ne hj]

variable [CharZero K]

/-- The code of a derivative computes the discrete derivative. -/
theorem codeValue_fdExpr (hh : ∀ i, h i ≠ 0) (hc : coords.Nodup) (ht : time ∉ coords) (a : Arr coords.length K) (u : Str)
    (L : List (Fin coords.length × ℕ)) (k : Fin coords.length → ℤ) (idx : Fin coords.length → ℕ) (hidx : idx ∈ box n) :
    codeValue coords n h a (fdExpr u (shifted coords k) (L.map (fun p => (coords[p.1], p.2)))) idx
      = gridMixed n h L (fun j => a (shAll n k j)) idx := by
  induction L generalizing k idx with
  | nil =>
    show codeValue coords n h a (.fn u (shifted coords k)) idx = _
    simp only [codeValue]
    rw [ixRead_shifted n a hc ht k]
    rfl
  | cons p L ih =>
    obtain ⟨i, o⟩ := p
    rw [List.map_cons]
    simp only [fdExpr]
    rw [codeValue_stencil n h a hc, weights_points o (1 : ℚ) 0 one_ne_zero, offsets_eq]
    show _ = gridMixed n h L (gridDeriv n h i o _) idx
    rw [gridMixed_gridDeriv n h hh L i o _ idx hidx, gridDeriv_eq_sum n h i o (hh i), List.zip_map, List.map_map]
    have e : (List.range (o + 1)).zip (List.range (o + 1)) = (List.range (o + 1)).map (fun ν => (ν, ν)) := by
      rw [List.zip, List.zipWith_self]
    rw [e, List.map_map]
    show _ = ((List.range (o + 1)).map _).sum
    congr 1
    refine List.map_congr_left (fun ν _ => ?_)
    simp only [Function.comp, Prod.map]
    rw [shiftArgs_shifted hc, ih _ _ hidx, ← C33_commutes_with_shifts n h hh L i _ _ idx hidx, one_pow, div_one, unitWeight_cast,
      zpow_neg, zpow_natCast, div_eq_mul_inv]
    congr 1
    exact gridMixed_congr n h hh L _ _ (fun j hj => by rw [shAll_update n k i _ j hj]) idx hidx

end code

end Sympkf.PDE
