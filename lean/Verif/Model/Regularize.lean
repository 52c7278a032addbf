import Mathlib.Algebra.Field.Rat
import Mathlib.Data.Rat.Cast.Defs
import Verif.Model.FiniteDiff

/-!
# Staggered finite differences and their regularization

`src/sympkf/symbolic/finite_difference.py`, `_sympy_finite_difference` (155-185) and
`regularize_finite_difference` (232-271).  A linear combination of functions at displaced points is a list of pairs
(coefficient, displacement), the displacement being the coefficients of the arguments in the base `dx`.
-/

set_option autoImplicit false

namespace Sympkf.FinDiff

variable {K : Type} [Field K]

/-- The displacements of the default points of SymPy's `as_finite_difference(dx)`: the grid points for even orders,
half-way points for odd orders. -/
def staggered (o : ℕ) : List ℚ :=
  if o % 2 = 0 then (arangeZ (-(o : ℤ) / 2) ((o : ℤ) / 2 + 1)).map (fun i : ℤ => (i : ℚ))
  else (List.range (o + 1)).map (fun i : ℕ => ((-(o : ℤ) + 2 * (i : ℤ) : ℤ) : ℚ) / 2)

/-- `Derivative(f, x, o).as_finite_difference(dx, wrt=x)`: coefficients and displacements (one coordinate). -/
def sympyTerms (o : ℕ) (h x : K) : List (K × List ℚ) :=
  let pts := (staggered o).map (fun d : ℚ => x + (d : K) * h)
  List.zipWith (fun w d => (w, [d])) (weights o pts x) (staggered o)

/-- finite_difference.py 155-185 `_sympy_finite_difference` of `Derivative(f, (x_i, o), ..)` for a function of `d` coordinates: the
derivatives with respect to the other variables are taken at the displaced points, and are replaced in the next passes of the loop
(178-184), which only changes the order of the terms.  The variables of a derivative are distinct. -/
def sympyMixed {d : ℕ} (h x : Fin d → K) : List (Fin d × ℕ) → List (K × List ℚ)
  | [] => [(1, List.replicate d 0)]
  | (i, o) :: rest => (sympyMixed h x rest).flatMap (fun t =>
      (sympyTerms o (h i) (x i)).map (fun s => (s.1 * t.1, t.2.set i (s.2.getD 0 0))))

/-- finite_difference.py 254-263: the scaling, product of the inverses of the denominators. -/
def scaling (d : List ℚ) : ℚ := (d.map (fun c : ℚ => 1 / (c.den : ℚ))).prod

/-- finite_difference.py 254-263: the new displacement, made of the numerators. -/
def newDisplacement (d : List ℚ) : List ℚ := d.map (fun c : ℚ => (c.num : ℚ))

/-- finite_difference.py 269-270: `finite.subs({function: scaling*function.func(*new_args)})`. -/
def regularizeStep (T : List (K × List ℚ)) (d : List ℚ) : List (K × List ℚ) :=
  T.map (fun t => if t.2 = d then (t.1 * (scaling d : K), newDisplacement d) else t)

/-- finite_difference.py 232-271 `regularize_finite_difference`; `atoms` enumerates `finite.atoms(Function)` in any order. -/
def regularize (atoms : List (List ℚ)) (T : List (K × List ℚ)) : List (K × List ℚ) := atoms.foldl regularizeStep T

end Sympkf.FinDiff
