import Mathlib.Algebra.Field.Defs
import Mathlib.Algebra.BigOperators.Group.List.Basic
import Mathlib.Algebra.Module.Defs
import Mathlib.Data.Int.Cast.Lemmas
import Mathlib.Data.List.Basic
import Mathlib.Logic.Function.Basic

/-!
# Finite differences on a regular grid

`src/sympkf/symbolic/finite_difference.py`.  Derivatives of functions are represented by what SymPy substitutes for
them: a weighted sum of values at shifted points.  `Derivative.as_finite_difference` belongs to SymPy; its weights come
from `sympy.calculus.finite_diff.finite_diff_weights`, the recursion of Fornberg (1988), written out below.
-/

set_option autoImplicit false

namespace Sympkf.FinDiff

/-- `numpy.arange(a, b)` for integers. -/
def arangeZ (a b : ℤ) : List ℤ := (List.range (b - a).toNat).map (fun i : ℕ => a + (i : ℤ))

/-- finite_difference.py 52-59: the integers `k` of the points `xi + k*dxi` used for a derivative of order `oi`.  `-oi//2`
parses as `(-oi)//2`; `//` and `%` are floor division and its remainder, as `/` and `%` of `ℤ` for a positive divisor. -/
def offsets (o : ℕ) : List ℤ :=
  if o % 2 = 1 then (arangeZ (-(o : ℤ)) ((o : ℤ) + 1)).filter (fun k => k % 2 = 1)
  else arangeZ ((-(o : ℤ)) / 2) ((o : ℤ) / 2 + 1)

variable {K : Type} [Field K]

/-- `c2` of the n-th pass of SymPy's `finite_diff_weights`: the product of `x_list[n] - x_list[nu]` for `nu < n`. -/
def fornbergC (x : ℕ → K) (n : ℕ) : K := ((List.range n).map (fun ν => x n - x ν)).prod

/-- `delta[m][n][nu]` of SymPy's `finite_diff_weights(M, x_list, x0)`. -/
def fornberg (M : ℕ) (x : ℕ → K) (x0 : K) : ℕ → ℕ → ℕ → K
  | 0, m, ν => if m = 0 ∧ ν = 0 then 1 else 0
  | n + 1, m, ν =>
    if m ≤ min (n + 1) M then
      if ν < n + 1 then
        ((x (n + 1) - x0) * fornberg M x x0 n m ν - (m : K) * fornberg M x x0 n (m - 1) ν) / (x (n + 1) - x ν)
      else if ν = n + 1 then
        fornbergC x n / fornbergC x (n + 1) *
          ((m : K) * fornberg M x x0 n (m - 1) n - (x n - x0) * fornberg M x x0 n m n)
      else 0
    else 0

/-- `finite_diff_weights(order, points, x0)[order][-1]`: one weight for each point. -/
def weights (order : ℕ) (points : List K) (x0 : K) : List K :=
  (List.range points.length).map
    (fun ν => fornberg order (fun i => points.getD i 0) x0 (points.length - 1) order ν)

variable {V : Type} [AddCommGroup V] [Module K V]

/-- `Derivative(f(x), x, order).as_finite_difference(points)` evaluated at `x0`. -/
def asFiniteDifference (order : ℕ) (points : List K) (f : K → V) (x0 : K) : V :=
  (List.zipWith (fun w p => w • f p) (weights order points x0) points).sum

/-- finite_difference.py 52-59: the points `xi + k*dxi`. -/
def points (o : ℕ) (h x : K) : List K := (offsets o).map (fun k : ℤ => x + (k : K) * h)

/-- finite_difference.py 42-62 `get_subs_derivative`, the first derivative variable: the value at `x` of the expression
substituted for `Derivative(f, x, o)`. -/
def fd (o : ℕ) (h : K) (f : K → V) (x : K) : V := asFiniteDifference o (points o h x) f x

variable {ι : Type} [DecidableEq ι]

/-- The same for a function of several coordinates; `h` gives the grid step of each coordinate. -/
def fdAlong (h : ι → K) (i : ι) (o : ℕ) (u : (ι → K) → V) (x : ι → K) : V :=
  fd o (h i) (fun p => u (Function.update x i p)) (x i)

/-- finite_difference.py 42-66 and the loop 86-96: a derivative with respect to several variables is treated one
variable after the other, in the order of `derivative.args[1:]`. -/
def fdMixed (h : ι → K) : List (ι × ℕ) → ((ι → K) → V) → (ι → K) → V
  | [], u => u
  | (i, o) :: rest, u => fdMixed h rest (fdAlong h i o u)

/-! ## The discrete derivative of a generated model -/

/-- body_FDModelBuilder.py 75-80: entry `j` of the array `index(coord, step)` for a coordinate with `n` points. -/
def gridIndex (n : ℕ) (step : ℤ) (j : ℕ) : ℕ := (((j : ℤ) + step) % (n : ℤ)).toNat

/-- Value at the grid point `idx` of the code generated for `Derivative(u, (x_i, o))`: every function `u(.., x_i+k*dx_i, ..)`
of the finite difference becomes `u[.., self.index(x_i, k), ..]` (properties C22, C23). -/
def gridDeriv (n : ι → ℕ) (h : ι → K) (i : ι) (o : ℕ) (u : (ι → ℕ) → K) (idx : ι → ℕ) : K :=
  (List.zipWith (fun w k => w * u (Function.update idx i (gridIndex (n i) k (idx i))))
    (weights o (points o (h i) 0) 0) (offsets o)).sum

/-- The same for a mixed derivative. -/
def gridMixed (n : ι → ℕ) (h : ι → K) : List (ι × ℕ) → ((ι → ℕ) → K) → (ι → ℕ) → K
  | [], u => u
  | (i, o) :: rest, u => gridMixed n h rest (gridDeriv n h i o u)

end Sympkf.FinDiff
