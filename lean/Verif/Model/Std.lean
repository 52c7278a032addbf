import Verif.Model.Pkf
import Verif.Model.Util

/-!
# `SymbolicPKF.std_system`

`src/sympkf/symbolic/pkfcas.py` 301-335.
-/

set_option autoImplicit false

namespace Sympkf.PKF

open Text Rand

namespace Pkf

variable (P : Pkf)

/-- pkfcas.py 326-330: the loop over the set of derivatives of the left-hand side.  `time_symbol == trend.args[1]` compares a symbol
with the tuple `(t, 1)` and is never true, so `trend` is the last element in the order of the set (`shuffle`); for an empty set it
keeps its previous value, if any. -/
def lastTrend (shuffle : List Ex → List Ex) (previous : Option Ex) (lhs : Ex) : Option Ex :=
  ((shuffle (derivAtoms lhs).dedup).getLast?).or previous

/-- util.py 145-156 `isolate` (see `Model/Util.lean`); `NotImplementedError` stands for equations that are not linear, whose solution
by SymPy is not modelled. -/
def isolateEq (q : Eqn) (trend : Ex) : Except PyErr Eqn :=
  match Util.solveLinear q.1 q.2 trend with
  | none => .error .notImplementedError
  | some [] => .error .indexError
  | some (v :: _) => .ok (trend, eval v)

/-- pkfcas.py 322-332: the loop over the variance equations (`trend` survives from one iteration to the next). -/
def stdLoop (shuffle : List Ex → List Ex) : Option Ex → List Eqn → Except PyErr (List Eqn)
  | _, [] => .ok []
  | previous, q :: system => do
    let q' := P.subsEq P.subsVariance q
    match lastTrend shuffle previous q'.1 with
    | none => .error .nameError
    | some trend =>
      let q'' ← isolateEq q' trend
      let rest ← stdLoop shuffle (some trend) system
      return q'' :: rest

/-- pkfcas.py 301-335 `std_system`; `shuffle` is the iteration order of sets of derivatives. -/
def stdSystem (shuffle : List Ex → List Ex) : Except PyErr (List Eqn) := do
  let system ← P.varianceSystem
  P.stdLoop shuffle none system

end Pkf
end Sympkf.PKF
