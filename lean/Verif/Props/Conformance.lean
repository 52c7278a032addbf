import Verif.Spec.Notebooks
import Verif.Model.PkfObject
import Verif.Model.Util
import Verif.Model.PartialOrder

/-!
# The model against recorded runs of the program

The theorems of the other files speak about the model.  Here the model is run on the inputs of the notebooks in `example/` and
of the unit tests in `src/sympkf/symbolic/test/`, and its results are compared with the formulas that the real program printed
(`Spec/Notebooks.lean`) or that the unit tests expect.  Two systems agree if they have the same equations in the same order, up
to `doit` and `expand`.

Four of the comparisons are theorems; the others are run by Lean's interpreter at each build (`#guard`), because they take the
kernel several minutes.  No theorem depends on a `#guard`.

The aspect tensors of the 2D oscillator are left out: SymPy prints quotients by the determinant of the tensor which it has
partly cancelled, the model does not cancel sums.
-/

set_option autoImplicit false

namespace Sympkf.Conformance

open Sympkf.Text Sympkf.Rand Sympkf.PKF Sympkf.Notebooks

/-- The same equation. -/
def sameEq (a b : Eqn) : Bool := decide (eval a.1 = eval b.1) && decide (eval a.2 = eval b.2)

/-- The same equations in the same order. -/
def same : List Eqn → List Eqn → Bool
  | [], [] => true
  | a :: s, b :: l => sameEq a b && same s l
  | _, _ => false

/-- The system is computed and is the recorded one. -/
def agree (s : Except PyErr (List Eqn)) (l : List Eqn) : Bool :=
  match s with
  | .ok s => same s l
  | .error _ => false

/-- The same dictionary, in any order. -/
def agreeDict (s : Except PyErr (List Eqn)) (l : List Eqn) : Bool :=
  match s with
  | .ok s => s.all (fun a => l.any (sameEq a)) && l.all (fun a => s.any (sameEq a)) && decide (s.length = l.length)
  | .error _ => false

def neg (a : Ex) : Ex := .mul (.num (-1)) a
def d (a : Ex) (v : Str) (n : ℕ) : Ex := .deriv a [(v, n)]

/-- A field in one space dimension. -/
def f1 (name : String) : Field := ⟨name.toList, [t, x]⟩
/-- A field in two space dimensions. -/
def f2 (name : String) : Field := ⟨name.toList, [t, x, y]⟩
/-- `Eq(Derivative(f, t), rhs)` -/
def trend (f : Field) (rhs : Ex) : Eqn := (d f.value t 1, rhs)

/-! ## example/PKF on the 2D advection.ipynb -/

def advection : Pkf :=
  { fields := [f2 "c"]
    equations := [trend (f2 "c") (.add (.mul (.fn "u".toList [x, y]) (d (f2 "c").value x 1))
      (.mul (.fn "v".toList [x, y]) (d (f2 "c").value y 1)))] }

theorem advection_metric : agree (advection.inMetric []) advectionMetric = true := by decide +kernel

/-! ## example/PKF on 1D multivariate oscillator.ipynb -/

def oscillator : Pkf :=
  { fields := [f1 "u", f1 "v"], equations := [trend (f1 "u") (f1 "v").value, trend (f1 "v") (neg (f1 "u").value)] }

#guard agree (oscillator.inMetric []) oscillatorMetric
theorem oscillator_aspect : agree (oscillator.inAspect []) oscillatorAspect = true := by decide +kernel
#guard agreeDict oscillator.closure oscillatorClosure

/-! ## example/PKF on 2D multivariate oscillator.ipynb -/

def oscillator2 : Pkf :=
  { fields := [f2 "u", f2 "v"], equations := [trend (f2 "u") (f2 "v").value, trend (f2 "v") (neg (f2 "u").value)] }

#guard agree (oscillator2.inMetric []) oscillator2Metric

/-! ## example/PKF on 1D chemical transport model.ipynb -/

def chemistry : Pkf :=
  { fields := [f1 "A", f1 "B"], equations := [trend (f1 "A") (f1 "B").value, trend (f1 "B") (neg (f1 "A").value)] }

#guard agree (chemistry.inMetric []) chemistryMetric

/-- `-u*Derivative(f, x)` -/
def carried (f : Field) : Ex := neg (.mul (.fn "u".toList [x]) (d f.value x 1))

def transport : Pkf :=
  { fields := [f1 "A", f1 "B"]
    equations := [trend (f1 "A") (.add (carried (f1 "A")) (f1 "B").value),
      trend (f1 "B") (.add (carried (f1 "B")) (neg (f1 "A").value))] }

#guard agree (transport.inMetric []) transportMetric
#guard agree (transport.inAspect []) transportAspect

/-! ## example/PKF on Burgers.ipynb -/

def u : Field := f1 "u"
def kappa : Ex := .sym "kappa".toList
def diffusionTerm : Ex := .mul kappa (d u.value x 2)
def advectionTerm : Ex := neg (.mul u.value (d u.value x 1))
def burgers : Pkf := { fields := [u], equations := [trend u (.add diffusionTerm advectionTerm)] }
def nonlinear : Pkf := { fields := [u], equations := [trend u advectionTerm] }
def diffusion : Pkf := { fields := [u], equations := [trend u diffusionTerm] }

theorem burgers_metric : agree (burgers.inMetric []) burgersMetric = true := by decide +kernel
#guard agree (burgers.inAspect []) burgersAspect
#guard agree (nonlinear.inAspect []) nonlinearAspect
#guard agree (diffusion.inAspect []) diffusionAspect

/-- `series` of functions that are not polynomials: the Reynolds equation of `Derivative(u, t) = exp(u) / u`. -/
def exponential : Pkf := { fields := [u], equations := [trend u (.mul (.func "exp".toList u.value) (.pow u.value (-1)))] }
def mean : Ex := .ex u.random
def exponentialSecond : Ex :=
  .mul (.func "exp".toList mean) (.add (.pow mean (-1)) (.add (.mul u.error (.add (.pow mean (-1)) (neg (.pow mean (-2)))))
    (.mul (.pow u.error 2) (.add (.mul (.num (1 / 2)) (.pow mean (-1))) (.add (neg (.pow mean (-2))) (.pow mean (-3)))))))

#guard agree exponential.secondOrder [(.add (d mean t 1) (d u.error t 1), exponentialSecond)]

/-- The second-order part of SymPy's `series(g(m + eps e), eps, 0, 3)`, as in `_compute_reynolds_system`: `log`, `tan`, `tanh`, `atan`. -/
def seriesOf (g : String) : Except PyErr (List Eqn) :=
  Pkf.secondOrder { fields := [u], equations := [trend u (.func g.toList u.value)] }
def at2 (g : String) (d1 d2 : Ex) : List Eqn :=
  [(.add (d mean t 1) (d u.error t 1),
    .add (.func g.toList mean) (.add (.mul u.error d1) (.mul (.num (1 / 2)) (.mul (.pow u.error 2) d2))))]

#guard agree (seriesOf "log") (at2 "log" (.pow mean (-1)) (neg (.pow mean (-2))))
#guard agree (seriesOf "tan") (at2 "tan" (.add (.num 1) (.pow (.func "tan".toList mean) 2))
  (.add (.mul (.num 2) (.func "tan".toList mean)) (.mul (.num 2) (.pow (.func "tan".toList mean) 3))))
#guard agree (seriesOf "tanh") (at2 "tanh" (.add (.num 1) (neg (.pow (.func "tanh".toList mean) 2)))
  (.add (.mul (.num (-2)) (.func "tanh".toList mean)) (.mul (.num 2) (.pow (.func "tanh".toList mean) 3))))
#guard agree (seriesOf "atan") (at2 "atan" (.pow (.add (.num 1) (.pow mean 2)) (-1))
  (.mul (.num (-2)) (.mul mean (.pow (.add (.num 1) (.pow mean 2)) (-2)))))

/-- Cell 25: `subs_tree` after `in_metric` and `in_aspect` -/
def treeAfter (K : Pkf) : Except PyErr (List Eqn) :=
  ((do let _ ← K.readInMetric []; let _ ← K.readInAspect []; K.readSubsTree : M _) Cache.init).1

#guard agreeDict (treeAfter burgers) burgersTree

/-- Cell 30: `unclosed_terms` -/
def unclosed (s : Except PyErr (List Ex)) (l : List Ex) : Bool :=
  match s with
  | .ok s => decide (s.map eval = l.map eval)
  | .error _ => false

#guard unclosed (burgers.unclosedTerms []) burgersUnclosed

/-- Cells 31 and 40: the closure of Pannekoucke et al. (2018) in terms of the aspect tensor. -/
def p18 : Dict Ex Ex := burgersUnclosed.zip burgersP18

/-- Cell 42 substitutes the closure in the system, cell 49 declares it by `set_closure`: in the model both give the recorded
system. -/
theorem closed_aspect : agree (burgers.inAspect p18) closedAspect = true := by decide +kernel

/-! ## src/sympkf/symbolic/test/test_PKFSystem.py -/

namespace PKFSystem

/-- symbolic/dynamics.py 11: the diffusion coefficient is written `\\kappa`. -/
def k : Ex := .sym "\\kappa".toList
def burgers : Pkf := { fields := [u], equations := [trend u (.add advectionTerm (.mul k (d u.value x 2)))] }

def m (l : List Ex) : Ex := prod l
def Eu : Ex := .ex u.random
def e : Ex := u.error
def eps : Ex := u.epsilon
def V : Ex := u.variance
def g : Ex := u.metric 0 0
def nu : Ex := u.diffusion 0 0
def sum : List Ex → Ex := Pkf.sumEx
def term : Ex := .ex (.mul eps (d eps x 4))

def errorSystem : List Eqn := [(d e t 1, sum [m [k, d e x 2], m [.num (-1), e, d Eu x 1], m [.num (-1), Eu, d e x 1]])]

def expectationSystem : List Eqn :=
  [(d Eu t 1, sum [m [k, d Eu x 2], m [.num (-1), Eu, d Eu x 1], m [.num (-1 / 2), d V x 1]])]

def varianceSystem : List Eqn :=
  [(d V t 1, sum [m [.num (-2), k, V, g], m [k, d V x 2], m [.num (-1 / 2), k, .pow (d V x 1) 2, .pow V (-1)],
    m [.num (-2), V, d Eu x 1], m [.num (-1), Eu, d V x 1]])]

def epsilonSystem : List Eqn :=
  [(d eps t 1, sum [m [k, eps, g], m [k, d eps x 2], m [k, d V x 1, d eps x 1, .pow V (-1)], m [.num (-1), Eu, d eps x 1]])]

def metricSystem : List Eqn :=
  [(d g t 1, sum [m [.num 2, k, .pow g 2], m [.num (-2), k, term], m [.num (-3), k, d g x 2],
    m [.num 2, k, g, d V x 2, .pow V (-1)], m [k, d V x 1, d g x 1, .pow V (-1)],
    m [.num (-2), k, g, .pow (d V x 1) 2, .pow V (-2)], m [.num (-2), g, d Eu x 1], m [.num (-1), Eu, d g x 1]])]

def kurtosis : Dict Ex Ex := [(term, sum [m [.num 3, .pow g 2], m [.num (-2), d g x 2]])]

def closedDiffusion : Eqn :=
  (d nu t 1, sum [m [k, d nu x 2], m [.num 2, k], m [.num (-2), k, .pow (d nu x 1) 2, .pow nu (-1)],
    m [.num (-2), k, nu, d V x 2, .pow V (-1)], m [k, d V x 1, d nu x 1, .pow V (-1)],
    m [.num 2, k, nu, .pow (d V x 1) 2, .pow V (-2)], m [.num (-1), u.value, d nu x 1], m [.num 2, nu, d u.value x 1]])

#guard agree burgers.errorSystem errorSystem
#guard agree burgers.expectationSystem expectationSystem
#guard agree burgers.varianceSystem varianceSystem
#guard agree burgers.epsilonSystem epsilonSystem
#guard agree burgers.metricSystem metricSystem
#guard (match burgers.inDiffusion kurtosis with
  | .ok l => (l[2]?.map (sameEq closedDiffusion)).getD false
  | .error _ => false)

end PKFSystem

/-! ## src/sympkf/symbolic/test/test_random_Expectation.py (without the complex number) -/

namespace Random

/-- The value computed without exception. -/
def value {α : Type} [DecidableEq α] (r : Except PyErr α) (a : α) : Bool :=
  match r with
  | .ok b => decide (b = a)
  | .error _ => false

/-- The same expression up to `expand`. -/
def sameEx (r : Except PyErr Ex) (a : Except PyErr Ex) : Bool :=
  match r, a with
  | .ok b, .ok a => decide (eval b = eval a)
  | _, _ => false

def X : Ex := .fn "X".toList [x, t, omega]
def f : Ex := .fn "f".toList [x, t]
def dX : Ex := .deriv X [(x, 1)]
def W : Ex := .fn "X".toList [omega]
def Y : Ex := .fn "Y".toList [x, omega]

-- test_elementary
#guard sameEx (expect (.mul X (.mul dX dX))) (expect (.mul X (.pow dX 2)))
-- test_eval
#guard sameEx (expect (.mul f X)) (.ok (.mul f (.ex X)))
#guard sameEx (expect (.mul (.num 5) X)) (.ok (.mul (.num 5) (.ex X)))
#guard sameEx (expect (.add X X)) (.ok (.mul (.num 2) (.ex X)))
#guard sameEx (expect (.mul X X)) (.ok (.ex (.pow X 2)))
#guard value (expect (.mul X dX)) (.ex (.mul X dX))
#guard sameEx (expect (.mul (.num 2) (.mul X dX))) (.ok (.mul (.num 2) (.ex (.mul X dX))))
#guard sameEx (expect (.add X (.mul f X))) (.ok (.add (.ex X) (.ex (.mul f X))))
-- test_idempotence
#guard value (expect W) (.ex W)
#guard !expectationHas [omega] W
#guard expectationHas [x] Y
#guard value (expect (.ex W)) (.ex W)
-- test_with_israndom
#guard value (israndom (.deriv (.ex (.fn "X".toList [t, omega])) [(t, 1)])) false

/-! ## src/sympkf/symbolic/test/test_random_israndom.py -/

def e : Ex := .fn "e".toList [t, x, omega]
def e1 : Ex := .fn "e_1".toList [t, x, omega]
def f' : Ex := .fn "f".toList [t, x]

#guard value (israndomEq e (.num 0)) true
#guard value (israndomEq e f') true
#guard value (israndomEq f' (.num 0)) false
#guard value (israndomEq f' f') false
#guard value (israndomEq e e1) true

/-! ## src/sympkf/symbolic/test/test_util_Eq.py -/

open Util

def a : Ex := .sym "a".toList
def b : Ex := .sym "b".toList
def c : Ex := .sym "c".toList
def d : Ex := .sym "d".toList
/-- SymPy decides none of these equations. -/
def undecided : Ex → Ex → Option Bool := fun _ _ => none

#guard value (Rel.add undecided (.eq a b) (.eq c d)) (.eq (.add a c) (.add b d))
#guard value (Rel.sub undecided (.eq a b) (.eq c d)) (.eq (.add a (Util.neg c)) (.add b (Util.neg d)))
#guard value (Rel.mul undecided (.eq a b) (.num 2)) (.eq (.mul (.num 2) a) (.mul (.num 2) b))

/-! ## src/sympkf/symbolic/test/test_coordinate.py -/

def fxy : Ex := .fn "f".toList [t, x, y]

#guard (checkCompatible [x, y] (.fn "f".toList [t, x])).toOption.isNone
#guard (checkCompatible [x, y] fxy).toOption.isSome
#guard value (gradient [x, y] fxy) [.deriv fxy [(x, 1)], .deriv fxy [(y, 1)]]
#guard sameEx ((gradient [x, y] fxy).bind (div [x, y])) (.ok (.add (.deriv fxy [(x, 2)]) (.deriv fxy [(y, 2)])))

end Random

/-! ## src/sympkf/symbolic/test/test_PartialOrderDerivative.py -/

namespace PartialOrder

open Sympkf.POD

def alpha : Except PyErr POrder := create [x, y] (.tuple [.atom (.int 5), .atom (.int 0)])

-- test_entrence_format
#guard (match alpha with
  | .ok p => Random.value (create [x, y] p.asSequence) p && Random.value (create [x, y] p.asCouples) p
  | .error _ => false)
-- test_type_error
#guard (match create [x, y] (.tuple [.atom (.other 0), .atom (.int 1)]) with
  | .error e => decide (e = .typeError)
  | .ok _ => false)

end PartialOrder

/-! ## src/sympkf/symbolic/test/test_code.py -/

namespace Code

/-- `v + n*dv` -/
def shifted (v : Char) (n : ℚ) : Arg :=
  { atoms := if n = 0 then [[v]] else [[v], ['d', v]], coeff := fun s => if s = ['d', v] then n else 0, text := [] }

def code (a b c : ℚ) : Except PyErr Str :=
  codeRegularFunction sliceCodingRule "f".toList [shifted 't' a, shifted 'x' b, shifted 'y' c]

-- test_code_time
#guard Random.value (code 1 0 0) "fp1".toList
#guard Random.value (code (-2) 0 0) "fm2".toList
-- test_code_index
#guard Random.value (code 0 1 0) "f[np.ix_(self.index('x',1),self.index('y',0))]".toList
#guard Random.value (code 1 1 0) "fp1[np.ix_(self.index('x',1),self.index('y',0))]".toList

end Code

end Sympkf.Conformance
