import Verif.Model.Pkf

/-!
# Recorded outputs of the program

The notebooks of `example/` keep the formulas that SymPKF displayed when they were run.  This file is their translation by
`tools/notebooks.py`: `\\frac{a}{b c}` is read as `a b ** -1 c ** -1`, which is how SymPy stores it.
-/

set_option autoImplicit false

namespace Sympkf.Notebooks

open Sympkf.Text Sympkf.Rand Sympkf.PKF

def t : Str := "t".toList
def x : Str := "x".toList
def y : Str := "y".toList

/-! Cell 11 of example/PKF on the 2D advection.ipynb. -/

def advectionMetric0 : Eqn :=
  (.deriv (.fn "c".toList [t, x, y]) [(t, 1)],
   .add (.mul (.fn "u".toList [x, y]) (.deriv (.fn "c".toList [t, x, y]) [(x, 1)])) (.mul (.fn "v".toList [x, y]) (.deriv (.fn "c".toList [t, x, y]) [(y, 1)])))
def advectionMetric1 : Eqn :=
  (.deriv (.fn "{V_{c}}".toList [t, x, y]) [(t, 1)],
   .add (.mul (.fn "u".toList [x, y]) (.deriv (.fn "{V_{c}}".toList [t, x, y]) [(x, 1)])) (.mul (.fn "v".toList [x, y]) (.deriv (.fn "{V_{c}}".toList [t, x, y]) [(y, 1)])))
def advectionMetric2 : Eqn :=
  (.deriv (.fn "{g_{c,xx}}".toList [t, x, y]) [(t, 1)],
   .add (.add (.add (.mul (.fn "u".toList [x, y]) (.deriv (.fn "{g_{c,xx}}".toList [t, x, y]) [(x, 1)])) (.mul (.fn "v".toList [x, y]) (.deriv (.fn "{g_{c,xx}}".toList [t, x, y]) [(y, 1)]))) (.mul (.num (2)) (.mul (.fn "{g_{c,xx}}".toList [t, x, y]) (.deriv (.fn "u".toList [x, y]) [(x, 1)])))) (.mul (.num (2)) (.mul (.fn "{g_{c,xy}}".toList [t, x, y]) (.deriv (.fn "v".toList [x, y]) [(x, 1)]))))
def advectionMetric3 : Eqn :=
  (.deriv (.fn "{g_{c,xy}}".toList [t, x, y]) [(t, 1)],
   .add (.add (.add (.add (.add (.mul (.fn "u".toList [x, y]) (.deriv (.fn "{g_{c,xy}}".toList [t, x, y]) [(x, 1)])) (.mul (.fn "v".toList [x, y]) (.deriv (.fn "{g_{c,xy}}".toList [t, x, y]) [(y, 1)]))) (.mul (.fn "{g_{c,xx}}".toList [t, x, y]) (.deriv (.fn "u".toList [x, y]) [(y, 1)]))) (.mul (.fn "{g_{c,xy}}".toList [t, x, y]) (.deriv (.fn "u".toList [x, y]) [(x, 1)]))) (.mul (.fn "{g_{c,xy}}".toList [t, x, y]) (.deriv (.fn "v".toList [x, y]) [(y, 1)]))) (.mul (.fn "{g_{c,yy}}".toList [t, x, y]) (.deriv (.fn "v".toList [x, y]) [(x, 1)])))
def advectionMetric4 : Eqn :=
  (.deriv (.fn "{g_{c,yy}}".toList [t, x, y]) [(t, 1)],
   .add (.add (.add (.mul (.fn "u".toList [x, y]) (.deriv (.fn "{g_{c,yy}}".toList [t, x, y]) [(x, 1)])) (.mul (.fn "v".toList [x, y]) (.deriv (.fn "{g_{c,yy}}".toList [t, x, y]) [(y, 1)]))) (.mul (.num (2)) (.mul (.fn "{g_{c,xy}}".toList [t, x, y]) (.deriv (.fn "u".toList [x, y]) [(y, 1)])))) (.mul (.num (2)) (.mul (.fn "{g_{c,yy}}".toList [t, x, y]) (.deriv (.fn "v".toList [x, y]) [(y, 1)]))))
def advectionMetric : List Eqn := [advectionMetric0, advectionMetric1, advectionMetric2, advectionMetric3, advectionMetric4]

/-! Cell 10 of example/PKF on 1D multivariate oscillator.ipynb. -/

def oscillatorMetric0 : Eqn :=
  (.deriv (.fn "u".toList [t, x]) [(t, 1)],
   .fn "v".toList [t, x])
def oscillatorMetric1 : Eqn :=
  (.deriv (.fn "v".toList [t, x]) [(t, 1)],
   .mul (.num (-1)) (.fn "u".toList [t, x]))
def oscillatorMetric2 : Eqn :=
  (.deriv (.fn "{V_{u}}".toList [t, x]) [(t, 1)],
   .mul (.num (2)) (.fn "V_uv".toList [t, x]))
def oscillatorMetric3 : Eqn :=
  (.deriv (.fn "{V_{v}}".toList [t, x]) [(t, 1)],
   .mul (.num (-1)) (.mul (.num (2)) (.fn "V_uv".toList [t, x])))
def oscillatorMetric4 : Eqn :=
  (.deriv (.fn "V_uv".toList [t, x]) [(t, 1)],
   .add (.mul (.num (-1)) (.fn "{V_{u}}".toList [t, x])) (.fn "{V_{v}}".toList [t, x]))
def oscillatorMetric5 : Eqn :=
  (.deriv (.fn "{g_{u,xx}}".toList [t, x]) [(t, 1)],
   .add (.add (.add (.mul (.num (-1)) (.mul (.mul (.num (2)) (.mul (.fn "V_uv".toList [t, x]) (.fn "{g_{u,xx}}".toList [t, x]))) (.pow (.fn "{V_{u}}".toList [t, x]) (-1)))) (.mul (.mul (.num (2)) (.mul (.pow (.fn "{V_{v}}".toList [t, x]) (1 / 2)) (.ex (.mul (.deriv (.fn "{\\varepsilon_{u}}".toList [t, x, omega]) [(x, 1)]) (.deriv (.fn "{\\varepsilon_{v}}".toList [t, x, omega]) [(x, 1)]))))) (.pow (.fn "{V_{u}}".toList [t, x]) (-1 / 2)))) (.mul (.mul (.ex (.mul (.fn "{\\varepsilon_{v}}".toList [t, x, omega]) (.deriv (.fn "{\\varepsilon_{u}}".toList [t, x, omega]) [(x, 1)]))) (.deriv (.fn "{V_{v}}".toList [t, x]) [(x, 1)])) (.mul (.pow (.fn "{V_{u}}".toList [t, x]) (-1 / 2)) (.pow (.fn "{V_{v}}".toList [t, x]) (-1 / 2))))) (.mul (.num (-1)) (.mul (.mul (.pow (.fn "{V_{v}}".toList [t, x]) (1 / 2)) (.mul (.ex (.mul (.fn "{\\varepsilon_{v}}".toList [t, x, omega]) (.deriv (.fn "{\\varepsilon_{u}}".toList [t, x, omega]) [(x, 1)]))) (.deriv (.fn "{V_{u}}".toList [t, x]) [(x, 1)]))) (.pow (.fn "{V_{u}}".toList [t, x]) (-3 / 2)))))
def oscillatorMetric6 : Eqn :=
  (.deriv (.fn "{g_{v,xx}}".toList [t, x]) [(t, 1)],
   .add (.add (.add (.mul (.mul (.num (2)) (.mul (.fn "V_uv".toList [t, x]) (.fn "{g_{v,xx}}".toList [t, x]))) (.pow (.fn "{V_{v}}".toList [t, x]) (-1))) (.mul (.num (-1)) (.mul (.mul (.num (2)) (.mul (.pow (.fn "{V_{u}}".toList [t, x]) (1 / 2)) (.ex (.mul (.deriv (.fn "{\\varepsilon_{u}}".toList [t, x, omega]) [(x, 1)]) (.deriv (.fn "{\\varepsilon_{v}}".toList [t, x, omega]) [(x, 1)]))))) (.pow (.fn "{V_{v}}".toList [t, x]) (-1 / 2))))) (.mul (.mul (.pow (.fn "{V_{u}}".toList [t, x]) (1 / 2)) (.mul (.ex (.mul (.fn "{\\varepsilon_{u}}".toList [t, x, omega]) (.deriv (.fn "{\\varepsilon_{v}}".toList [t, x, omega]) [(x, 1)]))) (.deriv (.fn "{V_{v}}".toList [t, x]) [(x, 1)]))) (.pow (.fn "{V_{v}}".toList [t, x]) (-3 / 2)))) (.mul (.num (-1)) (.mul (.mul (.ex (.mul (.fn "{\\varepsilon_{u}}".toList [t, x, omega]) (.deriv (.fn "{\\varepsilon_{v}}".toList [t, x, omega]) [(x, 1)]))) (.deriv (.fn "{V_{u}}".toList [t, x]) [(x, 1)])) (.mul (.pow (.fn "{V_{u}}".toList [t, x]) (-1 / 2)) (.pow (.fn "{V_{v}}".toList [t, x]) (-1 / 2))))))
def oscillatorMetric : List Eqn := [oscillatorMetric0, oscillatorMetric1, oscillatorMetric2, oscillatorMetric3, oscillatorMetric4, oscillatorMetric5, oscillatorMetric6]

/-! Cell 11 of example/PKF on 1D multivariate oscillator.ipynb. -/

def oscillatorAspect0 : Eqn :=
  (.deriv (.fn "u".toList [t, x]) [(t, 1)],
   .fn "v".toList [t, x])
def oscillatorAspect1 : Eqn :=
  (.deriv (.fn "v".toList [t, x]) [(t, 1)],
   .mul (.num (-1)) (.fn "u".toList [t, x]))
def oscillatorAspect2 : Eqn :=
  (.deriv (.fn "{V_{u}}".toList [t, x]) [(t, 1)],
   .mul (.num (2)) (.fn "V_uv".toList [t, x]))
def oscillatorAspect3 : Eqn :=
  (.deriv (.fn "{V_{v}}".toList [t, x]) [(t, 1)],
   .mul (.num (-1)) (.mul (.num (2)) (.fn "V_uv".toList [t, x])))
def oscillatorAspect4 : Eqn :=
  (.deriv (.fn "V_uv".toList [t, x]) [(t, 1)],
   .add (.mul (.num (-1)) (.fn "{V_{u}}".toList [t, x])) (.fn "{V_{v}}".toList [t, x]))
def oscillatorAspect5 : Eqn :=
  (.deriv (.fn "{s_{u,xx}}".toList [t, x]) [(t, 1)],
   .add (.add (.add (.mul (.mul (.num (2)) (.mul (.fn "V_uv".toList [t, x]) (.fn "{s_{u,xx}}".toList [t, x]))) (.pow (.fn "{V_{u}}".toList [t, x]) (-1))) (.mul (.num (-1)) (.mul (.mul (.num (2)) (.mul (.pow (.fn "{V_{v}}".toList [t, x]) (1 / 2)) (.mul (.pow (.fn "{s_{u,xx}}".toList [t, x]) (2)) (.ex (.mul (.deriv (.fn "{\\varepsilon_{u}}".toList [t, x, omega]) [(x, 1)]) (.deriv (.fn "{\\varepsilon_{v}}".toList [t, x, omega]) [(x, 1)])))))) (.pow (.fn "{V_{u}}".toList [t, x]) (-1 / 2))))) (.mul (.num (-1)) (.mul (.mul (.pow (.fn "{s_{u,xx}}".toList [t, x]) (2)) (.mul (.ex (.mul (.fn "{\\varepsilon_{v}}".toList [t, x, omega]) (.deriv (.fn "{\\varepsilon_{u}}".toList [t, x, omega]) [(x, 1)]))) (.deriv (.fn "{V_{v}}".toList [t, x]) [(x, 1)]))) (.mul (.pow (.fn "{V_{u}}".toList [t, x]) (-1 / 2)) (.pow (.fn "{V_{v}}".toList [t, x]) (-1 / 2)))))) (.mul (.mul (.pow (.fn "{V_{v}}".toList [t, x]) (1 / 2)) (.mul (.pow (.fn "{s_{u,xx}}".toList [t, x]) (2)) (.mul (.ex (.mul (.fn "{\\varepsilon_{v}}".toList [t, x, omega]) (.deriv (.fn "{\\varepsilon_{u}}".toList [t, x, omega]) [(x, 1)]))) (.deriv (.fn "{V_{u}}".toList [t, x]) [(x, 1)])))) (.pow (.fn "{V_{u}}".toList [t, x]) (-3 / 2))))
def oscillatorAspect6 : Eqn :=
  (.deriv (.fn "{s_{v,xx}}".toList [t, x]) [(t, 1)],
   .add (.add (.add (.mul (.num (-1)) (.mul (.mul (.num (2)) (.mul (.fn "V_uv".toList [t, x]) (.fn "{s_{v,xx}}".toList [t, x]))) (.pow (.fn "{V_{v}}".toList [t, x]) (-1)))) (.mul (.mul (.num (2)) (.mul (.pow (.fn "{V_{u}}".toList [t, x]) (1 / 2)) (.mul (.pow (.fn "{s_{v,xx}}".toList [t, x]) (2)) (.ex (.mul (.deriv (.fn "{\\varepsilon_{u}}".toList [t, x, omega]) [(x, 1)]) (.deriv (.fn "{\\varepsilon_{v}}".toList [t, x, omega]) [(x, 1)])))))) (.pow (.fn "{V_{v}}".toList [t, x]) (-1 / 2)))) (.mul (.num (-1)) (.mul (.mul (.pow (.fn "{V_{u}}".toList [t, x]) (1 / 2)) (.mul (.pow (.fn "{s_{v,xx}}".toList [t, x]) (2)) (.mul (.ex (.mul (.fn "{\\varepsilon_{u}}".toList [t, x, omega]) (.deriv (.fn "{\\varepsilon_{v}}".toList [t, x, omega]) [(x, 1)]))) (.deriv (.fn "{V_{v}}".toList [t, x]) [(x, 1)])))) (.pow (.fn "{V_{v}}".toList [t, x]) (-3 / 2))))) (.mul (.mul (.pow (.fn "{s_{v,xx}}".toList [t, x]) (2)) (.mul (.ex (.mul (.fn "{\\varepsilon_{u}}".toList [t, x, omega]) (.deriv (.fn "{\\varepsilon_{v}}".toList [t, x, omega]) [(x, 1)]))) (.deriv (.fn "{V_{u}}".toList [t, x]) [(x, 1)]))) (.mul (.pow (.fn "{V_{u}}".toList [t, x]) (-1 / 2)) (.pow (.fn "{V_{v}}".toList [t, x]) (-1 / 2)))))
def oscillatorAspect : List Eqn := [oscillatorAspect0, oscillatorAspect1, oscillatorAspect2, oscillatorAspect3, oscillatorAspect4, oscillatorAspect5, oscillatorAspect6]

/-! Cell 12 of example/PKF on 1D multivariate oscillator.ipynb. -/

def oscillatorClosure0 : Eqn :=
  (.ex (.mul (.fn "{\\varepsilon_{u}}".toList [t, x, omega]) (.fn "{\\varepsilon_{v}}".toList [t, x, omega])),
   .mul (.fn "V_uv".toList [t, x]) (.mul (.pow (.fn "{V_{u}}".toList [t, x]) (-1 / 2)) (.pow (.fn "{V_{v}}".toList [t, x]) (-1 / 2))))
def oscillatorClosure1 : Eqn :=
  (.ex (.mul (.fn "{\\varepsilon_{u}}".toList [t, x, omega]) (.deriv (.fn "{\\varepsilon_{u}}".toList [t, x, omega]) [(x, 1)])),
   .num (0))
def oscillatorClosure2 : Eqn :=
  (.ex (.mul (.fn "{\\varepsilon_{u}}".toList [t, x, omega]) (.deriv (.fn "{\\varepsilon_{u}}".toList [t, x, omega]) [(x, 2)])),
   .mul (.num (-1)) (.fn "{g_{u,xx}}".toList [t, x]))
def oscillatorClosure3 : Eqn :=
  (.ex (.mul (.fn "{\\varepsilon_{u}}".toList [t, x, omega]) (.deriv (.fn "{\\varepsilon_{u}}".toList [t, x, omega]) [(x, 3)])),
   .mul (.num (-1)) (.mul (.mul (.num (3)) (.deriv (.fn "{g_{u,xx}}".toList [t, x]) [(x, 1)])) (.num (1 / 2))))
def oscillatorClosure4 : Eqn :=
  (.ex (.mul (.fn "{\\varepsilon_{v}}".toList [t, x, omega]) (.deriv (.fn "{\\varepsilon_{v}}".toList [t, x, omega]) [(x, 1)])),
   .num (0))
def oscillatorClosure5 : Eqn :=
  (.ex (.mul (.fn "{\\varepsilon_{v}}".toList [t, x, omega]) (.deriv (.fn "{\\varepsilon_{v}}".toList [t, x, omega]) [(x, 2)])),
   .mul (.num (-1)) (.fn "{g_{v,xx}}".toList [t, x]))
def oscillatorClosure6 : Eqn :=
  (.ex (.mul (.fn "{\\varepsilon_{v}}".toList [t, x, omega]) (.deriv (.fn "{\\varepsilon_{v}}".toList [t, x, omega]) [(x, 3)])),
   .mul (.num (-1)) (.mul (.mul (.num (3)) (.deriv (.fn "{g_{v,xx}}".toList [t, x]) [(x, 1)])) (.num (1 / 2))))
def oscillatorClosure7 : Eqn :=
  (.ex (.mul (.fn "{e_{u}}".toList [t, x, omega]) (.fn "{e_{v}}".toList [t, x, omega])),
   .fn "V_uv".toList [t, x])
def oscillatorClosure8 : Eqn :=
  (.ex (.fn "{\\varepsilon_{u}}".toList [t, x, omega]),
   .num (0))
def oscillatorClosure9 : Eqn :=
  (.ex (.pow (.fn "{\\varepsilon_{u}}".toList [t, x, omega]) (2)),
   .num (1))
def oscillatorClosure10 : Eqn :=
  (.ex (.fn "{\\varepsilon_{v}}".toList [t, x, omega]),
   .num (0))
def oscillatorClosure11 : Eqn :=
  (.ex (.pow (.fn "{\\varepsilon_{v}}".toList [t, x, omega]) (2)),
   .num (1))
def oscillatorClosure12 : Eqn :=
  (.ex (.fn "{e_{u}}".toList [t, x, omega]),
   .num (0))
def oscillatorClosure13 : Eqn :=
  (.ex (.pow (.fn "{e_{u}}".toList [t, x, omega]) (2)),
   .fn "{V_{u}}".toList [t, x])
def oscillatorClosure14 : Eqn :=
  (.ex (.fn "{e_{v}}".toList [t, x, omega]),
   .num (0))
def oscillatorClosure15 : Eqn :=
  (.ex (.pow (.fn "{e_{v}}".toList [t, x, omega]) (2)),
   .fn "{V_{v}}".toList [t, x])
def oscillatorClosure : List Eqn := [oscillatorClosure0, oscillatorClosure1, oscillatorClosure2, oscillatorClosure3, oscillatorClosure4, oscillatorClosure5, oscillatorClosure6, oscillatorClosure7, oscillatorClosure8, oscillatorClosure9, oscillatorClosure10, oscillatorClosure11, oscillatorClosure12, oscillatorClosure13, oscillatorClosure14, oscillatorClosure15]

/-! Cell 10 of example/PKF on 2D multivariate oscillator.ipynb. -/

def oscillator2Metric0 : Eqn :=
  (.deriv (.fn "u".toList [t, x, y]) [(t, 1)],
   .fn "v".toList [t, x, y])
def oscillator2Metric1 : Eqn :=
  (.deriv (.fn "v".toList [t, x, y]) [(t, 1)],
   .mul (.num (-1)) (.fn "u".toList [t, x, y]))
def oscillator2Metric2 : Eqn :=
  (.deriv (.fn "{V_{u}}".toList [t, x, y]) [(t, 1)],
   .mul (.num (2)) (.fn "V_uv".toList [t, x, y]))
def oscillator2Metric3 : Eqn :=
  (.deriv (.fn "{V_{v}}".toList [t, x, y]) [(t, 1)],
   .mul (.num (-1)) (.mul (.num (2)) (.fn "V_uv".toList [t, x, y])))
def oscillator2Metric4 : Eqn :=
  (.deriv (.fn "V_uv".toList [t, x, y]) [(t, 1)],
   .add (.mul (.num (-1)) (.fn "{V_{u}}".toList [t, x, y])) (.fn "{V_{v}}".toList [t, x, y]))
def oscillator2Metric5 : Eqn :=
  (.deriv (.fn "{g_{u,xx}}".toList [t, x, y]) [(t, 1)],
   .add (.add (.add (.mul (.num (-1)) (.mul (.mul (.num (2)) (.mul (.fn "V_uv".toList [t, x, y]) (.fn "{g_{u,xx}}".toList [t, x, y]))) (.pow (.fn "{V_{u}}".toList [t, x, y]) (-1)))) (.mul (.mul (.num (2)) (.mul (.pow (.fn "{V_{v}}".toList [t, x, y]) (1 / 2)) (.ex (.mul (.deriv (.fn "{\\varepsilon_{u}}".toList [t, x, y, omega]) [(x, 1)]) (.deriv (.fn "{\\varepsilon_{v}}".toList [t, x, y, omega]) [(x, 1)]))))) (.pow (.fn "{V_{u}}".toList [t, x, y]) (-1 / 2)))) (.mul (.mul (.ex (.mul (.fn "{\\varepsilon_{v}}".toList [t, x, y, omega]) (.deriv (.fn "{\\varepsilon_{u}}".toList [t, x, y, omega]) [(x, 1)]))) (.deriv (.fn "{V_{v}}".toList [t, x, y]) [(x, 1)])) (.mul (.pow (.fn "{V_{u}}".toList [t, x, y]) (-1 / 2)) (.pow (.fn "{V_{v}}".toList [t, x, y]) (-1 / 2))))) (.mul (.num (-1)) (.mul (.mul (.pow (.fn "{V_{v}}".toList [t, x, y]) (1 / 2)) (.mul (.ex (.mul (.fn "{\\varepsilon_{v}}".toList [t, x, y, omega]) (.deriv (.fn "{\\varepsilon_{u}}".toList [t, x, y, omega]) [(x, 1)]))) (.deriv (.fn "{V_{u}}".toList [t, x, y]) [(x, 1)]))) (.pow (.fn "{V_{u}}".toList [t, x, y]) (-3 / 2)))))
def oscillator2Metric6 : Eqn :=
  (.deriv (.fn "{g_{u,xy}}".toList [t, x, y]) [(t, 1)],
   .add (.add (.add (.add (.add (.add (.mul (.num (-1)) (.mul (.mul (.num (2)) (.mul (.fn "V_uv".toList [t, x, y]) (.fn "{g_{u,xy}}".toList [t, x, y]))) (.pow (.fn "{V_{u}}".toList [t, x, y]) (-1)))) (.mul (.mul (.pow (.fn "{V_{v}}".toList [t, x, y]) (1 / 2)) (.ex (.mul (.deriv (.fn "{\\varepsilon_{u}}".toList [t, x, y, omega]) [(x, 1)]) (.deriv (.fn "{\\varepsilon_{v}}".toList [t, x, y, omega]) [(y, 1)])))) (.pow (.fn "{V_{u}}".toList [t, x, y]) (-1 / 2)))) (.mul (.mul (.pow (.fn "{V_{v}}".toList [t, x, y]) (1 / 2)) (.ex (.mul (.deriv (.fn "{\\varepsilon_{u}}".toList [t, x, y, omega]) [(y, 1)]) (.deriv (.fn "{\\varepsilon_{v}}".toList [t, x, y, omega]) [(x, 1)])))) (.pow (.fn "{V_{u}}".toList [t, x, y]) (-1 / 2)))) (.mul (.mul (.ex (.mul (.fn "{\\varepsilon_{v}}".toList [t, x, y, omega]) (.deriv (.fn "{\\varepsilon_{u}}".toList [t, x, y, omega]) [(x, 1)]))) (.deriv (.fn "{V_{v}}".toList [t, x, y]) [(y, 1)])) (.mul (.num (1 / 2)) (.mul (.pow (.fn "{V_{u}}".toList [t, x, y]) (-1 / 2)) (.pow (.fn "{V_{v}}".toList [t, x, y]) (-1 / 2)))))) (.mul (.mul (.ex (.mul (.fn "{\\varepsilon_{v}}".toList [t, x, y, omega]) (.deriv (.fn "{\\varepsilon_{u}}".toList [t, x, y, omega]) [(y, 1)]))) (.deriv (.fn "{V_{v}}".toList [t, x, y]) [(x, 1)])) (.mul (.num (1 / 2)) (.mul (.pow (.fn "{V_{u}}".toList [t, x, y]) (-1 / 2)) (.pow (.fn "{V_{v}}".toList [t, x, y]) (-1 / 2)))))) (.mul (.num (-1)) (.mul (.mul (.pow (.fn "{V_{v}}".toList [t, x, y]) (1 / 2)) (.mul (.ex (.mul (.fn "{\\varepsilon_{v}}".toList [t, x, y, omega]) (.deriv (.fn "{\\varepsilon_{u}}".toList [t, x, y, omega]) [(x, 1)]))) (.deriv (.fn "{V_{u}}".toList [t, x, y]) [(y, 1)]))) (.mul (.num (1 / 2)) (.pow (.fn "{V_{u}}".toList [t, x, y]) (-3 / 2)))))) (.mul (.num (-1)) (.mul (.mul (.pow (.fn "{V_{v}}".toList [t, x, y]) (1 / 2)) (.mul (.ex (.mul (.fn "{\\varepsilon_{v}}".toList [t, x, y, omega]) (.deriv (.fn "{\\varepsilon_{u}}".toList [t, x, y, omega]) [(y, 1)]))) (.deriv (.fn "{V_{u}}".toList [t, x, y]) [(x, 1)]))) (.mul (.num (1 / 2)) (.pow (.fn "{V_{u}}".toList [t, x, y]) (-3 / 2))))))
def oscillator2Metric7 : Eqn :=
  (.deriv (.fn "{g_{u,yy}}".toList [t, x, y]) [(t, 1)],
   .add (.add (.add (.mul (.num (-1)) (.mul (.mul (.num (2)) (.mul (.fn "V_uv".toList [t, x, y]) (.fn "{g_{u,yy}}".toList [t, x, y]))) (.pow (.fn "{V_{u}}".toList [t, x, y]) (-1)))) (.mul (.mul (.num (2)) (.mul (.pow (.fn "{V_{v}}".toList [t, x, y]) (1 / 2)) (.ex (.mul (.deriv (.fn "{\\varepsilon_{u}}".toList [t, x, y, omega]) [(y, 1)]) (.deriv (.fn "{\\varepsilon_{v}}".toList [t, x, y, omega]) [(y, 1)]))))) (.pow (.fn "{V_{u}}".toList [t, x, y]) (-1 / 2)))) (.mul (.mul (.ex (.mul (.fn "{\\varepsilon_{v}}".toList [t, x, y, omega]) (.deriv (.fn "{\\varepsilon_{u}}".toList [t, x, y, omega]) [(y, 1)]))) (.deriv (.fn "{V_{v}}".toList [t, x, y]) [(y, 1)])) (.mul (.pow (.fn "{V_{u}}".toList [t, x, y]) (-1 / 2)) (.pow (.fn "{V_{v}}".toList [t, x, y]) (-1 / 2))))) (.mul (.num (-1)) (.mul (.mul (.pow (.fn "{V_{v}}".toList [t, x, y]) (1 / 2)) (.mul (.ex (.mul (.fn "{\\varepsilon_{v}}".toList [t, x, y, omega]) (.deriv (.fn "{\\varepsilon_{u}}".toList [t, x, y, omega]) [(y, 1)]))) (.deriv (.fn "{V_{u}}".toList [t, x, y]) [(y, 1)]))) (.pow (.fn "{V_{u}}".toList [t, x, y]) (-3 / 2)))))
def oscillator2Metric8 : Eqn :=
  (.deriv (.fn "{g_{v,xx}}".toList [t, x, y]) [(t, 1)],
   .add (.add (.add (.mul (.mul (.num (2)) (.mul (.fn "V_uv".toList [t, x, y]) (.fn "{g_{v,xx}}".toList [t, x, y]))) (.pow (.fn "{V_{v}}".toList [t, x, y]) (-1))) (.mul (.num (-1)) (.mul (.mul (.num (2)) (.mul (.pow (.fn "{V_{u}}".toList [t, x, y]) (1 / 2)) (.ex (.mul (.deriv (.fn "{\\varepsilon_{u}}".toList [t, x, y, omega]) [(x, 1)]) (.deriv (.fn "{\\varepsilon_{v}}".toList [t, x, y, omega]) [(x, 1)]))))) (.pow (.fn "{V_{v}}".toList [t, x, y]) (-1 / 2))))) (.mul (.mul (.pow (.fn "{V_{u}}".toList [t, x, y]) (1 / 2)) (.mul (.ex (.mul (.fn "{\\varepsilon_{u}}".toList [t, x, y, omega]) (.deriv (.fn "{\\varepsilon_{v}}".toList [t, x, y, omega]) [(x, 1)]))) (.deriv (.fn "{V_{v}}".toList [t, x, y]) [(x, 1)]))) (.pow (.fn "{V_{v}}".toList [t, x, y]) (-3 / 2)))) (.mul (.num (-1)) (.mul (.mul (.ex (.mul (.fn "{\\varepsilon_{u}}".toList [t, x, y, omega]) (.deriv (.fn "{\\varepsilon_{v}}".toList [t, x, y, omega]) [(x, 1)]))) (.deriv (.fn "{V_{u}}".toList [t, x, y]) [(x, 1)])) (.mul (.pow (.fn "{V_{u}}".toList [t, x, y]) (-1 / 2)) (.pow (.fn "{V_{v}}".toList [t, x, y]) (-1 / 2))))))
def oscillator2Metric9 : Eqn :=
  (.deriv (.fn "{g_{v,xy}}".toList [t, x, y]) [(t, 1)],
   .add (.add (.add (.add (.add (.add (.mul (.mul (.num (2)) (.mul (.fn "V_uv".toList [t, x, y]) (.fn "{g_{v,xy}}".toList [t, x, y]))) (.pow (.fn "{V_{v}}".toList [t, x, y]) (-1))) (.mul (.num (-1)) (.mul (.mul (.pow (.fn "{V_{u}}".toList [t, x, y]) (1 / 2)) (.ex (.mul (.deriv (.fn "{\\varepsilon_{u}}".toList [t, x, y, omega]) [(x, 1)]) (.deriv (.fn "{\\varepsilon_{v}}".toList [t, x, y, omega]) [(y, 1)])))) (.pow (.fn "{V_{v}}".toList [t, x, y]) (-1 / 2))))) (.mul (.num (-1)) (.mul (.mul (.pow (.fn "{V_{u}}".toList [t, x, y]) (1 / 2)) (.ex (.mul (.deriv (.fn "{\\varepsilon_{u}}".toList [t, x, y, omega]) [(y, 1)]) (.deriv (.fn "{\\varepsilon_{v}}".toList [t, x, y, omega]) [(x, 1)])))) (.pow (.fn "{V_{v}}".toList [t, x, y]) (-1 / 2))))) (.mul (.mul (.pow (.fn "{V_{u}}".toList [t, x, y]) (1 / 2)) (.mul (.ex (.mul (.fn "{\\varepsilon_{u}}".toList [t, x, y, omega]) (.deriv (.fn "{\\varepsilon_{v}}".toList [t, x, y, omega]) [(x, 1)]))) (.deriv (.fn "{V_{v}}".toList [t, x, y]) [(y, 1)]))) (.mul (.num (1 / 2)) (.pow (.fn "{V_{v}}".toList [t, x, y]) (-3 / 2))))) (.mul (.mul (.pow (.fn "{V_{u}}".toList [t, x, y]) (1 / 2)) (.mul (.ex (.mul (.fn "{\\varepsilon_{u}}".toList [t, x, y, omega]) (.deriv (.fn "{\\varepsilon_{v}}".toList [t, x, y, omega]) [(y, 1)]))) (.deriv (.fn "{V_{v}}".toList [t, x, y]) [(x, 1)]))) (.mul (.num (1 / 2)) (.pow (.fn "{V_{v}}".toList [t, x, y]) (-3 / 2))))) (.mul (.num (-1)) (.mul (.mul (.ex (.mul (.fn "{\\varepsilon_{u}}".toList [t, x, y, omega]) (.deriv (.fn "{\\varepsilon_{v}}".toList [t, x, y, omega]) [(x, 1)]))) (.deriv (.fn "{V_{u}}".toList [t, x, y]) [(y, 1)])) (.mul (.num (1 / 2)) (.mul (.pow (.fn "{V_{u}}".toList [t, x, y]) (-1 / 2)) (.pow (.fn "{V_{v}}".toList [t, x, y]) (-1 / 2))))))) (.mul (.num (-1)) (.mul (.mul (.ex (.mul (.fn "{\\varepsilon_{u}}".toList [t, x, y, omega]) (.deriv (.fn "{\\varepsilon_{v}}".toList [t, x, y, omega]) [(y, 1)]))) (.deriv (.fn "{V_{u}}".toList [t, x, y]) [(x, 1)])) (.mul (.num (1 / 2)) (.mul (.pow (.fn "{V_{u}}".toList [t, x, y]) (-1 / 2)) (.pow (.fn "{V_{v}}".toList [t, x, y]) (-1 / 2)))))))
def oscillator2Metric10 : Eqn :=
  (.deriv (.fn "{g_{v,yy}}".toList [t, x, y]) [(t, 1)],
   .add (.add (.add (.mul (.mul (.num (2)) (.mul (.fn "V_uv".toList [t, x, y]) (.fn "{g_{v,yy}}".toList [t, x, y]))) (.pow (.fn "{V_{v}}".toList [t, x, y]) (-1))) (.mul (.num (-1)) (.mul (.mul (.num (2)) (.mul (.pow (.fn "{V_{u}}".toList [t, x, y]) (1 / 2)) (.ex (.mul (.deriv (.fn "{\\varepsilon_{u}}".toList [t, x, y, omega]) [(y, 1)]) (.deriv (.fn "{\\varepsilon_{v}}".toList [t, x, y, omega]) [(y, 1)]))))) (.pow (.fn "{V_{v}}".toList [t, x, y]) (-1 / 2))))) (.mul (.mul (.pow (.fn "{V_{u}}".toList [t, x, y]) (1 / 2)) (.mul (.ex (.mul (.fn "{\\varepsilon_{u}}".toList [t, x, y, omega]) (.deriv (.fn "{\\varepsilon_{v}}".toList [t, x, y, omega]) [(y, 1)]))) (.deriv (.fn "{V_{v}}".toList [t, x, y]) [(y, 1)]))) (.pow (.fn "{V_{v}}".toList [t, x, y]) (-3 / 2)))) (.mul (.num (-1)) (.mul (.mul (.ex (.mul (.fn "{\\varepsilon_{u}}".toList [t, x, y, omega]) (.deriv (.fn "{\\varepsilon_{v}}".toList [t, x, y, omega]) [(y, 1)]))) (.deriv (.fn "{V_{u}}".toList [t, x, y]) [(y, 1)])) (.mul (.pow (.fn "{V_{u}}".toList [t, x, y]) (-1 / 2)) (.pow (.fn "{V_{v}}".toList [t, x, y]) (-1 / 2))))))
def oscillator2Metric : List Eqn := [oscillator2Metric0, oscillator2Metric1, oscillator2Metric2, oscillator2Metric3, oscillator2Metric4, oscillator2Metric5, oscillator2Metric6, oscillator2Metric7, oscillator2Metric8, oscillator2Metric9, oscillator2Metric10]

/-! Cell 11 of example/PKF on 1D chemical transport model.ipynb. -/

def chemistryMetric0 : Eqn :=
  (.deriv (.fn "A".toList [t, x]) [(t, 1)],
   .fn "B".toList [t, x])
def chemistryMetric1 : Eqn :=
  (.deriv (.fn "B".toList [t, x]) [(t, 1)],
   .mul (.num (-1)) (.fn "A".toList [t, x]))
def chemistryMetric2 : Eqn :=
  (.deriv (.fn "{V_{A}}".toList [t, x]) [(t, 1)],
   .mul (.num (2)) (.fn "V_AB".toList [t, x]))
def chemistryMetric3 : Eqn :=
  (.deriv (.fn "{V_{B}}".toList [t, x]) [(t, 1)],
   .mul (.num (-1)) (.mul (.num (2)) (.fn "V_AB".toList [t, x])))
def chemistryMetric4 : Eqn :=
  (.deriv (.fn "V_AB".toList [t, x]) [(t, 1)],
   .add (.mul (.num (-1)) (.fn "{V_{A}}".toList [t, x])) (.fn "{V_{B}}".toList [t, x]))
def chemistryMetric5 : Eqn :=
  (.deriv (.fn "{g_{A,xx}}".toList [t, x]) [(t, 1)],
   .add (.add (.add (.mul (.num (-1)) (.mul (.mul (.num (2)) (.mul (.fn "V_AB".toList [t, x]) (.fn "{g_{A,xx}}".toList [t, x]))) (.pow (.fn "{V_{A}}".toList [t, x]) (-1)))) (.mul (.mul (.num (2)) (.mul (.pow (.fn "{V_{B}}".toList [t, x]) (1 / 2)) (.ex (.mul (.deriv (.fn "{\\varepsilon_{A}}".toList [t, x, omega]) [(x, 1)]) (.deriv (.fn "{\\varepsilon_{B}}".toList [t, x, omega]) [(x, 1)]))))) (.pow (.fn "{V_{A}}".toList [t, x]) (-1 / 2)))) (.mul (.mul (.ex (.mul (.fn "{\\varepsilon_{B}}".toList [t, x, omega]) (.deriv (.fn "{\\varepsilon_{A}}".toList [t, x, omega]) [(x, 1)]))) (.deriv (.fn "{V_{B}}".toList [t, x]) [(x, 1)])) (.mul (.pow (.fn "{V_{A}}".toList [t, x]) (-1 / 2)) (.pow (.fn "{V_{B}}".toList [t, x]) (-1 / 2))))) (.mul (.num (-1)) (.mul (.mul (.pow (.fn "{V_{B}}".toList [t, x]) (1 / 2)) (.mul (.ex (.mul (.fn "{\\varepsilon_{B}}".toList [t, x, omega]) (.deriv (.fn "{\\varepsilon_{A}}".toList [t, x, omega]) [(x, 1)]))) (.deriv (.fn "{V_{A}}".toList [t, x]) [(x, 1)]))) (.pow (.fn "{V_{A}}".toList [t, x]) (-3 / 2)))))
def chemistryMetric6 : Eqn :=
  (.deriv (.fn "{g_{B,xx}}".toList [t, x]) [(t, 1)],
   .add (.add (.add (.mul (.mul (.num (2)) (.mul (.fn "V_AB".toList [t, x]) (.fn "{g_{B,xx}}".toList [t, x]))) (.pow (.fn "{V_{B}}".toList [t, x]) (-1))) (.mul (.num (-1)) (.mul (.mul (.num (2)) (.mul (.pow (.fn "{V_{A}}".toList [t, x]) (1 / 2)) (.ex (.mul (.deriv (.fn "{\\varepsilon_{A}}".toList [t, x, omega]) [(x, 1)]) (.deriv (.fn "{\\varepsilon_{B}}".toList [t, x, omega]) [(x, 1)]))))) (.pow (.fn "{V_{B}}".toList [t, x]) (-1 / 2))))) (.mul (.mul (.pow (.fn "{V_{A}}".toList [t, x]) (1 / 2)) (.mul (.ex (.mul (.fn "{\\varepsilon_{A}}".toList [t, x, omega]) (.deriv (.fn "{\\varepsilon_{B}}".toList [t, x, omega]) [(x, 1)]))) (.deriv (.fn "{V_{B}}".toList [t, x]) [(x, 1)]))) (.pow (.fn "{V_{B}}".toList [t, x]) (-3 / 2)))) (.mul (.num (-1)) (.mul (.mul (.ex (.mul (.fn "{\\varepsilon_{A}}".toList [t, x, omega]) (.deriv (.fn "{\\varepsilon_{B}}".toList [t, x, omega]) [(x, 1)]))) (.deriv (.fn "{V_{A}}".toList [t, x]) [(x, 1)])) (.mul (.pow (.fn "{V_{A}}".toList [t, x]) (-1 / 2)) (.pow (.fn "{V_{B}}".toList [t, x]) (-1 / 2))))))
def chemistryMetric : List Eqn := [chemistryMetric0, chemistryMetric1, chemistryMetric2, chemistryMetric3, chemistryMetric4, chemistryMetric5, chemistryMetric6]

/-! Cell 15 of example/PKF on 1D chemical transport model.ipynb. -/

def transportMetric0 : Eqn :=
  (.deriv (.fn "A".toList [t, x]) [(t, 1)],
   .add (.fn "B".toList [t, x]) (.mul (.num (-1)) (.mul (.fn "u".toList [x]) (.deriv (.fn "A".toList [t, x]) [(x, 1)]))))
def transportMetric1 : Eqn :=
  (.deriv (.fn "B".toList [t, x]) [(t, 1)],
   .add (.mul (.num (-1)) (.fn "A".toList [t, x])) (.mul (.num (-1)) (.mul (.fn "u".toList [x]) (.deriv (.fn "B".toList [t, x]) [(x, 1)]))))
def transportMetric2 : Eqn :=
  (.deriv (.fn "{V_{A}}".toList [t, x]) [(t, 1)],
   .add (.mul (.num (2)) (.fn "V_AB".toList [t, x])) (.mul (.num (-1)) (.mul (.fn "u".toList [x]) (.deriv (.fn "{V_{A}}".toList [t, x]) [(x, 1)]))))
def transportMetric3 : Eqn :=
  (.deriv (.fn "{V_{B}}".toList [t, x]) [(t, 1)],
   .add (.mul (.num (-1)) (.mul (.num (2)) (.fn "V_AB".toList [t, x]))) (.mul (.num (-1)) (.mul (.fn "u".toList [x]) (.deriv (.fn "{V_{B}}".toList [t, x]) [(x, 1)]))))
def transportMetric4 : Eqn :=
  (.deriv (.fn "V_AB".toList [t, x]) [(t, 1)],
   .add (.add (.add (.add (.add (.mul (.num (-1)) (.mul (.mul (.fn "V_AB".toList [t, x]) (.mul (.fn "u".toList [x]) (.deriv (.fn "{V_{B}}".toList [t, x]) [(x, 1)]))) (.mul (.num (1 / 2)) (.pow (.fn "{V_{B}}".toList [t, x]) (-1))))) (.mul (.num (-1)) (.mul (.mul (.fn "V_AB".toList [t, x]) (.mul (.fn "u".toList [x]) (.deriv (.fn "{V_{A}}".toList [t, x]) [(x, 1)]))) (.mul (.num (1 / 2)) (.pow (.fn "{V_{A}}".toList [t, x]) (-1)))))) (.mul (.num (-1)) (.mul (.fn "u".toList [x]) (.mul (.pow (.fn "{V_{A}}".toList [t, x]) (1 / 2)) (.mul (.pow (.fn "{V_{B}}".toList [t, x]) (1 / 2)) (.ex (.mul (.fn "{\\varepsilon_{A}}".toList [t, x, omega]) (.deriv (.fn "{\\varepsilon_{B}}".toList [t, x, omega]) [(x, 1)])))))))) (.mul (.num (-1)) (.mul (.fn "u".toList [x]) (.mul (.pow (.fn "{V_{A}}".toList [t, x]) (1 / 2)) (.mul (.pow (.fn "{V_{B}}".toList [t, x]) (1 / 2)) (.ex (.mul (.fn "{\\varepsilon_{B}}".toList [t, x, omega]) (.deriv (.fn "{\\varepsilon_{A}}".toList [t, x, omega]) [(x, 1)])))))))) (.mul (.num (-1)) (.fn "{V_{A}}".toList [t, x]))) (.fn "{V_{B}}".toList [t, x]))
def transportMetric5 : Eqn :=
  (.deriv (.fn "{g_{A,xx}}".toList [t, x]) [(t, 1)],
   .add (.add (.add (.add (.add (.mul (.num (-1)) (.mul (.mul (.num (2)) (.mul (.fn "V_AB".toList [t, x]) (.fn "{g_{A,xx}}".toList [t, x]))) (.pow (.fn "{V_{A}}".toList [t, x]) (-1)))) (.mul (.num (-1)) (.mul (.fn "u".toList [x]) (.deriv (.fn "{g_{A,xx}}".toList [t, x]) [(x, 1)])))) (.mul (.num (-1)) (.mul (.num (2)) (.mul (.fn "{g_{A,xx}}".toList [t, x]) (.deriv (.fn "u".toList [x]) [(x, 1)]))))) (.mul (.mul (.num (2)) (.mul (.pow (.fn "{V_{B}}".toList [t, x]) (1 / 2)) (.ex (.mul (.deriv (.fn "{\\varepsilon_{A}}".toList [t, x, omega]) [(x, 1)]) (.deriv (.fn "{\\varepsilon_{B}}".toList [t, x, omega]) [(x, 1)]))))) (.pow (.fn "{V_{A}}".toList [t, x]) (-1 / 2)))) (.mul (.mul (.ex (.mul (.fn "{\\varepsilon_{B}}".toList [t, x, omega]) (.deriv (.fn "{\\varepsilon_{A}}".toList [t, x, omega]) [(x, 1)]))) (.deriv (.fn "{V_{B}}".toList [t, x]) [(x, 1)])) (.mul (.pow (.fn "{V_{A}}".toList [t, x]) (-1 / 2)) (.pow (.fn "{V_{B}}".toList [t, x]) (-1 / 2))))) (.mul (.num (-1)) (.mul (.mul (.pow (.fn "{V_{B}}".toList [t, x]) (1 / 2)) (.mul (.ex (.mul (.fn "{\\varepsilon_{B}}".toList [t, x, omega]) (.deriv (.fn "{\\varepsilon_{A}}".toList [t, x, omega]) [(x, 1)]))) (.deriv (.fn "{V_{A}}".toList [t, x]) [(x, 1)]))) (.pow (.fn "{V_{A}}".toList [t, x]) (-3 / 2)))))
def transportMetric6 : Eqn :=
  (.deriv (.fn "{g_{B,xx}}".toList [t, x]) [(t, 1)],
   .add (.add (.add (.add (.add (.mul (.mul (.num (2)) (.mul (.fn "V_AB".toList [t, x]) (.fn "{g_{B,xx}}".toList [t, x]))) (.pow (.fn "{V_{B}}".toList [t, x]) (-1))) (.mul (.num (-1)) (.mul (.fn "u".toList [x]) (.deriv (.fn "{g_{B,xx}}".toList [t, x]) [(x, 1)])))) (.mul (.num (-1)) (.mul (.mul (.num (2)) (.mul (.pow (.fn "{V_{A}}".toList [t, x]) (1 / 2)) (.ex (.mul (.deriv (.fn "{\\varepsilon_{A}}".toList [t, x, omega]) [(x, 1)]) (.deriv (.fn "{\\varepsilon_{B}}".toList [t, x, omega]) [(x, 1)]))))) (.pow (.fn "{V_{B}}".toList [t, x]) (-1 / 2))))) (.mul (.mul (.pow (.fn "{V_{A}}".toList [t, x]) (1 / 2)) (.mul (.ex (.mul (.fn "{\\varepsilon_{A}}".toList [t, x, omega]) (.deriv (.fn "{\\varepsilon_{B}}".toList [t, x, omega]) [(x, 1)]))) (.deriv (.fn "{V_{B}}".toList [t, x]) [(x, 1)]))) (.pow (.fn "{V_{B}}".toList [t, x]) (-3 / 2)))) (.mul (.num (-1)) (.mul (.num (2)) (.mul (.fn "{g_{B,xx}}".toList [t, x]) (.deriv (.fn "u".toList [x]) [(x, 1)]))))) (.mul (.num (-1)) (.mul (.mul (.ex (.mul (.fn "{\\varepsilon_{A}}".toList [t, x, omega]) (.deriv (.fn "{\\varepsilon_{B}}".toList [t, x, omega]) [(x, 1)]))) (.deriv (.fn "{V_{A}}".toList [t, x]) [(x, 1)])) (.mul (.pow (.fn "{V_{A}}".toList [t, x]) (-1 / 2)) (.pow (.fn "{V_{B}}".toList [t, x]) (-1 / 2))))))
def transportMetric : List Eqn := [transportMetric0, transportMetric1, transportMetric2, transportMetric3, transportMetric4, transportMetric5, transportMetric6]

/-! Cell 17 of example/PKF on 1D chemical transport model.ipynb. -/

def transportAspect0 : Eqn :=
  (.deriv (.fn "A".toList [t, x]) [(t, 1)],
   .add (.fn "B".toList [t, x]) (.mul (.num (-1)) (.mul (.fn "u".toList [x]) (.deriv (.fn "A".toList [t, x]) [(x, 1)]))))
def transportAspect1 : Eqn :=
  (.deriv (.fn "B".toList [t, x]) [(t, 1)],
   .add (.mul (.num (-1)) (.fn "A".toList [t, x])) (.mul (.num (-1)) (.mul (.fn "u".toList [x]) (.deriv (.fn "B".toList [t, x]) [(x, 1)]))))
def transportAspect2 : Eqn :=
  (.deriv (.fn "{V_{A}}".toList [t, x]) [(t, 1)],
   .add (.mul (.num (2)) (.fn "V_AB".toList [t, x])) (.mul (.num (-1)) (.mul (.fn "u".toList [x]) (.deriv (.fn "{V_{A}}".toList [t, x]) [(x, 1)]))))
def transportAspect3 : Eqn :=
  (.deriv (.fn "{V_{B}}".toList [t, x]) [(t, 1)],
   .add (.mul (.num (-1)) (.mul (.num (2)) (.fn "V_AB".toList [t, x]))) (.mul (.num (-1)) (.mul (.fn "u".toList [x]) (.deriv (.fn "{V_{B}}".toList [t, x]) [(x, 1)]))))
def transportAspect4 : Eqn :=
  (.deriv (.fn "V_AB".toList [t, x]) [(t, 1)],
   .add (.add (.add (.add (.add (.mul (.num (-1)) (.mul (.mul (.fn "V_AB".toList [t, x]) (.mul (.fn "u".toList [x]) (.deriv (.fn "{V_{B}}".toList [t, x]) [(x, 1)]))) (.mul (.num (1 / 2)) (.pow (.fn "{V_{B}}".toList [t, x]) (-1))))) (.mul (.num (-1)) (.mul (.mul (.fn "V_AB".toList [t, x]) (.mul (.fn "u".toList [x]) (.deriv (.fn "{V_{A}}".toList [t, x]) [(x, 1)]))) (.mul (.num (1 / 2)) (.pow (.fn "{V_{A}}".toList [t, x]) (-1)))))) (.mul (.num (-1)) (.mul (.fn "u".toList [x]) (.mul (.pow (.fn "{V_{A}}".toList [t, x]) (1 / 2)) (.mul (.pow (.fn "{V_{B}}".toList [t, x]) (1 / 2)) (.ex (.mul (.fn "{\\varepsilon_{A}}".toList [t, x, omega]) (.deriv (.fn "{\\varepsilon_{B}}".toList [t, x, omega]) [(x, 1)])))))))) (.mul (.num (-1)) (.mul (.fn "u".toList [x]) (.mul (.pow (.fn "{V_{A}}".toList [t, x]) (1 / 2)) (.mul (.pow (.fn "{V_{B}}".toList [t, x]) (1 / 2)) (.ex (.mul (.fn "{\\varepsilon_{B}}".toList [t, x, omega]) (.deriv (.fn "{\\varepsilon_{A}}".toList [t, x, omega]) [(x, 1)])))))))) (.mul (.num (-1)) (.fn "{V_{A}}".toList [t, x]))) (.fn "{V_{B}}".toList [t, x]))
def transportAspect5 : Eqn :=
  (.deriv (.fn "{s_{A,xx}}".toList [t, x]) [(t, 1)],
   .add (.add (.add (.add (.add (.mul (.mul (.num (2)) (.mul (.fn "V_AB".toList [t, x]) (.fn "{s_{A,xx}}".toList [t, x]))) (.pow (.fn "{V_{A}}".toList [t, x]) (-1))) (.mul (.num (-1)) (.mul (.fn "u".toList [x]) (.deriv (.fn "{s_{A,xx}}".toList [t, x]) [(x, 1)])))) (.mul (.num (2)) (.mul (.fn "{s_{A,xx}}".toList [t, x]) (.deriv (.fn "u".toList [x]) [(x, 1)])))) (.mul (.num (-1)) (.mul (.mul (.num (2)) (.mul (.pow (.fn "{V_{B}}".toList [t, x]) (1 / 2)) (.mul (.pow (.fn "{s_{A,xx}}".toList [t, x]) (2)) (.ex (.mul (.deriv (.fn "{\\varepsilon_{A}}".toList [t, x, omega]) [(x, 1)]) (.deriv (.fn "{\\varepsilon_{B}}".toList [t, x, omega]) [(x, 1)])))))) (.pow (.fn "{V_{A}}".toList [t, x]) (-1 / 2))))) (.mul (.num (-1)) (.mul (.mul (.pow (.fn "{s_{A,xx}}".toList [t, x]) (2)) (.mul (.ex (.mul (.fn "{\\varepsilon_{B}}".toList [t, x, omega]) (.deriv (.fn "{\\varepsilon_{A}}".toList [t, x, omega]) [(x, 1)]))) (.deriv (.fn "{V_{B}}".toList [t, x]) [(x, 1)]))) (.mul (.pow (.fn "{V_{A}}".toList [t, x]) (-1 / 2)) (.pow (.fn "{V_{B}}".toList [t, x]) (-1 / 2)))))) (.mul (.mul (.pow (.fn "{V_{B}}".toList [t, x]) (1 / 2)) (.mul (.pow (.fn "{s_{A,xx}}".toList [t, x]) (2)) (.mul (.ex (.mul (.fn "{\\varepsilon_{B}}".toList [t, x, omega]) (.deriv (.fn "{\\varepsilon_{A}}".toList [t, x, omega]) [(x, 1)]))) (.deriv (.fn "{V_{A}}".toList [t, x]) [(x, 1)])))) (.pow (.fn "{V_{A}}".toList [t, x]) (-3 / 2))))
def transportAspect6 : Eqn :=
  (.deriv (.fn "{s_{B,xx}}".toList [t, x]) [(t, 1)],
   .add (.add (.add (.add (.add (.mul (.num (-1)) (.mul (.mul (.num (2)) (.mul (.fn "V_AB".toList [t, x]) (.fn "{s_{B,xx}}".toList [t, x]))) (.pow (.fn "{V_{B}}".toList [t, x]) (-1)))) (.mul (.num (-1)) (.mul (.fn "u".toList [x]) (.deriv (.fn "{s_{B,xx}}".toList [t, x]) [(x, 1)])))) (.mul (.mul (.num (2)) (.mul (.pow (.fn "{V_{A}}".toList [t, x]) (1 / 2)) (.mul (.pow (.fn "{s_{B,xx}}".toList [t, x]) (2)) (.ex (.mul (.deriv (.fn "{\\varepsilon_{A}}".toList [t, x, omega]) [(x, 1)]) (.deriv (.fn "{\\varepsilon_{B}}".toList [t, x, omega]) [(x, 1)])))))) (.pow (.fn "{V_{B}}".toList [t, x]) (-1 / 2)))) (.mul (.num (-1)) (.mul (.mul (.pow (.fn "{V_{A}}".toList [t, x]) (1 / 2)) (.mul (.pow (.fn "{s_{B,xx}}".toList [t, x]) (2)) (.mul (.ex (.mul (.fn "{\\varepsilon_{A}}".toList [t, x, omega]) (.deriv (.fn "{\\varepsilon_{B}}".toList [t, x, omega]) [(x, 1)]))) (.deriv (.fn "{V_{B}}".toList [t, x]) [(x, 1)])))) (.pow (.fn "{V_{B}}".toList [t, x]) (-3 / 2))))) (.mul (.num (2)) (.mul (.fn "{s_{B,xx}}".toList [t, x]) (.deriv (.fn "u".toList [x]) [(x, 1)])))) (.mul (.mul (.pow (.fn "{s_{B,xx}}".toList [t, x]) (2)) (.mul (.ex (.mul (.fn "{\\varepsilon_{A}}".toList [t, x, omega]) (.deriv (.fn "{\\varepsilon_{B}}".toList [t, x, omega]) [(x, 1)]))) (.deriv (.fn "{V_{A}}".toList [t, x]) [(x, 1)]))) (.mul (.pow (.fn "{V_{A}}".toList [t, x]) (-1 / 2)) (.pow (.fn "{V_{B}}".toList [t, x]) (-1 / 2)))))
def transportAspect : List Eqn := [transportAspect0, transportAspect1, transportAspect2, transportAspect3, transportAspect4, transportAspect5, transportAspect6]

/-! Cell 15 of example/PKF on Burgers.ipynb. -/

def burgersMetric0 : Eqn :=
  (.deriv (.fn "u".toList [t, x]) [(t, 1)],
   .add (.add (.mul (.sym "kappa".toList) (.deriv (.fn "u".toList [t, x]) [(x, 2)])) (.mul (.num (-1)) (.mul (.fn "u".toList [t, x]) (.deriv (.fn "u".toList [t, x]) [(x, 1)])))) (.mul (.num (-1)) (.mul (.deriv (.fn "{V_{u}}".toList [t, x]) [(x, 1)]) (.num (1 / 2)))))
def burgersMetric1 : Eqn :=
  (.deriv (.fn "{V_{u}}".toList [t, x]) [(t, 1)],
   .add (.add (.add (.add (.mul (.num (-1)) (.mul (.num (2)) (.mul (.sym "kappa".toList) (.mul (.fn "{V_{u}}".toList [t, x]) (.fn "{g_{u,xx}}".toList [t, x]))))) (.mul (.sym "kappa".toList) (.deriv (.fn "{V_{u}}".toList [t, x]) [(x, 2)]))) (.mul (.num (-1)) (.mul (.mul (.sym "kappa".toList) (.pow (.deriv (.fn "{V_{u}}".toList [t, x]) [(x, 1)]) (2))) (.mul (.num (1 / 2)) (.pow (.fn "{V_{u}}".toList [t, x]) (-1)))))) (.mul (.num (-1)) (.mul (.fn "u".toList [t, x]) (.deriv (.fn "{V_{u}}".toList [t, x]) [(x, 1)])))) (.mul (.num (-1)) (.mul (.num (2)) (.mul (.fn "{V_{u}}".toList [t, x]) (.deriv (.fn "u".toList [t, x]) [(x, 1)])))))
def burgersMetric2 : Eqn :=
  (.deriv (.fn "{g_{u,xx}}".toList [t, x]) [(t, 1)],
   .add (.add (.add (.add (.add (.add (.add (.mul (.num (2)) (.mul (.sym "kappa".toList) (.pow (.fn "{g_{u,xx}}".toList [t, x]) (2)))) (.mul (.num (-1)) (.mul (.num (2)) (.mul (.sym "kappa".toList) (.ex (.mul (.fn "{\\varepsilon_{u}}".toList [t, x, omega]) (.deriv (.fn "{\\varepsilon_{u}}".toList [t, x, omega]) [(x, 4)]))))))) (.mul (.num (-1)) (.mul (.num (3)) (.mul (.sym "kappa".toList) (.deriv (.fn "{g_{u,xx}}".toList [t, x]) [(x, 2)]))))) (.mul (.mul (.num (2)) (.mul (.sym "kappa".toList) (.mul (.fn "{g_{u,xx}}".toList [t, x]) (.deriv (.fn "{V_{u}}".toList [t, x]) [(x, 2)])))) (.pow (.fn "{V_{u}}".toList [t, x]) (-1)))) (.mul (.mul (.sym "kappa".toList) (.mul (.deriv (.fn "{V_{u}}".toList [t, x]) [(x, 1)]) (.deriv (.fn "{g_{u,xx}}".toList [t, x]) [(x, 1)]))) (.pow (.fn "{V_{u}}".toList [t, x]) (-1)))) (.mul (.num (-1)) (.mul (.mul (.num (2)) (.mul (.sym "kappa".toList) (.mul (.fn "{g_{u,xx}}".toList [t, x]) (.pow (.deriv (.fn "{V_{u}}".toList [t, x]) [(x, 1)]) (2))))) (.pow (.fn "{V_{u}}".toList [t, x]) (-2))))) (.mul (.num (-1)) (.mul (.fn "u".toList [t, x]) (.deriv (.fn "{g_{u,xx}}".toList [t, x]) [(x, 1)])))) (.mul (.num (-1)) (.mul (.num (2)) (.mul (.fn "{g_{u,xx}}".toList [t, x]) (.deriv (.fn "u".toList [t, x]) [(x, 1)])))))
def burgersMetric : List Eqn := [burgersMetric0, burgersMetric1, burgersMetric2]

/-! Cell 16 of example/PKF on Burgers.ipynb. -/

def burgersAspect0 : Eqn :=
  (.deriv (.fn "u".toList [t, x]) [(t, 1)],
   .add (.add (.mul (.sym "kappa".toList) (.deriv (.fn "u".toList [t, x]) [(x, 2)])) (.mul (.num (-1)) (.mul (.fn "u".toList [t, x]) (.deriv (.fn "u".toList [t, x]) [(x, 1)])))) (.mul (.num (-1)) (.mul (.deriv (.fn "{V_{u}}".toList [t, x]) [(x, 1)]) (.num (1 / 2)))))
def burgersAspect1 : Eqn :=
  (.deriv (.fn "{V_{u}}".toList [t, x]) [(t, 1)],
   .add (.add (.add (.add (.mul (.num (-1)) (.mul (.mul (.num (2)) (.mul (.sym "kappa".toList) (.fn "{V_{u}}".toList [t, x]))) (.pow (.fn "{s_{u,xx}}".toList [t, x]) (-1)))) (.mul (.sym "kappa".toList) (.deriv (.fn "{V_{u}}".toList [t, x]) [(x, 2)]))) (.mul (.num (-1)) (.mul (.mul (.sym "kappa".toList) (.pow (.deriv (.fn "{V_{u}}".toList [t, x]) [(x, 1)]) (2))) (.mul (.num (1 / 2)) (.pow (.fn "{V_{u}}".toList [t, x]) (-1)))))) (.mul (.num (-1)) (.mul (.fn "u".toList [t, x]) (.deriv (.fn "{V_{u}}".toList [t, x]) [(x, 1)])))) (.mul (.num (-1)) (.mul (.num (2)) (.mul (.fn "{V_{u}}".toList [t, x]) (.deriv (.fn "u".toList [t, x]) [(x, 1)])))))
def burgersAspect2 : Eqn :=
  (.deriv (.fn "{s_{u,xx}}".toList [t, x]) [(t, 1)],
   .add (.add (.add (.add (.add (.add (.add (.add (.mul (.num (2)) (.mul (.sym "kappa".toList) (.mul (.pow (.fn "{s_{u,xx}}".toList [t, x]) (2)) (.ex (.mul (.fn "{\\varepsilon_{u}}".toList [t, x, omega]) (.deriv (.fn "{\\varepsilon_{u}}".toList [t, x, omega]) [(x, 4)])))))) (.mul (.num (-1)) (.mul (.num (3)) (.mul (.sym "kappa".toList) (.deriv (.fn "{s_{u,xx}}".toList [t, x]) [(x, 2)]))))) (.mul (.num (-1)) (.mul (.num (2)) (.sym "kappa".toList)))) (.mul (.mul (.num (6)) (.mul (.sym "kappa".toList) (.pow (.deriv (.fn "{s_{u,xx}}".toList [t, x]) [(x, 1)]) (2)))) (.pow (.fn "{s_{u,xx}}".toList [t, x]) (-1)))) (.mul (.num (-1)) (.mul (.mul (.num (2)) (.mul (.sym "kappa".toList) (.mul (.fn "{s_{u,xx}}".toList [t, x]) (.deriv (.fn "{V_{u}}".toList [t, x]) [(x, 2)])))) (.pow (.fn "{V_{u}}".toList [t, x]) (-1))))) (.mul (.mul (.sym "kappa".toList) (.mul (.deriv (.fn "{V_{u}}".toList [t, x]) [(x, 1)]) (.deriv (.fn "{s_{u,xx}}".toList [t, x]) [(x, 1)]))) (.pow (.fn "{V_{u}}".toList [t, x]) (-1)))) (.mul (.mul (.num (2)) (.mul (.sym "kappa".toList) (.mul (.fn "{s_{u,xx}}".toList [t, x]) (.pow (.deriv (.fn "{V_{u}}".toList [t, x]) [(x, 1)]) (2))))) (.pow (.fn "{V_{u}}".toList [t, x]) (-2)))) (.mul (.num (-1)) (.mul (.fn "u".toList [t, x]) (.deriv (.fn "{s_{u,xx}}".toList [t, x]) [(x, 1)])))) (.mul (.num (2)) (.mul (.fn "{s_{u,xx}}".toList [t, x]) (.deriv (.fn "u".toList [t, x]) [(x, 1)]))))
def burgersAspect : List Eqn := [burgersAspect0, burgersAspect1, burgersAspect2]

/-! Cell 20 of example/PKF on Burgers.ipynb. -/

def nonlinearAspect0 : Eqn :=
  (.deriv (.fn "u".toList [t, x]) [(t, 1)],
   .add (.mul (.num (-1)) (.mul (.fn "u".toList [t, x]) (.deriv (.fn "u".toList [t, x]) [(x, 1)]))) (.mul (.num (-1)) (.mul (.deriv (.fn "{V_{u}}".toList [t, x]) [(x, 1)]) (.num (1 / 2)))))
def nonlinearAspect1 : Eqn :=
  (.deriv (.fn "{V_{u}}".toList [t, x]) [(t, 1)],
   .add (.mul (.num (-1)) (.mul (.fn "u".toList [t, x]) (.deriv (.fn "{V_{u}}".toList [t, x]) [(x, 1)]))) (.mul (.num (-1)) (.mul (.num (2)) (.mul (.fn "{V_{u}}".toList [t, x]) (.deriv (.fn "u".toList [t, x]) [(x, 1)])))))
def nonlinearAspect2 : Eqn :=
  (.deriv (.fn "{s_{u,xx}}".toList [t, x]) [(t, 1)],
   .add (.mul (.num (-1)) (.mul (.fn "u".toList [t, x]) (.deriv (.fn "{s_{u,xx}}".toList [t, x]) [(x, 1)]))) (.mul (.num (2)) (.mul (.fn "{s_{u,xx}}".toList [t, x]) (.deriv (.fn "u".toList [t, x]) [(x, 1)]))))
def nonlinearAspect : List Eqn := [nonlinearAspect0, nonlinearAspect1, nonlinearAspect2]

/-! Cell 21 of example/PKF on Burgers.ipynb. -/

def diffusionAspect0 : Eqn :=
  (.deriv (.fn "u".toList [t, x]) [(t, 1)],
   .mul (.sym "kappa".toList) (.deriv (.fn "u".toList [t, x]) [(x, 2)]))
def diffusionAspect1 : Eqn :=
  (.deriv (.fn "{V_{u}}".toList [t, x]) [(t, 1)],
   .add (.add (.mul (.num (-1)) (.mul (.mul (.num (2)) (.mul (.sym "kappa".toList) (.fn "{V_{u}}".toList [t, x]))) (.pow (.fn "{s_{u,xx}}".toList [t, x]) (-1)))) (.mul (.sym "kappa".toList) (.deriv (.fn "{V_{u}}".toList [t, x]) [(x, 2)]))) (.mul (.num (-1)) (.mul (.mul (.sym "kappa".toList) (.pow (.deriv (.fn "{V_{u}}".toList [t, x]) [(x, 1)]) (2))) (.mul (.num (1 / 2)) (.pow (.fn "{V_{u}}".toList [t, x]) (-1))))))
def diffusionAspect2 : Eqn :=
  (.deriv (.fn "{s_{u,xx}}".toList [t, x]) [(t, 1)],
   .add (.add (.add (.add (.add (.add (.mul (.num (2)) (.mul (.sym "kappa".toList) (.mul (.pow (.fn "{s_{u,xx}}".toList [t, x]) (2)) (.ex (.mul (.fn "{\\varepsilon_{u}}".toList [t, x, omega]) (.deriv (.fn "{\\varepsilon_{u}}".toList [t, x, omega]) [(x, 4)])))))) (.mul (.num (-1)) (.mul (.num (3)) (.mul (.sym "kappa".toList) (.deriv (.fn "{s_{u,xx}}".toList [t, x]) [(x, 2)]))))) (.mul (.num (-1)) (.mul (.num (2)) (.sym "kappa".toList)))) (.mul (.mul (.num (6)) (.mul (.sym "kappa".toList) (.pow (.deriv (.fn "{s_{u,xx}}".toList [t, x]) [(x, 1)]) (2)))) (.pow (.fn "{s_{u,xx}}".toList [t, x]) (-1)))) (.mul (.num (-1)) (.mul (.mul (.num (2)) (.mul (.sym "kappa".toList) (.mul (.fn "{s_{u,xx}}".toList [t, x]) (.deriv (.fn "{V_{u}}".toList [t, x]) [(x, 2)])))) (.pow (.fn "{V_{u}}".toList [t, x]) (-1))))) (.mul (.mul (.sym "kappa".toList) (.mul (.deriv (.fn "{V_{u}}".toList [t, x]) [(x, 1)]) (.deriv (.fn "{s_{u,xx}}".toList [t, x]) [(x, 1)]))) (.pow (.fn "{V_{u}}".toList [t, x]) (-1)))) (.mul (.mul (.num (2)) (.mul (.sym "kappa".toList) (.mul (.fn "{s_{u,xx}}".toList [t, x]) (.pow (.deriv (.fn "{V_{u}}".toList [t, x]) [(x, 1)]) (2))))) (.pow (.fn "{V_{u}}".toList [t, x]) (-2))))
def diffusionAspect : List Eqn := [diffusionAspect0, diffusionAspect1, diffusionAspect2]

/-! Cell 25 of example/PKF on Burgers.ipynb. -/

def burgersTree0 : Eqn :=
  (.ex (.pow (.deriv (.fn "{\\varepsilon_{u}}".toList [t, x, omega]) [(x, 1)]) (2)),
   .fn "{g_{u,xx}}".toList [t, x])
def burgersTree1 : Eqn :=
  (.ex (.mul (.deriv (.fn "{\\varepsilon_{u}}".toList [t, x, omega]) [(x, 1)]) (.deriv (.fn "{\\varepsilon_{u}}".toList [t, x, omega]) [(x, 2)])),
   .mul (.deriv (.fn "{g_{u,xx}}".toList [t, x]) [(x, 1)]) (.num (1 / 2)))
def burgersTree2 : Eqn :=
  (.ex (.mul (.deriv (.fn "{\\varepsilon_{u}}".toList [t, x, omega]) [(x, 1)]) (.deriv (.fn "{\\varepsilon_{u}}".toList [t, x, omega]) [(x, 3)])),
   .add (.mul (.num (-1)) (.ex (.mul (.fn "{\\varepsilon_{u}}".toList [t, x, omega]) (.deriv (.fn "{\\varepsilon_{u}}".toList [t, x, omega]) [(x, 4)])))) (.mul (.num (-1)) (.mul (.mul (.num (3)) (.deriv (.fn "{g_{u,xx}}".toList [t, x]) [(x, 2)])) (.num (1 / 2)))))
def burgersTree3 : Eqn :=
  (.ex (.pow (.deriv (.fn "{\\varepsilon_{u}}".toList [t, x, omega]) [(x, 2)]) (2)),
   .add (.ex (.mul (.fn "{\\varepsilon_{u}}".toList [t, x, omega]) (.deriv (.fn "{\\varepsilon_{u}}".toList [t, x, omega]) [(x, 4)]))) (.mul (.num (2)) (.deriv (.fn "{g_{u,xx}}".toList [t, x]) [(x, 2)])))
def burgersTree : List Eqn := [burgersTree0, burgersTree1, burgersTree2, burgersTree3]

/-! Cell 30 of example/PKF on Burgers.ipynb. -/

def burgersUnclosed : List Ex :=
  [.ex (.mul (.fn "{\\varepsilon_{u}}".toList [t, x, omega]) (.deriv (.fn "{\\varepsilon_{u}}".toList [t, x, omega]) [(x, 4)]))]

/-! Cell 40 of example/PKF on Burgers.ipynb. -/

def burgersP18 : List Ex :=
  [.add (.add (.mul (.mul (.num (2)) (.deriv (.fn "{s_{u,xx}}".toList [t, x]) [(x, 2)])) (.pow (.fn "{s_{u,xx}}".toList [t, x]) (-2))) (.mul (.num (3)) (.pow (.fn "{s_{u,xx}}".toList [t, x]) (-2)))) (.mul (.num (-1)) (.mul (.mul (.num (4)) (.pow (.deriv (.fn "{s_{u,xx}}".toList [t, x]) [(x, 1)]) (2))) (.pow (.fn "{s_{u,xx}}".toList [t, x]) (-3))))]

/-! Cell 42 of example/PKF on Burgers.ipynb. -/

def closedAspect0 : Eqn :=
  (.deriv (.fn "u".toList [t, x]) [(t, 1)],
   .add (.add (.mul (.sym "kappa".toList) (.deriv (.fn "u".toList [t, x]) [(x, 2)])) (.mul (.num (-1)) (.mul (.fn "u".toList [t, x]) (.deriv (.fn "u".toList [t, x]) [(x, 1)])))) (.mul (.num (-1)) (.mul (.deriv (.fn "{V_{u}}".toList [t, x]) [(x, 1)]) (.num (1 / 2)))))
def closedAspect1 : Eqn :=
  (.deriv (.fn "{V_{u}}".toList [t, x]) [(t, 1)],
   .add (.add (.add (.add (.mul (.num (-1)) (.mul (.mul (.num (2)) (.mul (.sym "kappa".toList) (.fn "{V_{u}}".toList [t, x]))) (.pow (.fn "{s_{u,xx}}".toList [t, x]) (-1)))) (.mul (.sym "kappa".toList) (.deriv (.fn "{V_{u}}".toList [t, x]) [(x, 2)]))) (.mul (.num (-1)) (.mul (.mul (.sym "kappa".toList) (.pow (.deriv (.fn "{V_{u}}".toList [t, x]) [(x, 1)]) (2))) (.mul (.num (1 / 2)) (.pow (.fn "{V_{u}}".toList [t, x]) (-1)))))) (.mul (.num (-1)) (.mul (.fn "u".toList [t, x]) (.deriv (.fn "{V_{u}}".toList [t, x]) [(x, 1)])))) (.mul (.num (-1)) (.mul (.num (2)) (.mul (.fn "{V_{u}}".toList [t, x]) (.deriv (.fn "u".toList [t, x]) [(x, 1)])))))
def closedAspect2 : Eqn :=
  (.deriv (.fn "{s_{u,xx}}".toList [t, x]) [(t, 1)],
   .add (.add (.add (.add (.add (.add (.add (.mul (.sym "kappa".toList) (.deriv (.fn "{s_{u,xx}}".toList [t, x]) [(x, 2)])) (.mul (.num (4)) (.sym "kappa".toList))) (.mul (.num (-1)) (.mul (.mul (.num (2)) (.mul (.sym "kappa".toList) (.pow (.deriv (.fn "{s_{u,xx}}".toList [t, x]) [(x, 1)]) (2)))) (.pow (.fn "{s_{u,xx}}".toList [t, x]) (-1))))) (.mul (.num (-1)) (.mul (.mul (.num (2)) (.mul (.sym "kappa".toList) (.mul (.fn "{s_{u,xx}}".toList [t, x]) (.deriv (.fn "{V_{u}}".toList [t, x]) [(x, 2)])))) (.pow (.fn "{V_{u}}".toList [t, x]) (-1))))) (.mul (.mul (.sym "kappa".toList) (.mul (.deriv (.fn "{V_{u}}".toList [t, x]) [(x, 1)]) (.deriv (.fn "{s_{u,xx}}".toList [t, x]) [(x, 1)]))) (.pow (.fn "{V_{u}}".toList [t, x]) (-1)))) (.mul (.mul (.num (2)) (.mul (.sym "kappa".toList) (.mul (.fn "{s_{u,xx}}".toList [t, x]) (.pow (.deriv (.fn "{V_{u}}".toList [t, x]) [(x, 1)]) (2))))) (.pow (.fn "{V_{u}}".toList [t, x]) (-2)))) (.mul (.num (-1)) (.mul (.fn "u".toList [t, x]) (.deriv (.fn "{s_{u,xx}}".toList [t, x]) [(x, 1)])))) (.mul (.num (2)) (.mul (.fn "{s_{u,xx}}".toList [t, x]) (.deriv (.fn "u".toList [t, x]) [(x, 1)]))))
def closedAspect : List Eqn := [closedAspect0, closedAspect1, closedAspect2]

end Sympkf.Notebooks
