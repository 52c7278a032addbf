import Verif.Model.Integrator

/-!
# Model of the time schemes of `src/sympkf/model/model.py` in rounded arithmetic

`Model/Integrator.lean` computes exactly. Here the result of every arithmetic operation that the schemes and the loop
of `forecast` do on times and on arrays is rounded, in the order in which Python evaluates the expressions. The constants
`0.5`, `2` and `6` are exact. The trend is a function like any other: what it computes may differ from the vector field
it stands for. Times and states are numbers; overflow to infinities and NaN are not modelled.
-/

set_option autoImplicit false

namespace Sympkf.Integrator

open Sympkf

variable {K S : Type}

/-- The rounding of a number and of an array (numpy rounds an array entry by entry; here it may be any function). -/
structure Rounding (K S : Type) where
  num : K → K
  arr : S → S

section Schemes
variable [Field K] [AddCommGroup S] [Module K S] (rd : Rounding K S)

/-- model.py 84 `state + dt * trend(t, state)`: a product, then a sum. -/
def eulerR (trend : K → S → S) (t : K) (state : S) (dt : K) : S :=
  rd.arr (state + rd.arr (dt • trend t state))

/-- model.py 96-97: `state + trend(t, state) * (dt*0.5)` and `state + dt * trend(t+0.5*dt, state_demi)`. -/
def rk2R (trend : K → S → S) (t : K) (state : S) (dt : K) : S :=
  let stateDemi := rd.arr (state + rd.arr (rd.num (dt * (1/2)) • trend t state))
  rd.arr (state + rd.arr (dt • trend (rd.num (t + rd.num ((1/2) * dt))) stateDemi))

/-- model.py 109-113. Python evaluates `dt*0.5*k1` as `(dt*0.5)*k1` and `k1+k2*2+k3*2+k4` from the left. -/
def rk4R (trend : K → S → S) (t : K) (state : S) (dt : K) : S :=
  let k1 := trend t state
  let k2 := trend (rd.num (t + rd.num (dt * (1/2)))) (rd.arr (state + rd.arr (rd.num (dt * (1/2)) • k1)))
  let k3 := trend (rd.num (t + rd.num (dt * (1/2)))) (rd.arr (state + rd.arr (rd.num (dt * (1/2)) • k2)))
  let k4 := trend (rd.num (t + dt)) (rd.arr (state + rd.arr (dt • k3)))
  rd.arr (state + rd.arr (rd.num (dt / 6) •
    rd.arr (rd.arr (rd.arr (k1 + rd.arr ((2 : K) • k2)) + rd.arr ((2 : K) • k3)) + k4)))

/-- model.py 128: `state_0 + trend(t, state_1) * (2*dt)`. -/
def leapfrogR (trend : K → S → S) (t : K) (states : S × S) (dt : K) : S × S :=
  (states.2, rd.arr (states.1 + rd.arr (rd.num (2 * dt) • trend t states.2)))

/-- `dt = next_time - time` and `self.time_scheme(self.trend, time, u0, dt)` (model.py 178-180) in rounded arithmetic:
the argument `dt` is the exact difference of the times. The dispatch is the one of `step`; the entries `'scheme'` and
`'update'` of a splitting are functions, rounded or not. -/
def stepR (s : Scheme) (trend : TrendObj K S) (t : K) (u : StateObj S) (dt : K) : Except PyErr (StateObj S) :=
  match s, trend, u with
  | .euler, .fn f, .single u => .ok (.single (eulerR rd f t u (rd.num dt)))
  | .rk2, .fn f, .single u => .ok (.single (rk2R rd f t u (rd.num dt)))
  | .rk4, .fn f, .single u => .ok (.single (rk4R rd f t u (rd.num dt)))
  | .leapfrog, .fn f, .pair u v =>
      let r := leapfrogR rd f t (u, v) (rd.num dt)
      .ok (.pair r.1 r.2)
  | .splitting, .steps l, .single u => (timeSplitting l t u (rd.num dt)).map .single
  | _, _, _ => .error .typeError

end Schemes

end Sympkf.Integrator
