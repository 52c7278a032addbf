import Mathlib.Algebra.Module.Basic
import Mathlib.Algebra.Order.Floor.Defs
import Mathlib.Algebra.Order.Floor.Ring
import Mathlib.Algebra.Field.Basic
import Verif.Model.Py

/-!
# Model of `src/sympkf/model/model.py`

Numbers live in a field `K` (exact arithmetic, no rounding); model states in a `K`-module `S`.
-/

set_option autoImplicit false

namespace Sympkf.Integrator

open Sympkf

variable {K S : Type}

/-! ## Time schemes (model.py 74-157) -/

section Schemes
variable [Field K] [AddCommGroup S] [Module K S]

/-- model.py 74-84 `_euler`: `state + dt * trend(t, state)`. -/
def euler (trend : K → S → S) (t : K) (state : S) (dt : K) : S :=
  state + dt • trend t state

/-- model.py 86-97 `_rk2`. `0.5` is `1/2`. -/
def rk2 (trend : K → S → S) (t : K) (state : S) (dt : K) : S :=
  let stateDemi := state + (dt * (1/2)) • trend t state
  state + dt • trend (t + (1/2) * dt) stateDemi

/-- model.py 99-113 `_rk4`. -/
def rk4 (trend : K → S → S) (t : K) (state : S) (dt : K) : S :=
  let k1 := trend t state
  let k2 := trend (t + dt * (1/2)) (state + (dt * (1/2)) • k1)
  let k3 := trend (t + dt * (1/2)) (state + (dt * (1/2)) • k2)
  let k4 := trend (t + dt) (state + dt • k3)
  state + (dt / 6) • (k1 + (2 : K) • k2 + (2 : K) • k3 + k4)

/-- model.py 115-133 `_leapfrog`: the state is the two-element list `[state_0, state_1]`, modelled as a pair. -/
def leapfrog (trend : K → S → S) (t : K) (states : S × S) (dt : K) : S × S :=
  let state2 := states.1 + (2 * dt) • trend t states.2
  (states.2, state2)

/-- One entry of the list given to the splitting scheme (model.py 140-143): a dictionary that may have the key
`'update'` and may have the keys `'trend'` and `'scheme'`. -/
structure FractionStep (K S : Type) where
  update : Option (K → S → K → S)
  trend  : Option (K → S → S)
  scheme : Option ((K → S → S) → K → S → K → S)

/-- Body of the loop of model.py 148-156. Missing keys raise `KeyError`. -/
def FractionStep.apply (f : FractionStep K S) (time : K) (state : S) (dt : K) : Except PyErr S :=
  match f.update with
  | some u => .ok (u time state dt)
  | none =>
    match f.trend with
    | none => .error .keyError
    | some tr =>
      match f.scheme with
      | none => .error .keyError
      | some sc => .ok (sc tr time state dt)

/-- model.py 135-157 `_time_splitting`. -/
def timeSplitting (steps : List (FractionStep K S)) (time : K) (state : S) (dt : K) : Except PyErr S :=
  steps.foldlM (fun state f => f.apply time state dt) state

end Schemes

/-! ## Scheme table (model.py 39-61) -/

/-- Keys of `self.time_schemes` (model.py 40-46). -/
inductive Scheme | leapfrog | rk4 | rk2 | euler | splitting
  deriving DecidableEq, Repr

/-- The dictionary `self.time_schemes` (model.py 40-46). -/
def timeSchemes : Dict String Scheme :=
  [("leapfrog", .leapfrog), ("rk4", .rk4), ("rk2", .rk2), ("euler", .euler), ("splitting", .splitting)]

/-- The part of a `Model` instance touched by `set_time_scheme`: the attribute `time_scheme`
(`none` while the constructor has not set it). -/
structure ModelState where
  timeScheme : Option Scheme
  deriving DecidableEq, Repr

/-- model.py 57-61 `set_time_scheme`: the new object state and the exception raised, if any. -/
def setTimeScheme (m : ModelState) (name : String) : ModelState × Option PyErr :=
  match timeSchemes.get? name with
  | some s => ({ m with timeScheme := some s }, none)
  | none => (m, some .valueError)

/-- model.py 39-48 `__init__` with keyword `time_scheme`: raises when the name is unknown. -/
def initModel (name : String := "rk4") : Except PyErr ModelState :=
  match setTimeScheme { timeScheme := none } name with
  | (m, none) => .ok m
  | (_, some e) => .error e

/-- What `self.trend` may be: a method, or (splitting) a list of fraction steps (model.py 140). -/
inductive TrendObj (K S : Type)
  | fn (f : K → S → S)
  | steps (l : List (FractionStep K S))

/-- What a state may be: an array, or (leapfrog) a list of two arrays (model.py 116-127). -/
inductive StateObj (S : Type)
  | single (u : S)
  | pair (u v : S)
  deriving DecidableEq

/-- `self.time_scheme(self.trend, time, u0, dt)` (model.py 180): dispatch on the selected scheme. Combinations that
Python rejects dynamically (calling a list, iterating over a method, unpacking an array as a pair, arithmetic of a
list with an array) are `TypeError`s; unpacking an array whose first axis happens to have length two is not
modelled. -/
def step [Field K] [AddCommGroup S] [Module K S] (s : Scheme) (trend : TrendObj K S)
    (t : K) (u : StateObj S) (dt : K) : Except PyErr (StateObj S) :=
  match s, trend, u with
  | .euler, .fn f, .single u => .ok (.single (euler f t u dt))
  | .rk2, .fn f, .single u => .ok (.single (rk2 f t u dt))
  | .rk4, .fn f, .single u => .ok (.single (rk4 f t u dt))
  | .leapfrog, .fn f, .pair u v =>
      let r := leapfrog f t (u, v) dt
      .ok (.pair r.1 r.2)
  | .splitting, .steps l, .single u => (timeSplitting l t u dt).map .single
  | _, _, _ => .error .typeError

/-! ## Forecast (model.py 160-218, 286-292) -/

/-- The argument `saved_times`: `None`, a Python/numpy float, a list/array of times, or a non-iterable scalar that is
not a float (such as an `int`). -/
inductive SavedTimes (K : Type)
  | none
  | float (τ : K)
  | list (l : List K)
  | scalar (n : Int)

/-- model.py 286-292 `_check_saved_times`. -/
def checkSavedTimes (window : List K) : SavedTimes K → SavedTimes K
  | .none => .list window
  | .float τ => .list [τ]
  | s => s

/-- `time in saved_times` (model.py 174): a non-iterable raises `TypeError`. (`.none`, `.float` do not occur after
`_check_saved_times`.) -/
def isIn [DecidableEq K] (τ : K) : SavedTimes K → Except PyErr Bool
  | .list l => .ok (decide (τ ∈ l))
  | _ => .error .typeError

/-- Iterating over `saved_times` (model.py 237, 265). -/
def iterSaved : SavedTimes K → Except PyErr (List K)
  | .list l => .ok l
  | _ => .error .typeError

section Forecast
variable [DecidableEq K] [Sub K] {X : Type}

/-- model.py 173-181: loop of `forecast` over `zip(window[:-1], window[1:])`. `step time u dt` is
`self.time_scheme(self.trend, time, u0, dt)`. -/
def forecastLoop (step : K → X → K → Except PyErr X) (saved : SavedTimes K) :
    List (K × K) → Dict K X → X → Except PyErr (Dict K X × X)
  | [], traj, u => .ok (traj, u)
  | (time, next) :: rest, traj, u => do
      let b ← isIn time saved
      let traj := if b then traj.set time u else traj
      let u1 ← step time u (next - time)
      forecastLoop step saved rest traj u1

/-- model.py 160-188 `forecast`. `window[-1]` raises `IndexError` on an empty window. -/
def forecast (step : K → X → K → Except PyErr X) (window : List K) (u0 : X) (saved : SavedTimes K) :
    Except PyErr (Dict K X) := do
  let saved := checkSavedTimes window saved
  let (traj, u) ← forecastLoop step saved (window.dropLast.zip window.tail) [] u0
  match window.getLast? with
  | none => .error .indexError
  | some time => do
      let b ← isIn time saved
      return if b then traj.set time u else traj

/-- model.py 203-211: loop of `predict`. -/
def predictLoop (step : K → X → K → Except PyErr X) (saved : SavedTimes K) :
    List (K × K) → List X → X → Except PyErr (List X × X)
  | [], traj, u => .ok (traj, u)
  | (time, next) :: rest, traj, u => do
      let b ← isIn time saved
      let traj := if b then traj ++ [u] else traj
      let u1 ← step time u (next - time)
      predictLoop step saved rest traj u1

/-- model.py 190-218 `predict`; the final `np.array(traj)` is the list of its rows. -/
def predict (step : K → X → K → Except PyErr X) (window : List K) (u0 : X) (saved : SavedTimes K) :
    Except PyErr (List X) := do
  let saved := checkSavedTimes window saved
  let (traj, u) ← predictLoop step saved (window.dropLast.zip window.tail) [] u0
  match window.getLast? with
  | none => .error .indexError
  | some time => do
      let b ← isIn time saved
      return if b then traj ++ [u] else traj

/-! ## Ensembles (model.py 8-19, 220-254) -/

/-- Chunk size of `Pool.map` (CPython `multiprocessing/pool.py`, external): `divmod(len, 4*nb_pool)`, plus one when
the remainder is not zero. -/
def chunkSize (len nbPool : Nat) : Nat :=
  len / (4 * nbPool) + (if len % (4 * nbPool) = 0 then 0 else 1)

/-- Number of chunks of size `cs` needed for `len` tasks. -/
def numChunks (len cs : Nat) : Nat := if cs = 0 then 0 else (len + cs - 1) / cs

/-- One chunk completes: its results (or its exception) are written in the slice `[i*cs, (i+1)*cs)` of the result
list (CPython `MapResult._set`, external). The first exception received is kept. -/
def completeChunk {A Y : Type} (f : A → Except PyErr Y) (cs : Nat) (args : List A)
    (st : List (Option Y) × Option PyErr) (i : Nat) : List (Option Y) × Option PyErr :=
  match ((args.drop (i * cs)).take cs).mapM f with
  | .ok ys => (st.1.take (i * cs) ++ ys.map some ++ st.1.drop ((i + 1) * cs), st.2)
  | .error e => (st.1, st.2.or (some e))

/-- A slot of the result list. The empty slot is unreachable: `pool.map` returns when every chunk has completed. -/
def slotValue {Y : Type} : Option Y → Except PyErr Y
  | some y => .ok y
  | none => .error .runtimeError

/-- model.py 16-19 `Parallel.run`: `pool.map(self.f, args)` where `completion` is the order in which the chunks
complete. A pool with no worker raises `ValueError`. -/
def parallelRun {A Y : Type} (f : A → Except PyErr Y) (nbPool : Nat) (completion : List Nat) (args : List A) :
    Except PyErr (List Y) :=
  if nbPool < 1 then .error .valueError
  else
    let cs := chunkSize args.length nbPool
    let st := completion.foldl (completeChunk f cs args) (List.replicate args.length none, none)
    match st.2 with
    | some e => .error e
    | none => st.1.mapM slotValue

/-- model.py 246-247 / 252-253: `for time in forecast: forecasts[time].append(forecast[time])`. -/
def appendForecast (forecasts : Dict K (List X)) (forecast : Dict K X) : Except PyErr (Dict K (List X)) :=
  forecast.foldlM (fun fs kv => do
    let l ← Dict.getItem fs kv.1
    return fs.set kv.1 (l ++ [kv.2])) forecasts

/-- How `ensemble_forecast` is run (model.py 224, 239): sequentially, or with a pool and a completion order. -/
inductive ExecMode
  | sequential
  | pool (nbPool : Nat) (completion : List Nat)

/-- model.py 237: `{time:[] for time in saved_times}`. -/
def emptyForecasts (saved : List K) : Dict K (List X) :=
  saved.foldl (fun d t => Dict.set d t []) []

/-- model.py 250-253: sequential branch. -/
def sequentialLoop (step : K → X → K → Except PyErr X) (window : List K) (saved : SavedTimes K) :
    List X → Dict K (List X) → Except PyErr (Dict K (List X))
  | [], fs => .ok fs
  | state :: states, fs => do
      let fc ← forecast step window state saved
      let fs ← appendForecast fs fc
      sequentialLoop step window saved states fs

/-- model.py 224-254 `ensemble_forecast`. -/
def ensembleForecast (step : K → X → K → Except PyErr X) (window : List K) (states : List X)
    (saved : SavedTimes K) (mode : ExecMode) : Except PyErr (Dict K (List X)) := do
  let saved := checkSavedTimes window saved
  let times ← iterSaved saved
  let forecasts := emptyForecasts times
  match mode with
  | .pool nbPool completion => do
      let tmp ← parallelRun (fun state => forecast step window state saved) nbPool completion states
      tmp.foldlM appendForecast forecasts
  | .sequential => sequentialLoop step window saved states forecasts

end Forecast

/-! ## Tangent-linear, propagator, window, spin-up (model.py 256-324) -/

section Linear
variable [Field K] [DecidableEq K] [AddCommGroup S] [Module K S]

/-- model.py 265-266: `for q in saved_times: tl[q] = [(state - forecast[q])/h for state in tl[q]]`.
The lookup `forecast[q]` is only evaluated when `tl[q]` has members. -/
def tlLoop (forecast : Dict K S) (h : K) : List K → Dict K (List S) → Except PyErr (Dict K (List S))
  | [], tl => .ok tl
  | q :: qs, tl => do
      let l ← Dict.getItem tl q
      let l' ← l.mapM (fun state => do
        let ref ← Dict.getItem forecast q
        return h⁻¹ • (state - ref))
      tlLoop forecast h qs (tl.set q l')

/-- model.py 256-267 `forecast_tl`. Line 263 calls `ensemble_forecast` with its default `parallel=True`; the mode is
a parameter. `x / h` is `h⁻¹ • x`; numpy's behaviour at `h = 0` (nan/inf) is not modelled. -/
def forecastTl (step : K → S → K → Except PyErr S) (window : List K) (state : S) (perturbations : List S)
    (saved : SavedTimes K) (h : K) (mode : ExecMode) : Except PyErr (Dict K S × Dict K (List S)) := do
  let saved := checkSavedTimes window saved
  let fc ← forecast step window state saved
  let perturbed := perturbations.map (fun p => state + h • p)
  let tl ← ensembleForecast step window perturbed saved mode
  let times ← iterSaved saved
  let tl ← tlLoop fc h times tl
  return (fc, tl)

/-- model.py 311-314 `dirac`. -/
def dirac (n : Nat) (i : Fin n) : Fin n → K := fun j => if j = i then 1 else 0

/-- model.py 304-324 `make_M`, branch `new = True` (the other branch is dead code): `np.asarray` of the list of the
end states of the diracs; `M[i]` is the `i`-th element of that list. -/
def makeM {n : Nat} (step : K → (Fin n → K) → K → Except PyErr (Fin n → K)) (window : List K) (mode : ExecMode) :
    Except PyErr (List (Fin n → K)) := do
  match window.getLast? with
  | none => .error .indexError
  | some tEnd => do
      let fs ← ensembleForecast step window ((List.finRange n).map (dirac n)) (.list [tEnd]) mode
      Dict.getItem fs tEnd

/-- model.py 269-281 `randstate`; the random draw `xo` is a parameter. `np.arange(nstart)*dt`. -/
def randstate {X : Type} (step : K → X → K → Except PyErr X) (nstart : Nat) (dt : K) (xo : X) : Except PyErr X := do
  let t := (List.range nstart).map (fun i : ℕ => (i : K) * dt)
  match t.getLast? with
  | none => .error .indexError
  | some tEnd => do
      let fc ← forecast step t xo (.list [tEnd])
      Dict.getItem fc tEnd

/-- model.py 294-300 `IdentityModel.trend`. -/
def identityTrend (_t : K) (_state : S) : S := 0

end Linear

/-- `np.arange(start, stop, step)` in exact arithmetic (external): `ceil((stop-start)/step)` points. -/
def arange {K : Type} [Field K] [LinearOrder K] [FloorRing K] (start stop step : K) : List K :=
  (List.range ⌈(stop - start) / step⌉.toNat).map (fun i : ℕ => start + (i : K) * step)

/-- model.py 283-284 `window`. -/
def window {K : Type} [Field K] [LinearOrder K] [FloorRing K] (dt : K) (stop : K) (start : K := 0) : List K :=
  arange start (stop + dt / 3) dt

end Sympkf.Integrator
