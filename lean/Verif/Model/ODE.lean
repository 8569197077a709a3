import Mathlib.Algebra.Order.Field.Basic
import Mathlib.Algebra.Module.Defs
import Mathlib.Data.List.Sort
import Mathlib.Data.List.Dedup
import Verif.Py

/-!
Model of `fvhoe/ode.py`: the four Runge-Kutta steppers and the time loop.

Simplifications: the progress bar, the git metadata and the timer calls are left out (the timer
calls are modelled in `Verif/Model/TimerTrace.lean`). The state `u` lives in an arbitrary module
over the ordered field `K`; `f` may raise.
-/

namespace FVHOE

variable {K : Type} [Field K] [LinearOrder K]
variable {U : Type} [AddCommGroup U] [Module K U]

/-- ode.py 11-22 `_hit_target`. -/
def hitTarget (t dt : K) : Option K → K
  | some target => if target - t < dt then target - t else dt
  | none => dt

/-- The right-hand side `ode.f` (ode.py 234-243) as a method of an object whose clock `self.t` is
the first argument; the second argument is the time passed by the stepper. Returns the proposed
time-step size and du/dt, or raises. -/
abbrev RHS (K U : Type) := (selfT : K) → (t : K) → U → Except PyErr (K × U)

/-- ode.py 248-252 stepper of `euler`. During a step `self.t` is the `t` handed to the stepper
(ode.py 187-190). -/
def eulerStepper (f : RHS K U) (t : K) (u : U) (target : Option K) : Except PyErr (K × U) := do
  let (dt, dudt) ← f t t u
  let dt := hitTarget t dt target
  let unext := u + dt • dudt
  return (dt, unext)

/-- ode.py 260-266 stepper of `ssprk2`. -/
def ssprk2Stepper (f : RHS K U) (t : K) (u : U) (target : Option K) : Except PyErr (K × U) := do
  let (dt, k0) ← f t t u
  let dt := hitTarget t dt target
  let u1 := u + dt • k0
  let (_, k1) ← f t t u1
  let unext := (1 / 2 : K) • u + (1 / 2 : K) • (u1 + dt • k1)
  return (dt, unext)

/-- ode.py 274-280 stepper of `ssprk3`. -/
def ssprk3Stepper (f : RHS K U) (t : K) (u : U) (target : Option K) : Except PyErr (K × U) := do
  let (dt, k0) ← f t t u
  let dt := hitTarget t dt target
  let (_, k1) ← f t (t + dt) (u + dt • k0)
  let (_, k2) ← f t (t + (1 / 2 : K) * dt) (u + ((1 / 4 : K) * dt) • k0 + ((1 / 4 : K) * dt) • k1)
  let unext := u + ((1 / 6 : K) * dt) • (k0 + k1 + (4 : K) • k2)
  return (dt, unext)

/-- ode.py 288-295 stepper of `rk4`. -/
def rk4Stepper (f : RHS K U) (t : K) (u : U) (target : Option K) : Except PyErr (K × U) := do
  let (dt, k0) ← f t t u
  let dt := hitTarget t dt target
  let (_, k1) ← f t (t + (1 / 2 : K) * dt) (u + ((1 / 2 : K) * dt) • k0)
  let (_, k2) ← f t (t + (1 / 2 : K) * dt) (u + ((1 / 2 : K) * dt) • k1)
  let (_, k3) ← f t (t + dt) (u + dt • k2)
  let unext := u + ((1 / 6 : K) * dt) • (k0 + (2 : K) • k1 + (2 : K) • k2 + k3)
  return (dt, unext)

/-- The value of `self.integrator` (ode.py 246, 258, 272, 286). -/
inductive Integrator where
  | euler | ssprk2 | ssprk3 | rk4
  deriving DecidableEq, Repr

/-- `self.stepper` (ode.py 254, 268, 282, 297). -/
def stepper (f : RHS K U) : Integrator → K → U → Option K → Except PyErr (K × U)
  | .euler => eulerStepper f
  | .ssprk2 => ssprk2Stepper f
  | .ssprk3 => ssprk3Stepper f
  | .rk4 => rk4Stepper f

/-- Fields of `ODE` (ode.py 37-53) that the loop touches. `S` is the type of a snapshot. -/
structure ODEState (K U S : Type) where
  t : K
  timestamps : List K
  stepCount : ℕ
  u : U
  snapshots : List S
  snapshotTimes : List K
  deriving DecidableEq

variable {S : Type}

/-- ode.py 37-53 `__init__`. -/
def ODEState.init (u0 : U) : ODEState K U S := ⟨0, [0], 0, u0, [], []⟩

/-- The outcome of a method: the object afterwards and the exception it raised, if any. -/
abbrev Outcome (K U S : Type) := ODEState K U S × Option PyErr

/-- ode.py 176-181 `snapshot`; `mk` is what the subclass logs (`None` in the base class). -/
def ODEState.snapshot (mk : ODEState K U S → S) (st : ODEState K U S) : ODEState K U S :=
  { st with snapshots := st.snapshots ++ [mk st], snapshotTimes := st.snapshotTimes ++ [st.t] }

/-- ode.py 183-193 `take_step`. If the stepper raises nothing has been assigned yet. -/
def ODEState.takeStep (stp : K → U → Option K → Except PyErr (K × U)) (st : ODEState K U S)
    (target : Option K) : Outcome K U S :=
  match stp st.t st.u target with
  | .error e => (st, some e)
  | .ok (dt, unext) =>
    ({ st with t := st.t + dt, u := unext, timestamps := st.timestamps ++ [st.t + dt],
               stepCount := st.stepCount + 1 }, none)

/-- ode.py 122-123: `for _ in range(n): self.take_step()`. -/
def ODEState.takeSteps (stp : K → U → Option K → Except PyErr (K × U)) :
    ℕ → ODEState K U S → Outcome K U S
  | 0, st => (st, none)
  | n + 1, st =>
    match st.takeStep stp none with
    | (st1, some e) => (st1, some e)
    | (st1, none) => ODEState.takeSteps stp n st1

/-- ode.py 117-128: fixed number of steps (`T is None`). `n = none` is the Python `None`, for
which `range(n)` raises after the first snapshot. -/
def ODEState.integrateN (stp : K → U → Option K → Except PyErr (K × U)) (mk : ODEState K U S → S)
    (n : Option ℕ) (st : ODEState K U S) : Outcome K U S :=
  let st := st.snapshot mk
  match n with
  | none => (st, some .typeError)
  | some n =>
    match st.takeSteps stp n with
    | (st1, some e) => (st1, some e)
    | (st1, none) => (st1.snapshot mk, none)

/-- ode.py 157-166: the `while self.t < T` loop. `none` means that `fuel` iterations were not
enough. `downbeats` is the list still to be popped. -/
def ODEState.loop (stp : K → U → Option K → Except PyErr (K × U)) (mk : ODEState K U S → S)
    (T : K) (logEvery : Bool) :
    ℕ → Option K → List K → ODEState K U S → Option (Outcome K U S)
  | 0, _, _, _ => none
  | fuel + 1, target, downbeats, st =>
    if st.t < T then
      match st.takeStep stp target with
      | (st1, some e) => some (st1, some e)
      | (st1, none) =>
        if target = some st1.t ∨ T ≤ st1.t ∨ logEvery = true then
          let st2 := st1.snapshot mk
          match downbeats with
          | [] => ODEState.loop stp mk T logEvery fuel target [] st2
          | d :: ds =>
            if target = some st1.t then ODEState.loop stp mk T logEvery fuel (some d) ds st2
            else ODEState.loop stp mk T logEvery fuel target (d :: ds) st2
        else ODEState.loop stp mk T logEvery fuel target downbeats st1
    else some (st, none)

/-- ode.py 147-149: `sorted(set([0] + downbeats + [T]))[1:]`. -/
def keyTimes (downbeats : List K) (T : K) : List K :=
  (List.insertionSort (· ≤ ·) (0 :: (downbeats ++ [T])).dedup).tail

/-- ode.py 141-167: the final-time mode without saving. -/
def ODEState.integrateT (stp : K → U → Option K → Except PyErr (K × U)) (mk : ODEState K U S → S)
    (T : K) (exact : Bool) (downbeats : List K) (logEvery : Bool) (fuel : ℕ)
    (st : ODEState K U S) : Option (Outcome K U S) :=
  if exact then
    match keyTimes downbeats T with
    | [] => some (st, some .indexError)
    | d :: ds => ODEState.loop stp mk T logEvery fuel (some d) ds (st.snapshot mk)
  else ODEState.loop stp mk T logEvery fuel none (keyTimes downbeats T) (st.snapshot mk)

/-- Arguments of `integrate` (ode.py 94-103). `saved` is what `read_snapshots` finds: `none` when
no `snapshot_dir` is given, or `overwrite` is set, or the directory does not exist; `some l` when it
exists and holds the snapshot list `l`. Writing at the end is modelled in
`Verif/Model/Snapshots.lean`. -/
structure IntegrateArgs (K S : Type) where
  T : Option K
  n : Option ℕ
  exact : Bool
  downbeats : List K
  logEvery : Bool
  saved : Option (List S)

/-- ode.py 114-167 `integrate`, up to the write at the end. When snapshots are read, solver.py
882-886 replaces `self.snapshots` and nothing else. -/
def ODEState.integrate (stp : K → U → Option K → Except PyErr (K × U)) (mk : ODEState K U S → S)
    (fuel : ℕ) (a : IntegrateArgs K S) (st : ODEState K U S) : Option (Outcome K U S) :=
  match a.T with
  | none => some (st.integrateN stp mk a.n)
  | some T =>
    match a.saved with
    | some l => some ({ st with snapshots := l }, none)
    | none => st.integrateT stp mk T a.exact a.downbeats a.logEvery fuel

end FVHOE
