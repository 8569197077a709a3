import Verif.Model.Timer
import Verif.Model.Solver

/-!
Model of the timer calls made while a solver runs: the functions of `fvhoe/solver.py` (422-792,
840-847) and `fvhoe/ode.py` (94-193, 245-297) again, this time with their `self.timer.start` and
`self.timer.stop` calls, over the timer of `Verif/Model/Timer.lean`.

A method is a function from the timer before the call to its result (or exception) and the timer
after the call; an exception keeps the timer as it was when it was raised. `time.time()` returns the
readings `clock 0`, `clock 1`, … in the order of the calls that read it. Attributes other than the
timer are handled as in the files without timer: they are arguments and results.
-/

namespace FVHOE

/-- The timer of a solver and the number of clock readings so far. -/
structure Clocked (K : Type) where
  timer : Timer K
  ticks : ℕ

/-- A method that uses the timer. -/
def TM (K α : Type) := Clocked K → Except PyErr α × Clocked K

/-- Sequencing of statements; an exception skips the rest. -/
instance {K : Type} : Monad (TM K) where
  pure a := fun s => (.ok a, s)
  bind m k := fun s =>
    match m s with
    | (.ok a, s') => k a s'
    | (.error e, s') => (.error e, s')

/-- An expression that does not touch the timer. -/
def TM.lift {K α : Type} (e : Except PyErr α) : TM K α := fun s => (e, s)

section
variable {K : Type} [Field K] [LinearOrder K]

/-- `self.timer.start(c)`. -/
def TM.start (clock : ℕ → K) (c : String) : TM K Unit := fun s =>
  match s.timer.start c (clock s.ticks) with
  | (t, none) => (.ok (), ⟨t, s.ticks + 1⟩)
  | (t, some e) => (.error e, ⟨t, s.ticks⟩)

/-- `self.timer.stop(c)`. -/
def TM.stop (clock : ℕ → K) (c : String) : TM K Unit := fun s =>
  match s.timer.stop c (clock s.ticks) with
  | (t, none) => (.ok (), ⟨t, s.ticks + 1⟩)
  | (t, some e) => (.error e, ⟨t, s.ticks⟩)

/-- ode.py 49: the categories of `ODE`. -/
def odeCats : List String := ["TOTAL", "SNAPSHOTS"]

/-- solver.py 204-218: the categories added by `EulerSolver`. -/
def solverCats : List String :=
  ["boundary conditions",
   "(high-order) hydrofluxes",
   "(high-order) riemann solver",
   "(high-order) conservative interpolation",
   "(high-order) transverse reconstruction",
   "(fallback scheme)",
   "(fallback scheme) troubled cell detection",
   "(fallback scheme) hydrofluxes",
   "(fallback scheme) riemann solver",
   "(fallback scheme) conservative interpolation",
   "(fallback scheme) transverse reconstruction"]

/-- The timer of a solver after construction (ode.py 49, solver.py 203-218). -/
def solverTimer : Timer K := ((Timer.empty.addCat odeCats).1.addCat solverCats).1

end

section
variable {K : Type} [Field K] [LinearOrder K] {V : Type} [AddCommGroup V] [Module K V]

/-- solver.py 753-792 `interpolate_primitives_from_conservatives`; `fv` is the argument
`fv_average`. -/
def timedPrimitives (clock : ℕ → K) (S : Scheme K V) (selfT : K) (junk : Ix → V) (p gw : Fin 3 → ℕ)
    (u : Arr V) (fv : Bool) : TM K (Arr V) := do
  TM.start clock "boundary conditions"
  let ubc ← TM.lift
    (S.bc.apply S.negate u (fun d => gw d + (if fv then 2 else 1) * ceilHalf (p d)) selfT junk)
  TM.stop clock "boundary conditions"
  let uc ← TM.lift (interpolateCellCenters K ubc p)
  if fv then TM.lift (interpolateFvAverages K (uc.map S.prim) p) else pure (uc.map S.prim)

/-- solver.py 519-568: the face values of one direction, if it is active. -/
def faceStage (S : Scheme K V) (p : Fin 3 → ℕ) (slope : Option (V → V → V)) (w : Arr V) (d : Fin 3) :
    Except PyErr (Option (Arr V × Arr V)) :=
  if S.active d then do
    let a ← conservativeInterpolation K w (p (centerOrder d).1) (centerOrder d).1 "c"
    let b ← conservativeInterpolation K a (p (centerOrder d).2) (centerOrder d).2 "c"
    let lr ← faceValues (K := K) b (p d) d slope
    return some lr
  else return none

/-- solver.py 574-606: the pointwise fluxes of one direction, if it is active. -/
def riemannStage (S : Scheme K V) (W : Fin 3 → Option (Arr V × Arr V)) (d : Fin 3) :
    Except PyErr (Option (Arr V)) :=
  match W d with
  | some lr => do
    let f ← (lr.2.cut d 0 (-1)).zip (S.riem d) (lr.1.cut d 1 0)
    return some f
  | none => return none

/-- solver.py 631-648: the flux integrals of one direction, or the stored array. -/
def integralStage (S : Scheme K V) (p : Fin 3 → ℕ) (mem : Fin 3 → Arr V) (f : Fin 3 → Option (Arr V))
    (d : Fin 3) : Except PyErr (Arr V) :=
  match f d with
  | some f => do
    let t1 ← transverseReconstruction K f (p (transverseOrder d).1) (transverseOrder d).1
    let t2 ← transverseReconstruction K t1 (p (transverseOrder d).2) (transverseOrder d).2
    return ((t2.cut 0 (excess S p d 0) (-(excess S p d 0))).cut 1 (excess S p d 1)
      (-(excess S p d 1))).cut 2 (excess S p d 2) (-(excess S p d 2))
  | none => return mem d

/-- solver.py 456-651 `hydrofluxes` with the argument `timer_prefix`, stage by stage as in the
code. -/
def timedHydrofluxes (clock : ℕ → K) (S : Scheme K V) (selfT : K) (junk : Ix → V) (mem : Fin 3 → Arr V)
    (p : Fin 3 → ℕ) (slope : Option (V → V → V)) (pre : String) (u : Arr V) :
    TM K (K × (Fin 3 → Arr V)) := do
  TM.start clock (pre ++ "hydrofluxes")
  TM.lift (if slope.isSome = true ∧ 1 < max (max (p 0) (p 1)) (p 2) then .error .valueError else .ok ())
  let w ← timedPrimitives clock S selfT junk p (fun d => if S.active d then fluxGw p else 0) u true
  let dt ← TM.lift (timeStep S w)
  TM.start clock (pre ++ "conservative interpolation")
  let W ← TM.lift (forDims (faceStage S p slope w))
  TM.stop clock (pre ++ "conservative interpolation")
  TM.start clock (pre ++ "riemann solver")
  let f ← TM.lift (forDims (riemannStage S W))
  TM.stop clock (pre ++ "riemann solver")
  TM.start clock (pre ++ "transverse reconstruction")
  let F ← TM.lift (forDims (integralStage S p mem f))
  TM.stop clock (pre ++ "transverse reconstruction")
  TM.stop clock (pre ++ "hydrofluxes")
  return (dt, F)

/-- solver.py 710-731: the part of `revise_fluxes` that runs when a cell is troubled. -/
def timedFallback (clock : ℕ → K) (S : Scheme K V) (L : Limiting K V) (selfT : K) (junk : ℕ → Ix → V)
    (u : Arr V) (F : Fin 3 → Arr V) (troubled : Arr Bool) : TM K (Fin 3 → Arr V) :=
  if anyTrue troubled then do
    let r ← timedHydrofluxes clock S selfT (junk 3) F (fallbackP S.p) L.slope "(fallback scheme) " u
    let theta ← TM.lift (L.broadcast troubled)
    TM.lift (forDims fun d => blend (theta d) (F d) (r.2 d))
  else return F

/-- solver.py 653-732 `revise_fluxes`; `log_troubles` makes no timer call. -/
def timedRevise (clock : ℕ → K) (S : Scheme K V) (L : Limiting K V) (selfT : K) (junk : ℕ → Ix → V)
    (u : Arr V) (F : Fin 3 → Arr V) (dt : K) : TM K (Fin 3 → Arr V) := do
  TM.start clock "(fallback scheme)"
  let dudt ← TM.lift (eulerEquation S F)
  let ustar ← TM.lift (u.zip (fun x y => x + dt • y) dudt)
  let w ← timedPrimitives clock S selfT (junk 1) S.p (fun d => if S.active d then 3 else 0) u true
  let wstar ← timedPrimitives clock S selfT (junk 2) S.p (fun d => if S.active d then 3 else 0) ustar true
  TM.start clock "(fallback scheme) troubled cell detection"
  let troubled ← TM.lift (L.detect w wstar)
  TM.stop clock "(fallback scheme) troubled cell detection"
  let F' ← timedFallback clock S L selfT junk u F (if L.force then troubled.map fun _ => true else troubled)
  TM.stop clock "(fallback scheme)"
  return F'

/-- solver.py 442-450: the limiting stage of `hydrodynamics`. -/
def timedLimit (clock : ℕ → K) (S : Scheme K V) (selfT : K) (junk : ℕ → Ix → V) (u : Arr V)
    (F : Fin 3 → Arr V) (dt : K) : TM K (Fin 3 → Arr V) :=
  match S.limiting with
  | none => return F
  | some L => timedRevise clock S L selfT junk u F dt

/-- solver.py 429-454 `hydrodynamics`. -/
def timedHydrodynamics (clock : ℕ → K) (S : Scheme K V) (selfT : K) (junk : ℕ → Ix → V)
    (mem : Fin 3 → Arr V) (u : Arr V) : TM K (K × Arr V) := do
  let r ← timedHydrofluxes clock S selfT (junk 0) mem S.p none "(high-order) " u
  let F ← TM.lift (forDims fun d => (mem d).assign (r.2 d))
  let F' ← timedLimit clock S selfT junk u F r.1
  let dudt ← TM.lift (eulerEquation S F')
  return (r.1, dudt)

/-- solver.py 422-427 `f`, on states as in `solverRHS`. -/
def timedRHS (clock : ℕ → K) (S : Scheme K V) (junk : ℕ → Ix → V) (mem : Fin 3 → Ix → V) (selfT _t : K)
    (u : Ix → V) : TM K (K × (Ix → V)) := do
  let r ← timedHydrodynamics clock S selfT junk (S.mem mem) ⟨S.n, u⟩
  TM.lift (if r.2.shape = S.n then
      .ok (r.1, fun i => if (⟨S.n, u⟩ : Arr V).InB i then r.2.get i else 0)
    else .error .valueError)

end

section
variable {K : Type} [Field K] [LinearOrder K] {U : Type} [AddCommGroup U] [Module K U] {S : Type}

/-- ode.py 248-252 stepper of `euler`. -/
def timedEuler (f : K → K → U → TM K (K × U)) (t : K) (u : U) (target : Option K) : TM K (K × U) := do
  let r ← f t t u
  let dt := hitTarget t r.1 target
  return (dt, u + dt • r.2)

/-- ode.py 260-266 stepper of `ssprk2`. -/
def timedSsprk2 (f : K → K → U → TM K (K × U)) (t : K) (u : U) (target : Option K) : TM K (K × U) := do
  let r0 ← f t t u
  let dt := hitTarget t r0.1 target
  let u1 := u + dt • r0.2
  let r1 ← f t t u1
  return (dt, (1 / 2 : K) • u + (1 / 2 : K) • (u1 + dt • r1.2))

/-- ode.py 274-280 stepper of `ssprk3`. -/
def timedSsprk3 (f : K → K → U → TM K (K × U)) (t : K) (u : U) (target : Option K) : TM K (K × U) := do
  let r0 ← f t t u
  let dt := hitTarget t r0.1 target
  let r1 ← f t (t + dt) (u + dt • r0.2)
  let r2 ← f t (t + (1 / 2 : K) * dt) (u + ((1 / 4 : K) * dt) • r0.2 + ((1 / 4 : K) * dt) • r1.2)
  return (dt, u + ((1 / 6 : K) * dt) • (r0.2 + r1.2 + (4 : K) • r2.2))

/-- ode.py 288-295 stepper of `rk4`. -/
def timedRk4 (f : K → K → U → TM K (K × U)) (t : K) (u : U) (target : Option K) : TM K (K × U) := do
  let r0 ← f t t u
  let dt := hitTarget t r0.1 target
  let r1 ← f t (t + (1 / 2 : K) * dt) (u + ((1 / 2 : K) * dt) • r0.2)
  let r2 ← f t (t + (1 / 2 : K) * dt) (u + ((1 / 2 : K) * dt) • r1.2)
  let r3 ← f t (t + dt) (u + dt • r2.2)
  return (dt, u + ((1 / 6 : K) * dt) • (r0.2 + (2 : K) • r1.2 + (2 : K) • r2.2 + r3.2))

/-- `self.stepper` (ode.py 254, 268, 282, 297). -/
def timedStepper (f : K → K → U → TM K (K × U)) : Integrator → K → U → Option K → TM K (K × U)
  | .euler => timedEuler f
  | .ssprk2 => timedSsprk2 f
  | .ssprk3 => timedSsprk3 f
  | .rk4 => timedRk4 f

/-- ode.py 176-181 `snapshot`; `mk` computes the entry and may use the timer. -/
def timedSnapshot (mk : ODEState K U S → TM K S) (st : ODEState K U S) : TM K (ODEState K U S) := do
  let x ← mk st
  return { st with snapshots := st.snapshots ++ [x], snapshotTimes := st.snapshotTimes ++ [st.t] }

/-- ode.py 183-193 `take_step`. -/
def timedTakeStep (stp : K → U → Option K → TM K (K × U)) (st : ODEState K U S) (target : Option K) :
    TM K (ODEState K U S) := do
  let r ← stp st.t st.u target
  return { st with t := st.t + r.1, u := r.2, timestamps := st.timestamps ++ [st.t + r.1],
                   stepCount := st.stepCount + 1 }

/-- ode.py 122-123: `for _ in range(n): self.take_step()`. -/
def timedTakeSteps (stp : K → U → Option K → TM K (K × U)) : ℕ → ODEState K U S → TM K (ODEState K U S)
  | 0, st => return st
  | n + 1, st => do
    let st1 ← timedTakeStep stp st none
    timedTakeSteps stp n st1

/-- ode.py 117-128: fixed number of steps. `range(None)` raises while TOTAL is running. -/
def timedIntegrateN (clock : ℕ → K) (stp : K → U → Option K → TM K (K × U)) (mk : ODEState K U S → TM K S)
    (n : Option ℕ) (st : ODEState K U S) : TM K (ODEState K U S) := do
  TM.start clock "SNAPSHOTS"
  let st1 ← timedSnapshot mk st
  TM.stop clock "SNAPSHOTS"
  TM.start clock "TOTAL"
  let k ← TM.lift (match n with | none => .error .typeError | some k => .ok k)
  let st2 ← timedTakeSteps stp k st1
  TM.stop clock "TOTAL"
  TM.start clock "SNAPSHOTS"
  let st3 ← timedSnapshot mk st2
  TM.stop clock "SNAPSHOTS"
  return st3

/-- ode.py 161-164: a snapshot in the loop. -/
def timedLoopSnapshot (clock : ℕ → K) (mk : ODEState K U S → TM K S) (st : ODEState K U S) :
    TM K (ODEState K U S) := do
  TM.start clock "SNAPSHOTS"
  let st1 ← timedSnapshot mk st
  TM.stop clock "SNAPSHOTS"
  return st1

/-- ode.py 157-166: the `while self.t < T` loop. The result `none` means that `fuel` iterations were
not enough. -/
def timedLoop (clock : ℕ → K) (stp : K → U → Option K → TM K (K × U)) (mk : ODEState K U S → TM K S)
    (T : K) (logEvery : Bool) : ℕ → Option K → List K → ODEState K U S → TM K (Option (ODEState K U S))
  | 0, _, _, _ => return none
  | fuel + 1, target, downbeats, st =>
    if st.t < T then do
      let st1 ← timedTakeStep stp st target
      if target = some st1.t ∨ T ≤ st1.t ∨ logEvery = true then do
        let st2 ← timedLoopSnapshot clock mk st1
        match downbeats with
        | [] => timedLoop clock stp mk T logEvery fuel target [] st2
        | d :: ds =>
          if target = some st1.t then timedLoop clock stp mk T logEvery fuel (some d) ds st2
          else timedLoop clock stp mk T logEvery fuel target (d :: ds) st2
      else timedLoop clock stp mk T logEvery fuel target downbeats st1
    else return some st

/-- ode.py 153-167: first snapshot, loop and the two TOTAL calls around the loop. Reaching the end of
`fuel` is not an event of the program, so nothing is stopped then. -/
def timedMain (clock : ℕ → K) (stp : K → U → Option K → TM K (K × U)) (mk : ODEState K U S → TM K S)
    (T : K) (logEvery : Bool) (fuel : ℕ) (target : Option K) (downbeats : List K) (st : ODEState K U S) :
    TM K (Option (ODEState K U S)) := do
  let st1 ← timedSnapshot mk st
  TM.start clock "TOTAL"
  let r ← timedLoop clock stp mk T logEvery fuel target downbeats st1
  match r with
  | none => return none
  | some st2 => do
    TM.stop clock "TOTAL"
    return some st2

/-- ode.py 141-167: the final-time mode without saving. -/
def timedIntegrateT (clock : ℕ → K) (stp : K → U → Option K → TM K (K × U)) (mk : ODEState K U S → TM K S)
    (T : K) (exact : Bool) (downbeats : List K) (logEvery : Bool) (fuel : ℕ) (st : ODEState K U S) :
    TM K (Option (ODEState K U S)) :=
  if exact then
    match keyTimes downbeats T with
    | [] => TM.lift (.error .indexError)
    | d :: ds => timedMain clock stp mk T logEvery fuel (some d) ds st
  else timedMain clock stp mk T logEvery fuel none (keyTimes downbeats T) st

/-- ode.py 114-167 `integrate`. -/
def timedIntegrate (clock : ℕ → K) (stp : K → U → Option K → TM K (K × U)) (mk : ODEState K U S → TM K S)
    (fuel : ℕ) (a : IntegrateArgs K S) (st : ODEState K U S) : TM K (Option (ODEState K U S)) :=
  match a.T with
  | none => do
    let r ← timedIntegrateN clock stp mk a.n st
    return some r
  | some T =>
    match a.saved with
    | some l => return some { st with snapshots := l }
    | none => timedIntegrateT clock stp mk T a.exact a.downbeats a.logEvery fuel st

end

section
variable {K : Type} [Field K] [LinearOrder K] {V : Type} [AddCommGroup V] [Module K V]

/-- solver.py 840-847 and 856-862: the array `w` that `EulerSolver.snapshot` stores; `fv` is
`self.snapshots_as_fv_averages`. -/
def timedSolverSnapshot (clock : ℕ → K) (S : Scheme K V) (junk : Ix → V) (fv : Bool)
    (st : ODEState K (Ix → V) (Arr V)) : TM K (Arr V) :=
  timedPrimitives clock S st.t junk S.p (fun _ => 0) ⟨S.n, st.u⟩ fv

/-- solver.py 955-974 and ode.py 245-297: a run of the solver with a chosen method. -/
def timedRun (clock : ℕ → K) (S : Scheme K V) (junk : ℕ → Ix → V) (mem : Fin 3 → Ix → V) (fv : Bool)
    (fuel : ℕ) (m : Integrator) (a : IntegrateArgs K (Arr V)) (st : ODEState K (Ix → V) (Arr V)) :
    TM K (Option (ODEState K (Ix → V) (Arr V))) :=
  timedIntegrate clock (timedStepper (timedRHS clock S junk mem) m)
    (timedSolverSnapshot clock S (junk 4) fv) fuel a st

end

end FVHOE
