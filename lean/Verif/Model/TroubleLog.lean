import Verif.Model.Detect

/-!
Model of the trouble log of the solver (solver.py 400, 411-416, 794-838) and of `plotting_trouble`
(visualization.py 108-131).

The arrays "mean trouble", "mean NAD mag", "mean PAD mag" have a leading axis of five equal rows; one
row is kept. The shapes of the stored arrays and of the arrays logged are those of the mesh, so a log
entry is a function on the cells.
-/

namespace FVHOE

variable {K : Type} [Field K] [LinearOrder K]

/-- One log entry: trouble flags as numbers and the two violation magnitudes. -/
structure TroubleEntry (K : Type) where
  trouble : Ix → K
  nad : Ix → K
  pad : Ix → K

/-- Entrywise operation on the three arrays. -/
def TroubleEntry.map (f : K → K) (x : TroubleEntry K) : TroubleEntry K :=
  ⟨fun i => f (x.trouble i), fun i => f (x.nad i), fun i => f (x.pad i)⟩

/-- Sum of two entries. -/
def TroubleEntry.add (x y : TroubleEntry K) : TroubleEntry K :=
  ⟨fun i => x.trouble i + y.trouble i, fun i => x.nad i + y.nad i, fun i => x.pad i + y.pad i⟩

/-- `self.trouble_counter` and the three stored arrays. -/
structure TroubleLog (K : Type) where
  counter : ℕ
  mean : TroubleEntry K

/-- solver.py 400, 413-415: after construction the counter is 1 and the arrays are zero. -/
def TroubleLog.init : TroubleLog K := ⟨1, ⟨fun _ => 0, fun _ => 0, fun _ => 0⟩⟩

/-- solver.py 821-833: `log_troubles(trouble, NAD_mag, PAD_mag)`. -/
def TroubleLog.log (s : TroubleLog K) (x : TroubleEntry K) : TroubleLog K :=
  if s.counter = 0 then ⟨s.counter + 1, x⟩ else ⟨s.counter + 1, s.mean.add x⟩

/-- solver.py 809-820, 835-838: `log_troubles(reset=True)`. With a zero counter the first branch is
skipped and `None` is stored into an array, a TypeError. -/
def TroubleLog.reset (s : TroubleLog K) : Except PyErr (TroubleLog K) :=
  if 0 < s.counter then .ok ⟨0, s.mean.map (· / (s.counter : K))⟩ else .error .typeError

/-- One step (ode.py 178-193): every evaluation of the right-hand side logs one entry (solver.py 708),
then `step_helper_function` is called. -/
def TroubleLog.step (s : TroubleLog K) (stages : List (TroubleEntry K)) : Except PyErr (TroubleLog K) :=
  (stages.foldl TroubleLog.log s).reset

/-- Several steps. -/
def TroubleLog.run (s : TroubleLog K) (steps : List (List (TroubleEntry K))) :
    Except PyErr (TroubleLog K) :=
  steps.foldlM TroubleLog.step s

/-- visualization.py 108-131 `plotting_trouble` for arrays of shape `n`. -/
def plottingTrouble (n : Fin 3 → ℕ) (x : TroubleEntry K) (mode : String) (tol : K) :
    Except PyErr (Ix → ℕ) :=
  if ∀ i ∈ indexList n, (x.trouble i > 0 ↔ x.nad i > 0 ∨ x.pad i > 0) then
    if mode = "all" then .ok fun i => if x.pad i > 0 then 1 else if x.nad i > tol then 1 else 0
    else if mode = "NAD" then .ok fun i => if x.nad i > tol then 1 else 0
    else if mode = "PAD" then .ok fun i => if x.pad i > 0 then 1 else 0
    else .error .valueError
  else .error .valueError

/-- What `revise_fluxes` logs (solver.py 702-708): the flags as numbers, all 1 with `force_trouble`. -/
def Detected.entry (force : Bool) (D : Detected K) : TroubleEntry K :=
  ⟨fun i => if force || D.trouble.get i then 1 else 0, D.nadMag.get, D.padMag.get⟩

end FVHOE
