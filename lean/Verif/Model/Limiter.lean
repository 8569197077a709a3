import Verif.Model.Broadcast
import Verif.Model.Detect
import Verif.Model.Euler

/-!
The a-posteriori limiter of `EulerSolver` (solver.py 364-400, 653-732): detection, spreading and
fallback slopes put together.
-/

namespace FVHOE

variable {K : Type} [Field K] [LinearOrder K] {np : ℕ}

/-- The slope limiters of the fallback scheme; any other name raises ValueError when the fallback is
computed and is not modelled. `None` is `Option.none`. -/
inductive SlopeKind where
  | minmod | moncen
  deriving DecidableEq

/-- The limiter arguments of `EulerSolver` (solver.py 65-75, 364-400); `tiny` is the constant 1e-16 of
`minmod`. -/
structure LimiterOpts (K : Type) extends DetectOpts K where
  convex : Bool
  force : Bool
  slope : Option SlopeKind
  tiny : K

/-- solver.py 392-396: the PAD bounds used when none are given. -/
def defaultPad : List (Var 0 × Option K × Option K) := [(.rho, some 0, none), (.en, some 0, none)]

/-- `w[hs("active_scalars")]` (solver.py 692-693), one column. -/
def activePart (w : State K np) : State K 0
  | .rho => w .rho
  | .mom d => w (.mom d)
  | .en => w .en

/-- The slope limiter applied to every row. -/
def SlopeKind.fn (tiny : K) : SlopeKind → State K np → State K np → State K np
  | .minmod => fun a b v => FVHOE.minmod tiny (a v) (b v)
  | .moncen => fun a b v => FVHOE.moncen (a v) (b v)

/-- solver.py 244-250: `self.dims`. -/
def EulerConfig.dims (c : EulerConfig K np) : List (Fin 3) :=
  ([0, 1, 2] : List (Fin 3)).filter fun d => c.scheme.active d

/-- solver.py 724-726: `self.bc.x == ("periodic", "periodic")`. -/
def EulerConfig.isPeriodic (c : EulerConfig K np) (d : Fin 3) : Bool :=
  decide (c.bc.kind d .l = .periodic ∧ c.bc.kind d .r = .periodic)

/-- solver.py 690-727: the limiter in the form the right-hand side uses it. -/
def LimiterOpts.limiting (o : LimiterOpts K) (dims : List (Fin 3)) (periodic : Fin 3 → Bool) :
    Limiting K (State K np) where
  detect := fun w w' =>
    (detectTroubledCells o.toDetectOpts dims (w.map activePart) (w'.map activePart)).map (·.trouble)
  broadcast := broadcastTrouble K o.convex periodic dims
  force := o.force
  slope := o.slope.map (SlopeKind.fn o.tiny)

/-- The solver with `a_posteriori_slope_limiting=True` and the given options, or with it False. -/
def EulerConfig.limited (c : EulerConfig K np) : Option (LimiterOpts K) → EulerConfig K np
  | none => { c with limiting := none }
  | some o => { c with limiting := some (o.limiting c.dims c.isPeriodic) }

end FVHOE
