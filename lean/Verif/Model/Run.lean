import Verif.Model.ODE

/-!
Model of `EulerSolver.run` (fvhoe/solver.py 955-974).
-/

namespace FVHOE

/-- solver.py 963-974 `run`: `p` is the degree triple, `method` calls `self.euler`, `self.ssprk2`,
`self.ssprk3` or `self.rk4` with the arguments. -/
def runSolver {α R : Type} (p : Fin 3 → ℤ) (method : Integrator → α → R) (args : α) : Except PyErr R :=
  match min (max (max (p 0) (p 1)) (p 2)) 3 with
  | 0 => .ok (method .euler args)
  | 1 => .ok (method .ssprk2 args)
  | 2 => .ok (method .ssprk3 args)
  | 3 => .ok (method .rk4 args)
  | _ => .error .valueError

/-- ode.py 245-297: the four methods set the stepper and call `integrate` with the arguments. -/
def callIntegrator {K U S : Type} [Field K] [LinearOrder K] [AddCommGroup U] [Module K U]
    (f : RHS K U) (mk : ODEState K U S → S) (fuel : ℕ) (st : ODEState K U S) (m : Integrator)
    (a : IntegrateArgs K S) : Integrator × Option (Outcome K U S) :=
  (m, st.integrate (stepper f m) mk fuel a)

end FVHOE
