import Verif.Model.Solver

/-!
The scheme of `EulerSolver` (solver.py 42-218): the pipeline of `Verif/Model/Solver.lean` with the
physics of `Verif/Model/Hydro.lean` and `Verif/Model/Riemann.lean`.
-/

namespace FVHOE

variable {K : Type} [Field K] [LinearOrder K] {np : ℕ}

/-- The arguments of `EulerSolver` (solver.py 42-107) that the right-hand side reads: the gas
(`gamma`, `csq_floor`), `riemann_solver`, the mesh, the degrees, the spacings of solver.py 231-234,
`CFL`, `fixed_dt`, the boundary condition and the limiter. -/
structure EulerConfig (K : Type) (np : ℕ) where
  gas : Gas K
  riem : RiemannKind
  n : Fin 3 → ℕ
  p : Fin 3 → ℕ
  h : Fin 3 → K
  cfl : K
  fixedDt : Option K
  bc : BC K (State K np)
  limiting : Option (Limiting K (State K np))

/-- The right-hand side's view of the configured solver: `compute_primitives` (solver.py 783-787),
the Riemann solver (185-193, 584-604), `hydro_dt` (503-512), and the negation of the normal momentum
on reflective sides. -/
def EulerConfig.scheme (c : EulerConfig K np) : Scheme K (State K np) where
  n := c.n
  p := c.p
  h := c.h
  prim := computePrimitives c.gas.gamma
  riem := fun d => riemann c.riem c.gas d
  speed := signalSpeed c.gas
  negate := negateMom
  cfl := c.cfl
  fixedDt := c.fixedDt
  bc := c.bc
  limiting := c.limiting

/-- `hydro_dt` as used by the solver is `hydro_dt` of hydro.py. -/
theorem hydroDt_eq (G : Gas K) (w : Arr (State K np)) (h : K) (ndim : ℕ) (CFL : K) :
    hydroDt G w h ndim CFL = cflDt (signalSpeed G ndim) w h CFL := rfl

/-- A right-hand side as the integrators see it: at every call the evaluation of solver.py 422-427
with whatever the uninitialised memory and the stored flux arrays hold at that call. -/
def IsSolverRHS {V : Type} [AddCommGroup V] [Module K V] (S : Scheme K V) (f : RHS K (Ix → V)) : Prop :=
  ∀ s t u, ∃ junk mem, f s t u = solverRHS S junk mem s t u

end FVHOE
