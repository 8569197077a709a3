import Mathlib.Algebra.Order.Field.Basic
import Verif.Model.Arr

/-!
Model of the pointwise gas dynamics in `fvhoe/hydro.py` 140-294.

Numbers are elements of an ordered field (exact arithmetic, no rounding, overflow or NaN). Where the
code divides by zero numpy yields inf/nan; here `x / 0 = 0`, so theorems about quotients assume the
divisor is not zero. `np.sqrt` is a parameter of the model.

Rows of the code's arrays are the constructors of `Var`: row 0 `rho`, rows 1-3 `mom 0..2` (momentum
or velocity), row 4 `en` (energy or pressure), rows 5.. `ps 0..` (passive scalars). That the names of
`HydroState` address those rows is C48.
-/

namespace FVHOE

/-- The rows of a state array with `np` passive scalars (hydro.py 36-64). -/
inductive Var (np : ℕ) where
  | rho
  | mom (d : Fin 3)
  | en
  | ps (j : Fin np)
  deriving DecidableEq

/-- The column of variables at one point. -/
abbrev State (K : Type) (np : ℕ) := Var np → K

/-- The numeric parameters of the gas: `gamma`, `csq_floor`, and the square root. -/
structure Gas (K : Type) where
  gamma : K
  csqFloor : K
  sqrt : K → K

variable {K : Type} [Field K] {np : ℕ}

/-- `np.sum(..., axis=0)` over the three components. -/
def sum3 (f : Fin 3 → K) : K := f 0 + f 1 + f 2

/-- hydro.py 146-170 `compute_primitives`. -/
def computePrimitives (gamma : K) (u : State K np) : State K np
  | .rho => u .rho
  | .mom d => u (.mom d) / u .rho
  | .en => (gamma - 1) * (u .en - (1 / 2) * sum3 fun d => u (.mom d) * (u (.mom d) / u .rho))
  | .ps j => u (.ps j) / u .rho

/-- hydro.py 173-196 `compute_conservatives`. -/
def computeConservatives (gamma : K) (w : State K np) : State K np
  | .rho => w .rho
  | .mom d => w .rho * w (.mom d)
  | .en => w .en / (gamma - 1) + (1 / 2) * sum3 fun d => w .rho * w (.mom d) * w (.mom d)
  | .ps j => w .rho * w (.ps j)

/-- hydro.py 213-246 `compute_fluxes`. -/
def computeFluxes (w u : State K np) (dim : Fin 3) (includePressure : Bool) : State K np
  | .rho => w (.mom dim) * w .rho
  | .mom d =>
    if includePressure = true ∧ d = dim then w (.mom dim) * u (.mom d) + w .en
    else w (.mom dim) * u (.mom d)
  | .en =>
    if includePressure = true then w (.mom dim) * u .en + w (.mom dim) * w .en
    else w (.mom dim) * u .en
  | .ps j => w (.mom dim) * u (.ps j)

variable [LinearOrder K]

/-- hydro.py 199-210 `compute_sound_speed`. -/
def soundSpeed (G : Gas K) (w : State K np) : K :=
  let csq := G.gamma * w .en / w .rho
  G.sqrt (if csq > G.csqFloor then csq else G.csqFloor)

/-- hydro.py 249-267 `advection_dt`. -/
def advectionDt (h vx vy vz CFL : K) : K := CFL * h / (vx + vy + vz)

/-- All indices of an array with the given sizes. -/
def indexList (shape : Fin 3 → ℕ) : List Ix :=
  (List.range (shape 0)).flatMap fun a : ℕ => (List.range (shape 1)).flatMap fun b : ℕ =>
    (List.range (shape 2)).map fun c : ℕ => (![(a : ℤ), (b : ℤ), (c : ℤ)] : Ix)

/-- `np.max` of all entries; raises ValueError on an empty array. -/
def npMax : List K → Except PyErr K
  | [] => .error .valueError
  | x :: xs => .ok (xs.foldl max x)

/-- hydro.py 289-291: the summed velocity magnitudes plus `ndim` sound speeds at one point. -/
def signalSpeed (G : Gas K) (ndim : ℕ) (w : State K np) : K :=
  (sum3 fun d => |w (.mom d)|) + (ndim : K) * soundSpeed G w

/-- hydro.py 270-294 `hydro_dt`. -/
def hydroDt (G : Gas K) (w : Arr (State K np)) (h : K) (ndim : ℕ) (CFL : K) : Except PyErr K := do
  let m ← npMax ((indexList w.shape).map fun j => signalSpeed G ndim (w.get j))
  .ok (CFL * h / m)

/-- boundary_conditions.py 139-149 with `negate_var=f"m{dim}"` (368-376): the row of the normal
momentum is multiplied by -1. -/
def negateMom (d : Fin 3) (u : State K np) : State K np := fun i =>
  if i = .mom d then -1 * u i else u i

end FVHOE
