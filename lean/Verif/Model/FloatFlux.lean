import Verif.Model.FloatStep
import Verif.Model.Solver

/-!
The numerical fluxes of `fvhoe/solver.py` on a periodic domain with the arithmetic of the machine, without slope limiting:
the stencil sweeps round after every multiplication and every addition, in the order of the loop in fv.py 137-139.

Simplifications: the arrays are functions on the lattice, continued periodically, as in `Verif/Spec/Scheme.lean` (that the
slices of the arrays of the code hold these functions is shown there for exact arithmetic and does not depend on the
arithmetic); the conversion to primitive variables, the Riemann solver and the signal speed are arbitrary functions of
the values in a cell or on the two sides of a face, including their own rounding.
-/

namespace FVHOE

variable {W : Type}

/-- fv.py 135-139: `out = 0`, then `out += w * u[s]` for each weight and slice. The weights are quotients of integers,
rounded once. -/
def roundedSum (fl : ℚ → ℚ) : ℚ → List ℚ → ℤ → (ℤ → ℚ) → ℚ
  | out, [], _, _ => out
  | out, c :: cs, k, a => roundedSum fl (fl (out + fl (fl c * a k))) cs (k + 1) a

/-- fv.py 106-140 `stencil_sweep` along `d` with `2 r + 1` weights. -/
def roundedSweep (fl : ℚ → ℚ) (d : Fin 3) (r : ℕ) (ws : Except PyErr (List ℚ)) (a : FState W) : FState W := fun w i =>
  roundedSum fl 0 (ws.toOption.getD []) (-(r : ℤ)) fun k => a w (i + Pi.single d k)

/-- fv.py 143-159 `conservative_interpolation`. -/
def roundedInterp (fl : ℚ → ℚ) (p : ℕ) (d : Fin 3) (pos : String) (a : FState W) : FState W :=
  roundedSweep fl d (ceilHalf p) (conservativeWeights p pos) a

/-- fv.py 162-172 `transverse_reconstruction`. -/
def roundedTrans (fl : ℚ → ℚ) (p : ℕ) (d : Fin 3) (a : FState W) : FState W :=
  roundedSweep fl d (ceilHalf p) (transverseWeights p) a

/-- solver.py 87-152, 202-219: what the scheme is made of. `prim`, `riem` and `speed` stand for `compute_primitives`, the
Riemann solver and the signal speed of `hydro_dt` (hydro.py 290-292) with their own rounding. -/
structure RoundedScheme (W : Type) where
  n : Fin 3 → ℕ
  active : Fin 3 → Bool
  h : Fin 3 → ℚ
  p : Fin 3 → ℕ
  prim : (W → ℚ) → W → ℚ
  riem : Fin 3 → (W → ℚ) → (W → ℚ) → W → ℚ
  speed : (W → ℚ) → ℚ
  cfl : ℚ
  fixedDt : Option ℚ

/-- boundary_conditions.py with `periodic` on all sides: the cells repeat. -/
def wrapAround (n : Fin 3 → ℕ) (u : FState W) : FState W := fun w i => u w fun d => i d % (n d : ℤ)

namespace RoundedScheme

variable (S : RoundedScheme W) (fl : ℚ → ℚ)

/-- solver.py 753-799 `interpolate_primitives_from_conservatives` with fv.py 175-224. -/
def primAverages (a : FState W) : FState W :=
  let c := roundedInterp fl (S.p 2) 2 "c" (roundedInterp fl (S.p 1) 1 "c" (roundedInterp fl (S.p 0) 0 "c" a))
  let w : FState W := fun x i => S.prim (fun y => c y i) x
  roundedTrans fl (S.p 2) 2 (roundedTrans fl (S.p 1) 1 (roundedTrans fl (S.p 0) 0 w))

/-- solver.py 519-648: the flux in direction `d` from the averages of the primitive variables. -/
def flux (d : Fin 3) (v : FState W) : FState W :=
  let line := roundedInterp fl (S.p (centerOrder d).2) (centerOrder d).2 "c"
    (roundedInterp fl (S.p (centerOrder d).1) (centerOrder d).1 "c" v)
  let l := roundedInterp fl (S.p d) d "l" line
  let r := roundedInterp fl (S.p d) d "r" line
  let mid : FState W := fun x i => S.riem d (fun y => r y (i - Pi.single d 1)) (fun y => l y i) x
  roundedTrans fl (S.p (transverseOrder d).2) (transverseOrder d).2
    (roundedTrans fl (S.p (transverseOrder d).1) (transverseOrder d).1 mid)

/-- solver.py 504-515 with hydro.py 270-294: the prescribed step, or `CFL * h / np.max(...)` with the smallest spacing.
The ghost cells of a periodic domain repeat cells, so the maximum is that over the cells. -/
def size (v : FState W) : Except PyErr ℚ :=
  match S.fixedDt with
  | some dt => .ok dt
  | none => do
    let m ← npMax ((indexList S.n).map fun i => S.speed fun y => v y i)
    return fl (fl (S.cfl * min (min (S.h 0) (S.h 1)) (S.h 2)) / m)

/-- solver.py 422-453 `f` without a posteriori limiting. -/
def rhs : RHS ℚ (FState W) := fun _ _ u => do
  let v := S.primAverages fl (wrapAround S.n u)
  let dt ← S.size fl v
  return (dt, roundedEulerEquation fl S.active S.h fun d => S.flux fl d v)

end RoundedScheme

end FVHOE
