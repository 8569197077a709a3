import Verif.Model.FloatTime
import Verif.Model.Arr

/-!
The flux divergence of `fvhoe/solver.py` and the steppers of `fvhoe/ode.py` with the arithmetic of the machine: every
elementary operation of numpy is followed by a rounding `fl`, in the order in which the code carries them out.

Numbers are rationals, as in `Verif/Model/FloatTime.lean`; infinities and NaN are left out. The fluxes that
`euler_equation` receives, and the right-hand side that a stepper calls, are arbitrary functions: their own rounding
errors are part of them.
-/

namespace FVHOE

/-- An array over variables and cells. -/
abbrev FState (W : Type) := W → Ix → ℚ

variable {W : Type}

/-- `a + b` of two arrays. -/
def FState.plus (fl : ℚ → ℚ) (a b : FState W) : FState W := fun w i => fl (a w i + b w i)

/-- `c * a` of a number and an array. -/
def FState.times (fl : ℚ → ℚ) (c : ℚ) (a : FState W) : FState W := fun w i => fl (c * a w i)

/-- solver.py 747, 749, 751: `-(1 / h) * (F[1:] - F[:-1])` along the direction `d`. -/
def roundedDiff (fl : ℚ → ℚ) (h : ℚ) (d : Fin 3) (F : FState W) : FState W :=
  FState.times fl (-fl (1 / h)) fun w i => fl (F w (i + Pi.single d 1) - F w i)

/-- solver.py 734-752 `euler_equation`: the three terms are added one after the other to `dudt = 0.0`. -/
def roundedEulerEquation (fl : ℚ → ℚ) (act : Fin 3 → Bool) (h : Fin 3 → ℚ) (F : Fin 3 → FState W) : FState W :=
  ([0, 1, 2] : List (Fin 3)).foldl
    (fun dudt d => if act d then dudt.plus fl (roundedDiff fl (h d) d (F d)) else dudt) fun _ _ => 0

/-- ode.py 248-297: the four steppers, split at `_hit_target` as in `Verif/Model/FloatTime.lean`. The constant `1 / 6` is
rounded; `0.5`, `0.25`, `2` and `4` are numbers of every format. -/
def roundedProposal (fl : ℚ → ℚ) (f : RHS ℚ (FState W)) (m : Integrator) : Proposal ℚ (FState W) := fun t u => do
  let (dt0, k0) ← f t t u
  return (dt0, fun dt => match m with
    | .euler => .ok (u.plus fl (k0.times fl dt))
    | .ssprk2 => do
      let u1 := u.plus fl (k0.times fl dt)
      let (_, k1) ← f t t u1
      return (u.times fl (1 / 2)).plus fl ((u1.plus fl (k1.times fl dt)).times fl (1 / 2))
    | .ssprk3 => do
      let (_, k1) ← f t (fl (t + dt)) (u.plus fl (k0.times fl dt))
      let (_, k2) ← f t (fl (t + fl (1 / 2 * dt)))
        ((u.plus fl (k0.times fl (fl (1 / 4 * dt)))).plus fl (k1.times fl (fl (1 / 4 * dt))))
      return u.plus fl (((k0.plus fl k1).plus fl (k2.times fl 4)).times fl (fl (fl (1 / 6) * dt)))
    | .rk4 => do
      let (_, k1) ← f t (fl (t + fl (1 / 2 * dt))) (u.plus fl (k0.times fl (fl (1 / 2 * dt))))
      let (_, k2) ← f t (fl (t + fl (1 / 2 * dt))) (u.plus fl (k1.times fl (fl (1 / 2 * dt))))
      let (_, k3) ← f t (fl (t + dt)) (u.plus fl (k2.times fl dt))
      return u.plus fl
        ((((k0.plus fl (k1.times fl 2)).plus fl (k2.times fl 2)).plus fl k3).times fl (fl (fl (1 / 6) * dt))))

end FVHOE
