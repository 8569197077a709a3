import Mathlib.Algebra.Order.Field.Basic
import Verif.Model.Hydro

/-!
Specification of ideal-gas dynamics, written down independently of the model's functions (it shares
only the names of the variables).
-/

namespace FVHOE

variable {K : Type} [Field K] {np : ℕ}

/-- Total energy density of a primitive state. -/
def totalEnergy (gamma : K) (w : State K np) : K :=
  w .en / (gamma - 1) +
    w .rho * (w (.mom 0) ^ 2 + w (.mom 1) ^ 2 + w (.mom 2) ^ 2) / 2

/-- The conserved densities of a primitive state: mass, momentum, energy, passive masses. -/
def conserved (gamma : K) (w : State K np) : State K np
  | .rho => w .rho
  | .mom d => w .rho * w (.mom d)
  | .en => totalEnergy gamma w
  | .ps j => w .rho * w (.ps j)

/-- The Euler flux in direction `d` of a primitive state. -/
def eulerFlux (gamma : K) (d : Fin 3) (w : State K np) : State K np
  | .rho => w .rho * w (.mom d)
  | .mom e => w .rho * w (.mom d) * w (.mom e) + (if e = d then w .en else 0)
  | .en => w (.mom d) * (totalEnergy gamma w + w .en)
  | .ps j => w .rho * w (.mom d) * w (.ps j)

/-- The flux of a pressureless flow: everything is carried with the velocity. -/
def carriedFlux (gamma : K) (d : Fin 3) (w : State K np) : State K np :=
  fun i => w (.mom d) * conserved gamma w i

/-- Mirror image of a state in direction `d`: the normal component changes sign. -/
def mirrorState (d : Fin 3) (w : State K np) : State K np
  | .mom e => if e = d then - w (.mom e) else w (.mom e)
  | i => w i

variable [LinearOrder K]

/-- `s` is a square-root function. -/
def IsSqrt (s : K → K) : Prop := ∀ x, 0 ≤ x → 0 ≤ s x ∧ s x * s x = x

/-- `c` is the sound speed of `w` with the floor applied: `c² = max(γP/ρ, floor)`, `c ≥ 0`. -/
def IsSoundSpeed (G : Gas K) (w : State K np) (c : K) : Prop :=
  0 ≤ c ∧ c ^ 2 = max (G.gamma * w .en / w .rho) G.csqFloor

end FVHOE
