import Verif.Model.SedovAna
import Mathlib.Analysis.Calculus.Deriv.Basic

/-!
C92, the notions of the statement: the equations, the jump conditions, the energy.
-/

set_option linter.unusedSectionVars false

namespace FVHOE

/-- The Euler equations of a flow with planar (`n = 1`), cylindrical (`n = 2`) or spherical (`n = 3`) symmetry at radius `x`
and time `t`: mass, momentum and pressure. -/
def RadialEuler (g : ℝ) (n : ℕ) (ρ w P : ℝ → ℝ → ℝ) (x t : ℝ) : Prop :=
  ∃ ρt ρx wt wx Pt Px : ℝ,
    HasDerivAt (fun s => ρ x s) ρt t ∧ HasDerivAt (fun y => ρ y t) ρx x ∧
    HasDerivAt (fun s => w x s) wt t ∧ HasDerivAt (fun y => w y t) wx x ∧
    HasDerivAt (fun s => P x s) Pt t ∧ HasDerivAt (fun y => P y t) Px x ∧
    ρt + w x t * ρx + ρ x t * (wx + (n - 1) * w x t / x) = 0 ∧
    ρ x t * (wt + w x t * wx) + Px = 0 ∧
    Pt + w x t * Px + g * P x t * (wx + (n - 1) * w x t / x) = 0

/-- Jump conditions of a shock of speed `s` between the state `(ρ, w, P)` and gas at rest with density `ρ₀` and no
pressure. -/
def JumpConditions (g s ρ w P ρ₀ : ℝ) : Prop :=
  s * (ρ - ρ₀) = ρ * w ∧ s * (ρ * w) = ρ * w ^ 2 + P ∧
  s * (ρ * w ^ 2 / 2 + P / (g - 1)) = w * (ρ * w ^ 2 / 2 + P / (g - 1) + P)

/-- Energy in the shells between consecutive radii, the first one beginning at `prev`; `κ` is the volume of the unit ball. -/
noncomputable def shellEnergy (g κ : ℝ) (n : ℕ) : ℝ → List Sample → ℝ
  | _, [] => 0
  | prev, s :: l => (s.d * s.u ^ 2 / 2 + s.p / (g - 1)) * (κ * (s.r ^ n - prev ^ n)) + shellEnergy g κ n s.r l

end FVHOE
