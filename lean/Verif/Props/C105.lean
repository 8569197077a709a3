import Verif.Props.C65
import Mathlib.Analysis.SpecialFunctions.Trigonometric.Basic
import Mathlib.Analysis.Real.Sqrt

/-!
C105. The shocks of the built-in initial conditions satisfy the jump conditions.
-/

set_option linter.unusedSectionVars false

namespace FVHOE

/-- The energy per volume. -/
noncomputable def GasState.energy (γ : ℝ) (a : GasState ℝ) : ℝ := a.P / (γ - 1) + a.rho * (∑ d, a.v d ^ 2) / 2

/-- The speed of the gas through a front with unit normal `ν` that moves along it with speed `s`. -/
noncomputable def GasState.through (a : GasState ℝ) (ν : Fin 3 → ℝ) (s : ℝ) : ℝ := ∑ d, a.v d * ν d - s

/-- The Rankine-Hugoniot conditions for a front with unit normal `ν` that moves along it with speed `s`: the fluxes of mass,
momentum and energy through the front are the same on both sides. -/
structure RankineHugoniot (γ : ℝ) (ν : Fin 3 → ℝ) (s : ℝ) (a b : GasState ℝ) : Prop where
  mass : a.rho * a.through ν s = b.rho * b.through ν s
  momentum : ∀ d, a.rho * a.v d * a.through ν s + a.P * ν d = b.rho * b.v d * b.through ν s + b.P * ν d
  energy : a.energy γ * a.through ν s + a.P * (∑ d, a.v d * ν d) = b.energy γ * b.through ν s + b.P * ∑ d, b.v d * ν d

/-- The speed of sound. -/
noncomputable def GasState.sound (γ : ℝ) (a : GasState ℝ) : ℝ := √(γ * a.P / a.rho)

/-- Gas at rest of density `r` and pressure 1. -/
noncomputable def atRest (r : ℝ) : GasState ℝ := ⟨r, 0, 1⟩

/-- Behind the shock of the double Mach reflection. -/
noncomputable def dmrBehind : GasState ℝ := ⟨8, ![33 * √3 / 8, -33 / 8, 0], 233 / 2⟩

/-- The direction in which it moves. -/
noncomputable def dmrNormal : Fin 3 → ℝ := ![√3 / 2, -1 / 2, 0]

/-- **C105** (double Mach reflection). With `gamma = 1.4`, `DoubleMachReflection2D` jumps on a line that meets y = 0 at x = 1/6 at an angle of 60
degrees. Ahead of it the gas is at rest with speed of sound 1; behind it the rows hold the state behind a shock of Mach number 10,
up to an error of the x-velocity of less than 3.2e-4. -/
theorem C105_dmr (m : Slab ℝ) (junk : ℕ → Ix → ℝ) :
    (∑ d, dmrNormal d ^ 2 = 1 ∧ RankineHugoniot (7 / 5) dmrNormal 10 dmrBehind (atRest (7 / 5)) ∧ (atRest (7 / 5)).sound (7 / 5) = 1) ∧
    ∃ rows, (Scenario.doubleMach (7 / 5)).rows realFns m junk = .ok rows ∧
      ∀ j, (∑ d, dmrNormal d * ((m.coord d).get j - ![1 / 6, 0, 0] d) < 0 →
          (gasAt rows j).rho = dmrBehind.rho ∧ |(gasAt rows j).v 0 - dmrBehind.v 0| < 3.2e-4 ∧ (gasAt rows j).v 1 = dmrBehind.v 1 ∧
          (gasAt rows j).v 2 = dmrBehind.v 2 ∧ (gasAt rows j).P = dmrBehind.P) ∧
        (0 ≤ ∑ d, dmrNormal d * ((m.coord d).get j - ![1 / 6, 0, 0] d) → gasAt rows j = atRest (7 / 5)) := by
  have h3 : (0 : ℝ) < √3 := Real.sqrt_pos.2 (by norm_num)
  have h3s : √3 ^ 2 = (3 : ℝ) := Real.sq_sqrt (by norm_num)
  have h3l : (1.73205 : ℝ) < √3 := Real.lt_sqrt_of_sq_lt (by norm_num)
  have h3u : √3 < (1.73206 : ℝ) := (Real.sqrt_lt' (by norm_num)).2 (by norm_num)
  refine ⟨⟨?_, ?_, ?_⟩, ?_⟩
  · simp only [dmrNormal, Fin.sum_univ_three, Matrix.cons_val]
    norm_num [div_pow, h3s]
  · have ht : dmrBehind.through dmrNormal 10 = -7 / 4 := by
      simp only [GasState.through, dmrBehind, dmrNormal, Fin.sum_univ_three, Matrix.cons_val]
      nlinarith [h3s]
    have hr : (atRest (7 / 5)).through dmrNormal 10 = -10 := by simp [GasState.through, atRest]
    refine ⟨?_, fun d => ?_, ?_⟩
    · rw [ht, hr]
      norm_num [dmrBehind, atRest]
    · rw [ht, hr]
      fin_cases d <;> (norm_num [dmrBehind, atRest, dmrNormal]; try ring)
    · rw [ht, hr]
      simp only [GasState.energy, dmrBehind, atRest, dmrNormal, Fin.sum_univ_three, Matrix.cons_val, Pi.zero_apply]
      nlinarith [h3s]
  · norm_num [GasState.sound, atRest]
  · obtain ⟨rows, hrows, hj⟩ := C65_state realFns (.doubleMach (7 / 5)) trivial m junk
    refine ⟨rows, hrows, fun j => ?_⟩
    rw [hj]
    have htan : realFns.tan (realFns.pi / 3) = √3 := Real.tan_pi_div_three
    have hc : ((m.coord 0).get j < 1 / 6 + (m.coord 1).get j / realFns.tan (realFns.pi / 3)) ↔
        ∑ d, dmrNormal d * ((m.coord d).get j - ![1 / 6, 0, 0] d) < 0 := by
      rw [htan, ← sub_lt_iff_lt_add', lt_div_iff₀ h3]
      simp only [dmrNormal, Fin.sum_univ_three, Matrix.cons_val]
      constructor <;> intro h <;> nlinarith
    simp only [Scenario.state, hc]
    constructor
    · intro h
      rw [if_pos h]
      refine ⟨rfl, ?_, by norm_num [dmrBehind], rfl, rfl⟩
      simp only [dmrBehind, Matrix.cons_val_zero]
      rw [abs_lt]
      constructor <;> norm_num at h3l h3u ⊢ <;> linarith
    · intro h
      rw [if_neg (not_lt.2 h)]
      rfl

/-- **C105** (rounding). With the numbers of the code it is no shock, whatever its speed: the x-velocity 7.145 and the y-velocity -4.125 are not
at right angles to the line. -/
theorem C105_dmr_violated (x y : Fin 3 → ℝ) (hx : ∑ d, dmrNormal d * (x d - ![1 / 6, 0, 0] d) < 0)
    (hy : 0 ≤ ∑ d, dmrNormal d * (y d - ![1 / 6, 0, 0] d)) (s : ℝ) :
    ¬ RankineHugoniot (7 / 5) dmrNormal s ((Scenario.doubleMach (7 / 5)).state realFns x)
      ((Scenario.doubleMach (7 / 5)).state realFns y) := by
  have h3 : (0 : ℝ) < √3 := Real.sqrt_pos.2 (by norm_num)
  have h3s : √3 ^ 2 = (3 : ℝ) := Real.sq_sqrt (by norm_num)
  have htan : realFns.tan (realFns.pi / 3) = √3 := Real.tan_pi_div_three
  have hc (x : Fin 3 → ℝ) : (x 0 < 1 / 6 + x 1 / realFns.tan (realFns.pi / 3)) ↔
      ∑ d, dmrNormal d * (x d - ![1 / 6, 0, 0] d) < 0 := by
    rw [htan, ← sub_lt_iff_lt_add', lt_div_iff₀ h3]
    simp only [dmrNormal, Fin.sum_univ_three, Matrix.cons_val]
    constructor <;> intro h <;> nlinarith
  intro h
  simp only [Scenario.state, hc, if_pos hx, if_neg (not_lt.2 hy)] at h
  have h0 := h.momentum 0
  have h1 := h.momentum 1
  set q := GasState.through ⟨8, ![1429 / 200, -(33 / 8), 0], 233 / 2⟩ dmrNormal s with hq
  simp only [dmrNormal, Matrix.cons_val, Pi.zero_apply, mul_zero, zero_mul, zero_add, one_mul] at h0 h1
  have e1 : q = -7 / 4 := by linarith
  rw [e1] at h0
  have e2 : √3 = 8 * (1429 / 200) * (7 / 4) * 4 / 231 := by linarith
  rw [e2] at h3s
  norm_num at h3s

/-- **C105** (other gases). The argument `gamma` is documented as the specific heat ratio, but the state behind the front does not depend on it: for
any other value, even with exact velocities, masses and momenta are not conserved across the front, whatever its speed. -/
theorem C105_gamma_violated (γ s : ℝ) (hγ : γ ≠ 7 / 5) : ¬ RankineHugoniot γ dmrNormal s dmrBehind (atRest γ) := by
  intro h
  have h3s : √3 ^ 2 = (3 : ℝ) := Real.sq_sqrt (by norm_num)
  have h0 := h.mass
  have h1 := h.momentum 1
  have ht : dmrBehind.through dmrNormal s = 33 / 4 - s := by
    simp only [GasState.through, dmrBehind, dmrNormal, Fin.sum_univ_three, Matrix.cons_val]
    nlinarith [h3s]
  have hr : (atRest γ).through dmrNormal s = -s := by simp [GasState.through, atRest]
  rw [ht, hr] at h0 h1
  simp only [dmrBehind, atRest, dmrNormal, Matrix.cons_val, Pi.zero_apply] at h0 h1
  have e1 : s = 10 := by linarith
  rw [e1] at h0
  exact hγ (by linarith)

/-- Behind the shock of the Shu-Osher problem, along a direction. -/
noncomputable def shuBehind (d : Fin 3) : GasState ℝ := ⟨27 / 7, Pi.single d (4 * √35 / 9), 31 / 3⟩

/-- **C105** (Shu-Osher problem). For each direction, `ShuOsher1D` jumps where the coordinate is 1. Behind the rows hold, up to less than
1.5e-7, 3.3e-7 and 3.4e-6, density, velocity and pressure behind a shock of Mach number 3 into gas of density 1 and pressure 1 at rest;
ahead the gas is at rest with pressure 1, and its density is 1 up to the waves of amplitude 1/5. -/
theorem C105_shu (dim : String) (hd : dim ∈ ["x", "y", "z"]) (m : Slab ℝ) (junk : ℕ → Ix → ℝ) :
    (RankineHugoniot (7 / 5) (Pi.single (axisOf dim) 1) (3 * (atRest 1).sound (7 / 5)) (shuBehind (axisOf dim)) (atRest 1)) ∧
    ∃ rows, (Scenario.shuOsher dim).rows realFns m junk = .ok rows ∧
      ∀ j, ((m.coord (axisOf dim)).get j < 1 →
          |(gasAt rows j).rho - (shuBehind (axisOf dim)).rho| < 1.5e-7 ∧
          (∀ d, |(gasAt rows j).v d - (shuBehind (axisOf dim)).v d| < 3.3e-7) ∧ |(gasAt rows j).P - (shuBehind (axisOf dim)).P| < 3.4e-6) ∧
        (1 ≤ (m.coord (axisOf dim)).get j → |(gasAt rows j).rho - 1| ≤ 1 / 5 ∧ (gasAt rows j).v = 0 ∧ (gasAt rows j).P = 1) := by
  have h35 : √35 ^ 2 = (35 : ℝ) := Real.sq_sqrt (by norm_num)
  have hl : (5.9160797 : ℝ) < √35 := Real.lt_sqrt_of_sq_lt (by norm_num)
  have hu : √35 < (5.9160799 : ℝ) := (Real.sqrt_lt' (by norm_num)).2 (by norm_num)
  have hs : (atRest 1).sound (7 / 5) = √35 / 5 := by
    unfold GasState.sound atRest
    rw [show (7 / 5 * 1 / 1 : ℝ) = 35 / 5 ^ 2 by norm_num, Real.sqrt_div (by norm_num), Real.sqrt_sq (by norm_num)]
  constructor
  · generalize axisOf dim = d
    have hsum (x : ℝ) : ∑ e, (Pi.single d x : Fin 3 → ℝ) e * (Pi.single d (1 : ℝ) : Fin 3 → ℝ) e = x := by
      rw [Finset.sum_eq_single d (fun e _ he => by rw [Pi.single_eq_of_ne he, zero_mul]) (by simp)]
      simp
    have hsq (x : ℝ) : ∑ e, (Pi.single d x : Fin 3 → ℝ) e ^ 2 = x ^ 2 := by
      rw [Finset.sum_eq_single d (fun e _ he => by rw [Pi.single_eq_of_ne he]; norm_num) (by simp)]
      simp
    have ht : (shuBehind d).through (Pi.single d 1) (3 * (√35 / 5)) = -7 * √35 / 45 := by
      unfold GasState.through shuBehind
      rw [hsum]
      ring
    have hr : (atRest 1).through (Pi.single d 1) (3 * (√35 / 5)) = -3 * √35 / 5 := by
      simp [GasState.through, atRest]
      ring
    rw [hs]
    refine ⟨?_, fun e => ?_, ?_⟩
    · rw [ht, hr]
      simp only [shuBehind, atRest]
      ring
    · rw [ht, hr]
      simp only [shuBehind, atRest]
      by_cases he : e = d
      · subst he
        simp only [Pi.single_eq_same, Pi.zero_apply]
        nlinarith
      · simp [Pi.single_eq_of_ne he]
    · rw [ht, hr]
      unfold GasState.energy
      simp only [shuBehind, atRest, hsum, hsq, Pi.zero_apply]
      norm_num
      nlinarith [h35]
  · obtain ⟨rows, hrows, hj⟩ := C65_state realFns (.shuOsher dim) hd m junk
    refine ⟨rows, hrows, fun j => ?_⟩
    rw [hj]
    simp only [Scenario.state]
    constructor
    · intro h
      rw [if_pos h]
      refine ⟨by norm_num [shuBehind, abs_lt], fun d => ?_, by norm_num [shuBehind, abs_lt]⟩
      simp only [shuBehind]
      by_cases he : d = axisOf dim
      · rw [he, Pi.single_eq_same, Pi.single_eq_same, abs_lt]
        constructor <;> norm_num at hl hu ⊢ <;> linarith
      · rw [Pi.single_eq_of_ne he, Pi.single_eq_of_ne he]
        norm_num
    · intro h
      rw [if_neg (not_lt.2 h)]
      refine ⟨?_, rfl, rfl⟩
      have := (realFns_sin (5 * ((m.coord (axisOf dim)).get j - 5))).1
      rw [abs_le]
      constructor <;> simp only <;> linarith

/-- A point on each side of the front of the double Mach reflection. -/
example : ∑ d, dmrNormal d * ((![0, 0, 0] : Fin 3 → ℝ) d - ![1 / 6, 0, 0] d) < 0 ∧
    0 ≤ ∑ d, dmrNormal d * ((![3, 0, 0] : Fin 3 → ℝ) d - ![1 / 6, 0, 0] d) := by
  have h3 : (0 : ℝ) < √3 := Real.sqrt_pos.2 (by norm_num)
  simp only [dmrNormal, Fin.sum_univ_three, Matrix.cons_val]
  constructor <;> nlinarith

end FVHOE
