import Verif.Props.C79
import Verif.Props.C89

/-!
C107: time steps taken from `advection_dt`.
-/

set_option linter.unusedSectionVars false

namespace FVHOE

variable {K : Type} [Field K] [LinearOrder K] [IsStrictOrderedRing K] {np : ℕ}

/-- **C107** For velocities that do not point backwards, not all zero, a positive spacing and CFL number, `advection_dt` is
positive and the distances crossed in that time along the three axes, measured in cells, add up to exactly the CFL number. -/
theorem C107_crossing (h CFL : K) (v : Fin 3 → K) (hh : 0 < h) (hC : 0 < CFL) (hv : ∀ d, 0 ≤ v d) (h0 : ∃ d, v d ≠ 0) :
    0 < advectionDt h (v 0) (v 1) (v 2) CFL ∧
      ∑ d, advectionDt h (v 0) (v 1) (v 2) CFL * |v d| / h = CFL := by
  have hs : 0 < v 0 + v 1 + v 2 := by
    obtain ⟨d, hd⟩ := h0
    have hd' := lt_of_le_of_ne (hv d) (Ne.symm hd)
    have a0 := hv 0
    have a1 := hv 1
    have a2 := hv 2
    match d with
    | 0 => linarith
    | 1 => linarith
    | 2 => linarith
  refine ⟨div_pos (mul_pos hC hh) hs, ?_⟩
  simp only [Fin.sum_univ_three, abs_of_nonneg (hv _)]
  unfold advectionDt
  field_simp

/-- **C107, runs** Let the solver take the fixed step `a · advection_dt(h, vx, vy, vz, CFL)` with `h` at most the spacing along
every active axis, velocities that do not point backwards, not all zero, and `a · CFL` at most 2/3 (minmod) or 1/2 (moncen).
Then a run of `euler`, `ssprk2` or `ssprk3` in which every cell falls back keeps velocity, pressure and concentrations of the
uniform flow and keeps every density between the bounds of the start. -/
theorem C107_run (c : EulerConfig K np) (o : LimiterOpts K) (s : SlopeKind) (hs : FallbackSetup c o s)
    (v : Fin 3 → K) (hv : ∀ d, 0 ≤ v d) (hv0 : ∃ d, v d ≠ 0) (a h CFL : K) (ha : 0 < a) (hh : 0 < h) (hC : 0 < CFL)
    (hspace : ∀ d, c.scheme.active d = true → h ≤ c.h d) (hlim : a * CFL ≤ crossingLimit s)
    (hdt : c.fixedDt = some (a * advectionDt h (v 0) (v 1) (v 2) CFL))
    (P : K) (x : Fin np → K) (lo up : K) (hlo : 0 < lo)
    (f : RHS K (Ix → State K np)) (hf : IsSolverRHS (c.limited (some o)).scheme f) (m : Integrator) (hm : m.SSP)
    {Sn : Type} (mk : ODEState K (Ix → State K np) Sn → Sn) (fuel : ℕ) (g : IntegrateArgs K Sn)
    (st : ODEState K (Ix → State K np) Sn) (h0 : 0 ≤ st.t) (hT : Ahead g st.t) (hu : UniformFlow c v P x lo up st.u)
    (out : Outcome K (Ix → State K np) Sn) (hrun : st.integrate (stepper f m) mk fuel g = some out) :
    UniformFlow c v P x lo up out.1.u := by
  refine C79_run c o s hs v ?_ P x lo up hlo f hf m hm mk fuel g st h0 hT hu out hrun
  obtain ⟨hp, he⟩ := C107_crossing h CFL v hh hC hv hv0
  unfold ShortSteps
  rw [hdt]
  dsimp only
  have hle : a * ∑ d, advectionDt h (v 0) (v 1) (v 2) CFL * |v d| / h ≤ crossingLimit s := by rw [he]; exact hlim
  refine ⟨mul_pos ha hp, le_trans ?_ hle⟩
  rw [mul_assoc, Finset.mul_sum]
  refine mul_le_mul_of_nonneg_left (Finset.sum_le_sum fun d _ => ?_) ha.le
  split
  · rename_i hd
    rw [mul_div_assoc]
    exact mul_le_mul_of_nonneg_left (div_le_div_of_nonneg_left (abs_nonneg _) hh (hspace d hd)) hp.le
  · rw [mul_zero]
    exact div_nonneg (mul_nonneg hp.le (abs_nonneg _)) hh.le

/-- **C107, backwards** A flow in the negative x direction gives a negative step. -/
theorem C107_backwards_violated (h CFL w : K) (hh : 0 < h) (hC : 0 < CFL) (hw : w < 0) :
    advectionDt h w 0 0 CFL < 0 := by
  unfold advectionDt
  exact div_neg_of_pos_of_neg (mul_pos hC hh) (by linarith)

/-- **C107, oblique** When velocities of opposite sign nearly cancel, the step is positive but longer than any bound: for every
`B` there is a flow whose crossing numbers add up to more than `B`, with CFL number 0.8. -/
theorem C107_oblique_violated (h B : K) (hh : 0 < h) :
    ∃ v : Fin 3 → K, 0 < advectionDt h (v 0) (v 1) (v 2) (4 / 5) ∧
      B < ∑ d, advectionDt h (v 0) (v 1) (v 2) (4 / 5) * |v d| / h := by
  refine ⟨![|B| + 2, -(|B| + 1), 0], ?_, ?_⟩
  · simp only [advectionDt, Matrix.cons_val]
    exact div_pos (by linarith) (by linarith)
  · have e : advectionDt h ((![|B| + 2, -(|B| + 1), 0] : Fin 3 → K) 0) ((![|B| + 2, -(|B| + 1), 0] : Fin 3 → K) 1)
        ((![|B| + 2, -(|B| + 1), 0] : Fin 3 → K) 2) (4 / 5) = 4 / 5 * h := by
      simp only [advectionDt, Matrix.cons_val]
      rw [show |B| + 2 + -(|B| + 1) + 0 = 1 by ring, div_one]
    rw [e]
    have hB := abs_nonneg B
    simp only [Fin.sum_univ_three, Matrix.cons_val, abs_zero, abs_neg]
    rw [abs_of_nonneg (show 0 ≤ |B| + 2 by linarith), abs_of_nonneg (show 0 ≤ |B| + 1 by linarith)]
    have : 4 / 5 * h * (|B| + 2) / h + 4 / 5 * h * (|B| + 1) / h + 4 / 5 * h * 0 / h = 4 / 5 * (2 * |B| + 3) := by
      field_simp
      ring
    rw [this]
    have := le_abs_self B
    linarith

/-! ## A concrete case -/

/-- The ramp tube of C79 with the step of tests/test_advection.py, 0.4 times `advection_dt` at the default CFL number 0.8, and
the flow of velocity 9 along x meets the hypotheses of `C107_run` with either limiter. -/
example (s : SlopeKind) : ∃ c : EulerConfig ℝ 0, FallbackSetup c (forcedLimiter s) s ∧
    c.fixedDt = some (2 / 5 * advectionDt 1 9 0 0 (4 / 5)) ∧ (∀ d, c.scheme.active d = true → 1 ≤ c.h d) ∧
    (2 / 5 * (4 / 5) : ℝ) ≤ crossingLimit s ∧ UniformFlow c ![9, 0, 0] (5 / 7) ![] 1 3 ramp := by
  refine ⟨{ rampTube (4 / 5) with fixedDt := some (2 / 5 * advectionDt 1 9 0 0 (4 / 5)) }, ?_, rfl, ?_, ?_, ?_⟩
  · have h := rampTube_setup (4 / 5) s
    exact { h with }
  · intro d _
    match d with | 0 | 1 | 2 => simp [rampTube]
  · cases s <;> norm_num [crossingLimit]
  · exact ramp_flow (4 / 5)

end FVHOE
