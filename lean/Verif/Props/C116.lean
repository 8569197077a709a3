import Verif.Proofs.RKRuns
import Verif.Proofs.ForwardT
import Verif.Props.C12_C57
import Mathlib.Analysis.Complex.Exponential
import Mathlib.Analysis.Calculus.ContDiff.Operations
import Mathlib.Analysis.Calculus.Deriv.Inv

/-!
C116: the order of accuracy of the integrators on nonlinear problems, for one step and for whole runs.
-/

set_option linter.unusedSectionVars false

namespace FVHOE

open Set Asymptotics Topology

variable {E : Type} [NormedAddCommGroup E] [NormedSpace ℝ E]

/-- `y` solves `u' = f u` on `[0, T]` inside the open set `U`, where `f` has two, and for the integrators of higher order as many
continuous derivatives as their order. -/
structure SmoothSolution (m : Integrator) (f : E → E) (U : Set E) (T : ℝ) (y : ℝ → E) : Prop where
  isOpen : IsOpen U
  smooth : ContDiffOn ℝ (max 2 m.order : ℕ) f U
  inside : ∀ t ∈ Icc 0 T, y t ∈ U
  solves : ∀ t ∈ Icc 0 T, HasDerivWithinAt y (f (y t)) (Icc 0 T) t

/-- C116 (one step). One step of size `h` from a point of a solution misses the solution by at most a constant times
`h ^ (order + 1)`, with the same constant and the same largest `h` all along the solution. -/
theorem C116_step (m : Integrator) {f : E → E} {U : Set E} {T : ℝ} (hT : 0 < T) {y : ℝ → E} (hy : SmoothSolution m f U T y) :
    ∃ C η, 0 ≤ C ∧ 0 < η ∧ ∀ (F : RHS ℝ E) (D : E → ℝ), (∀ s t u, F s t u = .ok (D u, f u)) →
      ∀ t h target, 0 ≤ t → 0 ≤ h → h ≤ η → t + h ≤ T → h = hitTarget t (D (y t)) target →
      ∃ v, stepper F m t (y t) target = .ok (h, v) ∧ ‖v - y (t + h)‖ ≤ C * h ^ (m.order + 1) := by
  have h2 : ContDiffOn ℝ 2 f U := hy.smooth.of_le (by norm_cast; exact le_max_left _ _)
  have hp : ContDiffOn ℝ m.order f U := hy.smooth.of_le (by norm_cast; exact le_max_right _ _)
  obtain ⟨Y, rfl, A⟩ := OnSolution.of_smooth hy.isOpen h2 hp hT hy.inside hy.solves
  obtain ⟨C, hC, hb⟩ := (step_error m A).exists_nonneg
  have hb := hb.bound
  rw [stepsIn, Filter.eventually_inf_principal, Filter.eventually_comap, Metric.eventually_nhds_iff] at hb
  obtain ⟨ε, hε, hb⟩ := hb
  refine ⟨C, ε / 2, hC, by linarith, fun F D hF t h target t0 h0 hη hle hh => ?_⟩
  refine ⟨advanceBy f m h (Y 0 t), by rw [stepper_advanceBy hF, ← hh], ?_⟩
  have := hb (y := h) (by rw [Real.dist_eq, sub_zero, abs_of_nonneg h0]; linarith) (t, h) rfl ⟨t0, h0, hle⟩
  rw [Real.norm_of_nonneg (pow_nonneg h0 _), norm_sub_rev] at this
  exact this

/-- C116 (runs). Runs with steps of at most `H`, started on a solution, follow it up to a constant times `H ^ order`: at the end of
the run and at every snapshot. The steps may vary with the state and may be shortened to hit the key times; without `exact` the run
may overshoot `T` by less than `H`, and the solution is needed a little beyond `T`. -/
theorem C116_runs (m : Integrator) {f : E → E} {U : Set E} {T T' : ℝ} (hT : 0 < T) (hT' : T < T') {y : ℝ → E}
    (hy : SmoothSolution m f U T' y) :
    ∃ C H₀, 0 < H₀ ∧ ∀ H ≤ H₀, ∀ (F : RHS ℝ E) (D : E → ℝ), (∀ s t u, F s t u = .ok (D u, f u)) → (∀ u, 0 < D u ∧ D u ≤ H) →
      ∀ {Sn : Type} (mk : ODEState ℝ E Sn → Sn) (Q : Sn → Prop), (∀ s, s.t ≤ T + H → ‖s.u - y s.t‖ ≤ C * H ^ m.order → Q (mk s)) →
      ∀ (fuel : ℕ) (a : IntegrateArgs ℝ Sn), a.T = some T → a.saved = none → ∀ st : ODEState ℝ E Sn, 0 ≤ st.t → Ahead a st.t →
      st.u = y st.t → (∀ z ∈ st.snapshots, Q z) → ∀ out, st.integrate (stepper F m) mk fuel a = some out →
      out.2 = none ∧ out.1.t ≤ T + H ∧ ‖out.1.u - y out.1.t‖ ≤ C * H ^ m.order ∧ ∀ z ∈ out.1.snapshots, Q z := by
  have h2 : ContDiffOn ℝ 2 f U := hy.smooth.of_le (by norm_cast; exact le_max_left _ _)
  have hcy : ContinuousOn y (Icc 0 T') := fun t ht => (hy.solves t ht).continuousWithinAt
  obtain ⟨M, δ, hM, hδ, tame⟩ := exists_tame hy.isOpen h2 (isCompact_Icc.image_of_continuousOn hcy)
    (by rintro _ ⟨t, ht, rfl⟩; exact hy.inside t ht)
  obtain ⟨C, η, hC, hη, hstep⟩ := C116_step m (by linarith) hy
  have hord : 1 ≤ m.order := by cases m <;> simp [Integrator.order]
  obtain ⟨B, H₀, -, hH₀, hfol⟩ := follow hT' hM hδ tame.steady m hord hC hη fun t h t0 h0 hle hT => by
    obtain ⟨v, hv, herr⟩ := hstep (fun _ _ u => .ok (h, f u)) (fun _ => h) (fun _ _ _ => rfl) t h none t0 h0 hle hT rfl
    rw [stepper_advanceBy (fun _ _ _ => rfl) (D := fun _ => h)] at hv
    simp only [hitTarget, Except.ok.injEq, Prod.mk.injEq, true_and] at hv
    rwa [← hv] at herr
  refine ⟨B, H₀, hH₀, ?_⟩
  intro H hH F D hF hD Sn mk Q hQ fuel a haT ha st h0 hahead hst hsnap out hrun
  obtain ⟨hT1, hT2⟩ := hahead T haT
  obtain ⟨hTH, G, hG, -, -, hadv⟩ := hfol H (lt_of_lt_of_le (hD st.u).1 (hD st.u).2) hH
  have hpos : PosDt F := fun s t u dt k e => by
    rw [hF] at e
    cases e
    exact (hD u).1
  have main := integrate_outcome_before (posStepper_of_posDt hpos m)
    (P := fun s : ODEState ℝ E Sn => 0 ≤ s.t ∧ s.t ≤ T + H ∧ ‖s.u - y s.t‖ ≤ G s.t ∧ ∀ z ∈ s.snapshots, Q z)
    (mk := mk) T ?_ ?_ fuel a haT ha st h0 hT1 hT2 out ?_ hrun
  · obtain ⟨⟨k0, k1, k2, k3⟩, k4⟩ := main
    exact ⟨k4, k1, k2.trans (hG _ k0 (by linarith)).2, k3⟩
  · rintro s target htg hsT ⟨s0, s1, s2, s3⟩
    set h := hitTarget s.t (D s.u) target with hh
    have hlt : 0 < h ∧ h ≤ H := by
      rw [hh]
      cases target with
      | none => exact hD s.u
      | some g =>
        simp only [hitTarget]
        have := htg g rfl
        split
        · exact ⟨by linarith, by linarith [(hD s.u).2]⟩
        · exact hD s.u
    simp only [ODEState.takeStep, stepper_advanceBy hF, ← hh]
    exact ⟨⟨by linarith, by linarith, hadv s.t h s.u s0 hsT.le hlt.1 hlt.2 s2, s3⟩, trivial⟩
  · rintro s ⟨s0, s1, s2, s3⟩
    refine ⟨s0, s1, s2, fun z hz => ?_⟩
    rcases List.mem_append.1 hz with hz | hz
    · exact s3 z hz
    · rw [List.mem_singleton.1 hz]
      exact hQ s s1 (s2.trans (hG _ s0 (by linarith)).2)
  · refine ⟨h0, by linarith [(hD st.u).1, (hD st.u).2], ?_, hsnap⟩
    rw [hst, sub_self, norm_zero]
    exact (hG _ h0 (by linarith [(hD st.u).1, (hD st.u).2])).1

/-- C116 (fixed steps). With a fixed step `H` and `exact` the run returns without an exception exactly at `T`, and its final state
differs from the solution at `T` by at most a constant times `H ^ order`, for every list of output times. -/
theorem C116_fixed_step (m : Integrator) {f : E → E} {U : Set E} {T T' : ℝ} (hT : 0 < T) (hT' : T < T') {y : ℝ → E}
    (hy : SmoothSolution m f U T' y) :
    ∃ C H₀, 0 < H₀ ∧ ∀ H, 0 < H → H ≤ H₀ → ∀ {Sn : Type} (mk : ODEState ℝ E Sn → Sn) (n : Option ℕ) (downbeats : List ℝ)
      (logEvery : Bool), (∀ d ∈ downbeats, 0 ≤ d) → ∃ fuel st',
        (ODEState.init (y 0) : ODEState ℝ E Sn).integrate (stepper (fun _ _ u => .ok (H, f u)) m) mk fuel
          ⟨some T, n, true, downbeats, logEvery, none⟩ = some (st', none) ∧
        st'.t = T ∧ ‖st'.u - y T‖ ≤ C * H ^ m.order := by
  obtain ⟨C, H₀, hH₀, hall⟩ := C116_runs m hT hT' hy
  refine ⟨C, H₀, hH₀, fun H hH hle Sn mk n downbeats logEvery hd => ?_⟩
  have hd' : ∀ d ∈ downbeats, d = 0 ∨ (0 : ℝ) < d := fun d hdm => (hd d hdm).eq_or_lt.imp Eq.symm id
  obtain ⟨N, hN⟩ := exists_nat_ge (T / H)
  rw [div_le_iff₀ hH] at hN
  have hmin : MinDt H (fun _ _ u => .ok (H, f u) : RHS ℝ E) := fun s t u dt k e => by cases e; exact le_rfl
  have hpos : PosDt (fun _ _ u => .ok (H, f u) : RHS ℝ E) := fun s t u dt k e => by cases e; exact hH
  obtain ⟨out, hout, -⟩ := C25_terminates (fun _ _ u => .ok (H, f u)) m mk H hH hmin T downbeats logEvery
    (ODEState.init (y 0) : ODEState ℝ E Sn) le_rfl hT hd' N (by simpa [ODEState.init] using hN) _ le_rfl
  have hint : (ODEState.init (y 0) : ODEState ℝ E Sn).integrate (stepper (fun _ _ u => .ok (H, f u)) m) mk
      (N + downbeats.length + 2) ⟨some T, n, true, downbeats, logEvery, none⟩ = some out := by
    simpa only [ODEState.integrate] using hout
  obtain ⟨k1, -, k3, -⟩ := hall H hle _ (fun _ => H) (fun _ _ _ => rfl) (fun _ => ⟨hH, le_rfl⟩) mk (fun _ => True) (fun _ _ _ => trivial) _ _ rfl rfl
    (ODEState.init (y 0) : ODEState ℝ E Sn) le_rfl (fun T₁ e => by cases e; exact ⟨hT, hd'⟩) rfl (fun z hz => by cases hz) out hint
  obtain ⟨st', e⟩ := out
  simp only at k1 k3
  subst k1
  have ht := (C24_exact_output_times _ m mk hpos T downbeats logEvery _ _ st' le_rfl hT hd' hout).1
  exact ⟨_, st', hint, ht, ht ▸ k3⟩

/-- C116 (sharp). The orders are not higher: on `u' = u` from `1`, after `N` steps of size `h` the result stays below the exact
`exp (N h)` by at least `N h · h ^ order / (order + 1)!`. -/
theorem C116_sharp (m : Integrator) {Sn : Type} (mk : ODEState ℝ ℝ Sn → Sn) (h : ℝ) (hh : 0 ≤ h) (N fuel : ℕ) (exact : Bool)
    (downbeats : List ℝ) (logEvery : Bool) :
    ∃ st', (ODEState.init 1 : ODEState ℝ ℝ Sn).integrate (stepper (fun _ _ u => .ok (h, u)) m) mk fuel
        ⟨none, some N, exact, downbeats, logEvery, none⟩ = some (st', none) ∧ st'.t = N * h ∧
      N * h * (h ^ m.order / ((m.order + 1).factorial : ℝ)) ≤ Real.exp (N * h) - st'.u := by
  obtain ⟨q, hq, hq1, hqe⟩ : ∃ q : ℝ, (∀ u : ℝ, advanceBy (fun u => u) m h u = q * u) ∧ 1 ≤ q ∧
      h * (h ^ m.order / ((m.order + 1).factorial : ℝ)) ≤ Real.exp h - q := by
    have e := fun n => Real.sum_le_exp_of_nonneg hh n
    cases m with
    | euler =>
      refine ⟨1 + h, fun u => by simp only [advanceBy, smul_eq_mul]; ring, by linarith, ?_⟩
      have := e 3
      simp only [Finset.sum_range_succ, Finset.sum_range_zero, Nat.factorial] at this
      simp only [Integrator.order, Nat.factorial]
      norm_num at this ⊢
      linarith
    | ssprk2 =>
      refine ⟨1 + h + h ^ 2 / 2, fun u => by simp only [advanceBy, smul_eq_mul]; ring, by nlinarith, ?_⟩
      have := e 4
      simp only [Finset.sum_range_succ, Finset.sum_range_zero, Nat.factorial] at this
      simp only [Integrator.order, Nat.factorial]
      norm_num at this ⊢
      linarith
    | ssprk3 =>
      refine ⟨1 + h + h ^ 2 / 2 + h ^ 3 / 6, fun u => by simp only [advanceBy, smul_eq_mul]; ring, ?_, ?_⟩
      · have : 0 ≤ h ^ 2 / 2 + h ^ 3 / 6 := by positivity
        linarith
      have := e 5
      simp only [Finset.sum_range_succ, Finset.sum_range_zero, Nat.factorial] at this
      simp only [Integrator.order, Nat.factorial]
      norm_num at this ⊢
      linarith
    | rk4 =>
      refine ⟨1 + h + h ^ 2 / 2 + h ^ 3 / 6 + h ^ 4 / 24, fun u => by simp only [advanceBy, smul_eq_mul]; ring, ?_, ?_⟩
      · have : 0 ≤ h ^ 2 / 2 + h ^ 3 / 6 + h ^ 4 / 24 := by positivity
        linarith
      have := e 6
      simp only [Finset.sum_range_succ, Finset.sum_range_zero, Nat.factorial] at this
      simp only [Integrator.order, Nat.factorial]
      norm_num at this ⊢
      linarith
  have steps : ∀ N (st : ODEState ℝ ℝ Sn), ∃ st', ODEState.takeSteps (stepper (fun _ _ u => .ok (h, u)) m) N st = (st', none) ∧
      st'.t = st.t + N * h ∧ st'.u = q ^ N * st.u := by
    intro N
    induction N with
    | zero => exact fun st => ⟨st, rfl, by simp, by simp⟩
    | succ N ih =>
      intro st
      simp only [ODEState.takeSteps, ODEState.takeStep,
        stepper_advanceBy (f := fun _ _ u => .ok (h, u)) (R := fun u => u) (D := fun _ => h) (fun _ _ _ => rfl), hitTarget]
      obtain ⟨st', h1, h2, h3⟩ := ih { st with t := st.t + h, u := advanceBy (fun u => u) m h st.u, timestamps := st.timestamps ++ [st.t + h], stepCount := st.stepCount + 1 }
      refine ⟨st', h1, ?_, ?_⟩
      · rw [h2]
        push_cast
        ring
      · rw [h3, hq]
        ring
  obtain ⟨st', h1, h2, h3⟩ := steps N ((ODEState.init 1 : ODEState ℝ ℝ Sn).snapshot mk)
  refine ⟨st'.snapshot mk, ?_, ?_, ?_⟩
  · simp only [ODEState.integrate, ODEState.integrateN, h1]
  · simp only [ODEState.snapshot, h2, ODEState.init, zero_add]
  · simp only [ODEState.snapshot, h3, ODEState.init, mul_one]
    clear h1 h2 h3 st' steps
    have g0 : 0 ≤ h * (h ^ m.order / ((m.order + 1).factorial : ℝ)) := by positivity
    have key : ∀ N : ℕ, N * (h * (h ^ m.order / ((m.order + 1).factorial : ℝ))) ≤ Real.exp (N * h) - q ^ N := by
      intro N
      induction N with
      | zero => simp
      | succ N ih =>
        have e1 : Real.exp ((N + 1 : ℕ) * h) = Real.exp h * Real.exp (N * h) := by
          rw [← Real.exp_add]
          push_cast
          congr 1
          ring
        have e2 : 1 ≤ Real.exp h := Real.one_le_exp hh
        have e3 : 1 ≤ q ^ N := one_le_pow₀ hq1
        have e4 : 0 ≤ Real.exp (N * h) - q ^ N := le_trans (by positivity) ih
        rw [e1, pow_succ]
        push_cast
        nlinarith
    have := key N
    linarith

/-- A nonlinear problem: `u' = -u²` with the solution `1 / (1 + t)`. -/
theorem decaySolution (m : Integrator) (T : ℝ) : SmoothSolution m (fun u : ℝ => -u ^ 2) univ T fun t => (1 + t)⁻¹ where
  isOpen := isOpen_univ
  smooth := (contDiff_id.pow 2).neg.contDiffOn
  inside := fun _ _ => trivial
  solves := fun t ht => by
    have h1 : (1 + t) ≠ 0 := by linarith [ht.1]
    have := ((hasDerivAt_id t).const_add 1).inv h1
    refine (this.congr_deriv ?_).hasDerivWithinAt
    simp only [id]
    field_simp

example : ∃ C H₀ : ℝ, 0 < H₀ ∧ ∀ H, 0 < H → H ≤ H₀ → ∃ fuel st',
    (ODEState.init 1 : ODEState ℝ ℝ ℝ).integrate (stepper (fun _ _ u => .ok (H, -u ^ 2)) .rk4) (fun s => s.u) fuel
      ⟨some 1, none, true, [1 / 3], false, none⟩ = some (st', none) ∧ |st'.u - 1 / 2| ≤ C * H ^ 4 := by
  obtain ⟨C, H₀, h1, h2⟩ := C116_fixed_step .rk4 (T := 1) (T' := 2) (by norm_num) (by norm_num) (decaySolution .rk4 2)
  refine ⟨C, H₀, h1, fun H hH hle => ?_⟩
  obtain ⟨fuel, st', e1, e2, e3⟩ := h2 H hH hle (fun s : ODEState ℝ ℝ ℝ => s.u) none [1 / 3] false (by simp)
  refine ⟨fuel, st', ?_, ?_⟩
  · simpa using e1
  · norm_num at e3
    simpa [Real.norm_eq_abs, Integrator.order] using e3

end FVHOE
