import Verif.Proofs.Truncation
import Verif.Proofs.ForwardT
import Verif.Props.C71

/-!
C88: in a uniform flow, at every degree, whole runs with `ssprk3` or `rk4` converge to the exact solution with the order of
the scheme.
-/

set_option linter.unusedSectionVars false

namespace FVHOE

variable {np : ℕ}

/-- At time `t` the state is, in every cell, a gas of velocity `v`, pressure `P` and concentrations `x`; the mean square
difference between its density and the exact cell averages of the density `ρ` moved by `v` for the time `t` is at most
`(E t)²`; up to time `T` the density is positive. -/
def MeanFollows (c : EulerConfig ℝ np) (x₀ : Fin 3 → ℝ) (ρ : (Fin 3 → ℝ) → ℝ) (v : Fin 3 → ℝ) (P : ℝ) (x : Fin np → ℝ)
    (E T t : ℝ) (u : Ix → State ℝ np) : Prop :=
  ∃ r : Ix → ℝ, (∀ i, InCells c.n i → u i = conserved c.gas.gamma (flowing v P x (r i)) ∧ (t ≤ T → 0 < r i)) ∧
    cellSum c.n (fun i => (r i - cellMean x₀ c.h (fun y => ρ (y - t • v)) i) ^ 2) ≤ (c.n 0 * c.n 1 * c.n 2 : ℝ) * (E * t) ^ 2

theorem SmoothFlow.neighbours {c : EulerConfig ℝ np} {q s : ℕ} {r M ℓ H : ℝ} {ρ : (Fin 3 → ℝ) → ℝ}
    (h : SmoothFlow c q s r M ℓ H ρ) (hc : TransportSetup c) (hH : 0 ≤ H) (x₀ : Fin 3 → ℝ) (d : Fin 3) (j : Ix) :
    |cellMean x₀ c.h ρ (j + Pi.single d 1) - cellMean x₀ c.h ρ j| ≤ M * H / ℓ := by
  have hM := h.M_nonneg
  have hℓ := h.scale
  rw [cellMean_next x₀ c.h hc.spacing]
  refine cellMean_sub_le x₀ c.h hc.spacing (h.smooth.continuous.comp (continuous_id.add continuous_const)) h.smooth.continuous
    fun y _ => ?_
  by_cases ha : c.scheme.active d = true
  · have ht := taylor_remainder (q := 0) (h.smooth.of_le (by norm_cast; omega)) y (Pi.single d (c.h d)) (M / ℓ ^ 1) H
      (by
        rw [Pi.norm_single, Real.norm_eq_abs, abs_of_pos (hc.spacing d)]
        exact h.width d ha)
      (fun t _ => h.bound 1 le_rfl (by omega) _)
    simp only [zero_add, Finset.sum_range_one, Nat.factorial_zero, Nat.cast_one, inv_one, one_mul, iteratedFDeriv_zero_apply,
      Nat.factorial_one, div_one, pow_one] at ht
    refine ht.trans (le_of_eq ?_)
    ring
  · have : ρ (y + Pi.single d (c.h d)) = ρ y := h.depends _ _ fun e he => by
      have : e ≠ d := fun hed => ha (hed ▸ he)
      simp [this]
    show |ρ (y + Pi.single d (c.h d)) - ρ y| ≤ _
    rw [this, sub_self, abs_zero]
    positivity

/-- A run of a right-hand side that acts linearly near the exact densities. -/
theorem follows_run (c : EulerConfig ℝ np) (v : Fin 3 → ℝ) (h : FlowSetup c v) (x₀ : Fin 3 → ℝ) (ρ : (Fin 3 → ℝ) → ℝ) (q : ℕ)
    (r m M ℓ H T : ℝ) (k : Integrator) (hk : HighOrder k) (hs : SmoothFlow c q (order k) r M ℓ H ρ) (hmρ : ∀ y, m ≤ ρ y)
    (hfine : 6000 * (M * H / ℓ) + 11000 * (√(c.n 0 * c.n 1 * c.n 2) * flowError v q (order k) r M ℓ H * T) < m)
    (P : ℝ) (x : Fin np → ℝ) (f : RHS ℝ (Ix → State ℝ np)) (hpos : PosDt f)
    (hf : ∀ t, 0 ≤ t → t < T → EvalsFlow c v P x (fun β => ∀ j, |β j - cellMean x₀ c.h (fun y => ρ (y - t • v)) j| ≤
      584 * (M * H / ℓ) + 1169 * (√(c.n 0 * c.n 1 * c.n 2) * flowError v q (order k) r M ℓ H * T)) f) {Sn : Type}
    (mk : ODEState ℝ (Ix → State ℝ np) Sn → Sn) (fuel : ℕ) (a : IntegrateArgs ℝ Sn) (haT : a.T = some T) (ha : a.saved = none)
    (st : ODEState ℝ (Ix → State ℝ np) Sn) (h0 : st.t = 0) (hT : Ahead a 0)
    (hu : ∀ j, InCells c.n j → st.u j = conserved c.gas.gamma (flowing v P x (cellMean x₀ c.h ρ j)))
    (out : Outcome ℝ (Ix → State ℝ np) Sn) (hrun : st.integrate (stepper f k) mk fuel a = some out) :
    out.2 = none ∧ MeanFollows c x₀ ρ v P x (flowError v q (order k) r M ℓ H) T out.1.t out.1.u ∧
      ∀ s ∈ out.1.snapshots, s ∈ st.snapshots ∨ ∃ st', s = mk st' ∧
        MeanFollows c x₀ ρ v P x (flowError v q (order k) r M ℓ H) T st'.t st'.u := by
  have hc := h.transport
  obtain ⟨E, hE⟩ : ∃ E, E = flowError v q (order k) r M ℓ H := ⟨_, rfl⟩
  have hH : 0 ≤ H := by
    obtain ⟨d, hd⟩ := h.extended
    exact (hc.spacing d).le.trans (hs.width d hd)
  have hM := hs.M_nonneg
  have hℓ := hs.scale
  have hr0 := hs.radius_nonneg
  have hE0 : 0 ≤ E := by
    have := sum_abs_nonneg v
    rw [hE]
    unfold flowError
    positivity
  have hω0 : 0 ≤ M * H / ℓ := by positivity
  have hcount : (c.n 0 * c.n 1 * c.n 2 : ℝ) = cellCount c.n := by
    unfold cellCount
    push_cast
    ring
  rw [hcount, ← hE] at hfine
  simp only [hcount, ← hE] at hf
  rw [← hE]
  let I : ℝ → (Ix → State ℝ np) → Prop := fun t u => 0 ≤ t ∧ ∃ α : Ix → ℝ, Cyclic c.n α ∧
    (∀ j, InCells c.n j → u j = conserved c.gas.gamma (flowing v P x (α j))) ∧
    nrm c.n (α - cellMean x₀ c.h (fun y => ρ (y - t • v))) ≤ √(cellCount c.n) * E * t
  have hper : ∀ t : ℝ, Cyclic c.n (cellMean x₀ c.h (fun y => ρ (y - t • v))) := fun t d j =>
    periodic_means hc x₀ (hs.translate (t • v)).depends (hs.translate (t • v)).periodic d j
  have hleast : ∀ (t : ℝ) j, m ≤ cellMean x₀ c.h (fun y => ρ (y - t • v)) j := fun t j =>
    cellMean_least x₀ c.h hc.spacing (hs.translate (t • v)).smooth.continuous m (fun y _ => hmρ _)
  have hsup : ∀ (t : ℝ) (α : Ix → ℝ), Cyclic c.n α → nrm c.n (α - cellMean x₀ c.h (fun y => ρ (y - t • v))) ≤ √(cellCount c.n) * E * t →
      ∀ j, |α j - cellMean x₀ c.h (fun y => ρ (y - t • v)) j| ≤ √(cellCount c.n) * E * t := by
    intro t α hα hn j
    exact (sup_le_nrm c.n hc.cells (α - cellMean x₀ c.h (fun y => ρ (y - t • v)))
      (fun d i => by simp only [Pi.sub_apply]; rw [hα d i, hper t d i]) j).trans hn
  have hmono : ∀ t, t ≤ T → √(cellCount c.n) * E * t ≤ √(cellCount c.n) * E * T := fun t ht =>
    mul_le_mul_of_nonneg_left ht (by positivity)
  have hI : ∀ t u, I t u → MeanFollows c x₀ ρ v P x E T t u := by
    rintro t u ⟨ht, α, h1, h2, h3⟩
    refine ⟨α, fun i hi => ⟨h2 i hi, fun htT => ?_⟩, ?_⟩
    · have := (abs_le.1 (hsup t α h1 h3 i)).1
      have := hleast t i
      have := hmono t htT
      have : 0 ≤ √(cellCount c.n) * E * T := by
        have := ht.trans htT
        positivity
      linarith
    · have h4 := pow_le_pow_left₀ (nrm_nonneg _ _) h3 2
      rw [nrm_sq, mul_assoc, mul_pow, Real.sq_sqrt (Nat.cast_nonneg _)] at h4
      rw [hcount]
      refine le_trans (le_of_eq ?_) h4
      unfold dot
      refine cellSum_congr _ _ _ fun i _ => ?_
      rw [Pi.sub_apply]
      ring
  have hstep : ∀ (st : ODEState ℝ (Ix → State ℝ np) Sn) target, (∀ g, target = some g → st.t < g) → st.t < T → I st.t st.u →
      I (st.takeStep (stepper f k) target).1.t (st.takeStep (stepper f k) target).1.u ∧ (st.takeStep (stepper f k) target).2 = none ∧
        (st.takeStep (stepper f k) target).1.snapshots = st.snapshots := by
    rintro st target hg hlt ⟨ht, α, h1, h2, h3⟩
    have hst := hs.translate (st.t • v)
    have h4 := hmono st.t hlt.le
    obtain ⟨τ, k1, k2, k3, k4, k5, k6⟩ := flow_step_of h (g := cellMean x₀ c.h fun y => ρ (y - st.t • v)) hω0
      (fun d j => hst.neighbours hc hH x₀ d j) (hsup st.t α h1 h3) P x h1 _
      (fun β hβ j => (hβ j).trans (by linarith)) f (hf st.t ht hlt) k hk st target hg h2
    refine ⟨?_, k3, k5⟩
    rw [k4]
    refine ⟨by linarith, _, act_cyclic _ h1, k6, ?_⟩
    have e1 : (fun y => ρ (y - τ • v - st.t • v)) = fun y => ρ (y - (st.t + τ) • v) := by
      funext y
      congr 1
      module
    have hcl := step_close h x₀ k hst k1.le k2
    rw [e1, ← hE] at hcl
    have hcy : Cyclic c.n (α - cellMean x₀ c.h fun y => ρ (y - st.t • v)) := fun d i => by
      simp only [Pi.sub_apply]
      rw [h1 d i, hper st.t d i]
    have hst2 := (nrm_step h k1.le k2 k hcy).trans h3
    have e2 : act (stepOp k (τ • rateOp c v)) α - cellMean x₀ c.h (fun y => ρ (y - (st.t + τ) • v)) =
        act (stepOp k (τ • rateOp c v)) (α - cellMean x₀ c.h fun y => ρ (y - st.t • v)) +
          (act (stepOp k (τ • rateOp c v)) (cellMean x₀ c.h fun y => ρ (y - st.t • v)) -
            cellMean x₀ c.h (fun y => ρ (y - (st.t + τ) • v))) := by
      have : α - (cellMean x₀ c.h fun y => ρ (y - st.t • v)) = α + (-1 : ℝ) • cellMean x₀ c.h fun y => ρ (y - st.t • v) := by
        rw [neg_one_smul, sub_eq_add_neg]
      rw [this, act_map_add, act_map_smul]
      module
    rw [e2]
    refine (nrm_add _ _ _).trans ?_
    linarith
  have key := integrate_outcome_before (posStepper_of_posDt hpos k)
    (fun st' : ODEState ℝ (Ix → State ℝ np) Sn => I st'.t st'.u ∧ ∀ s ∈ st'.snapshots, s ∈ st.snapshots ∨ ∃ st', s = mk st' ∧
      MeanFollows c x₀ ρ v P x E T st'.t st'.u) T
    (fun st' target hg hlt hst => ⟨⟨(hstep st' target hg hlt hst.1).1, by
      rw [(hstep st' target hg hlt hst.1).2.2]
      exact hst.2⟩, (hstep st' target hg hlt hst.1).2.1⟩)
    (fun st' hst => ⟨hst.1, fun s hs => by
      rcases List.mem_append.1 hs with hs | hs
      · exact hst.2 s hs
      · rw [List.mem_singleton] at hs
        exact Or.inr ⟨st', hs, hI _ _ hst.1⟩⟩) fuel a haT ha st h0.ge (by rw [h0]; exact (hT T haT).1)
    (by rw [h0]; exact (hT T haT).2) out
    ⟨⟨h0.ge, cellMean x₀ c.h ρ, fun d j => periodic_means hc x₀ hs.depends hs.periodic d j, hu, ?_⟩, fun s hs => Or.inl hs⟩ hrun
  · exact ⟨key.2, hI _ _ key.1.1, key.1.2⟩
  · rw [h0]
    simp only [zero_smul, sub_zero, mul_zero]
    have : cellMean x₀ c.h ρ - cellMean x₀ c.h (fun y => ρ y) = (0 : ℝ) • cellMean x₀ c.h ρ := by
      rw [zero_smul]
      exact sub_self _
    rw [this, nrm_smul]
    simp

/-- **C88** Start a run with `ssprk3` (order `s = 3`) or `rk4` (order `s = 4`), at degrees at least `q` and at most 8 and a
CFL number up to `4/5`, in a periodic box with the cell averages of a gas of uniform velocity, pressure and
concentrations and of density `ρ ≥ m`, where the derivatives of `ρ` of order `k` are at most `M / ℓ^k`. Let `H` be at least
the active spacings and `r` at least half the width of the stencils, and
`E = Σ|v_d| (M/ℓ) (44 (r/ℓ)^(q+1) / (q+1)! + (H/ℓ)^s / (s+1)!)`. If the grid is fine enough for the time `T`, that is
`6000 M H / ℓ + 11000 √(number of cells) E T < m`, the run up to `T` does not raise; at its end and at every snapshot
velocity, pressure and concentrations are the same in every cell, and the mean square error of the density is at most
`(E t)²`. -/
theorem C88_run (c : EulerConfig ℝ np) (v : Fin 3 → ℝ) (h : FlowSetup c v) (x₀ : Fin 3 → ℝ) (ρ : (Fin 3 → ℝ) → ℝ) (q : ℕ)
    (r m M ℓ H T : ℝ) (k : Integrator) (hk : HighOrder k) (hs : SmoothFlow c q (order k) r M ℓ H ρ) (hmρ : ∀ y, m ≤ ρ y)
    (hfine : 6000 * (M * H / ℓ) + 11000 * (√(c.n 0 * c.n 1 * c.n 2) * flowError v q (order k) r M ℓ H * T) < m)
    (P : ℝ) (x : Fin np → ℝ) (f : RHS ℝ (Ix → State ℝ np)) (hf : IsSolverRHS c.scheme f) {Sn : Type}
    (mk : ODEState ℝ (Ix → State ℝ np) Sn → Sn) (fuel : ℕ) (a : IntegrateArgs ℝ Sn) (haT : a.T = some T) (ha : a.saved = none)
    (st : ODEState ℝ (Ix → State ℝ np) Sn) (h0 : st.t = 0) (hT : Ahead a 0)
    (hu : ∀ j, InCells c.n j → st.u j = conserved c.gas.gamma (flowing v P x (cellMean x₀ c.h ρ j)))
    (out : Outcome ℝ (Ix → State ℝ np) Sn) (hrun : st.integrate (stepper f k) mk fuel a = some out) :
    out.2 = none ∧ MeanFollows c x₀ ρ v P x (flowError v q (order k) r M ℓ H) T out.1.t out.1.u ∧
      ∀ s ∈ out.1.snapshots, s ∈ st.snapshots ∨ ∃ st', s = mk st' ∧
        MeanFollows c x₀ ρ v P x (flowError v q (order k) r M ℓ H) T st'.t st'.u := by
  have hc := h.transport
  have hH : 0 ≤ H := by
    obtain ⟨d, hd⟩ := h.extended
    exact (hc.spacing d).le.trans (hs.width d hd)
  have hM := hs.M_nonneg
  have hℓ := hs.scale
  have hω0 : 0 ≤ M * H / ℓ := by positivity
  have hT0 : 0 < T := by
    have := (hT T haT).1
    linarith
  have hE0 : 0 ≤ √(c.n 0 * c.n 1 * c.n 2 : ℝ) * flowError v q (order k) r M ℓ H * T := by
    have := sum_abs_nonneg v
    have := hs.radius_nonneg
    unfold flowError
    positivity
  have hev : ∀ t, 0 ≤ t → t < T → EvalsFlow c v P x (fun β => ∀ j, |β j - cellMean x₀ c.h (fun y => ρ (y - t • v)) j| ≤
      584 * (M * H / ℓ) + 1169 * (√(c.n 0 * c.n 1 * c.n 2) * flowError v q (order k) r M ℓ H * T)) f := by
    intro t _ _
    refine (flow_evals h P x f hf).mono fun α hg => ?_
    have hst := hs.translate (t • v)
    exact nonvanishing_near (g := cellMean x₀ c.h fun y => ρ (y - t • v)) (m := m) hc.degree hω0 (by linarith)
      (fun j => cellMean_least x₀ c.h hc.spacing hst.smooth.continuous m (fun y _ => hmρ _))
      (fun d j => hst.neighbours hc hH x₀ d j) hg (by linarith)
  exact follows_run c v h x₀ ρ q r m M ℓ H T k hk hs hmρ hfine P x f (h.posDt f hf) hev mk fuel a haT ha st h0 hT hu out hrun

/-! ## Refining the grid for a sine wave -/

/-- A periodic tube of length `2π` with `N` cells at degree `q`. -/
noncomputable def waveTube (N q : ℕ) : EulerConfig ℝ 1 where
  gas := airGas
  riem := .hllc
  n := ![N, 1, 1]
  p := ![q, 0, 0]
  h := ![2 * Real.pi / N, 1, 1]
  cfl := 4 / 5
  fixedDt := none
  bc := ⟨fun _ _ => .periodic, fun _ _ => .other, none⟩
  limiting := none

theorem waveTube_active (N q : ℕ) (hN : 2 ≤ N) (d : Fin 3) : (waveTube N q).scheme.active d = true ↔ d = 0 := by
  have e : (waveTube N q).scheme.active d = !((waveTube N q).n d == 1 && (waveTube N q).p d == 0) := rfl
  rw [e]
  match d with
  | 0 =>
    have : ((waveTube N q).n 0 == 1) = false := by
      rw [show (waveTube N q).n 0 = N from rfl, beq_eq_false_iff_ne]
      omega
    rw [this]
    simp
  | 1 => simp [waveTube]
  | 2 => simp [waveTube]

theorem waveTube_setup (N q : ℕ) (hN : 16 ≤ N) (hq : q ≤ 8) (v : Fin 3 → ℝ) : FlowSetup (waveTube N q) v where
  transport := {
    unlimited := rfl
    degree := fun d => by
      match d with
      | 0 => exact hq
      | 1 | 2 => exact Nat.zero_le 8
    cells := fun d => by
      match d with
      | 0 => exact (by omega : 1 ≤ N)
      | 1 | 2 => exact le_rfl
    spacing := fun d => by
      have := Real.pi_pos
      have : (0 : ℝ) < N := by exact_mod_cast (by omega : 0 < N)
      match d with
      | 0 => show 0 < 2 * Real.pi / N; positivity
      | 1 | 2 => exact one_pos
    gamma := by norm_num [waveTube, airGas]
    sound := fun _ => ⟨airGas_sqrt, by norm_num [waveTube, airGas]⟩ }
  solver := .inl rfl
  box := ⟨fun _ _ _ => rfl, fun d hd => by
    have hd0 := (waveTube_active N q (by omega) d).1 hd
    subst hd0
    unfold fluxWidth
    rw [if_pos hd]
    have h1 := ceilHalf_le_four hq
    have h2 : fluxGw (waveTube N q).p ≤ 8 := by
      have e : max (max ((waveTube N q).p 0) ((waveTube N q).p 1)) ((waveTube N q).p 2) = q := by simp [waveTube]
      unfold fluxGw
      simp only [e]
      omega
    have h3 : (waveTube N q).p 0 = q := rfl
    have h4 : (waveTube N q).n 0 = N := rfl
    rw [h3, h4]
    omega⟩
  extended := ⟨0, (waveTube_active N q (by omega) 0).2 rfl⟩
  steps := .inl ⟨rfl, by norm_num [waveTube], by norm_num [waveTube], airGas_sqrt, by norm_num [waveTube, airGas]⟩

theorem sine_derivatives (k : ℕ) (hk : 1 ≤ k) (y : Fin 3 → ℝ) :
    ‖iteratedFDeriv ℝ k (fun y : Fin 3 → ℝ => 2 + Real.sin (y 0)) y‖ ≤ 1 := by
  have hg : ContDiff ℝ k fun s : ℝ => 2 + Real.sin s := contDiff_const.add Real.contDiff_sin
  have h1 := ContinuousLinearMap.iteratedFDeriv_comp_right (ContinuousLinearMap.proj (R := ℝ) (φ := fun _ : Fin 3 => ℝ) 0)
    hg y (i := k) le_rfl
  have e : (fun y : Fin 3 → ℝ => 2 + Real.sin (y 0)) =
    (fun s : ℝ => 2 + Real.sin s) ∘ (ContinuousLinearMap.proj (R := ℝ) (φ := fun _ : Fin 3 => ℝ) 0) := rfl
  rw [e, h1]
  refine (ContinuousMultilinearMap.norm_compContinuousLinearMap_le _ _).trans ?_
  have h2 : ‖iteratedFDeriv ℝ k (fun s : ℝ => 2 + Real.sin s)
      (ContinuousLinearMap.proj (R := ℝ) (φ := fun _ : Fin 3 => ℝ) 0 y)‖ ≤ 1 := by
    rw [norm_iteratedFDeriv_eq_norm_iteratedDeriv, iteratedDeriv_const_add hk, Real.norm_eq_abs]
    exact Real.abs_iteratedDeriv_sin_le_one _ _
  have h3 : ‖ContinuousLinearMap.proj (R := ℝ) (φ := fun _ : Fin 3 => ℝ) 0‖ ≤ 1 :=
    ContinuousLinearMap.opNorm_le_bound _ zero_le_one fun z => by
      rw [one_mul]
      exact norm_le_pi_norm z 0
  have h4 : ∏ _i : Fin k, ‖ContinuousLinearMap.proj (R := ℝ) (φ := fun _ : Fin 3 => ℝ) 0‖ ≤ 1 := by
    rw [Finset.prod_const]
    exact pow_le_one₀ (norm_nonneg _) h3
  calc _ ≤ (1 : ℝ) * 1 := mul_le_mul h2 h4 (Finset.prod_nonneg fun _ _ => norm_nonneg _) zero_le_one
    _ = 1 := one_mul 1

/-- The constant of the error for the sine wave. -/
noncomputable def waveError (q s : ℕ) (w : ℝ) : ℝ := |w| * (44 * (34 * Real.pi) ^ (q + 1) + (2 * Real.pi) ^ s)

theorem waveTube_smooth (N q s : ℕ) (hN : 16 ≤ N) (hq : q ≤ 8) :
    SmoothFlow (waveTube N q) q s (17 * (2 * Real.pi / N)) 1 1 (2 * Real.pi / N) (fun y => 2 + Real.sin (y 0)) := by
  have hpi := Real.pi_pos
  have hN0 : (0 : ℝ) < N := by exact_mod_cast (by omega : 0 < N)
  refine ⟨fun d hd => ?_, fun d hd => ?_, by positivity,
    contDiff_const.add (Real.contDiff_sin.comp (contDiff_apply ℝ ℝ (0 : Fin 3))), fun y z hyz => ?_, fun d hd y => ?_, one_pos,
    fun k hk _ y => ?_, fun d hd => ?_, ?_⟩
  · rw [waveTube_active N q (by omega)] at hd
    subst hd
    exact le_rfl
  · have hd' := hd
    rw [waveTube_active N q (by omega)] at hd
    subst hd
    refine mul_le_mul_of_nonneg_right ?_ (by show 0 ≤ 2 * Real.pi / N; positivity)
    have h1 := ceilHalf_le_four hq
    have : reach (waveTube N q).scheme 0 ≤ 16 := by
      unfold reach
      rw [if_pos hd']
      have : (waveTube N q).scheme.p 0 = q := rfl
      rw [this]
      omega
    have : (reach (waveTube N q).scheme 0 : ℝ) ≤ 16 := by exact_mod_cast this
    linarith
  · rw [hyz 0 ((waveTube_active N q (by omega) 0).2 rfl)]
  · rw [waveTube_active N q (by omega)] at hd
    subst hd
    have : ((waveTube N q).n 0 : ℝ) * (waveTube N q).h 0 = 2 * Real.pi := by
      show (N : ℝ) * (2 * Real.pi / N) = _
      field_simp
    rw [this]
    simp
  · rw [one_pow, div_one]
    exact sine_derivatives k hk y
  · rw [waveTube_active N q (by omega)] at hd
    subst hd
    exact le_rfl
  · rw [div_le_one hN0]
    have : (16 : ℝ) ≤ N := by exact_mod_cast hN
    linarith [Real.pi_le_four]

theorem waveError_spec (N q s : ℕ) (hN : 16 ≤ N) (w : ℝ) :
    flowError ![w, 0, 0] q s (17 * (2 * Real.pi / N)) 1 1 (2 * Real.pi / N) ≤ waveError q s w / (N : ℝ) ^ min (q + 1) s := by
  have hpi := Real.pi_pos
  have hN0 : (0 : ℝ) < N := by exact_mod_cast (by omega : 0 < N)
  have hN1 : (1 : ℝ) ≤ N := by exact_mod_cast (by omega : 1 ≤ N)
  unfold flowError waveError
  have e : ∑ d, |(![w, 0, 0] : Fin 3 → ℝ) d| = |w| := by
    rw [Fin.sum_univ_three]
    simp
  rw [e]
  have hle : ∀ (a : ℝ) (n : ℕ), 0 ≤ a → min (q + 1) s ≤ n → ∀ k : ℕ, (a / N) ^ n / k.factorial ≤ a ^ n / (N : ℝ) ^ min (q + 1) s := by
    intro a n ha hn k
    have hk : (1 : ℝ) ≤ k.factorial := by exact_mod_cast k.factorial_pos
    calc (a / N) ^ n / k.factorial ≤ (a / N) ^ n := div_le_self (by positivity) hk
      _ = a ^ n / (N : ℝ) ^ n := div_pow _ _ _
      _ ≤ _ := div_le_div_of_nonneg_left (by positivity) (by positivity) (pow_le_pow_right₀ hN1 hn)
  have h1 := hle (34 * Real.pi) (q + 1) (by positivity) (min_le_left _ _) (q + 1)
  have h2 := hle (2 * Real.pi) s (by positivity) (min_le_right _ _) (s + 1)
  have e1 : 17 * (2 * Real.pi / N) = 34 * Real.pi / N := by ring
  have e2 : |w| * (44 * (34 * Real.pi) ^ (q + 1) + (2 * Real.pi) ^ s) / (N : ℝ) ^ min (q + 1) s =
      |w| * (44 * ((34 * Real.pi) ^ (q + 1) / (N : ℝ) ^ min (q + 1) s) + (2 * Real.pi) ^ s / (N : ℝ) ^ min (q + 1) s) := by ring
  rw [e1, e2]
  simp only [div_one, mul_one]
  exact mul_le_mul_of_nonneg_left (by linarith) (abs_nonneg w)

/-- What `MeanFollows` says about the wave in the tube. -/
theorem sine_follows (N q : ℕ) (hN1 : 16 ≤ N) (k : Integrator) (w T E : ℝ) (hT : 0 < T) (hE0 : 0 ≤ E)
    (hE : E ≤ waveError q (order k) w / (N : ℝ) ^ min (q + 1) (order k)) (u : Ix → State ℝ 1)
    (h2 : MeanFollows (waveTube N q) 0 (fun y => 2 + Real.sin (y 0)) ![w, 0, 0] 1 (fun _ => 1 / 2) E T T u) :
    (∀ i, InCells (waveTube N q).n i → 0 < u i .rho ∧ u i (.mom 0) = w * u i .rho) ∧
    (∑ j ∈ Finset.range N, (u ![j, 0, 0] .rho -
      cellMean 0 (waveTube N q).h (fun y => 2 + Real.sin (y 0 - T * w)) ![j, 0, 0]) ^ 2) / N ≤
        (waveError q (order k) w * T / (N : ℝ) ^ min (q + 1) (order k)) ^ 2 := by
  have hN0 : (0 : ℝ) < N := by exact_mod_cast (by omega : 0 < N)
  have hcnt : ((waveTube N q).n 0 * (waveTube N q).n 1 * (waveTube N q).n 2 : ℝ) = N := by
    show ((N : ℝ) * ((1 : ℕ) : ℝ) * ((1 : ℕ) : ℝ)) = N
    simp
  obtain ⟨r, hr1, hr2⟩ := h2
  refine ⟨fun i hi => ?_, ?_⟩
  · rw [(hr1 i hi).1]
    refine ⟨(hr1 i hi).2 le_rfl, ?_⟩
    show r i * w = w * r i
    ring
  · rw [hcnt] at hr2
    have e1 : (fun y : Fin 3 → ℝ => 2 + Real.sin ((y - T • ![w, 0, 0]) 0)) = fun y => 2 + Real.sin (y 0 - T * w) := by
      funext y
      simp
    rw [e1] at hr2
    have e2 : cellSum (waveTube N q).n (fun i => (r i - cellMean 0 (waveTube N q).h (fun y => 2 + Real.sin (y 0 - T * w)) i) ^ 2) =
        ∑ j ∈ Finset.range N, (u ![j, 0, 0] .rho -
          cellMean 0 (waveTube N q).h (fun y => 2 + Real.sin (y 0 - T * w)) ![j, 0, 0]) ^ 2 := by
      have : cellSum (waveTube N q).n (fun i => (r i - cellMean 0 (waveTube N q).h (fun y => 2 + Real.sin (y 0 - T * w)) i) ^ 2) =
          ∑ j ∈ Finset.range N, (r ![j, 0, 0] -
          cellMean 0 (waveTube N q).h (fun y => 2 + Real.sin (y 0 - T * w)) ![j, 0, 0]) ^ 2 := by
        show (∑ a ∈ Finset.range N, ∑ b ∈ Finset.range 1, ∑ c ∈ Finset.range 1, _) = _
        simp
      rw [this]
      refine Finset.sum_congr rfl fun j hj => ?_
      have hj' := Finset.mem_range.1 hj
      have hin : InCells (waveTube N q).n ![(j : ℤ), 0, 0] := fun d => by
        match d with
        | 0 => exact ⟨Int.natCast_nonneg j, by show (j : ℤ) < (N : ℤ); exact_mod_cast hj'⟩
        | 1 | 2 => exact ⟨le_rfl, one_pos⟩
      rw [(hr1 _ hin).1]
      rfl
    rw [← e2, div_le_iff₀ hN0]
    refine le_trans ?_ (le_of_eq (mul_comm _ _))
    refine hr2.trans (mul_le_mul_of_nonneg_left (pow_le_pow_left₀ (by positivity) ?_ 2) hN0.le)
    calc E * T ≤ waveError q (order k) w / (N : ℝ) ^ min (q + 1) (order k) * T := mul_le_mul_of_nonneg_right hE hT.le
      _ = _ := by ring

/-- C88 for the density `2 + sin x` moving with velocity `w` at degree `q` on `N` cells up to time `T`, when `N` is large: the
mean square error of the density is at most `(C T / N^min(q+1, s))²` with `C` independent of `N` and `T`. -/
theorem C88_sine (N q : ℕ) (hq : q ≤ 8) (k : Integrator) (hk : HighOrder k) (w T : ℝ) (hT : 0 < T)
    (hN : (12000 * Real.pi + 11000 * (waveError q (order k) w * T)) ^ 2 < N) (f : RHS ℝ (Ix → State ℝ 1))
    (hf : IsSolverRHS (waveTube N q).scheme f) (fuel : ℕ) (u : Ix → State ℝ 1)
    (hu : ∀ j, InCells (waveTube N q).n j → u j = conserved (7 / 5)
      (flowing ![w, 0, 0] 1 (fun _ => 1 / 2) (cellMean 0 (waveTube N q).h (fun y => 2 + Real.sin (y 0)) j)))
    (out : Outcome ℝ (Ix → State ℝ 1) Unit)
    (hrun : (ODEState.init u).integrate (stepper f k) (fun _ => ()) fuel ⟨some T, none, true, [], false, none⟩ =
      some out) : out.2 = none ∧
    (∀ i, InCells (waveTube N q).n i → 0 < out.1.u i .rho ∧ out.1.u i (.mom 0) = w * out.1.u i .rho) ∧
    (∑ j ∈ Finset.range N, (out.1.u ![j, 0, 0] .rho -
      cellMean 0 (waveTube N q).h (fun y => 2 + Real.sin (y 0 - T * w)) ![j, 0, 0]) ^ 2) / N ≤
        (waveError q (order k) w * T / (N : ℝ) ^ min (q + 1) (order k)) ^ 2 := by
  have hpi := Real.pi_pos
  have hW : 0 ≤ waveError q (order k) w := by unfold waveError; positivity
  have hWT : 0 ≤ waveError q (order k) w * T := by positivity
  have hsq : 12000 * Real.pi + 11000 * (waveError q (order k) w * T) < √(N : ℝ) := Real.lt_sqrt_of_sq_lt hN
  have hN1 : 16 ≤ N := by
    have : (16 : ℝ) ≤ N := by
      have : (12000 * Real.pi) ^ 2 ≤ (12000 * Real.pi + 11000 * (waveError q (order k) w * T)) ^ 2 :=
        pow_le_pow_left₀ (by positivity) (by linarith) 2
      nlinarith [Real.two_le_pi]
    exact_mod_cast this
  have hN0 : (0 : ℝ) < N := by exact_mod_cast (by omega : 0 < N)
  have hN1' : (1 : ℝ) ≤ N := by exact_mod_cast (by omega : 1 ≤ N)
  have hset := waveTube_setup N q hN1 hq ![w, 0, 0]
  have hsm := waveTube_smooth N q (order k) hN1 hq
  have hE := waveError_spec N q (order k) hN1 w
  have hE0 : 0 ≤ flowError ![w, 0, 0] q (order k) (17 * (2 * Real.pi / N)) 1 1 (2 * Real.pi / N) := by
    have := sum_abs_nonneg (![w, 0, 0] : Fin 3 → ℝ)
    unfold flowError
    positivity
  have hA : Ahead (⟨some T, none, true, [], false, none⟩ : IntegrateArgs ℝ Unit) 0 := by
    intro T' hT'
    cases hT'
    exact ⟨hT, fun d hd => by cases hd⟩
  have run := C88_run (waveTube N q) ![w, 0, 0] hset 0 _ q _ 1 1 1 _ T k hk hsm
    (fun y => by linarith [Real.neg_one_le_sin (y 0)])
  obtain ⟨E, hEdef⟩ : ∃ E, E = flowError ![w, 0, 0] q (order k) (17 * (2 * Real.pi / N)) 1 1 (2 * Real.pi / N) := ⟨_, rfl⟩
  rw [← hEdef] at run hE hE0
  have hcnt : ((waveTube N q).n 0 * (waveTube N q).n 1 * (waveTube N q).n 2 : ℝ) = N := by
    show ((N : ℝ) * ((1 : ℕ) : ℝ) * ((1 : ℕ) : ℝ)) = N
    simp
  have ho : 1 ≤ min (q + 1) (order k) := by unfold order; split_ifs <;> omega
  have hEN : E ≤ waveError q (order k) w / N := by
    refine hE.trans (div_le_div_of_nonneg_left hW hN0 ?_)
    calc (N : ℝ) = (N : ℝ) ^ 1 := (pow_one _).symm
      _ ≤ _ := pow_le_pow_right₀ hN1' ho
  have hs0 : 0 < √(N : ℝ) := Real.sqrt_pos.2 hN0
  have hss : √(N : ℝ) * √(N : ℝ) = N := Real.mul_self_sqrt hN0.le
  have hs1 : √(N : ℝ) ≤ N := by
    have : 1 ≤ √(N : ℝ) := Real.one_le_sqrt.2 hN1'
    nlinarith
  obtain ⟨h1, h2, -⟩ := run (by
      rw [hcnt]
      have a1 : 2 * Real.pi / N ≤ 2 * Real.pi / √(N : ℝ) := div_le_div_of_nonneg_left (by positivity) hs0 hs1
      have a2 : √(N : ℝ) * E * T ≤ waveError q (order k) w * T / √(N : ℝ) := by
        rw [le_div_iff₀ hs0]
        rw [le_div_iff₀ hN0] at hEN
        have := mul_le_mul_of_nonneg_right hEN hT.le
        calc _ = E * (√(N : ℝ) * √(N : ℝ)) * T := by ring
          _ ≤ _ := by rw [hss]; exact this
      have a3 : (12000 * Real.pi + 11000 * (waveError q (order k) w * T)) / √(N : ℝ) < 1 := (div_lt_one hs0).2 hsq
      have a4 : (12000 * Real.pi + 11000 * (waveError q (order k) w * T)) / √(N : ℝ) =
        6000 * (2 * Real.pi / √(N : ℝ)) + 11000 * (waveError q (order k) w * T / √(N : ℝ)) := by ring
      rw [one_mul, div_one]
      linarith)
    1 (fun _ => 1 / 2) f hf (fun _ => ()) fuel ⟨some T, none, true, [], false, none⟩ rfl rfl (ODEState.init u) rfl hA hu out hrun
  have ht : out.1.t = T := by
    have hrun' : (ODEState.init u).integrateT (stepper f k) (fun _ => ()) T true [] false fuel = some (out.1, none) := by
      rw [← h1]
      exact hrun
    exact (C24_exact_output_times f k _ (hset.posDt f hf) T [] false fuel _ _ le_rfl hT (fun d hd => by cases hd) hrun').1
  rw [ht] at h2
  exact ⟨h1, sine_follows N q hN1 k w T E hT hE0 hE _ h2⟩

/-- The number of cells `C88_sine` asks for, at degree 3 with `rk4` up to time 1. -/
example : (12000 * Real.pi + 11000 * (waveError 3 (order .rk4) 1 * 1)) ^ 2 < ((10 ^ 30 : ℕ) : ℝ) := by
  have h1 := Real.pi_le_four
  have h0 := Real.pi_pos
  have h2 : waveError 3 (order .rk4) 1 * 1 ≤ 16 * 10 ^ 9 := by
    unfold waveError order
    rw [if_pos rfl, abs_one]
    have a1 : (34 * Real.pi) ^ (3 + 1) ≤ (34 * 4) ^ (3 + 1) := pow_le_pow_left₀ (by positivity) (by linarith) _
    have a2 : (2 * Real.pi) ^ 4 ≤ (2 * 4) ^ 4 := pow_le_pow_left₀ (by positivity) (by linarith) _
    norm_num at a1 a2 ⊢
    linarith
  have h3 : 0 ≤ waveError 3 (order .rk4) 1 * 1 := by unfold waveError; positivity
  calc _ ≤ (12000 * 4 + 11000 * (16 * 10 ^ 9 : ℝ)) ^ 2 := pow_le_pow_left₀ (by positivity) (by linarith) 2
    _ < _ := by norm_num

end FVHOE
