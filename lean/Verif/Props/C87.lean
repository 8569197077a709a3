import Verif.Proofs.Norms

/-!
C87: in a uniform flow, at every degree, small density perturbations do not grow in the mean square, however long the
run.
-/

set_option linter.unusedSectionVars false

namespace FVHOE

variable {np : ℕ}

/-- Every cell holds a gas of velocity `v`, pressure `P` and concentrations `x` of positive density, and the squares of the
deviations of the densities from `k` sum up to at most `Q`. -/
def DeviatesBy (c : EulerConfig ℝ np) (v : Fin 3 → ℝ) (P : ℝ) (x : Fin np → ℝ) (k Q : ℝ) (u : Ix → State ℝ np) : Prop :=
  ∃ r : Ix → ℝ, (∀ i, InCells c.n i → u i = conserved c.gas.gamma (flowing v P x (r i)) ∧ 0 < r i) ∧
    cellSum c.n (fun i => (r i - k) ^ 2) ≤ Q

/-- Continue the values in the cells periodically. -/
theorem exists_periodic (n : Fin 3 → ℕ) (r : Ix → ℝ) :
    ∃ α : Ix → ℝ, Cyclic n α ∧ ∀ i, InCells n i → α i = r i := by
  refine ⟨fun i => r fun d => i d % n d, fun d i => ?_, fun i hi => ?_⟩
  · beta_reduce
    congr 1
    funext e
    by_cases he : e = d
    · subst he; simp
    · simp [he]
  · beta_reduce
    congr 1
    funext e
    exact Int.emod_eq_of_lt (hi e).1 (hi e).2

theorem dot_eq_sum (n : Fin 3 → ℕ) (α : Ix → ℝ) (r : Ix → ℝ) (k : ℝ) (h : ∀ i, InCells n i → α i = r i) :
    dot n (fun i => α i - k) (fun i => α i - k) = cellSum n fun i => (r i - k) ^ 2 := by
  unfold dot
  refine cellSum_congr _ _ _ fun i hi => ?_
  simp only [h i hi]
  ring

/-- **C87** Start a run with `ssprk3` or `rk4`, at any degrees up to 8 and a CFL number up to `4/5`, in a periodic box
with a gas of uniform velocity, pressure and concentrations whose density deviates from `k > 0` by so little that
`11000² Σ (r_i - k)² < k²`. The run never raises, whatever its length; at its end and at every snapshot velocity, pressure
and concentrations are the same in every cell, the density is positive and `Σ (r_i - k)²` is at most what it was at the
start. -/
theorem C87_stable (c : EulerConfig ℝ np) (v : Fin 3 → ℝ) (h : FlowSetup c v) (P : ℝ) (x : Fin np → ℝ) (k : ℝ) (hk : 0 < k)
    (r : Ix → ℝ) (hr : 11000 ^ 2 * cellSum c.n (fun i => (r i - k) ^ 2) < k ^ 2)
    (f : RHS ℝ (Ix → State ℝ np)) (hf : IsSolverRHS c.scheme f) (m : Integrator) (hm : HighOrder m) {Sn : Type}
    (mk : ODEState ℝ (Ix → State ℝ np) Sn → Sn) (fuel : ℕ) (a : IntegrateArgs ℝ Sn) (ha : Computes a)
    (st : ODEState ℝ (Ix → State ℝ np) Sn) (h0 : 0 ≤ st.t) (hT : Ahead a st.t)
    (hu : ∀ j, InCells c.n j → st.u j = conserved c.gas.gamma (flowing v P x (r j)))
    (out : Outcome ℝ (Ix → State ℝ np) Sn) (hrun : st.integrate (stepper f m) mk fuel a = some out) :
    out.2 = none ∧ DeviatesBy c v P x k (cellSum c.n fun i => (r i - k) ^ 2) out.1.u ∧
      ∀ s ∈ out.1.snapshots, s ∈ st.snapshots ∨ ∃ st', s = mk st' ∧
        DeviatesBy c v P x k (cellSum c.n fun i => (r i - k) ^ 2) st'.u := by
  have hc := h.transport
  obtain ⟨α₀, hα₀, hr₀⟩ := exists_periodic c.n r
  set Q := cellSum c.n fun i => (r i - k) ^ 2 with hQ
  have hQ0 : 0 ≤ Q := cellSum_nonneg _ fun i _ => sq_nonneg _
  have hsq : 11000 * √Q < k := by
    refine lt_of_pow_lt_pow_left₀ 2 hk.le ?_
    rw [mul_pow, Real.sq_sqrt hQ0]
    exact hr
  let I : (Ix → State ℝ np) → Prop := fun u => ∃ α : Ix → ℝ, Cyclic c.n α ∧
    (∀ j, InCells c.n j → u j = conserved c.gas.gamma (flowing v P x (α j))) ∧
    nrm c.n (fun i => α i - k) ≤ √Q
  have hsup : ∀ α : Ix → ℝ, Cyclic c.n α → nrm c.n (fun i => α i - k) ≤ √Q → ∀ j, |α j - k| ≤ √Q := by
    intro α hα hn j
    exact (sup_le_nrm c.n hc.cells (fun i => α i - k) (fun d i => by beta_reduce; rw [hα d i]) j).trans hn
  have hI : ∀ u, I u → DeviatesBy c v P x k Q u := by
    rintro u ⟨α, h1, h2, h3⟩
    refine ⟨α, fun i hi => ⟨h2 i hi, ?_⟩, ?_⟩
    · have := (abs_le.1 (hsup α h1 h3 i)).1
      have := Real.sqrt_nonneg Q
      linarith
    · rw [← dot_eq_sum c.n α α k fun _ _ => rfl]
      exact (Real.sqrt_le_sqrt_iff hQ0).1 h3
  have hstep : ∀ (st : ODEState ℝ (Ix → State ℝ np) Sn) target, (∀ g, target = some g → st.t < g) → I st.u →
      I (st.takeStep (stepper f m) target).1.u ∧ (st.takeStep (stepper f m) target).2 = none ∧
        (st.takeStep (stepper f m) target).1.snapshots = st.snapshots := by
    rintro st target hg ⟨α, h1, h2, h3⟩
    obtain ⟨τ, k1, k2, k3, -, k5, k6⟩ := flow_step h (g := fun _ => k) (m := k) (ω := 0) le_rfl (fun _ => le_rfl)
      (fun d j => by simp) (hsup α h1 h3) (by linarith) P x h1 f hf m hm st target hg h2
    refine ⟨⟨_, act_cyclic _ h1, k6, ?_⟩, k3, k5⟩
    have hr' : Cyclic c.n fun i => α i - k := fun d i => by beta_reduce; rw [h1 d i]
    refine le_trans (le_of_eq ?_) ((nrm_step h k1.le k2 m hr').trans h3)
    congr 1
    have z : ∀ A : Ops, (∀ j, act A (fun _ => k) j = 0) → act (stepOp m A) (fun _ => k) = fun _ => k := by
      intro A hA
      have hA' : act A (fun _ => k) = 0 := funext hA
      have e24 : (24 : Ops) = (24 : ℝ) • 1 := by rw [← mul_one (24 : Ops)]; exact natCast_mul_ops 24 1
      have e12 : (12 : Ops) = (12 : ℝ) • 1 := by rw [← mul_one (12 : Ops)]; exact natCast_mul_ops 12 1
      have e4 : (4 : Ops) = (4 : ℝ) • 1 := by rw [← mul_one (4 : Ops)]; exact natCast_mul_ops 4 1
      have e6 : (6 : Ops) = (6 : ℝ) • 1 := by rw [← mul_one (6 : Ops)]; exact natCast_mul_ops 6 1
      have e3 : (3 : Ops) = (3 : ℝ) • 1 := by rw [← mul_one (3 : Ops)]; exact natCast_mul_ops 3 1
      funext j
      unfold stepOp poly3 poly4
      rw [e24, e12, e4, e6, e3]
      split_ifs <;>
        simp [pow_succ, hA']
    have z' := z (τ • rateOp c v) fun j => by
      have := sup_rate_diff h k1.le k2 (α := fun _ => k) (ω := 0) le_rfl (fun d _ j => by simp) j
      exact abs_nonpos_iff.1 (this.trans (by simp))
    have e : (fun i => α i - k) = α + (-1 : ℝ) • fun _ => k := by
      funext i
      simp [sub_eq_add_neg]
    rw [e, act_map_add, act_map_smul, z']
    funext i
    simp [sub_eq_add_neg]
  have key := integrate_outcome_fwd (posStepper_of_posDt (h.posDt f hf) m)
    (fun st' : ODEState ℝ (Ix → State ℝ np) Sn => I st'.u ∧ ∀ s ∈ st'.snapshots, s ∈ st.snapshots ∨ ∃ st', s = mk st' ∧
      DeviatesBy c v P x k Q st'.u)
    (fun st' target hg hst => ⟨⟨(hstep st' target hg hst.1).1, by
      rw [(hstep st' target hg hst.1).2.2]
      exact hst.2⟩, (hstep st' target hg hst.1).2.1⟩)
    (fun st' hst => ⟨hst.1, fun s hs => by
      rcases List.mem_append.1 hs with hs | hs
      · exact hst.2 s hs
      · rw [List.mem_singleton] at hs
        exact Or.inr ⟨st', hs, hI _ hst.1⟩⟩) fuel a ha st h0 hT out
    ⟨⟨α₀, hα₀, fun j hj => by rw [hr₀ j hj]; exact hu j hj, by
      unfold nrm
      rw [dot_eq_sum c.n α₀ r k hr₀]⟩, fun s hs => Or.inl hs⟩ hrun
  exact ⟨key.2, hI _ key.1.1, key.1.2⟩

/-! ## A case -/

/-- A periodic box of `16 × 16` cells at degree 3 with the step size the code chooses. -/
noncomputable def flowBox : EulerConfig ℝ 1 where
  gas := airGas
  riem := .hllc
  n := ![16, 16, 1]
  p := ![3, 3, 0]
  h := ![1 / 16, 1 / 16, 1]
  cfl := 4 / 5
  fixedDt := none
  bc := ⟨fun _ _ => .periodic, fun _ _ => .other, none⟩
  limiting := none

theorem flowBox_setup (v : Fin 3 → ℝ) : FlowSetup flowBox v where
  transport := {
    unlimited := rfl
    degree := fun d => by match d with | 0 | 1 | 2 => simp [flowBox]
    cells := fun d => by match d with | 0 | 1 | 2 => simp [flowBox]
    spacing := fun d => by
      match d with
      | 0 | 1 => norm_num [flowBox]
      | 2 => exact one_pos
    gamma := by norm_num [flowBox, airGas]
    sound := fun _ => ⟨airGas_sqrt, by norm_num [flowBox, airGas]⟩ }
  solver := .inl rfl
  box := ⟨fun _ _ _ => rfl, fun d hd => by
    unfold fluxWidth
    rw [if_pos hd]
    have : fluxGw flowBox.p = 4 := by decide +kernel
    rw [this]
    match d with
    | 0 | 1 => simp [flowBox, ceilHalf]
    | 2 => simp [flowBox, Scheme.active, EulerConfig.scheme] at hd⟩
  extended := ⟨0, by simp [flowBox, Scheme.active, EulerConfig.scheme]⟩
  steps := .inl ⟨rfl, by norm_num [flowBox], by norm_num [flowBox], airGas_sqrt, by norm_num [flowBox, airGas]⟩

/-- The density is 2 but for one cell in which it is a little more. -/
example (u : Ix → State ℝ 1) (hu : ∀ j, InCells flowBox.n j → u j = conserved (7 / 5) (flowing ![1, -1 / 2, 0] 3
      (fun _ => 1 / 2) (if j = 0 then 2 + 1 / 10000 else 2)))
    (f : RHS ℝ (Ix → State ℝ 1)) (hf : IsSolverRHS flowBox.scheme f) (fuel : ℕ) (out : Outcome ℝ (Ix → State ℝ 1) Unit)
    (hrun : (ODEState.init u).integrate (stepper f .rk4) (fun _ => ()) fuel ⟨none, some 1000000, true, [], false, none⟩ =
      some out) :
    out.2 = none ∧ DeviatesBy flowBox ![1, -1 / 2, 0] 3 (fun _ => 1 / 2) 2 ((1 / 10000) ^ 2) out.1.u := by
  have e : cellSum flowBox.n (fun i : Ix => ((if i = 0 then 2 + 1 / 10000 else 2 : ℝ) - 2) ^ 2) = (1 / 10000) ^ 2 := by
    have h1 : (fun i : Ix => ((if i = 0 then 2 + 1 / 10000 else 2 : ℝ) - 2) ^ 2) =
        fun i : Ix => if i = 0 then (1 / 10000) ^ 2 else 0 := by
      funext i
      split_ifs <;> norm_num
    have h2 : ∀ a b c : ℕ, (![(a : ℤ), (b : ℤ), (c : ℤ)] : Ix) = 0 ↔ a = 0 ∧ b = 0 ∧ c = 0 := by
      intro a b c
      constructor
      · intro h
        have h0 := congrFun h 0
        have h1 := congrFun h 1
        have h2 := congrFun h 2
        simp at h0 h1 h2
        exact ⟨h0, h1, h2⟩
      · rintro ⟨rfl, rfl, rfl⟩
        funext d
        match d with | 0 | 1 | 2 => rfl
    rw [h1]
    unfold cellSum flowBox
    simp only [h2]
    simp [Finset.sum_range_succ]
  obtain ⟨h1, h2, -⟩ := C87_stable flowBox ![1, -1 / 2, 0] (flowBox_setup _) 3 (fun _ => 1 / 2) 2 (by norm_num)
    (fun i => if i = 0 then 2 + 1 / 10000 else 2) (by rw [e]; norm_num) f hf .rk4 (.inr rfl) (fun _ => ()) fuel _
    (by unfold Computes; simp) (ODEState.init u) le_rfl (by intro T hT; cases hT) hu out hrun
  rw [e] at h2
  exact ⟨h1, h2⟩

end FVHOE
