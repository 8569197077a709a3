import Verif.Proofs.Upwind
import Verif.Proofs.FirstOrder
import Verif.Proofs.Forward
import Verif.Props.C12_C57

/-!
C71: at degree zero, in a uniform flow, a whole run converges to the exact cell averages at first order.
-/

set_option linter.unusedSectionVars false

namespace FVHOE

variable {np : ℕ}

/-- The set-up of C71: degree zero with a contact-keeping solver in a periodic box, CFL number at most one. -/
structure UpwindSetup (c : EulerConfig ℝ np) : Prop where
  first : FirstOrder c
  solver : KeepsContacts c.riem
  periodic : ∀ d s, c.scheme.active d = true → c.bc.kind d s = .periodic
  cfl : c.cfl ≤ 1

section

variable {c : EulerConfig ℝ np} (h : UpwindSetup c)
include h

theorem UpwindSetup.transport : TransportSetup c :=
  ⟨h.first.limiting, fun d => by rw [h.first.degree]; omega, h.first.cells, h.first.spacing, h.first.gas.gamma.ne',
    fun _ => ⟨h.first.gas.sqrt, h.first.gas.floor⟩⟩

theorem UpwindSetup.box : PeriodicBox c :=
  ⟨h.periodic, fun d hd => by rw [h.first.width, if_pos hd]; exact h.first.cells d⟩

theorem centers_zero (α : Ix → ℝ) : latCenters ℝ c.p α = α := by
  have hp : ∀ d, c.p d ≤ 1 := fun d => by rw [h.first.degree]; omega
  unfold latCenters
  rw [latC_low (hp _), latC_low (hp _), latC_low (hp _)]

theorem faceDensity_zero (d : Fin 3) (b : Bool) (α : Ix → ℝ) (i : Ix) :
    faceDensity ℝ c.p d b α i = α (i - if b = true then Pi.single d 1 else 0) := by
  have hp : ∀ d, c.p d ≤ 1 := fun d => by rw [h.first.degree]; omega
  have hs : smoothed ℝ c.p α = α := by
    unfold smoothed
    rw [centers_zero h, latT_low (hp _), latT_low (hp _), latT_low (hp _)]
  have hl : latLine ℝ c.p d α = α := by
    unfold latLine
    rw [latC_low (hp _), latC_low (hp _)]
  unfold faceDensity faceVal
  rw [hs, hl, h.first.degree, latR_zero, latL_zero, ite_self]

theorem transported_zero (d : Fin 3) (b : Bool) (α : Ix → ℝ) (i : Ix) :
    transported ℝ c.p d b α i = α (i - if b = true then Pi.single d 1 else 0) := by
  have hp : ∀ d, c.p d ≤ 1 := fun d => by rw [h.first.degree]; omega
  unfold transported
  rw [latT_low (hp _), latT_low (hp _), faceDensity_zero h]

/-- One evaluation: the derivative is that of the upwind step, and the step size keeps it an average. -/
theorem upwind_rhs (v : Fin 3 → ℝ) (P : ℝ) (x : Fin np → ℝ) (α : Ix → ℝ)
    (hα : ∀ d j, α (j + Pi.single d (c.n d : ℤ)) = α j) (hpos : ∀ j, 0 < α j) (t t' : ℝ) (u : Ix → State ℝ np)
    (hu : ∀ j, InCells c.n j → u j = conserved c.gas.gamma (flowing v P x (α j)))
    (junk : ℕ → Ix → State ℝ np) (mem : Fin 3 → Ix → State ℝ np) :
    ∃ dt D, solverRHS c.scheme junk mem t t' u = .ok (dt, D) ∧ 0 < dt ∧ (∀ d, dt * ∑ d, |v d| ≤ c.h d) ∧
      ∀ τ i, InCells c.n i → (u + τ • D) i =
        conserved c.gas.gamma (flowing v P x (upwindStep c.scheme.active c.h v τ α i)) := by
  have hc := h.transport
  have h0 : InCells c.n 0 := fun d => ⟨le_rfl, by have := hc.cells d; simp; omega⟩
  have hp1 : ∀ d, c.p d ≤ 1 := fun d => by rw [h.first.degree]; omega
  have hext : extAll c.n (fun _ => .wrap) (fun _ => .wrap)
      (fun j => conserved c.gas.gamma (flowing v P x (α j))) =
      fun j => conserved c.gas.gamma (flowing v P x (α j)) := by
    rw [extAll_wrap c.n hc.cells]
    funext j
    rw [periodic_wrap c.n α hα]
  have hS := h.box.sides hc.cells t
  obtain ⟨dt, D, hdt, e⟩ : ∃ dt D, IsDt c.scheme c.scheme.p (latPrim ℝ c.scheme.prim c.scheme.p
      (extAll c.scheme.n (fun _ => .wrap) (fun _ => .wrap) fun j => conserved c.gas.gamma (flowing v P x (α j)))) dt ∧
      solverRHS c.scheme junk mem t t' u = .ok (dt, D) := by
    obtain ⟨dt, hdt, e⟩ := rhs_spec c.scheme hc.unlimited hc.degree hc.cells t _ _ hS junk mem t' u _ hu
    exact ⟨dt, _, hdt, e⟩
  have key := fun i hi => contact_rhs c hc h.solver v P x α i hi
    (fun d _ j _ => by rw [centers_zero h]; exact (hpos j).ne')
    (fun d _ y _ j _ => by rw [faceDensity_zero h, faceDensity_zero h]; exact (add_pos (hpos _) (hpos _)).ne')
    t t' _ _ hS u _ hu (fun j _ => by rw [hext]) junk mem
  -- the step size
  have hW : latPrim ℝ c.scheme.prim c.scheme.p (extAll c.scheme.n (fun _ => .wrap) (fun _ => .wrap)
      fun j => conserved c.gas.gamma (flowing v P x (α j))) = fun j => flowing v P x (α j) := by
    rw [show c.scheme.p = c.p from rfl, latPrim_low _ hp1]
    funext j
    rw [show c.scheme.n = c.n from rfl, hext]
    exact prim_flowing _ hc.gamma v P x (α j) (hpos j).ne'
  rw [hW] at hdt
  unfold IsDt at hdt
  rw [show c.scheme.fixedDt = none from h.first.fixedDt] at hdt
  obtain ⟨m, ⟨i₀, hi₀, hm⟩, -, hdt⟩ := hdt
  have hss := (soundSpeed_spec c.gas h.first.gas.sqrt h.first.gas.floor (flowing v P x (α i₀))).1
  have hk : (1 : ℝ) ≤ (c.scheme.ndim : ℝ) := by exact_mod_cast h.first.ndim_pos
  have hm1 : ∑ d, |v d| < m := by
    rw [← hm]
    show _ < signalSpeed c.gas _ _
    unfold signalSpeed sum3
    rw [Fin.sum_univ_three]
    have := mul_le_mul_of_nonneg_right hk hss.le
    change |v 0| + |v 1| + |v 2| < |v 0| + |v 1| + |v 2| + _
    linarith
  have hV : 0 ≤ ∑ d, |v d| := Finset.sum_nonneg fun d _ => abs_nonneg _
  have hm0 : 0 < m := hV.trans_lt hm1
  have hmin : 0 < min (min (c.h 0) (c.h 1)) (c.h 2) :=
    lt_min (lt_min (hc.spacing 0) (hc.spacing 1)) (hc.spacing 2)
  have hle : ∀ d, min (min (c.h 0) (c.h 1)) (c.h 2) ≤ c.h d := by
    intro d
    match d with
    | 0 => exact (min_le_left _ _).trans (min_le_left _ _)
    | 1 => exact (min_le_left _ _).trans (min_le_right _ _)
    | 2 => exact min_le_right _ _
  have hcfl := h.first.cfl
  have hdt' : dt = c.cfl * min (min (c.h 0) (c.h 1)) (c.h 2) / m := hdt
  refine ⟨dt, D, e, ?_, fun d => ?_, fun τ i hi => ?_⟩
  · rw [hdt']
    positivity
  · have h1 : dt * m = c.cfl * min (min (c.h 0) (c.h 1)) (c.h 2) := by
      rw [hdt']
      field_simp
    have hdt0 : 0 < dt := by rw [hdt']; positivity
    calc dt * ∑ d, |v d| ≤ dt * m := mul_le_mul_of_nonneg_left hm1.le hdt0.le
      _ = c.cfl * min (min (c.h 0) (c.h 1)) (c.h 2) := h1
      _ ≤ 1 * min (min (c.h 0) (c.h 1)) (c.h 2) := mul_le_mul_of_nonneg_right h.cfl hmin.le
      _ ≤ c.h d := by rw [one_mul]; exact hle d
  · obtain ⟨dt', D', e', hD⟩ := key i hi
    rw [e] at e'
    cases e'
    rw [Pi.add_apply, Pi.smul_apply, hD, hu i hi, conserved_flowing, conserved_flowing, smul_smul, add_assoc,
      ← add_smul]
    congr 2
    unfold upwindStep
    rw [sub_eq_add_neg, mul_neg, Finset.mul_sum]
    congr 2
    refine Finset.sum_congr rfl fun d _ => ?_
    rw [transported_zero h, transported_zero h]
    unfold share upwind
    by_cases had : c.scheme.active d = true
    · rw [if_pos had, if_pos had]
      by_cases hv : 0 < v d
      · simp only [hv, decide_true, if_true, abs_of_pos hv, add_sub_cancel_right]
        ring
      · simp only [hv, decide_false, Bool.false_eq_true, if_false, sub_zero, abs_of_nonpos (not_lt.1 hv)]
        ring
    · rw [if_neg had, if_neg had]
      ring

end

theorem cellMean_least (x₀ h : Fin 3 → ℝ) (hh : ∀ d, 0 < h d) {f : (Fin 3 → ℝ) → ℝ} (hf : Continuous f) {i : Ix} (m : ℝ)
    (hm : ∀ x ∈ cellBox x₀ h i, m ≤ f x) : m ≤ cellMean x₀ h f i := by
  have hv : 0 < ∏ d, h d := Finset.prod_pos fun d _ => hh d
  have h1 := MeasureTheory.setIntegral_ge_of_const_le_real (μ := MeasureTheory.volume) (s := cellBox x₀ h i) (f := f) (c := m)
    measurableSet_Icc (by unfold cellBox; exact isCompact_Icc.measure_lt_top.ne) hm hf.integrableOn_Icc
  rw [cellBox_vol x₀ h hh] at h1
  rw [cellMean_eq _ _ hh, inv_mul_eq_div, le_div_iff₀ hv]
  exact h1

/-- At time `t` the state is, in every cell, a gas of velocity `v`, pressure `P` and concentrations `x` whose density
is positive and within `E t` of the exact cell average of the density `ρ` moved by `v` for the time `t`. -/
def Follows (c : EulerConfig ℝ np) (x₀ : Fin 3 → ℝ) (ρ : (Fin 3 → ℝ) → ℝ) (v : Fin 3 → ℝ) (P : ℝ) (x : Fin np → ℝ)
    (E t : ℝ) (u : Ix → State ℝ np) : Prop :=
  ∀ i, InCells c.n i → ∃ r, u i = conserved c.gas.gamma (flowing v P x r) ∧ 0 < r ∧
    |r - cellMean x₀ c.h (fun y => ρ (y - t • v)) i| ≤ E * t

/-- **C71** Start a run at degree zero in a periodic box with the cell averages of a gas of uniform velocity, pressure
and concentrations and of positive density `ρ` with second derivatives at most `M`. The run does not raise; at its end
and at every snapshot it takes, velocity, pressure and concentrations are the same in every cell and the density differs
from the average of the exact solution by at most `M Σ |v_d| H t`, with `H` the largest active spacing. -/
theorem C71_run (c : EulerConfig ℝ np) (h : UpwindSetup c) (x₀ : Fin 3 → ℝ) (ρ : (Fin 3 → ℝ) → ℝ)
    (hρ : ContDiff ℝ 2 ρ) (hd : DependsOn c.scheme.active ρ) (hper : PeriodicIn c ρ) (m M H : ℝ) (hm : 0 < m)
    (hmρ : ∀ y, m ≤ ρ y) (hM : ∀ y, ‖iteratedFDeriv ℝ 2 ρ y‖ ≤ M) (hH : ∀ d, c.scheme.active d = true → c.h d ≤ H)
    (v : Fin 3 → ℝ) (P : ℝ) (x : Fin np → ℝ) (f : RHS ℝ (Ix → State ℝ np)) (hf : IsSolverRHS c.scheme f) {Sn : Type}
    (mk : ODEState ℝ (Ix → State ℝ np) Sn → Sn) (fuel : ℕ) (a : IntegrateArgs ℝ Sn) (ha : Computes a)
    (st : ODEState ℝ (Ix → State ℝ np) Sn) (h0 : st.t = 0) (hT : Ahead a 0)
    (hu : ∀ j, InCells c.n j → st.u j = conserved c.gas.gamma (flowing v P x (cellMean x₀ c.h ρ j)))
    (out : Outcome ℝ (Ix → State ℝ np) Sn) (hrun : st.integrate (stepper f .euler) mk fuel a = some out) :
    out.2 = none ∧ Follows c x₀ ρ v P x (M * (∑ d, |v d|) * H) out.1.t out.1.u ∧
      ∀ s ∈ out.1.snapshots, s ∈ st.snapshots ∨ ∃ st', s = mk st' ∧
        Follows c x₀ ρ v P x (M * (∑ d, |v d|) * H) st'.t st'.u := by
  have hc := h.transport
  have hpos : PosDt f := by
    intro s t u dt k hk
    obtain ⟨junk, mem, e⟩ := hf s t u
    obtain ⟨dt', D, e', hd, _⟩ := h.first.rhs (fun _ => True) (fun _ _ _ => trivial) junk mem s t u fun _ _ => trivial
    rw [← e, hk] at e'
    cases e'
    exact hd
  -- the invariant
  let I : ℝ → (Ix → State ℝ np) → Prop := fun t u => ∃ α : Ix → ℝ,
    (∀ d j, α (j + Pi.single d (c.n d : ℤ)) = α j) ∧ (∀ j, m ≤ α j) ∧
    (∀ j, InCells c.n j → u j = conserved c.gas.gamma (flowing v P x (α j))) ∧
    ∀ j, |α j - cellMean x₀ c.h (fun y => ρ (y - t • v)) j| ≤ M * (∑ d, |v d|) * H * t
  have hI : ∀ t u, I t u → Follows c x₀ ρ v P x (M * (∑ d, |v d|) * H) t u := by
    rintro t u ⟨α, -, h1, h2, h3⟩ i hi
    exact ⟨α i, h2 i hi, hm.trans_le (h1 i), h3 i⟩
  obtain ⟨d₀, hd₀⟩ := h.first.extended
  have had₀ := (h.first.active d₀).2 hd₀
  have hstep : ∀ (st : ODEState ℝ (Ix → State ℝ np) Sn) target, (∀ g, target = some g → st.t < g) → I st.t st.u →
      I (st.takeStep (stepper f .euler) target).1.t (st.takeStep (stepper f .euler) target).1.u ∧
        (st.takeStep (stepper f .euler) target).2 = none := by
    rintro st target hg ⟨α, hα, h1, h2, h3⟩
    obtain ⟨junk, mem, e⟩ := hf st.t st.t st.u
    obtain ⟨dt, D, e', hdt, hsmall, hnew⟩ := upwind_rhs h v P x α hα (fun j => hm.trans_le (h1 j)) st.t st.t st.u h2
      junk mem
    rw [e'] at e
    obtain ⟨τ, hτ⟩ : ∃ τ, τ = hitTarget st.t dt target := ⟨_, rfl⟩
    have hτ0 : 0 ≤ τ ∧ τ ≤ dt := by
      rw [hτ]
      cases target with
      | none => exact ⟨hdt.le, le_rfl⟩
      | some g =>
        refine ⟨(hitTarget_pos hdt (hg g rfl)).le, ?_⟩
        simp only [hitTarget]
        split
        · rename_i hlt; exact hlt.le
        · exact le_rfl
    have hts : st.takeStep (stepper f .euler) target =
        (⟨st.t + τ, st.timestamps ++ [st.t + τ], st.stepCount + 1, st.u + τ • D, st.snapshots, st.snapshotTimes⟩, none) := by
      simp only [ODEState.takeStep, stepper, eulerStepper, bind, Except.bind, pure, Except.pure, e, ← hτ]
    have hV : 0 ≤ ∑ d, |v d| := Finset.sum_nonneg fun d _ => abs_nonneg _
    have hτV : ∀ d, τ * ∑ d, |v d| ≤ c.h d := fun d => (mul_le_mul_of_nonneg_right hτ0.2 hV).trans (hsmall d)
    have hshare : ∑ d, share c.scheme.active c.h v τ d ≤ 1 := by
      refine share_sum hc.spacing (min (min (c.h 0) (c.h 1)) (c.h 2))
        (lt_min (lt_min (hc.spacing 0) (hc.spacing 1)) (hc.spacing 2)) (fun d => ?_) hτ0.1
        (le_min (le_min (hτV 0) (hτV 1)) (hτV 2))
      match d with
      | 0 => exact (min_le_left _ _).trans (min_le_left _ _)
      | 1 => exact (min_le_left _ _).trans (min_le_right _ _)
      | 2 => exact min_le_right _ _
    rw [hts]
    refine ⟨⟨upwindStep c.scheme.active c.h v τ α, fun d j => upwindStep_shift α _ (hα d) j, ?_, hnew τ, ?_⟩, rfl⟩
    · exact upwindStep_least hc.spacing hτ0.1 hshare α m h1
    · intro j
      have k1 := upwindStep_contract hc.spacing hτ0.1 hshare α _ _ h3 j
      have k2 := upwind_consistent (x₀ := x₀) (v := v) hc.spacing (g := fun y => ρ (y - st.t • v))
        (hρ.comp (contDiff_id.sub contDiff_const)) (fun y z hyz => hd _ _ fun d hda => by simp [hyz d hda])
        (fun y => by rw [iteratedFDeriv_comp_sub]; exact hM _) H hH hτ0.1 ((hτV d₀).trans (hH d₀ had₀)) j
      have e1 : (fun y => ρ (y - τ • v - st.t • v)) = fun y => ρ (y - (st.t + τ) • v) := by
        funext y
        congr 1
        module
      rw [e1] at k2
      show |_ - cellMean x₀ c.h (fun y => ρ (y - (st.t + τ) • v)) j| ≤ M * (∑ d, |v d|) * H * (st.t + τ)
      rw [abs_le] at k1 k2 ⊢
      constructor <;> linarith [k1.1, k1.2, k2.1, k2.2]
  have key := integrate_outcome_fwd (posStepper_of_posDt hpos .euler)
    (fun st' : ODEState ℝ (Ix → State ℝ np) Sn => I st'.t st'.u ∧ ∀ s ∈ st'.snapshots, s ∈ st.snapshots ∨ ∃ st', s = mk st' ∧
      Follows c x₀ ρ v P x (M * (∑ d, |v d|) * H) st'.t st'.u)
    (fun st' target hg hst => ⟨⟨(hstep st' target hg hst.1).1, by
      have : (st'.takeStep (stepper f .euler) target).1.snapshots = st'.snapshots := by
        unfold ODEState.takeStep
        split <;> rfl
      rw [this]
      exact hst.2⟩, (hstep st' target hg hst.1).2⟩)
    (fun st' hst => ⟨hst.1, fun s hs => by
      rcases List.mem_append.1 hs with hs | hs
      · exact hst.2 s hs
      · rw [List.mem_singleton] at hs
        exact Or.inr ⟨st', hs, hI _ _ hst.1⟩⟩) fuel a ha st h0.ge (by rw [h0]; exact hT) out
    ⟨⟨cellMean x₀ c.h ρ, fun d j => periodic_means hc x₀ hd hper d j, fun j => ?_, hu, fun j => ?_⟩,
      fun s hs => Or.inl hs⟩ hrun
  · exact ⟨key.2, hI _ _ key.1.1, key.1.2⟩
  · exact cellMean_least x₀ c.h hc.spacing hρ.continuous m (fun y _ => hmρ y)
  · rw [h0]
    simp

/-! ## Refining the grid for a sine wave -/

/-- A periodic tube of length `2π` with `N` cells. -/
noncomputable def sineTube (N : ℕ) : EulerConfig ℝ 1 where
  gas := airGas
  riem := .hllc
  n := ![N, 1, 1]
  p := ![0, 0, 0]
  h := ![2 * Real.pi / N, 1, 1]
  cfl := 4 / 5
  fixedDt := none
  bc := ⟨fun _ _ => .periodic, fun _ _ => .other, none⟩
  limiting := none

theorem sineTube_active (N : ℕ) (hN : 2 ≤ N) (d : Fin 3) : (sineTube N).scheme.active d = true ↔ d = 0 := by
  have e : (sineTube N).scheme.active d = !((sineTube N).n d == 1 && (sineTube N).p d == 0) := rfl
  rw [e]
  match d with
  | 0 =>
    have : ((sineTube N).n 0 == 1) = false := by
      rw [show (sineTube N).n 0 = N from rfl, beq_eq_false_iff_ne]
      omega
    rw [this]
    simp
  | 1 => simp [sineTube]
  | 2 => simp [sineTube]

theorem sineTube_setup (N : ℕ) (hN : 2 ≤ N) : UpwindSetup (sineTube N) where
  first := {
    limiting := rfl
    fixedDt := rfl
    degree := fun d => by match d with | 0 | 1 | 2 => rfl
    cells := fun d => by
      match d with
      | 0 => exact (by omega : 1 ≤ N)
      | 1 | 2 => exact le_rfl
    spacing := fun d => by
      have := Real.pi_pos
      have : (0 : ℝ) < N := by exact_mod_cast (by omega : 0 < N)
      match d with
      | 0 => show 0 < 2 * Real.pi / N; positivity
      | 1 | 2 => exact one_pos
    cfl := by norm_num [sineTube]
    gas := ⟨airGas_sqrt, by norm_num [sineTube, airGas], by norm_num [sineTube, airGas]⟩
    sides := by
      intro d hd
      refine ⟨fun s => .inr ⟨.inr (.inr rfl), ?_⟩, fun _ => rfl⟩
      rw [sineTube_active N hN] at hd
      subst hd
      unfold fluxWidth
      rw [if_pos ((sineTube_active N hN 0).2 rfl)]
      have : fluxGw (sineTube N).p = 1 := by unfold fluxGw; simp [sineTube, ceilHalf]
      first
        | rw [this]; exact (by omega : 1 ≤ N)
        | (simp [sineTube, ceilHalf, fluxGw]; exact (by omega : 1 ≤ N))
    extended := ⟨0, by show N ≠ 1; omega⟩ }
  solver := .inl rfl
  periodic := fun _ _ _ => rfl
  cfl := by norm_num [sineTube]

theorem sine_curvature (y : Fin 3 → ℝ) : ‖iteratedFDeriv ℝ 2 (fun y : Fin 3 → ℝ => 2 + Real.sin (y 0)) y‖ ≤ 1 := by
  have hg : ContDiff ℝ 2 fun s : ℝ => 2 + Real.sin s := contDiff_const.add Real.contDiff_sin
  have h1 := ContinuousLinearMap.iteratedFDeriv_comp_right (ContinuousLinearMap.proj (R := ℝ) (φ := fun _ : Fin 3 => ℝ) 0)
    hg y (i := 2) le_rfl
  have e : (fun y : Fin 3 → ℝ => 2 + Real.sin (y 0)) =
    (fun s : ℝ => 2 + Real.sin s) ∘ (ContinuousLinearMap.proj (R := ℝ) (φ := fun _ : Fin 3 => ℝ) 0) := rfl
  rw [e, h1]
  refine (ContinuousMultilinearMap.norm_compContinuousLinearMap_le _ _).trans ?_
  have h2 : ‖iteratedFDeriv ℝ 2 (fun s : ℝ => 2 + Real.sin s)
      (ContinuousLinearMap.proj (R := ℝ) (φ := fun _ : Fin 3 => ℝ) 0 y)‖ ≤ 1 := by
    rw [norm_iteratedFDeriv_eq_norm_iteratedDeriv, iteratedDeriv_succ, iteratedDeriv_one]
    have : deriv (fun s : ℝ => 2 + Real.sin s) = Real.cos := by
      funext s
      simp
    rw [this, Real.deriv_cos', norm_neg, Real.norm_eq_abs]
    exact Real.abs_sin_le_one _
  have h3 : ‖ContinuousLinearMap.proj (R := ℝ) (φ := fun _ : Fin 3 => ℝ) 0‖ ≤ 1 :=
    ContinuousLinearMap.opNorm_le_bound _ zero_le_one fun z => by
      rw [one_mul]
      exact norm_le_pi_norm z 0
  have h4 : ∏ _i : Fin 2, ‖ContinuousLinearMap.proj (R := ℝ) (φ := fun _ : Fin 3 => ℝ) 0‖ ≤ 1 := by
    rw [Finset.prod_const]
    exact pow_le_one₀ (norm_nonneg _) h3
  calc _ ≤ (1 : ℝ) * 1 := mul_le_mul h2 h4 (Finset.prod_nonneg fun _ _ => norm_nonneg _) zero_le_one
    _ = 1 := one_mul 1

/-- C71 for the density `2 + sin x` moving with velocity `w`, on `N` cells up to time `T`: the error is at most
`2π |w| T / N`, which is as small as one likes on a fine enough grid. -/
theorem C71_sine (N : ℕ) (hN : 2 ≤ N) (w T : ℝ) (hT : 0 < T) (f : RHS ℝ (Ix → State ℝ 1))
    (hf : IsSolverRHS (sineTube N).scheme f) (fuel : ℕ) (u : Ix → State ℝ 1)
    (hu : ∀ j, InCells (sineTube N).n j → u j = conserved (7 / 5)
      (flowing ![w, 0, 0] 1 (fun _ => 1 / 2) (cellMean 0 (sineTube N).h (fun y => 2 + Real.sin (y 0)) j)))
    (out : Outcome ℝ (Ix → State ℝ 1) Unit)
    (hrun : (ODEState.init u).integrate (stepper f .euler) (fun _ => ()) fuel ⟨some T, none, true, [], false, none⟩ =
      some out) : out.2 = none ∧
    ∀ i, InCells (sineTube N).n i →
      |out.1.u i .rho - cellMean 0 (sineTube N).h (fun y => 2 + Real.sin (y 0 - T * w)) i| ≤ 2 * Real.pi * |w| * T / N ∧
      out.1.u i (.mom 0) = w * out.1.u i .rho := by
  have hA : Ahead (⟨some T, none, true, [], false, none⟩ : IntegrateArgs ℝ Unit) 0 := by
    intro T' hT'
    cases hT'
    exact ⟨hT, fun d hd => by cases hd⟩
  have hset := sineTube_setup N hN
  obtain ⟨h1, h2, -⟩ := C71_run (sineTube N) hset 0 (fun y => 2 + Real.sin (y 0))
    (contDiff_const.add (Real.contDiff_sin.comp (contDiff_apply ℝ ℝ (0 : Fin 3))))
    (fun y z hyz => by beta_reduce; rw [hyz 0 ((sineTube_active N hN 0).2 rfl)])
    (fun d hd y => by
      rw [sineTube_active N hN] at hd
      subst hd
      have : ((sineTube N).n 0 : ℝ) * (sineTube N).h 0 = 2 * Real.pi := by
        show (N : ℝ) * (2 * Real.pi / N) = _
        have : (N : ℝ) ≠ 0 := by exact_mod_cast (by omega : N ≠ 0)
        field_simp
      rw [this]
      simp)
    1 1 (2 * Real.pi / N) one_pos (fun y => by linarith [Real.neg_one_le_sin (y 0)]) sine_curvature
    (fun d hd => by rw [sineTube_active N hN] at hd; subst hd; exact le_rfl)
    ![w, 0, 0] 1 (fun _ => 1 / 2) f hf (fun _ => ()) fuel _ (show Computes ⟨some T, none, true, [], false, none⟩ by unfold Computes; rw [if_neg (by simp)])
    (ODEState.init u) rfl hA hu out hrun
  have hpos : PosDt f := by
    intro s t u dt k hk
    obtain ⟨junk, mem, e⟩ := hf s t u
    obtain ⟨dt', D, e', hd, _⟩ := hset.first.rhs (fun _ => True) (fun _ _ _ => trivial) junk mem s t u fun _ _ => trivial
    rw [← e, hk] at e'
    cases e'
    exact hd
  have ht : out.1.t = T := by
    have hrun' : (ODEState.init u).integrateT (stepper f .euler) (fun _ => ()) T true [] false fuel = some (out.1, none) := by
      rw [← h1]
      exact hrun
    exact (C24_exact_output_times f .euler _ hpos T [] false fuel _ _ le_rfl hT (fun d hd => by cases hd) hrun').1
  refine ⟨h1, fun i hi => ?_⟩
  obtain ⟨r, e, -, hr⟩ := h2 i hi
  rw [ht] at hr
  rw [e]
  refine ⟨?_, ?_⟩
  · show |r - _| ≤ _
    have e1 : (fun y : Fin 3 → ℝ => 2 + Real.sin ((y - T • ![w, 0, 0]) 0)) = fun y => 2 + Real.sin (y 0 - T * w) := by
      funext y
      simp
    rw [e1] at hr
    refine hr.trans (le_of_eq ?_)
    rw [Fin.sum_univ_three]
    simp
    ring
  · show r * w = w * r
    ring

end FVHOE
