import Verif.Proofs.LinesRun
import Verif.Proofs.LoopReturns
import Verif.Props.C115
import Verif.Props.C116

/-!
C117: the method of lines. Unlimited runs converge to the solution of the semi-discrete equations as the step goes to zero.
-/

set_option linter.unusedSectionVars false

namespace FVHOE

open Topology Set

variable {np : ℕ}

/-- `y` solves the semi-discrete equations on `[0, T]`: at every time all values of `y` have the derivatives the right-hand side
returns there, and all densities and pressures met by the evaluation are positive. -/
structure SemiDiscrete (c : EulerConfig ℝ np) (T : ℝ) (y : ℝ → Ix → State ℝ np) : Prop where
  sturdy : ∀ t ∈ Icc 0 T, Sturdy c (y t)
  solves : ∀ t ∈ Icc 0 T, ∀ f, IsSolverRHS c.scheme f → ∀ s s', ∃ dt k, f s s' (y t) = .ok (dt, k) ∧
    ∀ i v, HasDerivWithinAt (fun s => y s i v) (k i v) (Icc 0 T) t

/-- `c` with the step set by `κ`: a fixed step `κ`, or a CFL number of `κ`. -/
def EulerConfig.stepping (c : EulerConfig ℝ np) (fixed : Bool) (κ : ℝ) : EulerConfig ℝ np :=
  if fixed then { c with fixedDt := some κ } else { c with cfl := κ, fixedDt := none }

theorem slopes_stepping (c : EulerConfig ℝ np) (fixed : Bool) (κ : ℝ) : slopes (c.stepping fixed κ) = slopes c := by
  cases fixed <;> rfl

theorem SmoothSetup.stepping {c : EulerConfig ℝ np} (h : SmoothSetup c) (fixed : Bool) {κ : ℝ} (hκ : 0 < κ) :
    SmoothSetup (c.stepping fixed κ) := by
  obtain ⟨h1, -, h3, h4, h5, h6, h7, h8, h9⟩ := h
  cases fixed
  · exact ⟨h1, .inr ⟨rfl, hκ⟩, h3, h4, h5, h6, h7, h8, h9⟩
  · exact ⟨h1, .inl ⟨κ, rfl, hκ⟩, h3, h4, h5, h6, h7, h8, h9⟩

theorem SmoothSetup.stepping_rhs {c : EulerConfig ℝ np} (h : SmoothSetup c) : ∃ W, 1 ≤ W ∧ ∀ fixed, ∃ D : (Ix → State ℝ np) → ℝ,
    (∀ u, 0 < D u ∧ D u ≤ W) ∧ (∀ u, Sturdy c u → ContinuousAt D u) ∧
    ∀ κ, 0 < κ → ∀ f, IsSolverRHS (c.stepping fixed κ).scheme f → ∀ s t u, f s t u = .ok (κ * D u, slopes c u) := by
  refine ⟨max 1 (min (min (c.h 0) (c.h 1)) (c.h 2) / Real.sqrt c.gas.csqFloor), le_max_left _ _, fun fixed => ?_⟩
  obtain ⟨D, hD, hb⟩ := (h.stepping fixed one_pos).rhs_bound
  refine ⟨D, fun u => ⟨(hb u).1.1, (hb u).1.2.trans ?_⟩, fun u hu => (hb u).2.1 ?_, fun κ hκ f hf s t u => ?_⟩
  · cases fixed
    · refine le_trans (le_of_eq ?_) (le_max_right _ _)
      change 1 * (min (min (c.h 0) (c.h 1)) (c.h 2) / Real.sqrt c.gas.csqFloor) = _
      rw [one_mul]
    · exact le_max_left _ _
  · cases fixed
    · exact ⟨hu.centers, hu.averages, hu.faces⟩
    · exact ⟨hu.centers, hu.averages, hu.faces⟩
  · obtain ⟨D', hD', hb'⟩ := (h.stepping fixed hκ).rhs_bound
    obtain ⟨junk, mem, e⟩ := hf s t u
    have h1 := (hb u).2.2
    have h2 := (hb' u).2.2
    have : D' u = κ * D u := by
      cases fixed
      · obtain ⟨m, ⟨i, i1, i2⟩, i3, i4⟩ := h1
        obtain ⟨m', ⟨j, j1, j2⟩, j3, j4⟩ := h2
        have hm : m = m' := le_antisymm (i2 ▸ j3 i i1) (j2 ▸ i3 j j1)
        rw [i4, j4, ← hm]
        change κ * min (min (c.h 0) (c.h 1)) (c.h 2) / m = κ * (1 * min (min (c.h 0) (c.h 1)) (c.h 2) / m)
        ring
      · have h1 : D u = 1 := h1
        have h2 : D' u = κ := h2
        rw [h1, h2, mul_one]
    rw [e, hD', slopes_stepping, this]

section Solution

variable {c : EulerConfig ℝ np} {T : ℝ} {y : ℝ → Ix → State ℝ np}

theorem SemiDiscrete.slopes (h : SmoothSetup c) (hy : SemiDiscrete c T y) (t : ℝ) (ht : t ∈ Icc 0 T) (i : Ix) (v : Var np) :
    HasDerivWithinAt (fun s => y s i v) (slopes c (y t) i v) (Icc 0 T) t := by
  obtain ⟨D, hD, -⟩ := h.rhs
  obtain ⟨dt, k, e, hk⟩ := hy.solves t ht (fun s t u => solverRHS c.scheme (fun _ => 0) (fun _ _ => 0) s t u) (fun s t u => ⟨_, _, rfl⟩) 0 0
  rw [hD] at e
  have : FVHOE.slopes c (y t) = k := congrArg Prod.snd (Except.ok.inj e)
  rw [this]
  exact hk i v

theorem SemiDiscrete.outside (h : SmoothSetup c) (hy : SemiDiscrete c T y) (t : ℝ) (ht : t ∈ Icc 0 T) (i : Ix) (hi : ¬InCells c.n i) :
    y t i = y 0 i := by
  funext v
  have := (convex_Icc 0 T).norm_image_sub_le_of_norm_hasDerivWithin_le (f := fun s => y s i v) (f' := fun _ => 0) (C := 0)
    (fun s hs => by
      have := hy.slopes h s hs i v
      rwa [slopes_outside c _ i hi] at this)
    (fun s _ => by simp) (left_mem_Icc.2 (ht.1.trans ht.2)) ht
  rw [zero_mul] at this
  exact sub_eq_zero.1 (norm_le_zero_iff.1 this)

theorem SemiDiscrete.cells (h : SmoothSetup c) (hy : SemiDiscrete c T y) (t : ℝ) (ht : t ∈ Icc 0 T) :
    HasDerivWithinAt (fun s => inCells c.n (y s)) (cellSlopes c (y 0) (inCells c.n (y t))) (Icc 0 T) t ∧
      Sturdy c (glue c.n (y 0) (inCells c.n (y t))) := by
  have e := glue_inCells c.n (y 0) (y t) fun i hi => hy.outside h t ht i hi
  refine ⟨hasDerivWithinAt_pi.2 fun i => hasDerivWithinAt_pi.2 fun v => ?_, by rw [e]; exact hy.sturdy t ht⟩
  have := hy.slopes h t ht i.1 v
  unfold cellSlopes
  rw [e]
  exact this

end Solution

theorem abs_le_cells {n : Fin 3 → ℕ} {u v : Ix → State ℝ np} {B : ℝ} (hB : 0 ≤ B) (ho : ∀ i, ¬InCells n i → u i = v i)
    (h : ‖inCells n u - inCells n v‖ ≤ B) (i : Ix) (w : Var np) : |u i w - v i w| ≤ B := by
  by_cases hi : InCells n i
  · exact ((norm_le_pi_norm (((inCells n u - inCells n v) : Cell n → State ℝ np) ⟨i, hi⟩) w).trans
      (norm_le_pi_norm (inCells n u - inCells n v) ⟨i, hi⟩)).trans h
  · rw [ho i hi, sub_self, abs_zero]
    exact hB

/-- C117 (existence). Every state whose evaluation meets only positive densities and pressures starts a solution of the semi-discrete
equations. -/
theorem C117_exists (c : EulerConfig ℝ np) (h : SmoothSetup c) (u₀ : Ix → State ℝ np) (hu : Sturdy c u₀) :
    ∃ T, 0 < T ∧ ∃ y, y 0 = u₀ ∧ SemiDiscrete c T y := by
  have hg : glue c.n u₀ (inCells c.n u₀) = u₀ := glue_inCells c.n u₀ u₀ fun _ _ => rfl
  have hu' : Sturdy c (glue c.n u₀ (inCells c.n u₀)) := by rw [hg]; exact hu
  obtain ⟨τ, hτ, x, x0, hx⟩ := exists_solution (h.slopes_lip hu')
  have hc : ContinuousWithinAt x (Icc 0 τ) 0 := (hx 0 (left_mem_Icc.2 hτ.le)).continuousWithinAt
  have hn := h.sturdy_near hu'
  rw [← x0] at hn
  obtain ⟨ε, hε, hb⟩ := Metric.mem_nhdsWithin_iff.1 (hc.eventually hn)
  have hsub : Icc 0 (min τ (ε / 2)) ⊆ Icc 0 τ := Icc_subset_Icc le_rfl (min_le_left _ _)
  obtain ⟨D, hD, -⟩ := h.rhs
  refine ⟨min τ (ε / 2), lt_min hτ (by linarith), fun t => glue c.n u₀ (x t), by beta_reduce; rw [x0]; exact hg, fun t ht => hb ⟨?_, hsub ht⟩,
    fun t ht f hf s s' => ?_⟩
  · rw [Metric.mem_ball, Real.dist_eq, sub_zero, abs_of_nonneg ht.1]
    have := ht.2.trans (min_le_right _ _)
    linarith
  · obtain ⟨junk, mem, e⟩ := hf s s' (glue c.n u₀ (x t))
    refine ⟨_, _, e.trans (hD _ _ _ _ _), fun i v => ?_⟩
    by_cases hi : InCells c.n i
    · have := hasDerivWithinAt_pi.1 (hasDerivWithinAt_pi.1 ((hx t (hsub ht)).mono hsub) ⟨i, hi⟩) v
      simp only [glue, dif_pos hi]
      exact this
    · simp only [glue, dif_neg hi, slopes_outside c _ i hi]
      exact hasDerivWithinAt_const _ _ _

/-- As the parameter `κ` goes to zero, runs to `T` with the integrator `m` and the right-hand sides `F κ` started on `y` raise no
exception and follow `y` up to a constant times `κ ^ p`, at the end of the run and at every snapshot; and runs with `exact` return. -/
def FollowedBy (F : ℝ → RHS ℝ (Ix → State ℝ np) → Prop) (T : ℝ) (y : ℝ → Ix → State ℝ np) (m : Integrator) (p : ℕ) : Prop :=
  ∃ C κ₀, 0 < κ₀ ∧ ∀ κ, 0 < κ → κ ≤ κ₀ → ∀ f, F κ f →
    (∀ {Sn : Type} (mk : ODEState ℝ (Ix → State ℝ np) Sn → Sn) (Q : Sn → Prop),
    (∀ s, s.t ≤ T + C * κ → (∀ i v, |s.u i v - y s.t i v| ≤ C * κ ^ p) → Q (mk s)) →
    ∀ (fuel : ℕ) (a : IntegrateArgs ℝ Sn), a.T = some T → a.saved = none → ∀ st : ODEState ℝ (Ix → State ℝ np) Sn, 0 ≤ st.t →
    Ahead a st.t → st.u = y st.t → (∀ z ∈ st.snapshots, Q z) → ∀ out, st.integrate (stepper f m) mk fuel a = some out →
    out.2 = none ∧ out.1.t ≤ T + C * κ ∧ (∀ i v, |out.1.u i v - y out.1.t i v| ≤ C * κ ^ p) ∧ ∀ z ∈ out.1.snapshots, Q z) ∧
    ∀ {Sn : Type} (mk : ODEState ℝ (Ix → State ℝ np) Sn → Sn) (n : Option ℕ) (downbeats : List ℝ) (logEvery : Bool)
      (st : ODEState ℝ (Ix → State ℝ np) Sn), 0 ≤ st.t → Ahead (⟨some T, n, true, downbeats, logEvery, none⟩ : IntegrateArgs ℝ Sn) st.t →
      st.u = y st.t → ∃ N, ∀ fuel, N ≤ fuel → ∃ out,
        st.integrate (stepper f m) mk fuel ⟨some T, n, true, downbeats, logEvery, none⟩ = some out

/-- Unlimited runs, the fixed step or the CFL number being `κ`. -/
def RunsFollow (c : EulerConfig ℝ np) (T : ℝ) (y : ℝ → Ix → State ℝ np) (m : Integrator) (p : ℕ) : Prop :=
  FollowedBy (fun κ f => ∃ fixed, IsSolverRHS (c.stepping fixed κ).scheme f) T y m p

/-- The general form: right-hand sides that near the solution propose steps of `κ D` for a positive continuous `D`, and return the
slopes of the scheme without limiting; it is enough that they do so in a subspace the run does not leave. -/
theorem SemiDiscrete.followed {c : EulerConfig ℝ np} (h : SmoothSetup c) {T T' : ℝ} (hT' : T < T') {y : ℝ → Ix → State ℝ np}
    (hy : SemiDiscrete c T' y) (m : Integrator) {p : ℕ} (hp : 1 ≤ p) {A η : ℝ} (hA : 0 ≤ A) (hη : 0 < η)
    (hstep : ∀ t h, 0 ≤ t → 0 ≤ h → h ≤ η → t + h ≤ T' →
      ‖advanceBy (cellSlopes c (y 0)) m h (inCells c.n (y t)) - inCells c.n (y (t + h))‖ ≤ A * h ^ (p + 1))
    {W : ℝ} (hW : 1 ≤ W) {D : Bool → (Ix → State ℝ np) → ℝ} (hD : ∀ fixed u, 0 < D fixed u ∧ D fixed u ≤ W)
    (hDc : ∀ fixed u, Sturdy c u → ContinuousAt (D fixed) u) (S : Submodule ℝ (Ix → State ℝ np))
    (hS : ∀ u ∈ S, FVHOE.slopes c u ∈ S) (hyS : ∀ t ∈ Icc 0 T', y t ∈ S) (F : ℝ → RHS ℝ (Ix → State ℝ np) → Prop)
    (hpos : ∀ κ, 0 < κ → ∀ f, F κ f → PosDt f) {ρ κ₁ : ℝ} (hρ : 0 < ρ) (hκ₁ : 0 < κ₁)
    (hfD : ∀ κ, 0 < κ → κ ≤ κ₁ → ∀ f, F κ f → ∃ fixed, ∀ r ∈ Icc 0 T', ∀ u ∈ S, (∀ i, ¬InCells c.n i → u i = y 0 i) →
      ‖inCells c.n u - inCells c.n (y r)‖ ≤ ρ → ∀ s t, f s t u = .ok (κ * D fixed u, FVHOE.slopes c u)) :
    FollowedBy F T y m p := by
  set x : ℝ → Cell c.n → State ℝ np := fun s => inCells c.n (y s) with hxdef
  have hx : ∀ t ∈ Icc 0 T', HasDerivWithinAt x (cellSlopes c (y 0) (x t)) (Icc 0 T') t := fun t ht => (hy.cells h t ht).1
  have hcx : ContinuousOn x (Icc 0 T') := fun t ht => (hx t ht).continuousWithinAt
  obtain ⟨M, δ, hM, hδ, steady⟩ := exists_steady (isCompact_Icc.image_of_continuousOn hcx) (f := cellSlopes c (y 0))
    (by rintro _ ⟨t, ht, rfl⟩; exact h.slopes_lip (hy.cells h t ht).2)
  have floor : ∃ δ₀ r, 0 < δ₀ ∧ 0 < r ∧ ∀ fixed, ∀ p ∈ x '' Icc 0 T', ∀ q, ‖q - p‖ ≤ r → δ₀ ≤ D fixed (glue c.n (y 0) q) := by
    have one : ∀ fixed, ∃ δ₀ r, 0 < δ₀ ∧ 0 < r ∧ ∀ p ∈ x '' Icc 0 T', ∀ q, ‖q - p‖ ≤ r → δ₀ ≤ D fixed (glue c.n (y 0) q) :=
      fun fixed => exists_floor (D := fun q => D fixed (glue c.n (y 0) q)) (isCompact_Icc.image_of_continuousOn hcx) (by
        rintro _ ⟨t, ht, rfl⟩
        exact ⟨(hDc fixed _ (hy.cells h t ht).2).comp (continuous_glue c.n (y 0)).continuousAt, (hD fixed _).1⟩)
    obtain ⟨a, r, ha, hr, k⟩ := one true
    obtain ⟨a', r', ha', hr', k'⟩ := one false
    refine ⟨min a a', min r r', lt_min ha ha', lt_min hr hr', fun fixed p hp q hq => ?_⟩
    cases fixed
    · exact (min_le_right _ _).trans (k' p hp q (hq.trans (min_le_right _ _)))
    · exact (min_le_left _ _).trans (k p hp q (hq.trans (min_le_left _ _)))
  obtain ⟨δ₀, r, hδ₀, hr, floor⟩ := floor
  obtain ⟨B, H₀, hB, hH₀, hfol⟩ := follow hT' hM (lt_min hδ (lt_min hr hρ)) (fun p hp q q' hq hq' =>
    steady p hp q q' (hq.trans (min_le_left _ _)) (hq'.trans (min_le_left _ _))) m hp hA hη hstep
  have hW0 : 0 < W := by linarith
  have hWp : W ≤ W ^ p := le_self_pow₀ hW (by omega)
  refine ⟨(B + 1) * W ^ p, min κ₁ (H₀ / W), by positivity, ?_⟩
  intro κ hκ hκ₀ f hf
  have hκ₁' := hκ₀.trans (min_le_left _ _)
  replace hκ₀ := hκ₀.trans (min_le_right _ _)
  rw [le_div_iff₀ hW0, mul_comm] at hκ₀
  have hH : 0 < W * κ := by positivity
  obtain ⟨fixed, hF⟩ := hfD κ hκ hκ₁' f hf
  have hDb : ∀ u, 0 < κ * D fixed u ∧ κ * D fixed u ≤ W * κ := fun u => by
    have := (hD fixed u).1
    refine ⟨by positivity, ?_⟩
    rw [mul_comm W]
    exact mul_le_mul_of_nonneg_left (hD fixed u).2 hκ.le
  obtain ⟨hTH, G, hG, hBr, hMr, hadv⟩ := hfol (W * κ) hH hκ₀
  have hBW : B * (W * κ) ^ p ≤ (B + 1) * W ^ p * κ ^ p := by
    have : 0 ≤ W ^ p * κ ^ p := by positivity
    rw [mul_pow]
    linarith
  have hWW : W * κ ≤ (B + 1) * W ^ p * κ := by
    have h1 := mul_le_mul_of_nonneg_right hWp hκ.le
    have h2 : 0 ≤ B * (W ^ p * κ) := by positivity
    linarith
  have hCκ : 0 ≤ (B + 1) * W ^ p * κ ^ p := by positivity
  have hpos := hpos κ hκ f hf
  -- what the run keeps
  let P : {Sn : Type} → ODEState ℝ (Ix → State ℝ np) Sn → Prop := fun s =>
    0 ≤ s.t ∧ s.t ≤ T + W * κ ∧ (∀ i, ¬InCells c.n i → s.u i = y 0 i) ∧ ‖inCells c.n s.u - x s.t‖ ≤ G s.t ∧ s.u ∈ S
  have close : ∀ {Sn : Type} (s : ODEState ℝ (Ix → State ℝ np) Sn), P s → ∀ i v, |s.u i v - y s.t i v| ≤ (B + 1) * W ^ p * κ ^ p := by
    rintro Sn s ⟨s0, s1, s2, s3, -⟩
    refine abs_le_cells hCκ (fun i hi => (s2 i hi).trans (hy.outside h s.t ⟨s0, by linarith⟩ i hi).symm) (s3.trans ?_)
    exact (hG s.t s0 (by linarith)).2.trans hBW
  have start : ∀ {Sn : Type} (s : ODEState ℝ (Ix → State ℝ np) Sn), 0 ≤ s.t → s.t < T → s.u = y s.t → P s := by
    intro Sn s s0 s1 hs
    refine ⟨s0, by linarith, fun i hi => ?_, ?_, hs ▸ hyS _ ⟨s0, by linarith⟩⟩
    · rw [hs]
      exact hy.outside h s.t ⟨s0, by linarith⟩ i hi
    · rw [hs, hxdef, sub_self, norm_zero]
      exact (hG _ s0 (by linarith)).1
  have exec : ∀ s target h', 0 ≤ s → s ≤ T → ∀ u ∈ S, (∀ i, ¬InCells c.n i → u i = y 0 i) → ‖inCells c.n u - x s‖ ≤ G s →
      h' = hitTarget s (κ * D fixed u) target → 0 ≤ h' → h' ≤ W * κ →
      stepper f m s u target = .ok (h', advanceBy (FVHOE.slopes c) m h' u) := by
    intro s target h' s0 s1 u huS hu hus hh h0 h1
    rw [hh]
    have hsm : s ∈ Icc 0 T' := ⟨s0, by linarith⟩
    have near : ‖inCells c.n u - x s‖ ≤ min δ (min r ρ) / 2 := hus.trans ((hG s s0 hsm.2).2.trans hBr)
    refine stepper_on (P := fun v => v ∈ S ∧ (∀ i, ¬InCells c.n i → v i = y 0 i) ∧ ‖inCells c.n v - x s‖ ≤ ρ)
      (fun s' t v hv => hF s hsm v hv.1 hv.2.1 hv.2.2 s' t) m s u target ?_
    rw [← hh]
    intro v hv
    obtain ⟨v1, v2⟩ := stages_cells c (y 0) m h' u hu v hv
    refine ⟨(advance_mem hS m h' huS).2 v hv, v1, (stages_close hM (fun q hq => steady q (by rw [mem_singleton_iff.1 hq]; exact mem_image_of_mem x hsm)) m h0
      ((mul_le_mul_of_nonneg_right h1 (by linarith)).trans hMr) near (min_le_left _ _) _ v2).trans ?_⟩
    exact (min_le_right _ _).trans (min_le_right _ _)
  have keep : ∀ {Sn : Type} (s : ODEState ℝ (Ix → State ℝ np) Sn) target, (∀ g, target = some g → s.t < g) → s.t < T → P s →
      P (s.takeStep (stepper f m) target).1 ∧ (s.takeStep (stepper f m) target).2 = none ∧
      (s.takeStep (stepper f m) target).1.snapshots = s.snapshots := by
    rintro Sn s target htg hsT ⟨s0, s1, s2, s3, s4⟩
    set h' := hitTarget s.t (κ * D fixed s.u) target with hh
    have hlt : 0 < h' ∧ h' ≤ W * κ := by
      rw [hh]
      cases target with
      | none => exact hDb s.u
      | some g =>
        simp only [hitTarget]
        have := htg g rfl
        split
        · exact ⟨by linarith, by linarith [(hDb s.u).2]⟩
        · exact hDb s.u
    simp only [ODEState.takeStep, exec s.t target h' s0 hsT.le s.u s4 s2 s3 hh hlt.1.le hlt.2]
    obtain ⟨a1, a2⟩ := advance_cells c (y 0) m h' s.u s2
    refine ⟨⟨by linarith, by linarith, a1, ?_, (advance_mem hS m h' s4).1⟩, trivial, trivial⟩
    rw [a2]
    exact hadv s.t h' (inCells c.n s.u) s0 hsT.le hlt.1 hlt.2 s3
  refine ⟨?_, ?_⟩
  · intro Sn mk Q hQ fuel a haT ha st h0 hahead hst hsnap out hrun
    obtain ⟨hT1, hT2⟩ := hahead T haT
    have main := integrate_outcome_before (posStepper_of_posDt hpos m)
      (P := fun s : ODEState ℝ (Ix → State ℝ np) Sn => P s ∧ ∀ z ∈ s.snapshots, Q z)
      (mk := mk) T ?_ ?_ fuel a haT ha st h0 hT1 hT2 out ⟨start st h0 hT1 hst, hsnap⟩ hrun
    · obtain ⟨⟨k1, k2⟩, k3⟩ := main
      exact ⟨k3, by linarith [k1.2.1], close _ k1, k2⟩
    · rintro s target htg hsT ⟨s1, s2⟩
      obtain ⟨k1, k2, k3⟩ := keep s target htg hsT s1
      exact ⟨⟨k1, by rw [k3]; exact s2⟩, k2⟩
    · rintro s ⟨s1, s2⟩
      refine ⟨s1, fun z hz => ?_⟩
      rcases List.mem_append.1 hz with hz | hz
      · exact s2 z hz
      · rw [List.mem_singleton.1 hz]
        exact hQ s (by linarith [s1.2.1]) (close s s1)
  · intro Sn mk n downbeats logEvery st h0 hahead hst
    obtain ⟨tg, ds, hpw, hmem, htg, hint⟩ := integrate_exact mk T n downbeats logEvery st.t h0 hahead
    have hT1 := (hahead T rfl).1
    have hκδ : 0 < κ * δ₀ := by positivity
    obtain ⟨N, hN⟩ := exists_nat_ge ((T - st.t) / (κ * δ₀))
    rw [div_le_iff₀ hκδ] at hN
    refine ⟨N + (ds.length + 1) + 1, fun fuel hfuel => ?_⟩
    rw [hint]
    refine loop_returns (stepper f m) mk T logEvery (κ * δ₀) hκδ P ?_ (fun s g hg hsT hs => (keep s (some g) (fun g' e => by cases e; exact hg) hsT hs).1)
      (fun s hs => hs) fuel N tg ds (st.snapshot mk) hpw htg hmem hN hfuel (start st h0 hT1 hst)
    intro s g dt' u' hs hg hsT e
    obtain ⟨s0, s1, s2, s3, s4⟩ := hs
    have hlt : 0 ≤ hitTarget s.t (κ * D fixed s.u) (some g) ∧ hitTarget s.t (κ * D fixed s.u) (some g) ≤ W * κ := by
      simp only [hitTarget]
      split
      · exact ⟨by linarith, by linarith [(hDb s.u).2]⟩
      · exact ⟨(hDb s.u).1.le, (hDb s.u).2⟩
    rw [exec s.t (some g) _ s0 hsT.le s.u s4 s2 s3 rfl hlt.1 hlt.2] at e
    refine ⟨κ * D fixed s.u, mul_le_mul_of_nonneg_left ?_ hκ.le, (congrArg Prod.fst (Except.ok.inj e)).symm⟩
    have := floor fixed (x s.t) (mem_image_of_mem x ⟨s0, by linarith⟩) (inCells c.n s.u)
      (s3.trans ((hG s.t s0 (by linarith)).2.trans (hBr.trans (by linarith [min_le_right δ (min r ρ), min_le_left r ρ]))))
    rwa [glue_inCells c.n (y 0) s.u s2] at this

theorem SemiDiscrete.runs {c : EulerConfig ℝ np} (h : SmoothSetup c) {T T' : ℝ} (hT' : T < T') {y : ℝ → Ix → State ℝ np}
    (hy : SemiDiscrete c T' y) (m : Integrator) {p : ℕ} (hp : 1 ≤ p) {A η : ℝ} (hA : 0 ≤ A) (hη : 0 < η)
    (hstep : ∀ t h, 0 ≤ t → 0 ≤ h → h ≤ η → t + h ≤ T' →
      ‖advanceBy (cellSlopes c (y 0)) m h (inCells c.n (y t)) - inCells c.n (y (t + h))‖ ≤ A * h ^ (p + 1)) :
    RunsFollow c T y m p := by
  obtain ⟨W, hW, hrhs⟩ := h.stepping_rhs
  choose D hD hDc hfD using hrhs
  refine hy.followed h hT' m hp hA hη hstep hW hD hDc ⊤ (fun _ _ => trivial) (fun _ _ => trivial) _ ?_ one_pos one_pos ?_
  · rintro κ hκ f ⟨fixed, hf⟩ s t u dt k e
    rw [hfD fixed κ hκ f hf] at e
    cases e
    exact mul_pos hκ (hD fixed u).1
  · rintro κ hκ - f ⟨fixed, hf⟩
    exact ⟨fixed, fun r _ u _ _ _ s t => hfD fixed κ hκ f hf s t u⟩

/-- One step from the solution, with any integrator. -/
theorem SemiDiscrete.first_step {c : EulerConfig ℝ np} (h : SmoothSetup c) {T' : ℝ} {y : ℝ → Ix → State ℝ np}
    (hy : SemiDiscrete c T' y) (m : Integrator) : ∃ A η, 0 ≤ A ∧ 0 < η ∧ ∀ t h, 0 ≤ t → 0 ≤ h → h ≤ η → t + h ≤ T' →
      ‖advanceBy (cellSlopes c (y 0)) m h (inCells c.n (y t)) - inCells c.n (y (t + h))‖ ≤ A * h ^ (1 + 1) := by
  have hx : ∀ t ∈ Icc 0 T', HasDerivWithinAt (fun s => inCells c.n (y s)) (cellSlopes c (y 0) (inCells c.n (y t))) (Icc 0 T') t :=
    fun t ht => (hy.cells h t ht).1
  have hcx : ContinuousOn (fun s => inCells c.n (y s)) (Icc 0 T') := fun t ht => (hx t ht).continuousWithinAt
  obtain ⟨M, δ, hM, hδ, steady⟩ := exists_steady (isCompact_Icc.image_of_continuousOn hcx) (f := cellSlopes c (y 0))
    (by rintro _ ⟨t, ht, rfl⟩; exact h.slopes_lip (hy.cells h t ht).2)
  exact ⟨2 * M ^ 2, δ / M, by positivity, by positivity,
    fun t h t0 h0 hle hT => steady_step hM hδ steady hx m t h t0 h0 hle hT⟩

/-- C117 (convergence). As the fixed step or the CFL number `κ` goes to zero, runs started on a solution of the semi-discrete
equations follow it up to a constant times `κ`, with every integrator. -/
theorem C117_converges (c : EulerConfig ℝ np) (h : SmoothSetup c) {T T' : ℝ} (hT' : T < T') {y : ℝ → Ix → State ℝ np}
    (hy : SemiDiscrete c T' y) (m : Integrator) : RunsFollow c T y m 1 := by
  obtain ⟨A, η, hA, hη, hstep⟩ := hy.first_step h m
  exact hy.runs h hT' m le_rfl hA hη hstep

theorem FollowedBy.exact_runs {F : ℝ → RHS ℝ (Ix → State ℝ np) → Prop} (hpos : ∀ κ, 0 < κ → ∀ f, F κ f → PosDt f)
    {T : ℝ} (hT : 0 < T) {y : ℝ → Ix → State ℝ np} {m : Integrator} {p : ℕ} (hall : FollowedBy F T y m p) :
    ∃ C κ₀, 0 < κ₀ ∧ ∀ κ, 0 < κ → κ ≤ κ₀ → ∀ f, F κ f →
      ∀ {Sn : Type} (mk : ODEState ℝ (Ix → State ℝ np) Sn → Sn) (n : Option ℕ) (downbeats : List ℝ) (logEvery : Bool),
      (∀ d ∈ downbeats, 0 ≤ d) → ∃ N, ∀ fuel, N ≤ fuel → ∃ st',
        (ODEState.init (y 0)).integrate (stepper f m) mk fuel ⟨some T, n, true, downbeats, logEvery, none⟩ = some (st', none) ∧
        st'.t = T ∧ ∀ i v, |st'.u i v - y T i v| ≤ C * κ ^ p := by
  obtain ⟨C, κ₀, hκ₀, hall⟩ := hall
  refine ⟨C, κ₀, hκ₀, fun κ hκ hle f hf Sn mk n downbeats logEvery hd => ?_⟩
  obtain ⟨hfol, hret⟩ := hall κ hκ hle f hf
  have hd' : ∀ d ∈ downbeats, d = 0 ∨ (0 : ℝ) < d := fun d hdm => (hd d hdm).eq_or_lt.imp Eq.symm id
  have hah : Ahead (⟨some T, n, true, downbeats, logEvery, none⟩ : IntegrateArgs ℝ Sn) 0 := fun T₁ e => by cases e; exact ⟨hT, hd'⟩
  obtain ⟨N, hN⟩ := hret mk n downbeats logEvery (ODEState.init (y 0)) le_rfl hah rfl
  refine ⟨N, fun fuel hfuel => ?_⟩
  obtain ⟨out, hint⟩ := hN fuel hfuel
  obtain ⟨k1, -, k3, -⟩ := hfol mk (fun _ => True) (fun _ _ _ => trivial) _ _ rfl rfl (ODEState.init (y 0)) le_rfl hah rfl
    (fun z hz => by cases hz) out hint
  obtain ⟨st', e⟩ := out
  simp only at k1 k3
  subst k1
  have ht := (C24_exact_output_times _ m mk (hpos κ hκ f hf) T downbeats logEvery _ _ st' le_rfl hT hd'
    (by simpa only [ODEState.integrate] using hint)).1
  exact ⟨st', hint, ht, ht ▸ k3⟩

theorem RunsFollow.exact_runs {c : EulerConfig ℝ np} (h : SmoothSetup c) {T : ℝ} (hT : 0 < T) {y : ℝ → Ix → State ℝ np}
    {m : Integrator} {p : ℕ} (hall : RunsFollow c T y m p) :
    ∃ C κ₀, 0 < κ₀ ∧ ∀ κ, 0 < κ → κ ≤ κ₀ → ∀ fixed f, IsSolverRHS (c.stepping fixed κ).scheme f →
      ∀ {Sn : Type} (mk : ODEState ℝ (Ix → State ℝ np) Sn → Sn) (n : Option ℕ) (downbeats : List ℝ) (logEvery : Bool),
      (∀ d ∈ downbeats, 0 ≤ d) → ∃ N, ∀ fuel, N ≤ fuel → ∃ st',
        (ODEState.init (y 0)).integrate (stepper f m) mk fuel ⟨some T, n, true, downbeats, logEvery, none⟩ = some (st', none) ∧
        st'.t = T ∧ ∀ i v, |st'.u i v - y T i v| ≤ C * κ ^ p := by
  obtain ⟨W, -, hrhs⟩ := h.stepping_rhs
  obtain ⟨C, κ₀, hκ₀, hall⟩ := FollowedBy.exact_runs (by
    rintro κ hκ f ⟨fixed, hf⟩ s t u dt k e
    obtain ⟨D, hD, -, hfD⟩ := hrhs fixed
    rw [hfD κ hκ f hf] at e
    cases e
    exact mul_pos hκ (hD u).1) hT hall
  exact ⟨C, κ₀, hκ₀, fun κ hκ hle fixed f hf => hall κ hκ hle f ⟨fixed, hf⟩⟩

/-- C117 (exact runs). With a fixed step `κ` or a CFL number `κ`, with `exact`, the run returns without an exception exactly at `T`,
with a final state that misses the solution of the semi-discrete equations by at most a constant times `κ`. -/
theorem C117_exact (c : EulerConfig ℝ np) (h : SmoothSetup c) {T T' : ℝ} (hT : 0 < T) (hT' : T < T')
    {y : ℝ → Ix → State ℝ np} (hy : SemiDiscrete c T' y) (m : Integrator) :
    ∃ C κ₀, 0 < κ₀ ∧ ∀ κ, 0 < κ → κ ≤ κ₀ → ∀ fixed f, IsSolverRHS (c.stepping fixed κ).scheme f →
      ∀ {Sn : Type} (mk : ODEState ℝ (Ix → State ℝ np) Sn → Sn) (n : Option ℕ) (downbeats : List ℝ) (logEvery : Bool),
      (∀ d ∈ downbeats, 0 ≤ d) → ∃ N, ∀ fuel, N ≤ fuel → ∃ st',
        (ODEState.init (y 0)).integrate (stepper f m) mk fuel ⟨some T, n, true, downbeats, logEvery, none⟩ = some (st', none) ∧
        st'.t = T ∧ ∀ i v, |st'.u i v - y T i v| ≤ C * κ := by
  simpa only [pow_one] using (C117_converges c h hT' hy m).exact_runs h hT

/-- C117 (uniqueness). Two solutions of the semi-discrete equations from the same state agree. -/
theorem C117_unique (c : EulerConfig ℝ np) (h : SmoothSetup c) {T : ℝ} {y z : ℝ → Ix → State ℝ np} (hy : SemiDiscrete c T y)
    (hz : SemiDiscrete c T z) (h0 : y 0 = z 0) (t : ℝ) (ht : 0 ≤ t) (htT : t < T) : y t = z t := by
  rcases ht.eq_or_lt with rfl | ht
  · exact h0
  obtain ⟨C, κ₀, hκ₀, hC⟩ := C117_exact c h ht htT hy .euler
  obtain ⟨C', κ₀', hκ₀', hC'⟩ := C117_exact c h ht htT hz .euler
  funext i v
  have key : ∀ κ, 0 < κ → κ ≤ min κ₀ κ₀' → |y t i v - z t i v| ≤ (C + C') * κ := by
    intro κ hκ hle
    have hf : IsSolverRHS (c.stepping true κ).scheme fun s t u => solverRHS (c.stepping true κ).scheme (fun _ => 0) (fun _ _ => 0) s t u :=
      fun s t u => ⟨_, _, rfl⟩
    obtain ⟨n1, k1⟩ := hC κ hκ (hle.trans (min_le_left _ _)) true _ hf (fun _ => ()) none [] false (by simp)
    obtain ⟨n2, k2⟩ := hC' κ hκ (hle.trans (min_le_right _ _)) true _ hf (fun _ => ()) none [] false (by simp)
    obtain ⟨s1, e1, -, k1⟩ := k1 _ (le_max_left n1 n2)
    obtain ⟨s2, e2, -, k2⟩ := k2 _ (le_max_right n1 n2)
    rw [← h0, e1] at e2
    have hs : s1 = s2 := congrArg Prod.fst (Option.some.inj e2)
    have a1 := k1 i v
    have a2 := k2 i v
    rw [← hs] at a2
    have := abs_sub_le (y t i v) (s1.u i v) (z t i v)
    rw [abs_sub_comm (y t i v) (s1.u i v)] at this
    linarith
  by_contra hne
  have hpos : 0 < |y t i v - z t i v| := abs_pos.2 (sub_ne_zero.2 hne)
  have hm : 0 < min κ₀ κ₀' := lt_min hκ₀ hκ₀'
  have h1 := key _ hm le_rfl
  have hK : 0 < C + C' := by
    by_contra hn
    push Not at hn
    linarith [mul_nonpos_of_nonpos_of_nonneg hn hm.le]
  have hk : 0 < min (min κ₀ κ₀') (|y t i v - z t i v| / (2 * (C + C'))) := lt_min hm (by positivity)
  have h2 := key _ hk (min_le_left _ _)
  have h3 : (C + C') * min (min κ₀ κ₀') (|y t i v - z t i v| / (2 * (C + C'))) ≤ |y t i v - z t i v| / 2 := by
    refine (mul_le_mul_of_nonneg_left (min_le_right _ _) hK.le).trans (le_of_eq ?_)
    field_simp
  linarith

/-- A tube of air that is not uniform evolves for a while. -/
example : ∃ u₀ : Ix → State ℝ 0, (∃ i j, InCells cubicTube.n i ∧ InCells cubicTube.n j ∧ u₀ i .rho ≠ u₀ j .rho) ∧
    ∃ T, 0 < T ∧ ∃ y, y 0 = u₀ ∧ SemiDiscrete cubicTube T y := by
  have h0 : InCells cubicTube.n 0 := by decide
  have h1 : InCells cubicTube.n (Pi.single 0 1) := by decide
  have hu : Sturdy cubicTube (glue cubicTube.n (fun _ => stillAir) (inCells cubicTube.n fun _ => stillAir)) := by
    rw [glue_inCells _ _ _ fun _ _ => rfl]
    exact stillAir_sturdy
  have hn := cubicTube_smooth.sturdy_near hu
  obtain ⟨ε, hε, hb⟩ := Metric.mem_nhds_iff.1 hn
  set x : Cell cubicTube.n → State ℝ 0 := Function.update (inCells cubicTube.n fun _ => stillAir) ⟨0, h0⟩
    (Function.update stillAir .rho (1 + ε / 2)) with hx
  refine ⟨glue cubicTube.n (fun _ => stillAir) x, ⟨0, Pi.single 0 1, h0, h1, ?_⟩, C117_exists _ cubicTube_smooth _ (hb ?_)⟩
  · have hne : (⟨Pi.single 0 1, h1⟩ : Cell cubicTube.n) ≠ ⟨0, h0⟩ := by
      intro e
      have := congrFun (congrArg Subtype.val e) 0
      simp at this
    simp only [glue, dif_pos h0, dif_pos h1, hx, Function.update_self, Function.update_of_ne hne]
    simp only [inCells, stillAir]
    linarith
  · rw [Metric.mem_ball, dist_pi_lt_iff hε]
    intro i
    rw [dist_pi_lt_iff hε]
    intro v
    by_cases hi : i = ⟨0, h0⟩
    · subst hi
      simp only [hx, Function.update_self, inCells]
      by_cases hv : v = .rho
      · subst hv
        rw [Function.update_self, Real.dist_eq]
        simp only [stillAir]
        rw [add_sub_cancel_left, abs_of_pos (by linarith)]
        linarith
      · rw [Function.update_of_ne hv, dist_self]
        exact hε
    · rw [hx, Function.update_of_ne hi, dist_self]
      exact hε

end FVHOE
