import Verif.Proofs.Lines

/-!
Sturdy states form an open set; one step on the values in the cells; the largest step.
-/

set_option linter.unusedSectionVars false

namespace FVHOE

open Topology Set

variable {np : ℕ} {c : EulerConfig ℝ np}

theorem box_finite (n m : Ix) : {i : Ix | ∀ d, -m d ≤ i d ∧ i d < n d + m d}.Finite :=
  (Set.Finite.pi' fun d => Set.finite_Ico (-m d) (n d + m d)).subset fun _ hi d => hi d

section Faces

variable {V : Type} [AddCommGroup V] [Module ℝ V]

/-- Conditions kept by affine combinations pass from the averages to the states at the faces. -/
theorem OnBox.states {n m : Ix} {P : V → Prop} (hP : AffClosed ℝ P) {W : Ix → V} (p : Fin 3 → ℕ) (hp : ∀ d, p d ≤ 8) (d : Fin 3)
    (hm : ∀ e, 2 * (ceilHalf (p e) : ℤ) ≤ m e) (hmd : (ceilHalf (p d) : ℤ) + 1 ≤ m d) (hW : OnBox n m P W) (i : Ix)
    (hi : ∀ e, -midMargin p d e ≤ i e ∧ i e < (n + Pi.single d 1 : Ix) e + midMargin p d e) :
    P (faceStates ℝ p none d W i).1 ∧ P (faceStates ℝ p none d W i).2 := by
  have o : ∃ o1 o2, centerOrder d = (o1, o2) ∧ o1 ≠ o2 ∧ o1 ≠ d ∧ o2 ≠ d := by
    match d with
    | 0 => exact ⟨_, _, rfl, by decide⟩
    | 1 => exact ⟨_, _, rfl, by decide⟩
    | 2 => exact ⟨_, _, rfl, by decide⟩
  obtain ⟨o1, o2, eo, h12, h1d, h2d⟩ := o
  have hcov := cov3 d o1 o2 h12 h1d h2d
  have hline : OnBox n (fun e => if e = d then (ceilHalf (p e) : ℤ) + 1 else ceilHalf (p e)) P (latLine ℝ p d W) := by
    unfold latLine
    rw [eo]
    refine OnBox.center hP o2 _ (hp _) (OnBox.center hP o1 _ (hp _) (hW.mono fun e => ?_))
    have := hm e
    rcases hcov e with rfl | rfl | rfl
    · simp [h1d.symm, h2d.symm]; omega
    · simp [h12, h1d]; omega
    · simp [h12.symm, h2d]; omega
  have hface := OnBox.faces (m := fun e => if e = d then 1 else ceilHalf (p e)) hP d (p d) (hp d) none (fun s hs => by cases hs)
    (hline.mono fun e => by
      by_cases he : e = d
      · subst he; simp; omega
      · simp [he])
  refine ⟨hface.2 _ fun e => ?_, hface.1 _ fun e => ?_⟩ <;> have := hi e <;>
    by_cases he : e = d <;> simp [he, midMargin] at this ⊢ <;> first | (subst he; omega) | omega

end Faces

/-- The margins of the flux evaluation are wide enough. -/
theorem margins (c : EulerConfig ℝ np) : (∀ e, 2 * (ceilHalf (c.p e) : ℤ) ≤ gwMargin c.scheme c.p e) ∧
    ∀ d, c.scheme.active d = true → (ceilHalf (c.p d) : ℤ) + 1 ≤ gwMargin c.scheme c.p d := by
  have hb := fluxGw_bound c.p
  have hin := c.scheme.inactive_p
  refine ⟨fun e => ?_, fun d hd => ?_⟩
  · unfold gwMargin
    split
    · have := (hb e).2; omega
    · rename_i h'
      have : c.p e = 0 := hin e (by simpa using h')
      rw [this]
      simp [ceilHalf]
  · unfold gwMargin
    rw [if_pos hd]
    have := (hb d).1
    omega

/-- Sturdy states form an open set. -/
theorem SmoothSetup.sturdy_near (h : SmoothSetup c) {u₀ : Ix → State ℝ np} {x : Cell c.n → State ℝ np} (hu : Sturdy c (glue c.n u₀ x)) :
    ∀ᶠ y in 𝓝 x, Sturdy c (glue c.n u₀ y) := by
  have pos : ∀ {W : (Cell c.n → State ℝ np) → State ℝ np}, LipAt W x → ∀ v, 0 < W x v → ∀ᶠ y in 𝓝 x, 0 < W y v := fun hW v h0 =>
    (hW.row v).continuousAt.eventually (lt_mem_nhds h0)
  have e1 : ∀ i y, latCenters ℝ c.p (fun i y => padded c.scheme (glue c.n u₀ y) i) i y =
      latCenters ℝ c.p (padded c.scheme (glue c.n u₀ y)) i := fun i y =>
    congrFun (centers_at c.p (fun i y => padded c.scheme (glue c.n u₀ y) i) y) i
  have e2 : ∀ i y, latPrim ℝ (fun v y => computePrimitives c.gas.gamma (v y)) c.p (fun i y => padded c.scheme (glue c.n u₀ y) i) i y =
      latPrim ℝ (computePrimitives c.gas.gamma) c.p (padded c.scheme (glue c.n u₀ y)) i := fun i y =>
    congrFun (prim_at (computePrimitives c.gas.gamma) c.p (fun i y => padded c.scheme (glue c.n u₀ y) i) y) i
  have h1 : ∀ᶠ y in 𝓝 x, OnBox (fun d => c.n d) (fun d => gwMargin c.scheme c.p d + ceilHalf (c.p d)) (fun v => 0 < v .rho)
      (latCenters ℝ c.p (padded c.scheme (glue c.n u₀ y))) := by
    refine (Filter.eventually_all_finite (box_finite _ _)).2 fun i hi => ?_
    have hl := OnBox.centers (affClosed_lipAt x) c.p h.degree (n := fun d => (c.n d : ℤ))
      (m := fun d => gwMargin c.scheme c.p d + ceilHalf (c.p d)) (Φ := fun i y => padded c.scheme (glue c.n u₀ y) i)
      (fun i _ => lip_padded c u₀ x i) i hi
    have := pos hl .rho (by rw [e1]; exact hu.centers i hi)
    simpa only [e1] using this
  have h2 : ∀ᶠ y in 𝓝 x, OnBox (fun d => c.n d) (gwMargin c.scheme c.p) (fun w => 0 < w .rho)
      (latPrim ℝ (computePrimitives c.gas.gamma) c.p (padded c.scheme (glue c.n u₀ y))) := by
    refine (Filter.eventually_all_finite (box_finite _ _)).2 fun i hi => ?_
    have := pos (h.prim_lip hu i hi) .rho (by rw [e2]; exact hu.averages i hi)
    simpa only [e2] using this
  have h3 : ∀ᶠ y in 𝓝 x, ∀ d, c.scheme.active d = true → ∀ i, InMid c.n c.p d i →
      let x := faceStates ℝ c.p none d (latPrim ℝ (computePrimitives c.gas.gamma) c.p (padded c.scheme (glue c.n u₀ y))) i
      PosGas x.1 ∧ PosGas x.2 := by
    refine Filter.eventually_all.2 fun d => ?_
    by_cases hd : c.scheme.active d = true
    swap
    · exact Filter.Eventually.of_forall fun y h => absurd h hd
    have fin : {i | InMid c.n c.p d i}.Finite := by
      refine (box_finite ((fun d => (c.n d : ℤ)) + Pi.single d 1) (midMargin c.p d)).subset fun i hi e => ?_
      have := hi e
      simpa using this
    have := (Filter.eventually_all_finite (l := 𝓝 x) fin (p := fun i y =>
      PosGas (faceStates ℝ c.p none d (latPrim ℝ (computePrimitives c.gas.gamma) c.p (padded c.scheme (glue c.n u₀ y))) i).1 ∧
      PosGas (faceStates ℝ c.p none d (latPrim ℝ (computePrimitives c.gas.gamma) c.p (padded c.scheme (glue c.n u₀ y))) i).2)).2
      fun i hi => by
        have hl := OnBox.states (affClosed_lipAt x) c.p h.degree d (margins c).1 ((margins c).2 d hd) (h.prim_lip hu) i (fun e => by
          have := hi e
          simpa using this)
        have e3 := faces_at c.p d
          (latPrim ℝ (fun v y => computePrimitives c.gas.gamma (v y)) c.p fun i y => padded c.scheme (glue c.n u₀ y) i) i
        simp only [e2] at e3
        obtain ⟨g1, g2⟩ := hu.faces d hd i hi
        obtain ⟨A, hA⟩ : ∃ A, A = (faceStates ℝ c.p none d (latPrim ℝ (fun v y => computePrimitives c.gas.gamma (v y)) c.p
          fun i y => padded c.scheme (glue c.n u₀ y) i) i).1 := ⟨_, rfl⟩
        obtain ⟨B, hB⟩ : ∃ B, B = (faceStates ℝ c.p none d (latPrim ℝ (fun v y => computePrimitives c.gas.gamma (v y)) c.p
          fun i y => padded c.scheme (glue c.n u₀ y) i) i).2 := ⟨_, rfl⟩
        rw [← hA, ← hB] at hl e3
        have k1 : ∀ y, (faceStates ℝ c.p none d (latPrim ℝ (computePrimitives c.gas.gamma) c.p (padded c.scheme (glue c.n u₀ y))) i).1 =
          A y := fun y => (e3 y).1.symm
        have k2 : ∀ y, (faceStates ℝ c.p none d (latPrim ℝ (computePrimitives c.gas.gamma) c.p (padded c.scheme (glue c.n u₀ y))) i).2 =
          B y := fun y => (e3 y).2.symm
        rw [k1] at g1
        rw [k2] at g2
        simp only [k1, k2]
        filter_upwards [pos hl.1 .rho g1.1, pos hl.1 .en g1.2, pos hl.2 .rho g2.1, pos hl.2 .en g2.2] with y y1 y2 y3 y4
        exact ⟨⟨y1, y2⟩, y3, y4⟩
    filter_upwards [this] with y hy _ i hi
    exact hy i hi
  filter_upwards [h1, h2, h3] with y y1 y2 y3
  exact ⟨y1, y2, y3⟩

theorem slopes_outside (c : EulerConfig ℝ np) (u : Ix → State ℝ np) (i : Ix) (hi : ¬InCells c.n i) : slopes c u i = 0 := if_neg hi

/-- A step changes nothing outside the cells, and on the cells it is a step with the slopes of the cells. -/
theorem advance_cells (c : EulerConfig ℝ np) (u₀ : Ix → State ℝ np) (m : Integrator) (h : ℝ) (u : Ix → State ℝ np)
    (hu : ∀ i, ¬InCells c.n i → u i = u₀ i) :
    (∀ i, ¬InCells c.n i → advanceBy (slopes c) m h u i = u₀ i) ∧
    inCells c.n (advanceBy (slopes c) m h u) = advanceBy (cellSlopes c u₀) m h (inCells c.n u) := by
  have key : ∀ v : Ix → State ℝ np, (∀ i, ¬InCells c.n i → v i = u₀ i) → inCells c.n (slopes c v) = cellSlopes c u₀ (inCells c.n v) := by
    intro v hv
    unfold cellSlopes
    rw [glue_inCells c.n u₀ v hv]
  have add : ∀ v w : Ix → State ℝ np, inCells c.n (v + w) = inCells c.n v + inCells c.n w := fun _ _ => rfl
  have sm : ∀ (a : ℝ) (v : Ix → State ℝ np), inCells c.n (a • v) = a • inCells c.n v := fun _ _ => rfl
  have out : ∀ (v w : Ix → State ℝ np) (a : ℝ), (∀ i, ¬InCells c.n i → v i = u₀ i) → ∀ i, ¬InCells c.n i →
      (v + a • slopes c w) i = u₀ i := by
    intro v w a hv i hi
    rw [Pi.add_apply, Pi.smul_apply, slopes_outside c w i hi, smul_zero, add_zero, hv i hi]
  refine ⟨fun i hi => ?_, ?_⟩
  · have z := fun w => slopes_outside c w i hi
    cases m <;> simp only [advanceBy, Pi.add_apply, Pi.smul_apply, z, smul_zero, add_zero, hu i hi]
    module
  · cases m <;> simp only [advanceBy, add, sm]
    · rw [key u hu]
    · rw [key _ (out _ _ _ hu), add, sm, key u hu]
    · rw [key _ (out _ _ _ (out _ _ _ hu)), key _ (out _ _ _ hu), add, add, add, sm, sm, sm, key _ (out _ _ _ hu), add, sm, key u hu]
    · rw [key _ (out _ _ _ hu), key _ (out _ _ _ hu), key _ (out _ _ _ hu), add, add, add, sm, sm, sm, key _ (out _ _ _ hu),
        key _ (out _ _ _ hu), add, add, sm, sm, key _ (out _ _ _ hu), add, sm, key u hu]

/-- A bound on the steps of a setup: the fixed step, or the step the CFL rule takes at the smallest sound speed there is. -/
noncomputable def longest (c : EulerConfig ℝ np) : ℝ :=
  match c.fixedDt with
  | some x => x
  | none => c.cfl * (min (min (c.h 0) (c.h 1)) (c.h 2) / Real.sqrt c.gas.csqFloor)

theorem SmoothSetup.rhs_bound (h : SmoothSetup c) : ∃ D : (Ix → State ℝ np) → ℝ,
    (∀ junk mem t t' u, solverRHS c.scheme junk mem t t' u = .ok (D u, slopes c u)) ∧
    ∀ u, (0 < D u ∧ D u ≤ longest c) ∧ (Sturdy c u → ContinuousAt D u) ∧
      IsDt c.scheme c.p (latPrim ℝ (computePrimitives c.gas.gamma) c.p (padded c.scheme u)) (D u) := by
  obtain ⟨D, hD, hcont⟩ := h.rhs
  refine ⟨D, hD, fun u => ?_⟩
  have hin : ∀ d, c.scheme.active d = false → fluxWidth c.scheme c.p d = 0 := fun d hd => by
    have : c.p d = 0 := c.scheme.inactive_p d hd
    unfold fluxWidth
    simp [hd, this, ceilHalf]
  obtain ⟨dt, h1, h2⟩ : ∃ dt, IsDt c.scheme c.p (latPrim ℝ (computePrimitives c.gas.gamma) c.p (padded c.scheme u)) dt ∧
      ∃ junk mem, solverRHS c.scheme junk mem 0 0 u = .ok (dt, slopes c u) := by
    obtain ⟨dt, h1, h2⟩ := rhs_spec c.scheme h.limiting h.degree h.cells 0 _ _ (h.sides.sides h.cells hin 0) (fun _ => 0) (fun _ _ => 0) 0 u u fun _ _ => rfl
    exact ⟨dt, h1, _, _, h2⟩
  obtain ⟨junk, mem, h2⟩ := h2
  rw [hD] at h2
  have e : D u = dt := by
    have := Except.ok.inj h2
    exact congrArg Prod.fst this
  rw [← e] at h1
  refine ⟨?_, fun hu => (hcont u hu).1, h1⟩
  rw [e] at h1 ⊢
  have hmin : 0 < min (min (c.h 0) (c.h 1)) (c.h 2) := lt_min (lt_min (h.spacing 0) (h.spacing 1)) (h.spacing 2)
  unfold IsDt at h1
  unfold longest
  rcases h.step with ⟨x, hx, hx0⟩ | ⟨hx, hcfl⟩
  · rw [show c.scheme.fixedDt = some x from hx] at h1
    rw [hx, h1]
    exact ⟨hx0, le_rfl⟩
  · rw [show c.scheme.fixedDt = none from hx] at h1
    rw [hx]
    obtain ⟨mx, ⟨i, hi, em⟩, -, ed⟩ := h1
    have hfl := h.gas.floor
    have hs : Real.sqrt c.gas.csqFloor ≤ mx := by
      rw [← em]
      change _ ≤ signalSpeed c.gas c.scheme.ndim _
      obtain ⟨s1, s2⟩ := soundSpeed_spec c.gas h.gas.sqrt h.gas.floor (latPrim ℝ (computePrimitives c.gas.gamma) c.p (padded c.scheme u) i)
      have s3 : Real.sqrt c.gas.csqFloor ≤ soundSpeed c.gas (latPrim ℝ (computePrimitives c.gas.gamma) c.p (padded c.scheme u) i) := by
        refine Real.sqrt_le_iff.2 ⟨s1.le, ?_⟩
        rw [s2]
        exact le_max_right _ _
      have n1 : (1 : ℝ) ≤ c.scheme.ndim := by exact_mod_cast h.extended
      unfold signalSpeed sum3
      have a0 := abs_nonneg (latPrim ℝ (computePrimitives c.gas.gamma) c.p (padded c.scheme u) i (.mom 0))
      have a1 := abs_nonneg (latPrim ℝ (computePrimitives c.gas.gamma) c.p (padded c.scheme u) i (.mom 1))
      have a2 := abs_nonneg (latPrim ℝ (computePrimitives c.gas.gamma) c.p (padded c.scheme u) i (.mom 2))
      nlinarith
    have hs0 : 0 < Real.sqrt c.gas.csqFloor := Real.sqrt_pos.2 hfl
    have hm0 : 0 < mx := lt_of_lt_of_le hs0 hs
    have hc : dt = c.cfl * (min (min (c.h 0) (c.h 1)) (c.h 2) / mx) := by rw [ed]; exact mul_div_assoc _ _ _
    rw [hc]
    exact ⟨by positivity, mul_le_mul_of_nonneg_left (div_le_div_of_nonneg_left hmin.le hs0 hs) hcfl.le⟩

/-- Near a compact set of points where `D` is continuous and positive it is bounded below. -/
theorem exists_floor {E : Type} [NormedAddCommGroup E] {D : E → ℝ} {s : Set E} (hs : IsCompact s)
    (h : ∀ p ∈ s, ContinuousAt D p ∧ 0 < D p) : ∃ δ r, 0 < δ ∧ 0 < r ∧ ∀ p ∈ s, ∀ q, ‖q - p‖ ≤ r → δ ≤ D q := by
  refine hs.induction_on (p := fun s => ∃ δ r, 0 < δ ∧ 0 < r ∧ ∀ p ∈ s, ∀ q, ‖q - p‖ ≤ r → δ ≤ D q)
    ⟨1, 1, one_pos, one_pos, fun p hp => hp.elim⟩ ?_ ?_ ?_
  · rintro s t hst ⟨δ, r, hδ, hr, h⟩
    exact ⟨δ, r, hδ, hr, fun p hp => h p (hst hp)⟩
  · rintro s t ⟨δ, r, hδ, hr, h⟩ ⟨δ', r', hδ', hr', h'⟩
    refine ⟨min δ δ', min r r', lt_min hδ hδ', lt_min hr hr', ?_⟩
    rintro p (hp | hp) q hq
    · exact (min_le_left _ _).trans (h p hp q (hq.trans (min_le_left _ _)))
    · exact (min_le_right _ _).trans (h' p hp q (hq.trans (min_le_right _ _)))
  · intro x hx
    obtain ⟨hc, h0⟩ := h x hx
    obtain ⟨ε, hε, hb⟩ := Metric.mem_nhds_iff.1 (hc.eventually (lt_mem_nhds (show D x / 2 < D x by linarith)))
    refine ⟨Metric.ball x (ε / 2), mem_nhdsWithin_of_mem_nhds (Metric.ball_mem_nhds x (by linarith)), D x / 2, ε / 4, by linarith,
      by linarith, fun p hp q hq => ?_⟩
    have hq' : q ∈ Metric.ball x ε := by
      have := dist_triangle q p x
      rw [dist_eq_norm q p] at this
      have hp' : dist p x < ε / 2 := hp
      rw [Metric.mem_ball]
      linarith
    exact le_of_lt (hb hq')

theorem continuous_glue (n : Fin 3 → ℕ) (u₀ : Ix → State ℝ np) : Continuous (glue n u₀) := by
  refine continuous_pi fun i => ?_
  unfold glue
  split_ifs with hi
  · exact continuous_apply (⟨i, hi⟩ : Cell n)
  · exact continuous_const

/-- Steps and their stages stay in a subspace with its slopes. -/
theorem advance_mem {U : Type} [AddCommGroup U] [Module ℝ U] {R : U → U} {S : Submodule ℝ U} (hS : ∀ u ∈ S, R u ∈ S) (m : Integrator)
    (h : ℝ) {u : U} (hu : u ∈ S) : advanceBy R m h u ∈ S ∧ ∀ v ∈ stages R m h u, v ∈ S := by
  have step : ∀ {v w : U} (a : ℝ), v ∈ S → w ∈ S → v + a • R w ∈ S := fun a hv hw => S.add_mem hv (S.smul_mem a (hS _ hw))
  cases m <;> simp only [advanceBy, stages, List.mem_cons, List.not_mem_nil, or_false, forall_eq_or_imp, forall_eq]
  · exact ⟨step h hu hu, hu⟩
  · have a := step h hu hu
    exact ⟨S.add_mem (S.smul_mem _ hu) (S.smul_mem _ (step h a a)), hu, a⟩
  · have a := step h hu hu
    have b := step (1 / 4 * h) (step (1 / 4 * h) hu hu) a
    exact ⟨S.add_mem hu (S.smul_mem _ (S.add_mem (S.add_mem (hS _ hu) (hS _ a)) (S.smul_mem _ (hS _ b)))), hu, a, b⟩
  · have a := step (1 / 2 * h) hu hu
    have b := step (1 / 2 * h) hu a
    have c := step h hu b
    exact ⟨S.add_mem hu (S.smul_mem _ (S.add_mem (S.add_mem (S.add_mem (hS _ hu) (S.smul_mem _ (hS _ a))) (S.smul_mem _ (hS _ b)))
      (hS _ c))), hu, a, b, c⟩

/-- `stepper_advanceBy` with the right-hand side known at the stages only. -/
theorem stepper_on {U : Type} [AddCommGroup U] [Module ℝ U] {f : RHS ℝ U} {D : U → ℝ} {R : U → U} {P : U → Prop}
    (hf : ∀ s t u, P u → f s t u = .ok (D u, R u)) (m : Integrator) (t : ℝ) (u : U) (target : Option ℝ)
    (hP : ∀ v ∈ stages R m (hitTarget t (D u) target) u, P v) :
    stepper f m t u target = .ok (hitTarget t (D u) target, advanceBy R m (hitTarget t (D u) target) u) := by
  cases m <;> simp only [stages, List.mem_cons, List.not_mem_nil, or_false, forall_eq_or_imp, forall_eq] at hP
  · simp [stepper, eulerStepper, hf _ _ _ hP, advanceBy, bind, Except.bind, pure, Except.pure]
  · simp [stepper, ssprk2Stepper, hf _ _ _ hP.1, hf _ _ _ hP.2, advanceBy, bind, Except.bind, pure, Except.pure]
  · have e := fun s t => hf s t _ hP.2.2
    have e' := fun s t => hf s t _ hP.2.1
    simp only [one_div] at e e'
    simp [stepper, ssprk3Stepper, hf _ _ _ hP.1, e, e', advanceBy, bind, Except.bind, pure, Except.pure]
  · have e := fun s t => hf s t _ hP.2.2.2
    have e' := fun s t => hf s t _ hP.2.2.1
    have e'' := fun s t => hf s t _ hP.2.1
    simp only [one_div] at e e' e''
    simp [stepper, rk4Stepper, hf _ _ _ hP.1, e, e', e'', advanceBy, bind, Except.bind, pure, Except.pure]

/-- The stages of a step stay near. -/
theorem stages_close {E : Type} [NormedAddCommGroup E] [NormedSpace ℝ E] {f : E → E} {p : E} {M δ δ' : ℝ} (hM : 1 ≤ M)
    (steady : Steady f {p} M δ) (m : Integrator) {h : ℝ} (h0 : 0 ≤ h) (h1 : h * M ≤ δ' / 2) {v : E} (hv : ‖v - p‖ ≤ δ' / 2)
    (hδ : δ' ≤ δ) : ∀ x ∈ stages f m h v, ‖x - p‖ ≤ δ' := by
  have hM0 : 0 ≤ M := by linarith
  have hhM : 0 ≤ h * M := by positivity
  have shift : ∀ {e : E}, ‖e‖ ≤ h * M → ‖v + e - p‖ ≤ δ' ∧ ‖f (v + e)‖ ≤ M := by
    intro e he
    have := norm_add_le (v - p) e
    rw [show v - p + e = v + e - p by abel] at this
    have k : ‖v + e - p‖ ≤ δ' := by linarith
    exact ⟨k, (steady p rfl _ _ (k.trans hδ) (k.trans hδ)).1⟩
  have sm : ∀ {c : ℝ} {k : E}, 0 ≤ c → c ≤ h → ‖k‖ ≤ M → ‖c • k‖ ≤ h * M := fun hc hh hk => by
    rw [norm_smul, Real.norm_of_nonneg hc]
    exact mul_le_mul hh hk (norm_nonneg _) h0
  have z := shift (e := 0) (by simpa using hhM)
  rw [add_zero] at z
  cases m <;> simp only [stages, List.mem_cons, List.not_mem_nil, or_false, forall_eq_or_imp, forall_eq]
  · exact z.1
  · exact ⟨z.1, (shift (sm h0 le_rfl z.2)).1⟩
  · have a := shift (sm h0 le_rfl z.2)
    refine ⟨z.1, a.1, ?_⟩
    rw [add_assoc]
    refine (shift ?_).1
    rw [← smul_add]
    rw [norm_smul, Real.norm_of_nonneg (by positivity)]
    have := (norm_add_le (f v) (f (v + h • f v))).trans (add_le_add z.2 a.2)
    have k := mul_le_mul_of_nonneg_left this (show 0 ≤ 1 / 4 * h by positivity)
    linarith
  · have a := shift (sm (c := 1 / 2 * h) (by positivity) (by linarith) z.2)
    have b := shift (sm (c := 1 / 2 * h) (by positivity) (by linarith) a.2)
    exact ⟨z.1, a.1, b.1, (shift (sm h0 le_rfl b.2)).1⟩

/-- The stages of a step change nothing outside the cells, and in the cells they are the stages with the slopes of the cells. -/
theorem stages_cells (c : EulerConfig ℝ np) (u₀ : Ix → State ℝ np) (m : Integrator) (h : ℝ) (u : Ix → State ℝ np)
    (hu : ∀ i, ¬InCells c.n i → u i = u₀ i) : ∀ v ∈ stages (slopes c) m h u,
    (∀ i, ¬InCells c.n i → v i = u₀ i) ∧ inCells c.n v ∈ stages (cellSlopes c u₀) m h (inCells c.n u) := by
  have key : ∀ v : Ix → State ℝ np, (∀ i, ¬InCells c.n i → v i = u₀ i) → inCells c.n (slopes c v) = cellSlopes c u₀ (inCells c.n v) := by
    intro v hv
    unfold cellSlopes
    rw [glue_inCells c.n u₀ v hv]
  have add : ∀ v w : Ix → State ℝ np, inCells c.n (v + w) = inCells c.n v + inCells c.n w := fun _ _ => rfl
  have sm : ∀ (a : ℝ) (v : Ix → State ℝ np), inCells c.n (a • v) = a • inCells c.n v := fun _ _ => rfl
  have out : ∀ (v w : Ix → State ℝ np) (a : ℝ), (∀ i, ¬InCells c.n i → v i = u₀ i) → ∀ i, ¬InCells c.n i →
      (v + a • slopes c w) i = u₀ i := by
    intro v w a hv i hi
    rw [Pi.add_apply, Pi.smul_apply, slopes_outside c w i hi, smul_zero, add_zero, hv i hi]
  cases m <;> simp only [stages, List.mem_cons, List.not_mem_nil, or_false, forall_eq_or_imp, forall_eq]
  · exact ⟨hu, trivial⟩
  · refine ⟨⟨hu, .inl trivial⟩, out _ _ _ hu, .inr ?_⟩
    rw [add, sm, key u hu]
  · refine ⟨⟨hu, .inl trivial⟩, ⟨out _ _ _ hu, .inr (.inl ?_)⟩, out _ _ _ (out _ _ _ hu), .inr (.inr ?_)⟩
    · rw [add, sm, key u hu]
    · rw [add, add, sm, sm, key _ (out _ _ _ hu), add, sm, key u hu]
  · refine ⟨⟨hu, .inl trivial⟩, ⟨out _ _ _ hu, .inr (.inl ?_)⟩, ⟨out _ _ _ hu, .inr (.inr (.inl ?_))⟩, out _ _ _ hu, .inr (.inr (.inr ?_))⟩
    · rw [add, sm, key u hu]
    · rw [add, sm, key _ (out _ _ _ hu), add, sm, key u hu]
    · rw [add, sm, key _ (out _ _ _ hu), add, sm, key _ (out _ _ _ hu), add, sm, key u hu]

end FVHOE
