import Verif.Proofs.LinesLimited
import Verif.Props.C113
import Verif.Props.C118

/-!
C119: as the step goes to zero on a given grid, the a-posteriori limiter switches itself off: its candidate tends to the state it is
compared with. Runs with limiting converge to the solution of the semi-discrete equations of the scheme without limiting, with the
order of the integrator.
-/

set_option linter.unusedSectionVars false

namespace FVHOE

open Topology Set

variable {np : ℕ} {c : EulerConfig ℝ np} {o : LimiterOpts ℝ}

theorem LimitedLines.stepping (h : LimitedLines c o) (fixed : Bool) {κ : ℝ} (hκ : 0 < κ) : LimitedLines (c.stepping fixed κ) o := by
  obtain ⟨h1, h2, h3, h4, h5⟩ := h
  refine ⟨h1.stepping fixed hκ, ?_, ?_, h4, h5⟩ <;> cases fixed <;> assumption

/-- The limited right-hand side proposes the steps of the unlimited one, and returns its slopes where nothing is reported. -/
theorem LimitedLines.stepping_rhs (h : LimitedLines c o) {D : Bool → (Ix → State ℝ np) → ℝ}
    (hD : ∀ fixed κ, 0 < κ → ∀ f, IsSolverRHS (c.stepping fixed κ).scheme f → ∀ s t u, f s t u = .ok (κ * D fixed u, slopes c u))
    (fixed : Bool) {κ : ℝ} (hκ : 0 < κ) (f : RHS ℝ (Ix → State ℝ np))
    (hf : IsSolverRHS ((c.stepping fixed κ).limited (some o)).scheme f) (s t : ℝ) (u : Ix → State ℝ np) :
    (∀ dt k, f s t u = .ok (dt, k) → dt = κ * D fixed u) ∧
    ((∀ i, InCells c.n i → ¬Reported o.toDetectOpts c.dims c.n (seenAt c u) (seenAt c (u + (κ * D fixed u) • slopes c u)) i) →
      f s t u = .ok (κ * D fixed u, slopes c u)) := by
  obtain ⟨D', hD', -⟩ := (h.stepping fixed hκ).smooth.rhs
  obtain ⟨junk, mem, e⟩ := hf s t u
  have e1 : D' u = κ * D fixed u := by
    have := hD fixed κ hκ (fun s t u => solverRHS (c.stepping fixed κ).scheme (fun _ => 0) (fun _ _ => 0) s t u)
      (fun s t u => ⟨_, _, rfl⟩) 0 0 u
    beta_reduce at this
    rw [hD'] at this
    exact congrArg Prod.fst (Except.ok.inj this)
  obtain ⟨k1, k2⟩ := (h.stepping fixed hκ).rhs hD' junk mem s t u
  rw [e1, slopes_stepping] at k2
  rw [e1] at k1
  rw [e]
  refine ⟨k1, fun hq => k2 fun i hi => ?_⟩
  cases fixed <;> exact hq i hi

/-- **C119** At a state with slack the limiter does nothing once the step is small enough: with a fixed step or CFL number of at most
`κ₁` the right-hand sides with and without limiting are the same there. -/
theorem C119_switch (h : LimitedLines c o) {u : Ix → State ℝ np} (hu : Sturdy c u) {Z : Fin 3 → Prop}
    (hs : Slack c o.toDetectOpts Z u) : ∃ κ₁, 0 < κ₁ ∧ ∀ κ, 0 < κ → κ ≤ κ₁ → ∀ fixed f g,
      IsSolverRHS (c.stepping fixed κ).scheme f → IsSolverRHS ((c.stepping fixed κ).limited (some o)).scheme g →
      ∀ s t, g s t u = f s t u := by
  obtain ⟨W, hW, hrhs⟩ := h.smooth.stepping_rhs
  choose D hD hDc hfD using hrhs
  obtain ⟨η, hη, hq⟩ := Metric.eventually_nhds_iff.1 ((ContinuousAt.prodMk (continuousAt_const (y := u))
    (continuousAt_id (x := (0 : ℝ)))).eventually (h.smooth.quiet_near o.toDetectOpts hu hs))
  have hW0 : 0 < W := by linarith
  refine ⟨η / (2 * W), by positivity, fun κ hκ hle fixed f g hf hg s t => ?_⟩
  rw [hfD fixed κ hκ f hf, (h.stepping_rhs hfD fixed hκ g hg s t u).2 ?_]
  refine hq (y := κ * D fixed u) ?_ fun d hd i hi => (hs.still d hd).2 i hi
  obtain ⟨d1, d2⟩ := hD fixed u
  rw [Real.dist_eq, sub_zero, abs_of_pos (by positivity)]
  rw [le_div_iff₀ (by positivity)] at hle
  have := mul_le_mul_of_nonneg_left d2 hκ.le
  linarith

/-- Near a compact set and for small steps. -/
theorem exists_uniform {E : Type} [NormedAddCommGroup E] {Q : E × ℝ → Prop} {s : Set E} (hs : IsCompact s)
    (h : ∀ p ∈ s, ∀ᶠ z in 𝓝 (p, (0 : ℝ)), Q z) : ∃ ρ η, 0 < ρ ∧ 0 < η ∧ ∀ p ∈ s, ∀ q, ‖q - p‖ ≤ ρ → ∀ t, |t| ≤ η → Q (q, t) := by
  refine hs.induction_on (p := fun s => ∃ ρ η, 0 < ρ ∧ 0 < η ∧ ∀ p ∈ s, ∀ q, ‖q - p‖ ≤ ρ → ∀ t, |t| ≤ η → Q (q, t))
    ⟨1, 1, one_pos, one_pos, fun p hp => hp.elim⟩ ?_ ?_ ?_
  · rintro s t hst ⟨δ, r, hδ, hr, h⟩
    exact ⟨δ, r, hδ, hr, fun p hp => h p (hst hp)⟩
  · rintro s t ⟨δ, r, hδ, hr, h⟩ ⟨δ', r', hδ', hr', h'⟩
    refine ⟨min δ δ', min r r', lt_min hδ hδ', lt_min hr hr', ?_⟩
    rintro p (hp | hp) q hq a ha
    · exact h p hp q (hq.trans (min_le_left _ _)) a (ha.trans (min_le_left _ _))
    · exact h' p hp q (hq.trans (min_le_right _ _)) a (ha.trans (min_le_right _ _))
  · intro x hx
    obtain ⟨ε, hε, hb⟩ := Metric.mem_nhds_iff.1 (h x hx)
    refine ⟨Metric.ball x (ε / 2), mem_nhdsWithin_of_mem_nhds (Metric.ball_mem_nhds x (by linarith)), ε / 4, ε / 2, by linarith,
      by linarith, fun p hp q hq a ha => hb ?_⟩
    have := dist_triangle q p x
    rw [dist_eq_norm q p] at this
    have hp' : dist p x < ε / 2 := hp
    rw [Metric.mem_ball, Prod.dist_eq, max_lt_iff, Real.dist_eq, sub_zero]
    constructor <;> linarith

/-- Runs with a-posteriori limiting, the fixed step or the CFL number being `κ`. -/
def LimitedFollow (c : EulerConfig ℝ np) (o : LimiterOpts ℝ) (T : ℝ) (y : ℝ → Ix → State ℝ np) (m : Integrator) (p : ℕ) : Prop :=
  FollowedBy (fun κ f => ∃ fixed, IsSolverRHS ((c.stepping fixed κ).limited (some o)).scheme f) T y m p

theorem LimitedLines.posDt (h : LimitedLines c o) (κ : ℝ) (hκ : 0 < κ) (f : RHS ℝ (Ix → State ℝ np))
    (hf : ∃ fixed, IsSolverRHS ((c.stepping fixed κ).limited (some o)).scheme f) : PosDt f := by
  obtain ⟨W, hW, hrhs⟩ := h.smooth.stepping_rhs
  choose D hD hDc hfD using hrhs
  obtain ⟨fixed, hf⟩ := hf
  intro s t u dt k e
  rw [(h.stepping_rhs hfD fixed hκ f hf s t u).1 dt k e]
  exact mul_pos hκ (hD fixed u).1

/-- Right-hand sides that return the slopes without limiting where nothing is reported. -/
theorem SemiDiscrete.quiet_runs (h : LimitedLines c o) {T T' : ℝ} (hT : 0 < T) (hT' : T < T') {y : ℝ → Ix → State ℝ np}
    (hy : SemiDiscrete c T' y) {Z : Fin 3 → Prop} (hs : ∀ t ∈ Icc 0 T', Slack c o.toDetectOpts Z (y t)) (m : Integrator) {p : ℕ}
    (hp : 1 ≤ p) (hstep : ∃ A η, 0 ≤ A ∧ 0 < η ∧ ∀ t h, 0 ≤ t → 0 ≤ h → h ≤ η → t + h ≤ T' →
      ‖advanceBy (cellSlopes c (y 0)) m h (inCells c.n (y t)) - inCells c.n (y (t + h))‖ ≤ A * h ^ (p + 1))
    {W : ℝ} (hW : 1 ≤ W) {D : Bool → (Ix → State ℝ np) → ℝ} (hD : ∀ fixed u, 0 < D fixed u ∧ D fixed u ≤ W)
    (hDc : ∀ fixed u, Sturdy c u → ContinuousAt (D fixed) u) (F : ℝ → RHS ℝ (Ix → State ℝ np) → Prop)
    (hpos : ∀ κ, 0 < κ → ∀ f, F κ f → PosDt f) (hF : ∀ κ, 0 < κ → ∀ f, F κ f → ∃ fixed, ∀ s t u,
      (∀ i, InCells c.n i → ¬Reported o.toDetectOpts c.dims c.n (seenAt c u)
        (seenAt c (u + (κ * D fixed u) • FVHOE.slopes c u)) i) → f s t u = .ok (κ * D fixed u, FVHOE.slopes c u)) :
    FollowedBy F T y m p := by
  obtain ⟨A, η₀, hA, hη₀, hstep⟩ := hstep
  have hW0 : 0 < W := by linarith
  have h0 : (0 : ℝ) ∈ Icc 0 T' := ⟨le_rfl, by linarith⟩
  have hcx : ContinuousOn (fun s => inCells c.n (y s)) (Icc 0 T') := fun t ht => (hy.cells h.smooth t ht).1.continuousWithinAt
  obtain ⟨ρ, η, hρ, hη, hq⟩ := exists_uniform (isCompact_Icc.image_of_continuousOn hcx)
    (Q := fun z => glue c.n (y 0) z.1 ∈ stillSpace c.n Z → ∀ i, InCells c.n i → ¬Reported o.toDetectOpts c.dims c.n
      (seenAt c (glue c.n (y 0) z.1)) (seenAt c (glue c.n (y 0) z.1 + z.2 • FVHOE.slopes c (glue c.n (y 0) z.1))) i) (by
      rintro _ ⟨t, ht, rfl⟩
      have hg := glue_inCells c.n (y 0) (y t) fun i hi => hy.outside h.smooth t ht i hi
      have hc : ContinuousAt (fun z : (Cell c.n → State ℝ np) × ℝ => (glue c.n (y 0) z.1, z.2)) (inCells c.n (y t), 0) :=
        ((continuous_glue c.n (y 0)).comp continuous_fst).continuousAt.prodMk continuousAt_snd
      refine hc.eventually (h.smooth.quiet_near o.toDetectOpts (Z := Z) ?_ ?_)
      · rw [hg]; exact hy.sturdy t ht
      · rw [hg]; exact hs t ht)
  refine hy.followed h.smooth hT' m hp hA hη₀ hstep hW hD hDc (stillSpace c.n Z)
    (h.smooth.still_slopes fun d hd => ((hs 0 h0).still d hd).1) (fun t ht d hd i hi => ((hs t ht).still d hd).2 i hi) _
    hpos hρ (show 0 < η / W by positivity) ?_
  intro κ hκ hle f hf
  obtain ⟨fixed, hf⟩ := hF κ hκ f hf
  refine ⟨fixed, fun r hr u huS hu hnear s t => hf s t u ?_⟩
  obtain ⟨d1, d2⟩ := hD fixed u
  rw [le_div_iff₀ hW0] at hle
  have hm := mul_le_mul_of_nonneg_left d2 hκ.le
  have := hq _ (mem_image_of_mem _ hr) (inCells c.n u) hnear (κ * D fixed u) (by
    rw [abs_of_pos (by positivity)]
    linarith)
  beta_reduce at this
  dsimp only at this
  rw [glue_inCells c.n (y 0) u hu] at this
  exact this huS

theorem SemiDiscrete.limited_runs (h : LimitedLines c o) {T T' : ℝ} (hT : 0 < T) (hT' : T < T') {y : ℝ → Ix → State ℝ np}
    (hy : SemiDiscrete c T' y) {Z : Fin 3 → Prop} (hs : ∀ t ∈ Icc 0 T', Slack c o.toDetectOpts Z (y t)) (m : Integrator) {p : ℕ}
    (hp : 1 ≤ p) (hstep : ∃ A η, 0 ≤ A ∧ 0 < η ∧ ∀ t h, 0 ≤ t → 0 ≤ h → h ≤ η → t + h ≤ T' →
      ‖advanceBy (cellSlopes c (y 0)) m h (inCells c.n (y t)) - inCells c.n (y (t + h))‖ ≤ A * h ^ (p + 1)) :
    LimitedFollow c o T y m p := by
  obtain ⟨W, hW, hrhs⟩ := h.smooth.stepping_rhs
  choose D hD hDc hfD using hrhs
  refine hy.quiet_runs h hT hT' hs m hp hstep hW hD hDc _ h.posDt ?_
  rintro κ hκ f ⟨fixed, hf⟩
  exact ⟨fixed, fun s t u => (h.stepping_rhs hfD fixed hκ f hf s t u).2⟩

/-- C119 (convergence). Along a solution of the semi-discrete equations of the scheme without limiting that has slack, runs with
limiting follow it up to a constant times `κ`, with every integrator. -/
theorem C119_converges (h : LimitedLines c o) {T T' : ℝ} (hT : 0 < T) (hT' : T < T') {y : ℝ → Ix → State ℝ np}
    (hy : SemiDiscrete c T' y) {Z : Fin 3 → Prop} (hs : ∀ t ∈ Icc 0 T', Slack c o.toDetectOpts Z (y t)) (m : Integrator) :
    LimitedFollow c o T y m 1 := hy.limited_runs h hT hT' hs m le_rfl (hy.first_step h.smooth m)

/-- C119 (order). They do so with the order of the integrator where the numerical flux is smooth. -/
theorem C119_order (h : LimitedLines c o) {T T' : ℝ} (hT : 0 < T) (hT' : T < T') {y : ℝ → Ix → State ℝ np}
    (hy : SemiDiscrete c T' y) {Z : Fin 3 → Prop} (hs : ∀ t ∈ Icc 0 T', Slack c o.toDetectOpts Z (y t)) (m : Integrator)
    (hf : ∀ t ∈ Icc 0 T', AtFaces (fun d wl wr => ContDiffAt ℝ (max 2 m.order : ℕ)
      (fun z : State ℝ np × State ℝ np => riemann c.riem c.gas d z.1 z.2) (wl, wr)) c (y t)) : LimitedFollow c o T y m m.order :=
  hy.limited_runs h hT hT' hs m (by cases m <;> simp [Integrator.order]) (hy.order_step h.smooth (hT.trans hT') m hf)

/-- C119 (exact runs). With `exact` the limited run returns exactly at `T`. -/
theorem C119_exact (h : LimitedLines c o) {T T' : ℝ} (hT : 0 < T) (hT' : T < T') {y : ℝ → Ix → State ℝ np}
    (hy : SemiDiscrete c T' y) {Z : Fin 3 → Prop} (hs : ∀ t ∈ Icc 0 T', Slack c o.toDetectOpts Z (y t)) (m : Integrator) :
    ∃ C κ₀, 0 < κ₀ ∧ ∀ κ, 0 < κ → κ ≤ κ₀ → ∀ fixed f, IsSolverRHS ((c.stepping fixed κ).limited (some o)).scheme f →
      ∀ {Sn : Type} (mk : ODEState ℝ (Ix → State ℝ np) Sn → Sn) (n : Option ℕ) (downbeats : List ℝ) (logEvery : Bool),
      (∀ d ∈ downbeats, 0 ≤ d) → ∃ N, ∀ fuel, N ≤ fuel → ∃ st',
        (ODEState.init (y 0)).integrate (stepper f m) mk fuel ⟨some T, n, true, downbeats, logEvery, none⟩ = some (st', none) ∧
        st'.t = T ∧ ∀ i v, |st'.u i v - y T i v| ≤ C * κ := by
  obtain ⟨C, κ₀, hκ₀, hall⟩ := FollowedBy.exact_runs h.posDt hT (C119_converges h hT hT' hy hs m)
  refine ⟨C, κ₀, hκ₀, fun κ hκ hle fixed f hf Sn mk n db le hdb => ?_⟩
  obtain ⟨N, hN⟩ := hall κ hκ hle f ⟨fixed, hf⟩ mk n db le hdb
  refine ⟨N, fun fuel hfu => ?_⟩
  obtain ⟨st', h1, h2, h3⟩ := hN fuel hfu
  exact ⟨st', h1, h2, by simpa only [pow_one] using h3⟩

/-- C119 (same runs). Once the step is small, limiting changes nothing at all: the two runs return the same state with the same
snapshots. -/
theorem C119_same (h : LimitedLines c o) {T T' : ℝ} (hT : 0 < T) (hT' : T < T') {y : ℝ → Ix → State ℝ np}
    (hy : SemiDiscrete c T' y) {Z : Fin 3 → Prop} (hs : ∀ t ∈ Icc 0 T', Slack c o.toDetectOpts Z (y t)) (m : Integrator) :
    ∃ κ₀, 0 < κ₀ ∧ ∀ κ, 0 < κ → κ ≤ κ₀ → ∀ fixed f g, IsSolverRHS (c.stepping fixed κ).scheme f →
      IsSolverRHS ((c.stepping fixed κ).limited (some o)).scheme g →
      ∀ {Sn : Type} (mk : ODEState ℝ (Ix → State ℝ np) Sn → Sn) (n : Option ℕ) (downbeats : List ℝ) (logEvery : Bool),
      (∀ d ∈ downbeats, 0 ≤ d) → ∃ N, ∀ fuel, N ≤ fuel → ∃ st',
        (ODEState.init (y 0)).integrate (stepper f m) mk fuel ⟨some T, n, true, downbeats, logEvery, none⟩ = some (st', none) ∧
        (ODEState.init (y 0)).integrate (stepper g m) mk fuel ⟨some T, n, true, downbeats, logEvery, none⟩ = some (st', none) := by
  obtain ⟨W, hW, hrhs⟩ := h.smooth.stepping_rhs
  choose D hD hDc hfD using hrhs
  have hpos : ∀ κ, 0 < κ → ∀ f', (∃ fixed f g, IsSolverRHS (c.stepping fixed κ).scheme f ∧
      IsSolverRHS ((c.stepping fixed κ).limited (some o)).scheme g ∧ f' = onlyOn (fun u => ∀ s t, g s t u = f s t u) f) → PosDt f' := by
    rintro κ hκ _ ⟨fixed, f, g, hf, -, rfl⟩ s t u dt k e
    have := onlyOn_sub _ f s t u _ e
    rw [hfD fixed κ hκ f hf] at this
    cases this
    exact mul_pos hκ (hD fixed u).1
  have key := hy.quiet_runs h hT hT' hs m le_rfl (hy.first_step h.smooth m) hW hD hDc (fun κ f' => ∃ fixed f g,
    IsSolverRHS (c.stepping fixed κ).scheme f ∧ IsSolverRHS ((c.stepping fixed κ).limited (some o)).scheme g ∧
      f' = onlyOn (fun u => ∀ s t, g s t u = f s t u) f) hpos (by
    rintro κ hκ _ ⟨fixed, f, g, hf, hg, rfl⟩
    refine ⟨fixed, fun s t u hu => ?_⟩
    rw [onlyOn_eq _ _ _ _ _ fun s t => by
      rw [(h.stepping_rhs hfD fixed hκ g hg s t u).2 hu, hfD fixed κ hκ f hf], hfD fixed κ hκ f hf])
  obtain ⟨C, κ₀, hκ₀, hall⟩ := FollowedBy.exact_runs hpos hT key
  refine ⟨κ₀, hκ₀, fun κ hκ hle fixed f g hf hg Sn mk n db le hdb => ?_⟩
  obtain ⟨N, hN⟩ := hall κ hκ hle _ ⟨fixed, f, g, hf, hg, rfl⟩ mk n db le hdb
  refine ⟨N, fun fuel hfu => ?_⟩
  obtain ⟨st', h1, -⟩ := hN fuel hfu
  refine ⟨st', integrate_refine _ _ (onlyOn_sub _ f) m _ fuel _ _ _ h1, integrate_refine _ _ (fun s t u r hr => ?_) m _ fuel _ _ _ h1⟩
  by_cases hu : ∀ s t, g s t u = f s t u
  · rw [hu, ← onlyOn_eq (fun u => ∀ s t, g s t u = f s t u) f s t u hu]
    exact hr
  · unfold onlyOn at hr
    rw [if_neg hu] at hr
    cases hr

/-- In the default form of the detector (NAD of positive tolerance relative to the range over the grid, at most the bound on the
pressure) there is slack if every considered variable varies over the grid, apart from velocities across the grid that vanish, and
the pressure is positive. -/
theorem C119_default (hn : ∀ d, 1 ≤ c.n d) (ho : GlobalTest o) (he : 0 < o.eps) {u : Ix → State ℝ np} {Z : Fin 3 → Prop}
    (hc : OnBox (fun d => c.n d) (fun d => detPad c.dims d + ceilHalf (c.p d)) (fun v => 0 < v .rho)
      (latCenters ℝ c.p (padded c.scheme (clip c.n u))))
    (hZ : ∀ d, Z d → c.scheme.active d = false ∧ ∀ i, InCells c.n i → u i (.mom d) = 0)
    (hv : ∀ v, o.considers v = true → (∀ d, Z d → v ≠ .mom d) → ∃ j k, InPadded c.dims c.n j ∧ InPadded c.dims c.n k ∧
      seenAt c u j v ≠ seenAt c u k v)
    (hP : ∀ i, InCells c.n i → 0 < seenAt c u i .en) : Slack c o.toDetectOpts Z u := by
  refine ⟨hc, hZ, fun i hi v hcv hz => ?_, fun i hi e hlast => ?_⟩
  · obtain ⟨j, k, hj, hk, hne⟩ := hv v hcv hz
    have hi' : Nbr c.dims i i := fun d => by split_ifs <;> simp
    have a1 := (nLo_least c.dims (seenAt c u) i v).2 ⟨i, hi', rfl⟩
    have a2 := (nHi_greatest c.dims (seenAt c u) i v).2 ⟨i, hi', rfl⟩
    have l1 := (gLo_least c.dims c.n hn (seenAt c u) v).2
    have l2 := (gHi_greatest c.dims c.n hn (seenAt c u) v).2
    have j1 := l1 ⟨j, hj, rfl⟩
    have j2 := l2 ⟨j, hj, rfl⟩
    have k1 := l1 ⟨k, hk, rfl⟩
    have k2 := l2 ⟨k, hk, rfl⟩
    beta_reduce at a1 a2 j1 j2 k1 k2
    have hr : 0 < gHi c.dims c.n (seenAt c u) v - gLo c.dims c.n (seenAt c u) v := by
      rcases lt_or_gt_of_ne hne with hlt | hlt <;> linarith
    have := mul_pos he hr
    unfold tolLo tolHi
    rw [if_pos ho.range, if_pos ho.range, if_pos ho.mode]
    constructor <;> linarith
  · rcases ho.pad with e' | e'
    · rw [e'] at hlast
      cases hlast
    · rw [e'] at hlast
      cases hlast
      refine ⟨fun l hl => ?_, fun b hb => ?_⟩
      · cases hl
        exact hP i hi
      · cases hb

/-- C119 (existence). Data with slack start a solution of the semi-discrete equations that has slack for a while. -/
theorem C119_exists (h : SmoothSetup c) {u₀ : Ix → State ℝ np} (hu : Sturdy c u₀) {Z : Fin 3 → Prop}
    (hs : Slack c o.toDetectOpts Z u₀) :
    ∃ T, 0 < T ∧ ∃ y, y 0 = u₀ ∧ SemiDiscrete c T y ∧ ∀ t ∈ Icc 0 T, Slack c o.toDetectOpts Z (y t) := by
  obtain ⟨T, hT, y, y0, hy⟩ := C117_exists c h u₀ hu
  have h0 : (0 : ℝ) ∈ Icc 0 T := left_mem_Icc.2 hT.le
  have e : ∀ t ∈ Icc 0 T, glue c.n (y 0) (inCells c.n (y t)) = y t := fun t ht =>
    glue_inCells c.n (y 0) (y t) fun i hi => hy.outside h t ht i hi
  obtain ⟨T₁, hT₁, hle, hstill⟩ := h.still_solution (Z := Z) (fun d hd => (hs.still d hd).1) (u₀ := y 0)
    (x := fun t => inCells c.n (y t)) hT (fun t ht => (hy.cells h t ht).1) (hy.cells h 0 h0).2 (by
      rw [e 0 h0, y0]
      exact fun d hd i hi => (hs.still d hd).2 i hi)
  have hcont : ContinuousWithinAt y (Icc 0 T) 0 := continuousWithinAt_pi.2 fun i => continuousWithinAt_pi.2 fun v =>
    (hy.slopes h 0 h0 i v).continuousWithinAt
  have hn : ∀ᶠ u in 𝓝 (y 0), u ∈ stillSpace c.n Z → Slack c o.toDetectOpts Z u := y0 ▸ Slack.near h.degree hs
  obtain ⟨ε, hε, hb⟩ := Metric.mem_nhdsWithin_iff.1 (hcont.eventually hn)
  have hsub : Icc 0 (min T₁ (ε / 2)) ⊆ Icc 0 T := Icc_subset_Icc le_rfl ((min_le_left _ _).trans hle)
  refine ⟨min T₁ (ε / 2), lt_min hT₁ (by linarith), y, y0, ⟨fun t ht => hy.sturdy t (hsub ht), fun t ht f hf s s' => ?_⟩, fun t ht => ?_⟩
  · obtain ⟨dt, k, e1, e2⟩ := hy.solves t (hsub ht) f hf s s'
    exact ⟨dt, k, e1, fun i v => (e2 i v).mono hsub⟩
  · have hin : t ∈ Metric.ball 0 ε ∩ Icc 0 T := by
      refine ⟨?_, hsub ht⟩
      rw [Metric.mem_ball, Real.dist_eq, sub_zero, abs_of_nonneg ht.1]
      have := ht.2.trans (min_le_right _ _)
      linarith
    refine hb hin ?_
    have := hstill t ⟨ht.1, ht.2.trans (min_le_left _ _)⟩
    rwa [e t (hsub ht)] at this

/-- A periodic tube of 20 cells at degree zero. -/
noncomputable def coarseTube : EulerConfig ℝ 0 := { cubicTube with p := fun _ => 0 }

theorem coarseTube_smooth : SmoothSetup coarseTube where
  limiting := rfl
  step := .inl ⟨1, rfl, one_pos⟩
  degree := by decide
  cells := by decide
  spacing := cubicTube_smooth.spacing
  gas := cubicTube_smooth.gas
  riem := by decide
  sides := by
    have e : ∀ d, fluxWidth coarseTube.scheme coarseTube.p d ≤ coarseTube.scheme.n d := by decide
    exact fun d _ => ⟨fun s => .inr ⟨.inr (.inr rfl), e d⟩, fun _ => rfl⟩
  extended := by decide

theorem coarseTube_limited {o : LimiterOpts ℝ} (ho : GlobalTest o) : LimitedLines coarseTube o where
  smooth := coarseTube_smooth
  fallback := by
    have e : ∀ d, fluxWidth coarseTube.scheme (fallbackP coarseTube.p) d ≤ coarseTube.scheme.n d := by decide
    exact fun d _ => ⟨fun s => .inr ⟨.inr (.inr rfl), e d⟩, fun _ => rfl⟩
  detect := by
    have e : ∀ d, detectWidth coarseTube.scheme d ≤ coarseTube.scheme.n d := by decide
    exact fun d _ => ⟨fun s => .inr ⟨.inr (.inr rfl), e d⟩, fun _ => rfl⟩
  free := ho.free
  known := ho.known

/-- Air at rest, denser, moving and of higher pressure in one cell. -/
noncomputable def bumpAir (a : ℝ) : State ℝ 0
  | .rho => 1 + a
  | .mom d => if d = 0 then a else 0
  | .en => 1 + a
  | .ps j => j.elim0

theorem bumpAir_slack {o : LimiterOpts ℝ} (ho : GlobalTest o) (he : 0 < o.eps) {a : ℝ} (h0 : 0 < a) (h1 : a < 1)
    (u : Ix → State ℝ 0) (hu : ∀ i, InCells coarseTube.n i → u i = if i = 0 then bumpAir a else stillAir) :
    Slack coarseTube o.toDetectOpts (fun d => d ≠ 0) u := by
  have hn := coarseTube_smooth.cells
  have hpad : ∀ i, padded coarseTube.scheme (clip coarseTube.n u) i = clip coarseTube.n u fun d => i d % coarseTube.n d := by
    intro i
    have hg : ∀ s, coarseTube.scheme.ghost s = fun _ => .wrap := by
      intro s
      funext d
      unfold Scheme.ghost
      split_ifs <;> rfl
    have := congrFun (extAll_wrap coarseTube.n hn (clip coarseTube.n u)) i
    rw [← this]
    unfold padded
    rw [hg, hg]
    rfl
  have hcell : ∀ i : Ix, InCells coarseTube.n fun d => i d % coarseTube.n d := fun i d => by
    have h1 : (0 : ℤ) < coarseTube.n d := by exact_mod_cast hn d
    exact ⟨Int.emod_nonneg _ h1.ne', Int.emod_lt_of_pos _ h1⟩
  have hval : ∀ i, padded coarseTube.scheme (clip coarseTube.n u) i = bumpAir a ∨ padded coarseTube.scheme (clip coarseTube.n u) i = stillAir := by
    intro i
    rw [hpad i, show clip coarseTube.n u (fun d => i d % coarseTube.n d) = u (fun d => i d % coarseTube.n d) from if_pos (hcell i),
      hu _ (hcell i)]
    split_ifs <;> simp
  have hin : ∀ i, InCells coarseTube.n i → padded coarseTube.scheme (clip coarseTube.n u) i = if i = 0 then bumpAir a else stillAir := by
    intro i hi
    have e : (fun d => i d % coarseTube.n d : Ix) = i := funext fun d => Int.emod_eq_of_lt (hi d).1 (hi d).2
    rw [hpad i, e, show clip coarseTube.n u i = u i from if_pos hi, hu i hi]
  have hseen : ∀ i, seenAt coarseTube u i = activePart (computePrimitives coarseTube.gas.gamma (padded coarseTube.scheme (clip coarseTube.n u) i)) := by
    intro i
    unfold seenAt seenPrim latPrim latCenters
    simp only [coarseTube, latC_low (Nat.zero_le 1), latT_low (Nat.zero_le 1)]
    rfl
  have c0 : InCells coarseTube.n 0 := by decide
  have c1 : InCells coarseTube.n (Pi.single 0 1) := by decide
  have hP : ∀ i, 0 < seenAt coarseTube u i .en := by
    intro i
    rw [hseen i]
    have : a ^ 2 / (1 + a) ^ 2 < 1 := by
      rw [div_lt_one (by positivity)]
      nlinarith
    rcases hval i with e | e <;> rw [e]
    · simp only [activePart, computePrimitives, bumpAir, sum3, coarseTube, cubicTube, airGas, show (2 : Fin 3) ≠ 0 by decide]
      norm_num
      field_simp
      nlinarith
    · simp only [activePart, computePrimitives, stillAir, sum3, coarseTube, cubicTube, airGas]
      norm_num
  refine C119_default hn ho he (fun i hi => ?_) (fun d hd => ⟨?_, fun i hi => ?_⟩) (fun v _ hz => ?_) fun i _ => hP i
  · simp only [latCenters, coarseTube, latC_low (Nat.zero_le 1)]
    rcases hval i with e | e
    · have : padded coarseTube.scheme (clip coarseTube.n u) i .rho = 1 + a := by rw [e]; rfl
      change 0 < padded coarseTube.scheme (clip coarseTube.n u) i .rho
      linarith
    · have : padded coarseTube.scheme (clip coarseTube.n u) i .rho = 1 := by rw [e]; rfl
      change 0 < padded coarseTube.scheme (clip coarseTube.n u) i .rho
      linarith
  · revert hd
    match d with
    | 0 => exact fun h => absurd rfl h
    | 1 => exact fun _ => by decide
    | 2 => exact fun _ => by decide
  · rw [hu i hi]
    split_ifs
    · simp only [bumpAir]
      exact if_neg hd
    · rfl
  · have ib : ∀ i, InCells coarseTube.n i → InPadded coarseTube.dims coarseTube.n i := fun i hi d => by
      have := hi d
      constructor <;> omega
    refine ⟨0, Pi.single 0 1, ib _ c0, ib _ c1, ?_⟩
    rw [hseen, hseen, hin 0 c0, hin _ c1, if_pos rfl, if_neg (by decide)]
    cases v with
    | rho =>
      simp only [activePart, computePrimitives, bumpAir, stillAir]
      linarith
    | mom d =>
      have hd : d = 0 := by
        by_contra hd
        exact hz d hd rfl
      subst hd
      simp only [activePart, computePrimitives, bumpAir, stillAir, if_true]
      rw [zero_div]
      exact (div_pos h0 (by linarith)).ne'
    | en =>
      simp only [activePart, computePrimitives, bumpAir, stillAir, sum3, coarseTube, cubicTube, airGas, show (2 : Fin 3) ≠ 0 by decide]
      norm_num
      field_simp
      nlinarith
    | ps j => exact j.elim0

/-- A degree zero tube of air, not uniform, run with the detector of the code: limited runs follow the semi-discrete solution. -/
example {o : LimiterOpts ℝ} (ho : GlobalTest o) (he : 0 < o.eps) (m : Integrator) :
    ∃ u₀ : Ix → State ℝ 0, (∃ i j, InCells coarseTube.n i ∧ InCells coarseTube.n j ∧ u₀ i .rho ≠ u₀ j .rho) ∧
    ∃ T, 0 < T ∧ ∃ y, y 0 = u₀ ∧ SemiDiscrete coarseTube (2 * T) y ∧ LimitedFollow coarseTube o T y m 1 := by
  have h0 : InCells coarseTube.n 0 := by decide
  have h1 : InCells coarseTube.n (Pi.single 0 1) := by decide
  have hg : glue coarseTube.n (fun _ => stillAir) (inCells coarseTube.n fun _ => stillAir) = fun _ => stillAir :=
    glue_inCells _ _ _ fun _ _ => rfl
  have hu : Sturdy coarseTube (glue coarseTube.n (fun _ => stillAir) (inCells coarseTube.n fun _ => stillAir)) := by
    rw [hg]
    exact sturdy_uniform (by decide) (fun _ _ => .inr (.inr rfl)) stillAir ⟨by norm_num [stillAir], by
      norm_num [stillAir, pressureOf, coarseTube, cubicTube, airGas]⟩
  obtain ⟨ε, hε, hb⟩ := Metric.mem_nhds_iff.1 (coarseTube_smooth.sturdy_near hu)
  obtain ⟨a, ha, ha1, haε⟩ : ∃ a : ℝ, 0 < a ∧ a < 1 ∧ a < ε :=
    ⟨min 1 ε / 2, by positivity, by have := min_le_left 1 ε; linarith, by have := min_le_right 1 ε; linarith⟩
  set x : Cell coarseTube.n → State ℝ 0 := Function.update (inCells coarseTube.n fun _ => stillAir) ⟨0, h0⟩ (bumpAir a) with hx
  have hin : x ∈ Metric.ball (inCells coarseTube.n fun _ => stillAir) ε := by
    rw [Metric.mem_ball, dist_pi_lt_iff hε]
    intro i
    rw [dist_pi_lt_iff hε]
    intro v
    by_cases hi : i = ⟨0, h0⟩
    · subst hi
      simp only [hx, Function.update_self, inCells]
      rw [Real.dist_eq]
      have hab : |a| < ε := by rwa [abs_of_pos ha]
      cases v with
      | rho => simpa [bumpAir, stillAir] using hab
      | mom d =>
        by_cases hd : d = 0
        · simpa [bumpAir, stillAir, hd] using hab
        · simpa [bumpAir, stillAir, hd] using hε
      | en => simpa [bumpAir, stillAir] using hab
      | ps j => exact j.elim0
    · rw [hx, Function.update_of_ne hi, dist_self]
      exact hε
  have hval : ∀ i, InCells coarseTube.n i → glue coarseTube.n (fun _ => stillAir) x i = if i = 0 then bumpAir a else stillAir := by
    intro i hi
    have e : glue coarseTube.n (fun _ => stillAir) x i = x ⟨i, hi⟩ := dif_pos hi
    rw [e, hx]
    split_ifs with hz
    · subst hz
      exact Function.update_self ..
    · rw [Function.update_of_ne (by simpa using hz)]
      rfl
  refine ⟨glue coarseTube.n (fun _ => stillAir) x, ⟨0, Pi.single 0 1, h0, h1, ?_⟩, ?_⟩
  · rw [hval _ h0, hval _ h1, if_pos rfl, if_neg (by decide)]
    simp only [bumpAir, stillAir]
    linarith
  · obtain ⟨T, hT, y, y0, hy, hs⟩ := C119_exists coarseTube_smooth (hb hin) (bumpAir_slack ho he ha ha1 _ hval)
    exact ⟨T / 2, by linarith, y, y0, by rwa [mul_div_cancel₀ T two_ne_zero],
      C119_converges (coarseTube_limited ho) (by linarith) (by linarith) hy hs m⟩

/-- The default options of the solver are of this kind. -/
example : GlobalTest defaultLimiter ∧ 0 < defaultLimiter.eps := ⟨defaultLimiter_global, by norm_num [defaultLimiter]⟩

end FVHOE
