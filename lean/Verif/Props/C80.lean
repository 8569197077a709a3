import Verif.Props.C78
import Verif.Props.C79

/-!
C80: what a limited step guarantees about its result. The detector examines the candidate only; the revised cells are
not examined again, and next to a troubled cell one flux of each kind is combined.
-/

set_option linter.unusedSectionVars false

namespace FVHOE

variable {K : Type} [Field K] [LinearOrder K] [IsStrictOrderedRing K] {np : ℕ}

/-! ## The cells that are safe -/

/-- **C80, the part that holds** A step of the limited solver in a uniform flow with densities between `lo > 0` and `up`
(degrees at most 1, no smooth-extremum relaxation, a step short enough for the fallback scheme): a troubled cell ends
with a density between `lo` and `up`, and a cell whose neighbours are not troubled either ends between them up to the
tolerance. Missing: the cells that are not troubled, but have a troubled neighbour (false, see `C80_violated`). -/
theorem C80_partial (c : EulerConfig K np) (o : LimiterOpts K) (s : SlopeKind)
    (h : FallbackSetup c { o with force := true, convex := false } s) (hf : o.force = false) (hsed : o.sed = false)
    (hrel : o.rangeType = "relative") (heps : 0 ≤ o.eps) (hrho : Considered o.toDetectOpts .rho)
    (hp : ∀ d, c.p d ≤ 1) (v : Fin 3 → K) (P : K) (x : Fin np → K) (lo up : K) (hlo : 0 < lo) (u : Ix → State K np)
    (hu : ∀ i, ∃ r, lo ≤ r ∧ r ≤ up ∧ u i = conserved c.gas.gamma (flowing v P x r))
    (junk : ℕ → Ix → State K np) (mem : Fin 3 → Ix → State K np) (t t' : K) (dt : K) (k : Ix → State K np)
    (hr : solverRHS (c.limited (some o)).scheme junk mem t t' u = .ok (dt, k)) (h0 : 0 ≤ dt)
    (hdt : dt * (∑ d, if c.scheme.active d = true then |v d| / c.h d else 0) ≤ crossingLimit s) (i : Ix)
    (hi : InCells c.n i) :
    let T := TroubledCell c o (c.scheme.ghost .l) (c.scheme.ghost .r) (c.scheme.ghost .l) (c.scheme.ghost .r) dt u
    (T i → ∃ r, lo ≤ r ∧ r ≤ up ∧ (u + dt • k) i = conserved c.gas.gamma (flowing v P x r)) ∧
    (Clear o.convex T i → lo - o.eps * (up - lo) ≤ (u + dt • k) i .rho ∧
      (u + dt • k) i .rho ≤ up + o.eps * (up - lo)) := by
  intro T
  have hs := h.sides.sides h.cells (fluxWidth_inactive c.scheme) t
  have hs' := h.sidesLow.sides h.cells (fallbackWidth_inactive c.scheme) t
  have hsd := h.sidesDetect.sides h.cells (detectWidth_inactive c.scheme) t
  have hext := extAll_keeps c.n (c.scheme.ghost .l) (c.scheme.ghost .r)
    (fun w => ∃ r, lo ≤ r ∧ r ≤ up ∧ w = conserved c.gas.gamma (flowing v P x r))
    (fun d => c.scheme.ghost_keeps _ .l (fun d hd hr => absurd hr (h.noWall d .l hd)) d)
    (fun d => c.scheme.ghost_keeps _ .r (fun d hd hr => absurd hr (h.noWall d .r hd)) d) u hu
  constructor
  · intro hT
    obtain ⟨kh, kf, -, e2, e3⟩ := C78_local c o h.known hf h.dims h.degree h.cells t _ _ _ _ _ _ hs hs' hsd junk mem t' u
      dt k hr
    have := C79_step c _ s h v P x lo up hlo u (fun i _ => hu i) junk mem t t' dt kf e2 dt h0 hdt i hi
    rwa [Pi.add_apply, Pi.smul_apply, (e3 i hi).2 hT]
  · intro hcl
    obtain ⟨a1, -⟩ := C78_accepted c o h.known hf hsed hrel h.dims hp h.cells t _ _ _ _ _ _ hs hs' hsd junk mem t' u dt k
      hr i hi hcl
    obtain ⟨W, hW⟩ : ∃ W : Ix → State K 0, W = fun j => activePart (computePrimitives c.gas.gamma
      (extAll c.n (c.scheme.ghost .l) (c.scheme.ghost .r) u j)) := ⟨_, rfl⟩
    have hWr : ∀ j, lo ≤ W j .rho ∧ W j .rho ≤ up := by
      intro j
      obtain ⟨r, r1, r2, r3⟩ := hext j
      have : W j .rho = r := by
        rw [hW]
        beta_reduce
        rw [r3]
        rfl
      rw [this]
      exact ⟨r1, r2⟩
    rw [← hW] at a1
    have e1 := nLo_least c.dims W i .rho
    have e2 := nHi_greatest c.dims W i .rho
    have e3 := gLo_least c.dims c.n h.cells W .rho
    have e4 := gHi_greatest c.dims c.n h.cells W .rho
    have hnl : lo ≤ nLo c.dims W i .rho := by
      obtain ⟨j, -, e⟩ := e1.1; rw [← e]; exact (hWr j).1
    have hnh : nHi c.dims W i .rho ≤ up := by
      obtain ⟨j, -, e⟩ := e2.1; rw [← e]; exact (hWr j).2
    have hgl : lo ≤ gLo c.dims c.n W .rho := by
      obtain ⟨j, -, e⟩ := e3.1; rw [← e]; exact (hWr j).1
    have hgh : gHi c.dims c.n W .rho ≤ up := by
      obtain ⟨j, -, e⟩ := e4.1; rw [← e]; exact (hWr j).2
    have hbr : BlockRange c.dims W i .rho (nLo c.dims W i .rho) (nHi c.dims W i .rho) := by
      refine ⟨⟨?_, ?_⟩, ?_, ?_⟩
      · obtain ⟨j, hj, e⟩ := e1.1; exact ⟨j, hj, e.symm⟩
      · rintro _ ⟨j, hj, rfl⟩; exact e1.2 ⟨j, hj, rfl⟩
      · obtain ⟨j, hj, e⟩ := e2.1; exact ⟨j, hj, e.symm⟩
      · rintro _ ⟨j, hj, rfl⟩; exact e2.2 ⟨j, hj, rfl⟩
    have har : ArrayRange c.dims c.n W .rho (gLo c.dims c.n W .rho) (gHi c.dims c.n W .rho) := by
      have key : ∀ k : Ix, InPadded c.dims c.n k ↔
          ∀ d, if d ∈ c.dims then -3 ≤ k d ∧ k d < c.n d + 3 else 0 ≤ k d ∧ k d < c.n d := by
        intro k
        unfold InPadded detPad
        refine forall_congr' fun d => ?_
        by_cases hd : d ∈ c.dims
        · simp [hd]
        · simp [hd]
      refine ⟨⟨?_, ?_⟩, ?_, ?_⟩
      · obtain ⟨j, hj, e⟩ := e3.1; exact ⟨j, (key j).1 hj, e.symm⟩
      · rintro _ ⟨j, hj, rfl⟩; exact e3.2 ⟨j, (key j).2 hj, rfl⟩
      · obtain ⟨j, hj, e⟩ := e4.1; exact ⟨j, (key j).1 hj, e.symm⟩
      · rintro _ ⟨j, hj, rfl⟩; exact e4.2 ⟨j, (key j).2 hj, rfl⟩
    obtain ⟨q1, q2⟩ := a1 .rho hrho _ _ _ _ hbr har
    have m1 := mul_le_mul_of_nonneg_left (show nHi c.dims W i .rho - nLo c.dims W i .rho ≤ up - lo by linarith) heps
    have m2 := mul_le_mul_of_nonneg_left (show gHi c.dims c.n W .rho - gLo c.dims c.n W .rho ≤ up - lo by linarith) heps
    rcases h.known.1 with hm | hm
    · obtain ⟨y1, y2⟩ := q2 hm
      constructor
      · refine le_trans ?_ y1; linarith
      · refine le_trans y2 ?_; linarith
    · obtain ⟨y1, y2⟩ := q1 hm
      constructor
      · refine le_trans ?_ y1; linarith
      · refine le_trans y2 ?_; linarith

/-- The hypotheses hold for the ramp of C79 with an unforced limiter, a CFL number of 2/3 and minmod; cell 2 ends between
1 and 3 if it is troubled. -/
example (f : RHS ℝ (Ix → State ℝ 0))
    (hf : IsSolverRHS ((rampTube (2 / 3)).limited (some plainLimiter)).scheme f) (dt : ℝ) (k : Ix → State ℝ 0)
    (h : f 0 0 ramp = .ok (dt, k)) (h0 : 0 ≤ dt) (h9 : dt * 9 ≤ 2 / 3) (i : Ix) (hi : InCells ![8, 1, 1] i)
    (hT : TroubledCell (rampTube (2 / 3)) plainLimiter ((rampTube (2 / 3)).scheme.ghost .l)
      ((rampTube (2 / 3)).scheme.ghost .r) ((rampTube (2 / 3)).scheme.ghost .l) ((rampTube (2 / 3)).scheme.ghost .r) dt
      ramp i) : 1 ≤ (ramp + dt • k) i .rho ∧ (ramp + dt • k) i .rho ≤ 3 := by
  obtain ⟨junk, mem, e⟩ := hf 0 0 ramp
  have hset := rampTube_setup (2 / 3) .minmod
  obtain ⟨r, h1, h2, h3⟩ := (C80_partial (rampTube (2 / 3)) plainLimiter .minmod
    { hset with known := ⟨.inl rfl, .inl rfl⟩, slope := rfl, tiny := by norm_num [plainLimiter], forced := rfl, simple := rfl }
    rfl rfl rfl (by norm_num [plainLimiter]) (fun _ h => by cases h) (fun d => by match d with | 0 | 1 | 2 => simp [rampTube])
    ![9, 0, 0] (5 / 7) ![] 1 3 one_pos ramp (fun i => ⟨_, by split_ifs <;> norm_num, by split_ifs <;> norm_num, rfl⟩)
    junk mem 0 0 dt k (e.symm.trans h) h0 (by
      rw [Fin.sum_univ_three]
      simpa [Scheme.active, EulerConfig.scheme, rampTube, crossingLimit] using h9) i hi).1 hT
  rw [h3]
  exact ⟨h1, h2⟩

/-! ## A step with the default options that ends with a negative density -/

/-- A periodic tube of fourteen cells at degree one, with the default CFL number and Riemann solver. -/
noncomputable def stairTube : EulerConfig ℝ 0 where
  gas := airGas
  riem := .hllc
  n := ![14, 1, 1]
  p := ![1, 0, 0]
  h := ![1, 1, 1]
  cfl := 4 / 5
  fixedDt := none
  bc := ⟨fun _ _ => .periodic, fun _ _ => .other, none⟩
  limiting := none

/-- The default options of `a_posteriori_slope_limiting=True` (solver.py 65-75). -/
noncomputable def defaultLimiter : LimiterOpts ℝ where
  eps := 1 / 100
  mode := "global"
  rangeType := "relative"
  nadVars := none
  pad := defaultPad
  sed := true
  sedEps := 1 / 10 ^ 10
  convex := false
  force := false
  slope := some .minmod
  tiny := 1 / 10 ^ 16

/-- The densities 1/10, …, 1/10, 1, 2, …, 2. -/
noncomputable def stairDensity (a : ℤ) : ℝ := if a ≤ 5 then 1 / 10 else if a = 6 then 1 else 2

theorem stairDensity_bounds (a : ℤ) : 1 / 10 ≤ stairDensity a ∧ stairDensity a ≤ 2 := by
  unfold stairDensity
  split_ifs <;> norm_num

/-- They move at velocity 20 in a gas of pressure 1/14 (sound speed at most 1). -/
noncomputable def stairs (i : Ix) : State ℝ 0 :=
  conserved (7 / 5) (flowing ![20, 0, 0] (1 / 14) ![] (stairDensity (i 0)))

theorem stair_sides (gw : Fin 3 → ℕ) (h : gw 0 ≤ 14) : PlainSides stairTube.scheme gw := by
  intro d hd
  refine ⟨fun s => .inr ⟨.inr (.inr rfl), ?_⟩, fun _ => rfl⟩
  match d with
  | 0 => exact h
  | 1 | 2 => simp [EulerConfig.scheme, stairTube, Scheme.active] at hd

theorem stair_active (d : Fin 3) : stairTube.scheme.active d = true ↔ d = 0 := by
  match d with
  | 0 | 1 | 2 => simp [EulerConfig.scheme, stairTube, Scheme.active]

/-- A cell of the tube. -/
def at_ (a : ℤ) : Ix := ![a, 0, 0]

theorem at_add (a : ℤ) : at_ a + Pi.single 0 1 = at_ (a + 1) := by
  funext d; match d with | 0 | 1 | 2 => simp [at_]

theorem at_sub (a : ℤ) : at_ a - Pi.single 0 1 = at_ (a - 1) := by
  funext d; match d with | 0 | 1 | 2 => simp [at_]

theorem at_cell (a : ℤ) (h0 : 0 ≤ a) (h1 : a < 14) : InCells stairTube.n (at_ a) := by
  intro d
  match d with
  | 0 => exact ⟨h0, h1⟩
  | 1 | 2 => exact ⟨le_rfl, by simp [stairTube, at_]⟩

/-- The density crossing face `a` in the high-order scheme. -/
noncomputable def highCrossing (a : ℤ) : ℝ :=
  stairDensity (a - 1) + 1 / 4 * (stairDensity a - stairDensity (a - 2))

/-- The density of the candidate. -/
noncomputable def candidate (a : ℤ) : ℝ := stairDensity a - 16 / 21 * (highCrossing (a + 1) - highCrossing a)

theorem highFlux_stairs (β : Ix → ℝ) (hb : ∀ a, 0 ≤ a → a < 14 → β (at_ a) = stairDensity a)
    (hpos : ∀ i, 0 < β i) (a : ℤ) (h0 : 2 ≤ a) (h1 : a ≤ 9) :
    schemeFlux stairTube.scheme stairTube.p none
      (fun i => conserved (7 / 5) (flowing ![20, 0, 0] (1 / 14) ![] (β i))) 0 (at_ a) =
      pushed (7 / 5) ![20, 0, 0] (1 / 14) (1 / 14) 0 + highCrossing a • ((20 : ℝ) • carried ![20, 0, 0] ![]) := by
  have hp : ∀ d, stairTube.p d ≤ 1 := fun d => by match d with | 0 | 1 | 2 => simp [stairTube]
  have hW : latPrim ℝ stairTube.scheme.prim stairTube.p
      (fun i => conserved (7 / 5) (flowing ![20, 0, 0] (1 / 14) (![] : Fin 0 → ℝ) (β i))) =
      fun i => flowing ![20, 0, 0] (1 / 14) ![] (β i) := by
    rw [latPrim_low _ hp]
    funext i
    exact prim_flowing _ (by norm_num) _ _ _ _ (hpos i).ne'
  unfold schemeFlux
  rw [hW, latFlux_low _ hp]
  have hR : ∀ i, latFaceR ℝ (stairTube.p 0) 0 none (fun i => flowing ![20, 0, 0] (1 / 14) (![] : Fin 0 → ℝ) (β i)) i =
      flowing ![20, 0, 0] (1 / 14) ![] (β i + 1 / 4 * (β (i + Pi.single 0 1) - β (i - Pi.single 0 1))) := by
    intro i
    show latR ℝ 1 0 _ i = _
    rw [latR_one]
    funext v
    cases v <;> simp [flowing] <;> ring
  have hL : ∀ i, latFaceL ℝ (stairTube.p 0) 0 none (fun i => flowing ![20, 0, 0] (1 / 14) (![] : Fin 0 → ℝ) (β i)) i =
      flowing ![20, 0, 0] (1 / 14) ![] (β i - 1 / 4 * (β (i + Pi.single 0 1) - β (i - Pi.single 0 1))) := by
    intro i
    show latL ℝ 1 0 _ i = _
    rw [latL_one]
    funext v
    cases v <;> simp [flowing] <;> ring
  beta_reduce
  rw [hR, hL, at_sub, at_add, at_add, at_sub, sub_add_cancel, hb _ (by omega) (by omega), hb _ (by omega) (by omega),
    hb _ (by omega) (by omega), hb _ (by omega) (by omega)]
  refine (riemann_contact airGas .hllc (.inl rfl) (fun _ => ⟨airGas_sqrt, by norm_num [airGas]⟩) _ _ _ 0 _ _
    fun _ => ?_).trans ?_
  · have h2 : a = 2 ∨ a = 3 ∨ a = 4 ∨ a = 5 ∨ a = 6 ∨ a = 7 ∨ a = 8 ∨ a = 9 := by omega
    rcases h2 with rfl | rfl | rfl | rfl | rfl | rfl | rfl | rfl <;> norm_num [stairDensity]
  · rw [if_neg (by decide), if_pos (by norm_num)]
    unfold highCrossing
    rw [show a - 1 - 1 = a - 2 by ring]
    rfl

theorem lowCrossing_stairs (β : Ix → ℝ) (hb : ∀ a, 0 ≤ a → a < 14 → β (at_ a) = stairDensity a)
    (hpos : ∀ i, 0 < β i) :
    schemeFlux stairTube.scheme (fallbackP stairTube.p) (defaultLimiter.slope.map (SlopeKind.fn defaultLimiter.tiny))
      (fun i => conserved (7 / 5) (flowing ![20, 0, 0] (1 / 14) ![] (β i))) 0 (at_ 6) =
      pushed (7 / 5) ![20, 0, 0] (1 / 14) (1 / 14) 0 + (1 / 10 : ℝ) • ((20 : ℝ) • carried ![20, 0, 0] ![]) := by
  have hp : ∀ d, fallbackP stairTube.p d ≤ 1 := fun d => by unfold fallbackP; split_ifs <;> omega
  have hW : latPrim ℝ stairTube.scheme.prim (fallbackP stairTube.p)
      (fun i => conserved (7 / 5) (flowing ![20, 0, 0] (1 / 14) (![] : Fin 0 → ℝ) (β i))) =
      fun i => flowing ![20, 0, 0] (1 / 14) ![] (β i) := by
    rw [latPrim_low _ hp]
    funext i
    exact prim_flowing _ (by norm_num) _ _ _ _ (hpos i).ne'
  have hq : fallbackP stairTube.p 0 = 1 := by simp [fallbackP, stairTube]
  unfold schemeFlux
  rw [hW, latFlux_low _ hp, hq, show defaultLimiter.slope = some .minmod from rfl]
  obtain ⟨f1, f2⟩ := face_flowing (np := 0) defaultLimiter.tiny .minmod 1 le_rfl 0 ![20, 0, 0] (1 / 14 : ℝ) ![] β
  simp only [Option.map_some, f1, f2]
  have e5 : at_ 6 - Pi.single 0 1 = at_ 5 := at_sub 6
  have s5 : slopeAt defaultLimiter.tiny .minmod 1 0 β (at_ 5) = 0 := by
    unfold slopeAt
    rw [if_pos rfl, at_sub, at_add, hb _ (by norm_num) (by norm_num), hb _ (by norm_num) (by norm_num),
      hb _ (by norm_num) (by norm_num)]
    norm_num [SlopeKind.one, FVHOE.minmod, defaultLimiter, stairDensity]
  have s6 : slopeAt defaultLimiter.tiny .minmod 1 0 β (at_ 6) = 9 / 10 := by
    unfold slopeAt
    rw [if_pos rfl, at_sub, at_add, hb _ (by norm_num) (by norm_num), hb _ (by norm_num) (by norm_num),
      hb _ (by norm_num) (by norm_num)]
    norm_num [SlopeKind.one, FVHOE.minmod, defaultLimiter, stairDensity]
  rw [e5, s5, s6, hb 5 (by norm_num) (by norm_num), hb 6 (by norm_num) (by norm_num)]
  refine (riemann_contact airGas .hllc (.inl rfl) (fun _ => ⟨airGas_sqrt, by norm_num [airGas]⟩) _ _ _ 0 _ _
    fun _ => ?_).trans ?_
  · norm_num [stairDensity]
  · rw [if_neg (by decide), if_pos (by norm_num)]
    norm_num [stairDensity]
    rfl

/-- The step size is 4/105. -/
theorem stair_dt (β : Ix → ℝ) (hb : ∀ a, 0 ≤ a → a < 14 → β (at_ a) = stairDensity a) (hlo : ∀ i, 1 / 10 ≤ β i)
    (dt : ℝ) (hd : IsDt stairTube.scheme stairTube.p (latPrim ℝ stairTube.scheme.prim stairTube.p
      fun i => conserved (7 / 5) (flowing ![20, 0, 0] (1 / 14) ![] (β i))) dt) : dt = 4 / 105 := by
  have hp : ∀ d, stairTube.p d ≤ 1 := fun d => by match d with | 0 | 1 | 2 => simp [stairTube]
  have hW : latPrim ℝ stairTube.scheme.prim stairTube.p
      (fun i => conserved (7 / 5) (flowing ![20, 0, 0] (1 / 14) (![] : Fin 0 → ℝ) (β i))) =
      fun i => flowing ![20, 0, 0] (1 / 14) ![] (β i) := by
    rw [latPrim_low _ hp]
    funext i
    exact prim_flowing _ (by norm_num) _ _ _ _ (by linarith [hlo i])
  rw [hW] at hd
  unfold IsDt at hd
  rw [show stairTube.scheme.fixedDt = none from rfl] at hd
  obtain ⟨m, ⟨i₀, -, hm⟩, hmax, hd⟩ := hd
  have hn : stairTube.scheme.ndim = 1 := by
    rw [EulerConfig.ndim_eq]
    decide
  have hsp : ∀ r, stairTube.scheme.speed stairTube.scheme.ndim (flowing ![20, 0, 0] (1 / 14) (![] : Fin 0 → ℝ) r) =
      20 + soundSpeed airGas (flowing ![20, 0, 0] (1 / 14) (![] : Fin 0 → ℝ) r) := by
    intro r
    rw [hn]
    show signalSpeed airGas 1 _ = _
    simp [signalSpeed, sum3, flowing]
  have hs := fun r => soundSpeed_spec airGas airGas_sqrt (by norm_num [airGas]) (flowing ![20, 0, 0] (1 / 14) (![] : Fin 0 → ℝ) r)
  have hup : m ≤ 21 := by
    rw [← hm, hsp]
    have h1 : soundSpeed airGas (flowing ![20, 0, 0] (1 / 14) (![] : Fin 0 → ℝ) (β i₀)) ^ 2 ≤ 1 := by
      rw [(hs _).2]
      refine max_le ?_ (by norm_num [airGas])
      show 7 / 5 * (1 / 14) / β i₀ ≤ 1
      rw [div_le_one (by linarith [hlo i₀])]
      linarith [hlo i₀]
    nlinarith [(hs (β i₀)).1]
  have hlow : 21 ≤ m := by
    refine le_trans ?_ (hmax (at_ 0) ?_)
    · rw [hsp, hb 0 le_rfl (by norm_num)]
      have h1 : 1 ≤ soundSpeed airGas (flowing ![20, 0, 0] (1 / 14) (![] : Fin 0 → ℝ) (stairDensity 0)) ^ 2 := by
        rw [(hs _).2]
        refine le_max_of_le_left ?_
        show 1 ≤ 7 / 5 * (1 / 14) / stairDensity 0
        norm_num [stairDensity]
      nlinarith [(hs (stairDensity 0)).1]
    · intro d
      have := at_cell 0 le_rfl (by norm_num) d
      have h2 : (stairTube.scheme.n d : ℤ) = stairTube.n d := rfl
      constructor <;> split_ifs <;> omega
  have hmin : min (min (stairTube.scheme.h 0) (stairTube.scheme.h 1)) (stairTube.scheme.h 2) = 1 := by
    simp [EulerConfig.scheme, stairTube]
  rw [hd, hmin, le_antisymm hup hlow, show stairTube.scheme.cfl = 4 / 5 from rfl]
  norm_num

/-- A value among its neighbours is not flagged. -/
theorem not_flagged {o : DetectOpts ℝ} (ho : 0 ≤ o.eps) (hr : o.rangeType = "relative") (hm : o.mode = "global")
    (dims : List (Fin 3)) (n : Fin 3 → ℕ) (hn : ∀ d, 1 ≤ n d) (U C : Ix → State ℝ 0) (i : Ix) (v : Var 0) (j k : Ix)
    (hj : Nbr dims i j) (hk : Nbr dims i k) (h1 : U j v ≤ C i v) (h2 : C i v ≤ U k v) :
    ¬ NadFlag o dims n U C i v := by
  rintro ⟨h, -⟩
  have a1 := (nLo_least dims U i v).2 ⟨j, hj, rfl⟩
  have a2 := (nHi_greatest dims U i v).2 ⟨k, hk, rfl⟩
  have a3 : gLo dims n U v ≤ gHi dims n U v := by
    obtain ⟨x, hx, e⟩ := (gLo_least dims n hn U v).1
    rw [← e]
    exact (gHi_greatest dims n hn U v).2 ⟨x, hx, rfl⟩
  have a4 : 0 ≤ o.eps * (gHi dims n U v - gLo dims n U v) := mul_nonneg ho (sub_nonneg.2 a3)
  unfold tolLo tolHi at h
  simp only [if_pos hr, if_pos hm] at h
  simp only at a1 a2
  rcases h with h | h <;> linarith

theorem stair_dims : stairTube.dims = [0] := by decide

/-- **C80, violated with the default options** From a positive density and pressure everywhere the solver with all
default limiting options takes one Euler step of its own length and leaves a negative density: cell 5 is troubled and
gets two fallback fluxes, its neighbour 6 passes the test, but gets the fallback flux on one side and keeps the
high-order flux on the other, and is not examined again. -/
theorem C80_violated (f : RHS ℝ (Ix → State ℝ 0))
    (hf : IsSolverRHS (stairTube.limited (some defaultLimiter)).scheme f) (t t' : ℝ) :
    ∃ k, f t t' stairs = .ok (4 / 105, k) ∧ (stairs + (4 / 105 : ℝ) • k) (at_ 6) .rho < 0 := by
  obtain ⟨junk, mem, e⟩ := hf t t' stairs
  rw [e]
  have hn : ∀ d, 1 ≤ stairTube.n d := fun d => by match d with | 0 | 1 | 2 => simp [stairTube]
  have hp : ∀ d, stairTube.p d ≤ 1 := fun d => by match d with | 0 | 1 | 2 => simp [stairTube]
  have hs := (stair_sides (fluxWidth stairTube.scheme stairTube.p) (by
    simp [fluxWidth, EulerConfig.scheme, stairTube, ceilHalf, Scheme.active]; decide)).sides hn
    (fluxWidth_inactive stairTube.scheme) t
  have hs' := (stair_sides (fluxWidth stairTube.scheme (fallbackP stairTube.p)) (by
    simp [fluxWidth, fallbackP, EulerConfig.scheme, stairTube, ceilHalf, Scheme.active]; decide)).sides hn
    (fallbackWidth_inactive stairTube.scheme) t
  have hsd := (stair_sides (detectWidth stairTube.scheme) (by
    simp [detectWidth, EulerConfig.scheme, stairTube, ceilHalf, Scheme.active])).sides hn
    (detectWidth_inactive stairTube.scheme) t
  have hext := extAll_keeps stairTube.n (stairTube.scheme.ghost .l) (stairTube.scheme.ghost .r)
    (fun w => ∃ r, 1 / 10 ≤ r ∧ r ≤ 2 ∧ w = conserved (7 / 5) (flowing ![20, 0, 0] (1 / 14) (![] : Fin 0 → ℝ) r))
    (fun d => stairTube.scheme.ghost_keeps _ .l (fun d _ hr => by simp [EulerConfig.scheme, stairTube] at hr) d)
    (fun d => stairTube.scheme.ghost_keeps _ .r (fun d _ hr => by simp [EulerConfig.scheme, stairTube] at hr) d) stairs
    (fun i => ⟨_, (stairDensity_bounds (i 0)).1, (stairDensity_bounds (i 0)).2, rfl⟩)
  choose β b1 b2 b3 using hext
  have hcellU : ∀ (U : Ix → State ℝ 0) i, InCells stairTube.n i →
      extAll stairTube.n (stairTube.scheme.ghost .l) (stairTube.scheme.ghost .r) U i = U i := by
    intro U i hi
    unfold extAll extAxis
    rw [if_neg (not_lt.2 (hi 2).1), if_neg (not_le.2 (hi 2).2), if_neg (not_lt.2 (hi 1).1),
      if_neg (not_le.2 (hi 1).2), if_neg (not_lt.2 (hi 0).1), if_neg (not_le.2 (hi 0).2)]
  have hU : extAll stairTube.n (stairTube.scheme.ghost .l) (stairTube.scheme.ghost .r) stairs =
      fun i => conserved (7 / 5) (flowing ![20, 0, 0] (1 / 14) ![] (β i)) := funext b3
  have hpos : ∀ i, 0 < β i := fun i => lt_of_lt_of_le (by norm_num) (b1 i)
  have hb : ∀ a, 0 ≤ a → a < 14 → β (at_ a) = stairDensity a := by
    intro a h0 h1
    have := congrFun ((b3 (at_ a)).symm.trans (hcellU stairs _ (at_cell a h0 h1))) .rho
    exact this
  have hdims : stairTube.dims ≠ [] := by rw [stair_dims]; simp
  obtain ⟨dt, tr, h1, h2, h3, h4⟩ := limited_rhs stairTube defaultLimiter ⟨.inl rfl, .inl rfl⟩ hdims
    (fun d => (hp d).trans (by norm_num)) hn t _ _ _ _ _ _ hs hs' hsd junk mem t' stairs
  rw [hU] at h1 h3 h4
  have hdt := stair_dt β hb b1 dt h1
  subst hdt
  obtain ⟨Fh, hFh⟩ : ∃ Fh, Fh = schemeFlux stairTube.scheme stairTube.p none
      (fun i => conserved (7 / 5) (flowing ![20, 0, 0] (1 / 14) (![] : Fin 0 → ℝ) (β i))) := ⟨_, rfl⟩
  obtain ⟨Fl, hFl⟩ : ∃ Fl, Fl = schemeFlux stairTube.scheme (fallbackP stairTube.p)
      (defaultLimiter.slope.map (SlopeKind.fn defaultLimiter.tiny))
      (fun i => conserved (7 / 5) (flowing ![20, 0, 0] (1 / 14) (![] : Fin 0 → ℝ) (β i))) := ⟨_, rfl⟩
  rw [← hFh] at h3 h4
  rw [← hFl] at h4
  have hdiv : ∀ (F : Fin 3 → Ix → State ℝ 0) a, latDiv stairTube.scheme.active stairTube.h F (at_ a) =
      -(F 0 (at_ (a + 1)) - F 0 (at_ a)) := by
    intro F a
    unfold latDiv
    rw [Fin.sum_univ_three, if_pos ((stair_active 0).2 rfl), if_neg (by rw [stair_active]; decide),
      if_neg (by rw [stair_active]; decide), at_add]
    simp [stairTube]
  have hFa : ∀ a, 2 ≤ a → a ≤ 9 → Fh 0 (at_ a) = pushed (7 / 5) ![20, 0, 0] (1 / 14) (1 / 14) 0 +
      highCrossing a • ((20 : ℝ) • carried ![20, 0, 0] ![]) := fun a g1 g2 => by
    rw [hFh]; exact highFlux_stairs β hb hpos a g1 g2
  have hcand : ∀ a, 2 ≤ a → a ≤ 8 → stairs (at_ a) + (4 / 105 : ℝ) • latDiv stairTube.scheme.active stairTube.h Fh (at_ a) =
      conserved (7 / 5) (flowing ![20, 0, 0] (1 / 14) ![] (candidate a)) := by
    intro a g1 g2
    rw [hdiv, hFa a g1 (by omega), hFa (a + 1) (by omega) (by omega)]
    show conserved (7 / 5) (flowing ![20, 0, 0] (1 / 14) ![] (stairDensity a)) + _ = _
    rw [conserved_flowing, conserved_flowing]
    unfold candidate
    module
  have hold : ∀ i, seenPrim stairTube (stairTube.scheme.ghost .l) (stairTube.scheme.ghost .r) stairs i =
      flowing ![20, 0, 0] (1 / 14) ![] (β i) := by
    intro i
    unfold seenPrim
    rw [latPrim_low _ hp, hU]
    beta_reduce
    rw [show stairTube.scheme.prim = computePrimitives (7 / 5) from rfl, prim_flowing _ (by norm_num) _ _ _ _ (hpos i).ne']
    funext v
    cases v <;> first | rfl | exact (by rename_i j; exact j.elim0)
  have hnew : ∀ a, 2 ≤ a → a ≤ 8 → candidate a ≠ 0 →
      seenPrim stairTube (stairTube.scheme.ghost .l) (stairTube.scheme.ghost .r) (fun i => stairs i +
        (4 / 105 : ℝ) • latDiv stairTube.scheme.active stairTube.h Fh i) (at_ a) =
      flowing ![20, 0, 0] (1 / 14) ![] (candidate a) := by
    intro a g1 g2 g3
    unfold seenPrim
    rw [latPrim_low _ hp]
    beta_reduce
    rw [hcellU _ _ (at_cell a (by omega) (by omega)), hcand a g1 g2,
      show stairTube.scheme.prim = computePrimitives (7 / 5) from rfl, prim_flowing _ (by norm_num) _ _ _ _ g3]
    funext v
    cases v <;> first | rfl | exact (by rename_i j; exact j.elim0)
  have hnbr : ∀ a b : ℤ, |b - a| ≤ 1 → Nbr stairTube.dims (at_ a) (at_ b) := by
    intro a b hab d
    rw [stair_dims]
    match d with
    | 0 => simpa [at_] using hab
    | 1 | 2 => simp [at_]
  have hquiet : ∀ a, 5 < a → a ≤ 7 → candidate a ≠ 0 → stairDensity (a - 1) ≤ candidate a →
      candidate a ≤ stairDensity (a + 1) → ¬ tr.get (at_ a) = true := by
    intro a g1 g2 g3 g4 g5 htr
    rcases (h3 _ (at_cell a (by omega) (by omega))).1 htr with ⟨v, -, hv⟩ | hv
    · refine not_flagged (o := defaultLimiter.toDetectOpts) (by norm_num [defaultLimiter]) rfl rfl _ _ hn _ _ _ v
        (at_ (a - 1)) (at_ (a + 1)) (hnbr _ _ (by norm_num)) (hnbr _ _ (by norm_num)) ?_ ?_ hv
      · rw [hold, hnew a (by omega) (by omega) g3, hb _ (by omega) (by omega)]
        cases v <;> first | exact g4 | exact le_rfl
      · rw [hold, hnew a (by omega) (by omega) g3, hb _ (by omega) (by omega)]
        cases v <;> first | exact g5 | exact le_rfl
    · rw [hnew a (by omega) (by omega) g3] at hv
      revert hv
      show ¬ padAt defaultPad _ < 0
      simp only [padAt, defaultPad, padPoint, flowing]
      norm_num
  have hq6 : ¬ tr.get (at_ 6) = true := by
    apply hquiet <;> norm_num [candidate, highCrossing, stairDensity]
  have hq7 : ¬ tr.get (at_ 7) = true := by
    apply hquiet <;> norm_num [candidate, highCrossing, stairDensity]
  have ht5 : tr.get (at_ 5) = true := by
    refine (h3 _ (at_cell 5 (by norm_num) (by norm_num))).2 (.inl ⟨.rho, rfl, ?_, fun _ => ?_⟩)
    · left
      have g1 := (gLo_least stairTube.dims stairTube.n hn (seenPrim stairTube (stairTube.scheme.ghost .l)
        (stairTube.scheme.ghost .r) stairs) .rho).1
      have g2 := (gHi_greatest stairTube.dims stairTube.n hn (seenPrim stairTube (stairTube.scheme.ghost .l)
        (stairTube.scheme.ghost .r) stairs) .rho).1
      have g3 := (nLo_least stairTube.dims (seenPrim stairTube (stairTube.scheme.ghost .l)
        (stairTube.scheme.ghost .r) stairs) (at_ 5) .rho).1
      obtain ⟨x, -, ex⟩ := g1
      obtain ⟨y, -, ey⟩ := g2
      obtain ⟨z, -, ez⟩ := g3
      have ex' : β x = _ := (congrFun (hold x) .rho).symm.trans ex
      have ey' : β y = _ := (congrFun (hold y) .rho).symm.trans ey
      have ez' : β z = _ := (congrFun (hold z) .rho).symm.trans ez
      unfold tolLo
      rw [if_pos (show defaultLimiter.rangeType = "relative" from rfl),
        if_pos (show defaultLimiter.mode = "global" from rfl), ← ex', ← ey', ← ez', hnew 5 (by norm_num) (by norm_num)
        (by norm_num [candidate, highCrossing, stairDensity])]
      show candidate 5 < _ - 1 / 100 * _
      have : candidate 5 < 0 := by norm_num [candidate, highCrossing, stairDensity]
      linarith [b1 x, b2 y, b1 z]
    · refine ⟨0, by rw [stair_dims]; simp, ?_⟩
      unfold sedAlong
      refine min_lt_of_right_lt ?_
      rw [at_sub]
      unfold sedAt cdiff
      simp only [at_sub, at_add]
      norm_num only
      rw [hnew 2 (by norm_num) (by norm_num) (by norm_num [candidate, highCrossing, stairDensity]),
        hnew 3 (by norm_num) (by norm_num) (by norm_num [candidate, highCrossing, stairDensity]),
        hnew 4 (by norm_num) (by norm_num) (by norm_num [candidate, highCrossing, stairDensity]),
        hnew 5 (by norm_num) (by norm_num) (by norm_num [candidate, highCrossing, stairDensity]),
        hnew 6 (by norm_num) (by norm_num) (by norm_num [candidate, highCrossing, stairDensity])]
      simp only [flowing]
      norm_num [candidate, highCrossing, stairDensity, sedPoint, sedCurvature, sedLeft, sedRight, defaultLimiter]
  have hused : used defaultLimiter tr = tr := rfl
  have hany : anyTrue (used defaultLimiter tr) = true :=
    (anyTrue_iff tr).2 ⟨at_ 5, by rw [h2]; exact at_cell 5 (by norm_num) (by norm_num), ht5⟩
  obtain ⟨theta, hth, hθ⟩ := C35_simple (K := ℝ) stairTube.isPeriodic stairTube.dims tr
  rw [limitedResult_ok stairTube defaultLimiter Fh Fl (4 / 105) tr h2 hany theta hth] at h4
  refine ⟨_, h4, ?_⟩
  have hface : ∀ a : ℤ, 0 ≤ a → a ≤ 14 → InFaces tr.shape 0 (at_ a) := by
    intro a g1 g2 d
    rw [h2]
    match d with
    | 0 => simpa [stairTube, at_] using ⟨g1, by omega⟩
    | 1 | 2 => simp [stairTube, at_]
  have hθ6 : (theta 0).get (at_ 6) = 1 := by
    refine ((hθ 0).2 _ (hface 6 (by norm_num) (by norm_num))).1 ⟨by rw [stair_dims]; simp, .inl ?_⟩
    rw [at_sub]
    exact ⟨by rw [h2]; exact at_cell 5 (by norm_num) (by norm_num), ht5⟩
  have hθ7 : (theta 0).get (at_ 7) = 0 := by
    refine ((hθ 0).2 _ (hface 7 (by norm_num) (by norm_num))).2 ?_
    rintro ⟨-, hx | hx⟩
    · rw [at_sub] at hx
      exact hq6 hx.2
    · exact hq7 hx.2
  have hFl6 : Fl 0 (at_ 6) = pushed (7 / 5) ![20, 0, 0] (1 / 14) (1 / 14) 0 +
      (1 / 10 : ℝ) • ((20 : ℝ) • carried ![20, 0, 0] ![]) := by
    rw [hFl]; exact lowCrossing_stairs β hb hpos
  have hk : (stairs + (4 / 105 : ℝ) • fun i => if InCells stairTube.n i then
      latDiv stairTube.scheme.active stairTube.h (blendFlux (fun d i => (theta d).get i) Fh Fl) i else 0) (at_ 6) =
      conserved (7 / 5) (flowing ![20, 0, 0] (1 / 14) ![] (stairDensity 6 - 16 / 21 * (highCrossing 7 - 1 / 10))) := by
    rw [Pi.add_apply, Pi.smul_apply, if_pos (at_cell 6 (by norm_num) (by norm_num)), hdiv]
    unfold blendFlux
    simp only [show (6 : ℤ) + 1 = 7 by norm_num, hθ6, hθ7, sub_self, sub_zero, one_smul, zero_smul, zero_add, add_zero]
    rw [hFl6, hFa 7 (by norm_num) (by norm_num)]
    show conserved (7 / 5) (flowing ![20, 0, 0] (1 / 14) ![] (stairDensity 6)) + _ = _
    rw [conserved_flowing, conserved_flowing]
    module
  rw [hk]
  show stairDensity 6 - 16 / 21 * (highCrossing 7 - 1 / 10) < 0
  norm_num [highCrossing, stairDensity]

end FVHOE
