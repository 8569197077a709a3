import Verif.Proofs.LimitedReach
import Verif.Props.C81
import Verif.Props.C02
import Verif.Props.C79

/-!
C120: the domain of dependence with limiting.
-/

set_option linter.unusedSectionVars false

namespace FVHOE

variable {K : Type} [Field K] [LinearOrder K] [IsStrictOrderedRing K] {np : ℕ}

/-- How far the limited rate of change at a cell looks along an axis with `r = ⌈p/2⌉`: 3 cells for convex and 1 for simple
spreading of the flags, 3 + 2r for the detector, max(3r + 1, 4r) for the step that the detector examines. -/
def limitReach (c : EulerConfig K np) (o : LimiterOpts K) (d : Fin 3) : ℕ :=
  if c.scheme.active d then
    (if o.convex then 3 else 1) + (3 + 2 * ceilHalf (c.p d)) + max (3 * ceilHalf (c.p d) + 1) (4 * ceilHalf (c.p d))
  else 0

theorem limitReach_split (c : EulerConfig K np) (o : LimiterOpts K) (d : Fin 3) :
    limitReach c o d = (if c.scheme.active d then flagReach o else 0) +
      (detectWidth c.scheme d + fluxReach c.scheme c.p d) := by
  unfold limitReach detectWidth fluxReach flagReach
  by_cases h : c.scheme.active d = true
  · simp only [h, if_true]
    show _ = _ + (3 + 2 * ceilHalf (c.p d) + _)
    ring
  · have h' : c.scheme.active d = false := by simpa using h
    simp only [h', Bool.false_eq_true, if_false, c.scheme.inactive_p d h']
    rfl

theorem fallback_reach (c : EulerConfig K np) (d : Fin 3) :
    fluxReach c.scheme (fallbackP c.p) d ≤ fluxReach c.scheme c.p d := by
  have : ceilHalf (fallbackP c.p d) ≤ ceilHalf (c.p d) := by
    unfold fallbackP ceilHalf
    split_ifs <;> omega
  unfold fluxReach
  split_ifs <;> omega

/-- Which cells the detector reports near `i`. -/
theorem troubled_within (c : EulerConfig K np) (o : LimiterOpts K) (hm : o.mode = "local") (hp : ∀ d, c.p d ≤ 8) (t : K)
    (gl gr gld grd : Fin 3 → Ghost (State K np)) (hs : Sides c.scheme (fluxWidth c.scheme c.p) t gl gr)
    (hsd : Sides c.scheme (detectWidth c.scheme) t gld grd) (dt : K) (u v : Ix → State K np) (i : Ix)
    (h : ∀ j, CellsAway c.scheme (limitReach c o) i j → u j = v j) (j : Ix) (hj : ∀ d, |j d - i d| ≤ flagReach o)
    (hi : InCells c.n i) :
    TroubledCell c o gl gr gld grd dt u j ↔ TroubledCell c o gl gr gld grd dt v j := by
  unfold TroubledCell
  refine and_congr_right fun hc => ?_
  have near : CellsAway c.scheme (fun d => if c.scheme.active d then flagReach o else 0) i j := by
    refine CellsAway.plain hc fun d => ?_
    by_cases ha : c.scheme.active d = true
    · simpa only [ha, if_true] using hj d
    · have h1 := dims_cells c d (by rw [mem_dims]; exact ha)
      have g1 := hi d
      have g2 := hc d
      rw [h1] at g1 g2
      have : j d = i d := by omega
      rw [this, sub_self, abs_zero]
      exact Int.natCast_nonneg _
  have far : ∀ k, CellsAway c.scheme (fun d => detectWidth c.scheme d + fluxReach c.scheme c.p d) j k → u k = v k :=
    fun k hk => h k ((near.trans hk).mono fun d => (limitReach_split c o d).ge)
  have hseen := seen_within c hp t gld grd hsd j hc u v fun k hk => far k (hk.mono fun d => Nat.le_add_right _ _)
  refine reported_within o.toDetectOpts hm c.dims c.n _ _ _ _ j hseen ?_
  refine seen_within c hp t gld grd hsd j hc _ _ fun k hk => ?_
  have huv : u k = v k := far k (hk.mono fun d => Nat.le_add_right _ _)
  have e : latDiv c.scheme.active c.h (highFlux c gl gr u) k = latDiv c.scheme.active c.h (highFlux c gl gr v) k :=
    latDiv_faces c.scheme _ _ k fun d hd x hx =>
      faces_within c.scheme c.p hp c.scheme.inactive_p none t gl gr hs k hk.cell u v (fun l hl => far l (hk.trans hl)) d hd x hx
  rw [huv, e]

/-- **C120** With limiting and the "local" admissibility test, let two states agree on all cells within `limitReach` of cell
`i` (counted periodically on periodic axes). Whenever the right-hand side returns the same step for both, their rates of
change at cell `i` are equal. -/
theorem C120_local (c : EulerConfig K np) (o : LimiterOpts K) (hk : o.toDetectOpts.Known) (hm : o.mode = "local")
    (hd : c.dims ≠ []) (hw : WellPosed (c.limited (some o)).scheme) (t t' : K) (u v : Ix → State K np) (i : Ix)
    (hi : InCells c.n i) (h : ∀ j, CellsAway c.scheme (limitReach c o) i j → u j = v j)
    (junk junk' : ℕ → Ix → State K np) (mem mem' : Fin 3 → Ix → State K np) (dt : K) (k k' : Ix → State K np)
    (hu : solverRHS (c.limited (some o)).scheme junk mem t t' u = .ok (dt, k))
    (hv : solverRHS (c.limited (some o)).scheme junk' mem' t t' v = .ok (dt, k')) : k i = k' i := by
  obtain ⟨gl, gr, hs⟩ := hw.ghosts.sides t
  obtain ⟨_, w1, w2⟩ := hw.limiter _ rfl
  obtain ⟨gl', gr', hs'⟩ := w1.sides t
  obtain ⟨gld, grd, hsd⟩ := w2.sides t
  have hp : ∀ d, c.p d ≤ 8 := hw.degree
  obtain ⟨dt₁, tr, -, a2, a3, a4⟩ := limited_rhs c o hk hd hw.degree hw.cells t gl gr gl' gr' gld grd hs hs' hsd junk mem t' u
  obtain ⟨dt₂, tr', -, b2, b3, b4⟩ := limited_rhs c o hk hd hw.degree hw.cells t gl gr gl' gr' gld grd hs hs' hsd junk' mem' t' v
  rw [a4] at hu
  rw [b4] at hv
  obtain ⟨rfl, ha⟩ := limitedResult_inv c o _ _ _ dt tr a2 k hu
  obtain ⟨rfl, hb⟩ := limitedResult_inv c o _ _ _ dt tr' b2 k' hv
  -- the flags agree
  have hT : ∀ (tr : Arr Bool) (w : Ix → State K np), tr.shape = c.n →
      (∀ i, InCells c.n i → (tr.get i = true ↔ Reported o.toDetectOpts c.dims c.n (seenPrim c gld grd w)
        (seenPrim c gld grd fun i => w i + dt • latDiv c.scheme.active c.h
          (schemeFlux c.scheme c.p none (extAll c.n gl gr w)) i) i)) →
      ∀ j, Troubled (used o tr) j ↔ InCells c.n j ∧ (o.force = true ∨ TroubledCell c o gl gr gld grd dt w j) := by
    intro tr w h2 h3 j
    unfold Troubled
    rw [used_shape, h2]
    refine and_congr_right fun hj => ?_
    unfold used
    by_cases hf : o.force = true
    · simp [hf, Arr.map]
    · rw [if_neg hf]
      exact (h3 j hj).trans ⟨fun g => Or.inr ⟨hj, g⟩, fun g => (g.resolve_left hf).2⟩
  have hflags : ∀ j : Ix, (∀ d, |j d - i d| ≤ flagReach o) → (Troubled (used o tr) j ↔ Troubled (used o tr') j) := by
    intro j hj
    rw [hT tr u a2 a3 j, hT tr' v b2 b3 j, troubled_within c o hm hp t gl gr gld grd hs hsd dt u v i h j hj hi]
  have s1 : (used o tr).shape = c.n := by rw [used_shape, a2]
  have s2 : (used o tr').shape = c.n := by rw [used_shape, b2]
  -- the fluxes agree
  have hhigh : ∀ d, c.scheme.active d = true → ∀ x : ℤ, x = 0 ∨ x = 1 →
      schemeFlux c.scheme c.p none (extAll c.n gl gr u) d (i + Pi.single d x) =
        schemeFlux c.scheme c.p none (extAll c.n gl gr v) d (i + Pi.single d x) := fun d hd x hx =>
    faces_within c.scheme c.p hp c.scheme.inactive_p none t gl gr hs i hi u v (fun l hl => h l (hl.mono fun d => by
      rw [limitReach_split]; omega)) d hd x hx
  have hp' : ∀ d, fallbackP c.p d ≤ 8 := fun d => by unfold fallbackP; split_ifs <;> omega
  have hlow : ∀ d, c.scheme.active d = true → ∀ x : ℤ, x = 0 ∨ x = 1 →
      schemeFlux c.scheme (fallbackP c.p) (o.slope.map (SlopeKind.fn o.tiny)) (extAll c.n gl' gr' u) d (i + Pi.single d x) =
        schemeFlux c.scheme (fallbackP c.p) (o.slope.map (SlopeKind.fn o.tiny)) (extAll c.n gl' gr' v) d
          (i + Pi.single d x) := fun d hd x hx =>
    faces_within c.scheme (fallbackP c.p) hp' (fun e he => by
      have := c.scheme.inactive_p e he
      unfold fallbackP
      rw [show c.p e = 0 from this]
      rfl) _ t gl' gr' hs' i hi u v (fun l hl => h l (hl.mono fun d => by
      have := fallback_reach c d
      rw [limitReach_split]; omega)) d hd x hx
  -- a flux blended with weight 0
  have hzero : ∀ (A B : Ix → State K np) (θ : K) (j : Ix), θ = 0 → (1 - θ) • A j + θ • B j = A j := by
    intro A B θ j h0
    rw [h0, sub_zero, one_smul, zero_smul, add_zero]
  have hclear : ∀ (tr tr' : Arr Bool), tr.shape = c.n → anyTrue tr = false →
      (∀ j : Ix, (∀ d, |j d - i d| ≤ flagReach o) → (Troubled tr j ↔ Troubled tr' j)) → Clear o.convex (Troubled tr') i := by
    intro tr tr' hsh hany hsame
    have none : ∀ j, ¬ Troubled tr j := fun j hj => by
      have := (anyTrue_iff tr).2 ⟨j, hj.1, hj.2⟩
      rw [hany] at this
      cases this
    have hno : ∀ j : Ix, (∀ d, |j d - i d| ≤ flagReach o) → ¬ Troubled tr' j := fun j hj g => none j ((hsame j hj).2 g)
    unfold Clear
    split_ifs with hcv
    · intro j g
      by_contra hc
      push Not at hc
      exact hno j (fun d => by have := hc d; unfold flagReach; rw [if_pos hcv]; exact_mod_cast this) g
    · have h1 : flagReach o = 1 := by unfold flagReach; rw [if_neg hcv]
      rw [h1] at hno
      refine ⟨hno i fun d => by simp, fun d => ⟨hno _ fun e => ?_, hno _ fun e => ?_⟩⟩ <;>
      · by_cases he : e = d
        · subst he; simp
        · simp [he]
  rcases ha with ⟨qa, rfl⟩ | ⟨qa, theta, ta, rfl⟩ <;> rcases hb with ⟨qb, rfl⟩ | ⟨qb, theta', tb, rfl⟩ <;>
    beta_reduce <;> rw [if_pos hi, if_pos hi] <;>
    refine latDiv_faces c.scheme _ _ i fun d hda x hx => ?_
  · exact hhigh d hda x hx
  · have := (blend_factors c o hw.cells _ s2 theta' tb i hi d ((mem_dims c d).2 hda)).2
      (hclear _ _ s1 qa hflags)
    have e0 : (theta' d).get (i + Pi.single d x) = 0 := by
      rcases hx with rfl | rfl
      · rw [Pi.single_zero, add_zero]; exact this.1
      · exact this.2
    rw [hhigh d hda x hx]
    exact (hzero _ _ _ _ e0).symm
  · have := (blend_factors c o hw.cells _ s1 theta ta i hi d ((mem_dims c d).2 hda)).2
      (hclear _ _ s2 qb fun j hj => (hflags j hj).symm)
    have e0 : (theta d).get (i + Pi.single d x) = 0 := by
      rcases hx with rfl | rfl
      · rw [Pi.single_zero, add_zero]; exact this.1
      · exact this.2
    rw [← hhigh d hda x hx]
    exact hzero _ _ _ _ e0
  · unfold blendFlux
    beta_reduce
    rw [theta_within c o _ _ s1 s2 theta theta' ta tb i hi hflags d ((mem_dims c d).2 hda) x hx, hhigh d hda x hx,
      hlow d hda x hx]

/-! ## The global test -/

/-- A periodic line of 22 cells of size 1, degree 1, upwind fluxes, time step 1/4. -/
def ringConfig : EulerConfig ℚ 0 := { seamConfig with n := ![22, 1, 1] }

/-- The admissibility test alone, for the density. -/
def ringLimiter (mode : String) : LimiterOpts ℚ :=
  { seamLimiter false with mode := mode, nadVars := some [.rho], pad := [], sed := false }

/-- As `seamState`, with density `x` in cell 13. -/
def ringState (x : ℚ) : Ix → State ℚ 0 := fun i v =>
  let r : ℚ := if i 0 = 0 then 4 else if i 0 = 13 then x else 1
  match v with
  | .rho => r
  | .mom d => if d = 0 then r else 0
  | .en => r / 2 + 5 / 2

/-- Cells 1, 2 and 3. -/
def ringAt (a : Fin 3) : Ix := ![((a : ℕ) : ℤ) + 1, 0, 0]

theorem ring_range (b : Bool) :
    gLo ringConfig.dims ringConfig.n (seenPrim ringConfig (fun _ => .wrap) (fun _ => .wrap) (ringState (if b then 1000 else 1)))
        .rho = 1 ∧
      gHi ringConfig.dims ringConfig.n (seenPrim ringConfig (fun _ => .wrap) (fun _ => .wrap) (ringState (if b then 1000 else 1)))
        .rho = if b then 1000 else 4 := by
  revert b
  decide +kernel

theorem ring_near (b : Bool) : ∀ a : Fin 3,
    seenPrim ringConfig (fun _ => .wrap) (fun _ => .wrap) (fun i => ringState (if b then 1000 else 1) i + (1 / 4 : ℚ) •
      latDiv ringConfig.scheme.active ringConfig.h (perHigh ringConfig (ringState (if b then 1000 else 1))) i)
      (ringAt a) .rho = (![31 / 16, 13 / 16, 1] : Fin 3 → ℚ) a ∧
    nLo ringConfig.dims (seenPrim ringConfig (fun _ => .wrap) (fun _ => .wrap) (ringState (if b then 1000 else 1)))
      (ringAt a) .rho = 1 ∧
    1 ≤ nHi ringConfig.dims (seenPrim ringConfig (fun _ => .wrap) (fun _ => .wrap) (ringState (if b then 1000 else 1)))
      (ringAt a) .rho := by
  revert b
  decide +kernel

theorem ring_rates :
    latDiv ringConfig.scheme.active ringConfig.h (perHigh ringConfig (ringState 1000)) ![2, 0, 0] .rho = -3 / 4 ∧
    latDiv ringConfig.scheme.active ringConfig.h (perFallback ringConfig (ringLimiter "global") (ringState 1)) ![2, 0, 0]
      .rho = 0 := by
  decide +kernel

theorem ring_periodic : PeriodicLimited ringConfig where
  cells d := by match d with | 0 | 1 | 2 => decide
  degree d := by match d with | 0 | 1 | 2 => decide
  periodic _ _ _ := rfl
  wide d := by match d with | 0 | 1 | 2 => decide +kernel

theorem PeriodicLimited.wellPosed {c : EulerConfig K np} (h : PeriodicLimited c) (o : LimiterOpts K) :
    WellPosed (c.limited (some o)).scheme := by
  have plain : ∀ w : Fin 3 → ℕ, (∀ d, c.scheme.active d = true → w d ≤ c.n d) → PlainSides c.scheme w :=
    fun w hw d hd => ⟨fun s => Or.inr ⟨Or.inr (Or.inr (h.periodic d s hd)), hw d hd⟩, fun _ => h.periodic d .l hd⟩
  refine ⟨h.degree, h.cells, plain_fills (S := c.scheme) (plain _ fun d hd => (h.wide d hd).1) h.cells
    (fluxWidth_inactive c.scheme), fun L hL => ?_⟩
  cases hL
  exact ⟨o.local _ _, plain_fills (S := c.scheme) (plain _ fun d hd => (h.wide d hd).2.1) h.cells
      (fallbackWidth_inactive c.scheme),
    plain_fills (S := c.scheme) (plain _ fun d hd => (h.wide d hd).2.2) h.cells (detectWidth_inactive c.scheme)⟩

theorem ring_workable (m : String) (hm : m = "global" ∨ m = "local") : Workable ringConfig (some (ringLimiter m)) := by
  intro o' ho
  cases ho
  exact ⟨⟨hm, Or.inl rfl⟩, by decide, Or.inl rfl⟩

/-- Density 1 and 1000 in cell 13 make no difference within the reach of cell 2. -/
theorem ring_agree (m : String) (j : Ix) (hj : CellsAway ringConfig.scheme (limitReach ringConfig (ringLimiter m)) ![2, 0, 0] j) :
    ringState 1 j = ringState 1000 j := by
  obtain ⟨h1, h2, k, -, h3⟩ := hj 0
  have e : limitReach ringConfig (ringLimiter m) 0 = 10 := rfl
  rw [e] at h3
  have h2' : j 0 < 22 := h2
  have h3' : |j 0 + k * 22 - 2| ≤ 10 := h3
  have h13 : j 0 ≠ 13 := by
    intro h
    rw [h, abs_le] at h3'
    omega
  unfold ringState
  funext v
  simp only [if_neg h13]

/-- The global test, without extrema detection, in terms of the ranges. -/
theorem global_flag (o : DetectOpts K) (hm : o.mode = "global") (hr : o.rangeType = "relative") (hs : o.sed = false)
    (hc : o.considers .rho = true) (dims : List (Fin 3)) (n : Fin 3 → ℕ) (W W' : Ix → State K 0) (i : Ix)
    (x l a b : K) (hx : W' i .rho = x) (hl : nLo dims W i .rho = l) (ha : gLo dims n W .rho = a)
    (hb : gHi dims n W .rho = b) (h : x < l - o.eps * (b - a)) : Reported o dims n W W' i := by
  subst hx hl ha hb
  refine Or.inl ⟨.rho, hc, Or.inl ?_, fun h => by rw [hs] at h; cases h⟩
  unfold tolLo
  rwa [if_pos hr, if_pos hm]

@[inherit_doc global_flag]
theorem global_clear (o : DetectOpts K) (hm : o.mode = "global") (hr : o.rangeType = "relative") (hp : o.pad = [])
    (hc : ∀ v, o.considers v = true → v = .rho) (dims : List (Fin 3)) (n : Fin 3 → ℕ) (W W' : Ix → State K 0) (i : Ix)
    (x l y a b : K) (hx : W' i .rho = x) (hl : nLo dims W i .rho = l) (hy : y ≤ nHi dims W i .rho)
    (ha : gLo dims n W .rho = a) (hb : gHi dims n W .rho = b) (h : l - o.eps * (b - a) ≤ x)
    (h' : x ≤ y + o.eps * (b - a)) : ¬ Reported o dims n W W' i := by
  subst hx hl ha hb
  replace h' := h'.trans (add_le_add_left hy _)
  rintro (⟨v, hv, hb, -⟩ | hb)
  · have := hc v hv
    subst this
    unfold tolLo tolHi at hb
    simp only [if_pos hr, if_pos hm] at hb
    rcases hb with hb | hb
    · exact absurd h hb.not_ge
    · exact absurd h' hb.not_ge
  · rw [hp] at hb
    exact lt_irrefl _ hb

/-- The rates of change at troubled cells and away from them, on a periodic domain. -/
theorem periodic_rates (c : EulerConfig K np) (o : LimiterOpts K) (hk : o.toDetectOpts.Known) (hf : o.force = false)
    (hd : c.dims ≠ []) (hc : PeriodicLimited c) (junk : ℕ → Ix → State K np) (mem : Fin 3 → Ix → State K np) (t t' : K)
    (u : Ix → State K np) (dt : K) (k : Ix → State K np)
    (h : solverRHS (c.limited (some o)).scheme junk mem t t' u = .ok (dt, k)) (i : Ix) (hi : InCells c.n i) :
    (TroubledCell c o (fun _ => .wrap) (fun _ => .wrap) (fun _ => .wrap) (fun _ => .wrap) dt u i →
      k i = latDiv c.scheme.active c.h (perFallback c o u) i) ∧
    (Clear o.convex (TroubledCell c o (fun _ => .wrap) (fun _ => .wrap) (fun _ => .wrap) (fun _ => .wrap) dt u) i →
      k i = latDiv c.scheme.active c.h (perHigh c u) i) := by
  obtain ⟨hs, hs', hsd⟩ := hc.all t
  obtain ⟨kh, kf, q1, q2, q3⟩ := C78_local c o hk hf hd hc.degree hc.cells t _ _ _ _ _ _ hs hs' hsd junk mem t' _ _ _ h
  obtain ⟨dt₁, -, q4⟩ := C38_forced c { o with force := true, convex := false } hk hd hc.degree hc.cells t _ _ _ _ _ _
    hs hs' hsd rfl rfl junk mem t' u
  obtain ⟨dt₂, -, q5⟩ := rhs_spec (c.limited none).scheme rfl hc.degree hc.cells t _ _ hs junk mem t' u u fun _ _ => rfl
  rw [q2] at q4
  rw [q1] at q5
  injection q4 with q4
  injection q4 with _ q4
  injection q5 with q5
  injection q5 with _ q5
  refine ⟨fun g => ?_, fun g => ?_⟩
  · rw [(q3 i hi).2 g, q4]
    exact if_pos hi
  · rw [(q3 i hi).1 g, q5]
    exact if_pos hi

theorem ring_cell (a : Fin 3) : InCells ringConfig.n (ringAt a) := by
  intro d
  revert a d
  decide

theorem ring_lines (d : Fin 3) (s : ℤ) (hs : s = 1 ∨ s = -1)
    (h : InCells ringConfig.n (ringAt 1 + Pi.single d s)) :
    ∃ a : Fin 3, ringAt 1 + Pi.single d s = (ringAt a) := by
  have h1 := h d
  match d with
  | 0 =>
    rcases hs with rfl | rfl
    · exact ⟨2, by funext e; revert e; decide⟩
    · exact ⟨0, by funext e; revert e; decide⟩
  | 1 => rcases hs with rfl | rfl <;> revert h1 <;> decide
  | 2 => rcases hs with rfl | rfl <;> revert h1 <;> decide

theorem ring_troubled : TroubledCell ringConfig (ringLimiter "global") (fun _ => .wrap) (fun _ => .wrap) (fun _ => .wrap)
    (fun _ => .wrap) (1 / 4) (ringState 1) (ringAt 1) := by
  have n := ring_near false 1
  have g := ring_range false
  exact ⟨ring_cell 1, global_flag _ rfl rfl rfl rfl _ _ _ _ _ _ _ _ _ n.1 n.2.1 g.1 g.2
    (show (13 / 16 : ℚ) < 1 - 1 / 100 * (4 - 1) by norm_num)⟩

theorem ring_untroubled (a : Fin 3) : ¬ TroubledCell ringConfig (ringLimiter "global") (fun _ => .wrap) (fun _ => .wrap)
    (fun _ => .wrap) (fun _ => .wrap) (1 / 4) (ringState 1000) (ringAt a) := by
  have hv : ∀ a, 0 ≤ (![31 / 16, 13 / 16, 1] : Fin 3 → ℚ) a ∧ (![31 / 16, 13 / 16, 1] : Fin 3 → ℚ) a ≤ 2 := by
    decide +kernel
  have n := ring_near true a
  have g := ring_range true
  exact fun h => global_clear _ rfl rfl rfl (fun v hv => by simpa [ringLimiter, DetectOpts.considers] using hv) _ _ _ _ _
    _ _ _ _ _ n.1 n.2.1 n.2.2 g.1 g.2
    (le_trans (show (1 - 1 / 100 * (1000 - 1) : ℚ) ≤ 0 by norm_num) (hv a).1)
    ((hv a).2.trans (show (2 : ℚ) ≤ 1 + 1 / 100 * (1000 - 1) by norm_num)) h.2

/-- **The global test reaches across the whole domain** With the default "global" test, changing the density of one cell
outside the reach of another changes the rate of change there: on a periodic line of 22 cells the reach is 10, and cell 13
is 11 cells away from cell 2. The step is prescribed, so that it is the same. -/
theorem C120_global_violated : ∃ u v : Ix → State ℚ 0,
    (∀ j, CellsAway ringConfig.scheme (limitReach ringConfig (ringLimiter "global")) ![2, 0, 0] j → u j = v j) ∧
    ∀ (junk : ℕ → Ix → State ℚ 0) (mem : Fin 3 → Ix → State ℚ 0) (t t' : ℚ), ∃ k k',
      solverRHS (ringConfig.limited (some (ringLimiter "global"))).scheme junk mem t t' u = .ok (1 / 4, k) ∧
      solverRHS (ringConfig.limited (some (ringLimiter "global"))).scheme junk mem t t' v = .ok (1 / 4, k') ∧
      k ![2, 0, 0] .rho = 0 ∧ k' ![2, 0, 0] .rho = -3 / 4 := by
  refine ⟨ringState 1, ringState 1000, ring_agree _, fun junk mem t t' => ?_⟩
  have hw := ring_periodic.wellPosed (ringLimiter "global")
  have ho := ring_workable "global" (Or.inl rfl)
  obtain ⟨dt, k, e⟩ := rhs_returns ringConfig _ hw ho junk mem t t' (ringState 1)
  obtain ⟨dt', k', e'⟩ := rhs_returns ringConfig _ hw ho junk mem t t' (ringState 1000)
  have h1 := rhs_fixed ringConfig _ hw ho (1 / 4) rfl junk mem t t' _ _ _ e
  have h2 := rhs_fixed ringConfig _ hw ho (1 / 4) rfl junk mem t t' _ _ _ e'
  subst h1 h2
  have e2 : (![2, 0, 0] : Ix) = ringAt 1 := by funext e; revert e; decide
  have r1 := (periodic_rates ringConfig (ringLimiter "global") ⟨Or.inl rfl, Or.inl rfl⟩ rfl (by decide) ring_periodic
    junk mem t t' _ _ _ e _ (ring_cell 1)).1 ring_troubled
  have r2 := (periodic_rates ringConfig (ringLimiter "global") ⟨Or.inl rfl, Or.inl rfl⟩ rfl (by decide) ring_periodic
    junk mem t t' _ _ _ e' _ (ring_cell 1)).2 (by
      unfold Clear
      rw [if_neg (by decide)]
      refine ⟨ring_untroubled 1, fun d => ⟨fun h => ?_, fun h => ?_⟩⟩
      · rw [sub_eq_add_neg, ← Pi.single_neg] at h
        obtain ⟨a, ha⟩ := ring_lines d (-1) (Or.inr rfl) h.1
        rw [ha] at h
        exact ring_untroubled a h
      · obtain ⟨a, ha⟩ := ring_lines d 1 (Or.inl rfl) h.1
        rw [ha] at h
        exact ring_untroubled a h)
  rw [← e2] at r1 r2
  exact ⟨k, k', e, e', (congrFun r1 .rho).trans ring_rates.2, (congrFun r2 .rho).trans ring_rates.1⟩

/-- With the "local" test the same two states have the same rate of change at cell 2. -/
example (junk : ℕ → Ix → State ℚ 0) (mem : Fin 3 → Ix → State ℚ 0) (t t' : ℚ) : ∃ k k',
    solverRHS (ringConfig.limited (some (ringLimiter "local"))).scheme junk mem t t' (ringState 1) = .ok (1 / 4, k) ∧
    solverRHS (ringConfig.limited (some (ringLimiter "local"))).scheme junk mem t t' (ringState 1000) = .ok (1 / 4, k') ∧
    k ![2, 0, 0] = k' ![2, 0, 0] := by
  have hw := ring_periodic.wellPosed (ringLimiter "local")
  have ho := ring_workable "local" (Or.inr rfl)
  obtain ⟨dt, k, e⟩ := rhs_returns ringConfig _ hw ho junk mem t t' (ringState 1)
  obtain ⟨dt', k', e'⟩ := rhs_returns ringConfig _ hw ho junk mem t t' (ringState 1000)
  have h1 := rhs_fixed ringConfig _ hw ho (1 / 4) rfl junk mem t t' _ _ _ e
  have h2 := rhs_fixed ringConfig _ hw ho (1 / 4) rfl junk mem t t' _ _ _ e'
  subst h1 h2
  have e2 : (![2, 0, 0] : Ix) = ringAt 1 := by funext e; revert e; decide
  exact ⟨k, k', e, e', C120_local ringConfig _ ⟨Or.inr rfl, Or.inl rfl⟩ rfl (by decide) hw t t' _ _ _
    (e2 ▸ ring_cell 1) (ring_agree _) junk junk mem mem _ _ _ e e'⟩

end FVHOE
