import Verif.Proofs.Contact
import Verif.Proofs.Convex
import Verif.Props.C31
import Verif.Props.C38
import Verif.Props.C12_C57

/-!
C79: the fallback scheme creates no new density extrema in a uniform flow.
-/

set_option linter.unusedSectionVars false

namespace FVHOE

variable {K : Type} [Field K] [LinearOrder K] [IsStrictOrderedRing K] {np : ℕ}

/-! ## Slopes -/

/-- How much larger than a difference the slope may be. -/
def SlopeKind.steepness : SlopeKind → K
  | .minmod => 1
  | .moncen => 2

/-- The limiter for one variable. -/
def SlopeKind.one (tiny : K) : SlopeKind → K → K → K
  | .minmod => FVHOE.minmod tiny
  | .moncen => FVHOE.moncen

theorem SlopeKind.limited (tiny : K) (ht : 0 < tiny) (s : SlopeKind) (a b : K) :
    Limited (s.steepness : K) a b (s.one tiny a b) := by
  cases s with
  | minmod => exact C31_minmod tiny ht a b
  | moncen => exact C31_moncen a b

theorem SlopeKind.steepness_bound (s : SlopeKind) : 0 ≤ (s.steepness : K) ∧ (s.steepness : K) ≤ 2 := by
  cases s with
  | minmod => exact ⟨zero_le_one, one_le_two⟩
  | moncen => exact ⟨zero_le_two, le_rfl⟩

theorem Limited.flip {k a b s : K} (h : Limited k a b s) : Limited k b a s :=
  ⟨fun hb => h.extremum (by rwa [mul_comm]), fun h1 h2 => ⟨(h.pos h2 h1).1, (h.pos h2 h1).2.2, (h.pos h2 h1).2.1⟩,
    fun h1 h2 => ⟨(h.neg h2 h1).1, (h.neg h2 h1).2.2, (h.neg h2 h1).2.1⟩⟩

theorem Limited.part {k a b s : K} (hk : 0 ≤ k) (h : Limited k a b s) : ∃ θ, 0 ≤ θ ∧ θ ≤ k ∧ s = θ * a := by
  rcases lt_trichotomy a 0 with ha | ha | ha
  · rcases le_or_gt b 0 with hb | hb
    · obtain ⟨h1, h2, _⟩ := h.neg ha.le hb
      exact ⟨s / a, div_nonneg_of_nonpos h1 ha.le, (div_le_iff_of_neg ha).2 h2, (div_mul_cancel₀ _ ha.ne).symm⟩
    · exact ⟨0, le_rfl, hk, by rw [zero_mul]; exact h.extremum (mul_nonpos_of_nonpos_of_nonneg ha.le hb.le)⟩
  · exact ⟨0, le_rfl, hk, by rw [zero_mul]; exact h.extremum (by rw [ha, zero_mul])⟩
  · rcases le_or_gt b 0 with hb | hb
    · exact ⟨0, le_rfl, hk, by rw [zero_mul]; exact h.extremum (mul_nonpos_of_nonneg_of_nonpos ha.le hb)⟩
    · obtain ⟨h1, h2, _⟩ := h.pos ha.le hb.le
      exact ⟨s / a, div_nonneg h1 ha.le, (div_le_iff₀ ha).2 h2, (div_mul_cancel₀ _ ha.ne').symm⟩

/-- The slope of the density in cell `j`; none for degree 0. -/
def slopeAt (tiny : K) (s : SlopeKind) (q : ℕ) (d : Fin 3) (β : Ix → K) (j : Ix) : K :=
  if q = 1 then s.one tiny (β j - β (j - Pi.single d 1)) (β (j + Pi.single d 1) - β j) else 0

theorem slopeAt_limited (tiny : K) (ht : 0 < tiny) (s : SlopeKind) (q : ℕ) (d : Fin 3) (β : Ix → K) (j : Ix) :
    Limited (s.steepness : K) (β j - β (j - Pi.single d 1)) (β (j + Pi.single d 1) - β j)
      (slopeAt tiny s q d β j) := by
  unfold slopeAt
  split_ifs
  · exact s.limited tiny ht _ _
  · have hk := (s.steepness_bound (K := K)).1
    exact ⟨fun _ => rfl, fun h1 h2 => ⟨le_rfl, mul_nonneg hk h1, mul_nonneg hk h2⟩,
      fun h1 h2 => ⟨le_rfl, mul_nonpos_of_nonneg_of_nonpos hk h1, mul_nonpos_of_nonneg_of_nonpos hk h2⟩⟩

theorem SlopeKind.fn_flat (tiny : K) (s : SlopeKind) : s.one tiny 0 0 = 0 := by
  cases s with
  | minmod => simp [SlopeKind.one, FVHOE.minmod]
  | moncen => simp [SlopeKind.one, FVHOE.moncen, npSign]

theorem SlopeKind.fn_apply (tiny : K) (s : SlopeKind) (a b : State K np) (i : Var np) :
    s.fn tiny a b i = s.one tiny (a i) (b i) := by
  cases s <;> rfl

/-- The face values of a flow of given densities. -/
theorem face_flowing (tiny : K) (s : SlopeKind) (q : ℕ) (hq : q ≤ 1) (d : Fin 3) (v : Fin 3 → K) (P : K)
    (x : Fin np → K) (β : Ix → K) :
    (latFaceR K q d (some (s.fn tiny)) fun j => flowing v P x (β j)) =
      (fun j => flowing v P x (β j + 1 / 2 * slopeAt tiny s q d β j)) ∧
    (latFaceL K q d (some (s.fn tiny)) fun j => flowing v P x (β j)) =
      fun j => flowing v P x (β j - 1 / 2 * slopeAt tiny s q d β j) := by
  have hz := s.fn_flat tiny
  rcases low_cases hq with rfl | rfl
  · unfold latFaceR latFaceL slopeAt
    simp only [if_neg (zero_ne_one (α := ℕ)), latR_zero, latL_zero, mul_zero, add_zero, sub_zero, and_self]
  · unfold latFaceR latFaceL slopeAt
    simp only [if_true]
    constructor <;> funext j i <;> unfold latSlope
    · simp only [Pi.add_apply, Pi.smul_apply, SlopeKind.fn_apply, smul_eq_mul, Pi.sub_apply]
      cases i <;> simp [flowing, hz]
    · simp only [Pi.smul_apply, SlopeKind.fn_apply, smul_eq_mul, Pi.sub_apply]
      cases i <;> simp [flowing, hz]

/-- The density that crosses face `i` of direction `d`. -/
def crossing (tiny : K) (s : SlopeKind) (q : ℕ) (v : Fin 3 → K) (d : Fin 3) (β : Ix → K) (i : Ix) : K :=
  if 0 < v d then β (i - Pi.single d 1) + 1 / 2 * slopeAt tiny s q d β (i - Pi.single d 1)
  else β i - 1 / 2 * slopeAt tiny s q d β i

/-- The face values lie between the cells. -/
theorem face_between (tiny : K) (ht : 0 < tiny) (s : SlopeKind) (q : ℕ) (d : Fin 3) (β : Ix → K) {lo up : K}
    (hβ : ∀ j, lo ≤ β j ∧ β j ≤ up) (j : Ix) :
    (lo ≤ β j + 1 / 2 * slopeAt tiny s q d β j) ∧ lo ≤ β j - 1 / 2 * slopeAt tiny s q d β j := by
  have hk := s.steepness_bound (K := K)
  have hL := slopeAt_limited tiny ht s q d β j
  obtain ⟨θ, t1, t2, e1⟩ := hL.part hk.1
  obtain ⟨φ, p1, p2, e2⟩ := hL.flip.part hk.1
  have b0 := (hβ j).1
  have b1 := (hβ (j - Pi.single d 1)).1
  have b2 := (hβ (j + Pi.single d 1)).1
  have θ2 : θ ≤ 2 := t2.trans hk.2
  have φ2 : φ ≤ 2 := p2.trans hk.2
  constructor
  · rw [e2]
    nlinarith [mul_nonneg p1 (sub_nonneg.2 b2), mul_nonneg (sub_nonneg.2 φ2) (sub_nonneg.2 b0)]
  · rw [e1]
    nlinarith [mul_nonneg t1 (sub_nonneg.2 b1), mul_nonneg (sub_nonneg.2 θ2) (sub_nonneg.2 b0)]

/-- The difference of the crossing densities is a multiple of the difference to the cell upstream. -/
theorem crossing_difference (tiny : K) (ht : 0 < tiny) (s : SlopeKind) (q : ℕ) (v : Fin 3 → K) (d : Fin 3)
    (β : Ix → K) (i : Ix) : ∃ κ j, 0 ≤ κ ∧ κ ≤ 1 + (s.steepness : K) / 2 ∧
      v d * (crossing tiny s q v d β (i + Pi.single d 1) - crossing tiny s q v d β i) = |v d| * κ * (β i - β j) := by
  have hk := s.steepness_bound (K := K)
  have e1 : i + Pi.single d 1 - Pi.single d 1 = i := add_sub_cancel_right _ _
  have e2 : i - Pi.single d 1 + Pi.single d 1 = i := sub_add_cancel _ _
  unfold crossing
  by_cases hv : 0 < v d
  · simp only [if_pos hv, e1]
    obtain ⟨θ, t1, t2, eθ⟩ := (slopeAt_limited tiny ht s q d β i).part hk.1
    have hL := slopeAt_limited tiny ht s q d β (i - Pi.single d 1)
    rw [e2] at hL
    obtain ⟨φ, p1, p2, eφ⟩ := hL.flip.part hk.1
    refine ⟨1 + θ / 2 - φ / 2, i - Pi.single d 1, by linarith, by linarith, ?_⟩
    rw [eθ, eφ, abs_of_pos hv]
    ring
  · simp only [if_neg hv]
    obtain ⟨φ, p1, p2, eφ⟩ := (slopeAt_limited tiny ht s q d β i).flip.part hk.1
    have hL := slopeAt_limited tiny ht s q d β (i + Pi.single d 1)
    rw [e1] at hL
    obtain ⟨θ, t1, t2, eθ⟩ := hL.part hk.1
    refine ⟨1 - θ / 2 + φ / 2, i + Pi.single d 1, by linarith, by linarith, ?_⟩
    rw [eθ, eφ, abs_of_nonpos (not_lt.1 hv)]
    ring

/-! ## The step -/

/-- The solver that falls back everywhere with limiter `s`: `force_trouble`, simple spreading, no walls, a Riemann solver
that keeps contacts. -/
structure FallbackSetup (c : EulerConfig K np) (o : LimiterOpts K) (s : SlopeKind) : Prop where
  known : o.toDetectOpts.Known
  forced : o.force = true
  simple : o.convex = false
  slope : o.slope = some s
  tiny : 0 < o.tiny
  dims : c.dims ≠ []
  degree : ∀ d, c.p d ≤ 8
  cells : ∀ d, 1 ≤ c.n d
  spacing : ∀ d, 0 < c.h d
  gamma : c.gas.gamma ≠ 1
  sqrt : IsSqrt c.gas.sqrt
  floor : 0 < c.gas.csqFloor
  keeps : KeepsContacts c.riem
  sides : PlainSides c.scheme (fluxWidth c.scheme c.p)
  sidesLow : PlainSides c.scheme (fluxWidth c.scheme (fallbackP c.p))
  sidesDetect : PlainSides c.scheme (detectWidth c.scheme)
  noWall : ∀ d s, c.scheme.active d = true → c.bc.kind d s ≠ .reflective

/-- A uniform flow (velocity `v`, pressure `P`, concentrations `x`) with densities between `lo` and `up`. -/
def UniformFlow (c : EulerConfig K np) (v : Fin 3 → K) (P : K) (x : Fin np → K) (lo up : K)
    (u : Ix → State K np) : Prop :=
  ∀ i, InCells c.n i → ∃ r, lo ≤ r ∧ r ≤ up ∧ u i = conserved c.gas.gamma (flowing v P x r)

theorem detectWidth_inactive (S : Scheme K (State K np)) (d : Fin 3) (h : S.active d = false) : detectWidth S d = 0 := by
  have : S.p d = 0 := S.inactive_p d h
  simp [detectWidth, h, this, ceilHalf]

theorem fallbackWidth_inactive (S : Scheme K (State K np)) (d : Fin 3) (h : S.active d = false) :
    fluxWidth S (fallbackP S.p) d = 0 := by
  have : S.p d = 0 := S.inactive_p d h
  simp [fluxWidth, fallbackP, h, this, ceilHalf]

theorem plain_fills {S : Scheme K (State K np)} {gw : Fin 3 → ℕ} (h : PlainSides S gw) (hn : ∀ d, 1 ≤ S.n d)
    (h0 : ∀ d, S.active d = false → gw d = 0) : Fills S gw :=
  Fills.plain S gw hn fun d hd => h d (by
    by_contra hx
    exact hd (h0 d (by simpa using hx)))

theorem FallbackSetup.wellPosed {c : EulerConfig K np} {o : LimiterOpts K} {s : SlopeKind} (h : FallbackSetup c o s) :
    WellPosed (c.limited (some o)).scheme := by
  refine ⟨h.degree, h.cells, plain_fills (S := c.scheme) h.sides h.cells (fluxWidth_inactive c.scheme), fun L hL => ?_⟩
  cases hL
  exact ⟨o.local _ _, plain_fills (S := c.scheme) h.sidesLow h.cells (fallbackWidth_inactive c.scheme),
    plain_fills (S := c.scheme) h.sidesDetect h.cells (detectWidth_inactive c.scheme)⟩

/-- The largest part of a cell the flow may cross in one step. -/
def crossingLimit : SlopeKind → K
  | .minmod => 2 / 3
  | .moncen => 1 / 2

/-- The rate of change of a uniform flow, with the densities continued beyond the boundaries. -/
theorem fallback_rate_padded {c : EulerConfig K np} {o : LimiterOpts K} {s : SlopeKind} (h : FallbackSetup c o s)
    (v : Fin 3 → K) (P : K) (x : Fin np → K) (lo up : K) (hlo : 0 < lo) (u : Ix → State K np)
    (hu : UniformFlow c v P x lo up u) (junk : ℕ → Ix → State K np) (mem : Fin 3 → Ix → State K np) (t t' : K) :
    ∃ dt k β, solverRHS (c.limited (some o)).scheme junk mem t t' u = .ok (dt, k) ∧
      IsDt c.scheme c.p (latPrim K c.scheme.prim c.p fun i => conserved c.gas.gamma (flowing v P x (β i))) dt ∧
      (∀ i, lo ≤ β i ∧ β i ≤ up) ∧ (∀ i, InCells c.n i → u i = conserved c.gas.gamma (flowing v P x (β i))) ∧
      (∀ i, InCells c.n i → k i = (-∑ d, if c.scheme.active d = true then v d / c.h d *
        (crossing o.tiny s (fallbackP c.p d) v d β (i + Pi.single d 1) -
          crossing o.tiny s (fallbackP c.p d) v d β i) else 0) • carried v x) ∧
      ∃ U, (∀ i, InCells c.n i → u i = U i) ∧ ∀ i, padded c.scheme U i = conserved c.gas.gamma (flowing v P x (β i)) := by
  have hin0 : InCells c.n 0 := fun d => ⟨le_rfl, by have := h.cells d; simp; omega⟩
  obtain ⟨U, hUdef⟩ : ∃ U : Ix → State K np, U = fun i => if InCells c.n i then u i else u 0 := ⟨_, rfl⟩
  have hUc : ∀ i, InCells c.n i → u i = U i := fun i hi => by rw [hUdef]; exact (if_pos hi).symm
  have hUP : ∀ i, ∃ r, lo ≤ r ∧ r ≤ up ∧ U i = conserved c.gas.gamma (flowing v P x r) := by
    intro i
    rw [hUdef]
    by_cases hi : InCells c.n i
    · simp only [if_pos hi]; exact hu i hi
    · simp only [if_neg hi]; exact hu 0 hin0
  have hs := h.sides.sides h.cells (fluxWidth_inactive c.scheme) t
  have hs' := h.sidesLow.sides h.cells (fallbackWidth_inactive c.scheme) t
  have hsd := h.sidesDetect.sides h.cells (detectWidth_inactive c.scheme) t
  have hkeep : ∀ s d, (c.scheme.ghost s d).Keeps fun w => ∃ r, lo ≤ r ∧ r ≤ up ∧
      w = conserved c.gas.gamma (flowing v P x r) := fun s d =>
    c.scheme.ghost_keeps _ s (fun d hd hr => absurd hr (h.noWall d s hd)) d
  have hext := extAll_keeps c.n (c.scheme.ghost .l) (c.scheme.ghost .r) _ (hkeep .l) (hkeep .r) U hUP
  choose β b1 b2 b3 using hext
  obtain ⟨dt, ⟨k₀, q0⟩, q⟩ := C38_forced c o h.known h.dims h.degree h.cells t _ _ _ _ _ _ hs hs' hsd h.forced h.simple
    junk mem t' U
  obtain ⟨dt₀, g1, g2⟩ := rhs_spec (c.limited none).scheme rfl h.degree h.cells t _ _ hs junk mem t' U U
    fun _ _ => rfl
  rw [q0] at g2
  have hdt : dt = dt₀ := congrArg Prod.fst (Except.ok.inj g2)
  refine ⟨dt, _, β, (rhs_memory _ h.wellPosed t t' t' junk junk mem mem u U hUc).trans q, ?_,
    fun i => ⟨b1 i, b2 i⟩, fun i hi => ?_, fun i hi => ?_, U, hUc, b3⟩
  · rw [hdt, ← (funext b3 : extAll c.n (c.scheme.ghost .l) (c.scheme.ghost .r) U = _)]
    exact g1
  · rw [hUc i hi, ← b3 i]
    unfold extAll extAxis
    rw [if_neg (not_lt.2 (hi 2).1), if_neg (not_le.2 (hi 2).2), if_neg (not_lt.2 (hi 1).1),
      if_neg (not_le.2 (hi 1).2), if_neg (not_lt.2 (hi 0).1), if_neg (not_le.2 (hi 0).2)]
  · have hlow : ∀ d, fallbackP c.p d ≤ 1 := fun d => by unfold fallbackP; split_ifs <;> omega
    have hW : latPrim K c.scheme.prim (fallbackP c.p) (extAll c.n (c.scheme.ghost .l) (c.scheme.ghost .r) U) =
        fun j => flowing v P x (β j) := by
      rw [latPrim_low _ hlow]
      funext j
      rw [b3 j]
      exact prim_flowing _ h.gamma v P x _ (lt_of_lt_of_le hlo (b1 j)).ne'
    have hF : ∀ d j, fallbackFlux c o (c.scheme.ghost .l) (c.scheme.ghost .r) U d j =
        pushed c.gas.gamma v P (if c.riem = .advectionUpwind then 0 else P) d +
          crossing o.tiny s (fallbackP c.p d) v d β j • (v d • carried v x) := by
      intro d j
      unfold fallbackFlux schemeFlux
      rw [hW, latFlux_low _ hlow, h.slope]
      obtain ⟨f1, f2⟩ := face_flowing (np := np) o.tiny s (fallbackP c.p d) (hlow d) d v P x β
      simp only [Option.map_some, f1, f2]
      have hb : ∀ j, lo ≤ β j ∧ β j ≤ up := fun j => ⟨b1 j, b2 j⟩
      have c1 := (face_between o.tiny h.tiny s (fallbackP c.p d) d β hb (j - Pi.single d 1)).1
      have c2 := (face_between o.tiny h.tiny s (fallbackP c.p d) d β hb j).2
      refine (riemann_contact c.gas c.riem h.keeps (fun _ => ⟨h.sqrt, h.floor⟩) v P x d _ _ fun _ => ?_).trans ?_
      · exact (by linarith : (0 : K) < _).ne'
      · rfl
    refine (if_pos hi).trans ?_
    unfold latDiv
    rw [← Finset.sum_neg_distrib, Finset.sum_smul]
    refine Finset.sum_congr rfl fun d _ => ?_
    by_cases hd : c.scheme.active d = true
    · rw [if_pos hd, if_pos hd, hF, hF]
      module
    · rw [if_neg hd, if_neg hd]
      simp

/-- The rate of change of a uniform flow. -/
theorem fallback_rate {c : EulerConfig K np} {o : LimiterOpts K} {s : SlopeKind} (h : FallbackSetup c o s)
    (v : Fin 3 → K) (P : K) (x : Fin np → K) (lo up : K) (hlo : 0 < lo) (u : Ix → State K np)
    (hu : UniformFlow c v P x lo up u) (junk : ℕ → Ix → State K np) (mem : Fin 3 → Ix → State K np) (t t' : K) :
    ∃ dt k β, solverRHS (c.limited (some o)).scheme junk mem t t' u = .ok (dt, k) ∧
      IsDt c.scheme c.p (latPrim K c.scheme.prim c.p fun i => conserved c.gas.gamma (flowing v P x (β i))) dt ∧
      (∀ i, lo ≤ β i ∧ β i ≤ up) ∧ (∀ i, InCells c.n i → u i = conserved c.gas.gamma (flowing v P x (β i))) ∧
      ∀ i, InCells c.n i → k i = (-∑ d, if c.scheme.active d = true then v d / c.h d *
        (crossing o.tiny s (fallbackP c.p d) v d β (i + Pi.single d 1) -
          crossing o.tiny s (fallbackP c.p d) v d β i) else 0) • carried v x := by
  obtain ⟨dt, k, β, h1, h2, h3, h4, h5, -⟩ := fallback_rate_padded h v P x lo up hlo u hu junk mem t t'
  exact ⟨dt, k, β, h1, h2, h3, h4, h5⟩

/-- **C79, one step** An Euler step of length `τ` with the rate of the fallback scheme leaves a uniform flow uniform and
its densities between the old bounds, if `τ` times the sum of `|v| / h` over the active directions is at most
2/3 (minmod) or 1/2 (moncen). -/
theorem C79_step (c : EulerConfig K np) (o : LimiterOpts K) (s : SlopeKind) (h : FallbackSetup c o s)
    (v : Fin 3 → K) (P : K) (x : Fin np → K) (lo up : K) (hlo : 0 < lo) (u : Ix → State K np)
    (hu : UniformFlow c v P x lo up u) (junk : ℕ → Ix → State K np) (mem : Fin 3 → Ix → State K np) (t t' : K)
    (dt : K) (k : Ix → State K np) (hr : solverRHS (c.limited (some o)).scheme junk mem t t' u = .ok (dt, k))
    (τ : K) (h0 : 0 ≤ τ)
    (hτ : τ * (∑ d, if c.scheme.active d = true then |v d| / c.h d else 0) ≤ crossingLimit s) :
    UniformFlow c v P x lo up (u + τ • k) := by
  obtain ⟨dt', k', β, e, -, hβ, huβ, hk⟩ := fallback_rate h v P x lo up hlo u hu junk mem t t'
  rw [hr] at e
  obtain ⟨rfl, rfl⟩ := Prod.mk.inj (Except.ok.inj e)
  intro i hi
  choose κ j κ0 κ1 hdiff using fun d => crossing_difference o.tiny h.tiny s (fallbackP c.p d) v d β i
  -- the shares of the neighbours
  obtain ⟨σ, hσ⟩ : ∃ σ : Fin 3 → K, σ = fun d => if c.scheme.active d = true then τ * (|v d| / c.h d) * κ d else 0 := ⟨_, rfl⟩
  have hσ0 : ∀ d, 0 ≤ σ d := by
    intro d
    rw [hσ]
    dsimp only
    split_ifs
    · have := h.spacing d
      have := κ0 d
      positivity
    · exact le_rfl
  have hσ1 : ∑ d, σ d ≤ 1 := by
    have h1 : ∀ d, σ d ≤ (1 + (s.steepness : K) / 2) * (τ * (if c.scheme.active d = true then |v d| / c.h d else 0)) := by
      intro d
      rw [hσ]
      dsimp only
      split_ifs
      · have := h.spacing d
        rw [mul_comm]
        exact mul_le_mul_of_nonneg_right (κ1 d) (by positivity)
      · simp
    refine (Finset.sum_le_sum fun d _ => h1 d).trans ?_
    rw [← Finset.mul_sum, ← Finset.mul_sum]
    cases s with
    | minmod =>
      have : (1 + (SlopeKind.minmod.steepness : K) / 2) = 3 / 2 := by norm_num [SlopeKind.steepness]
      rw [this]
      simp only [crossingLimit] at hτ
      linarith
    | moncen =>
      have : (1 + (SlopeKind.moncen.steepness : K) / 2) = 2 := by norm_num [SlopeKind.steepness]
      rw [this]
      simp only [crossingLimit] at hτ
      linarith
  have hnew : (u + τ • k) i = conserved c.gas.gamma (flowing v P x (β i - ∑ d, σ d * (β i - β (j d)))) := by
    rw [Pi.add_apply, Pi.smul_apply, hk i hi, huβ i hi, conserved_flowing, conserved_flowing, smul_smul, sub_smul]
    have : τ * -(∑ d, if c.scheme.active d = true then v d / c.h d *
        (crossing o.tiny s (fallbackP c.p d) v d β (i + Pi.single d 1) -
          crossing o.tiny s (fallbackP c.p d) v d β i) else 0) = -∑ d, σ d * (β i - β (j d)) := by
      rw [mul_neg, Finset.mul_sum]
      congr 1
      refine Finset.sum_congr rfl fun d _ => ?_
      rw [hσ]
      dsimp only
      split_ifs
      · have h1 := hdiff d
        have h2 := (h.spacing d).ne'
        calc τ * (v d / c.h d * (crossing o.tiny s (fallbackP c.p d) v d β (i + Pi.single d 1) -
              crossing o.tiny s (fallbackP c.p d) v d β i))
            = τ / c.h d * (v d * (crossing o.tiny s (fallbackP c.p d) v d β (i + Pi.single d 1) -
              crossing o.tiny s (fallbackP c.p d) v d β i)) := by ring
          _ = _ := by rw [h1]; ring
      · simp
    rw [this]
    module
  refine ⟨_, ?_, ?_, hnew⟩
  · have h1 : ∑ d, σ d * (β i - β (j d)) ≤ ∑ d, σ d * (β i - lo) :=
      Finset.sum_le_sum fun d _ => mul_le_mul_of_nonneg_left (by linarith [(hβ (j d)).1]) (hσ0 d)
    rw [← Finset.sum_mul] at h1
    nlinarith [(hβ i).1, mul_le_mul_of_nonneg_right hσ1 (sub_nonneg.2 (hβ i).1)]
  · have h1 : ∑ d, σ d * (β i - up) ≤ ∑ d, σ d * (β i - β (j d)) :=
      Finset.sum_le_sum fun d _ => mul_le_mul_of_nonneg_left (by linarith [(hβ (j d)).2]) (hσ0 d)
    rw [← Finset.sum_mul] at h1
    nlinarith [(hβ i).2, mul_le_mul_of_nonneg_right hσ1 (sub_nonneg.2 (hβ i).2)]

/-! ## The run -/

theorem FallbackSetup.ndim_pos {c : EulerConfig K np} {o : LimiterOpts K} {s : SlopeKind} (h : FallbackSetup c o s) :
    1 ≤ c.scheme.ndim := by
  obtain ⟨d, hd⟩ := List.exists_mem_of_ne_nil _ h.dims
  have hd' := (mem_dims c d).1 hd
  rw [c.ndim_eq]
  refine Finset.card_pos.2 ⟨d, ?_⟩
  simp only [Scheme.active, EulerConfig.scheme] at hd'
  simp [EulerConfig.directions]
  simp at hd'
  tauto

/-- The speed that limits the step exceeds the sum of the velocities. -/
theorem signal_gt {c : EulerConfig K np} {o : LimiterOpts K} {s : SlopeKind} (h : FallbackSetup c o s)
    (w : State K np) : ∑ d, |w (.mom d)| < signalSpeed c.gas c.scheme.ndim w := by
  have hss := (soundSpeed_spec c.gas h.sqrt h.floor w).1
  have hk : (1 : K) ≤ (c.scheme.ndim : K) := by exact_mod_cast h.ndim_pos
  unfold signalSpeed sum3
  rw [Fin.sum_univ_three]
  have := mul_le_mul_of_nonneg_right hk hss.le
  linarith

theorem signal_pos {c : EulerConfig K np} {o : LimiterOpts K} {s : SlopeKind} (h : FallbackSetup c o s)
    (w : State K np) : 0 < signalSpeed c.gas c.scheme.ndim w :=
  (Finset.sum_nonneg fun d _ => abs_nonneg _).trans_lt (signal_gt h w)

/-- Every step size is positive. -/
theorem fallback_dt_pos {c : EulerConfig K np} {o : LimiterOpts K} {s : SlopeKind} (h : FallbackSetup c o s)
    (hdt : match c.fixedDt with | some x => 0 < x | none => 0 < c.cfl) (junk : ℕ → Ix → State K np)
    (mem : Fin 3 → Ix → State K np) (t t' : K) (u : Ix → State K np) (dt : K) (k : Ix → State K np)
    (hr : solverRHS (c.limited (some o)).scheme junk mem t t' u = .ok (dt, k)) : 0 < dt := by
  have hs := h.sides.sides h.cells (fluxWidth_inactive c.scheme) t
  have hs' := h.sidesLow.sides h.cells (fallbackWidth_inactive c.scheme) t
  have hsd := h.sidesDetect.sides h.cells (detectWidth_inactive c.scheme) t
  obtain ⟨dt', ⟨k₀, q0⟩, q⟩ := C38_forced c o h.known h.dims h.degree h.cells t _ _ _ _ _ _ hs hs' hsd h.forced h.simple
    junk mem t' u
  obtain ⟨dt₀, g1, g2⟩ := rhs_spec (c.limited none).scheme rfl h.degree h.cells t _ _ hs junk mem t' u u
    fun _ _ => rfl
  rw [q0] at g2
  rw [hr] at q
  have e1 : dt = dt₀ := (congrArg Prod.fst (Except.ok.inj q)).trans (congrArg Prod.fst (Except.ok.inj g2))
  rw [e1]
  unfold IsDt at g1
  rw [show (c.limited none).scheme.fixedDt = c.fixedDt from rfl] at g1
  cases hx : c.fixedDt with
  | some x =>
    simp only [hx] at hdt g1
    rw [g1]
    exact hdt
  | none =>
    simp only [hx] at hdt g1
    obtain ⟨m, ⟨i₀, -, hm⟩, -, e⟩ := g1
    have hm0 : 0 < m := by
      rw [← hm]
      exact signal_pos h _
    have hmin : 0 < min (min (c.h 0) (c.h 1)) (c.h 2) :=
      lt_min (lt_min (h.spacing 0) (h.spacing 1)) (h.spacing 2)
    rw [e]
    exact div_pos (mul_pos hdt hmin) hm0

/-- The step sizes of the run respect the limit: either a prescribed step short enough for the velocity, or the
automatic step at degrees zero and one with a CFL number of at most 2/3 (minmod) or 1/2 (moncen). -/
def ShortSteps (c : EulerConfig K np) (s : SlopeKind) (v : Fin 3 → K) : Prop :=
  match c.fixedDt with
  | some x => 0 < x ∧ x * (∑ d, if c.scheme.active d = true then |v d| / c.h d else 0) ≤ crossingLimit s
  | none => 0 < c.cfl ∧ c.cfl ≤ crossingLimit s ∧ ∀ d, c.p d ≤ 1

theorem ShortSteps.bound {c : EulerConfig K np} {o : LimiterOpts K} {s : SlopeKind} (h : FallbackSetup c o s)
    {v : Fin 3 → K} (hv : ShortSteps c s v) (P : K) (x : Fin np → K) (lo up : K) (hlo : 0 < lo) (u : Ix → State K np)
    (hu : UniformFlow c v P x lo up u) (junk : ℕ → Ix → State K np) (mem : Fin 3 → Ix → State K np) (t t' : K)
    (dt : K) (k : Ix → State K np) (hr : solverRHS (c.limited (some o)).scheme junk mem t t' u = .ok (dt, k)) :
    dt * (∑ d, if c.scheme.active d = true then |v d| / c.h d else 0) ≤ crossingLimit s := by
  obtain ⟨dt', k', β, e, hd, hβ, -, -⟩ := fallback_rate h v P x lo up hlo u hu junk mem t t'
  rw [hr] at e
  obtain ⟨rfl, rfl⟩ := Prod.mk.inj (Except.ok.inj e)
  unfold IsDt at hd
  unfold ShortSteps at hv
  rw [show c.scheme.fixedDt = c.fixedDt from rfl] at hd
  cases hx : c.fixedDt with
  | some x =>
    simp only [hx] at hv hd
    rw [hd]
    exact hv.2
  | none =>
    simp only [hx] at hv hd
    obtain ⟨m, ⟨i₀, -, hm⟩, -, hd⟩ := hd
    rw [latPrim_low _ hv.2.2] at hm
    beta_reduce at hm
    rw [show c.scheme.prim = computePrimitives c.gas.gamma from rfl,
      prim_flowing _ h.gamma v P x _ (lt_of_lt_of_le hlo (hβ i₀).1).ne'] at hm
    have hm1 : ∑ d, |v d| < m := by
      rw [← hm]
      exact signal_gt h (flowing v P x (β i₀))
    have hV : 0 ≤ ∑ d, |v d| := Finset.sum_nonneg fun d _ => abs_nonneg _
    have hm0 : 0 < m := hV.trans_lt hm1
    have hle : ∀ d, min (min (c.h 0) (c.h 1)) (c.h 2) ≤ c.h d := by
      intro d
      match d with
      | 0 => exact (min_le_left _ _).trans (min_le_left _ _)
      | 1 => exact (min_le_left _ _).trans (min_le_right _ _)
      | 2 => exact min_le_right _ _
    obtain ⟨η, hη⟩ : ∃ η, η = min (min (c.h 0) (c.h 1)) (c.h 2) := ⟨_, rfl⟩
    have hη0 : 0 < η := by rw [hη]; exact lt_min (lt_min (h.spacing 0) (h.spacing 1)) (h.spacing 2)
    rw [← hη] at hle
    have hd' : dt = c.cfl * η / m := by rw [hd, hη]; rfl
    have hsum : (∑ d, if c.scheme.active d = true then |v d| / c.h d else 0) ≤ (∑ d, |v d|) / η := by
      rw [Finset.sum_div]
      refine Finset.sum_le_sum fun d _ => ?_
      split_ifs
      · exact div_le_div_of_nonneg_left (abs_nonneg _) hη0 (hle d)
      · positivity
    have hdt0 : 0 ≤ dt := by rw [hd']; have := hv.1; positivity
    refine (mul_le_mul_of_nonneg_left hsum hdt0).trans (le_trans ?_ hv.2.1)
    rw [hd', div_mul_div_comm, div_le_iff₀ (by positivity)]
    have := mul_le_mul_of_nonneg_left hm1.le (mul_nonneg hv.1.le hη0.le)
    linarith

/-- **C79** A run of `euler`, `ssprk2` or `ssprk3` in which every cell falls back (`force_trouble`, simple spreading)
creates no new density extrema in a uniform flow. Start from one velocity, pressure and set of concentrations and from
densities between `lo > 0` and `up`, without walls, with a Riemann solver that keeps contacts, and with short enough
steps: at the end velocity, pressure and concentrations are as at the start and every density lies between `lo` and
`up`. -/
theorem C79_run (c : EulerConfig K np) (o : LimiterOpts K) (s : SlopeKind) (h : FallbackSetup c o s)
    (v : Fin 3 → K) (hv : ShortSteps c s v) (P : K) (x : Fin np → K) (lo up : K) (hlo : 0 < lo)
    (f : RHS K (Ix → State K np)) (hf : IsSolverRHS (c.limited (some o)).scheme f) (m : Integrator) (hm : m.SSP)
    {Sn : Type} (mk : ODEState K (Ix → State K np) Sn → Sn) (fuel : ℕ) (a : IntegrateArgs K Sn)
    (st : ODEState K (Ix → State K np) Sn) (h0 : 0 ≤ st.t) (hT : Ahead a st.t) (hu : UniformFlow c v P x lo up st.u)
    (out : Outcome K (Ix → State K np) Sn) (hrun : st.integrate (stepper f m) mk fuel a = some out) :
    UniformFlow c v P x lo up out.1.u := by
  have hpos : PosDt f := by
    intro t t' u dt k hk
    obtain ⟨junk, mem, e⟩ := hf t t' u
    rw [e] at hk
    refine fallback_dt_pos h ?_ junk mem t t' u dt k hk
    unfold ShortSteps at hv
    cases hx : c.fixedDt <;> simp only [hx] at hv ⊢ <;> exact hv.1
  have hconv : Convex K {u : Ix → State K np | UniformFlow c v P x lo up u} := by
    intro u hu w hw a b ha hb hab i hi
    obtain ⟨r, r1, r2, r3⟩ := hu i hi
    obtain ⟨q, q1, q2, q3⟩ := hw i hi
    refine ⟨a * r + b * q, ?_, ?_, ?_⟩
    · nlinarith [mul_le_mul_of_nonneg_left r1 ha, mul_le_mul_of_nonneg_left q1 hb]
    · nlinarith [mul_le_mul_of_nonneg_left r2 ha, mul_le_mul_of_nonneg_left q2 hb]
    · rw [Pi.add_apply, Pi.smul_apply, Pi.smul_apply, r3, q3, conserved_flowing, conserved_flowing, conserved_flowing]
      rw [show b = 1 - a by linarith]
      module
  refine run_convex f hpos _ hconv m hm ?_ mk fuel a st h0 hT hu out hrun
  intro t w dσ l hw hl τ hτ0 hτ t' u dτ k hu' hk
  obtain ⟨junk, mem, e⟩ := hf t t w
  obtain ⟨junk', mem', e'⟩ := hf t t' u
  rw [e] at hl
  rw [e'] at hk
  refine C79_step c o s h v P x lo up hlo u hu' junk' mem' t t' dτ k hk τ hτ0.le ?_
  refine le_trans (mul_le_mul_of_nonneg_right hτ ?_) (hv.bound h P x lo up hlo w hw junk mem t t dσ l hl)
  refine Finset.sum_nonneg fun d _ => ?_
  have := h.spacing d
  split_ifs <;> positivity

/-! ## A tube -/

/-- A periodic tube of eight cells at degree one. -/
noncomputable def rampTube (cfl : ℝ) : EulerConfig ℝ 0 where
  gas := airGas
  riem := .hllc
  n := ![8, 1, 1]
  p := ![1, 0, 0]
  h := ![1, 1, 1]
  cfl := cfl
  fixedDt := none
  bc := ⟨fun _ _ => .periodic, fun _ _ => .other, none⟩
  limiting := none

/-- `force_trouble` with the given slope limiter. -/
noncomputable def forcedLimiter (s : SlopeKind) : LimiterOpts ℝ where
  eps := 1 / 100
  mode := "global"
  rangeType := "relative"
  nadVars := none
  pad := defaultPad
  sed := false
  sedEps := 1 / 10 ^ 10
  convex := false
  force := true
  slope := some s
  tiny := 1 / 10 ^ 16

theorem rampTube_setup (cfl : ℝ) (s : SlopeKind) : FallbackSetup (rampTube cfl) (forcedLimiter s) s where
  known := by
    refine ⟨?_, ?_⟩ <;> simp [forcedLimiter]
  forced := rfl
  simple := rfl
  slope := rfl
  tiny := by norm_num [forcedLimiter]
  dims := by
    intro h
    have : (0 : Fin 3) ∈ (rampTube cfl).dims := (mem_dims _ _).2 (by simp [Scheme.active, EulerConfig.scheme, rampTube])
    rw [h] at this
    exact absurd this (List.not_mem_nil)
  degree := fun d => by match d with | 0 | 1 | 2 => simp [rampTube]
  cells := fun d => by match d with | 0 | 1 | 2 => simp [rampTube]
  spacing := fun d => by match d with | 0 | 1 | 2 => simp [rampTube]
  gamma := by norm_num [rampTube, airGas]
  sqrt := airGas_sqrt
  floor := by norm_num [rampTube, airGas]
  keeps := .inl rfl
  sides := fun d hd => ⟨fun s => .inr ⟨.inr (.inr rfl), by
    match d with
    | 0 => simp [fluxWidth, EulerConfig.scheme, rampTube, ceilHalf, Scheme.active]; decide
    | 1 | 2 => simp [EulerConfig.scheme, rampTube, Scheme.active] at hd⟩, fun _ => rfl⟩
  sidesLow := fun d hd => ⟨fun s => .inr ⟨.inr (.inr rfl), by
    match d with
    | 0 => simp [fluxWidth, fallbackP, EulerConfig.scheme, rampTube, ceilHalf, Scheme.active]; decide
    | 1 | 2 => simp [EulerConfig.scheme, rampTube, Scheme.active] at hd⟩, fun _ => rfl⟩
  sidesDetect := fun d hd => ⟨fun s => .inr ⟨.inr (.inr rfl), by
    match d with
    | 0 => simp [detectWidth, EulerConfig.scheme, rampTube, ceilHalf, Scheme.active]
    | 1 | 2 => simp [EulerConfig.scheme, rampTube, Scheme.active] at hd⟩, fun _ => rfl⟩
  noWall := fun _ _ _ h => by simp [EulerConfig.scheme, rampTube] at h

/-- A ramp: densities 1, 1, 2, 3, 3, … flowing at velocity 9 with pressure 5/7. -/
noncomputable def ramp (i : Ix) : State ℝ 0 :=
  conserved (7 / 5) (flowing ![9, 0, 0] (5 / 7) ![] (if i 0 ≤ 1 then 1 else if i 0 = 2 then 2 else 3))

theorem ramp_flow (cfl : ℝ) : UniformFlow (rampTube cfl) ![9, 0, 0] (5 / 7) ![] 1 3 ramp := by
  intro i _
  refine ⟨_, ?_, ?_, rfl⟩ <;> split_ifs <;> norm_num

/-- The hypotheses of the theorem hold for the ramp: with a CFL number of 2/3 and minmod, or 1/2 and moncen, all
densities stay between 1 and 3. -/
example (s : SlopeKind) (f : RHS ℝ (Ix → State ℝ 0))
    (hf : IsSolverRHS ((rampTube (crossingLimit s)).limited (some (forcedLimiter s))).scheme f)
    (out : Outcome ℝ (Ix → State ℝ 0) Unit)
    (hrun : (ODEState.init ramp).integrate (stepper f .ssprk3) (fun _ => ()) 1000
      ⟨some 2, none, true, [1], false, none⟩ = some out) :
    ∀ i, InCells ![8, 1, 1] i → 1 ≤ out.1.u i .rho ∧ out.1.u i .rho ≤ 3 := by
  have hT : Ahead (Sn := Unit) (⟨some 2, none, true, [1], false, none⟩ : IntegrateArgs ℝ Unit) 0 := by
    intro T hT
    cases hT
    exact ⟨by norm_num, fun d hd => .inr (by rw [List.mem_singleton.1 hd]; norm_num)⟩
  intro i hi
  obtain ⟨r, h1, h2, h3⟩ := C79_run _ _ s (rampTube_setup (crossingLimit s) s) _
    (by
      show 0 < crossingLimit s ∧ crossingLimit s ≤ crossingLimit s ∧ _
      refine ⟨by cases s <;> norm_num [crossingLimit], le_rfl, fun d => ?_⟩
      match d with | 0 | 1 | 2 => simp [rampTube]) _ _ 1 3 one_pos f hf .ssprk3 trivial _ _ _ _ le_rfl hT
    (ramp_flow _) out hrun i hi
  rw [h3]
  exact ⟨h1, h2⟩

/-- **C79, the limit is needed** With the default CFL number 0.8 one step of the fallback scheme with minmod takes the
ramp below its smallest density. -/
theorem C79_default_cfl_violated (f : RHS ℝ (Ix → State ℝ 0))
    (hf : IsSolverRHS ((rampTube (4 / 5)).limited (some (forcedLimiter .minmod))).scheme f) :
    ∃ dt k, f 0 0 ramp = .ok (dt, k) ∧ (ramp + dt • k) ![2, 0, 0] .rho < 1 := by
  obtain ⟨junk, mem, e⟩ := hf 0 0 ramp
  obtain ⟨dt, k, β, e', hd, hβ, huβ, hk⟩ := fallback_rate (rampTube_setup (4 / 5) .minmod) ![9, 0, 0] (5 / 7) ![] 1 3
    one_pos ramp (ramp_flow _) junk mem 0 0
  refine ⟨dt, k, e.trans e', ?_⟩
  have hcell : ∀ a : ℤ, 0 ≤ a → a < 8 → InCells (rampTube (4 / 5)).n ![a, 0, 0] := by
    intro a h1 h2 d
    match d with
    | 0 => exact ⟨h1, h2⟩
    | 1 | 2 => exact ⟨le_rfl, by simp [rampTube]⟩
  have hb : ∀ a : ℤ, 0 ≤ a → a < 8 → β ![a, 0, 0] = if a ≤ 1 then 1 else if a = 2 then 2 else 3 := by
    intro a h1 h2
    have := congrFun (huβ _ (hcell a h1 h2)) .rho
    exact this.symm
  have hdt : 2 / 27 < dt := by
    unfold IsDt at hd
    rw [show (rampTube (4 / 5)).scheme.fixedDt = none from rfl] at hd
    obtain ⟨m, ⟨i₀, -, hm⟩, -, hd⟩ := hd
    rw [latPrim_low _ (fun d => by match d with | 0 | 1 | 2 => simp [rampTube])] at hm
    beta_reduce at hm
    rw [show (rampTube (4 / 5)).scheme.prim = computePrimitives (rampTube (4 / 5)).gas.gamma from rfl,
      prim_flowing _ (rampTube_setup (4 / 5) .minmod).gamma _ _ _ _ (by linarith [(hβ i₀).1])] at hm
    have hn : (rampTube (4 / 5)).scheme.ndim = 1 := by
      rw [EulerConfig.ndim_eq]
      decide
    have hs := soundSpeed_spec airGas airGas_sqrt (by norm_num [airGas]) (flowing ![9, 0, 0] (5 / 7) (![] : Fin 0 → ℝ) (β i₀))
    have hc : soundSpeed airGas (flowing ![9, 0, 0] (5 / 7) (![] : Fin 0 → ℝ) (β i₀)) ≤ 1 := by
      have h1 : soundSpeed airGas (flowing ![9, 0, 0] (5 / 7) (![] : Fin 0 → ℝ) (β i₀)) ^ 2 ≤ 1 := by
        rw [hs.2]
        refine max_le ?_ (by norm_num [airGas])
        show 7 / 5 * (5 / 7) / β i₀ ≤ 1
        rw [div_le_one (by linarith [(hβ i₀).1])]
        linarith [(hβ i₀).1]
      nlinarith [hs.1]
    have hm' : m = 9 + soundSpeed airGas (flowing ![9, 0, 0] (5 / 7) (![] : Fin 0 → ℝ) (β i₀)) := by
      rw [← hm, hn]
      show signalSpeed airGas 1 _ = _
      simp [signalSpeed, sum3, flowing]
    have hmin : min (min ((rampTube (4 / 5)).scheme.h 0) ((rampTube (4 / 5)).scheme.h 1)) ((rampTube (4 / 5)).scheme.h 2) = 1 := by
      simp [EulerConfig.scheme, rampTube]
    rw [hd, hmin, show (rampTube (4 / 5)).scheme.cfl = 4 / 5 from rfl, lt_div_iff₀ (by linarith [hs.1])]
    linarith
  have h1 : (![2, 0, 0] : Ix) + Pi.single 0 1 = ![3, 0, 0] := by funext d; match d with | 0 | 1 | 2 => simp
  have h2 : (![2, 0, 0] : Ix) - Pi.single 0 1 = ![1, 0, 0] := by funext d; match d with | 0 | 1 | 2 => simp
  have h3 : (![1, 0, 0] : Ix) - Pi.single 0 1 = ![0, 0, 0] := by funext d; match d with | 0 | 1 | 2 => simp
  have h4 : (![1, 0, 0] : Ix) + Pi.single 0 1 = ![2, 0, 0] := by funext d; match d with | 0 | 1 | 2 => simp
  have h5 : (![3, 0, 0] : Ix) - Pi.single 0 1 = ![2, 0, 0] := by funext d; match d with | 0 | 1 | 2 => simp
  have h6 : (ramp + dt • k) ![2, 0, 0] .rho = 2 - dt * (27 / 2) := by
    rw [Pi.add_apply, Pi.smul_apply, hk _ (hcell 2 (by norm_num) (by norm_num)), Fin.sum_univ_three,
      if_pos (by simp [Scheme.active, EulerConfig.scheme, rampTube]),
      if_neg (by simp [Scheme.active, EulerConfig.scheme, rampTube]),
      if_neg (by simp [Scheme.active, EulerConfig.scheme, rampTube]), h1]
    have hq : fallbackP (rampTube (4 / 5)).p 0 = 1 := by simp [fallbackP, rampTube]
    have c1 : crossing (forcedLimiter .minmod).tiny .minmod 1 ![9, 0, 0] 0 β ![3, 0, 0] = 5 / 2 := by
      unfold crossing slopeAt
      rw [if_pos (by norm_num), h5, h1, h2, if_pos rfl, hb 1 (by norm_num) (by norm_num),
        hb 2 (by norm_num) (by norm_num), hb 3 (by norm_num) (by norm_num)]
      norm_num [SlopeKind.one, FVHOE.minmod, forcedLimiter]
    have c2 : crossing (forcedLimiter .minmod).tiny .minmod 1 ![9, 0, 0] 0 β ![2, 0, 0] = 1 := by
      unfold crossing slopeAt
      rw [if_pos (by norm_num), h2, h3, h4, if_pos rfl, hb 0 (by norm_num) (by norm_num),
        hb 1 (by norm_num) (by norm_num), hb 2 (by norm_num) (by norm_num)]
      norm_num [SlopeKind.one, FVHOE.minmod, forcedLimiter]
    rw [hq, c1, c2]
    simp [ramp, carried, conserved, flowing, rampTube]
    ring
  rw [h6]
  linarith

end FVHOE
