import Verif.Proofs.Revised
import Verif.Props.C06
import Verif.Props.C35_C37

/-!
C38: blended fluxes. C11 with the concrete limiter: the right-hand side returns.

`Sides c.scheme w t gl gr` says that the boundary condition continues the state by the ghosts `gl`,
`gr` in `w` layers; three widths occur: of the scheme, of the fallback scheme and of the detector.
-/

set_option linter.unusedSectionVars false

namespace FVHOE

variable {K : Type} [Field K] [LinearOrder K] [IsStrictOrderedRing K] {np : ℕ}

/-- The fluxes of the scheme without limiting. -/
def highFlux (c : EulerConfig K np) (gl gr : Fin 3 → Ghost (State K np)) (u : Ix → State K np) :
    Fin 3 → Ix → State K np := schemeFlux c.scheme c.p none (extAll c.n gl gr u)

/-- The fluxes of the fallback scheme: degree 1 along the active directions of positive degree, with the
chosen slope limiter. -/
def fallbackFlux (c : EulerConfig K np) (o : LimiterOpts K) (gl gr : Fin 3 → Ghost (State K np))
    (u : Ix → State K np) : Fin 3 → Ix → State K np :=
  schemeFlux c.scheme (fallbackP c.p) (o.slope.map (SlopeKind.fn o.tiny)) (extAll c.n gl gr u)

/-- What `highFlux` is: without limiting the derivative is its divergence. -/
theorem C38_high (c : EulerConfig K np) (hp : ∀ d, c.p d ≤ 8) (hn : ∀ d, 1 ≤ c.n d) (t : K)
    (gl gr : Fin 3 → Ghost (State K np)) (hs : Sides c.scheme (fluxWidth c.scheme c.p) t gl gr)
    (junk : ℕ → Ix → State K np) (mem : Fin 3 → Ix → State K np) (t' : K) (u : Ix → State K np) :
    ∃ dt, solverRHS (c.limited none).scheme junk mem t t' u =
      .ok (dt, fun i => if InCells c.n i then latDiv c.scheme.active c.h (highFlux c gl gr u) i else 0) := by
  obtain ⟨dt, _, h⟩ := rhs_spec (c.limited none).scheme rfl hp hn t gl gr hs junk mem t' u u fun _ _ => rfl
  exact ⟨dt, h⟩

/-- What `fallbackFlux` is when there is no slope limiter: the derivative of the solver of degree 1 without
limiting is its divergence. -/
theorem C38_fallback (c : EulerConfig K np) (o : LimiterOpts K) (ho : o.slope = none) (hn : ∀ d, 1 ≤ c.n d)
    (t : K) (gl gr : Fin 3 → Ghost (State K np))
    (hs : Sides c.scheme (fluxWidth c.scheme (fallbackP c.p)) t gl gr)
    (junk : ℕ → Ix → State K np) (mem : Fin 3 → Ix → State K np) (t' : K) (u : Ix → State K np) :
    ∃ dt, solverRHS ({ c with p := fallbackP c.p }.limited none).scheme junk mem t t' u =
      .ok (dt, fun i => if InCells c.n i then
        latDiv c.scheme.active c.h (fallbackFlux c o gl gr u) i else 0) := by
  have hact : ({ c with p := fallbackP c.p }.limited none).scheme.active = c.scheme.active := by
    funext d
    unfold Scheme.active
    refine congrArg (fun b => !(c.n d == 1 && b)) ?_
    show (fallbackP c.p d == 0) = (c.p d == 0)
    unfold fallbackP
    by_cases h : 0 < c.p d
    · rw [if_pos h]
      rw [show (c.p d == 0) = false from by simpa using h.ne']
      rfl
    · rw [if_neg h]
      rw [show c.p d = 0 by omega]
  have hw : fluxWidth ({ c with p := fallbackP c.p }.limited none).scheme (fallbackP c.p) =
      fluxWidth c.scheme (fallbackP c.p) := by
    unfold fluxWidth
    rw [hact]
  obtain ⟨dt, _, h⟩ := rhs_spec ({ c with p := fallbackP c.p }.limited none).scheme rfl (fun d => by
      show fallbackP c.p d ≤ 8
      unfold fallbackP
      split_ifs <;> omega) hn t gl gr
    (show Sides c.scheme (fluxWidth ({ c with p := fallbackP c.p }.limited none).scheme (fallbackP c.p)) t
      gl gr by rw [hw]; exact hs) junk mem t' u u fun _ _ => rfl
  refine ⟨dt, h.trans ?_⟩
  rw [hact]
  unfold fallbackFlux
  rw [ho]
  rfl

/-- **C38, convex combination** Whatever the cells reported and the way of spreading: the derivative with
limiting is the divergence of fluxes which, on each face and with one factor for all variables, are a
convex combination of the fluxes of the scheme and of the fallback scheme. The step size is that of
the scheme without limiting. -/
theorem C38_convex (c : EulerConfig K np) (o : LimiterOpts K) (hk : o.toDetectOpts.Known)
    (hd : c.dims ≠ []) (hp : ∀ d, c.p d ≤ 8) (hn : ∀ d, 1 ≤ c.n d) (t : K)
    (gl gr gl' gr' gld grd : Fin 3 → Ghost (State K np))
    (hs : Sides c.scheme (fluxWidth c.scheme c.p) t gl gr)
    (hs' : Sides c.scheme (fluxWidth c.scheme (fallbackP c.p)) t gl' gr')
    (hsd : Sides c.scheme (detectWidth c.scheme) t gld grd)
    (junk : ℕ → Ix → State K np) (mem : Fin 3 → Ix → State K np) (t' : K) (u : Ix → State K np)
    (dt : K) (k : Ix → State K np)
    (h : solverRHS (c.limited (some o)).scheme junk mem t t' u = .ok (dt, k)) :
    (∃ k₀, solverRHS (c.limited none).scheme junk mem t t' u = .ok (dt, k₀)) ∧
    ∃ θ : Fin 3 → Ix → K, (∀ d i, 0 ≤ θ d i ∧ θ d i ≤ 1) ∧
      ∀ i, InCells c.n i → k i = latDiv c.scheme.active c.h (fun d j v =>
        (1 - θ d j) * highFlux c gl gr u d j v + θ d j * fallbackFlux c o gl' gr' u d j v) i := by
  obtain ⟨dt', tr, h1, h2, h3, h4⟩ := limited_rhs c o hk hd hp hn t gl gr gl' gr' gld grd hs hs' hsd junk mem t' u
  rw [h4] at h
  obtain ⟨rfl, hc⟩ := limitedResult_inv c o _ _ dt' dt tr h2 k h
  constructor
  · obtain ⟨dt₀, g1, g2⟩ := rhs_spec (c.limited none).scheme rfl hp hn t gl gr hs junk mem t' u u fun _ _ => rfl
    have : dt₀ = dt := IsDt.unique (S := c.scheme) g1 h1
    subst this
    exact ⟨_, g2⟩
  rcases hc with ⟨_, rfl⟩ | ⟨_, theta, hb, rfl⟩
  · refine ⟨fun _ _ => 0, fun _ _ => ⟨le_rfl, zero_le_one⟩, fun i hi => (if_pos hi).trans ?_⟩
    refine congrArg (fun F => latDiv c.scheme.active c.h F i) ?_
    funext d j v
    simp [highFlux]
  · refine ⟨fun d i => (theta d).get i, fun d i => broadcast_unit hb d i, fun i hi => (if_pos hi).trans ?_⟩
    rfl

/-- **C38, between** So every component of the flux used on a face lies between the components of the two
fluxes. -/
theorem C38_between (c : EulerConfig K np) (o : LimiterOpts K) (hk : o.toDetectOpts.Known)
    (hd : c.dims ≠ []) (hp : ∀ d, c.p d ≤ 8) (hn : ∀ d, 1 ≤ c.n d) (t : K)
    (gl gr gl' gr' gld grd : Fin 3 → Ghost (State K np))
    (hs : Sides c.scheme (fluxWidth c.scheme c.p) t gl gr)
    (hs' : Sides c.scheme (fluxWidth c.scheme (fallbackP c.p)) t gl' gr')
    (hsd : Sides c.scheme (detectWidth c.scheme) t gld grd)
    (junk : ℕ → Ix → State K np) (mem : Fin 3 → Ix → State K np) (t' : K) (u : Ix → State K np)
    (dt : K) (k : Ix → State K np)
    (h : solverRHS (c.limited (some o)).scheme junk mem t t' u = .ok (dt, k)) :
    ∃ F : Fin 3 → Ix → State K np, (∀ i, InCells c.n i → k i = latDiv c.scheme.active c.h F i) ∧
      ∀ d i v, min (highFlux c gl gr u d i v) (fallbackFlux c o gl' gr' u d i v) ≤ F d i v ∧
        F d i v ≤ max (highFlux c gl gr u d i v) (fallbackFlux c o gl' gr' u d i v) := by
  obtain ⟨_, θ, hθ, hF⟩ := C38_convex c o hk hd hp hn t gl gr gl' gr' gld grd hs hs' hsd junk mem t' u dt k h
  refine ⟨_, hF, fun d i v => ?_⟩
  obtain ⟨h0, h1⟩ := hθ d i
  set a := highFlux c gl gr u d i v
  set b := fallbackFlux c o gl' gr' u d i v
  have hm1 := min_le_left a b
  have hm2 := min_le_right a b
  have hM1 := le_max_left a b
  have hM2 := le_max_right a b
  constructor
  · nlinarith [mul_le_mul_of_nonneg_left hm1 (sub_nonneg.2 h1), mul_le_mul_of_nonneg_left hm2 h0]
  · nlinarith [mul_le_mul_of_nonneg_left hM1 (sub_nonneg.2 h1), mul_le_mul_of_nonneg_left hM2 h0]

/-- **C38, nothing troubled** If no cell is reported and `force_trouble` is off, the outcome is exactly that
of the solver without limiting. -/
theorem C38_untroubled (c : EulerConfig K np) (o : LimiterOpts K) (hk : o.toDetectOpts.Known)
    (hd : c.dims ≠ []) (hp : ∀ d, c.p d ≤ 8) (hn : ∀ d, 1 ≤ c.n d) (t : K)
    (gl gr gl' gr' gld grd : Fin 3 → Ghost (State K np))
    (hs : Sides c.scheme (fluxWidth c.scheme c.p) t gl gr)
    (hs' : Sides c.scheme (fluxWidth c.scheme (fallbackP c.p)) t gl' gr')
    (hsd : Sides c.scheme (detectWidth c.scheme) t gld grd) (hf : o.force = false)
    (u : Ix → State K np)
    (hq : ∀ (dt : K) (i : Ix), InCells c.n i → ¬ Reported o.toDetectOpts c.dims c.n (seenPrim c gld grd u)
      (seenPrim c gld grd fun i => u i + dt • latDiv c.scheme.active c.h (highFlux c gl gr u) i) i)
    (junk : ℕ → Ix → State K np) (mem : Fin 3 → Ix → State K np) (t' : K) :
    solverRHS (c.limited (some o)).scheme junk mem t t' u =
      solverRHS (c.limited none).scheme junk mem t t' u := by
  obtain ⟨dt, tr, h1, h2, h3, h4⟩ := limited_rhs c o hk hd hp hn t gl gr gl' gr' gld grd hs hs' hsd junk mem t' u
  obtain ⟨dt₀, g1, g2⟩ := rhs_spec (c.limited none).scheme rfl hp hn t gl gr hs junk mem t' u u fun _ _ => rfl
  have : dt₀ = dt := IsDt.unique (S := c.scheme) g1 h1
  subst this
  rw [h4, g2, limitedResult_quiet]
  · rfl
  · have : used o tr = tr := by unfold used; rw [hf]; rfl
    rw [this, ← Bool.not_eq_true, anyTrue_iff]
    rintro ⟨i, hi, hx⟩
    rw [h2] at hi
    exact hq dt₀ i hi ((h3 i hi).1 hx)

/-- **C38, no tests** In particular with an empty `NAD_vars` and no PAD bounds limiting has no effect, for
any state. -/
theorem C38_no_tests (c : EulerConfig K np) (o : LimiterOpts K) (hk : o.toDetectOpts.Known)
    (hd : c.dims ≠ []) (hw : WellPosed (c.limited (some o)).scheme) (hf : o.force = false)
    (hv : o.nadVars = some []) (hpad : o.pad = [])
    (junk : ℕ → Ix → State K np) (mem : Fin 3 → Ix → State K np) (t t' : K) (u : Ix → State K np) :
    solverRHS (c.limited (some o)).scheme junk mem t t' u =
      solverRHS (c.limited none).scheme junk mem t t' u := by
  obtain ⟨gl, gr, hs⟩ := hw.ghosts.sides t
  obtain ⟨_, w1, w2⟩ := hw.limiter _ rfl
  obtain ⟨gl', gr', hs'⟩ := w1.sides t
  obtain ⟨gld, grd, hsd⟩ := w2.sides t
  refine C38_untroubled c o hk hd hw.degree hw.cells t gl gr gl' gr' gld grd hs hs' hsd hf u ?_ junk mem t'
  rintro dt i _ (⟨v, h1, _⟩ | h)
  · unfold DetectOpts.considers at h1
    rw [hv] at h1
    simp at h1
  · rw [hpad] at h
    exact lt_irrefl _ h

/-- **C38, forced** With `force_trouble` and simple spreading the derivative is the divergence of the fluxes
of the fallback scheme, with the step size of the scheme without limiting. -/
theorem C38_forced (c : EulerConfig K np) (o : LimiterOpts K) (hk : o.toDetectOpts.Known)
    (hd : c.dims ≠ []) (hp : ∀ d, c.p d ≤ 8) (hn : ∀ d, 1 ≤ c.n d) (t : K)
    (gl gr gl' gr' gld grd : Fin 3 → Ghost (State K np))
    (hs : Sides c.scheme (fluxWidth c.scheme c.p) t gl gr)
    (hs' : Sides c.scheme (fluxWidth c.scheme (fallbackP c.p)) t gl' gr')
    (hsd : Sides c.scheme (detectWidth c.scheme) t gld grd)
    (hf : o.force = true) (hc : o.convex = false)
    (junk : ℕ → Ix → State K np) (mem : Fin 3 → Ix → State K np) (t' : K) (u : Ix → State K np) :
    ∃ dt, (∃ k₀, solverRHS (c.limited none).scheme junk mem t t' u = .ok (dt, k₀)) ∧
      solverRHS (c.limited (some o)).scheme junk mem t t' u =
        .ok (dt, fun i => if InCells c.n i then
          latDiv c.scheme.active c.h (fallbackFlux c o gl' gr' u) i else 0) := by
  obtain ⟨dt, tr, h1, h2, h3, h4⟩ := limited_rhs c o hk hd hp hn t gl gr gl' gr' gld grd hs hs' hsd junk mem t' u
  obtain ⟨dt₀, g1, g2⟩ := rhs_spec (c.limited none).scheme rfl hp hn t gl gr hs junk mem t' u u fun _ _ => rfl
  have : dt₀ = dt := IsDt.unique (S := c.scheme) g1 h1
  subst this
  refine ⟨dt₀, ⟨_, g2⟩, ?_⟩
  have hu : used o tr = tr.map fun _ => true := by unfold used; rw [hf]; rfl
  have hu2 : (used o tr).shape = c.n := by rw [used_shape, h2]
  have hT : ∀ i, InCells c.n i → Troubled (used o tr) i := fun i hi =>
    ⟨by rw [hu2]; exact hi, by rw [hu]; rfl⟩
  obtain ⟨theta, hb, hθ⟩ := C35_simple (K := K) c.isPeriodic c.dims (used o tr)
  have hany : anyTrue (used o tr) = true := by
    rw [anyTrue_iff, hu2]
    have h0 : InCells c.n 0 := fun d => ⟨le_rfl, by have := hn d; simp; omega⟩
    exact ⟨0, h0, (hT 0 h0).2⟩
  rw [h4, limitedResult_ok c o _ _ _ tr h2 hany theta (by rw [hc]; exact hb)]
  congr 2
  funext i
  by_cases hi : InCells c.n i
  · refine (if_pos hi).trans (Eq.trans ?_ (if_pos hi).symm)
    refine latDiv_congr c.scheme _ _ i hi fun d j hdj hj => ?_
    change InFaces c.n d j at hj
    have hone : (theta d).get j = 1 := by
      refine ((hθ d).2 j (by rw [hu2]; exact hj)).1 ⟨(mem_dims c d).2 hdj, ?_⟩
      by_cases h0 : j d = 0
      · refine Or.inr (hT j fun e => ?_)
        have := hj e
        by_cases he : e = d
        · subst he
          have h1 := hn e
          omega
        · rw [Pi.single_eq_of_ne he, add_zero] at this
          exact this
      · refine Or.inl (hT _ fun e => ?_)
        have := hj e
        rw [Pi.sub_apply]
        by_cases he : e = d
        · subst he
          rw [Pi.single_eq_same] at this ⊢
          omega
        · rw [Pi.single_eq_of_ne he] at this ⊢
          omega
    unfold blendFlux fallbackFlux
    dsimp only
    rw [hone, sub_self, zero_smul, one_smul, zero_add]
  · exact (if_neg hi).trans (if_neg hi).symm

/-- **C11, limiter** With simple spreading, and with convex spreading in one or two dimensions unless z
is active with periodic sides and the other active direction does not have 5 cells, the right-hand side
with limiting returns. -/
theorem C11_limited_returns (c : EulerConfig K np) (o : LimiterOpts K) (hk : o.toDetectOpts.Known)
    (hd : c.dims ≠ []) (hw : WellPosed (c.limited (some o)).scheme)
    (hc : o.convex = false ∨ ((∃ a, c.dims = [a]) ∨ ∃ a b, c.dims = [a, b] ∧
      ¬ (b = 2 ∧ (c.bc.kind 2 .l = .periodic ∧ c.bc.kind 2 .r = .periodic) ∧ c.n a ≠ 5)))
    (junk : ℕ → Ix → State K np) (mem : Fin 3 → Ix → State K np) (t t' : K) (u : Ix → State K np) :
    ∃ r, solverRHS (c.limited (some o)).scheme junk mem t t' u = .ok r := by
  obtain ⟨gl, gr, hs⟩ := hw.ghosts.sides t
  obtain ⟨_, w1, w2⟩ := hw.limiter _ rfl
  obtain ⟨gl', gr', hs'⟩ := w1.sides t
  obtain ⟨gld, grd, hsd⟩ := w2.sides t
  obtain ⟨dt, tr, h1, h2, h3, h4⟩ := limited_rhs c o hk hd hw.degree hw.cells t gl gr gl' gr' gld grd hs hs' hsd
    junk mem t' u
  rw [h4]
  have hu : (used o tr).shape = c.n := by rw [used_shape, h2]
  have hb : ∃ theta, broadcastTrouble K o.convex c.isPeriodic c.dims (used o tr) = .ok theta := by
    cases hcv : o.convex with
    | false =>
      obtain ⟨theta, hb, _⟩ := C35_simple (K := K) c.isPeriodic c.dims (used o tr)
      exact ⟨theta, hb⟩
    | true =>
      rcases hc with hc | ⟨a, ha⟩ | ⟨a, b, hab, hno⟩
      · rw [hcv] at hc; cases hc
      · rw [ha]
        obtain ⟨theta, w, hb, _⟩ := C36_line (K := K) (used o tr) a (fun e he => by
          rw [hu]
          exact dims_cells c e (by rw [ha]; simpa using he)) (by rw [hu]; exact hw.cells a) c.isPeriodic
        exact ⟨theta, hb⟩
      · rw [hab]
        have hlt : a < b := by
          have := dims_sorted c
          rw [hab] at this
          simpa using this
        refine (C36_plane (K := K) (used o tr) a b hlt (fun e h5 h6 => ?_) (fun e => ?_) c.isPeriodic).1 ?_
        · rw [hu]
          exact dims_cells c e (by rw [hab]; simp [h5, h6])
        · rw [hu]
          exact hw.cells e
        · rw [hu]
          exact fun h => hno ⟨h.1, of_decide_eq_true h.2.1, h.2.2⟩
  obtain ⟨theta, hb⟩ := hb
  cases ha : anyTrue (used o tr) with
  | false => exact ⟨_, limitedResult_quiet c o _ _ dt tr ha⟩
  | true => exact ⟨_, limitedResult_ok c o _ _ dt tr h2 ha theta hb⟩

/-! ## Concrete cases -/

/-- The channel with the default limiter meets the hypotheses: it is well posed, two directions are active
and z is not. -/
example : convexLimiter.toDetectOpts.Known ∧ (scalarChannel 1).dims = [0, 1] ∧
    WellPosed ((scalarChannel 1).limited (some convexLimiter)).scheme ∧
    (∃ r, solverRHS ((scalarChannel 1).limited (some convexLimiter)).scheme (fun _ _ => 0) (fun _ _ => 0) 0 0
      (fun i v => 1 + i 0) = .ok r) := by
  have hd : (scalarChannel 1).dims = [0, 1] := rfl
  have hk : convexLimiter.toDetectOpts.Known := ⟨Or.inl rfl, Or.inl rfl⟩
  refine ⟨hk, hd, channel_wellPosed 1 _, ?_⟩
  exact C11_limited_returns _ _ hk (by rw [hd]; simp) (channel_wellPosed 1 _)
    (Or.inr (Or.inr ⟨0, 1, hd, fun h => absurd h.1 (by decide)⟩)) _ _ _ _ _

/-- The three continuations exist. -/
example : ∃ gl gr gl' gr' gld grd, Sides (scalarChannel 1).scheme
      (fluxWidth (scalarChannel 1).scheme (scalarChannel 1).p) 0 gl gr ∧
    Sides (scalarChannel 1).scheme (fluxWidth (scalarChannel 1).scheme (fallbackP (scalarChannel 1).p)) 0 gl' gr' ∧
    Sides (scalarChannel 1).scheme (detectWidth (scalarChannel 1).scheme) 0 gld grd := by
  obtain ⟨gl, gr, hs⟩ := (channel_wellPosed 1 (some convexLimiter)).ghosts.sides 0
  obtain ⟨_, w1, w2⟩ := (channel_wellPosed 1 (some convexLimiter)).limiter _ rfl
  obtain ⟨gl', gr', hs'⟩ := w1.sides 0
  obtain ⟨gld, grd, hsd⟩ := w2.sides 0
  exact ⟨gl, gr, gl', gr', gld, grd, hs, hs', hsd⟩

end FVHOE
