import Verif.Proofs.Walls
import Verif.Proofs.Limited
import Verif.Props.C66

/-!
C67: nothing passes through a reflective wall.
-/

set_option linter.unusedSectionVars false

namespace FVHOE

variable {K : Type} [Field K] [LinearOrder K] [IsStrictOrderedRing K] {np : ℕ}

/-! ## One wall -/

/-- The position of a side of an axis with `n` cells. -/
def wallAt (n : ℕ) : Side → ℤ
  | .l => 0
  | .r => n

theorem extAxis_mirrored {c : EulerConfig K np} {d e : Fin 3} (he : e ≠ d) (x : ℤ) (Φ : Ix → State K np)
    (h : ∀ i, Φ (Function.update i d (x - i d)) = mirrorState d (Φ i)) (i : Ix) :
    extAxis (c.n e) e (c.scheme.ghost .l e) (c.scheme.ghost .r e) Φ (Function.update i d (x - i d)) =
      mirrorState d (extAxis (c.n e) e (c.scheme.ghost .l e) (c.scheme.ghost .r e) Φ i) := by
  have hfn : ∀ s v, (c.scheme.ghost s e).fn (mirrorState d v) = mirrorState d ((c.scheme.ghost s e).fn v) := by
    intro s v
    rcases ghost_fn c s e with h | h <;> rw [h]
    · rfl
    · rw [← negateMom_mirror, ← negateMom_mirror, negateMom_comm]
  rw [extAxis_plain _ _ (ghost_plain ..) (ghost_plain ..), extAxis_plain _ _ (ghost_plain ..) (ghost_plain ..),
    Function.update_of_ne he, Function.update_comm he.symm]
  generalize axIx (c.n e : ℤ) (c.scheme.ghost .l e) (c.scheme.ghost .r e) (i e) = y
  have := h (Function.update i e y)
  rw [Function.update_of_ne he.symm] at this
  rw [this]
  unfold axFn
  split_ifs
  · exact hfn _ _
  · exact hfn _ _
  · rfl

/-- Some continuation of the data that the solver cannot tell from its own is symmetric about the wall. -/
theorem wall_seen (c : EulerConfig K np) (hn : ∀ e, 1 ≤ c.n e) (d : Fin 3) (s : Side) (ha : c.scheme.active d = true)
    (hk : c.bc.kind d s = .reflective) (u : Ix → State K np) : ∃ U : Ix → State K np, (∀ i, InCells c.n i → u i = U i) ∧
      ∀ i, padded c.scheme U (Function.update i d (2 * wallAt (c.n d) s - 1 - i d)) =
        mirrorState d (padded c.scheme U i) := by
  have hg : c.scheme.ghost s d = .mirror (negateMom d) := by
    unfold Scheme.ghost
    rw [if_pos ha, show c.scheme.bc.kind d s = .reflective from hk]
    rfl
  have hn' := hn d
  have h1 : Equiv.swap 0 d 1 ≠ d := swap_ne d 1 (by decide)
  have h2 : Equiv.swap 0 d 2 ≠ d := swap_ne d 2 (by decide)
  have hz : ∀ i : Ix, ∀ x : ℤ, (x < 0 ∨ (c.n d : ℤ) ≤ x) → clip c.n u (Function.update i d x) = 0 := by
    intro i x hx
    unfold clip
    rw [if_neg]
    intro h
    have := h d
    rw [Function.update_self] at this
    omega
  have huc : ∀ i, InCells c.n i → 0 ≤ i d ∧ i d < (c.n d : ℤ) := fun i hi => hi d
  -- the continuation along the axis, without the mirror image behind the wall
  obtain ⟨E, hE⟩ : ∃ E : Ix → State K np, E = extAxis (c.n d) d (c.scheme.ghost .l d) (c.scheme.ghost .r d)
    (clip c.n u) := ⟨_, rfl⟩
  have hcell : ∀ i, 0 ≤ i d → i d < (c.n d : ℤ) → E i = clip c.n u i := by
    intro i h0 h1
    rw [hE]
    unfold extAxis
    rw [if_neg (by omega), if_neg (by omega)]
  cases s with
  | l =>
    obtain ⟨U, hU⟩ : ∃ U : Ix → State K np, U = fun i => if i d < 0 then 0 else E i := ⟨_, rfl⟩
    have hlow : ∀ i x, x < (c.n d : ℤ) → U (Function.update i d x) = clip c.n u (Function.update i d x) := by
      intro i x hx
      rw [hU]
      beta_reduce
      rw [Function.update_self]
      split_ifs with h
      · exact (hz i x (.inl h)).symm
      · exact hcell _ (by rw [Function.update_self]; omega) (by rw [Function.update_self]; omega)
    have hright : ∀ i, 0 ≤ i d → extAxis (c.n d) d (c.scheme.ghost .l d) (c.scheme.ghost .r d) U i = E i := by
      intro i hi
      rw [hE]
      unfold extAxis
      rw [if_neg (show ¬i d < 0 by omega)]
      try rw [if_neg (show ¬i d < 0 by omega)]
      split_ifs with h
      · have hp := ghost_plain c .r d
        revert hp
        cases c.scheme.ghost .r d <;> intro hp
        · exact hlow _ _ (by omega)
        · exact congrArg _ (hlow _ _ (by omega))
        · exact hlow _ _ (Int.emod_lt_of_pos _ (by omega))
        · exact hp.elim
      · have := hlow i (i d) (by omega)
        rwa [Function.update_eq_self] at this
    have hleft : ∀ i, i d < 0 → extAxis (c.n d) d (c.scheme.ghost .l d) (c.scheme.ghost .r d) U i =
        mirrorState d (E (Function.update i d (-1 - i d))) := by
      intro i hi
      unfold extAxis
      rw [if_pos hi, hg]
      unfold Ghost.left
      dsimp only
      rw [negateMom_mirror, hU]
      beta_reduce
      rw [Function.update_self, if_neg (by omega)]
    refine ⟨U, fun i hi => ?_, ?_⟩
    · have := hlow i (i d) (huc i hi).2
      rw [Function.update_eq_self] at this
      rw [this]
      exact (if_pos hi).symm
    · rw [padded_first c d]
      refine extAxis_mirrored h2 _ _ (extAxis_mirrored h1 _ _ fun i => ?_)
      show extAxis _ _ _ _ _ (Function.update i d (2 * 0 - 1 - i d)) = _
      rw [mul_zero, zero_sub]
      by_cases hi : i d < 0
      · rw [hright _ (by rw [Function.update_self]; omega), hleft i hi, mirror_mirror]
      · rw [hleft _ (by rw [Function.update_self]; omega), hright i (by omega), Function.update_self,
          Function.update_idem, sub_sub_cancel, Function.update_eq_self]
  | r =>
    obtain ⟨U, hU⟩ : ∃ U : Ix → State K np, U = fun i => if (c.n d : ℤ) ≤ i d then 0 else E i := ⟨_, rfl⟩
    have hlow : ∀ i x, 0 ≤ x → U (Function.update i d x) = clip c.n u (Function.update i d x) := by
      intro i x hx
      rw [hU]
      beta_reduce
      rw [Function.update_self]
      split_ifs with h
      · exact (hz i x (.inr h)).symm
      · exact hcell _ (by rw [Function.update_self]; omega) (by rw [Function.update_self]; omega)
    have hright : ∀ i : Ix, i d < (c.n d : ℤ) → extAxis (c.n d) d (c.scheme.ghost .l d) (c.scheme.ghost .r d) U i = E i := by
      intro i hi
      rw [hE]
      unfold extAxis
      by_cases h : i d < 0
      · simp only [if_pos h]
        have hp := ghost_plain c .l d
        revert hp
        cases c.scheme.ghost .l d <;> intro hp
        · exact hlow _ _ le_rfl
        · exact congrArg _ (hlow _ _ (by omega))
        · exact hlow _ _ (Int.emod_nonneg _ (by omega))
        · exact hp.elim
      · simp only [if_neg h, if_neg (show ¬(c.n d : ℤ) ≤ i d by omega)]
        have := hlow i (i d) (by omega)
        rwa [Function.update_eq_self] at this
    have hleft : ∀ i, (c.n d : ℤ) ≤ i d → extAxis (c.n d) d (c.scheme.ghost .l d) (c.scheme.ghost .r d) U i =
        mirrorState d (E (Function.update i d (2 * c.n d - 1 - i d))) := by
      intro i hi
      unfold extAxis
      rw [if_neg (by omega), if_pos hi, hg]
      unfold Ghost.right
      dsimp only
      rw [negateMom_mirror, hU]
      beta_reduce
      rw [Function.update_self, if_neg (by omega)]
    refine ⟨U, fun i hi => ?_, ?_⟩
    · have := hlow i (i d) (huc i hi).1
      rw [Function.update_eq_self] at this
      rw [this]
      exact (if_pos hi).symm
    · rw [padded_first c d]
      refine extAxis_mirrored h2 _ _ (extAxis_mirrored h1 _ _ fun i => ?_)
      show extAxis _ _ _ _ _ (Function.update i d (2 * (c.n d : ℤ) - 1 - i d)) = _
      by_cases hi : i d < (c.n d : ℤ)
      · rw [hleft _ (by rw [Function.update_self]; omega), hright i (by omega), Function.update_self,
          Function.update_idem, sub_sub_cancel, Function.update_eq_self]
      · rw [hright _ (by rw [Function.update_self]; omega), hleft i (by omega), mirror_mirror]

/-- The values at the faces of a side are physical, however the data are continued beyond the cells before the
boundary conditions are applied (which makes no difference to these values). -/
def SidePhysical (c : EulerConfig K np) (d : Fin 3) (s : Side) (u : Ix → State K np) : Prop :=
  ∀ U : Ix → State K np, (∀ i, InCells c.n i → u i = U i) → ∀ i j, InFaces c.n d i → i d = wallAt (c.n d) s →
    NearFace c.p d i j → Physical (faceR K c.p d (latPrim K c.scheme.prim c.p (padded c.scheme U)) j)

/-- **C67** (one wall) Through the faces of a reflective side the computed flux carries no mass, energy, transverse
momentum or passive mass: only normal momentum. For llf; for hllc if the values at these faces are physical. The other
sides may be of any kind without prescribed values. -/
theorem C67_wall (c : EulerConfig K np) (hl : c.limiting = none) (hp : ∀ e, c.p e ≤ 8) (hn : ∀ e, 1 ≤ c.n e)
    (hs : PlainSides c.scheme (fluxWidth c.scheme c.p)) (d : Fin 3) (s : Side) (ha : c.scheme.active d = true)
    (hk : c.bc.kind d s = .reflective) (t : K) (junk : ℕ → Ix → State K np) (mem : Fin 3 → Ix → State K np)
    (u : Ix → State K np) (hr : c.riem = .llf ∨ (c.riem = .hllc ∧ c.gas.OK ∧ SidePhysical c d s u))
    (dt : K) (F : Fin 3 → Arr (State K np))
    (h : solverFluxes c.scheme t junk (c.scheme.mem mem) ⟨c.scheme.n, u⟩ = .ok (dt, F))
    (i : Ix) (hi : InFaces c.n d i) (hw : i d = wallAt (c.n d) s) (v : Var np) (hv : v ≠ .mom d) : (F d).get i v = 0 := by
  have hin : ∀ e, c.scheme.active e = false → fluxWidth c.scheme c.p e = 0 := by
    intro e he
    have hp0 : c.p e = 0 := c.scheme.inactive_p e he
    simp [fluxWidth, he, hp0, ceilHalf]
  obtain ⟨U, hU, hsym⟩ := wall_seen c hn d s ha hk u
  obtain ⟨dt0, F0, e, -, hF⟩ := hydrofluxes_spec c.scheme c.p hp c.scheme.inactive_p hn none (by simp) t _ _
    (hs.sides hn hin t) (junk 0) u U hU (c.scheme.mem mem)
  unfold solverFluxes at h
  obtain ⟨r0, hr0, h⟩ := bind_ok h
  rw [show hydrofluxes c.scheme t (junk 0) (c.scheme.mem mem) c.scheme.p none ⟨c.scheme.n, u⟩ = _ from e] at hr0
  cases hr0
  obtain ⟨F1, hFF, h⟩ := bind_ok h
  obtain ⟨F2, hF', h⟩ := bind_ok h
  cases h
  unfold limitFluxes at hF'
  rw [show c.scheme.limiting = none from hl] at hF'
  cases hF'
  have h1 := forDims_inv _ _ hFF d
  obtain ⟨C, eC, rC⟩ := assign_rep (mem d) ((hF d).1 ha)
  have h2 : (c.scheme.mem mem d).assign (F0 d) = .ok C := eC
  rw [h2] at h1
  cases h1
  have hget := rC.get_at i fun e => by
    have := hi e
    exact ⟨by simpa using this.1, by
      have h := this.2
      rw [show c.scheme.n e = c.n e from rfl]
      by_cases he : e = d
      · subst he
        simpa using h
      · simpa [he] using h⟩
  rw [sub_zero] at hget
  rw [hget]
  refine wall_flux hp d none (fun s hs => by cases hs) c.riem c.gas _ (i d) (fun j => ?_) i rfl ?_ v hv
  · have hs2 : (fun i => turnState K np 1 (only d) (padded c.scheme U (tau 1 (only d)
        (fun _ => 2 * wallAt (c.n d) s - 1) i))) = padded c.scheme U := by
      funext i
      rw [tau_only', turn_only, hsym, mirror_mirror]
    have := congrFun (latPrim_tau 1 (only d) (fun _ => 2 * wallAt (c.n d) s - 1) (turnState K np 1 (only d)) hp
      c.scheme.prim (prim_turn 1 (only d) _) (padded c.scheme U)) j
    rw [hs2, tau_only', turn_only] at this
    rw [hw]
    change latPrim K c.scheme.prim c.p (padded c.scheme U) j =
      mirrorState d (latPrim K c.scheme.prim c.p (padded c.scheme U) _) at this
    change latPrim K c.scheme.prim c.p (padded c.scheme U) _ =
      mirrorState d (latPrim K c.scheme.prim c.p (padded c.scheme U) j)
    rw [this, mirror_mirror]
  · rcases hr with e | ⟨e, hG, hP⟩
    · exact .inl e
    · exact .inr ⟨e, hG, fun j hj => hP U hU i j hi hw hj⟩

/-! ## Closed domains -/

theorem cellSum_apply (n : Fin 3 → ℕ) (f : Ix → State K np) (v : Var np) :
    cellSum n f v = cellSum n fun i => f i v := by
  unfold cellSum
  simp only [Finset.sum_apply]

/-- The layer of wall faces. -/
theorem layer_faces {n : Fin 3 → ℕ} {d : Fin 3} {i : Ix} {x : ℤ} (h0 : 0 ≤ x) (h1 : x ≤ n d) (hi : i d = x)
    (h : ∀ e, e ≠ d → 0 ≤ i e ∧ i e < (n e : ℤ)) : InFaces n d i := by
  intro e
  by_cases he : e = d
  · subst he
    rw [Pi.single_eq_same]
    omega
  · rw [Pi.single_eq_of_ne he]
    have := h e he
    omega

/-- One evaluation in a closed domain without limiting: the derivatives of the totals of mass, energy, passive mass
and momentum along axes without walls vanish. -/
theorem C67_rhs (c : EulerConfig K np) (hc : ClosedBox c) (hl : c.limiting = none)
    (hw : ∀ d, c.scheme.active d = true → fluxWidth c.scheme c.p d ≤ c.n d)
    (junk : ℕ → Ix → State K np) (mem : Fin 3 → Ix → State K np) (t t' : K) (u : Ix → State K np)
    (hr : WallSolver c c.p none u) (dt : K) (D : Ix → State K np)
    (h : solverRHS c.scheme junk mem t t' u = .ok (dt, D)) (v : Var np) (hv : ∀ d, c.walled d = true → v ≠ .mom d) :
    cellSum c.n D v = 0 := by
  have hin : ∀ e, c.scheme.active e = false → fluxWidth c.scheme c.p e = 0 := by
    intro e he
    have hp0 : c.p e = 0 := c.scheme.inactive_p e he
    simp [fluxWidth, he, hp0, ceilHalf]
  obtain ⟨dt', -, e⟩ := rhs_spec c.scheme hl hc.degree hc.cells t _ _ ((hc.sides _ hw).sides hc.cells hin t) junk mem t' u
    (boxed c u) fun i hi => (boxed_cell c u i hi).symm
  rw [h] at e
  cases e
  change (cellSum c.scheme.n _ : State K np) v = 0
  rw [cellSum_congr _ _ _ fun i hi => if_pos (show InCells c.scheme.n i from hi)]
  have e2 := latDiv_sum c.scheme (schemeFlux c.scheme c.scheme.p none
    (extAll c.scheme.n (c.scheme.ghost .l) (c.scheme.ghost .r) (boxed c u)))
  refine (congrFun e2 v).trans ?_
  rw [show extAll c.scheme.n (c.scheme.ghost .l) (c.scheme.ghost .r) (boxed c u) = boxed c u from hc.padded u,
    Finset.sum_apply]
  refine Finset.sum_eq_zero fun d _ => ?_
  split_ifs with ha
  · by_cases hd : c.walled d = true
    · have key : ∀ x : ℤ, (x = 0 ∨ x = c.n d) → layerSum c.scheme.n d x
          (schemeFlux c.scheme c.scheme.p none (boxed c u) d) ∈ normalOnly K np d := by
        intro x hx
        refine layerSum_mem _ _ _ _ _ fun i hi hj => ?_
        refine boxed_wall hc hc.degree none (fun d s hs => by cases hs) u hr d hd i
          (layer_faces (by omega) (by omega) hi hj) (by rw [hi]; exact hx)
      exact (normalOnly K np d).smul_mem _ ((normalOnly K np d).sub_mem (key _ (.inr rfl)) (key _ (.inl rfl))) v (hv d hd)
    · rw [layerSum_periodic, sub_self, smul_zero]
      · rfl
      · exact fun i => boxed_ends c c.p none u d (by simpa using hd) i
  · rfl

/-- **C67** (llf) In a domain every axis of which is periodic or lies between two reflective walls, with limiting off:
whatever the integrator, the arguments of `integrate`, the step sizes and the memory contents, if the call returns
(even with an exception part way) the totals of mass, energy, passive mass and of the momentum components along the
axes without walls are what they were. -/
theorem C67_llf (c : EulerConfig K np) (hc : ClosedBox c) (hl : c.limiting = none) (hr : c.riem = .llf)
    (hw : ∀ d, c.scheme.active d = true → fluxWidth c.scheme c.p d ≤ c.n d)
    (f : RHS K (Ix → State K np)) (hf : IsSolverRHS c.scheme f) {Sn : Type} (m : Integrator)
    (mk : ODEState K (Ix → State K np) Sn → Sn) (fuel : ℕ) (a : IntegrateArgs K Sn)
    (st : ODEState K (Ix → State K np) Sn) (out : Outcome K (Ix → State K np) Sn)
    (h : st.integrate (stepper f m) mk fuel a = some out) (v : Var np) (hv : ∀ d, c.walled d = true → v ≠ .mom d) :
    cellSum c.n (fun i => out.1.u i v) = cellSum c.n fun i => st.u i v := by
  let ℓ : (Ix → State K np) →ₗ[K] K :=
    { toFun := fun w => cellSum c.n w v
      map_add' := fun x y => congrFun (cellSum_add c.n x y) v
      map_smul' := fun k x => congrFun (cellSum_smul c.n k x) v }
  rw [← cellSum_apply, ← cellSum_apply]
  refine C28_linear_invariant ℓ f ?_ m mk fuel a st out h
  intro s t u dt k hk
  obtain ⟨junk, mem, e⟩ := hf s t u
  rw [hk] at e
  exact C67_rhs c hc hl hw junk mem s t u (.inl hr) dt k e.symm v hv

/-- **C67** (hllc) The same for hllc, for a run that meets only states with physical values at the wall faces. -/
theorem C67_hllc (c : EulerConfig K np) (hc : ClosedBox c) (hl : c.limiting = none) (hr : c.riem = .hllc)
    (hG : c.gas.OK) (hw : ∀ d, c.scheme.active d = true → fluxWidth c.scheme c.p d ≤ c.n d)
    (f : RHS K (Ix → State K np)) (hf : IsSolverRHS c.scheme f) {Sn : Type} (m : Integrator)
    (mk : ODEState K (Ix → State K np) Sn → Sn) (fuel : ℕ) (a : IntegrateArgs K Sn)
    (st out : ODEState K (Ix → State K np) Sn)
    (h : st.integrate (stepper (onlyOn (WallsPhysical c c.p none) f) m) mk fuel a = some (out, none))
    (v : Var np) (hv : ∀ d, c.walled d = true → v ≠ .mom d) :
    st.integrate (stepper f m) mk fuel a = some (out, none) ∧
      cellSum c.n (fun i => out.u i v) = cellSum c.n fun i => st.u i v := by
  refine ⟨integrate_refine _ _ (onlyOn_sub _ f) m _ fuel _ st out h, ?_⟩
  let ℓ : (Ix → State K np) →ₗ[K] K :=
    { toFun := fun w => cellSum c.n w v
      map_add' := fun x y => congrFun (cellSum_add c.n x y) v
      map_smul' := fun k x => congrFun (cellSum_smul c.n k x) v }
  rw [← cellSum_apply, ← cellSum_apply]
  refine C28_linear_invariant ℓ _ ?_ m mk fuel a st _ h
  intro s t u dt k hk
  unfold onlyOn at hk
  split at hk
  · rename_i hg
    obtain ⟨junk, mem, e⟩ := hf s t u
    rw [hk] at e
    exact C67_rhs c hc hl hw junk mem s t u (.inr ⟨hr, hG, hg⟩) dt k e.symm v hv
  · cases hk

/-- One evaluation with limiting, all active axes between walls. -/
theorem C67_limited_rhs (c : EulerConfig K np) (o : LimiterOpts K) (ht : 0 < o.tiny) (hc : ClosedBox c)
    (hlim : c.limiting = some (o.limiting c.dims c.isPeriodic))
    (hall : ∀ d, c.scheme.active d = true → c.walled d = true)
    (hw : ∀ d, c.scheme.active d = true → fluxWidth c.scheme c.p d ≤ c.n d ∧
      fluxWidth c.scheme (fallbackP c.p) d ≤ c.n d)
    (junk : ℕ → Ix → State K np) (mem : Fin 3 → Ix → State K np) (t t' : K) (u : Ix → State K np)
    (hr : WallSolver c c.p none u) (hr' : WallSolver c (fallbackP c.p) (o.slope.map (SlopeKind.fn o.tiny)) u) (dt : K)
    (D : Ix → State K np) (h : solverRHS c.scheme junk mem t t' u = .ok (dt, D)) (v : Var np)
    (hv : ∀ d, c.walled d = true → v ≠ .mom d) : cellSum c.n D v = 0 := by
  have hin : ∀ e, c.scheme.active e = false → fluxWidth c.scheme c.p e = 0 := by
    intro e he
    have hp0 : c.p e = 0 := c.scheme.inactive_p e he
    simp [fluxWidth, he, hp0, ceilHalf]
  have hin' : ∀ e, c.scheme.active e = false → fluxWidth c.scheme (fallbackP c.p) e = 0 := by
    intro e he
    have hp0 : c.p e = 0 := c.scheme.inactive_p e he
    simp [fluxWidth, fallbackP, he, hp0, ceilHalf]
  obtain ⟨θ, -, e, -⟩ := rhs_blend c.scheme _ hlim hc.degree hc.cells t _ _ _ _
    ((hc.sides _ fun d hd => (hw d hd).1).sides hc.cells hin t)
    ((hc.sides _ fun d hd => (hw d hd).2).sides hc.cells hin' t) junk mem t' u
    (boxed c u) (fun i hi => (boxed_cell c u i hi).symm) dt D h
  change (cellSum c.scheme.n _ : State K np) v = 0
  rw [e, cellSum_congr _ _ _ fun i hi => if_pos (show InCells c.scheme.n i from hi)]
  have e2 := latDiv_sum c.scheme (blendFlux θ (schemeFlux c.scheme c.scheme.p none
    (extAll c.scheme.n (c.scheme.ghost .l) (c.scheme.ghost .r) (boxed c u)))
    (schemeFlux c.scheme (fallbackP c.scheme.p) (o.slope.map (SlopeKind.fn o.tiny))
    (extAll c.scheme.n (c.scheme.ghost .l) (c.scheme.ghost .r) (boxed c u))))
  refine (congrFun e2 v).trans ?_
  rw [show extAll c.scheme.n (c.scheme.ghost .l) (c.scheme.ghost .r) (boxed c u) = boxed c u from hc.padded u,
    Finset.sum_apply]
  refine Finset.sum_eq_zero fun d _ => ?_
  split_ifs with ha
  · have hd := hall d ha
    have key : ∀ x : ℤ, (x = 0 ∨ x = c.n d) → layerSum c.scheme.n d x
        (blendFlux θ (schemeFlux c.scheme c.scheme.p none (boxed c u)) (schemeFlux c.scheme (fallbackP c.scheme.p)
          (o.slope.map (SlopeKind.fn o.tiny)) (boxed c u)) d) ∈ normalOnly K np d := by
      intro x hx
      refine layerSum_mem _ _ _ _ _ fun i hi hj => ?_
      have hf := layer_faces (n := c.n) (by omega) (by omega) hi hj
      have hx' : i d = 0 ∨ i d = c.n d := by rw [hi]; exact hx
      exact (normalOnly K np d).add_mem
        ((normalOnly K np d).smul_mem _ (boxed_wall hc hc.degree none (fun d s hs => by cases hs) u hr d hd i hf hx'))
        ((normalOnly K np d).smul_mem _ (boxed_wall hc (fun e => (fallbackP_le _ e).trans (by omega)) _
          (fun d => slopeKind_mirror o.tiny ht o.slope d) u hr' d hd i hf hx'))
    exact (normalOnly K np d).smul_mem _ ((normalOnly K np d).sub_mem (key _ (.inr rfl)) (key _ (.inl rfl))) v (hv d hd)
  · rfl

/-- **C67** (limiting) With all active axes between reflective walls and llf, the totals are kept exactly with
a-posteriori limiting as well, for all options of the limiter and whichever cells are reported: both fluxes that are
blended at a wall face vanish. -/
theorem C67_limited (c : EulerConfig K np) (o : LimiterOpts K) (ht : 0 < o.tiny) (hc : ClosedBox c)
    (hall : ∀ d, c.scheme.active d = true → c.walled d = true) (hr : c.riem = .llf)
    (hw : ∀ d, c.scheme.active d = true → fluxWidth c.scheme c.p d ≤ c.n d ∧
      fluxWidth c.scheme (fallbackP c.p) d ≤ c.n d)
    (f : RHS K (Ix → State K np)) (hf : IsSolverRHS (c.limited (some o)).scheme f) {Sn : Type} (m : Integrator)
    (mk : ODEState K (Ix → State K np) Sn → Sn) (fuel : ℕ) (a : IntegrateArgs K Sn)
    (st : ODEState K (Ix → State K np) Sn) (out : Outcome K (Ix → State K np) Sn)
    (h : st.integrate (stepper f m) mk fuel a = some out) (v : Var np) (hv : ∀ d, c.walled d = true → v ≠ .mom d) :
    cellSum c.n (fun i => out.1.u i v) = cellSum c.n fun i => st.u i v := by
  let ℓ : (Ix → State K np) →ₗ[K] K :=
    { toFun := fun w => cellSum c.n w v
      map_add' := fun x y => congrFun (cellSum_add c.n x y) v
      map_smul' := fun k x => congrFun (cellSum_smul c.n k x) v }
  rw [← cellSum_apply, ← cellSum_apply]
  refine C28_linear_invariant ℓ f ?_ m mk fuel a st out h
  intro s t u dt k hk
  obtain ⟨junk, mem, e⟩ := hf s t u
  rw [hk] at e
  exact C67_limited_rhs (c.limited (some o)) o ht ⟨hc.cells, hc.degree, hc.closed⟩ rfl hall hw junk mem s t u (.inl hr)
    (.inl hr) dt k e.symm v hv

/-! ## Cases -/

/-- A channel: walls along `x`, periodic along `y`, degrees 3 and 2. -/
noncomputable def ductConfig (k : RiemannKind) : EulerConfig ℝ 1 where
  gas := airGas
  riem := k
  n := ![8, 9, 1]
  p := ![3, 2, 0]
  h := ![1, 2, 3]
  cfl := 1 / 2
  fixedDt := none
  bc := ⟨![fun _ => .reflective, fun _ => .periodic, fun _ => .periodic], fun _ _ => .other, none⟩
  limiting := none

/-- The hypotheses hold for the channel: mass, energy, passive mass and `y` momentum are kept. -/
example (k : RiemannKind) : ClosedBox (ductConfig k) ∧
    (∀ d, (ductConfig k).scheme.active d = true →
      fluxWidth (ductConfig k).scheme (ductConfig k).p d ≤ (ductConfig k).n d) ∧
    (∀ v : Var 1, (v = .rho ∨ v = .en ∨ v = .mom 1 ∨ v = .ps 0) →
      ∀ d, (ductConfig k).walled d = true → v ≠ .mom d) := by
  refine ⟨⟨?_, ?_, ?_⟩, ?_, ?_⟩
  · cases k <;> decide
  · cases k <;> decide
  · intro d hd
    have : d = 0 ∨ d = 1 := by
      revert hd d
      cases k <;> decide
    rcases this with rfl | rfl
    · exact .inl fun _ => rfl
    · exact .inr fun _ => rfl
  · cases k <;> decide
  · intro v hv d hd
    have : d = 0 := by
      revert hd d
      cases k <;> decide
    subst this
    rcases hv with rfl | rfl | rfl | rfl <;> simp

/-- A tube closed on the left and open on the right. -/
noncomputable def halfOpenConfig (k : RiemannKind) : EulerConfig ℝ 1 :=
  { boxConfig k with bc := ⟨fun _ s => match s with | .l => .reflective | .r => .free, fun _ _ => .other, none⟩ }

/-- The hypotheses of `C67_wall` on the configuration hold for its left end. -/
example (k : RiemannKind) : (halfOpenConfig k).limiting = none ∧ (∀ e, (halfOpenConfig k).p e ≤ 8) ∧
    (∀ e, 1 ≤ (halfOpenConfig k).n e) ∧
    PlainSides (halfOpenConfig k).scheme (fluxWidth (halfOpenConfig k).scheme (halfOpenConfig k).p) ∧
    (halfOpenConfig k).scheme.active 0 = true ∧ (halfOpenConfig k).bc.kind 0 .l = .reflective := by
  have e : fluxWidth (halfOpenConfig k).scheme (halfOpenConfig k).p = ![4, 0, 0] := by cases k <;> decide
  refine ⟨rfl, ?_, ?_, ?_, by cases k <;> decide, rfl⟩
  · cases k <;> decide
  · cases k <;> decide
  · rw [e]
    intro d hd
    have : d = 0 := by
      revert hd d
      cases k <;> decide
    subst this
    refine ⟨fun s => ?_, fun h => by cases h⟩
    cases s
    · exact .inr ⟨.inr (.inl rfl), by cases k <;> decide⟩
    · exact .inl rfl

/-- The tube between two walls meets the hypotheses of `C67_limited`, here with minmod and blending. -/
example : ClosedBox (boxConfig .llf) ∧
    (∀ d, (boxConfig .llf).scheme.active d = true → (boxConfig .llf).walled d = true) ∧
    (∀ d, (boxConfig .llf).scheme.active d = true →
      fluxWidth (boxConfig .llf).scheme (boxConfig .llf).p d ≤ (boxConfig .llf).n d ∧
      fluxWidth (boxConfig .llf).scheme (fallbackP (boxConfig .llf).p) d ≤ (boxConfig .llf).n d) := by
  refine ⟨⟨by decide, by decide, fun _ _ => .inl fun _ => rfl⟩, ?_, by decide⟩
  decide

end FVHOE
