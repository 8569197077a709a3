import Verif.Proofs.TurnSlope
import Verif.Proofs.TurnDetect

/-! The right-hand side with limiting under exchanging and reversing axes. -/

set_option linter.unusedSectionVars false

namespace FVHOE

variable {K : Type} [Field K] [LinearOrder K] [IsStrictOrderedRing K] {np : ℕ}
variable {σ : Equiv.Perm (Fin 3)} {fl : Fin 3 → Bool}

/-- What the detector sees depends on the cells alone. -/
theorem seen_clip (c : EulerConfig K np) (hp : ∀ d, c.p d ≤ 8) (t : K) (gl gr : Fin 3 → Ghost (State K np))
    (hs : Sides c.scheme (detectWidth c.scheme) t gl gr) (v : Ix → State K np) :
    SameArr (boxArr c.n (fun d => if c.scheme.active d then 3 else 0) (latPrim K c.scheme.prim c.p (extAll c.n gl gr v)))
      (boxArr c.n (fun d => if c.scheme.active d then 3 else 0)
        (latPrim K c.scheme.prim c.p (extAll c.n gl gr (clip c.n v)))) := by
  obtain ⟨w, e, r⟩ := primitives_spec c.scheme c.p (fun d => if c.scheme.active d then 3 else 0) hp t gl gr hs
    v v v fun _ _ => rfl
  obtain ⟨w', e', r'⟩ := primitives_spec c.scheme c.p (fun d => if c.scheme.active d then 3 else 0) hp t gl gr hs
    v v (clip c.n v) fun i hi => (if_pos hi).symm
  rw [e] at e'
  cases e'
  exact (boxArr_same r).symm.trans (boxArr_same r')

/-- The right-hand side in terms of any function `U` that has the values of the state in the cells. -/
theorem limited_rhs_on (c : EulerConfig K np) (o : LimiterOpts K) (hk : o.toDetectOpts.Known)
    (hd : c.dims ≠ []) (hp : ∀ d, c.p d ≤ 8) (hn : ∀ d, 1 ≤ c.n d) (t : K)
    (gl gr gl' gr' gld grd : Fin 3 → Ghost (State K np))
    (hs : Sides c.scheme (fluxWidth c.scheme c.p) t gl gr)
    (hs' : Sides c.scheme (fluxWidth c.scheme (fallbackP c.p)) t gl' gr')
    (hsd : Sides c.scheme (detectWidth c.scheme) t gld grd)
    (junk : ℕ → Ix → State K np) (mem : Fin 3 → Ix → State K np) (t' : K) (u U : Ix → State K np)
    (hU : ∀ i, InCells c.n i → u i = U i) :
    ∃ dt tr, IsDt c.scheme c.p (latPrim K c.scheme.prim c.p (extAll c.n gl gr U)) dt ∧ tr.shape = c.n ∧
      (∀ i, InCells c.n i → (tr.get i = true ↔ Reported o.toDetectOpts c.dims c.n (seenPrim c gld grd U)
        (seenPrim c gld grd (clip c.n fun i => U i + dt • latDiv c.scheme.active c.h
          (schemeFlux c.scheme c.p none (extAll c.n gl gr U)) i)) i)) ∧
      solverRHS (c.limited (some o)).scheme junk mem t t' u =
        limitedResult (c.limited (some o)).scheme (o.limiting c.dims c.isPeriodic)
          (schemeFlux c.scheme c.p none (extAll c.n gl gr U))
          (schemeFlux c.scheme (fallbackP c.p) (o.slope.map (SlopeKind.fn o.tiny))
            (extAll c.n gl' gr' U)) dt (.ok tr) := by
  obtain ⟨dt, h1, h2⟩ := rhs_limited (c.limited (some o)).scheme (o.limiting c.dims c.isPeriodic) rfl
    (o.local _ _) hp hn t gl gr gl' gr' gld grd hs hs' hsd junk mem t' u U hU
  obtain ⟨D, e, hsh, hD⟩ := detect_spec o.toDetectOpts hk c.dims (dims_ok c hd) c.n hn (seenPrim c gld grd U)
    (seenPrim c gld grd (clip c.n fun i => U i + dt • latDiv c.scheme.active c.h
          (schemeFlux c.scheme c.p none (extAll c.n gl gr U)) i))
  rw [detPad_dims] at e
  refine ⟨dt, D.trouble, h1, hsh.1, fun i hi => (hD i hi).1, h2.trans ?_⟩
  refine (limitedResult_same _ _ (o.local _ _) _ _ _ ((o.local c.dims c.isPeriodic).detect _ _ _ _ SameArr.rfl
    (seen_clip c hp t gld grd hsd _))).trans ?_
  refine congrArg _ ?_
  exact congrArg (Except.map (·.trouble)) e

/-- The states at which the solver evaluates the fluxes of the fallback scheme in direction `d` are physical. -/
def FallbackFacesPhysical (c : EulerConfig K np) (o : LimiterOpts K) (d : Fin 3) (u : Ix → State K np) : Prop :=
  ∀ i j, InFaces c.n d i → NearFace (fallbackP c.p) d i j →
    Physical (faceLs K (fallbackP c.p) (o.slope.map (SlopeKind.fn o.tiny)) d
      (latPrim K c.scheme.prim (fallbackP c.p) (padded c.scheme (clip c.n u))) j) ∧
    Physical (faceRs K (fallbackP c.p) (o.slope.map (SlopeKind.fn o.tiny)) d
      (latPrim K c.scheme.prim (fallbackP c.p) (padded c.scheme (clip c.n u))) j)

/-- What the reversed directions need: llf, or hllc at physical states. -/
def ReversibleLimited (fl : Fin 3 → Bool) (σ : Equiv.Perm (Fin 3)) (c : EulerConfig K np) (o : LimiterOpts K)
    (u : Ix → State K np) : Prop :=
  ∀ d, fl d = true → c.scheme.active (σ d) = true → c.riem = .llf ∨
    (c.riem = .hllc ∧ c.gas.OK ∧ FacesPhysical c (σ d) u ∧ FallbackFacesPhysical c o (σ d) u)

theorem Turned.dims {c c' : EulerConfig K np} (h : Turned σ fl c c') (d : Fin 3) : d ∈ c'.dims ↔ σ d ∈ c.dims := by
  rw [mem_dims, mem_dims, h.active]

/-- What two limited configurations that are the same problem with exchanged and reversed axes must satisfy. -/
structure LimitedTurn (σ : Equiv.Perm (Fin 3)) (fl : Fin 3 → Bool) (c c' : EulerConfig K np) (o o' : LimiterOpts K) :
    Prop where
  turned : Turned σ fl c c'
  opts : TurnedOpts σ fl o o'
  known : o.toDetectOpts.Known
  tiny : 0 < o.tiny
  dims : c.dims ≠ []
  degree : ∀ d, c.p d ≤ 8
  cells : ∀ d, 1 ≤ c.n d
  sides : PlainSides c.scheme (fluxWidth c.scheme c.p)
  sides' : PlainSides c'.scheme (fluxWidth c'.scheme c'.p)
  fallback : PlainSides c.scheme (fluxWidth c.scheme (fallbackP c.p))
  fallback' : PlainSides c'.scheme (fluxWidth c'.scheme (fallbackP c'.p))
  detect : PlainSides c.scheme (detectWidth c.scheme)
  detect' : PlainSides c'.scheme (detectWidth c'.scheme)
  spreads : ∀ tr : Arr Bool, tr.shape = c.n → ∃ theta, broadcastTrouble K o.convex c.isPeriodic c.dims tr = .ok theta
  spreads' : ∀ tr : Arr Bool, tr.shape = c'.n →
    ∃ theta, broadcastTrouble K o'.convex c'.isPeriodic c'.dims tr = .ok theta

theorem inactive_width (c : EulerConfig K np) (d : Fin 3) (hd : c.scheme.active d = false) :
    fluxWidth c.scheme c.p d = 0 ∧ fluxWidth c.scheme (fallbackP c.p) d = 0 ∧ detectWidth c.scheme d = 0 := by
  have hp0 : c.p d = 0 := c.scheme.inactive_p d hd
  have hp1 : c.scheme.p d = 0 := hp0
  simp [fluxWidth, detectWidth, fallbackP, hd, hp0, hp1, ceilHalf]

theorem inFaces_near {n : Fin 3 → ℕ} {d : Fin 3} {i j : Ix} (hi : InCells n i) (hj : j = i ∨ j = i + Pi.single d 1) :
    InFaces n d j := by
  intro e
  have h1 := hi e
  by_cases he : e = d
  · subst he
    rcases hj with rfl | rfl <;> simp <;> omega
  · rcases hj with rfl | rfl <;> simp [Pi.single_eq_of_ne he] <;> omega

/-- One evaluation of the transformed problem with limiting. -/
theorem limited_turn_rhs {c c' : EulerConfig K np} {o o' : LimiterOpts K} (h : LimitedTurn σ fl c c' o o')
    (junk junk' : ℕ → Ix → State K np) (mem mem' : Fin 3 → Ix → State K np) (t t' : K) (u u' : Ix → State K np)
    (hu : ∀ i, InCells c'.n i → u' i = turnState K np σ fl (u (tau σ fl (lastCell c.n) i)))
    (hr : ReversibleLimited fl σ c o u) :
    ∃ dt D D', solverRHS (c.limited (some o)).scheme junk mem t t' u = .ok (dt, D) ∧
      solverRHS (c'.limited (some o')).scheme junk' mem' t t' u' = .ok (dt, D') ∧
      ∀ i, InCells c'.n i → D' i = turnState K np σ fl (D (tau σ fl (lastCell c.n) i)) := by
  have ht := h.turned
  have hp := h.degree
  have hn := h.cells
  have hp' : ∀ d, c'.p d ≤ 8 := fun d => by rw [ht.p]; exact hp _
  have hn' : ∀ d, 1 ≤ c'.n d := fun d => by rw [ht.n]; exact hn _
  have hk' : o'.toDetectOpts.Known := by
    unfold DetectOpts.Known
    rw [h.opts.mode, h.opts.rangeType]
    exact h.known
  have hd' : c'.dims ≠ [] := by
    intro he
    obtain ⟨e, hmem⟩ := List.exists_mem_of_ne_nil _ h.dims
    obtain ⟨e, rfl⟩ := σ.surjective e
    have := (ht.dims e).2 hmem
    rw [he] at this
    cases this
  obtain ⟨dt, tr, hdt, hsh, htr, e⟩ := limited_rhs_on c o h.known h.dims hp hn t _ _ _ _ _ _
    (h.sides.sides hn (fun d hd => (inactive_width c d hd).1) t)
    (h.fallback.sides hn (fun d hd => (inactive_width c d hd).2.1) t)
    (h.detect.sides hn (fun d hd => (inactive_width c d hd).2.2) t) junk mem t' u (clip c.n u)
    fun i hi => (if_pos hi).symm
  obtain ⟨dt', tr', hdt', hsh', htr', e'⟩ := limited_rhs_on c' o' hk' hd' hp' hn' t _ _ _ _ _ _
    (h.sides'.sides hn' (fun d hd => (inactive_width c' d hd).1) t)
    (h.fallback'.sides hn' (fun d hd => (inactive_width c' d hd).2.1) t)
    (h.detect'.sides hn' (fun d hd => (inactive_width c' d hd).2.2) t) junk' mem' t' u' (clip c'.n u')
    fun i hi => (if_pos hi).symm
  have hprim : c'.scheme.prim = c.scheme.prim := by
    show computePrimitives c'.gas.gamma = computePrimitives c.gas.gamma
    rw [ht.gas]
  have hU : padded c'.scheme (clip c'.n u') =
      fun i => turnState K np σ fl (padded c.scheme (clip c.n u) (tau σ fl (lastCell c.n) i)) := by
    rw [clip_turn ht u u' hu, padded_turn ht hn]
  have hW : latPrim K c'.scheme.prim c'.p (padded c'.scheme (clip c'.n u')) = fun i => turnState K np σ fl
      (latPrim K c.scheme.prim c.p (padded c.scheme (clip c.n u)) (tau σ fl (lastCell c.n) i)) := by
    rw [hU, ht.p, hprim]
    exact latPrim_tau σ fl _ _ hp _ (prim_turn σ fl _) _
  have hpf : ∀ d, fallbackP c.p d ≤ 8 := fun d => by unfold fallbackP; split_ifs <;> omega
  have hpf' : fallbackP c'.p = fun d => fallbackP c.p (σ d) := by rw [ht.p]; rfl
  have hWf : latPrim K c'.scheme.prim (fallbackP c'.p) (padded c'.scheme (clip c'.n u')) = fun i =>
      turnState K np σ fl (latPrim K c.scheme.prim (fallbackP c.p) (padded c.scheme (clip c.n u))
        (tau σ fl (lastCell c.n) i)) := by
    rw [hU, hpf', hprim]
    exact latPrim_tau σ fl _ _ hpf _ (prim_turn σ fl _) _
  have hd : dt' = dt := by
    have := ht.isDt _ _ hdt
    change IsDt c'.scheme c'.p (latPrim K c'.scheme.prim c'.p (padded c'.scheme (clip c'.n u'))) dt' at hdt'
    rw [hW] at hdt'
    exact hdt'.unique this
  subst hd
  -- the fluxes
  obtain ⟨Fh, hFh⟩ : ∃ F, F = schemeFlux c.scheme c.p none (padded c.scheme (clip c.n u)) := ⟨_, rfl⟩
  obtain ⟨Fh', hFh'⟩ : ∃ F, F = schemeFlux c'.scheme c'.p none (padded c'.scheme (clip c'.n u')) := ⟨_, rfl⟩
  obtain ⟨Fl, hFl⟩ : ∃ F, F = schemeFlux c.scheme (fallbackP c.p) (o.slope.map (SlopeKind.fn o.tiny))
    (padded c.scheme (clip c.n u)) := ⟨_, rfl⟩
  obtain ⟨Fl', hFl'⟩ : ∃ F, F = schemeFlux c'.scheme (fallbackP c'.p) (o'.slope.map (SlopeKind.fn o'.tiny))
    (padded c'.scheme (clip c'.n u')) := ⟨_, rfl⟩
  have hhigh : ∀ i, InCells c'.n i → ∀ d, c.scheme.active (σ d) = true → ∀ j, j = i ∨ j = i + Pi.single d 1 →
      Fh' d j = fluxMap fl (turnState K np σ fl) d (Fh (σ d) (tau σ fl (faceOff σ fl (lastCell c.n) d) j)) := by
    intro i hi d hd j hj
    have hface := face_in (fl := fl) (σ := σ) (n := c.n) (d := d) (i := i) (j := j) (by rw [← ht.n]; exact hi) hj
    rw [hFh', hFh]
    change latFlux K (riemann c'.riem c'.gas d) c'.p none d
      (latPrim K c'.scheme.prim c'.p (padded c'.scheme (clip c'.n u'))) j = _
    rw [hW, ht.riem, ht.gas, ht.p]
    refine latFlux_tau σ fl (lastCell c.n) _ hp _ (riemann c.riem c.gas (σ d)) d _ j fun k hk => ?_
    refine riemann_match σ fl _ _ d _ _ fun hfl => ?_
    rcases hr d hfl hd with h1 | ⟨h1, h2, h3, _⟩
    · exact Or.inl h1
    · exact Or.inr ⟨h1, h2, h3 _ k hface hk⟩
  have hlow : ∀ i, InCells c'.n i → ∀ d, c.scheme.active (σ d) = true → ∀ j, j = i ∨ j = i + Pi.single d 1 →
      Fl' d j = fluxMap fl (turnState K np σ fl) d (Fl (σ d) (tau σ fl (faceOff σ fl (lastCell c.n) d) j)) := by
    intro i hi d hd j hj
    have hface := face_in (fl := fl) (σ := σ) (n := c.n) (d := d) (i := i) (j := j) (by rw [← ht.n]; exact hi) hj
    rw [hFl', hFl]
    change latFlux K (riemann c'.riem c'.gas d) (fallbackP c'.p) (o'.slope.map (SlopeKind.fn o'.tiny)) d
      (latPrim K c'.scheme.prim (fallbackP c'.p) (padded c'.scheme (clip c'.n u'))) j = _
    rw [hWf, ht.riem, ht.gas, hpf', h.opts.slope, h.opts.tiny]
    refine latFluxs_tau σ fl (lastCell c.n) _ hpf _ (fun s hs => ?_) _ (riemann c.riem c.gas (σ d)) d _ j
      fun k hk => ?_
    · obtain ⟨k, -, rfl⟩ := Option.map_eq_some_iff.1 hs
      exact slope_turns σ fl o.tiny h.tiny k
    · refine riemann_match σ fl _ _ d _ _ fun hfl => ?_
      rcases hr d hfl hd with h1 | ⟨h1, h2, _, h3⟩
      · exact Or.inl h1
      · exact Or.inr ⟨h1, h2, h3 _ k hface hk⟩
  have ha : c'.scheme.active = fun d => c.scheme.active (σ d) := funext ht.active
  have hh : c'.h = fun d => c.h (σ d) := ht.h
  have hin : ∀ i, InCells c'.n i ↔ InCells c.n (tau σ fl (lastCell c.n) i) := fun i => by
    rw [tau_cells, ← ht.n]
  have hdivc : ∀ (F' F : Fin 3 → Ix → State K np) (i : Ix), (∀ d, c.scheme.active (σ d) = true →
      ∀ j, j = i ∨ j = i + Pi.single d 1 →
        F' d j = fluxMap fl (turnState K np σ fl) d (F (σ d) (tau σ fl (faceOff σ fl (lastCell c.n) d) j))) →
      latDiv c'.scheme.active c'.h F' i =
        turnState K np σ fl (latDiv c.scheme.active c.h F (tau σ fl (lastCell c.n) i)) := by
    intro F' F i hF
    rw [ha, hh]
    exact latDiv_tau σ fl (lastCell c.n) _ _ _ _ _ i hF
  -- the detected cells
  have hseen : ∀ v v' : Ix → State K np,
      (∀ i, InCells c'.n i → v' i = turnState K np σ fl (v (tau σ fl (lastCell c.n) i))) →
      seenPrim c' (c'.scheme.ghost .l) (c'.scheme.ghost .r) (clip c'.n v') = fun i => turnState K 0 σ fl
        (seenPrim c (c.scheme.ghost .l) (c.scheme.ghost .r) (clip c.n v) (tau σ fl (lastCell c.n) i)) := by
    intro v v' hv
    funext i
    unfold seenPrim
    change activePart (latPrim K c'.scheme.prim c'.p (padded c'.scheme (clip c'.n v')) i) =
      turnState K 0 σ fl (activePart (latPrim K c.scheme.prim c.p (padded c.scheme (clip c.n v))
        (tau σ fl (lastCell c.n) i)))
    rw [clip_turn ht v v' hv, padded_turn ht hn, hprim, ht.p,
      latPrim_tau σ fl (lastCell c.n) (turnState K np σ fl) hp c.scheme.prim (prim_turn σ fl c.gas.gamma),
      activePart_turn]
  have hT : ∀ j, Troubled (used o' tr') j ↔ Troubled (used o tr) (tau σ fl (lastCell c.n) j) := by
    intro j
    unfold Troubled
    rw [used_shape, used_shape, hsh, hsh']
    change (InCells c'.n j ∧ _) ↔ (InCells c.n _ ∧ _)
    rw [hin]
    refine and_congr_right fun hj => ?_
    have hj' := (hin j).2 hj
    unfold used
    rw [h.opts.force]
    by_cases hf : o.force = true
    · rw [if_pos hf, if_pos hf]
      exact Iff.rfl
    · rw [if_neg hf, if_neg hf, htr' j hj', htr _ hj]
      have e1 := hseen u u' hu
      have e2 := hseen (fun i => clip c.n u i + dt' • latDiv c.scheme.active c.h Fh i)
        (fun i => clip c'.n u' i + dt' • latDiv c'.scheme.active c'.h Fh' i) fun i hi => by
          rw [hdivc _ Fh i (hhigh i hi), clip_turn ht u u' hu, map_add, map_smul]
      rw [hFh, hFh'] at e2
      change Reported o'.toDetectOpts c'.dims c'.n (seenPrim c' (c'.scheme.ghost .l) (c'.scheme.ghost .r) (clip c'.n u'))
        (seenPrim c' (c'.scheme.ghost .l) (c'.scheme.ghost .r) (clip c'.n fun i => clip c'.n u' i +
          dt' • latDiv c'.scheme.active c'.h (schemeFlux c'.scheme c'.p none (padded c'.scheme (clip c'.n u'))) i)) j ↔ _
      rw [e1, e2, ht.n]
      exact reported_turn σ fl c.n _ _ h.opts h.known ht.dims hn j
  have hany : anyTrue (used o' tr') = anyTrue (used o tr) := by
    rw [Bool.eq_iff_iff, anyTrue_iff, anyTrue_iff]
    constructor
    · rintro ⟨j, hj⟩
      exact ⟨_, (hT j).1 hj⟩
    · rintro ⟨j, hj⟩
      obtain ⟨j, rfl⟩ := tau_inj σ fl c.n j
      exact ⟨j, (hT j).2 hj⟩
  change solverRHS (c.limited (some o)).scheme junk mem t t' u = limitedResult _ _
    (schemeFlux c.scheme c.p none (padded c.scheme (clip c.n u))) (schemeFlux c.scheme (fallbackP c.p) _
      (padded c.scheme (clip c.n u))) _ _ at e
  change solverRHS (c'.limited (some o')).scheme junk' mem' t t' u' = limitedResult _ _
    (schemeFlux c'.scheme c'.p none (padded c'.scheme (clip c'.n u'))) (schemeFlux c'.scheme (fallbackP c'.p) _
      (padded c'.scheme (clip c'.n u'))) _ _ at e'
  rw [← hFh, ← hFl] at e
  rw [← hFh', ← hFl'] at e'
  cases hq : anyTrue (used o tr) with
  | false =>
    rw [limitedResult_quiet c o Fh Fl dt' tr hq] at e
    rw [limitedResult_quiet c' o' Fh' Fl' dt' tr' (by rw [hany, hq])] at e'
    refine ⟨_, _, _, e, e', fun i hi => ?_⟩
    rw [if_pos hi, if_pos ((hin i).1 hi)]
    exact hdivc _ _ i (hhigh i hi)
  | true =>
    obtain ⟨theta, hb⟩ := h.spreads (used o tr) (by rw [used_shape, hsh])
    obtain ⟨theta', hb'⟩ := h.spreads' (used o' tr') (by rw [used_shape, hsh'])
    rw [limitedResult_ok c o Fh Fl dt' tr hsh hq theta hb] at e
    rw [limitedResult_ok c' o' Fh' Fl' dt' tr' hsh' (by rw [hany, hq]) theta' hb'] at e'
    refine ⟨_, _, _, e, e', fun i hi => ?_⟩
    rw [if_pos hi, if_pos ((hin i).1 hi)]
    refine hdivc _ _ i fun d hd j hj => ?_
    have hi2 : InCells (fun d => c.n (σ d)) i := by rw [← ht.n]; exact hi
    have hface := face_in (fl := fl) (σ := σ) (n := c.n) (d := d) (i := i) (j := j) hi2 hj
    have hmem : d ∈ c'.dims := by rw [mem_dims, ht.active]; exact hd
    rw [h.opts.convex] at hb'
    have hth := spread_turn σ fl ht.dims (dims_sorted c) (dims_sorted c') (dims_cells c)
      (by rw [used_shape, hsh]) (by rw [used_shape, hsh', ht.n]) hT hb hb' d hmem j (inFaces_near hi2 hj) hface
    unfold blendFlux
    beta_reduce
    rw [hth, hhigh i hi d hd j hj, hlow i hi d hd j hj, map_add, map_smul, map_smul]

end FVHOE
