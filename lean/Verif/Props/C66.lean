import Verif.Proofs.Images

/-!
C66: method of images for reflective walls.
-/

set_option linter.unusedSectionVars false

namespace FVHOE

variable {K : Type} [Field K] [LinearOrder K] [IsStrictOrderedRing K] {np : ℕ}

/-- A domain between two reflective walls along axis `d`, without limiting. -/
structure BetweenWalls (c : EulerConfig K np) (d : Fin 3) : Prop where
  limiting : c.limiting = none
  degree : ∀ e, c.p e ≤ 8
  cells : ∀ e, 1 ≤ c.n e
  active : c.scheme.active d = true
  walls : ∀ s, c.bc.kind d s = .reflective
  sides : PlainSides c.scheme (fluxWidth c.scheme c.p)

theorem image_rel {c : EulerConfig K np} {d : Fin 3} (h : BetweenWalls c d) (f f' : RHS K (Ix → State K np))
    (hf : IsSolverRHS c.scheme f) (hf' : IsSolverRHS (c.doubled d).scheme f') (s t : K) (u u' : Ix → State K np)
    (hu : InRel (imagePair K np c.n d) u u') (hr : Reversible (only d) 1 (c.doubled d) u') :
    RelRes (InRel (imagePair K np c.n d)) (f s t u) (f' s t u') := by
  obtain ⟨junk, mem, e⟩ := hf s t u
  obtain ⟨junk', mem', e'⟩ := hf' s t u'
  obtain ⟨dt, D, D', h1, h2, h3⟩ := image_rhs c d h.limiting h.degree h.cells h.active h.walls h.sides
    junk junk' mem mem' s t u u' hu hr
  rw [e, e', h1, h2]
  exact ⟨rfl, h3⟩

/-- **C66** (llf) The run between two reflective walls and the run on the doubled periodic domain from the data
followed by their mirror image go together: same steps, times and exceptions, and at every stored time and at the end
the doubled state is the state between the walls followed by its mirror image. The automatic time step is included. -/
theorem C66_llf (c : EulerConfig K np) (d : Fin 3) (h : BetweenWalls c d) (hc : c.riem = .llf)
    (f f' : RHS K (Ix → State K np)) (hf : IsSolverRHS c.scheme f) (hf' : IsSolverRHS (c.doubled d).scheme f')
    (m : Integrator) (fuel : ℕ) (T : Option K) (n : Option ℕ) (exact : Bool) (downbeats : List K) (logEvery : Bool)
    (st st' : ODEState K (Ix → State K np) (Ix → State K np))
    (hst : RelState (InRel (imagePair K np c.n d)) (InRel (imagePair K np c.n d)) st st') :
    Option.Rel (RelOut (InRel (imagePair K np c.n d)) (InRel (imagePair K np c.n d)))
      (st.integrate (stepper f m) (·.u) fuel ⟨T, n, exact, downbeats, logEvery, none⟩)
      (st'.integrate (stepper f' m) (·.u) fuel ⟨T, n, exact, downbeats, logEvery, none⟩) :=
  integrate_rel (imagePair K np c.n d) _ f f'
    (fun s t u u' hu => image_rel h f f' hf hf' s t u u' hu fun _ _ _ => .inl hc) m _ _
    (fun _ _ h => h.u) fuel _ _ ⟨rfl, rfl, rfl, rfl, rfl, .none⟩ st st' hst

theorem clip_cells {n : Fin 3 → ℕ} {u v : Ix → State K np} (h : ∀ i, InCells n i → u i = v i) :
    clip n u = clip n v := by
  funext i
  unfold clip
  by_cases hi : InCells n i
  · rw [if_pos hi, if_pos hi, h i hi]
  · rw [if_neg hi, if_neg hi]

/-- The doubled data are determined by the data between the walls. -/
theorem image_unique {c : EulerConfig K np} {d : Fin 3} {u v v' : Ix → State K np}
    (h : InRel (imagePair K np c.n d) u v) (h' : InRel (imagePair K np c.n d) u v') :
    clip (c.doubled d).n v = clip (c.doubled d).n v' := by
  refine clip_cells fun i hi => ?_
  have hd := hi d
  rw [doubled_n] at hd
  push_cast at hd
  have hin : ∀ x : ℤ, 0 ≤ x → x < c.n d → InCells c.n (Function.update i d x) := by
    intro x h1 h2 e
    by_cases he : e = d
    · subst he; rw [Function.update_self]; exact ⟨h1, h2⟩
    · rw [Function.update_of_ne he]
      have := hi e
      rwa [doubled_n_ne c d he] at this
  by_cases hlt : i d < c.n d
  · have := hin _ hd.1 hlt
    rw [Function.update_eq_self] at this
    exact (h i this).1.trans (h' i this).1.symm
  · have := hin (2 * c.n d - 1 - i d) (by omega) (by omega)
    have e1 := (h _ this).2
    have e2 := (h' _ this).2
    rw [Function.update_self, Function.update_idem, sub_sub_cancel, Function.update_eq_self] at e1 e2
    exact e1.trans e2.symm

/-- **C66** (hllc) The same for hllc, when the reconstructed states at the faces across the axis have positive
density and non-negative pressure at every evaluation of the doubled run: the run between the walls then finishes
without exception as well, and the doubled run is that run followed by its mirror image. -/
theorem C66_hllc (c : EulerConfig K np) (d : Fin 3) (h : BetweenWalls c d) (hc : c.riem = .hllc) (hG : c.gas.OK)
    (f f' : RHS K (Ix → State K np)) (hf : IsSolverRHS c.scheme f) (hf' : IsSolverRHS (c.doubled d).scheme f')
    (m : Integrator) (fuel : ℕ) (T : Option K) (n : Option ℕ) (exact : Bool) (downbeats : List K) (logEvery : Bool)
    (st st' : ODEState K (Ix → State K np) (Ix → State K np))
    (hst : RelState (InRel (imagePair K np c.n d)) (InRel (imagePair K np c.n d)) st st')
    (out' : ODEState K (Ix → State K np) (Ix → State K np))
    (hrun : st'.integrate (stepper (onlyOn (FacesPhysical (c.doubled d) d) f') m) (·.u) fuel
      ⟨T, n, exact, downbeats, logEvery, none⟩ = some (out', none)) :
    st'.integrate (stepper f' m) (·.u) fuel ⟨T, n, exact, downbeats, logEvery, none⟩ = some (out', none) ∧
    ∃ out, st.integrate (stepper f m) (·.u) fuel ⟨T, n, exact, downbeats, logEvery, none⟩ = some (out, none) ∧
      RelState (InRel (imagePair K np c.n d)) (InRel (imagePair K np c.n d)) out out' := by
  refine ⟨integrate_refine _ _ (onlyOn_sub _ f') m _ fuel _ st' out' hrun, ?_⟩
  obtain ⟨G, hG'⟩ : ∃ G : (Ix → State K np) → Prop, G = fun u =>
      ∃ u', InRel (imagePair K np c.n d) u u' ∧ FacesPhysical (c.doubled d) d u' := ⟨_, rfl⟩
  have key := integrate_rel (imagePair K np c.n d) (InRel (imagePair K np c.n d)) (onlyOn G f)
    (onlyOn (FacesPhysical (c.doubled d) d) f') ?_ m (·.u) (·.u) (fun _ _ h => h.u) fuel
    ⟨T, n, exact, downbeats, logEvery, none⟩ ⟨T, n, exact, downbeats, logEvery, none⟩
    ⟨rfl, rfl, rfl, rfl, rfl, .none⟩ st st' hst
  · rw [hrun] at key
    cases he : st.integrate (stepper (onlyOn G f) m) (·.u) fuel ⟨T, n, exact, downbeats, logEvery, none⟩ with
    | none => rw [he] at key; cases key
    | some o =>
      rw [he] at key
      cases key with
      | some hk =>
        obtain ⟨out, e⟩ := o
        obtain ⟨k1, k2⟩ := hk
        change e = none at k2
        subst k2
        exact ⟨out, integrate_refine _ _ (onlyOn_sub _ f) m _ fuel _ st out he, k1⟩
  · intro s t u u' hu
    unfold onlyOn
    by_cases hg : FacesPhysical (c.doubled d) d u'
    · have : G u := by rw [hG']; exact ⟨u', hu, hg⟩
      rw [if_pos hg, if_pos this]
      refine image_rel h f f' hf hf' s t u u' hu fun e he _ => ?_
      have : e = d := by simpa [only] using he
      subst this
      exact .inr ⟨hc, hG, hg⟩
    · have : ¬ G u := by
        rw [hG']
        rintro ⟨v, hv, hr⟩
        apply hg
        unfold FacesPhysical at hr ⊢
        rw [image_unique hu hv]
        exact hr
      rw [if_neg hg, if_neg this]
      rfl

/-- A tube of ten cells between two walls, degree one. -/
noncomputable def boxConfig (k : RiemannKind) : EulerConfig ℝ 1 where
  gas := airGas
  riem := k
  n := ![10, 1, 1]
  p := ![1, 0, 0]
  h := ![1, 1, 1]
  cfl := 1 / 2
  fixedDt := none
  bc := ⟨fun _ _ => .reflective, fun _ _ => .other, none⟩
  limiting := none

theorem boxConfig_walls (k : RiemannKind) : BetweenWalls (boxConfig k) 0 := by
  have e : fluxWidth (boxConfig k).scheme (boxConfig k).p = ![4, 0, 0] := by cases k <;> decide
  refine ⟨rfl, ?_, ?_, by cases k <;> decide, fun _ => rfl, ?_⟩
  · cases k <;> decide
  · cases k <;> decide
  · rw [e]
    intro d hd
    have : d = 0 := by
      revert hd d
      cases k <;> decide
    subst this
    exact ⟨fun s => .inr ⟨.inr (.inl rfl), by cases k <;> decide⟩, fun h => by cases h⟩

/-- The hypotheses hold for the tube; the doubled domain has 20 cells and periodic ends, and any data on ten cells have
an image. -/
example (u : Ix → State ℝ 1) : BetweenWalls (boxConfig .llf) 0 ∧ ((boxConfig .llf).doubled 0).n = ![20, 1, 1] ∧
    (∀ s, ((boxConfig .llf).doubled 0).bc.kind 0 s = .periodic) ∧
    RelState (K := ℝ) (InRel (imagePair ℝ 1 (boxConfig .llf).n 0)) (InRel (imagePair ℝ 1 (boxConfig .llf).n 0))
      (ODEState.init u) (ODEState.init fun i => if i 0 < 10 then u i else
        mirrorState 0 (u (Function.update i 0 (19 - i 0)))) := by
  refine ⟨boxConfig_walls _, by decide, fun _ => rfl, rfl, rfl, rfl, fun i hi => ?_, .nil, rfl⟩
  have h0 := hi 0
  have hn : ((boxConfig .llf).n 0 : ℤ) = 10 := rfl
  rw [hn] at h0
  constructor
  · exact if_pos h0.2
  · have : ¬ (Function.update i 0 (2 * ((boxConfig .llf).n 0 : ℤ) - 1 - i 0) : Ix) 0 < 10 := by
      rw [Function.update_self, hn]; omega
    refine (if_neg this).trans ?_
    rw [Function.update_self, Function.update_idem, hn]
    congr 2
    rw [show (19 : ℤ) - (2 * 10 - 1 - i 0) = i 0 by ring, Function.update_eq_self]

/-- The hypothesis on the doubled run of `C66_hllc` is met by the stopped run of any data with physical faces. -/
example (u' : Ix → State ℝ 1) (hu : FacesPhysical ((boxConfig .hllc).doubled 0) 0 u')
    (f' : RHS ℝ (Ix → State ℝ 1)) (hf' : IsSolverRHS ((boxConfig .hllc).doubled 0).scheme f') :
    ∃ out, (ODEState.init u').integrate (stepper (onlyOn (FacesPhysical ((boxConfig .hllc).doubled 0) 0) f') .euler)
      (·.u) 0 ⟨none, some 1, true, [], false, none⟩ = some (out, none) := by
  obtain ⟨junk, mem, e⟩ := hf' 0 0 u'
  have hw := boxConfig_walls .hllc
  have hs := doubled_sides (boxConfig .hllc) 0 hw.cells hw.active
    (by decide) hw.sides
  obtain ⟨dt, -, e2⟩ := rhs_spec ((boxConfig .hllc).doubled 0).scheme rfl (by decide) (by decide) 0 _ _
    (hs.sides (by decide) (by decide) 0) junk mem 0 u' u' fun _ _ => rfl
  simp [ODEState.integrate, ODEState.integrateN, ODEState.takeSteps, ODEState.takeStep, ODEState.init,
    ODEState.snapshot, stepper, eulerStepper, onlyOn, hu, e, e2]

end FVHOE
