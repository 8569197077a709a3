import Verif.Proofs.TurnLimited
import Verif.Props.C09_C10
import Verif.Props.C81
import Verif.Props.C78
import Verif.Props.C80

/-!
C86: reflection and exchange of axes with limiting; symmetric data stay symmetric.
-/

set_option linter.unusedSectionVars false

namespace FVHOE

variable {K : Type} [Field K] [LinearOrder K] [IsStrictOrderedRing K] {np : ℕ}
variable {σ : Equiv.Perm (Fin 3)} {fl : Fin 3 → Bool}

/-- The spreading of troubles returns. -/
theorem workable_spreads (c : EulerConfig K np) (o : LimiterOpts K) (hn : ∀ d, 1 ≤ c.n d) (ho : Workable c (some o))
    (tr : Arr Bool) (hu : tr.shape = c.n) :
    ∃ theta, broadcastTrouble K o.convex c.isPeriodic c.dims tr = .ok theta := by
  obtain ⟨-, -, hc⟩ := ho o rfl
  cases hcv : o.convex with
  | false =>
    obtain ⟨theta, hb, _⟩ := C35_simple (K := K) c.isPeriodic c.dims tr
    exact ⟨theta, hb⟩
  | true =>
    rcases hc with hc | ⟨a, ha⟩ | ⟨a, b, hab, hno⟩
    · rw [hcv] at hc; cases hc
    · rw [ha]
      obtain ⟨theta, w, hb, _⟩ := C36_line (K := K) tr a (fun e he => by
        rw [hu]
        exact dims_cells c e (by rw [ha]; simpa using he)) (by rw [hu]; exact hn a) c.isPeriodic
      exact ⟨theta, hb⟩
    · rw [hab]
      have hlt : a < b := by
        have := dims_sorted c
        rw [hab] at this
        simpa using this
      refine (C36_plane (K := K) tr a b hlt (fun e h5 h6 => ?_) (fun e => ?_) c.isPeriodic).1 ?_
      · rw [hu]
        exact dims_cells c e (by rw [hab]; simp [h5, h6])
      · rw [hu]
        exact hn e
      · rw [hu]
        exact fun h => hno ⟨h.1, of_decide_eq_true h.2.1, h.2.2⟩

/-- What is assumed of a configuration and its limiter: options the detector knows, spreading that does not raise, a
positive guard in minmod, degrees up to 8, at least one cell per axis, and sides that are free, or outflow, reflective
or periodic with enough cells for the ghost layers of the scheme, of the fallback scheme and of the detector. -/
structure LimitedSetup (c : EulerConfig K np) (o : LimiterOpts K) : Prop where
  workable : Workable c (some o)
  tiny : 0 < o.tiny
  degree : ∀ d, c.p d ≤ 8
  cells : ∀ d, 1 ≤ c.n d
  sides : PlainSides c.scheme (fluxWidth c.scheme c.p)
  fallback : PlainSides c.scheme (fluxWidth c.scheme (fallbackP c.p))
  detect : PlainSides c.scheme (detectWidth c.scheme)

theorem LimitedSetup.turn {c c' : EulerConfig K np} {o o' : LimiterOpts K} (h : LimitedSetup c o)
    (h' : LimitedSetup c' o') (ht : Turned σ fl c c') (ho : TurnedOpts σ fl o o') : LimitedTurn σ fl c c' o o' where
  turned := ht
  opts := ho
  known := (h.workable o rfl).1
  tiny := h.tiny
  dims := (h.workable o rfl).2.1
  degree := h.degree
  cells := h.cells
  sides := h.sides
  sides' := h'.sides
  fallback := h.fallback
  fallback' := h'.fallback
  detect := h.detect
  detect' := h'.detect
  spreads := workable_spreads c o h.cells h.workable
  spreads' := workable_spreads c' o' h'.cells h'.workable

theorem limited_turn_rel {c c' : EulerConfig K np} {o o' : LimiterOpts K} (h : LimitedTurn σ fl c c' o o')
    (f f' : RHS K (Ix → State K np)) (hf : IsSolverRHS (c.limited (some o)).scheme f)
    (hf' : IsSolverRHS (c'.limited (some o')).scheme f') (s t : K) (u u' : Ix → State K np)
    (hu : InRel (turned K np σ fl c.n) u u') (hr : ReversibleLimited fl σ c o u) :
    RelRes (InRel (turned K np σ fl c.n)) (f s t u) (f' s t u') := by
  obtain ⟨junk, mem, e⟩ := hf s t u
  obtain ⟨junk', mem', e'⟩ := hf' s t u'
  obtain ⟨dt, D, D', h1, h2, h3⟩ := limited_turn_rhs h junk junk' mem mem' s t u u'
    (by rw [h.turned.n]; exact hu) hr
  rw [e, e', h1, h2]
  refine ⟨rfl, fun i hi => h3 i ?_⟩
  rw [h.turned.n]
  exact hi

theorem limited_turn_run {c c' : EulerConfig K np} {o o' : LimiterOpts K} (h : LimitedTurn σ fl c c' o o')
    (hr : ∀ u, ReversibleLimited fl σ c o u)
    (f f' : RHS K (Ix → State K np)) (hf : IsSolverRHS (c.limited (some o)).scheme f)
    (hf' : IsSolverRHS (c'.limited (some o')).scheme f')
    (m : Integrator) (fuel : ℕ) (T : Option K) (n : Option ℕ) (exact : Bool) (downbeats : List K) (logEvery : Bool)
    (st st' : ODEState K (Ix → State K np) (Ix → State K np))
    (hst : RelState (InRel (turned K np σ fl c.n)) (InRel (turned K np σ fl c.n)) st st') :
    Option.Rel (RelOut (InRel (turned K np σ fl c.n)) (InRel (turned K np σ fl c.n)))
      (st.integrate (stepper f m) (·.u) fuel ⟨T, n, exact, downbeats, logEvery, none⟩)
      (st'.integrate (stepper f' m) (·.u) fuel ⟨T, n, exact, downbeats, logEvery, none⟩) :=
  integrate_rel (turned K np σ fl c.n) _ f f'
    (fun s t u u' hu => limited_turn_rel h f f' hf hf' s t u u' hu (hr u)) m _ _
    (fun _ _ h => h.u) fuel _ _ ⟨rfl, rfl, rfl, rfl, rfl, .none⟩ st st' hst

/-- A run that meets only states that can be reversed. -/
theorem limited_turn_run_on {c c' : EulerConfig K np} {o o' : LimiterOpts K} (h : LimitedTurn σ fl c c' o o')
    (f f' : RHS K (Ix → State K np)) (hf : IsSolverRHS (c.limited (some o)).scheme f)
    (hf' : IsSolverRHS (c'.limited (some o')).scheme f')
    (m : Integrator) (fuel : ℕ) (T : Option K) (n : Option ℕ) (exact : Bool) (downbeats : List K) (logEvery : Bool)
    (st st' : ODEState K (Ix → State K np) (Ix → State K np))
    (hst : RelState (InRel (turned K np σ fl c.n)) (InRel (turned K np σ fl c.n)) st st')
    (out : ODEState K (Ix → State K np) (Ix → State K np))
    (hrun : st.integrate (stepper (onlyOn (ReversibleLimited fl σ c o) f) m) (·.u) fuel
      ⟨T, n, exact, downbeats, logEvery, none⟩ = some (out, none)) :
    st.integrate (stepper f m) (·.u) fuel ⟨T, n, exact, downbeats, logEvery, none⟩ = some (out, none) ∧
    ∃ out', st'.integrate (stepper f' m) (·.u) fuel ⟨T, n, exact, downbeats, logEvery, none⟩ = some (out', none) ∧
      RelState (InRel (turned K np σ fl c.n)) (InRel (turned K np σ fl c.n)) out out' := by
  refine ⟨integrate_refine _ _ (onlyOn_sub _ f) m _ fuel _ st out hrun, ?_⟩
  obtain ⟨G', hG'⟩ : ∃ G' : (Ix → State K np) → Prop, G' = fun u' =>
      ∃ u, InRel (turned K np σ fl c.n) u u' ∧ ReversibleLimited fl σ c o u := ⟨_, rfl⟩
  have key := integrate_rel (turned K np σ fl c.n) (InRel (turned K np σ fl c.n)) (onlyOn (ReversibleLimited fl σ c o) f)
    (onlyOn G' f') ?_ m (·.u) (·.u) (fun _ _ h => h.u) fuel
    ⟨T, n, exact, downbeats, logEvery, none⟩ ⟨T, n, exact, downbeats, logEvery, none⟩
    ⟨rfl, rfl, rfl, rfl, rfl, .none⟩ st st' hst
  · rw [hrun] at key
    cases he : st'.integrate (stepper (onlyOn G' f') m) (·.u) fuel ⟨T, n, exact, downbeats, logEvery, none⟩ with
    | none => rw [he] at key; cases key
    | some q =>
      rw [he] at key
      cases key with
      | some hk =>
        obtain ⟨out', e⟩ := q
        obtain ⟨k1, k2⟩ := hk
        change none = e at k2
        subst k2
        exact ⟨out', integrate_refine _ _ (onlyOn_sub _ f') m _ fuel _ st' out' he, k1⟩
  · intro s t u u' hu
    unfold onlyOn
    by_cases hg : ReversibleLimited fl σ c o u
    · have : G' u' := by rw [hG']; exact ⟨u, hu, hg⟩
      rw [if_pos hg, if_pos this]
      exact limited_turn_rel h f f' hf hf' s t u u' hu hg
    · have : ¬ G' u' := by
        rw [hG']
        rintro ⟨v, hv, hr⟩
        refine hg fun d h1 h2 => (hr d h1 h2).imp id fun h3 => ⟨h3.1, h3.2.1, ?_⟩
        have := h3.2.2
        unfold FacesPhysical FallbackFacesPhysical at this ⊢
        rw [turned_unique hu hv]
        exact this
      rw [if_neg hg, if_neg this]
      rfl

/-! ## Reflection -/

/-- The bounds on the momentum (velocity) along `d` are negated and exchanged. -/
def LimiterOpts.mirror (o : LimiterOpts K) (d : Fin 3) : LimiterOpts K :=
  { o with pad := o.pad.map fun e => if e.1 = .mom d then (e.1, e.2.2.map (-·), e.2.1.map (-·)) else e }

theorem padPoint_swapNeg (lo hi : Option K) (x : K) :
    padPoint (hi.map (-·)) (lo.map (-·)) (-x) = padPoint lo hi x := by
  unfold padPoint
  rw [min_comm]
  cases lo <;> cases hi <;> simp [sub_eq_add_neg, add_comm]

theorem mirror_opts (o : LimiterOpts K) (d : Fin 3) (hsed : o.sed = false)
    (hr : o.rangeType = "relative" ∨ o.considers (.mom d) = false) : TurnedOpts 1 (only d) o (o.mirror d) where
  eps := rfl
  mode := rfl
  rangeType := rfl
  sed := rfl
  sedEps := rfl
  convex := rfl
  force := rfl
  slope := rfl
  tiny := rfl
  considers := fun v => by
    have : turnVar 1 v = v := by
      cases v with
      | ps j => exact j.elim0
      | rho => rfl
      | en => rfl
      | mom e => rfl
    rw [this]
    rfl
  pad := fun x => by
    unfold padAt LimiterOpts.mirror
    dsimp only
    rw [List.getLast?_map]
    cases o.pad.getLast? with
    | none => rfl
    | some e =>
      obtain ⟨v, lo, hi⟩ := e
      simp only [Option.map_some]
      by_cases hv : v = .mom d
      · subst hv
        rw [if_pos rfl]
        dsimp only
        rw [turn_mom]
        rw [if_pos (show only d d = true by simp [only])]
        exact padPoint_swapNeg _ _ _
      · rw [if_neg hv]
        dsimp only
        congr 1
        cases v with
        | rho => rfl
        | en => rfl
        | ps j => rfl
        | mom e =>
          rw [turn_mom, if_neg]
          · rfl
          · intro h
            refine hv ?_
            have : e = d := by simpa [only] using h
            rw [this]
  even := .inr ⟨hsed, hr.imp id fun h v hv => by
    cases v with
    | mom e =>
      have : e = d := by simpa [negated, only] using hv
      subst this
      exact h
    | rho => cases hv
    | en => cases hv
    | ps j => exact j.elim0⟩

theorem mirror_plain (c : EulerConfig K np) (d : Fin 3) (w : Fin 3 → ℕ)
    (hd : c.bc.kind d .l = .periodic → c.bc.kind d .r = .periodic)
    (hs : PlainSides c.scheme w) : PlainSides (c.mirror d).scheme w := by
  intro e he
  obtain ⟨h1, h2⟩ := hs e he
  refine ⟨fun s => h1 (if e = d then s.other else s), ?_⟩
  by_cases hed : e = d
  · subst hed
    change c.bc.kind e (if e = e then Side.r.other else Side.r) = _ →
      c.bc.kind e (if e = e then Side.l.other else Side.l) = _
    rw [if_pos rfl, if_pos rfl]
    exact hd
  · change c.bc.kind e (if e = d then Side.r.other else Side.r) = _ →
      c.bc.kind e (if e = d then Side.l.other else Side.l) = _
    rw [if_neg hed, if_neg hed]
    exact h2

theorem LimitedSetup.mirror {c : EulerConfig K np} {o : LimiterOpts K} (h : LimitedSetup c o) (d : Fin 3)
    (hd : c.bc.kind d .l = .periodic → c.bc.kind d .r = .periodic) :
    LimitedSetup (c.mirror d) (o.mirror d) where
  workable := by
    intro o' ho'
    cases ho'
    obtain ⟨h1, h2, h3⟩ := h.workable o rfl
    refine ⟨h1, h2, h3.imp id fun h4 => h4.imp id ?_⟩
    rintro ⟨a, b, hab, hno⟩
    refine ⟨a, b, hab, fun ⟨g1, g2, g3⟩ => hno ⟨g1, ?_, g3⟩⟩
    change c.bc.kind 2 (if 2 = d then Side.l.other else Side.l) = _ ∧
      c.bc.kind 2 (if 2 = d then Side.r.other else Side.r) = _ at g2
    by_cases h2d : 2 = d
    · rw [if_pos h2d, if_pos h2d] at g2
      exact ⟨g2.2, g2.1⟩
    · rw [if_neg h2d, if_neg h2d] at g2
      exact g2
  tiny := h.tiny
  degree := h.degree
  cells := h.cells
  sides := mirror_plain c d _ hd h.sides
  fallback := mirror_plain c d _ hd h.fallback
  detect := mirror_plain c d _ hd h.detect

/-- **C86** (reflection, llf) With limiting (without smooth-extremum relaxation): the run from the mirrored data, with
the boundary conditions at the ends of the axis and the bounds on that velocity exchanged, is the mirror image of the
run from the original data: same steps, times and exceptions, all stored states and the final state mirrored. -/
theorem C86_mirror_llf (c : EulerConfig K np) (o : LimiterOpts K) (d : Fin 3) (h : LimitedSetup c o)
    (hd : c.bc.kind d .l = .periodic → c.bc.kind d .r = .periodic) (hc : c.riem = .llf) (hsed : o.sed = false)
    (hr : o.rangeType = "relative" ∨ o.considers (.mom d) = false)
    (f f' : RHS K (Ix → State K np)) (hf : IsSolverRHS (c.limited (some o)).scheme f)
    (hf' : IsSolverRHS ((c.mirror d).limited (some (o.mirror d))).scheme f')
    (m : Integrator) (fuel : ℕ) (T : Option K) (n : Option ℕ) (exact : Bool) (downbeats : List K) (logEvery : Bool)
    (st st' : ODEState K (Ix → State K np) (Ix → State K np))
    (hst : RelState (InRel (mirrorPair K np c.n d)) (InRel (mirrorPair K np c.n d)) st st') :
    Option.Rel (RelOut (InRel (mirrorPair K np c.n d)) (InRel (mirrorPair K np c.n d)))
      (st.integrate (stepper f m) (·.u) fuel ⟨T, n, exact, downbeats, logEvery, none⟩)
      (st'.integrate (stepper f' m) (·.u) fuel ⟨T, n, exact, downbeats, logEvery, none⟩) := by
  rw [← turned_mirrorPair] at hst ⊢
  exact limited_turn_run (h.turn (h.mirror d hd) (mirror_turned c d) (mirror_opts o d hsed hr))
    (fun _ _ _ _ => .inl hc) f f' hf hf' m fuel T n exact downbeats logEvery st st' hst

/-- **C86** (reflection, hllc) The same for hllc, when the states at the faces across the mirrored axis have positive
density and non-negative pressure, for the scheme and for the fallback, at every evaluation of the original run: the
mirrored run then also finishes without exception and is the mirror image. -/
theorem C86_mirror_hllc (c : EulerConfig K np) (o : LimiterOpts K) (d : Fin 3) (h : LimitedSetup c o)
    (hd : c.bc.kind d .l = .periodic → c.bc.kind d .r = .periodic) (hc : c.riem = .hllc) (hG : c.gas.OK)
    (hsed : o.sed = false) (hr : o.rangeType = "relative" ∨ o.considers (.mom d) = false)
    (f f' : RHS K (Ix → State K np)) (hf : IsSolverRHS (c.limited (some o)).scheme f)
    (hf' : IsSolverRHS ((c.mirror d).limited (some (o.mirror d))).scheme f')
    (m : Integrator) (fuel : ℕ) (T : Option K) (n : Option ℕ) (exact : Bool) (downbeats : List K) (logEvery : Bool)
    (st st' : ODEState K (Ix → State K np) (Ix → State K np))
    (hst : RelState (InRel (mirrorPair K np c.n d)) (InRel (mirrorPair K np c.n d)) st st')
    (out : ODEState K (Ix → State K np) (Ix → State K np))
    (hrun : st.integrate (stepper (onlyOn (fun u => FacesPhysical c d u ∧ FallbackFacesPhysical c o d u) f) m) (·.u)
      fuel ⟨T, n, exact, downbeats, logEvery, none⟩ = some (out, none)) :
    st.integrate (stepper f m) (·.u) fuel ⟨T, n, exact, downbeats, logEvery, none⟩ = some (out, none) ∧
    ∃ out', st'.integrate (stepper f' m) (·.u) fuel ⟨T, n, exact, downbeats, logEvery, none⟩ = some (out', none) ∧
      RelState (InRel (mirrorPair K np c.n d)) (InRel (mirrorPair K np c.n d)) out out' := by
  rw [← turned_mirrorPair] at hst ⊢
  refine limited_turn_run_on (h.turn (h.mirror d hd) (mirror_turned c d) (mirror_opts o d hsed hr)) f f' hf hf' m
    fuel T n exact downbeats logEvery st st' hst out
    (integrate_refine _ _ (fun s t u r hr => ?_) m _ fuel _ st out hrun)
  unfold onlyOn at hr ⊢
  by_cases hg : FacesPhysical c d u ∧ FallbackFacesPhysical c o d u
  · rw [if_pos hg] at hr
    rw [if_pos]
    · exact hr
    · intro e he _
      have : e = d := by simpa [only] using he
      subst this
      exact .inr ⟨hc, hG, hg⟩
  · rw [if_neg hg] at hr
    cases hr

/-! ## Exchange of axes -/

/-- The name of a variable after the exchange. -/
def renameVar (σ : Equiv.Perm (Fin 3)) : Var 0 → Var 0
  | .mom d => .mom (σ.symm d)
  | v => v

/-- The velocities named in `NAD_vars` and in the bounds are renamed. -/
def LimiterOpts.exchange (o : LimiterOpts K) (σ : Equiv.Perm (Fin 3)) : LimiterOpts K :=
  { o with
    nadVars := o.nadVars.map (List.map (renameVar σ))
    pad := o.pad.map fun e => (renameVar σ e.1, e.2) }

theorem rename_turn (σ : Equiv.Perm (Fin 3)) (v : Var 0) : renameVar σ (turnVar σ v) = v ∧
    turnVar σ (renameVar σ v) = v := by
  cases v with
  | rho => exact ⟨rfl, rfl⟩
  | en => exact ⟨rfl, rfl⟩
  | ps j => exact j.elim0
  | mom d => simp [renameVar, turnVar]

theorem exchange_opts (o : LimiterOpts K) (σ : Equiv.Perm (Fin 3)) :
    TurnedOpts σ (fun _ => false) o (o.exchange σ) where
  eps := rfl
  mode := rfl
  rangeType := rfl
  sed := rfl
  sedEps := rfl
  convex := rfl
  force := rfl
  slope := rfl
  tiny := rfl
  considers := fun v => by
    unfold DetectOpts.considers LimiterOpts.exchange
    dsimp only
    cases o.nadVars with
    | none => rfl
    | some l =>
      simp only [Option.map_some]
      rw [decide_eq_decide, List.mem_map]
      constructor
      · rintro ⟨a, ha, rfl⟩
        rw [(rename_turn σ a).2]
        exact ha
      · intro h
        exact ⟨_, h, (rename_turn σ v).1⟩
  pad := fun x => by
    unfold padAt LimiterOpts.exchange
    dsimp only
    rw [List.getLast?_map]
    cases o.pad.getLast? with
    | none => rfl
    | some e =>
      obtain ⟨v, lo, hi⟩ := e
      simp only [Option.map_some]
      rw [turn_value, (rename_turn σ v).2, negated_none _ fun _ => rfl]
      rfl
  even := .inl fun _ => rfl

theorem exchange_turned (c : EulerConfig K np) (σ : Equiv.Perm (Fin 3)) :
    Turned σ (fun _ => false) c (c.exchange σ) := ⟨rfl, rfl, rfl, rfl, rfl, rfl, rfl, fun _ _ => rfl⟩

theorem exchange_plain (c : EulerConfig K np) (σ : Equiv.Perm (Fin 3)) {w w' : Fin 3 → ℕ}
    (hw : ∀ d, w' d = w (σ d)) (hs : PlainSides c.scheme w) : PlainSides (c.exchange σ).scheme w' := by
  intro d hd
  obtain ⟨h1, h2⟩ := hs (σ d) (by rw [← (exchange_turned c σ).active]; exact hd)
  refine ⟨fun s => (h1 s).imp id fun h => ⟨h.1, ?_⟩, h2⟩
  rw [hw]
  exact h.2

theorem LimitedSetup.exchange {c : EulerConfig K np} {o : LimiterOpts K} (h : LimitedSetup c o)
    (σ : Equiv.Perm (Fin 3)) (hw : Workable (c.exchange σ) (some (o.exchange σ))) :
    LimitedSetup (c.exchange σ) (o.exchange σ) where
  workable := hw
  tiny := h.tiny
  degree := fun d => h.degree (σ d)
  cells := fun d => h.cells (σ d)
  sides := exchange_sides c σ h.sides
  fallback := exchange_plain c σ (fun d => by
    have : fluxGw (fallbackP (c.exchange σ).p) = fluxGw (fallbackP c.p) := by
      unfold fluxGw
      have := max_perm σ (fallbackP c.p)
      change max (max (fallbackP c.p (σ 0)) (fallbackP c.p (σ 1))) (fallbackP c.p (σ 2)) = _ at this
      change max (ceilHalf (max (max (fallbackP c.p (σ 0)) (fallbackP c.p (σ 1))) (fallbackP c.p (σ 2))) + 1) _ = _
      simp only [this]
      rw [← this]
      rfl
    unfold fluxWidth
    rw [(exchange_turned c σ).active, this]
    rfl) h.fallback
  detect := exchange_plain c σ (fun d => by
    unfold detectWidth
    rw [(exchange_turned c σ).active]
    rfl) h.detect

/-- **C86** (exchange) With limiting, every Riemann solver, slope limiter, setting of the detector and of the
spreading, every permutation of the axes, every state: the run of the exchanged problem is the exchanged run, with the
same steps, times and exceptions, and all stored states and the final state exchanged. -/
theorem C86_exchange (c : EulerConfig K np) (o : LimiterOpts K) (σ : Equiv.Perm (Fin 3)) (h : LimitedSetup c o)
    (hw : Workable (c.exchange σ) (some (o.exchange σ)))
    (f f' : RHS K (Ix → State K np)) (hf : IsSolverRHS (c.limited (some o)).scheme f)
    (hf' : IsSolverRHS ((c.exchange σ).limited (some (o.exchange σ))).scheme f')
    (m : Integrator) (fuel : ℕ) (T : Option K) (n : Option ℕ) (exact : Bool) (downbeats : List K) (logEvery : Bool)
    (st st' : ODEState K (Ix → State K np) (Ix → State K np))
    (hst : RelState (InRel (exchanged K np c.n σ)) (InRel (exchanged K np c.n σ)) st st') :
    Option.Rel (RelOut (InRel (exchanged K np c.n σ)) (InRel (exchanged K np c.n σ)))
      (st.integrate (stepper f m) (·.u) fuel ⟨T, n, exact, downbeats, logEvery, none⟩)
      (st'.integrate (stepper f' m) (·.u) fuel ⟨T, n, exact, downbeats, logEvery, none⟩) := by
  rw [← turned_exchanged] at hst ⊢
  exact limited_turn_run (h.turn (h.exchange σ hw) (exchange_turned c σ) (exchange_opts o σ))
    (fun _ _ h => absurd h (by simp)) f f' hf hf' m fuel T n exact downbeats logEvery st st' hst

/-! ## Symmetric data -/

/-- The state is its own mirror image. -/
def MirrorSymmetric (n : Fin 3 → ℕ) (d : Fin 3) (u : Ix → State K np) : Prop :=
  ∀ i, InCells n i → u i = mirrorState d (u (mirrorCell n d i))

/-- The state is unchanged by the exchange of the axes. -/
def ExchangeSymmetric (n : Fin 3 → ℕ) (σ : Equiv.Perm (Fin 3)) (u : Ix → State K np) : Prop :=
  ∀ i, InCells n i → (∀ d, u (fun d => i (σ d)) (.mom d) = u i (.mom (σ d))) ∧
    u (fun d => i (σ d)) .rho = u i .rho ∧ u (fun d => i (σ d)) .en = u i .en ∧
    ∀ j, u (fun d => i (σ d)) (.ps j) = u i (.ps j)

theorem forall₂_self {α : Type} {R : α → α → Prop} {l : List α} (h : List.Forall₂ R l l) : ∀ x ∈ l, R x x := by
  induction l with
  | nil => intro x hx; cases hx
  | cons a l ih =>
    cases h with
    | cons h1 h2 =>
      intro x hx
      rcases List.mem_cons.1 hx with rfl | hx
      · exact h1
      · exact ih h2 x hx

/-- **C86** (symmetric data, exchange) On a mesh and with boundary conditions and limiter options unchanged by an
exchange of axes, a run from data unchanged by the exchange keeps them so: the final state and every stored snapshot
are unchanged by the exchange, whatever the Riemann solver and the limiter. -/
theorem C86_symmetric_exchange (c : EulerConfig K np) (o : LimiterOpts K) (σ : Equiv.Perm (Fin 3))
    (h : LimitedSetup c o) (hc : c.exchange σ = c) (ho : o.exchange σ = o)
    (f : RHS K (Ix → State K np)) (hf : IsSolverRHS (c.limited (some o)).scheme f)
    (m : Integrator) (fuel : ℕ) (T : Option K) (n : Option ℕ) (exact : Bool) (downbeats : List K) (logEvery : Bool)
    (u : Ix → State K np) (hu : ExchangeSymmetric c.n σ u)
    (out : ODEState K (Ix → State K np) (Ix → State K np)) (e : Option PyErr)
    (hrun : (ODEState.init u).integrate (stepper f m) (·.u) fuel ⟨T, n, exact, downbeats, logEvery, none⟩ =
      some (out, e)) :
    ExchangeSymmetric c.n σ out.u ∧ ∀ v ∈ out.snapshots, ExchangeSymmetric c.n σ v := by
  have key := C86_exchange c o σ h (by rw [hc, ho]; exact h.workable) f f hf (by rw [hc, ho]; exact hf) m fuel T n
    exact downbeats logEvery (ODEState.init u) (ODEState.init u) ⟨rfl, rfl, rfl, hu, .nil, rfl⟩
  rw [hrun] at key
  cases key with
  | some hk => exact ⟨hk.1.u, fun v hv => forall₂_self hk.1.snapshots v hv⟩

theorem mirror_self (c : EulerConfig K np) (d : Fin 3) (hd : c.bc.kind d .l = c.bc.kind d .r) : c.mirror d = c := by
  have : (fun e s => c.bc.kind e (if e = d then s.other else s)) = c.bc.kind := by
    funext e s
    by_cases he : e = d
    · subst he
      rw [if_pos rfl]
      cases s
      · exact hd.symm
      · exact hd
    · rw [if_neg he]
  unfold EulerConfig.mirror
  rw [this]

/-- **C86** (symmetric data, reflection, llf) On a mesh with equal boundary conditions at the two ends of an axis, a
run from mirror symmetric data keeps them so. -/
theorem C86_symmetric_llf (c : EulerConfig K np) (o : LimiterOpts K) (d : Fin 3) (h : LimitedSetup c o)
    (hd : c.bc.kind d .l = c.bc.kind d .r) (ho : o.mirror d = o) (hc : c.riem = .llf) (hsed : o.sed = false)
    (hr : o.rangeType = "relative" ∨ o.considers (.mom d) = false)
    (f : RHS K (Ix → State K np)) (hf : IsSolverRHS (c.limited (some o)).scheme f)
    (m : Integrator) (fuel : ℕ) (T : Option K) (n : Option ℕ) (exact : Bool) (downbeats : List K) (logEvery : Bool)
    (u : Ix → State K np) (hu : MirrorSymmetric c.n d u)
    (out : ODEState K (Ix → State K np) (Ix → State K np)) (e : Option PyErr)
    (hrun : (ODEState.init u).integrate (stepper f m) (·.u) fuel ⟨T, n, exact, downbeats, logEvery, none⟩ =
      some (out, e)) :
    MirrorSymmetric c.n d out.u ∧ ∀ v ∈ out.snapshots, MirrorSymmetric c.n d v := by
  have hcm := mirror_self c d hd
  have key := C86_mirror_llf c o d h (fun e => hd ▸ e) hc hsed hr f f hf (by rw [hcm, ho]; exact hf) m fuel T n
    exact downbeats logEvery (ODEState.init u) (ODEState.init u) ⟨rfl, rfl, rfl, hu, .nil, rfl⟩
  rw [hrun] at key
  cases key with
  | some hk => exact ⟨hk.1.u, fun v hv => forall₂_self hk.1.snapshots v hv⟩

/-- **C86** (symmetric data, reflection, hllc) The same for hllc while the states at the faces are physical. -/
theorem C86_symmetric_hllc (c : EulerConfig K np) (o : LimiterOpts K) (d : Fin 3) (h : LimitedSetup c o)
    (hd : c.bc.kind d .l = c.bc.kind d .r) (ho : o.mirror d = o) (hc : c.riem = .hllc) (hG : c.gas.OK)
    (hsed : o.sed = false) (hr : o.rangeType = "relative" ∨ o.considers (.mom d) = false)
    (f : RHS K (Ix → State K np)) (hf : IsSolverRHS (c.limited (some o)).scheme f)
    (m : Integrator) (fuel : ℕ) (T : Option K) (n : Option ℕ) (exact : Bool) (downbeats : List K) (logEvery : Bool)
    (u : Ix → State K np) (hu : MirrorSymmetric c.n d u)
    (out : ODEState K (Ix → State K np) (Ix → State K np))
    (hrun : (ODEState.init u).integrate (stepper (onlyOn (fun u => FacesPhysical c d u ∧
      FallbackFacesPhysical c o d u) f) m) (·.u) fuel ⟨T, n, exact, downbeats, logEvery, none⟩ = some (out, none)) :
    (ODEState.init u).integrate (stepper f m) (·.u) fuel ⟨T, n, exact, downbeats, logEvery, none⟩ = some (out, none) ∧
    MirrorSymmetric c.n d out.u ∧ ∀ v ∈ out.snapshots, MirrorSymmetric c.n d v := by
  have hcm := mirror_self c d hd
  obtain ⟨h1, out', h2, hk⟩ := C86_mirror_hllc c o d h (fun e => hd ▸ e) hc hG hsed hr f f hf
    (by rw [hcm, ho]; exact hf) m fuel T n exact downbeats logEvery (ODEState.init u) (ODEState.init u)
    ⟨rfl, rfl, rfl, hu, .nil, rfl⟩ out hrun
  rw [h1] at h2
  cases h2
  exact ⟨h1, hk.u, fun v hv => forall₂_self hk.snapshots v hv⟩

/-! ## Concrete cases -/

/-- A square between open sides, degree 3. -/
noncomputable def squareConfig (k : RiemannKind) : EulerConfig ℝ 0 where
  gas := airGas
  riem := k
  n := ![16, 16, 1]
  p := ![3, 3, 0]
  h := ![1, 1, 1]
  cfl := 1 / 2
  fixedDt := none
  bc := ⟨fun _ _ => .free, fun _ _ => .other, none⟩
  limiting := none

theorem square_setup (k : RiemannKind) (o : LimiterOpts ℝ) (hk : o.toDetectOpts.Known) (ht : 0 < o.tiny) :
    LimitedSetup (squareConfig k) o where
  workable := fun o' ho' => by
    cases ho'
    have hd : (squareConfig k).dims = [0, 1] := by cases k <;> rfl
    exact ⟨hk, by rw [hd]; simp, .inr (.inr ⟨0, 1, hd, fun h => absurd h.1 (by decide)⟩)⟩
  tiny := ht
  degree := fun d => (by decide : ∀ d, (![3, 3, 0] : Fin 3 → ℕ) d ≤ 8) d
  cells := fun d => (by decide : ∀ d, 1 ≤ (![16, 16, 1] : Fin 3 → ℕ) d) d
  sides := fun _ _ => ⟨fun _ => .inl rfl, fun h => by cases h⟩
  fallback := fun _ _ => ⟨fun _ => .inl rfl, fun h => by cases h⟩
  detect := fun _ _ => ⟨fun _ => .inl rfl, fun h => by cases h⟩

/-- The exchange of x and y. -/
def swapXY : Equiv.Perm (Fin 3) := Equiv.swap 0 1

/-- A gas at rest with a pressure that varies along the diagonal. -/
noncomputable def diagonalData (i : Ix) : State ℝ 0
  | .en => 1 + (i 0 + i 1) ^ 2
  | .rho => 1
  | .mom _ => 0

/-- `C86_symmetric_exchange` applies to the square with hllc and the default limiter, simple or convex spreading; the
data are not uniform. -/
example : (∀ o, o = defaultLimiter ∨ o = convexLimiter → LimitedSetup (squareConfig .hllc) o ∧ o.exchange swapXY = o) ∧
    (squareConfig .hllc).exchange swapXY = squareConfig .hllc ∧
    ExchangeSymmetric (squareConfig .hllc).n swapXY diagonalData ∧ diagonalData 0 ≠ diagonalData ![1, 0, 0] := by
  refine ⟨?_, ?_, ?_, ?_⟩
  · rintro o (rfl | rfl)
    · exact ⟨square_setup _ _ ⟨.inl rfl, .inl rfl⟩ (by norm_num [defaultLimiter]), rfl⟩
    · exact ⟨square_setup _ _ ⟨.inl rfl, .inl rfl⟩ (by norm_num [convexLimiter]), rfl⟩
  · have e : ∀ (α : Type) (a b : α), (fun d => (![a, a, b] : Fin 3 → α) (swapXY d)) = ![a, a, b] := by
      intro α a b
      funext d
      match d with
      | 0 => rfl
      | 1 => rfl
      | 2 => rfl
    unfold EulerConfig.exchange squareConfig
    dsimp only
    rw [e, e, e]
  · intro i _
    have h0 : swapXY 0 = 1 := by decide
    have h1 : swapXY 1 = 0 := by decide
    refine ⟨fun _ => rfl, rfl, ?_, fun j => j.elim0⟩
    simp only [diagonalData, h0, h1]
    rw [add_comm (i 1 : ℝ)]
  · intro h
    have := congrFun h .en
    norm_num [diagonalData] at this

/-- A gas at rest with a pressure bump in the middle of the x axis. -/
noncomputable def bumpData (i : Ix) : State ℝ 0
  | .en => if i 0 = 7 ∨ i 0 = 8 then 2 else 1
  | .rho => 1
  | .mom d => if d = 0 then 2 * i 0 - 15 else 0

/-- `C86_symmetric_llf` and `C86_mirror_llf` apply to the square with llf and a limiter without smooth-extremum
relaxation; the gas moves away from the middle. -/
example : LimitedSetup (squareConfig .llf) plainLimiter ∧ plainLimiter.mirror 0 = plainLimiter ∧
    MirrorSymmetric (squareConfig .llf).n 0 bumpData ∧ bumpData 0 ≠ bumpData ![7, 0, 0] := by
  refine ⟨square_setup _ _ ⟨.inl rfl, .inl rfl⟩ (by norm_num [plainLimiter]), ?_, ?_, ?_⟩
  · simp [LimiterOpts.mirror, plainLimiter, defaultPad]
  · intro i hi
    have hm : mirrorCell (squareConfig .llf).n 0 i 0 = 15 - i 0 := by
      unfold mirrorCell
      rw [Function.update_self]
      change ((16 : ℕ) : ℤ) - 1 - i 0 = _
      push_cast
      ring
    funext v
    cases v with
    | rho => rfl
    | ps j => exact j.elim0
    | en =>
      unfold mirrorState bumpData
      dsimp only
      rw [hm]
      refine if_congr ?_ rfl rfl
      omega
    | mom d =>
      unfold mirrorState bumpData
      dsimp only
      rw [hm]
      by_cases hd : d = 0
      · simp only [if_pos hd]
        push_cast
        ring
      · simp only [if_neg hd]
  · intro h
    have := congrFun h .en
    norm_num [bumpData] at this

/-- The limiter without slopes in the fallback scheme. -/
noncomputable def firstOrderLimiter : LimiterOpts ℝ := { plainLimiter with slope := none }

/-- The hypotheses of `C86_mirror_hllc` hold for one step from any physical data in a tube between a wall and an open
end. -/
example (u : Ix → State ℝ 0) (hu : ∀ i, Physical (computePrimitives airGas.gamma (u i)))
    (f : RHS ℝ (Ix → State ℝ 0)) (hf : IsSolverRHS ((tubeConfig .hllc).limited (some firstOrderLimiter)).scheme f) :
    LimitedSetup (tubeConfig .hllc) firstOrderLimiter ∧
    ∃ out, (ODEState.init u).integrate (stepper (onlyOn (fun u => FacesPhysical (tubeConfig .hllc) 0 u ∧
      FallbackFacesPhysical (tubeConfig .hllc) firstOrderLimiter 0 u) f) .euler) (·.u) 0
      ⟨none, some 1, true, [], false, none⟩ = some (out, none) := by
  have e3 : detectWidth (tubeConfig .hllc).scheme = ![3, 0, 0] := by decide
  have ef : fallbackP (tubeConfig .hllc).p = (tubeConfig .hllc).p := by decide
  have hs : LimitedSetup (tubeConfig .hllc) firstOrderLimiter := by
    refine ⟨fun o ho => ?_, by norm_num [firstOrderLimiter, plainLimiter], by decide, by decide, (tube_sides _).1, ?_, ?_⟩
    · cases ho
      exact ⟨⟨.inl rfl, .inl rfl⟩, by decide, .inl rfl⟩
    · rw [ef]
      exact (tube_sides _).1
    · rw [e3]
      intro d _
      refine ⟨fun s => ?_, ?_⟩
      · cases s <;> revert d <;> decide
      · revert d
        decide
  refine ⟨hs, ?_⟩
  have hp := facesPhysical_zero (tubeConfig .hllc) (by decide) (by decide) (tube_sides _).1 0 rfl u fun i _ => hu i
  have hp' : FallbackFacesPhysical (tubeConfig .hllc) firstOrderLimiter 0 u := by
    unfold FallbackFacesPhysical
    rw [ef]
    exact hp
  obtain ⟨junk, mem, e⟩ := hf 0 0 u
  obtain ⟨dt, D, D', e2, -, -⟩ := limited_turn_rhs (hs.turn (σ := 1) (fl := fun _ => false) hs
    ⟨rfl, rfl, rfl, rfl, rfl, rfl, rfl, fun _ _ => rfl⟩ (by
      have := exchange_opts firstOrderLimiter 1
      exact this)) junk junk mem mem 0 0 u u (fun i _ => by
        have h1 : tau 1 (fun _ => false) (lastCell (tubeConfig .hllc).n) i = i := by
          funext e
          simp [tau]
          rfl
        rw [h1]
        funext v
        cases v <;> rfl) (fun _ h => absurd h (by simp))
  simp [ODEState.integrate, ODEState.integrateN, ODEState.takeSteps, ODEState.takeStep, ODEState.init,
    ODEState.snapshot, stepper, eulerStepper, onlyOn, hp, hp', e, e2]

end FVHOE
