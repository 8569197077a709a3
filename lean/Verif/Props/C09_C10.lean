import Verif.Proofs.Turn
import Verif.Props.C05_C07
import Verif.Proofs.LowOrder
import Verif.Props.C41_C44

/-!
C09: mirror reflection. C10: exchange of axes.
-/

set_option linter.unusedSectionVars false

namespace FVHOE

variable {K : Type} [Field K] [LinearOrder K] [IsStrictOrderedRing K] {np : ℕ}
variable {σ : Equiv.Perm (Fin 3)} {fl : Fin 3 → Bool}

theorem turnState_injective : Function.Injective (turnState K np σ fl) := by
  intro v w h
  funext i
  cases i with
  | rho => exact congrFun h .rho
  | en => exact congrFun h .en
  | ps j => exact congrFun h (.ps j)
  | mom e =>
    obtain ⟨d, rfl⟩ := σ.surjective e
    have := congrFun h (.mom d)
    rw [turn_mom, turn_mom] at this
    split_ifs at this
    · exact neg_injective this
    · exact this

/-- `x.2` is `x.1` with axes exchanged and reversed, on the cells of the mesh. -/
def turned (K : Type) [Field K] (np : ℕ) (σ : Equiv.Perm (Fin 3)) (fl : Fin 3 → Bool) (n : Fin 3 → ℕ) :
    Submodule K ((Ix → State K np) × (Ix → State K np)) where
  carrier := {x | ∀ i, InCells (fun d => n (σ d)) i →
    x.2 i = turnState K np σ fl (x.1 (tau σ fl (lastCell n) i))}
  add_mem' := fun ha hb i hi => by simp [ha i hi, hb i hi]
  zero_mem' := fun i _ => by simp
  smul_mem' := fun c x hx i hi => by simp [hx i hi]

theorem turned_unique {n : Fin 3 → ℕ} {u v u' : Ix → State K np} (h : InRel (turned K np σ fl n) u u')
    (h' : InRel (turned K np σ fl n) v u') : clip n u = clip n v := by
  funext i
  unfold clip
  by_cases hi : InCells n i
  · rw [if_pos hi, if_pos hi]
    obtain ⟨j, rfl⟩ := tau_inj σ fl n i
    rw [tau_cells] at hi
    exact turnState_injective ((h j hi).symm.trans (h' j hi))
  · rw [if_neg hi, if_neg hi]

/-- What two configurations that are the same problem with exchanged and reversed axes must satisfy. -/
structure TurnSetup (σ : Equiv.Perm (Fin 3)) (fl : Fin 3 → Bool) (c c' : EulerConfig K np) : Prop where
  turned : Turned σ fl c c'
  limiting : c.limiting = none
  limiting' : c'.limiting = none
  degree : ∀ d, c.p d ≤ 8
  cells : ∀ d, 1 ≤ c.n d
  sides : PlainSides c.scheme (fluxWidth c.scheme c.p)
  sides' : PlainSides c'.scheme (fluxWidth c'.scheme c'.p)

theorem turn_rel {c c' : EulerConfig K np} (h : TurnSetup σ fl c c') (f f' : RHS K (Ix → State K np))
    (hf : IsSolverRHS c.scheme f) (hf' : IsSolverRHS c'.scheme f') (s t : K) (u u' : Ix → State K np)
    (hu : InRel (turned K np σ fl c.n) u u') (hr : Reversible fl σ c u) :
    RelRes (InRel (turned K np σ fl c.n)) (f s t u) (f' s t u') := by
  obtain ⟨junk, mem, e⟩ := hf s t u
  obtain ⟨junk', mem', e'⟩ := hf' s t u'
  obtain ⟨dt, D, D', h1, h2, h3⟩ := turn_rhs h.turned h.limiting h.limiting' h.degree h.cells h.sides h.sides'
    junk junk' mem mem' s t u u' (by rw [h.turned.n]; exact hu) hr
  rw [e, e', h1, h2]
  refine ⟨rfl, fun i hi => h3 i ?_⟩
  rw [h.turned.n]
  exact hi

/-- A run of the exchanged and reversed problem when every state can be reversed. -/
theorem turn_run {c c' : EulerConfig K np} (h : TurnSetup σ fl c c') (hr : ∀ u, Reversible fl σ c u)
    (f f' : RHS K (Ix → State K np)) (hf : IsSolverRHS c.scheme f) (hf' : IsSolverRHS c'.scheme f')
    (m : Integrator) (fuel : ℕ) (T : Option K) (n : Option ℕ) (exact : Bool) (downbeats : List K) (logEvery : Bool)
    (st st' : ODEState K (Ix → State K np) (Ix → State K np))
    (hst : RelState (InRel (turned K np σ fl c.n)) (InRel (turned K np σ fl c.n)) st st') :
    Option.Rel (RelOut (InRel (turned K np σ fl c.n)) (InRel (turned K np σ fl c.n)))
      (st.integrate (stepper f m) (·.u) fuel ⟨T, n, exact, downbeats, logEvery, none⟩)
      (st'.integrate (stepper f' m) (·.u) fuel ⟨T, n, exact, downbeats, logEvery, none⟩) :=
  integrate_rel (turned K np σ fl c.n) _ f f' (fun s t u u' hu => turn_rel h f f' hf hf' s t u u' hu (hr u)) m _ _
    (fun _ _ h => h.u) fuel _ _ ⟨rfl, rfl, rfl, rfl, rfl, .none⟩ st st' hst

/-- A right-hand side that refuses states outside `Good`: its runs without exception are the runs that meet
only good states. -/
noncomputable def onlyOn {V : Type} (Good : (Ix → V) → Prop) (f : RHS K (Ix → V)) : RHS K (Ix → V) := fun s t u =>
  open Classical in if Good u then f s t u else .error .valueError

theorem onlyOn_sub {V : Type} (Good : (Ix → V) → Prop) (f : RHS K (Ix → V)) (s t : K) (u : Ix → V) :
    Sub (onlyOn Good f s t u) (f s t u) := by
  intro r hr
  unfold onlyOn at hr
  split at hr
  · exact hr
  · cases hr

/-- A run that meets only states that can be reversed. -/
theorem turn_run_on {c c' : EulerConfig K np} (h : TurnSetup σ fl c c')
    (f f' : RHS K (Ix → State K np)) (hf : IsSolverRHS c.scheme f) (hf' : IsSolverRHS c'.scheme f')
    (m : Integrator) (fuel : ℕ) (T : Option K) (n : Option ℕ) (exact : Bool) (downbeats : List K) (logEvery : Bool)
    (st st' : ODEState K (Ix → State K np) (Ix → State K np))
    (hst : RelState (InRel (turned K np σ fl c.n)) (InRel (turned K np σ fl c.n)) st st')
    (out : ODEState K (Ix → State K np) (Ix → State K np))
    (hrun : st.integrate (stepper (onlyOn (Reversible fl σ c) f) m) (·.u) fuel
      ⟨T, n, exact, downbeats, logEvery, none⟩ = some (out, none)) :
    st.integrate (stepper f m) (·.u) fuel ⟨T, n, exact, downbeats, logEvery, none⟩ = some (out, none) ∧
    ∃ out', st'.integrate (stepper f' m) (·.u) fuel ⟨T, n, exact, downbeats, logEvery, none⟩ = some (out', none) ∧
      RelState (InRel (turned K np σ fl c.n)) (InRel (turned K np σ fl c.n)) out out' := by
  refine ⟨integrate_refine _ _ (onlyOn_sub _ f) m _ fuel _ st out hrun, ?_⟩
  obtain ⟨G', hG'⟩ : ∃ G' : (Ix → State K np) → Prop, G' = fun u' =>
      ∃ u, InRel (turned K np σ fl c.n) u u' ∧ Reversible fl σ c u := ⟨_, rfl⟩
  have key := integrate_rel (turned K np σ fl c.n) (InRel (turned K np σ fl c.n)) (onlyOn (Reversible fl σ c) f)
    (onlyOn G' f') ?_ m (·.u) (·.u) (fun _ _ h => h.u) fuel
    ⟨T, n, exact, downbeats, logEvery, none⟩ ⟨T, n, exact, downbeats, logEvery, none⟩
    ⟨rfl, rfl, rfl, rfl, rfl, .none⟩ st st' hst
  · rw [hrun] at key
    cases he : st'.integrate (stepper (onlyOn G' f') m) (·.u) fuel ⟨T, n, exact, downbeats, logEvery, none⟩ with
    | none => rw [he] at key; cases key
    | some o =>
      rw [he] at key
      cases key with
      | some hk =>
        obtain ⟨out', e⟩ := o
        obtain ⟨k1, k2⟩ := hk
        change none = e at k2
        subst k2
        exact ⟨out', integrate_refine _ _ (onlyOn_sub _ f') m _ fuel _ st' out' he, k1⟩
  · intro s t u u' hu
    unfold onlyOn
    by_cases hg : Reversible fl σ c u
    · have : G' u' := by rw [hG']; exact ⟨u, hu, hg⟩
      rw [if_pos hg, if_pos this]
      exact turn_rel h f f' hf hf' s t u u' hu hg
    · have : ¬ G' u' := by
        rw [hG']
        rintro ⟨v, hv, hr⟩
        refine hg fun d h1 h2 => (hr d h1 h2).imp id fun h3 => ⟨h3.1, h3.2.1, ?_⟩
        have := h3.2.2
        unfold FacesPhysical at this ⊢
        rw [turned_unique hu hv]
        exact this
      rw [if_neg hg, if_neg this]
      rfl

/-! ## Reflection -/

/-- The cell opposite to `i` along axis `d`. -/
def mirrorCell (n : Fin 3 → ℕ) (d : Fin 3) (i : Ix) : Ix := Function.update i d (n d - 1 - i d)

/-- `x.2` is the mirror image of `x.1` along axis `d`: cells in opposite order, that velocity or momentum component
negated. -/
def mirrorPair (K : Type) [Field K] (np : ℕ) (n : Fin 3 → ℕ) (d : Fin 3) :
    Submodule K ((Ix → State K np) × (Ix → State K np)) where
  carrier := {x | ∀ i, InCells n i → x.2 i = mirrorState d (x.1 (mirrorCell n d i))}
  add_mem' := fun {a b} ha hb i hi => by
    funext j
    have h1 := congrFun (ha i hi) j
    have h2 := congrFun (hb i hi) j
    simp only [Prod.snd_add, Prod.fst_add, Pi.add_apply, h1, h2]
    cases j <;> simp only [mirrorState, Pi.add_apply]
    split_ifs <;> ring
  zero_mem' := fun i _ => by
    funext j
    cases j <;> simp [mirrorState]
  smul_mem' := fun c x hx i hi => by
    funext j
    have h1 := congrFun (hx i hi) j
    simp only [Prod.smul_snd, Prod.smul_fst, Pi.smul_apply, h1]
    cases j <;> simp only [mirrorState, Pi.smul_apply, smul_eq_mul]
    split_ifs <;> ring

/-- The reversal of one axis. -/
def only (d : Fin 3) : Fin 3 → Bool := fun e => e == d

theorem turned_mirrorPair (n : Fin 3 → ℕ) (d : Fin 3) : turned K np 1 (only d) n = mirrorPair K np n d := by
  have h1 : ∀ i, tau 1 (only d) (lastCell n) i = mirrorCell n d i := by
    intro i
    funext e
    have hs : (1 : Equiv.Perm (Fin 3)).symm e = e := rfl
    unfold tau mirrorCell only lastCell
    rw [hs]
    by_cases he : e = d
    · subst he
      simp
    · simp [he]
  have h2 : ∀ v : State K np, turnState K np 1 (only d) v = mirrorState d v := by
    intro v
    funext i
    cases i with
    | rho => rfl
    | en => rfl
    | ps j => rfl
    | mom e =>
      rw [turn_mom]
      unfold mirrorState only
      simp
  ext x
  show (∀ i, _ → _) ↔ (∀ i, _ → _)
  simp only [h1, h2]
  exact Iff.rfl

/-- The configuration with the boundary conditions at the two ends of axis `d` exchanged. -/
def EulerConfig.mirror (c : EulerConfig K np) (d : Fin 3) : EulerConfig K np :=
  { c with bc := { c.bc with kind := fun e s => c.bc.kind e (if e = d then s.other else s) } }

theorem mirror_turned (c : EulerConfig K np) (d : Fin 3) : Turned 1 (only d) c (c.mirror d) :=
  ⟨rfl, rfl, rfl, rfl, rfl, rfl, rfl, fun e s => by simp [EulerConfig.mirror, only]⟩

/-- **C09** (llf) The run from the mirrored data with the boundary conditions at the ends of the axis exchanged is the
mirror image of the run from the original data: same steps, times and exceptions, all stored states and the final
state mirrored. -/
theorem C09_llf (c : EulerConfig K np) (d : Fin 3) (hc : c.riem = .llf) (hl : c.limiting = none)
    (hp : ∀ e, c.p e ≤ 8) (hn : ∀ e, 1 ≤ c.n e) (hs : PlainSides c.scheme (fluxWidth c.scheme c.p))
    (hs' : PlainSides (c.mirror d).scheme (fluxWidth c.scheme c.p))
    (f f' : RHS K (Ix → State K np)) (hf : IsSolverRHS c.scheme f) (hf' : IsSolverRHS (c.mirror d).scheme f')
    (m : Integrator) (fuel : ℕ) (T : Option K) (n : Option ℕ) (exact : Bool) (downbeats : List K) (logEvery : Bool)
    (st st' : ODEState K (Ix → State K np) (Ix → State K np))
    (hst : RelState (InRel (mirrorPair K np c.n d)) (InRel (mirrorPair K np c.n d)) st st') :
    Option.Rel (RelOut (InRel (mirrorPair K np c.n d)) (InRel (mirrorPair K np c.n d)))
      (st.integrate (stepper f m) (·.u) fuel ⟨T, n, exact, downbeats, logEvery, none⟩)
      (st'.integrate (stepper f' m) (·.u) fuel ⟨T, n, exact, downbeats, logEvery, none⟩) := by
  rw [← turned_mirrorPair] at hst ⊢
  exact turn_run ⟨mirror_turned c d, hl, hl, hp, hn, hs, hs'⟩ (fun _ _ _ _ => .inl hc) f f' hf hf' m fuel T n exact downbeats logEvery st st' hst

/-- **C09** (hllc) The same for hllc, when the reconstructed states at the faces across the mirrored axis have
positive density and non-negative pressure at every evaluation of the original run: the mirrored run then also finishes without
exception and is the mirror image. -/
theorem C09_hllc (c : EulerConfig K np) (d : Fin 3) (hc : c.riem = .hllc) (hG : c.gas.OK) (hl : c.limiting = none)
    (hp : ∀ e, c.p e ≤ 8) (hn : ∀ e, 1 ≤ c.n e) (hs : PlainSides c.scheme (fluxWidth c.scheme c.p))
    (hs' : PlainSides (c.mirror d).scheme (fluxWidth c.scheme c.p))
    (f f' : RHS K (Ix → State K np)) (hf : IsSolverRHS c.scheme f) (hf' : IsSolverRHS (c.mirror d).scheme f')
    (m : Integrator) (fuel : ℕ) (T : Option K) (n : Option ℕ) (exact : Bool) (downbeats : List K) (logEvery : Bool)
    (st st' : ODEState K (Ix → State K np) (Ix → State K np))
    (hst : RelState (InRel (mirrorPair K np c.n d)) (InRel (mirrorPair K np c.n d)) st st')
    (out : ODEState K (Ix → State K np) (Ix → State K np))
    (hrun : st.integrate (stepper (onlyOn (FacesPhysical c d) f) m) (·.u) fuel
      ⟨T, n, exact, downbeats, logEvery, none⟩ = some (out, none)) :
    st.integrate (stepper f m) (·.u) fuel ⟨T, n, exact, downbeats, logEvery, none⟩ = some (out, none) ∧
    ∃ out', st'.integrate (stepper f' m) (·.u) fuel ⟨T, n, exact, downbeats, logEvery, none⟩ = some (out', none) ∧
      RelState (InRel (mirrorPair K np c.n d)) (InRel (mirrorPair K np c.n d)) out out' := by
  rw [← turned_mirrorPair] at hst ⊢
  refine turn_run_on ⟨mirror_turned c d, hl, hl, hp, hn, hs, hs'⟩ f f' hf hf' m fuel T n exact downbeats logEvery st st' hst out
    (integrate_refine _ _ (fun s t u r hr => ?_) m _ fuel _ st out hrun)
  unfold onlyOn at hr ⊢
  by_cases hg : FacesPhysical c d u
  · rw [if_pos hg] at hr
    rw [if_pos]
    · exact hr
    · intro e he _
      have : e = d := by simpa [only] using he
      subst this
      exact .inr ⟨hc, hG, hg⟩
  · rw [if_neg hg] at hr
    cases hr

theorem primitives_negate (γ : K) (d : Fin 3) (v : State K np) (h : Physical (computePrimitives γ v)) :
    Physical (computePrimitives γ (negateMom d v)) := by
  rw [primitives_negateMom]
  exact ⟨h.rho, h.press⟩

/-- At degree zero the states at the faces are the states of cells. -/
theorem facesPhysical_zero (c : EulerConfig K np) (hp : ∀ d, c.p d = 0) (hn : ∀ d, 1 ≤ c.n d)
    (hs : PlainSides c.scheme (fluxWidth c.scheme c.p)) (d : Fin 3) (hd : c.scheme.active d = true)
    (u : Ix → State K np) (hu : ∀ i, InCells c.n i → Physical (computePrimitives c.gas.gamma (u i))) :
    FacesPhysical c d u := by
  have hw : ∀ d, fluxWidth c.scheme c.p d = if c.scheme.active d = true then 1 else 0 := by
    intro d
    unfold fluxWidth fluxGw
    simp [hp, ceilHalf]
  have hb := ext_onBox c.scheme (fluxWidth c.scheme c.p) 0 _ _ (hs.sides hn (fun e he => by rw [hw]; simp [he]) 0)
    (fun v => Physical (computePrimitives c.gas.gamma v))
    (fun e => c.scheme.ghost_keeps _ .l (fun e _ _ v hv => primitives_negate _ e v hv) e)
    (fun e => c.scheme.ghost_keeps _ .r (fun e _ _ v hv => primitives_negate _ e v hv) e) hn (clip c.n u)
    (fun j hj => by unfold clip; rw [if_pos (show InCells c.n j from hj)]; exact hu j hj)
  intro i j hi hj
  unfold faceL faceR latLine
  rw [latPrim_low _ (fun e => by rw [hp]; omega), hp, latR_zero, latL_zero, latC_low (by rw [hp]; omega),
    latC_low (by rw [hp]; omega)]
  have hji : ∀ e, j e = i e := by
    intro e
    by_cases he : e = d
    · rw [he]; exact hj.1
    · have := hj.2 e he
      rw [hp] at this
      have h0 : (ceilHalf 0 : ℤ) = 0 := rfl
      rw [h0] at this
      have := abs_nonpos_iff.1 this
      omega
  have hx : ∀ e, (if c.scheme.active e = true then (1 : ℤ) else 0) = fluxWidth c.scheme c.p e := fun e => by
    rw [hw]; split_ifs <;> rfl
  refine ⟨hb _ fun e => ?_, hb _ fun e => ?_⟩ <;> beta_reduce <;> rw [← hx] <;>
    have := hi e <;> rw [← hji] at this <;> by_cases he : e = d
  · subst he
    simp only [Pi.single_eq_same, Pi.sub_apply, hd, if_true] at this ⊢
    change _ ∧ _ < (c.n e : ℤ) + 1
    omega
  · simp only [Pi.single_eq_of_ne he, Pi.sub_apply] at this ⊢
    change _ ∧ _ < (c.n e : ℤ) + _
    split_ifs <;> omega
  · subst he
    simp only [Pi.single_eq_same, hd, if_true] at this ⊢
    change _ ∧ _ < (c.n e : ℤ) + 1
    omega
  · simp only [Pi.single_eq_of_ne he] at this ⊢
    change _ ∧ _ < (c.n e : ℤ) + _
    split_ifs <;> omega

/-- A shock tube between a wall and an open end. -/
noncomputable def tubeConfig (k : RiemannKind) : EulerConfig ℝ 0 where
  gas := airGas
  riem := k
  n := ![10, 1, 1]
  p := ![0, 0, 0]
  h := ![1, 1, 1]
  cfl := 1 / 2
  fixedDt := none
  bc := ⟨fun _ s => match s with | .l => .reflective | .r => .free, fun _ _ => .other, none⟩
  limiting := none

theorem tube_sides (k : RiemannKind) : PlainSides (tubeConfig k).scheme (fluxWidth (tubeConfig k).scheme (tubeConfig k).p) ∧
    PlainSides ((tubeConfig k).mirror 0).scheme (fluxWidth (tubeConfig k).scheme (tubeConfig k).p) := by
  have e : fluxWidth (tubeConfig k).scheme (tubeConfig k).p = ![1, 0, 0] := by cases k <;> decide
  rw [e]
  cases k <;> constructor <;> intro d _ <;> refine ⟨fun s => ?_, ?_⟩ <;>
    first | (cases s <;> revert d <;> decide) | (revert d; decide)

/-- The hypotheses of `C09_llf` hold for the tube and fresh solvers with mirrored initial arrays. -/
example (u : Ix → State ℝ 0) : (tubeConfig .llf).riem = .llf ∧ (tubeConfig .llf).limiting = none ∧
    (∀ e, (tubeConfig .llf).p e ≤ 8) ∧ (∀ e, 1 ≤ (tubeConfig .llf).n e) ∧
    ((tubeConfig .llf).mirror 0).bc.kind 0 .l ≠ (tubeConfig .llf).bc.kind 0 .l ∧
    RelState (K := ℝ) (InRel (mirrorPair ℝ 0 (tubeConfig .llf).n 0)) (InRel (mirrorPair ℝ 0 (tubeConfig .llf).n 0))
      (ODEState.init u) (ODEState.init fun i => mirrorState 0 (u (mirrorCell (tubeConfig .llf).n 0 i))) :=
  ⟨rfl, rfl, by decide, by decide, by decide, rfl, rfl, rfl, fun _ _ => rfl, .nil, rfl⟩

/-- The hypotheses of `C09_hllc` hold for one step from any physical data in the tube. -/
example (u : Ix → State ℝ 0) (hu : ∀ i, Physical (computePrimitives airGas.gamma (u i)))
    (f : RHS ℝ (Ix → State ℝ 0)) (hf : IsSolverRHS (tubeConfig .hllc).scheme f) (m : Integrator) (hm : m = .euler) :
    ∃ out, (ODEState.init u).integrate (stepper (onlyOn (FacesPhysical (tubeConfig .hllc) 0) f) m) (·.u) 0
      ⟨none, some 1, true, [], false, none⟩ = some (out, none) := by
  have hp := facesPhysical_zero (tubeConfig .hllc) (by decide) (by decide) (tube_sides _).1 0 rfl u fun i _ => hu i
  subst hm
  obtain ⟨junk, mem, e⟩ := hf 0 0 u
  obtain ⟨dt, -, e2⟩ := rhs_spec (tubeConfig .hllc).scheme rfl (by decide) (by decide) 0 _ _
    ((tube_sides .hllc).1.sides (by decide) (by decide) 0) junk mem 0 u u fun _ _ => rfl
  simp [ODEState.integrate, ODEState.integrateN, ODEState.takeSteps, ODEState.takeStep, ODEState.init,
    ODEState.snapshot, stepper, eulerStepper, onlyOn, hp, e, e2]

/-! ## Exchange of axes -/

/-- `x.2` is `x.1` with the axes exchanged: axis `d` of `x.2` is axis `σ d` of `x.1`, for the cells and for the
velocity or momentum components. -/
def exchanged (K : Type) [Field K] (np : ℕ) (n : Fin 3 → ℕ) (σ : Equiv.Perm (Fin 3)) :
    Submodule K ((Ix → State K np) × (Ix → State K np)) where
  carrier := {x | ∀ i, InCells n i → (∀ d, x.2 (fun d => i (σ d)) (.mom d) = x.1 i (.mom (σ d))) ∧
    x.2 (fun d => i (σ d)) .rho = x.1 i .rho ∧ x.2 (fun d => i (σ d)) .en = x.1 i .en ∧
    ∀ j, x.2 (fun d => i (σ d)) (.ps j) = x.1 i (.ps j)}
  add_mem' := fun {a b} ha hb i hi => by
    obtain ⟨a1, a2, a3, a4⟩ := ha i hi
    obtain ⟨b1, b2, b3, b4⟩ := hb i hi
    simp only [Prod.snd_add, Prod.fst_add, Pi.add_apply, a1, a2, a3, a4, b1, b2, b3, b4, implies_true, and_self]
  zero_mem' := fun i _ => ⟨fun _ => rfl, rfl, rfl, fun _ => rfl⟩
  smul_mem' := fun c x hx i hi => by
    obtain ⟨a1, a2, a3, a4⟩ := hx i hi
    simp only [Prod.smul_snd, Prod.smul_fst, Pi.smul_apply, a1, a2, a3, a4, implies_true, and_self]

theorem turned_exchanged (n : Fin 3 → ℕ) (σ : Equiv.Perm (Fin 3)) :
    turned K np σ (fun _ => false) n = exchanged K np n σ := by
  have h1 : ∀ i, tau σ (fun _ => false) (lastCell n) i = fun e => i (σ.symm e) := fun i => by
    funext e
    simp [tau]
  ext x
  show (∀ i, _ → _) ↔ (∀ i, _ → _)
  simp only [h1]
  constructor
  · intro h i hi
    have := h (fun d => i (σ d)) fun d => hi (σ d)
    simp only [Equiv.apply_symm_apply] at this
    rw [this]
    exact ⟨fun d => rfl, rfl, rfl, fun j => rfl⟩
  · intro h i hi
    obtain ⟨a1, a2, a3, a4⟩ := h (fun e => i (σ.symm e)) fun e => by
      have := hi (σ.symm e)
      simpa using this
    simp only [Equiv.symm_apply_apply] at a1 a2 a3 a4
    funext j
    cases j with
    | rho => exact a2
    | en => exact a3
    | ps j => exact a4 j
    | mom d => exact a1 d

/-- The configuration with the axes exchanged: numbers of cells, degrees, spacings and boundary conditions. -/
def EulerConfig.exchange (c : EulerConfig K np) (σ : Equiv.Perm (Fin 3)) : EulerConfig K np :=
  { c with
    n := fun d => c.n (σ d)
    p := fun d => c.p (σ d)
    h := fun d => c.h (σ d)
    bc := { c.bc with kind := fun d s => c.bc.kind (σ d) s } }

theorem exchange_sides (c : EulerConfig K np) (σ : Equiv.Perm (Fin 3))
    (hs : PlainSides c.scheme (fluxWidth c.scheme c.p)) :
    PlainSides (c.exchange σ).scheme (fluxWidth (c.exchange σ).scheme (c.exchange σ).p) := by
  have ht : Turned σ (fun _ => false) c (c.exchange σ) := ⟨rfl, rfl, rfl, rfl, rfl, rfl, rfl, fun _ _ => rfl⟩
  intro d hd
  obtain ⟨h1, h2⟩ := hs (σ d) (by rw [← ht.active]; exact hd)
  refine ⟨fun s => ?_, h2⟩
  refine (h1 s).imp id fun h => ⟨h.1, ?_⟩
  have : fluxWidth (c.exchange σ).scheme (c.exchange σ).p d = fluxWidth c.scheme c.p (σ d) := by
    unfold fluxWidth
    rw [ht.active, ht.gw]
    rfl
  rw [this]
  exact h.2

/-- **C10** Every solver, every permutation of the axes, every state: the run of the exchanged problem is the
exchanged run, with the same steps, times and exceptions, and all stored states and the final state exchanged. -/
theorem C10_exchange (c : EulerConfig K np) (σ : Equiv.Perm (Fin 3)) (hl : c.limiting = none)
    (hp : ∀ e, c.p e ≤ 8) (hn : ∀ e, 1 ≤ c.n e) (hs : PlainSides c.scheme (fluxWidth c.scheme c.p))
    (f f' : RHS K (Ix → State K np)) (hf : IsSolverRHS c.scheme f) (hf' : IsSolverRHS (c.exchange σ).scheme f')
    (m : Integrator) (fuel : ℕ) (T : Option K) (n : Option ℕ) (exact : Bool) (downbeats : List K) (logEvery : Bool)
    (st st' : ODEState K (Ix → State K np) (Ix → State K np))
    (hst : RelState (InRel (exchanged K np c.n σ)) (InRel (exchanged K np c.n σ)) st st') :
    Option.Rel (RelOut (InRel (exchanged K np c.n σ)) (InRel (exchanged K np c.n σ)))
      (st.integrate (stepper f m) (·.u) fuel ⟨T, n, exact, downbeats, logEvery, none⟩)
      (st'.integrate (stepper f' m) (·.u) fuel ⟨T, n, exact, downbeats, logEvery, none⟩) := by
  rw [← turned_exchanged] at hst ⊢
  refine turn_run (σ := σ) (fl := fun _ => false) (c := c) (c' := c.exchange σ)
    ⟨⟨rfl, rfl, rfl, rfl, rfl, rfl, rfl, fun _ _ => rfl⟩, hl, hl, hp, hn, hs,
    exchange_sides c σ hs⟩
    (fun _ _ h => absurd h (by simp)) f f' hf hf' m fuel T n exact downbeats logEvery st st' hst

/-- The hypotheses hold for the two-dimensional periodic setup, with x, y, z becoming y, z, x; the exchanged problem
has 9 cells in x, one in y and 8 in z. -/
example (u : Ix → State ℝ 1) : exampleConfig.limiting = none ∧ (∀ e, exampleConfig.p e ≤ 8) ∧
    (∀ e, 1 ≤ exampleConfig.n e) ∧ PlainSides exampleConfig.scheme (fluxWidth exampleConfig.scheme exampleConfig.p) ∧
    (exampleConfig.exchange (finRotate 3)).n = ![9, 1, 8] ∧
    RelState (K := ℝ) (InRel (exchanged ℝ 1 exampleConfig.n (finRotate 3)))
      (InRel (exchanged ℝ 1 exampleConfig.n (finRotate 3))) (ODEState.init u)
      (ODEState.init fun i v => u (fun e => i ((finRotate 3).symm e)) (match v with
        | .mom d => .mom (finRotate 3 d)
        | v => v)) := by
  have e : fluxWidth exampleConfig.scheme exampleConfig.p = ![8, 6, 0] := by decide
  refine ⟨rfl, by decide, by decide, ?_, by decide, rfl, rfl, rfl, fun i _ => ?_, .nil, rfl⟩
  · rw [e]; intro d _
    refine ⟨fun s => ?_, fun _ => rfl⟩
    cases s <;> revert d <;> decide
  · have h : (fun e => i (finRotate 3 ((finRotate 3).symm e))) = i := by simp only [Equiv.apply_symm_apply]
    exact ⟨fun d => congrArg (fun x => u x (.mom (finRotate 3 d))) h, congrArg (fun x => u x .rho) h,
      congrArg (fun x => u x .en) h, fun j => congrArg (fun x => u x (.ps j)) h⟩

end FVHOE
