import Verif.Proofs.Memory
import Verif.Proofs.Natural
import Verif.Proofs.ODERel

/-!
C06: passive scalars do not influence the flow.
-/

set_option linter.unusedSectionVars false

namespace FVHOE

variable {K : Type} [Field K] [LinearOrder K] [IsStrictOrderedRing K] {np np' : ℕ}

/-- Forget the passive scalars of a column. -/
def dropPassives : State K np →ₗ[K] State K 0 where
  toFun := fun w v => w (match v with | .rho => .rho | .mom d => .mom d | .en => .en)
  map_add' := fun _ _ => rfl
  map_smul' := fun _ _ => rfl

/-- Forget the passive scalars of prescribed boundary values. -/
def BCValue.drop : BCValue K (State K np) → BCValue K (State K 0)
  | .func g => .func fun x y z t => (g x y z t).map (Arr.map dropPassives)
  | .const v => .const (dropPassives v)
  | .other => .other

/-- The configuration without its passive scalars (and without limiting). -/
def EulerConfig.flow (c : EulerConfig K np) : EulerConfig K 0 where
  gas := c.gas
  riem := c.riem
  n := c.n
  p := c.p
  h := c.h
  cfl := c.cfl
  fixedDt := c.fixedDt
  bc := ⟨c.bc.kind, fun d s => (c.bc.value d s).drop, c.bc.slabs⟩
  limiting := none

theorem dropPassives_eq : (dropPassives : State K np → State K 0) = activePart := by
  funext w v
  cases v with
  | ps j => exact j.elim0
  | _ => rfl

theorem drop_prim (γ : K) (v : State K np) :
    computePrimitives γ (dropPassives v) = dropPassives (computePrimitives γ v) := by
  funext i
  cases i with
  | ps j => exact j.elim0
  | _ => rfl

theorem drop_riemann (k : RiemannKind) (G : Gas K) (d : Fin 3) (v w : State K np) :
    riemann k G d (dropPassives v) (dropPassives w) = dropPassives (riemann k G d v w) := by
  funext i
  cases i with
  | ps j => exact j.elim0
  | _ => cases k <;> rfl

theorem flow_dims (c : EulerConfig K np) : c.flow.dims = c.dims := rfl

theorem flow_hom (c : EulerConfig K np) (o : Option (LimiterOpts K)) :
    SchemeHom dropPassives (c.limited o).scheme (c.flow.limited o).scheme where
  n := by cases o <;> rfl
  p := by cases o <;> rfl
  h := by cases o <;> rfl
  cfl := by cases o <;> rfl
  fixedDt := by cases o <;> rfl
  prim := by cases o <;> exact drop_prim c.gas.gamma
  riem := by cases o <;> exact drop_riemann c.riem c.gas
  speed := by cases o <;> exact fun _ _ => rfl
  negate := by
    cases o <;>
    · intro d v
      funext i
      cases i with
      | ps j => exact j.elim0
      | mom e => simp [EulerConfig.scheme, negateMom, dropPassives]
      | rho => rfl
      | en => rfl
  bc := by
    cases o <;>
    · refine ⟨rfl, rfl, fun d s => ?_⟩
      simp only [EulerConfig.scheme, EulerConfig.limited, EulerConfig.flow]
      cases c.bc.value d s <;> simp [BCValue.Rel, BCValue.drop]
  limiting := by
    cases o with
    | none => trivial
    | some o =>
      refine ⟨fun w w' => ?_, rfl, rfl, ?_⟩
      · have : ∀ w : Arr (State K np), (w.map dropPassives).map activePart = w.map activePart := by
          intro w
          rw [dropPassives_eq]
          unfold Arr.map
          congr 1
        simp only [LimiterOpts.limiting, this]
        rfl
      · simp only [LimiterOpts.limiting]
        cases o.slope with
        | none => trivial
        | some k => cases k <;> exact fun a b => rfl

/-- The outcome of a right-hand side without the passive scalars. -/
def flowPart (r : Except PyErr (K × (Ix → State K np))) : Except PyErr (K × (Ix → State K 0)) :=
  r.map fun x => (x.1, fun i => dropPassives (x.2 i))

/-- **C06** (one evaluation) Let two configurations differ only in their passive scalars: in their
number and in the values prescribed for them. With or without limiting, for states (and contents of
uninitialised memory) that differ only in passive scalars, the right-hand sides raise the same
exception or return the same time step and the same derivative of density, momentum and energy. -/
theorem C06_rhs (c : EulerConfig K np) (c' : EulerConfig K np') (hc : c.flow = c'.flow)
    (o : Option (LimiterOpts K)) (junk : ℕ → Ix → State K np) (junk' : ℕ → Ix → State K np')
    (mem : Fin 3 → Ix → State K np) (mem' : Fin 3 → Ix → State K np') (u : Ix → State K np)
    (u' : Ix → State K np') (hj : ∀ k i, dropPassives (junk k i) = dropPassives (junk' k i))
    (hm : ∀ d i, dropPassives (mem d i) = dropPassives (mem' d i))
    (hu : ∀ i, dropPassives (u i) = dropPassives (u' i)) (t t' : K) :
    flowPart (solverRHS (c.limited o).scheme junk mem t t' u) =
      flowPart (solverRHS (c'.limited o).scheme junk' mem' t t' u') := by
  unfold flowPart
  rw [← solverRHS_natural (flow_hom c o), ← solverRHS_natural (flow_hom c' o), hc]
  simp only [hj, hm, hu]

theorem flow_wellPosed (c : EulerConfig K np) (o : Option (LimiterOpts K))
    (h : WellPosed (c.limited o).scheme) : WellPosed (c.flow.limited o).scheme := by
  have H := flow_hom c o
  have hF : ∀ gw, Fills (c.limited o).scheme gw → Fills (c.flow.limited o).scheme gw := by
    intro gw hg
    refine ⟨?_, fun t => ?_⟩
    · have := hg.1
      unfold Fillable at this ⊢
      rwa [H.bc.kind, H.n]
    · obtain ⟨v, junk, A, hA⟩ := hg.2 t
      have := apply_natural dropPassives _ _ H.bc _ _ H.negate ⟨(c.limited o).scheme.n, v⟩ gw t junk
      rw [hA] at this
      exact ⟨_, _, _, by rw [H.n]; exact this⟩
  have ha : (c.flow.limited o).scheme.active = (c.limited o).scheme.active := funext H.active
  refine ⟨by rw [H.p]; exact h.degree, by rw [H.n]; exact h.cells, ?_, fun L hL => ?_⟩
  · have := hF _ h.ghosts
    unfold fluxWidth at this ⊢
    rwa [ha, H.p]
  · cases o with
    | none => cases hL
    | some o =>
      cases hL
      obtain ⟨_, h2, h3⟩ := h.limiter _ rfl
      refine ⟨o.local _ _, ?_, ?_⟩
      · have := hF _ h2
        unfold fluxWidth at this ⊢
        rwa [ha, H.p]
      · have := hF _ h3
        unfold detectWidth at this ⊢
        rwa [ha, H.p]

/-- The states agree in density, momentum and energy on the cells. -/
def sameFlow (K : Type) [Field K] (n : Fin 3 → ℕ) (np np' : ℕ) :
    Submodule K ((Ix → State K np) × (Ix → State K np')) where
  carrier := {x | ∀ i, InCells n i → dropPassives (x.1 i) = dropPassives (x.2 i)}
  add_mem' := fun ha hb i hi => by simp [map_add, ha i hi, hb i hi]
  zero_mem' := fun i _ => by simp [map_zero]
  smul_mem' := fun c x hx i hi => by simp [map_smul, hx i hi]

/-- **C06** Let two configurations differ only in their passive scalars. Started from states with the
same density, momentum and energy they run in step, with every integrator, with or without limiting:
same times and step sizes, same exceptions, same density, momentum and energy at every stored time
and at the end, whatever the uninitialised memory and the stored flux arrays hold at each
evaluation. -/
theorem C06_passives_inert (c : EulerConfig K np) (c' : EulerConfig K np') (hc : c.flow = c'.flow)
    (o : Option (LimiterOpts K)) (hw : WellPosed (c.limited o).scheme)
    (f : RHS K (Ix → State K np)) (f' : RHS K (Ix → State K np'))
    (hf : IsSolverRHS (c.limited o).scheme f) (hf' : IsSolverRHS (c'.limited o).scheme f')
    (m : Integrator) (fuel : ℕ) (T : Option K) (n : Option ℕ) (exact : Bool)
    (downbeats : List K) (logEvery : Bool)
    (st : ODEState K (Ix → State K np) (Ix → State K np))
    (st' : ODEState K (Ix → State K np') (Ix → State K np'))
    (h : RelState (InRel (sameFlow K c.n np np')) (InRel (sameFlow K c.n np np')) st st') :
    Option.Rel (RelOut (InRel (sameFlow K c.n np np')) (InRel (sameFlow K c.n np np')))
      (st.integrate (stepper f m) (·.u) fuel ⟨T, n, exact, downbeats, logEvery, none⟩)
      (st'.integrate (stepper f' m) (·.u) fuel ⟨T, n, exact, downbeats, logEvery, none⟩) := by
  refine integrate_rel (sameFlow K c.n np np') _ f f' ?_ m _ _ (fun _ _ h => h.u) fuel _ _
    ⟨rfl, rfl, rfl, rfl, rfl, .none⟩ st st' h
  intro s t u u' hu
  obtain ⟨junk, mem, e⟩ := hf s t u
  obtain ⟨junk', mem', e'⟩ := hf' s t u'
  have h1 := solverRHS_natural (flow_hom c o) junk mem s t u
  have h2 := solverRHS_natural (flow_hom c' o) junk' mem' s t u'
  rw [← hc] at h2
  have hm := rhs_memory _ (flow_wellPosed c o hw) s t t (fun k i => dropPassives (junk k i))
    (fun k i => dropPassives (junk' k i)) (fun d i => dropPassives (mem d i))
    (fun d i => dropPassives (mem' d i)) (fun i => dropPassives (u i)) (fun i => dropPassives (u' i))
    (fun i hi => hu i (by cases o <;> exact hi))
  rw [h1, h2, ← e, ← e'] at hm
  cases hx : f s t u with
  | error er =>
    rw [hx] at hm
    cases hx' : f' s t u' with
    | error er' => rw [hx'] at hm; cases hm; exact rfl
    | ok r' => rw [hx'] at hm; cases hm
  | ok r =>
    rw [hx] at hm
    cases hx' : f' s t u' with
    | error er' => rw [hx'] at hm; cases hm
    | ok r' =>
      rw [hx'] at hm
      have hm : (r.1, fun i => dropPassives (r.2 i)) = (r'.1, fun i => dropPassives (r'.2 i)) := by
        injection hm
      exact ⟨congrArg Prod.fst hm, fun i _ => congrFun (congrArg Prod.snd hm) i⟩

/-- The channel with any number of passive scalars. -/
noncomputable def scalarChannel (np : ℕ) : EulerConfig ℝ np where
  gas := airGas
  riem := .hllc
  n := ![12, 9, 1]
  p := ![3, 2, 0]
  h := ![1, 2, 3]
  cfl := 1 / 2
  fixedDt := none
  bc := ⟨fun d _ => if d = 1 then .reflective else .periodic, fun _ _ => .other, none⟩
  limiting := none

/-- The default limiter with convex blending. -/
noncomputable def convexLimiter : LimiterOpts ℝ where
  eps := 1 / 100
  mode := "global"
  rangeType := "relative"
  nadVars := none
  pad := defaultPad
  sed := true
  sedEps := 1 / 10 ^ 10
  convex := true
  force := false
  slope := some .minmod
  tiny := 1 / 10 ^ 16

theorem channel_fills (np : ℕ) (o : Option (LimiterOpts ℝ)) (gw : Fin 3 → ℕ)
    (h : ∀ d, gw d ≤ (![12, 9, 0] : Fin 3 → ℕ) d) : Fills ((scalarChannel np).limited o).scheme gw := by
  have hk : ((scalarChannel np).limited o).scheme.bc.kind =
      fun d _ => if d = 1 then .reflective else .periodic := by cases o <;> rfl
  have hn : ((scalarChannel np).limited o).scheme.n = ![12, 9, 1] := by cases o <;> rfl
  refine Fills.plain _ _ (by rw [hn]; decide) ?_
  rw [hk, hn]
  intro d hd
  have h0 := h d
  match d with
  | 0 => exact ⟨fun s => Or.inr ⟨Or.inr (Or.inr rfl), h0⟩, fun _ => rfl⟩
  | 1 => exact ⟨fun s => Or.inr ⟨Or.inr (Or.inl rfl), h0⟩, fun h => absurd h (by decide)⟩
  | 2 => exact absurd (Nat.le_zero.1 h0) hd

theorem channel_wellPosed (np : ℕ) (o : Option (LimiterOpts ℝ)) :
    WellPosed ((scalarChannel np).limited o).scheme := by
  have e1 : ∀ d, fluxWidth ((scalarChannel np).limited o).scheme
      ((scalarChannel np).limited o).scheme.p d ≤ (![12, 9, 0] : Fin 3 → ℕ) d := by
    cases o <;> exact (by decide : ∀ d, fluxWidth (scalarChannel 0).scheme ![3, 2, 0] d ≤
      (![12, 9, 0] : Fin 3 → ℕ) d)
  have e2 : ∀ d, fluxWidth ((scalarChannel np).limited o).scheme
      (fallbackP ((scalarChannel np).limited o).scheme.p) d ≤ (![12, 9, 0] : Fin 3 → ℕ) d := by
    cases o <;> exact (by decide : ∀ d, fluxWidth (scalarChannel 0).scheme (fallbackP ![3, 2, 0]) d ≤
      (![12, 9, 0] : Fin 3 → ℕ) d)
  have e3 : ∀ d, detectWidth ((scalarChannel np).limited o).scheme d ≤ (![12, 9, 0] : Fin 3 → ℕ) d := by
    cases o <;> exact (by decide : ∀ d, detectWidth (scalarChannel 0).scheme d ≤
      (![12, 9, 0] : Fin 3 → ℕ) d)
  refine ⟨by cases o <;> exact (by decide : ∀ d, (![3, 2, 0] : Fin 3 → ℕ) d ≤ 8),
    by cases o <;> exact (by decide : ∀ d, 1 ≤ (![12, 9, 1] : Fin 3 → ℕ) d),
    channel_fills _ _ _ e1, fun L hL => ⟨?_, channel_fills _ _ _ e2, channel_fills _ _ _ e3⟩⟩
  cases o with
  | none => cases hL
  | some o => cases hL; exact o.local _ _

/-- C06 applies to the channel without and with two passive scalars. -/
example : (scalarChannel 0).flow = (scalarChannel 2).flow ∧
    WellPosed ((scalarChannel 0).limited (some convexLimiter)).scheme ∧
    ∃ (u : Ix → State ℝ 0) (u' : Ix → State ℝ 2), InRel (sameFlow ℝ ![12, 9, 1] 0 2) u u' ∧
      u' 0 ≠ u' ![1, 0, 0] := by
  refine ⟨rfl, channel_wellPosed 0 _, fun i _ => 1 + i 0, fun i v => 1 + i 0, fun i _ => ?_, ?_⟩
  · funext v
    cases v <;> rfl
  · intro h
    have := congrFun h .rho
    norm_num at this

end FVHOE
