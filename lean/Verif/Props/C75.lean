import Verif.Proofs.Reduce
import Verif.Props.C01_C03
import Verif.Proofs.ODERel

/-!
C75: a state that does not depend on one coordinate evolves as in the problem without that direction.
-/

set_option linter.unusedSectionVars false

namespace FVHOE

variable {K : Type} [Field K] [LinearOrder K] [IsStrictOrderedRing K]
variable {V : Type} [AddCommGroup V] [Module K V]

/-- The solver with direction `d` switched off: one cell and degree zero there (`nx=1, px=0` and the
like), everything else unchanged. -/
def Scheme.without (S : Scheme K V) (d : Fin 3) : Scheme K V :=
  ⟨Function.update S.n d 1, Function.update S.p d 0, S.h, S.prim, S.riem, S.speed, S.negate, S.cfl, S.fixedDt,
    S.bc, S.limiting⟩

/-- Limiting off, supported degrees, sides without prescribed values, and no wall across `d`. -/
structure DropSetup (S : Scheme K V) (d : Fin 3) : Prop where
  degree : ∀ e, S.p e ≤ 8
  cells : ∀ e, 1 ≤ S.n e
  unlimited : S.limiting = none
  sides : PlainSides S (fluxWidth S S.p)
  noWall : S.active d = true → ∀ s, S.bc.kind d s ≠ .reflective

theorem Scheme.without_inactive (S : Scheme K V) (d : Fin 3) : (S.without d).active d = false := by
  simp [Scheme.active, Scheme.without]

theorem Scheme.without_active (S : Scheme K V) (d e : Fin 3) (he : e ≠ d) :
    (S.without d).active e = S.active e := by
  simp [Scheme.active, Scheme.without, he]

theorem fluxGw_mono {p q : Fin 3 → ℕ} (h : ∀ e, p e ≤ q e) : fluxGw p ≤ fluxGw q := by
  have := h 0
  have := h 1
  have := h 2
  unfold fluxGw ceilHalf
  simp only
  omega

theorem DropSetup.sides' {S : Scheme K V} {d : Fin 3} (hS : DropSetup S d) :
    PlainSides (S.without d) (fluxWidth (S.without d) (S.without d).p) := by
  intro e he
  by_cases h : e = d
  · subst h; rw [S.without_inactive] at he; cases he
  · rw [S.without_active d e h] at he
    obtain ⟨h1, h2⟩ := hS.sides e he
    refine ⟨fun s => ?_, h2⟩
    rcases h1 s with h3 | ⟨h3, h4⟩
    · exact .inl h3
    · refine .inr ⟨h3, ?_⟩
      have n : (S.without d).n e = S.n e := Function.update_of_ne h ..
      have p : (S.without d).p e = S.p e := Function.update_of_ne h ..
      rw [n]
      refine le_trans ?_ h4
      unfold fluxWidth
      rw [S.without_active d e h, p, if_pos he, if_pos he]
      have := fluxGw_mono (p := (S.without d).p) (q := S.p) (dropDegree_le S.p d)
      omega

theorem DropSetup.inactive {S : Scheme K V} {p : Fin 3 → ℕ} (e : Fin 3) (h : S.active e = false)
    (hp : S.p e = p e) : fluxWidth S p e = 0 := by
  unfold fluxWidth
  rw [if_neg (by simp [h])]
  have : S.p e = 0 := by
    simp [Scheme.active] at h
    exact h.2
  rw [← hp, this]
  rfl

theorem sideGhost_moves (negate : V → V) (k : BCKind) : (sideGhost negate k).Moves := by
  cases k <;> trivial

theorem Scheme.ghost_moves (S : Scheme K V) (s : Side) (e : Fin 3) : (S.ghost s e).Moves := by
  unfold Scheme.ghost
  split
  · exact sideGhost_moves ..
  · trivial

theorem DropSetup.passes {S : Scheme K V} {d : Fin 3} (hS : DropSetup S d) (s : Side) : (S.ghost s d).Passes := by
  unfold Scheme.ghost
  split
  · rename_i h
    have := hS.noWall h s
    revert this
    cases S.bc.kind d s <;> intro h' <;> first | exact absurd rfl h' | trivial | rfl
  · trivial

theorem Scheme.without_passes (S : Scheme K V) (d : Fin 3) (s : Side) : ((S.without d).ghost s d).Passes := by
  unfold Scheme.ghost
  rw [S.without_inactive]
  trivial

theorem Scheme.without_ghost (S : Scheme K V) (d e : Fin 3) (he : e ≠ d) (s : Side) :
    S.ghost s e = (S.without d).ghost s e := by
  unfold Scheme.ghost
  rw [S.without_active d e he]
  rfl

theorem Scheme.without_ndim (S : Scheme K V) (d : Fin 3) : (S.without d).ndim ≤ S.ndim := by
  have h : ∀ e, (S.without d).active e = true → S.active e = true := by
    intro e he
    by_cases h : e = d
    · subst h; rw [S.without_inactive] at he; cases he
    · rwa [S.without_active d e h] at he
  unfold Scheme.ndim
  exact List.countP_mono_left fun e _ => h e

/-- **C75** (one evaluation) If `u` has at every cell the value of `u'` at the cell with coordinate 0 along
`d`, then the rate of change has the same relation: the evaluation with direction `d` and the one without
both succeed, and the rates agree cell by cell. If the signal speed grows with the number of
dimensions, the automatic step with direction `d` is at most the one without. -/
theorem C75_rhs (S : Scheme K V) (d : Fin 3) (hS : DropSetup S d) (junk junk' : ℕ → Ix → V)
    (mem mem' : Fin 3 → Ix → V) (t t' : K) (u u' : Ix → V)
    (hu : ∀ i, InCells S.n i → u i = u' (Function.update i d 0)) :
    ∃ dt dt' D D', solverRHS S junk mem t t' u = .ok (dt, D) ∧
      solverRHS (S.without d) junk' mem' t t' u' = .ok (dt', D') ∧
      (∀ i, InCells S.n i → D i = D' (Function.update i d 0)) ∧
      (∀ τ, S.fixedDt = some τ → dt = τ ∧ dt' = τ) ∧
      (S.fixedDt = none → 0 ≤ S.cfl → (∀ e, 0 ≤ S.h e) → (∀ w, 0 < S.speed (S.without d).ndim w) →
        (∀ k l w, k ≤ l → S.speed k w ≤ S.speed l w) → dt ≤ dt') := by
  obtain ⟨U, hU⟩ : ∃ U : Ix → V, U = fun i => u' (Function.update i d 0) := ⟨_, rfl⟩
  have hUc : ConstAlong d U := by
    intro i k
    rw [hU]
    beta_reduce
    congr 1
    funext e
    by_cases h : e = d
    · subst h; simp
    · simp [h]
  have cells' : ∀ e, 1 ≤ (S.without d).n e := by
    intro e
    have := hS.cells e
    by_cases h : e = d
    · subst h; simp [Scheme.without]
    · simpa [Scheme.without, h] using this
  have degree' : ∀ e, (S.without d).p e ≤ 8 := fun e => (dropDegree_le S.p d e).trans (hS.degree e)
  have hz : ∀ i, InCells (S.without d).n i → Function.update i d 0 = i := by
    intro i hi
    have h := hi d
    simp only [Scheme.without, Function.update_self] at h
    have : i d = 0 := by omega
    rw [← this, Function.update_eq_self]
  obtain ⟨dt, hdt, e⟩ := rhs_spec S hS.unlimited hS.degree hS.cells t _ _
    (hS.sides.sides hS.cells (fun e h => DropSetup.inactive e h rfl) t) junk mem t' u U
    (fun i hi => by rw [hU]; exact hu i hi)
  obtain ⟨dt', hdt', e'⟩ := rhs_spec (S.without d) hS.unlimited degree' cells' t _ _
    (hS.sides'.sides cells' (fun e h => DropSetup.inactive e h rfl) t) junk' mem' t' u' U
    (fun i hi => by rw [hU]; beta_reduce; rw [hz i hi])
  obtain ⟨x1, x2⟩ := extAll_drop hUc S.n (S.without d).n (S.ghost .l) (S.ghost .r) ((S.without d).ghost .l)
    ((S.without d).ghost .r) ⟨hS.passes _, hS.passes _, S.without_passes d _, S.without_passes d _⟩
    (fun e he => ⟨(Function.update_of_ne he ..).symm, S.without_ghost d e he _, S.without_ghost d e he _,
      S.ghost_moves _ _, S.ghost_moves _ _⟩)
  rw [← x1] at e' hdt'
  generalize extAll S.n (S.ghost .l) (S.ghost .r) U = Φ at *
  obtain ⟨w1, w2⟩ := latPrim_drop (K := K) x2 S.prim S.p hS.degree
  rw [show latPrim K (S.without d).prim (S.without d).p Φ = latPrim K S.prim S.p Φ from w1] at hdt'
  refine ⟨dt, dt', _, _, e, e', fun i hi => ?_, ?_, ?_⟩
  · have hi' : InCells (S.without d).n (Function.update i d 0) := by
      intro e
      by_cases h : e = d
      · subst h; simp [Scheme.without]
      · simpa [Scheme.without, h] using hi e
    refine (if_pos hi).trans (Eq.trans ?_ (if_pos hi').symm)
    unfold latDiv
    refine Finset.sum_congr rfl fun c _ => ?_
    have fc : ∀ c, ConstAlong d (schemeFlux S S.p none Φ c) := fun c =>
      latFlux_constAlong (K := K) w2 (S.riem c) S.p hS.degree c
    by_cases h : c = d
    · subst h
      rw [S.without_inactive, fc c i 1, sub_self, smul_zero, ite_self]
      simp
    · have fe : schemeFlux (S.without d) (S.without d).p none Φ c = schemeFlux S S.p none Φ c := by
        have := latFlux_drop (K := K) w2 (S.riem c) S.p hS.degree c h
        unfold schemeFlux
        rw [show latPrim K (S.without d).prim (S.without d).p Φ = latPrim K S.prim S.p Φ from w1]
        exact this
      rw [S.without_active d c h, fe, (fc c).update i 0]
      have : Function.update i d 0 + Pi.single c 1 = Function.update (i + Pi.single c 1) d 0 := by
        rw [update_add_same (Ne.symm h)]
      rw [this, (fc c).update]
      rfl
  · intro τ hτ
    unfold IsDt at hdt hdt'
    rw [hτ] at hdt
    rw [show (S.without d).fixedDt = some τ from hτ] at hdt'
    exact ⟨hdt, hdt'⟩
  · intro hn hcfl hh hpos hmono
    unfold IsDt at hdt hdt'
    rw [hn] at hdt
    rw [show (S.without d).fixedDt = none from hn] at hdt'
    obtain ⟨m, -, h1, rfl⟩ := hdt
    obtain ⟨m', ⟨i, hi, h2⟩, -, rfl⟩ := hdt'
    have hi' : InDtBox S S.p i := by
      intro e
      have h := hi e
      by_cases he : e = d
      · subst he
        rw [S.without_inactive] at h
        have := hS.cells e
        simp [Scheme.without] at h
        constructor <;> split <;> omega
      · rw [S.without_active d e he, show (S.without d).n e = S.n e from Function.update_of_ne he ..] at h
        have := fluxGw_mono (p := (S.without d).p) (q := S.p) (dropDegree_le S.p d)
        constructor <;> split <;> simp_all <;> omega
    have hle : m' ≤ m := by
      rw [← h2]
      exact (hmono _ _ _ (S.without_ndim d)).trans (h1 i hi')
    have hm' : 0 < m' := h2 ▸ hpos _
    have : 0 ≤ S.cfl * min (min (S.h 0) (S.h 1)) (S.h 2) :=
      mul_nonneg hcfl (le_min (le_min (hh 0) (hh 1)) (hh 2))
    exact div_le_div_of_nonneg_left this hm' hle

/-- `x.1` has at every cell the value of `x.2` at the cell with coordinate 0 along `d`. -/
def spread (K : Type) [Field K] (V : Type) [AddCommGroup V] [Module K V] (n : Fin 3 → ℕ) (d : Fin 3) :
    Submodule K ((Ix → V) × (Ix → V)) where
  carrier := {x | ∀ i, InCells n i → x.1 i = x.2 (Function.update i d 0)}
  add_mem' := fun ha hb i hi => by simp [ha i hi, hb i hi]
  zero_mem' := fun i _ => rfl
  smul_mem' := fun c x hx i hi => by simp [hx i hi]

/-- **C75** With limiting off and the same prescribed step size, a run whose initial state does not depend on
the coordinate `d` (with periodic, outflow or free sides across `d`) takes the same steps at the same times
as the run of the solver with direction `d` switched off, and every stored state and the final state have at
each cell the value of that run: for every degree up to 8, integrator and arguments of `integrate`, whatever
the uninitialised memory holds at each evaluation. -/
theorem C75_run (S : Scheme K V) (d : Fin 3) (hS : DropSetup S d) (τ : K) (hτ : S.fixedDt = some τ)
    (f f' : RHS K (Ix → V)) (hf : IsSolverRHS S f) (hf' : IsSolverRHS (S.without d) f') (m : Integrator)
    (fuel : ℕ) (T : Option K) (n : Option ℕ) (exact : Bool) (downbeats : List K) (logEvery : Bool)
    (st st' : ODEState K (Ix → V) (Ix → V))
    (h : RelState (InRel (spread K V S.n d)) (InRel (spread K V S.n d)) st st') :
    Option.Rel (RelOut (InRel (spread K V S.n d)) (InRel (spread K V S.n d)))
      (st.integrate (stepper f m) (·.u) fuel ⟨T, n, exact, downbeats, logEvery, none⟩)
      (st'.integrate (stepper f' m) (·.u) fuel ⟨T, n, exact, downbeats, logEvery, none⟩) := by
  refine integrate_rel (spread K V S.n d) _ f f' ?_ m _ _ (fun _ _ h => h.u) fuel _ _
    ⟨rfl, rfl, rfl, rfl, rfl, .none⟩ st st' h
  intro s t u u' hu
  obtain ⟨junk, mem, e⟩ := hf s t u
  obtain ⟨junk', mem', e'⟩ := hf' s t u'
  obtain ⟨dt, dt', D, D', h1, h2, h3, h4, -⟩ := C75_rhs S d hS junk junk' mem mem' s t u u' hu
  obtain ⟨rfl, rfl⟩ := h4 τ hτ
  rw [e, e', h1, h2]
  exact ⟨rfl, h3⟩

/-- A 2-d HLLC run of degrees 3 and 2 with a prescribed step, outflow sides across y. -/
noncomputable def stripConfig : EulerConfig ℝ 1 :=
  ⟨airGas, .hllc, ![8, 9, 1], ![3, 2, 0], ![1, 2, 3], 1 / 2, some (1 / 100),
    ⟨fun d _ => if d = 1 then .outflow else .periodic, fun _ _ => .other, none⟩, none⟩

theorem strip_setup : DropSetup stripConfig.scheme 1 := by
  refine ⟨by decide, by decide, rfl, ?_, ?_⟩
  · intro d
    fin_cases d
    · exact fun _ => ⟨fun s => .inr ⟨.inr (.inr rfl), by decide⟩, fun _ => rfl⟩
    · exact fun _ => ⟨fun s => .inr ⟨.inl rfl, by decide⟩, fun h => by cases h⟩
    · exact fun h => by cases h
  · intro _ s h
    cases h

/-- The hypotheses hold for it with direction y dropped, from an arbitrary x-dependent initial array. -/
example (u : Ix → State ℝ 1) : DropSetup stripConfig.scheme 1 ∧ stripConfig.scheme.fixedDt = some (1 / 100) ∧
    stripConfig.scheme.active 1 = true ∧ (stripConfig.scheme.without 1).active 1 = false ∧
    RelState (K := ℝ) (InRel (spread ℝ (State ℝ 1) stripConfig.n 1))
      (InRel (spread ℝ (State ℝ 1) stripConfig.n 1))
      (ODEState.init fun i => u (Function.update i 1 0)) (ODEState.init u) := by
  refine ⟨strip_setup, rfl, rfl, rfl, rfl, rfl, rfl, fun i _ => rfl, .nil, rfl⟩

/-- The hypotheses of the comparison of automatic steps hold for the two-dimensional HLLC setup. -/
example : exampleConfig.scheme.fixedDt = none ∧ 0 ≤ exampleConfig.scheme.cfl ∧
    (∀ e, 0 ≤ exampleConfig.scheme.h e) ∧
    (∀ w, 0 < exampleConfig.scheme.speed (exampleConfig.scheme.without 1).ndim w) ∧
    ∀ k l w, k ≤ l → exampleConfig.scheme.speed k w ≤ exampleConfig.scheme.speed l w := by
  have hc : ∀ w : State ℝ 1, 0 < soundSpeed airGas w := fun w =>
    (soundSpeed_spec airGas airGas_sqrt (by norm_num [airGas]) w).1
  have hv : ∀ w : State ℝ 1, 0 ≤ sum3 fun d => |w (.mom d)| := fun w => by unfold sum3; positivity
  refine ⟨rfl, by norm_num [exampleConfig, EulerConfig.scheme], ?_, fun w => ?_, fun k l w h => ?_⟩
  · intro e
    fin_cases e <;> simp [exampleConfig, EulerConfig.scheme]
  · have : (exampleConfig.scheme.without 1).ndim = 1 := by decide
    rw [this]
    have h1 := hc w
    have h2 := hv w
    show 0 < signalSpeed airGas 1 w
    unfold signalSpeed
    push_cast
    linarith
  · show signalSpeed airGas k w ≤ signalSpeed airGas l w
    unfold signalSpeed
    have : (k : ℝ) ≤ l := by exact_mod_cast h
    have := mul_le_mul_of_nonneg_right this (hc w).le
    linarith

end FVHOE
