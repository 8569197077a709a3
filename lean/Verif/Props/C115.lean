import Verif.Proofs.Depend
import Verif.Proofs.DependRhs
import Verif.Props.C09_C10
import Verif.Props.C12_C57

/-!
C115: the final state of an unlimited run depends continuously on the initial data.
-/

set_option linter.unusedSectionVars false

namespace FVHOE

open Topology

variable {np : ℕ}

/-! ## Neighbourhoods -/

theorem near_of_nhds {u : Ix → State ℝ np} {N : Set (Ix → State ℝ np)} (hN : N ∈ 𝓝 u) :
    ∃ δ, 0 < δ ∧ ∀ v : Ix → State ℝ np, (∀ i w, |v i w - u i w| < δ) → v ∈ N := by
  by_contra hno
  push Not at hno
  have hpos : ∀ k : ℕ, (0 : ℝ) < 1 / ((k : ℝ) + 1) := fun k => by positivity
  choose v hv hvN using fun k : ℕ => hno _ (hpos k)
  have ht : Filter.Tendsto v Filter.atTop (𝓝 u) := by
    refine tendsto_pi_nhds.2 fun i => tendsto_pi_nhds.2 fun w => ?_
    rw [tendsto_iff_dist_tendsto_zero]
    exact squeeze_zero (fun _ => dist_nonneg) (fun k => by rw [Real.dist_eq]; exact (hv k i w).le)
      tendsto_one_div_add_atTop_nhds_zero_nat
  obtain ⟨k, hk⟩ := (ht.eventually hN).exists
  exact hvN k hk

theorem nhds_of_near (n : Fin 3 → ℕ) (u : Ix → State ℝ np) {ε : ℝ} (hε : 0 < ε) :
    {v : Ix → State ℝ np | ∀ i, InCells n i → ∀ w, |v i w - u i w| < ε} ∈ 𝓝 u := by
  have hfin : {i : Ix | InCells n i}.Finite := by
    refine (Set.Finite.pi' fun d => Set.finite_Ico (0 : ℤ) (n d)).subset fun i hi => ?_
    exact fun d => ⟨(hi d).1, (hi d).2⟩
  refine (Filter.eventually_all_finite hfin).2 fun i _ => Filter.eventually_all.2 fun w => ?_
  have h1 : Continuous fun v : Ix → State ℝ np => v i w :=
    (continuous_apply (A := fun _ : Var np => ℝ) w).comp (continuous_apply i)
  have h2 := (h1.tendsto u).eventually (Metric.ball_mem_nhds _ hε)
  filter_upwards [h2] with v hv
  rw [← Real.dist_eq]
  exact hv

/-! ## Runs to a final time -/

/-- Under `exact` the loop aims at every key time in turn. -/
theorem integrate_exact {U Sn : Type} [AddCommGroup U] [Module ℝ U] (mk : ODEState ℝ U Sn → Sn) (T : ℝ) (n : Option ℕ) (downbeats : List ℝ) (logEvery : Bool) (t₀ : ℝ) (h0 : 0 ≤ t₀)
    (hT : Ahead (⟨some T, n, true, downbeats, logEvery, none⟩ : IntegrateArgs ℝ Sn) t₀) :
    ∃ tg ds, (tg :: ds).Pairwise (· < ·) ∧ T ∈ tg :: ds ∧ t₀ < tg ∧ ∀ fuel (st : ODEState ℝ U Sn) stp,
      st.integrate stp mk fuel ⟨some T, n, true, downbeats, logEvery, none⟩ =
        ODEState.loop stp mk T logEvery fuel (some tg) ds (st.snapshot mk) := by
  obtain ⟨h1, h2⟩ := hT T rfl
  obtain ⟨k1, k2⟩ := keyTimes_spec downbeats T (h0.trans_lt h1) fun d hd => by
    rcases h2 d hd with e | e
    · exact e.ge
    · exact h0.trans e.le
  have hmem : T ∈ keyTimes downbeats T := (k2 T).2 ⟨(h0.trans_lt h1).ne', .inr rfl⟩
  cases hk : keyTimes downbeats T with
  | nil => rw [hk] at hmem; cases hmem
  | cons tg ds =>
    rw [hk] at k1 hmem
    refine ⟨tg, ds, k1, hmem, ?_, fun fuel st stp => ?_⟩
    · have : tg ∈ keyTimes downbeats T := by rw [hk]; exact List.mem_cons_self
      obtain ⟨e0, e | e⟩ := (k2 tg).1 this
      · exact (h2 tg e).resolve_left e0
      · exact e ▸ h1
    · simp only [ODEState.integrate, ODEState.integrateT, if_true, hk]

/-- C115. Without limiting, with llf or hllc, for every degree up to eight, every integrator and free, outflow, reflective or
periodic boundaries: where a run to the time `T` meets only positive densities and pressures, all runs from initial data close
enough to its own also return, stop at `T`, and end as close to its final state as required. The numbers of steps may differ. -/
theorem C115_depends (c : EulerConfig ℝ np) (h : SmoothSetup c) (f : RHS ℝ (Ix → State ℝ np)) (hf : IsSolverRHS c.scheme f)
    (m : Integrator) {Sn : Type} (mk : ODEState ℝ (Ix → State ℝ np) Sn → Sn) (fuel : ℕ) (T : ℝ) (n : Option ℕ)
    (downbeats : List ℝ) (logEvery : Bool) (st st' : ODEState ℝ (Ix → State ℝ np) Sn) (h0 : 0 ≤ st.t)
    (hT : Ahead (⟨some T, n, true, downbeats, logEvery, none⟩ : IntegrateArgs ℝ Sn) st.t)
    (hrun : st.integrate (stepper (onlyOn (Sturdy c) f) m) mk fuel ⟨some T, n, true, downbeats, logEvery, none⟩ =
      some (st', none))
    (hend : Sturdy c st'.u) :
    st.integrate (stepper f m) mk fuel ⟨some T, n, true, downbeats, logEvery, none⟩ = some (st', none) ∧
    ∀ ε, 0 < ε → ∃ δ, 0 < δ ∧ ∀ s : ODEState ℝ (Ix → State ℝ np) Sn, s.t = st.t → (∀ i w, |s.u i w - st.u i w| < δ) →
      ∃ fuel' s', s.integrate (stepper f m) mk fuel' ⟨some T, n, true, downbeats, logEvery, none⟩ = some (s', none) ∧
        s'.t = T ∧ ∀ i, InCells c.n i → ∀ w, |s'.u i w - st'.u i w| < ε := by
  refine ⟨integrate_refine _ _ (onlyOn_sub _ f) m mk fuel _ st st' hrun, fun ε hε => ?_⟩
  obtain ⟨D, hD, hcont⟩ := h.rhs
  have hf' : ∀ s t u, f s t u = .ok (D u, slopes c u) := fun s t u => by
    obtain ⟨junk, mem, e⟩ := hf s t u
    rw [e, hD]
  obtain ⟨tg, ds, hpw, hmem, htg, hint⟩ := integrate_exact mk T n downbeats logEvery st.t h0 hT
  rw [hint] at hrun
  have hnear := loop_near (P := Sturdy c) hf' hcont (fun u hu => h.slopes_cont hu) m mk T logEvery fuel tg ds (st.snapshot mk) st'
    hpw hmem htg hrun hend _ (nhds_of_near c.n st'.u hε)
  have hev : ∀ᶠ v in 𝓝 st.u, ∀ s : ODEState ℝ (Ix → State ℝ np) Sn, s.t = st.t → s.u = v →
      ∃ fuel' s', ODEState.loop (stepper f m) mk T logEvery fuel' (some tg) ds s = some (s', none) ∧ s'.t = T ∧
        s'.u ∈ {v : Ix → State ℝ np | ∀ i, InCells c.n i → ∀ w, |v i w - st'.u i w| < ε} := by
    have hc : Filter.Tendsto (fun v : Ix → State ℝ np => (st.t, v)) (𝓝 st.u) (𝓝 (st.t, st.u)) :=
      (Continuous.prodMk_right st.t).tendsto _
    filter_upwards [hc.eventually hnear] with v hv
    exact fun s hs1 hs2 => hv htg s hs1 hs2
  obtain ⟨δ, hδ, k⟩ := near_of_nhds hev
  refine ⟨δ, hδ, fun s hs1 hs2 => ?_⟩
  obtain ⟨fuel', s', e1, e2, e3⟩ := k s.u hs2 (s.snapshot mk) hs1 rfl
  exact ⟨fuel', s', by rw [hint]; exact e1, e2, e3⟩

/-! ## Runs of a fixed number of steps -/

section Steps

variable {U : Type} [AddCommGroup U] [Module ℝ U] [TopologicalSpace U] [IsTopologicalAddGroup U] [ContinuousSMul ℝ U]
variable {f : RHS ℝ U} {D : U → ℝ} {R : U → U}

theorem steps_near {S : Type} {P : U → Prop} (hf : ∀ s t u, f s t u = .ok (D u, R u))
    (hD : ∀ u, P u → ContinuousAt D u) (hR : ∀ u, P u → ContinuousAt R u) (m : Integrator) :
    ∀ (n : ℕ) (st st' : ODEState ℝ U S), st.takeSteps (stepper (watched P f) m) n = (st', none) →
    ∀ N ∈ 𝓝 (st'.t, st'.u), ∀ᶠ x : ℝ × U in 𝓝 (st.t, st.u), ∀ s : ODEState ℝ U S, s.t = x.1 → s.u = x.2 →
      ∃ s', s.takeSteps (stepper f m) n = (s', none) ∧ (s'.t, s'.u) ∈ N := by
  intro n
  induction n with
  | zero =>
    intro st st' h N hN
    cases h
    filter_upwards [hN] with x hx s h1 h2
    exact ⟨s, rfl, by rw [h1, h2]; exact hx⟩
  | succ n ih =>
    intro st st' h N hN
    rw [ODEState.takeSteps] at h
    unfold ODEState.takeStep at h
    cases hs : stepper (watched P f) m st.t st.u none with
    | error e => rw [hs] at h; simp at h
    | ok r =>
      obtain ⟨dt, v⟩ := r
      rw [hs] at h
      obtain ⟨e1, e2, hst⟩ := watched_advance hf m _ _ _ _ _ hs
      have hPu : P st.u := hst st.u (by cases m <;> simp [stages])
      have hh : ∀ t x, hitTarget t (D x) none = D x := fun _ _ => rfl
      rw [hh] at e1
      have hnext := ih _ st' h N hN
      have c2 : ContinuousAt (fun x : ℝ × U => D x.2) (st.t, st.u) :=
        ContinuousAt.comp (g := D) (f := Prod.snd) (hD _ hPu) continuousAt_snd
      have cA := advance_continuousAt m dt st.u fun x hx => hR x (hst x hx)
      have c4 : ContinuousAt (fun x : ℝ × U => advanceBy R m (D x.2) x.2) (st.t, st.u) :=
        ContinuousAt.comp (g := fun x : ℝ × U => advanceBy R m x.1 x.2) (f := fun x : ℝ × U => (D x.2, x.2))
          (by rw [e1] at cA; exact cA) (c2.prodMk continuousAt_snd)
      have c5 : ContinuousAt (fun x : ℝ × U => (x.1 + D x.2, advanceBy R m (D x.2) x.2)) (st.t, st.u) :=
        (continuousAt_fst.add c2).prodMk c4
      have c6 : Filter.Tendsto (fun x : ℝ × U => (x.1 + D x.2, advanceBy R m (D x.2) x.2)) (𝓝 (st.t, st.u))
          (𝓝 (st.t + dt, v)) := by
        rw [e2, e1]
        exact c5
      filter_upwards [c6.eventually hnext] with x hx s h1 h2
      have e3 := stepper_advanceBy hf m s.t s.u none
      rw [hh] at e3
      rw [ODEState.takeSteps]
      unfold ODEState.takeStep
      rw [e3]
      exact hx _ (by simp only [h1, h2]) (by simp only [h2])

end Steps

/-- C115 (a fixed number of steps). The clock and the state after `n` steps depend continuously on the initial data. -/
theorem C115_steps (c : EulerConfig ℝ np) (h : SmoothSetup c) (f : RHS ℝ (Ix → State ℝ np)) (hf : IsSolverRHS c.scheme f)
    (m : Integrator) {Sn : Type} (mk : ODEState ℝ (Ix → State ℝ np) Sn → Sn) (fuel : ℕ) (n : ℕ) (exact : Bool)
    (downbeats : List ℝ) (logEvery : Bool) (saved : Option (List Sn)) (st st' : ODEState ℝ (Ix → State ℝ np) Sn)
    (hrun : st.integrate (stepper (onlyOn (Sturdy c) f) m) mk fuel ⟨none, some n, exact, downbeats, logEvery, saved⟩ =
      some (st', none)) :
    st.integrate (stepper f m) mk fuel ⟨none, some n, exact, downbeats, logEvery, saved⟩ = some (st', none) ∧
    ∀ ε, 0 < ε → ∃ δ, 0 < δ ∧ ∀ s : ODEState ℝ (Ix → State ℝ np) Sn, s.t = st.t → (∀ i w, |s.u i w - st.u i w| < δ) →
      ∃ s', s.integrate (stepper f m) mk fuel ⟨none, some n, exact, downbeats, logEvery, saved⟩ = some (s', none) ∧
        |s'.t - st'.t| < ε ∧ ∀ i, InCells c.n i → ∀ w, |s'.u i w - st'.u i w| < ε := by
  refine ⟨integrate_refine _ _ (onlyOn_sub _ f) m mk fuel _ st st' hrun, fun ε hε => ?_⟩
  obtain ⟨D, hD, hcont⟩ := h.rhs
  have hf' : ∀ s t u, f s t u = .ok (D u, slopes c u) := fun s t u => by
    obtain ⟨junk, mem, e⟩ := hf s t u
    rw [e, hD]
  simp only [ODEState.integrate, ODEState.integrateN, Option.some.injEq] at hrun ⊢
  cases hs : (st.snapshot mk).takeSteps (stepper (onlyOn (Sturdy c) f) m) n with
  | mk st1 e =>
    cases e with
    | some e => rw [hs] at hrun; cases hrun
    | none =>
      rw [hs] at hrun
      simp only [Prod.mk.injEq, and_true] at hrun
      subst hrun
      have hN : {x : ℝ × (Ix → State ℝ np) | |x.1 - st1.t| < ε ∧ ∀ i, InCells c.n i → ∀ w, |x.2 i w - st1.u i w| < ε} ∈
          𝓝 (st1.t, st1.u) := by
        have h1 : ∀ᶠ x : ℝ × (Ix → State ℝ np) in 𝓝 (st1.t, st1.u), |x.1 - st1.t| < ε :=
          (continuousAt_fst (X := ℝ) (Y := Ix → State ℝ np) (p := (st1.t, st1.u))).preimage_mem_nhds (Metric.ball_mem_nhds st1.t hε)
        have h2 : ∀ᶠ x : ℝ × (Ix → State ℝ np) in 𝓝 (st1.t, st1.u), ∀ i, InCells c.n i → ∀ w, |x.2 i w - st1.u i w| < ε :=
          (continuousAt_snd (X := ℝ) (Y := Ix → State ℝ np) (p := (st1.t, st1.u))).preimage_mem_nhds (nhds_of_near c.n st1.u hε)
        exact h1.and h2
      have hnear := steps_near (P := Sturdy c) hf' (fun u hu => (hcont u hu).1) (fun u hu => h.slopes_cont hu) m n
        (st.snapshot mk) st1 hs _ hN
      have hc : Filter.Tendsto (fun v : Ix → State ℝ np => (st.t, v)) (𝓝 st.u) (𝓝 (st.t, st.u)) :=
        (Continuous.prodMk_right st.t).tendsto _
      obtain ⟨δ, hδ, k⟩ := near_of_nhds (hc.eventually hnear)
      refine ⟨δ, hδ, fun s hs1 hs2 => ?_⟩
      obtain ⟨s', e1, e2, e3⟩ := k s.u hs2 (s.snapshot mk) hs1 rfl
      refine ⟨s'.snapshot mk, ?_, e2, e3⟩
      rw [e1]

/-! ## The first-order scheme -/

theorem FirstOrder.smooth {c : EulerConfig ℝ np} (h : FirstOrder c) (hr : c.riem ≠ .advectionUpwind) : SmoothSetup c where
  limiting := h.limiting
  step := .inr ⟨h.fixedDt, h.cfl⟩
  degree := fun d => by rw [h.degree]; omega
  cells := h.cells
  spacing := h.spacing
  gas := h.gas
  riem := hr
  sides := h.sides
  extended := h.ndim_pos

theorem FirstOrder.sturdy {c : EulerConfig ℝ np} (h : FirstOrder c) {u : Ix → State ℝ np}
    (hu : ∀ i, InCells c.n i → Positive c.gas.gamma (u i)) : Sturdy c u := by
  have hp1 : ∀ d, c.p d ≤ 1 := fun d => by rw [h.degree]; omega
  have hin : ∀ d, c.scheme.active d = false → fluxWidth c.scheme c.p d = 0 := fun d hd => by
    rw [h.width]; simp [hd]
  have hneg := positive_negate (np := np) c.gas.gamma
  have hb := ext_onBox c.scheme (fluxWidth c.scheme c.p) 0 _ _ (h.sides.sides h.cells hin 0) (Positive c.gas.gamma)
    (fun e => c.scheme.ghost_keeps _ .l (fun e _ _ v hv => hneg e v hv) e)
    (fun e => c.scheme.ghost_keeps _ .r (fun e _ _ v hv => hneg e v hv) e) h.cells u hu
  have hgw : ∀ d, gwMargin c.scheme c.p d = fluxWidth c.scheme c.p d := fun d => by
    unfold gwMargin
    rw [h.width]
    have : fluxGw c.p = 1 := by unfold fluxGw; simp [h.degree, ceilHalf]
    rw [this]
    split_ifs <;> rfl
  have hgas : ∀ v : State ℝ np, Positive c.gas.gamma v → PosGas (computePrimitives c.gas.gamma v) := fun v hv =>
    ⟨hv.1, by rw [prim_press]; exact hv.2⟩
  have hW := latPrim_low (K := ℝ) (computePrimitives c.gas.gamma) hp1 (padded c.scheme u)
  have hc : latCenters ℝ c.p (padded c.scheme u) = padded c.scheme u := by
    unfold latCenters
    rw [latC_low (hp1 _), latC_low (hp1 _), latC_low (hp1 _)]
  constructor
  · rw [hc]
    intro i hi
    refine (hb i fun d => ?_).1
    have := hi d
    simp only [hgw, h.degree, ceilHalf] at this
    norm_num at this
    exact this
  · rw [hW]
    intro i hi
    refine (hb i fun d => ?_).1
    have := hi d
    simp only [hgw] at this
    exact this
  · intro d hd i hi
    rw [hW]
    have hside : ∀ j : Ix, (∀ e, -(if c.scheme.active e = true then (1 : ℤ) else 0) ≤ j e ∧
        j e < c.n e + (if c.scheme.active e = true then (1 : ℤ) else 0)) → Positive c.gas.gamma (padded c.scheme u j) := by
      intro j hj
      refine hb j fun e => ?_
      beta_reduce
      rw [h.width]
      have := hj e
      push_cast
      exact this
    have hj : ∀ e, -(if e = d then (1 : ℤ) else 0) ≤ i e - (if e = d then 1 else 0) ∧ 0 ≤ i e ∧
        i e < c.n e + (if e = d then (1 : ℤ) else 0) := by
      intro e
      have := hi e
      unfold midMargin at this
      simp only [h.degree, ceilHalf, Pi.single_apply] at this
      by_cases he : e = d
      · simp [he] at this ⊢; omega
      · simp [he] at this ⊢; omega
    have h1 := hside (i - Pi.single d 1) fun e => by
      have := hj e
      simp only [Pi.sub_apply, Pi.single_apply]
      by_cases he : e = d
      · subst he; simp [hd] at this ⊢; omega
      · simp [he] at this ⊢; split_ifs <;> omega
    have h2 := hside i fun e => by
      have := hj e
      by_cases he : e = d
      · subst he; simp [hd] at this ⊢; omega
      · simp [he] at this ⊢; split_ifs <;> omega
    have hl : latLine ℝ c.p d (fun i => computePrimitives c.gas.gamma (padded c.scheme u i)) =
        fun i => computePrimitives c.gas.gamma (padded c.scheme u i) := by
      unfold latLine
      rw [latC_low (hp1 _), latC_low (hp1 _)]
    unfold faceStates latFaceR latFaceL
    dsimp only
    rw [hl, h.degree, latR_zero, latL_zero]
    exact ⟨hgas _ h1, hgas _ h2⟩

section Same

variable {U S : Type} [AddCommGroup U] [Module ℝ U]

theorem loop_done (stp stp' : ℝ → U → Option ℝ → Except PyErr (ℝ × U)) (mk : ODEState ℝ U S → S) {T : ℝ} (logEvery : Bool)
    {Inv : U → Prop} (fuel : ℕ) (tg : Option ℝ) (ds : List ℝ) (st : ODEState ℝ U S) (h : T ≤ st.t) (hI : Inv st.u) :
    ODEState.loop stp mk T logEvery fuel tg ds st = ODEState.loop stp' mk T logEvery fuel tg ds st ∧
      ∀ out, ODEState.loop stp mk T logEvery fuel tg ds st = some out → Inv out.1.u := by
  cases fuel with
  | zero => exact ⟨rfl, fun _ h => by cases h⟩
  | succ fuel =>
    rw [ODEState.loop, ODEState.loop, if_neg (not_lt.2 h), if_neg (not_lt.2 h)]
    refine ⟨rfl, fun out h => ?_⟩
    cases h
    exact hI

/-- Steppers that agree on the states a run meets give the same run. -/
theorem loop_same {stp stp' : ℝ → U → Option ℝ → Except PyErr (ℝ × U)} (mk : ODEState ℝ U S → S) (T : ℝ) (logEvery : Bool)
    {Inv : U → Prop} (hsame : ∀ t u tg, Inv u → stp t u (some tg) = stp' t u (some tg))
    (hkeep : ∀ t u tg dt v, Inv u → t < tg → stp t u (some tg) = .ok (dt, v) → Inv v ∧ t + dt ≤ tg) :
    ∀ (fuel : ℕ) (tg : ℝ) (ds : List ℝ) (st : ODEState ℝ U S), (tg :: ds).Pairwise (· < ·) → T ∈ tg :: ds → st.t < tg →
      Inv st.u → ODEState.loop stp mk T logEvery fuel (some tg) ds st = ODEState.loop stp' mk T logEvery fuel (some tg) ds st ∧
        ∀ out, ODEState.loop stp mk T logEvery fuel (some tg) ds st = some out → Inv out.1.u := by
  intro fuel
  induction fuel with
  | zero => intro tg ds st _ _ _ _; exact ⟨rfl, fun _ h => by cases h⟩
  | succ fuel ih =>
    intro tg ds st hpw hmem ht hI
    by_cases hT : st.t < T
    swap
    · exact loop_done stp stp' mk logEvery (fuel + 1) _ ds st (not_lt.1 hT) hI
    rw [ODEState.loop, ODEState.loop, if_pos hT, if_pos hT]
    unfold ODEState.takeStep
    rw [← hsame _ _ _ hI]
    cases hs : stp st.t st.u (some tg) with
    | error e =>
      refine ⟨rfl, fun out h => ?_⟩
      cases h
      exact hI
    | ok r =>
      obtain ⟨dt, v⟩ := r
      obtain ⟨hv, hle⟩ := hkeep _ _ _ _ _ hI ht hs
      simp only
      -- the rest of the run from the new state, still aiming at the same time
      have rest : ∀ s1 : ODEState ℝ U S, s1.t = st.t + dt → s1.u = v → (st.t + dt = tg → T ≤ st.t + dt) →
          ODEState.loop stp mk T logEvery fuel (some tg) ds s1 = ODEState.loop stp' mk T logEvery fuel (some tg) ds s1 ∧
          ∀ out, ODEState.loop stp mk T logEvery fuel (some tg) ds s1 = some out → Inv out.1.u := by
        intro s1 h1 h2 h3
        rcases hle.lt_or_eq with hlt | heq
        · exact ih tg ds s1 hpw hmem (by rw [h1]; exact hlt) (by rw [h2]; exact hv)
        · exact loop_done stp stp' mk logEvery fuel _ ds s1 (by rw [h1]; exact h3 heq) (by rw [h2]; exact hv)
      by_cases hc : some tg = some (st.t + dt) ∨ T ≤ st.t + dt ∨ logEvery = true
      · rw [if_pos hc, if_pos hc]
        cases ds with
        | nil =>
          refine rest _ rfl rfl fun e => ?_
          rw [List.mem_singleton.1 hmem, e]
        | cons d ds =>
          simp only
          by_cases he : some tg = some (st.t + dt)
          · rw [if_pos he, if_pos he]
            have he' : tg = st.t + dt := Option.some.inj he
            by_cases hT' : st.t + dt < T
            · refine ih d ds _ (List.pairwise_cons.1 hpw).2 ?_ ?_ hv
              · rcases List.mem_cons.1 hmem with e | e
                · exact absurd (e.trans he') hT'.ne'
                · exact e
              · show st.t + dt < d
                rw [← he']
                exact List.rel_of_pairwise_cons hpw List.mem_cons_self
            · exact loop_done stp stp' mk logEvery fuel _ ds _ (not_lt.1 hT') hv
          · rw [if_neg he, if_neg he]
            exact rest _ rfl rfl fun e => absurd (by rw [e]) he
      · rw [if_neg hc, if_neg hc]
        refine rest _ rfl rfl fun e => absurd (Or.inl (by rw [e])) hc

theorem steps_same {stp stp' : ℝ → U → Option ℝ → Except PyErr (ℝ × U)}
    {Inv : U → Prop} (hsame : ∀ t u, Inv u → ∃ r, stp t u none = .ok r ∧ stp' t u none = .ok r ∧ Inv r.2) :
    ∀ (n : ℕ) (st : ODEState ℝ U S), Inv st.u → ∃ out : ODEState ℝ U S, st.takeSteps stp n = (out, none) ∧
      st.takeSteps stp' n = (out, none) := by
  intro n
  induction n with
  | zero => intro st _; exact ⟨st, rfl, rfl⟩
  | succ n ih =>
    intro st hI
    obtain ⟨r, h1, h2, h3⟩ := hsame st.t st.u hI
    rw [ODEState.takeSteps, ODEState.takeSteps]
    unfold ODEState.takeStep
    rw [h1, h2]
    exact ih _ h3

end Same

/-- The first-order setups in which positive densities and pressures stay positive. -/
structure KeepsPositive (c : EulerConfig ℝ np) : Prop where
  first : FirstOrder c
  flux : (c.riem = .llf ∧ (c.directions.card : ℝ) * c.cfl ≤ 1) ∨ (c.riem = .hllc ∧ (c.directions.card : ℝ) * c.cfl ≤ 1 / 4)

theorem KeepsPositive.riem {c : EulerConfig ℝ np} (h : KeepsPositive c) : c.riem ≠ .advectionUpwind := by
  rcases h.flux with ⟨e, _⟩ | ⟨e, _⟩ <;> rw [e] <;> exact fun h => by cases h

theorem KeepsPositive.step {c : EulerConfig ℝ np} (h : KeepsPositive c) {f : RHS ℝ (Ix → State ℝ np)} (hf : IsSolverRHS c.scheme f)
    (s t : ℝ) (u : Ix → State ℝ np) (hu : ∀ i, InCells c.n i → Positive c.gas.gamma (u i)) :
    onlyOn (Sturdy c) f s t u = f s t u ∧ ∃ dt D, f s t u = .ok (dt, D) ∧ 0 < dt ∧ ∀ τ, 0 ≤ τ → τ ≤ dt →
      ∀ i, InCells c.n i → Positive c.gas.gamma ((u + τ • D) i) := by
  refine ⟨onlyOn_eq _ _ _ _ _ (h.first.sturdy hu), ?_⟩
  obtain ⟨junk, mem, e⟩ := hf s t u
  rw [e]
  rcases h.flux with ⟨e1, e2⟩ | ⟨e1, e2⟩
  · exact C12_step c h.first e1 e2 junk mem s t u hu
  · exact C59_step c h.first e1 e2 junk mem s t u hu

/-- C115 (first order). The explicit Euler method at degree zero, with llf and a CFL number times the number of directions of at
most one, or hllc and at most a quarter, from any positive densities and pressures: whenever the run to `T` returns, its final
state depends continuously on the initial data. -/
theorem C115_first_order (c : EulerConfig ℝ np) (h : KeepsPositive c) (f : RHS ℝ (Ix → State ℝ np)) (hf : IsSolverRHS c.scheme f)
    {Sn : Type} (mk : ODEState ℝ (Ix → State ℝ np) Sn → Sn) (fuel : ℕ) (T : ℝ) (n : Option ℕ)
    (downbeats : List ℝ) (logEvery : Bool) (st st' : ODEState ℝ (Ix → State ℝ np) Sn) (h0 : 0 ≤ st.t)
    (hT : Ahead (⟨some T, n, true, downbeats, logEvery, none⟩ : IntegrateArgs ℝ Sn) st.t)
    (hpos : ∀ i, InCells c.n i → 0 < st.u i .rho ∧ 0 < pressureOf c.gas.gamma (st.u i))
    (hrun : st.integrate (stepper f .euler) mk fuel ⟨some T, n, true, downbeats, logEvery, none⟩ = some (st', none)) :
    ∀ ε, 0 < ε → ∃ δ, 0 < δ ∧ ∀ s : ODEState ℝ (Ix → State ℝ np) Sn, s.t = st.t → (∀ i w, |s.u i w - st.u i w| < δ) →
      ∃ fuel' s', s.integrate (stepper f .euler) mk fuel' ⟨some T, n, true, downbeats, logEvery, none⟩ = some (s', none) ∧
        s'.t = T ∧ ∀ i, InCells c.n i → ∀ w, |s'.u i w - st'.u i w| < ε := by
  obtain ⟨tg, ds, hpw, hmem, htg, hint⟩ := integrate_exact mk T n downbeats logEvery st.t h0 hT
  have hsame : ∀ t u tg, (∀ i, InCells c.n i → Positive c.gas.gamma (u i)) →
      stepper f .euler t u (some tg) = stepper (onlyOn (Sturdy c) f) .euler t u (some tg) := fun t u tg hu => by
    simp only [stepper, eulerStepper, (h.step hf t t u hu).1]
  have hkeep : ∀ t u tg dt v, (∀ i, InCells c.n i → Positive c.gas.gamma (u i)) → t < tg →
      stepper f .euler t u (some tg) = .ok (dt, v) → (∀ i, InCells c.n i → Positive c.gas.gamma (v i)) ∧ t + dt ≤ tg := by
    intro t u tg dt v hu ht e
    obtain ⟨-, dt', D, e1, e2, e3⟩ := h.step hf t t u hu
    simp only [stepper, eulerStepper, e1, bind, Except.bind, pure, Except.pure, hit_min] at e
    cases e
    refine ⟨e3 _ (le_min (by linarith) e2.le) (min_le_right _ _), ?_⟩
    have := min_le_left (tg - t) dt'
    linarith
  obtain ⟨k1, k2⟩ := loop_same (stp := stepper f .euler) (stp' := stepper (onlyOn (Sturdy c) f) .euler) mk T logEvery hsame hkeep
    fuel tg ds (st.snapshot mk) hpw hmem htg hpos
  have hw := hrun
  rw [hint, k1, ← hint] at hw
  rw [hint] at hrun
  exact (C115_depends c (h.first.smooth h.riem) f hf .euler mk fuel T n downbeats logEvery st st' h0 hT hw
    (h.first.sturdy (k2 _ hrun))).2

/-- C115 (first order, a fixed number of steps). Every such run returns, and its clock and state depend continuously on the
initial data. -/
theorem C115_first_order_steps (c : EulerConfig ℝ np) (h : KeepsPositive c) (f : RHS ℝ (Ix → State ℝ np))
    (hf : IsSolverRHS c.scheme f) {Sn : Type} (mk : ODEState ℝ (Ix → State ℝ np) Sn → Sn) (fuel : ℕ) (n : ℕ) (exact : Bool)
    (downbeats : List ℝ) (logEvery : Bool) (saved : Option (List Sn)) (st : ODEState ℝ (Ix → State ℝ np) Sn)
    (hpos : ∀ i, InCells c.n i → 0 < st.u i .rho ∧ 0 < pressureOf c.gas.gamma (st.u i)) :
    ∃ st', st.integrate (stepper f .euler) mk fuel ⟨none, some n, exact, downbeats, logEvery, saved⟩ = some (st', none) ∧
    ∀ ε, 0 < ε → ∃ δ, 0 < δ ∧ ∀ s : ODEState ℝ (Ix → State ℝ np) Sn, s.t = st.t → (∀ i w, |s.u i w - st.u i w| < δ) →
      ∃ s', s.integrate (stepper f .euler) mk fuel ⟨none, some n, exact, downbeats, logEvery, saved⟩ = some (s', none) ∧
        |s'.t - st'.t| < ε ∧ ∀ i, InCells c.n i → ∀ w, |s'.u i w - st'.u i w| < ε := by
  obtain ⟨out, e1, e2⟩ := steps_same (stp := stepper f .euler) (stp' := stepper (onlyOn (Sturdy c) f) .euler)
    (Inv := fun u => ∀ i, InCells c.n i → Positive c.gas.gamma (u i)) (fun t u hu => by
      obtain ⟨e0, dt', D, e1, e2, e3⟩ := h.step hf t t u hu
      refine ⟨(dt', u + dt' • D), ?_, ?_, e3 _ e2.le le_rfl⟩
      · simp only [stepper, eulerStepper, e1, bind, Except.bind, pure, Except.pure, hitTarget]
      · simp only [stepper, eulerStepper, e0, e1, bind, Except.bind, pure, Except.pure, hitTarget]) n (st.snapshot mk) hpos
  have hw : st.integrate (stepper (onlyOn (Sturdy c) f) .euler) mk fuel ⟨none, some n, exact, downbeats, logEvery, saved⟩ =
      some (out.snapshot mk, none) := by
    simp only [ODEState.integrate, ODEState.integrateN, e2]
  obtain ⟨k1, k2⟩ := C115_steps c (h.first.smooth h.riem) f hf .euler mk fuel n exact downbeats logEvery saved st _ hw
  exact ⟨_, k1, k2⟩

/-! ## Where it fails -/

/-- The condition on the flux is needed: `advection_upwind` decides by the velocity on the left alone, so where the gas on the
left is at rest and the gas on the right moves, arbitrarily small changes of the left velocity switch the whole mass flux of the
right side on and off. -/
theorem C115_upwind_jumps (G : Gas ℝ) (d : Fin 3) (wl wr : State ℝ np) (hl : wl (.mom d) = 0) (δ : ℝ) (hδ : 0 < δ) :
    riemann .advectionUpwind G d wl wr .rho = 0 ∧ ∃ wl' : State ℝ np, (∀ w, |wl' w - wl w| < δ) ∧
      riemann .advectionUpwind G d wl' wr .rho = wr .rho * wr (.mom d) := by
  refine ⟨?_, Function.update wl (.mom d) (-(δ / 2)), fun w => ?_, ?_⟩
  · simp [riemann, advectionUpwind, hl]
  · by_cases hw : w = .mom d
    · subst hw
      rw [Function.update_self, hl, sub_zero, abs_neg, abs_of_pos (by positivity)]
      linarith
    · rw [Function.update_of_ne hw, sub_self, abs_zero]
      exact hδ
  · have h1 : ¬ (-(δ / 2) > 0) := by linarith
    have h2 : -(δ / 2) < 0 := by linarith
    simp only [riemann, advectionUpwind, Function.update_self, if_neg h1, if_pos h2, computeFluxes, computeConservatives]
    ring

/-! ## Examples -/

/-- The blast in a tube: any number of steps. -/
example (f : RHS ℝ (Ix → State ℝ 1)) (hf : IsSolverRHS (dyeTube .llf 0).scheme f) (n : ℕ) (ε : ℝ) (hε : 0 < ε) :
    ∃ st', (ODEState.init blastState).integrate (stepper f .euler) (fun _ => ()) 0 ⟨none, some n, true, [], false, none⟩ =
      some (st', none) ∧ ∃ δ, 0 < δ ∧ ∀ u : Ix → State ℝ 1, (∀ i w, |u i w - blastState i w| < δ) →
      ∃ s', (ODEState.init u).integrate (stepper f .euler) (fun _ => ()) 0 ⟨none, some n, true, [], false, none⟩ =
        some (s', none) ∧ |s'.t - st'.t| < ε := by
  obtain ⟨st', e, k⟩ := C115_first_order_steps (dyeTube .llf 0)
    ⟨dyeTube_first .llf 0, .inl ⟨rfl, by rw [dyeTube_card]; simp [dyeTube]⟩⟩ f hf (fun _ => ()) 0 n true [] false none
    (ODEState.init blastState) fun i _ => blast_positive i
  obtain ⟨δ, hδ, k⟩ := k ε hε
  refine ⟨st', e, δ, hδ, fun u hu => ?_⟩
  obtain ⟨s', e1, e2, -⟩ := k (ODEState.init u) rfl hu
  exact ⟨s', e1, e2⟩

/-- The same blast, run to the time two with an output at one. -/
example (f : RHS ℝ (Ix → State ℝ 1)) (hf : IsSolverRHS (dyeTube .hllc 2).scheme f) (fuel : ℕ) (st' : ODEState ℝ (Ix → State ℝ 1) Unit)
    (hrun : (ODEState.init blastState).integrate (stepper f .euler) (fun _ => ()) fuel ⟨some 2, none, true, [1], false, none⟩ =
      some (st', none)) (ε : ℝ) (hε : 0 < ε) :
    ∃ δ, 0 < δ ∧ ∀ s : ODEState ℝ (Ix → State ℝ 1) Unit, s.t = 0 → (∀ i w, |s.u i w - blastState i w| < δ) →
      ∃ fuel' s', s.integrate (stepper f .euler) (fun _ => ()) fuel' ⟨some 2, none, true, [1], false, none⟩ = some (s', none) ∧
        s'.t = 2 ∧ ∀ i, InCells ![10, 1, 1] i → ∀ w, |s'.u i w - st'.u i w| < ε := by
  refine C115_first_order (dyeTube .hllc 2) ⟨dyeTube_first .hllc 2, .inr ⟨rfl, by rw [dyeTube_card]; simp [dyeTube]⟩⟩ f hf _ fuel 2
    none [1] false (ODEState.init blastState) st' le_rfl ?_ (fun i _ => blast_positive i) hrun ε hε
  intro T hT
  cases hT
  exact ⟨by norm_num [ODEState.init], fun d hd => .inr (by rw [List.mem_singleton.1 hd]; norm_num [ODEState.init])⟩

/-- Uniform gases of positive density and pressure are sturdy at every degree. -/
theorem sturdy_uniform {c : EulerConfig ℝ np} (hp : ∀ d, c.p d ≤ 8)
    (hk : ∀ d s, c.bc.kind d s = .free ∨ c.bc.kind d s = .outflow ∨ c.bc.kind d s = .periodic) (v : State ℝ np)
    (hv : Positive c.gas.gamma v) : Sturdy c fun _ => v := by
  have hpad : padded c.scheme (fun _ => v) = fun _ => v := by
    funext i
    refine extAll_keeps c.n _ _ (fun x => x = v) (fun e => c.scheme.ghost_keeps _ .l (fun d _ hr => ?_) e)
      (fun e => c.scheme.ghost_keeps _ .r (fun d _ hr => ?_) e) _ (fun _ => rfl) i
    · rcases hk d .l with e | e | e <;> exact absurd (e.symm.trans hr) (by decide)
    · rcases hk d .r with e | e | e <;> exact absurd (e.symm.trans hr) (by decide)
  have hc : latCenters ℝ c.p (fun _ => v) = fun _ => v := by
    unfold latCenters latC
    rw [lsweep_const 0 _ _ (wts_sum (hp _)).2.1, lsweep_const 1 _ _ (wts_sum (hp _)).2.1,
      lsweep_const 2 _ _ (wts_sum (hp _)).2.1]
  have hW : latPrim ℝ (computePrimitives c.gas.gamma) c.p (fun _ => v) = fun _ => computePrimitives c.gas.gamma v := by
    unfold latPrim latT
    rw [hc, lsweep_const 0 _ _ (wts_sum (hp _)).2.2.2, lsweep_const 1 _ _ (wts_sum (hp _)).2.2.2,
      lsweep_const 2 _ _ (wts_sum (hp _)).2.2.2]
  have hg : PosGas (computePrimitives c.gas.gamma v) := ⟨hv.1, by rw [prim_press]; exact hv.2⟩
  constructor
  · rw [hpad, hc]
    exact fun _ _ => hv.1
  · rw [hpad, hW]
    exact fun _ _ => hv.1
  · intro d _ i _
    rw [hpad, hW]
    unfold faceStates latFaceR latFaceL latLine latC latR latL
    dsimp only
    rw [lsweep_const _ _ _ (wts_sum (hp _)).2.1, lsweep_const _ _ _ (wts_sum (hp _)).2.1, lsweep_const _ _ _ (wts_sum (hp _)).1,
      lsweep_const _ _ _ (wts_sum (hp _)).2.2.1]
    exact ⟨hg, hg⟩

/-- A periodic tube of 20 cells at degree three with the fixed step one. -/
noncomputable def cubicTube : EulerConfig ℝ 0 where
  gas := airGas
  riem := .hllc
  n := ![20, 1, 1]
  p := ![3, 0, 0]
  h := ![1, 1, 1]
  cfl := 1
  fixedDt := some 1
  bc := ⟨fun _ _ => .periodic, fun _ _ => .other, none⟩
  limiting := none

theorem cubicTube_smooth : SmoothSetup cubicTube where
  limiting := rfl
  step := .inl ⟨1, rfl, one_pos⟩
  degree := by decide
  cells := by decide
  spacing := fun d => by match d with | 0 | 1 | 2 => simp [cubicTube]
  gas := ⟨airGas_sqrt, by norm_num [cubicTube, airGas], by norm_num [cubicTube, airGas]⟩
  riem := by decide
  sides := by
    have e : fluxWidth cubicTube.scheme cubicTube.p = ![8, 0, 0] := by decide
    rw [e]
    intro d _
    refine ⟨fun s => ?_, ?_⟩
    · cases s <;> revert d <;> decide
    · revert d; decide
  extended := by decide

/-- A gas at rest. -/
def stillAir : State ℝ 0
  | .rho => 1
  | .mom _ => 0
  | .en => 1
  | .ps j => j.elim0

theorem stillAir_sturdy : Sturdy cubicTube fun _ => stillAir :=
  sturdy_uniform (by decide) (fun _ _ => .inr (.inr rfl)) stillAir ⟨by norm_num [stillAir], by
    norm_num [stillAir, pressureOf, cubicTube, airGas]⟩

/-- One step at degree three, from data near a gas at rest. -/
example (f : RHS ℝ (Ix → State ℝ 0)) (hf : IsSolverRHS cubicTube.scheme f) (ε : ℝ) (hε : 0 < ε) :
    ∃ st', (ODEState.init fun _ => stillAir).integrate (stepper f .euler) (fun _ => ()) 0 ⟨none, some 1, true, [], false, none⟩ =
      some (st', none) ∧ ∃ δ, 0 < δ ∧ ∀ u : Ix → State ℝ 0, (∀ i w, |u i w - stillAir w| < δ) →
      ∃ s', (ODEState.init u).integrate (stepper f .euler) (fun _ => ()) 0 ⟨none, some 1, true, [], false, none⟩ =
        some (s', none) ∧ ∀ i, InCells ![20, 1, 1] i → ∀ w, |s'.u i w - st'.u i w| < ε := by
  obtain ⟨D, hD, -⟩ := cubicTube_smooth.rhs
  have hs : ∃ st', (ODEState.init fun _ => stillAir).integrate (stepper (onlyOn (Sturdy cubicTube) f) .euler) (fun _ => ()) 0
      ⟨none, some 1, true, [], false, none⟩ = some (st', none) := by
    obtain ⟨junk, mem, e⟩ := hf 0 0 fun _ => stillAir
    rw [hD] at e
    have e' := onlyOn_eq (Sturdy cubicTube) f 0 0 (fun _ => stillAir) stillAir_sturdy
    simp only [ODEState.integrate, ODEState.integrateN, ODEState.takeSteps, ODEState.takeStep, ODEState.init,
      ODEState.snapshot, stepper, eulerStepper, e', e]
    exact ⟨_, rfl⟩
  obtain ⟨st', hs⟩ := hs
  obtain ⟨k1, k2⟩ := C115_steps cubicTube cubicTube_smooth f hf .euler _ _ _ _ _ _ _ _ _ hs
  obtain ⟨δ, hδ, k⟩ := k2 ε hε
  refine ⟨st', k1, δ, hδ, fun u hu => ?_⟩
  obtain ⟨s', e1, -, e2⟩ := k (ODEState.init u) rfl hu
  exact ⟨s', e1, e2⟩

/-- The gas on the right moves with velocity one. -/
example (δ : ℝ) (hδ : 0 < δ) : ∃ wl' : State ℝ 0, (∀ w, |wl' w - stillAir w| < δ) ∧
    riemann .advectionUpwind airGas 0 stillAir (Function.update stillAir (.mom 0) 1) .rho = 0 ∧
    riemann .advectionUpwind airGas 0 wl' (Function.update stillAir (.mom 0) 1) .rho = 1 := by
  obtain ⟨h1, w, h2, h3⟩ := C115_upwind_jumps airGas 0 stillAir (Function.update stillAir (.mom 0) 1) rfl δ hδ
  exact ⟨w, h2, h1, by rw [h3]; simp [stillAir]⟩

end FVHOE
