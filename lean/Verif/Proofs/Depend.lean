import Mathlib.Topology.Algebra.Module.Basic
import Mathlib.Topology.Order.OrderClosed
import Mathlib.Topology.Instances.Real.Lemmas
import Mathlib.Topology.MetricSpace.Pseudo.Pi
import Verif.Proofs.ODE

/-!
Runs from neighbouring states. A right-hand side that depends on the state only, continuously at the states a run visits, takes
neighbouring states to neighbouring states at the requested times, even where the numbers of steps differ.
-/

set_option linter.unusedSectionVars false

namespace FVHOE

open Topology

/-- The right-hand side that refuses states without the property `P`. -/
noncomputable def watched {K U : Type} (P : U → Prop) (f : RHS K U) : RHS K U := fun s t u => by
  classical exact if P u then f s t u else .error .valueError

section Loop

variable {K : Type} [Field K] [LinearOrder K] [IsStrictOrderedRing K] {U : Type} [AddCommGroup U] [Module K U] {S : Type}
variable {stp : K → U → Option K → Except PyErr (K × U)} {mk : ODEState K U S → S}

theorem loop_below {T tg dt : K} {v : U} {logEvery : Bool} {ds : List K} {s : ODEState K U S} (hT : tg ≤ T)
    (ht : s.t < tg) (hs : stp s.t s.u (some tg) = .ok (dt, v)) (h : s.t + dt < tg) :
    ∃ s1 : ODEState K U S, s1.t = s.t + dt ∧ s1.u = v ∧
      ∀ fuel, ODEState.loop stp mk T logEvery (fuel + 1) (some tg) ds s = ODEState.loop stp mk T logEvery fuel (some tg) ds s1 := by
  have hts : s.takeStep stp (some tg) = (⟨s.t + dt, s.timestamps ++ [s.t + dt], s.stepCount + 1, v, s.snapshots,
      s.snapshotTimes⟩, none) := by
    unfold ODEState.takeStep
    rw [hs]
  have hne : (some tg : Option K) ≠ some (s.t + dt) := fun e => by
    rw [Option.some.injEq] at e
    exact absurd e h.ne'
  cases hl : logEvery with
  | false =>
    refine ⟨⟨s.t + dt, s.timestamps ++ [s.t + dt], s.stepCount + 1, v, s.snapshots, s.snapshotTimes⟩, rfl, rfl, fun fuel => ?_⟩
    rw [ODEState.loop, if_pos (ht.trans_le hT), hts]
    simp only
    rw [if_neg]
    rintro (e | e | e)
    · exact hne e
    · exact absurd (h.trans_le hT) (not_lt.2 e)
    · cases e
  | true =>
    refine ⟨ODEState.snapshot mk ⟨s.t + dt, s.timestamps ++ [s.t + dt], s.stepCount + 1, v, s.snapshots, s.snapshotTimes⟩,
      rfl, rfl, fun fuel => ?_⟩
    rw [ODEState.loop, if_pos (ht.trans_le hT), hts]
    simp only
    rw [if_pos (Or.inr (Or.inr trivial))]
    cases ds with
    | nil => rfl
    | cons d ds =>
      simp only
      rw [if_neg hne]

theorem loop_hit_next {T tg dt : K} {v : U} {logEvery : Bool} {d : K} {ds : List K} {s : ODEState K U S} (hT : tg ≤ T)
    (ht : s.t < tg) (hs : stp s.t s.u (some tg) = .ok (dt, v)) (h : s.t + dt = tg) :
    ∃ s1 : ODEState K U S, s1.t = tg ∧ s1.u = v ∧
      ∀ fuel, ODEState.loop stp mk T logEvery (fuel + 1) (some tg) (d :: ds) s =
        ODEState.loop stp mk T logEvery fuel (some d) ds s1 := by
  have hts : s.takeStep stp (some tg) = (⟨s.t + dt, s.timestamps ++ [s.t + dt], s.stepCount + 1, v, s.snapshots,
      s.snapshotTimes⟩, none) := by
    unfold ODEState.takeStep
    rw [hs]
  refine ⟨ODEState.snapshot mk ⟨s.t + dt, s.timestamps ++ [s.t + dt], s.stepCount + 1, v, s.snapshots, s.snapshotTimes⟩,
      h, rfl, fun fuel => ?_⟩
  rw [ODEState.loop, if_pos (ht.trans_le hT), hts]
  simp only
  rw [if_pos (Or.inl (congrArg some h.symm)), if_pos (congrArg some h.symm)]

theorem loop_hit_last {T dt : K} {v : U} {logEvery : Bool} {ds : List K} {s : ODEState K U S}
    (ht : s.t < T) (hs : stp s.t s.u (some T) = .ok (dt, v)) (h : s.t + dt = T) :
    ∃ s1 : ODEState K U S, s1.t = T ∧ s1.u = v ∧
      ∀ fuel, ODEState.loop stp mk T logEvery (fuel + 2) (some T) ds s = some (s1, none) := by
  have hts : s.takeStep stp (some T) = (⟨s.t + dt, s.timestamps ++ [s.t + dt], s.stepCount + 1, v, s.snapshots,
      s.snapshotTimes⟩, none) := by
    unfold ODEState.takeStep
    rw [hs]
  refine ⟨ODEState.snapshot mk ⟨s.t + dt, s.timestamps ++ [s.t + dt], s.stepCount + 1, v, s.snapshots, s.snapshotTimes⟩,
      h, rfl, fun fuel => ?_⟩
  rw [ODEState.loop, if_pos ht, hts]
  simp only
  rw [if_pos (Or.inl (congrArg some h.symm))]
  have hend : ¬ (ODEState.snapshot mk ⟨s.t + dt, s.timestamps ++ [s.t + dt], s.stepCount + 1, v, s.snapshots,
      s.snapshotTimes⟩).t < T := not_lt.2 h.ge
  cases ds with
  | nil => simp only; rw [ODEState.loop, if_neg hend]
  | cons d ds =>
    simp only
    rw [if_pos (congrArg some h.symm), ODEState.loop, if_neg hend]

/-- In exact mode a step of the loop that does not raise keeps below the target or hits it. -/
theorem loop_step {T tg : K} {logEvery : Bool} {ds : List K} {s : ODEState K U S} {fuel : ℕ} {out : ODEState K U S}
    (ht : s.t < T) (h : ODEState.loop stp mk T logEvery (fuel + 1) (some tg) ds s = some (out, none)) :
    ∃ dt v, stp s.t s.u (some tg) = .ok (dt, v) := by
  rw [ODEState.loop, if_pos ht] at h
  unfold ODEState.takeStep at h
  cases hs : stp s.t s.u (some tg) with
  | error e => rw [hs] at h; simp at h
  | ok r => exact ⟨r.1, r.2, rfl⟩

end Loop

section Advance

variable {U : Type} [AddCommGroup U] [Module ℝ U]

/-- One step of size `h` with the slopes `R`. -/
noncomputable def advanceBy (R : U → U) : Integrator → ℝ → U → U
  | .euler, h, u => u + h • R u
  | .ssprk2, h, u => (1 / 2 : ℝ) • u + (1 / 2 : ℝ) • (u + h • R u + h • R (u + h • R u))
  | .ssprk3, h, u =>
    let k1 := R (u + h • R u)
    let k2 := R (u + ((1 / 4 : ℝ) * h) • R u + ((1 / 4 : ℝ) * h) • k1)
    u + ((1 / 6 : ℝ) * h) • (R u + k1 + (4 : ℝ) • k2)
  | .rk4, h, u =>
    let k1 := R (u + ((1 / 2 : ℝ) * h) • R u)
    let k2 := R (u + ((1 / 2 : ℝ) * h) • k1)
    let k3 := R (u + h • k2)
    u + ((1 / 6 : ℝ) * h) • (R u + (2 : ℝ) • k1 + (2 : ℝ) • k2 + k3)

/-- The states at which a step of size `h` evaluates the slopes. -/
noncomputable def stages (R : U → U) : Integrator → ℝ → U → List U
  | .euler, _, u => [u]
  | .ssprk2, h, u => [u, u + h • R u]
  | .ssprk3, h, u =>
    let k1 := R (u + h • R u)
    [u, u + h • R u, u + ((1 / 4 : ℝ) * h) • R u + ((1 / 4 : ℝ) * h) • k1]
  | .rk4, h, u =>
    let k1 := R (u + ((1 / 2 : ℝ) * h) • R u)
    let k2 := R (u + ((1 / 2 : ℝ) * h) • k1)
    [u, u + ((1 / 2 : ℝ) * h) • R u, u + ((1 / 2 : ℝ) * h) • k1, u + h • k2]

theorem advance_zero (R : U → U) (m : Integrator) (u : U) : advanceBy R m 0 u = u := by
  cases m <;> simp [advanceBy]
  rw [← add_smul]
  norm_num

theorem stages_zero (R : U → U) (m : Integrator) (u : U) : ∀ x ∈ stages R m 0 u, x = u := by
  cases m <;> simp [stages]

variable {f : RHS ℝ U} {D : U → ℝ} {R : U → U}

theorem stepper_advanceBy (hf : ∀ s t u, f s t u = .ok (D u, R u)) (m : Integrator) (t : ℝ) (u : U) (target : Option ℝ) :
    stepper f m t u target = .ok (hitTarget t (D u) target, advanceBy R m (hitTarget t (D u) target) u) := by
  cases m <;> simp [stepper, eulerStepper, ssprk2Stepper, ssprk3Stepper, rk4Stepper, hf, advanceBy, bind, Except.bind, pure, Except.pure]

theorem watched_advance {P : U → Prop} (hf : ∀ s t u, f s t u = .ok (D u, R u)) (m : Integrator) (t : ℝ) (u : U)
    (target : Option ℝ) (dt : ℝ) (v : U) (h : stepper (watched P f) m t u target = .ok (dt, v)) :
    dt = hitTarget t (D u) target ∧ v = advanceBy R m dt u ∧ ∀ x ∈ stages R m dt u, P x := by
  have hw : ∀ s t u, watched P f s t u = .ok (D u, R u) ∧ P u ∨ watched P f s t u = .error .valueError := by
    intro s t u
    unfold watched
    by_cases hp : P u
    · exact Or.inl ⟨by rw [if_pos hp, hf], hp⟩
    · exact Or.inr (by rw [if_neg hp])
  cases m with
  | euler =>
    simp only [stepper, eulerStepper] at h
    rcases hw t t u with ⟨e, p⟩ | e <;> rw [e] at h <;> simp only [bind, Except.bind, pure, Except.pure] at h
    · cases h
      exact ⟨rfl, rfl, by simp [stages, p]⟩
    · cases h
  | ssprk2 =>
    simp only [stepper, ssprk2Stepper] at h
    rcases hw t t u with ⟨e, p⟩ | e <;> rw [e] at h <;> simp only [bind, Except.bind, pure, Except.pure] at h
    · rcases hw t t (u + hitTarget t (D u) target • R u) with ⟨e1, p1⟩ | e1 <;> rw [e1] at h <;> simp only at h
      · cases h
        exact ⟨rfl, rfl, by simp [stages, p, p1]⟩
      · cases h
    · cases h
  | ssprk3 =>
    simp only [stepper, ssprk3Stepper] at h
    rcases hw t t u with ⟨e, p⟩ | e <;> rw [e] at h <;> simp only [bind, Except.bind, pure, Except.pure] at h
    · rcases hw t (t + hitTarget t (D u) target) (u + hitTarget t (D u) target • R u) with ⟨e1, p1⟩ | e1 <;>
        rw [e1] at h <;> simp only at h
      · rcases hw t (t + 1 / 2 * hitTarget t (D u) target) (u + (1 / 4 * hitTarget t (D u) target) • R u +
          (1 / 4 * hitTarget t (D u) target) • R (u + hitTarget t (D u) target • R u)) with ⟨e2, p2⟩ | e2 <;>
          rw [e2] at h <;> simp only at h
        · cases h
          refine ⟨rfl, rfl, ?_⟩
          simp only [stages, List.mem_cons, List.not_mem_nil, or_false]
          rintro x (rfl | rfl | rfl)
          exacts [p, p1, p2]
        · cases h
      · cases h
    · cases h
  | rk4 =>
    simp only [stepper, rk4Stepper] at h
    rcases hw t t u with ⟨e, p⟩ | e <;> rw [e] at h <;> simp only [bind, Except.bind, pure, Except.pure] at h
    · rcases hw t (t + 1 / 2 * hitTarget t (D u) target) (u + (1 / 2 * hitTarget t (D u) target) • R u) with ⟨e1, p1⟩ | e1 <;>
        rw [e1] at h <;> simp only at h
      · rcases hw t (t + 1 / 2 * hitTarget t (D u) target) (u + (1 / 2 * hitTarget t (D u) target) •
          R (u + (1 / 2 * hitTarget t (D u) target) • R u)) with ⟨e2, p2⟩ | e2 <;> rw [e2] at h <;> simp only at h
        · rcases hw t (t + hitTarget t (D u) target) (u + hitTarget t (D u) target • R (u + (1 / 2 * hitTarget t (D u) target) •
            R (u + (1 / 2 * hitTarget t (D u) target) • R u))) with ⟨e3, p3⟩ | e3 <;> rw [e3] at h <;> simp only at h
          · cases h
            refine ⟨rfl, rfl, ?_⟩
            simp only [stages, List.mem_cons, List.not_mem_nil, or_false]
            rintro x (rfl | rfl | rfl | rfl)
            exacts [p, p1, p2, p3]
          · cases h
        · cases h
      · cases h
    · cases h

variable [TopologicalSpace U] [ContinuousAdd U] [ContinuousSMul ℝ U]

theorem advance_continuousAt (m : Integrator) (h : ℝ) (u : U) (hR : ∀ x ∈ stages R m h u, ContinuousAt R x) :
    ContinuousAt (fun x : ℝ × U => advanceBy R m x.1 x.2) (h, u) := by
  have c1 : ContinuousAt (fun x : ℝ × U => x.1) (h, u) := continuousAt_fst
  have c2 : ContinuousAt (fun x : ℝ × U => x.2) (h, u) := continuousAt_snd
  have comp : ∀ {g : ℝ × U → U}, ContinuousAt g (h, u) → ContinuousAt R (g (h, u)) → ContinuousAt (fun x => R (g x)) (h, u) :=
    fun hg hr => ContinuousAt.comp (g := R) hr hg
  have sc : ∀ (a : ℝ), ContinuousAt (fun x : ℝ × U => a * x.1) (h, u) := fun a => continuousAt_const.mul c1
  cases m with
  | euler =>
    have k0 := comp c2 (hR u (by simp [stages]))
    exact c2.add (c1.smul k0)
  | ssprk2 =>
    have k0 := comp c2 (hR u (by simp [stages]))
    have s1 := c2.add (c1.smul k0)
    have k1 := comp s1 (hR _ (by simp [stages]))
    exact (c2.const_smul _).add ((s1.add (c1.smul k1)).const_smul _)
  | ssprk3 =>
    have k0 := comp c2 (hR u (by simp [stages]))
    have s1 := c2.add (c1.smul k0)
    have k1 := comp s1 (hR _ (by simp [stages]))
    have s2 := (c2.add ((sc (1 / 4)).smul k0)).add ((sc (1 / 4)).smul k1)
    have k2 := comp s2 (hR _ (by simp [stages]))
    exact c2.add ((sc (1 / 6)).smul ((k0.add k1).add (k2.const_smul _)))
  | rk4 =>
    have k0 := comp c2 (hR u (by simp [stages]))
    have s1 := c2.add ((sc (1 / 2)).smul k0)
    have k1 := comp s1 (hR _ (by simp [stages]))
    have s2 := c2.add ((sc (1 / 2)).smul k1)
    have k2 := comp s2 (hR _ (by simp [stages]))
    have s3 := c2.add (c1.smul k2)
    have k3 := comp s3 (hR _ (by simp [stages]))
    exact c2.add ((sc (1 / 6)).smul (((k0.add (k1.const_smul _)).add (k2.const_smul _)).add k3))

/-- The step as a function of clock and state. -/
theorem hit_min (t dt tg : ℝ) : hitTarget t dt (some tg) = min (tg - t) dt := by
  simp only [hitTarget]
  split_ifs with h
  · exact (min_eq_left h.le).symm
  · exact (min_eq_right (not_lt.1 h)).symm

open Filter in
/-- The loop from neighbouring clocks and states. -/
theorem loop_near {S : Type} {P : U → Prop} (hf : ∀ s t u, f s t u = .ok (D u, R u))
    (hD : ∀ u, P u → ContinuousAt D u ∧ 0 < D u) (hR : ∀ u, P u → ContinuousAt R u) (m : Integrator)
    (mk : ODEState ℝ U S → S) (T : ℝ) (logEvery : Bool) : ∀ (fuel : ℕ) (tg : ℝ) (ds : List ℝ) (st st' : ODEState ℝ U S),
    (tg :: ds).Pairwise (· < ·) → T ∈ tg :: ds → st.t < tg →
    ODEState.loop (stepper (watched P f) m) mk T logEvery fuel (some tg) ds st = some (st', none) → P st'.u →
    ∀ N ∈ 𝓝 st'.u, ∀ᶠ x : ℝ × U in 𝓝 (st.t, st.u), x.1 < tg → ∀ s : ODEState ℝ U S, s.t = x.1 → s.u = x.2 →
      ∃ fuel' s', ODEState.loop (stepper f m) mk T logEvery fuel' (some tg) ds s = some (s', none) ∧ s'.t = T ∧ s'.u ∈ N := by
  intro fuel
  induction fuel with
  | zero => intro tg ds st st' _ _ _ h; cases h
  | succ fuel ih =>
    intro tg ds st st' hpw hT ht h hP N hN
    have htT : tg ≤ T := by
      rcases List.mem_cons.1 hT with e | e
      · exact e.ge
      · exact (List.rel_of_pairwise_cons hpw e).le
    obtain ⟨dt, v, hs⟩ := loop_step (ht.trans_le htT) h
    obtain ⟨e1, e2, hst⟩ := watched_advance hf m _ _ _ _ _ hs
    have hPu : P st.u := hst st.u (by cases m <;> simp [stages])
    obtain ⟨cD, pD⟩ := hD _ hPu
    rw [hit_min] at e1
    have c1 : ContinuousAt (fun x : ℝ × U => x.1) (st.t, st.u) := continuousAt_fst
    have c2 : ContinuousAt (fun x : ℝ × U => D x.2) (st.t, st.u) :=
      ContinuousAt.comp (g := D) (f := Prod.snd) cD continuousAt_snd
    have c3 : ContinuousAt (fun x : ℝ × U => min (tg - x.1) (D x.2)) (st.t, st.u) := (continuousAt_const.sub c1).min c2
    have cA := advance_continuousAt m dt st.u fun x hx => hR x (hst x hx)
    have c4 : ContinuousAt (fun x : ℝ × U => advanceBy R m (min (tg - x.1) (D x.2)) x.2) (st.t, st.u) :=
      ContinuousAt.comp (g := fun x : ℝ × U => advanceBy R m x.1 x.2) (f := fun x : ℝ × U => (min (tg - x.1) (D x.2), x.2))
        (by rw [e1] at cA; exact cA) (c3.prodMk continuousAt_snd)
    -- one step from a neighbouring state
    have step : ∀ s : ODEState ℝ U S, stepper f m s.t s.u (some tg) =
        .ok (min (tg - s.t) (D s.u), advanceBy R m (min (tg - s.t) (D s.u)) s.u) := fun s => by
      rw [stepper_advanceBy hf, hit_min]
    rcases lt_or_ge (D st.u) (tg - st.t) with hlt | hge
    · -- the target is not reached
      rw [min_eq_right hlt.le] at e1
      obtain ⟨s1, f1, f2, f3⟩ := loop_below (mk := mk) (logEvery := logEvery) (ds := ds) htT ht hs (by rw [e1]; linarith)
      rw [f3] at h
      have hnext := ih tg ds s1 st' hpw hT (by rw [f1, e1]; linarith) h hP N hN
      have c5 : ContinuousAt (fun x : ℝ × U => (x.1 + min (tg - x.1) (D x.2), advanceBy R m (min (tg - x.1) (D x.2)) x.2))
          (st.t, st.u) := (c1.add c3).prodMk c4
      have c5' : Tendsto (fun x : ℝ × U => (x.1 + min (tg - x.1) (D x.2), advanceBy R m (min (tg - x.1) (D x.2)) x.2))
          (𝓝 (st.t, st.u)) (𝓝 (s1.t, s1.u)) := by
        have : (s1.t, s1.u) = (st.t + min (tg - st.t) (D st.u), advanceBy R m (min (tg - st.t) (D st.u)) st.u) := by
          rw [f1, f2, e2, e1, min_eq_right hlt.le]
        rw [this]
        exact c5
      have hl : ∀ᶠ x : ℝ × U in 𝓝 (st.t, st.u), D x.2 < tg - x.1 :=
        (c2.tendsto).eventually_lt (continuousAt_const.sub c1).tendsto hlt
      filter_upwards [c5'.eventually hnext, hl] with x h1 h2 hx s hs1 hs2
      have hmin : min (tg - s.t) (D s.u) = D x.2 := by rw [hs1, hs2]; exact min_eq_right h2.le
      rw [min_eq_right h2.le] at h1
      obtain ⟨s2, g1, g2, g3⟩ := loop_below (mk := mk) (logEvery := logEvery) (ds := ds) htT (by rw [hs1]; exact hx) (step s)
        (by rw [hmin, hs1]; linarith)
      rw [hmin] at g1 g2
      obtain ⟨fuel', s', r1, r2, r3⟩ := h1 (by show x.1 + D x.2 < tg; linarith) s2 (by rw [g1, hs1]) (by rw [g2, hs2])
      exact ⟨fuel' + 1, s', by rw [g3]; exact r1, r2, r3⟩
    · -- the target is reached
      rw [min_eq_left hge] at e1
      -- how the run goes on from the target
      have hland : P v ∧ ∃ M ∈ 𝓝 v, ∀ s : ODEState ℝ U S, s.t < tg → ∀ dt' v', stepper f m s.t s.u (some tg) = .ok (dt', v') →
          s.t + dt' = tg → v' ∈ M →
          ∃ fuel' s', ODEState.loop (stepper f m) mk T logEvery fuel' (some tg) ds s = some (s', none) ∧ s'.t = T ∧ s'.u ∈ N := by
        rcases htT.eq_or_lt with rfl | hTlt
        · have hne : fuel ≠ 0 := by
            rintro rfl
            rw [ODEState.loop, if_pos ht] at h
            unfold ODEState.takeStep at h
            rw [hs] at h
            simp only at h
            split at h
            · split at h
              · cases h
              · split at h <;> cases h
            · cases h
          obtain ⟨fuel, rfl⟩ := Nat.exists_eq_succ_of_ne_zero hne
          obtain ⟨s1, f1, f2, f3⟩ := loop_hit_last (mk := mk) (logEvery := logEvery) (ds := ds) ht hs (by rw [e1]; ring)
          rw [f3] at h
          cases h
          rw [f2] at hP hN
          refine ⟨hP, N, hN, fun s hs0 dt' v' h1 h2 h3 => ?_⟩
          obtain ⟨s2, g1, g2, g3⟩ := loop_hit_last (mk := mk) (logEvery := logEvery) (ds := ds) hs0 h1 h2
          exact ⟨2, s2, g3 0, g1, by rw [g2]; exact h3⟩
        · have hTd : T ∈ ds := by
            rcases List.mem_cons.1 hT with e | e
            · exact absurd e hTlt.ne'
            · exact e
          cases ds with
          | nil => cases hTd
          | cons d ds =>
            obtain ⟨s1, f1, f2, f3⟩ := loop_hit_next (mk := mk) (logEvery := logEvery) (d := d) (ds := ds) htT ht hs (by rw [e1]; ring)
            rw [f3] at h
            have htd : tg < d := List.rel_of_pairwise_cons hpw List.mem_cons_self
            have hpw' := (List.pairwise_cons.1 hpw).2
            have hdT : d ≤ T := by
              rcases List.mem_cons.1 hTd with e | e
              · exact e.ge
              · exact (List.rel_of_pairwise_cons hpw' e).le
            have hPv : P v := by
              cases fuel with
              | zero => cases h
              | succ fuel =>
                obtain ⟨dt2, v2, hs2⟩ := loop_step (by rw [f1]; exact hTlt) h
                have := (watched_advance hf m _ _ _ _ _ hs2).2.2 s1.u (by cases m <;> simp [stages])
                rwa [f2] at this
            have hnext := ih d ds s1 st' hpw' hTd (by rw [f1]; exact htd) h hP N hN
            rw [f1, f2] at hnext
            have hslice := (Continuous.prodMk_right (X := ℝ) (Y := U) tg).tendsto v |>.eventually hnext
            refine ⟨hPv, _, hslice, fun s hs0 dt' v' h1 h2 h3 => ?_⟩
            obtain ⟨s2, g1, g2, g3⟩ := loop_hit_next (mk := mk) (logEvery := logEvery) (d := d) (ds := ds) htT hs0 h1 h2
            obtain ⟨fuel', s', r1, r2, r3⟩ := h3 htd s2 g1 g2
            exact ⟨fuel' + 1, s', by rw [g3]; exact r1, r2, r3⟩
      obtain ⟨hPv, M, hM, hgo⟩ := hland
      have ev : v = advanceBy R m (min (tg - st.t) (D st.u)) st.u := by rw [e2, e1, min_eq_left hge]
      have c4' : Tendsto (fun x : ℝ × U => advanceBy R m (min (tg - x.1) (D x.2)) x.2) (𝓝 (st.t, st.u)) (𝓝 v) := by
        rw [ev]; exact c4
      -- a second step, if the first one falls short
      obtain ⟨cDv, pDv⟩ := hD v hPv
      have cAv : ContinuousAt (fun x : ℝ × U => advanceBy R m x.1 x.2) (0, v) :=
        advance_continuousAt m 0 v fun x hx => by rw [stages_zero R m v x hx]; exact hR v hPv
      have c6 : Tendsto (fun x : ℝ × U => x.1 + min (tg - x.1) (D x.2)) (𝓝 (st.t, st.u)) (𝓝 tg) := by
        have h0 : st.t + min (tg - st.t) (D st.u) = tg := by rw [min_eq_left hge]; ring
        have := (c1.add c3).tendsto
        change Tendsto _ _ (𝓝 (st.t + min (tg - st.t) (D st.u))) at this
        rwa [h0] at this
      have c7 : Tendsto (fun x : ℝ × U => (tg - (x.1 + min (tg - x.1) (D x.2)), advanceBy R m (min (tg - x.1) (D x.2)) x.2))
          (𝓝 (st.t, st.u)) (𝓝 (0, v)) := by
        have h0 : Tendsto (fun x : ℝ × U => tg - (x.1 + min (tg - x.1) (D x.2))) (𝓝 (st.t, st.u)) (𝓝 0) := by
          have := (tendsto_const_nhds (x := tg)).sub c6
          rwa [sub_self] at this
        exact h0.prodMk_nhds c4'
      have h8 : ∀ᶠ x : ℝ × U in 𝓝 ((0 : ℝ), v), x.1 < D x.2 :=
        (continuousAt_fst (p := ((0 : ℝ), v))).tendsto.eventually_lt
          (ContinuousAt.comp (g := D) (f := Prod.snd) (x := ((0 : ℝ), v)) cDv continuousAt_snd).tendsto pDv
      have h9 : ∀ᶠ x : ℝ × U in 𝓝 ((0 : ℝ), v), advanceBy R m x.1 x.2 ∈ M := by
        have := cAv.tendsto
        rw [advance_zero] at this
        exact this hM
      filter_upwards [c4' hM, c7.eventually h8, c7.eventually h9] with x h1 h2 h3 hx s hs1 hs2
      have hlt0 : s.t < tg := by rw [hs1]; exact hx
      rcases le_or_gt (tg - x.1) (D x.2) with hcase | hcase
      · exact hgo s hlt0 _ _ (step s) (by rw [hs1, hs2, min_eq_left hcase]; ring) (by rw [hs1, hs2]; exact h1)
      · rw [min_eq_right hcase.le] at h2 h3
        obtain ⟨s2, g1, g2, g3⟩ := loop_below (mk := mk) (logEvery := logEvery) (ds := ds) htT hlt0 (step s)
          (by rw [hs1, hs2, min_eq_right hcase.le]; linarith)
        rw [hs1, hs2, min_eq_right hcase.le] at g1 g2
        have e3 : min (tg - s2.t) (D s2.u) = tg - (x.1 + D x.2) := by
          rw [g1, g2]
          exact min_eq_left h2.le
        obtain ⟨fuel', s', r⟩ := hgo s2 (by rw [g1]; linarith) _ _ (step s2) (by rw [e3, g1]; ring) (by rw [e3, g2]; exact h3)
        exact ⟨fuel' + 1, s', by rw [g3]; exact r.1, r.2⟩

end Advance

end FVHOE
