import Verif.Proofs.FloatFlux
import Verif.Props.C98

/-!
C99. Uniform flow and translations, bit by bit in floating-point arithmetic.

The scheme of `Verif/Model/FloatFlux.lean` rounds after every operation, and the conversion to primitive variables, the
Riemann solver and the signal speed are arbitrary functions.
-/

set_option linter.unusedSectionVars false

namespace FVHOE

variable {W S : Type}

/-! ### Runs -/

/-- A property of the state that every step keeps holds after a run. -/
theorem loopWith_keeps {K U : Type} [LinearOrder K] (A : ClockOps K) (prop : Proposal K U) (mk : ODEState K U S → S) (T : K)
    (logEvery : Bool) (Q : U → Prop)
    (hstep : ∀ t u dt0 go dt u', Q u → prop t u = .ok (dt0, go) → go dt = .ok u' → Q u') (fuel : ℕ) :
    ∀ (target : Option K) (ds : List K) (st : ODEState K U S) (out : Outcome K U S), Q st.u →
      ODEState.loopWith A prop mk T logEvery fuel target ds st = some out → Q out.1.u := by
  induction fuel with
  | zero => intro tg ds st out _ h; simp [ODEState.loopWith] at h
  | succ fuel ih =>
    intro tg ds st out hq h
    unfold ODEState.loopWith at h
    split at h
    · unfold ODEState.takeStepWith at h
      cases hs : prop st.t st.u with
      | error e =>
        simp only [hs, Option.some.injEq] at h
        subst h
        exact hq
      | ok r =>
        obtain ⟨dt0, go⟩ := r
        simp only [hs] at h
        cases hg : go (hitTargetWith A st.t dt0 tg) with
        | error e =>
          simp only [hg, Option.some.injEq] at h
          subst h
          exact hq
        | ok u' =>
          simp only [hg] at h
          have hq' := hstep _ _ _ _ _ _ hq hs hg
          split at h
          · cases ds with
            | nil => exact ih _ _ _ _ (by exact hq') h
            | cons d ds =>
              simp only at h
              split at h
              · exact ih _ _ _ _ (by exact hq') h
              · exact ih _ _ _ _ (by exact hq') h
          · exact ih _ _ _ _ (by exact hq') h
    · simp only [Option.some.injEq] at h
      subst h
      exact hq

/-- Two results are both values that are related, or both the same exception. -/
def ExRel {A B : Type} (R : A → B → Prop) : Except PyErr A → Except PyErr B → Prop
  | .ok a, .ok b => R a b
  | .error e, .error e' => e = e'
  | _, _ => False

/-- Two solvers whose clocks and records agree and whose states are related. -/
structure InStep {K U : Type} (R : U → U → Prop) (a b : ODEState K U S) : Prop where
  t : a.t = b.t
  timestamps : a.timestamps = b.timestamps
  stepCount : a.stepCount = b.stepCount
  snapshotTimes : a.snapshotTimes = b.snapshotTimes
  u : R a.u b.u

/-- Runs of steps that keep states related stay in step. -/
theorem loopWith_inStep {K U : Type} [LinearOrder K] (A : ClockOps K) (prop prop' : Proposal K U) (mk : ODEState K U S → S) (T : K)
    (logEvery : Bool) (R : U → U → Prop)
    (hstep : ∀ t u v, R u v →
      ExRel (fun x y => x.1 = y.1 ∧ ∀ dt, ExRel R (x.2 dt) (y.2 dt)) (prop t u) (prop' t v)) (fuel : ℕ) :
    ∀ (target : Option K) (ds : List K) (a b : ODEState K U S) (out : Outcome K U S), InStep R a b →
      ODEState.loopWith A prop mk T logEvery fuel target ds a = some out →
      ∃ out', ODEState.loopWith A prop' mk T logEvery fuel target ds b = some out' ∧ out.2 = out'.2 ∧ InStep R out.1 out'.1 := by
  induction fuel with
  | zero => intro tg ds a b out _ h; simp [ODEState.loopWith] at h
  | succ fuel ih =>
    intro tg ds a b out hab h
    unfold ODEState.loopWith at h ⊢
    rw [← hab.t]
    by_cases htT : a.t < T
    swap
    · rw [if_neg htT] at h ⊢
      simp only [Option.some.injEq] at h
      subst h
      exact ⟨_, rfl, rfl, hab⟩
    rw [if_pos htT] at h ⊢
    unfold ODEState.takeStepWith at h ⊢
    rw [← hab.t]
    have hr := hstep a.t a.u b.u hab.u
    cases hs : prop a.t a.u with
    | error e =>
      rw [hs] at hr
      cases hs' : prop' a.t b.u with
      | ok r => rw [hs'] at hr; exact hr.elim
      | error e' =>
        rw [hs'] at hr
        have hr : e = e' := hr
        simp only [hs, Option.some.injEq] at h
        subst h hr
        exact ⟨_, rfl, rfl, hab⟩
    | ok r =>
      rw [hs] at hr
      cases hs' : prop' a.t b.u with
      | error e' => rw [hs'] at hr; exact hr.elim
      | ok r' =>
        rw [hs'] at hr
        obtain ⟨dt0, go⟩ := r
        obtain ⟨dt0', go'⟩ := r'
        obtain ⟨hdt, hgo⟩ : dt0 = dt0' ∧ ∀ dt, ExRel R (go dt) (go' dt) := hr
        subst hdt
        simp only [hs] at h ⊢
        have hg := hgo (hitTargetWith A a.t dt0 tg)
        cases hu : go (hitTargetWith A a.t dt0 tg) with
        | error e =>
          rw [hu] at hg
          cases hu' : go' (hitTargetWith A a.t dt0 tg) with
          | ok r => rw [hu'] at hg; exact hg.elim
          | error e' =>
            rw [hu'] at hg
            have hg : e = e' := hg
            simp only [hu, Option.some.injEq] at h
            subst h hg
            exact ⟨_, rfl, rfl, hab⟩
        | ok u' =>
          rw [hu] at hg
          cases hu' : go' (hitTargetWith A a.t dt0 tg) with
          | error e' => rw [hu'] at hg; exact hg.elim
          | ok v' =>
            rw [hu'] at hg
            have hg : R u' v' := hg
            simp only [hu] at h ⊢
            have h1 : InStep (S := S) R
                { a with t := A.add a.t (hitTargetWith A a.t dt0 tg), u := u',
                         timestamps := a.timestamps ++ [A.add a.t (hitTargetWith A a.t dt0 tg)],
                         stepCount := a.stepCount + 1 }
                { b with t := A.add a.t (hitTargetWith A a.t dt0 tg), u := v',
                         timestamps := b.timestamps ++ [A.add a.t (hitTargetWith A a.t dt0 tg)],
                         stepCount := b.stepCount + 1 } :=
              ⟨rfl, by simp [hab.timestamps], by simp [hab.stepCount], hab.snapshotTimes, hg⟩
            have h2 (x y : ODEState K U S) (hxy : InStep R x y) : InStep R (x.snapshot mk) (y.snapshot mk) :=
              ⟨hxy.t, hxy.timestamps, hxy.stepCount, by simp [ODEState.snapshot, hxy.snapshotTimes, hxy.t], hxy.u⟩
            by_cases hc : tg = some (A.add a.t (hitTargetWith A a.t dt0 tg)) ∨
                T ≤ A.add a.t (hitTargetWith A a.t dt0 tg) ∨ logEvery = true
            · rw [if_pos hc] at h ⊢
              cases ds with
              | nil => exact ih _ _ _ _ _ (h2 _ _ h1) h
              | cons d ds =>
                simp only at h ⊢
                by_cases hc' : tg = some (A.add a.t (hitTargetWith A a.t dt0 tg))
                · rw [if_pos hc'] at h ⊢
                  exact ih _ _ _ _ _ (h2 _ _ h1) h
                · rw [if_neg hc'] at h ⊢
                  exact ih _ _ _ _ _ (h2 _ _ h1) h
            · rw [if_neg hc] at h ⊢
              exact ih _ _ _ _ _ h1 h

/-! ### Uniform flow -/

/-- The state has the values `c` in all cells. -/
def UniformIn (n : Fin 3 → ℕ) (c : W → ℚ) (u : FState W) : Prop := ∀ w i, InCells n i → u w i = c w

theorem UniformIn.plus {n : Fin 3 → ℕ} {c c' : W → ℚ} {u v : FState W} (fl : ℚ → ℚ) (h : UniformIn n c u)
    (h' : UniformIn n c' v) : UniformIn n (fun w => fl (c w + c' w)) (u.plus fl v) := fun w i hi => by
  unfold FState.plus
  rw [h w i hi, h' w i hi]

theorem UniformIn.times {n : Fin 3 → ℕ} {c : W → ℚ} {u : FState W} (fl : ℚ → ℚ) (a : ℚ) (h : UniformIn n c u) :
    UniformIn n (fun w => fl (a * c w)) (u.times fl a) := fun w i hi => by
  unfold FState.times
  rw [h w i hi]

theorem uniform_rhs (F : Format) (hp : 1 ≤ F.p) (P : RoundedScheme W) (hn : ∀ d, 0 < P.n d) (c : W → ℚ) (u : FState W)
    (hu : UniformIn P.n c u) (s t dt : ℚ) (k : FState W) (hk : P.rhs F.fl s t u = .ok (dt, k)) :
    UniformIn P.n (fun _ => 0) k := by
  obtain ⟨-, rfl⟩ := P.rhs_ok F.fl hk
  have hz : F.fl 0 = 0 := F.fl_eq hp F.has_zero
  have hsh (s : Ix) : (wrapAround P.n u).shift s = wrapAround P.n u := by
    funext w i
    show u w _ = u w _
    rw [hu w _ (mod_inCells P.n hn _), hu w _ (mod_inCells P.n hn _)]
  have hfl (d : Fin 3) (w : W) (i : Ix) : P.flux F.fl d (P.primAverages F.fl (wrapAround P.n u)) w (i + Pi.single d 1) =
      P.flux F.fl d (P.primAverages F.fl (wrapAround P.n u)) w i := by
    have : (P.flux F.fl d (P.primAverages F.fl (wrapAround P.n u))).shift (Pi.single d 1) =
        P.flux F.fl d (P.primAverages F.fl (wrapAround P.n u)) := by
      rw [← P.flux_shift, ← P.primAverages_shift, hsh]
    exact congrFun (congrFun this w) i
  intro w i _
  have hd (d : Fin 3) : roundedDiff F.fl (P.h d) d (P.flux F.fl d (P.primAverages F.fl (wrapAround P.n u))) w i = 0 := by
    unfold roundedDiff FState.times
    simp only
    rw [hfl, sub_self, hz, mul_zero, hz]
  unfold roundedEulerEquation
  cases h0 : P.active 0 <;> cases h1 : P.active 1 <;> cases h2 : P.active 2 <;> simp [FState.plus, h0, h1, h2, hd, hz]

/-- One step from uniform flow. -/
theorem uniform_step (F : Format) (hp : 1 ≤ F.p) (P : RoundedScheme W) (hn : ∀ d, 0 < P.n d) (c : W → ℚ) (m : Integrator)
    (hc : ∀ w, F.Has (c w) ∧ (m = .ssprk2 → F.Has (c w / 2))) (t : ℚ) (u u' : FState W) (dt0 dt : ℚ)
    (go : ℚ → Except PyErr (FState W)) (hu : UniformIn P.n c u)
    (hprop : roundedProposal F.fl (P.rhs F.fl) m t u = .ok (dt0, go)) (hgo : go dt = .ok u') : UniformIn P.n c u' := by
  have hz : F.fl 0 = 0 := F.fl_eq hp F.has_zero
  have hfc (w : W) : F.fl (c w) = c w := F.fl_eq hp (hc w).1
  have hk := uniform_rhs F hp P hn c
  have stage (k v : FState W) (a : ℚ) (hv : UniformIn P.n c v) (hk : UniformIn P.n (fun _ => 0) k) :
      UniformIn P.n c (v.plus F.fl (k.times F.fl a)) := by
    have := hv.plus F.fl (hk.times F.fl a)
    simpa [hz, hfc] using this
  have zsum (k v : FState W) (a : ℚ) (hv : UniformIn P.n (fun _ => 0) v) (hk : UniformIn P.n (fun _ => 0) k) :
      UniformIn P.n (fun _ => 0) (v.plus F.fl (k.times F.fl a)) := by
    have := hv.plus F.fl (hk.times F.fl a)
    simpa [hz] using this
  have zsum' (k v : FState W) (hv : UniformIn P.n (fun _ => 0) v) (hk : UniformIn P.n (fun _ => 0) k) :
      UniformIn P.n (fun _ => 0) (v.plus F.fl k) := by
    have := hv.plus F.fl hk
    simpa [hz] using this
  unfold roundedProposal at hprop
  cases h0 : P.rhs F.fl t t u with
  | error e => simp [h0, Bind.bind, Except.bind] at hprop
  | ok r0 =>
  obtain ⟨dt1, k0⟩ := r0
  have z0 := hk u hu _ _ _ _ h0
  simp only [h0, Bind.bind, Except.bind, Pure.pure, Except.pure, Except.ok.injEq, Prod.mk.injEq] at hprop
  obtain ⟨-, rfl⟩ := hprop
  cases m with
  | euler =>
    simp only [Except.ok.injEq] at hgo
    subst hgo
    exact stage _ _ _ hu z0
  | ssprk2 =>
    simp only at hgo
    have s1 := stage _ _ dt hu z0
    cases h1 : P.rhs F.fl t t (u.plus F.fl (k0.times F.fl dt)) with
    | error e =>
      simp only [h1] at hgo
      cases hgo
    | ok r1 =>
    obtain ⟨_, k1⟩ := r1
    have z1 := hk _ s1 _ _ _ _ h1
    simp only [h1, Except.ok.injEq] at hgo
    subst hgo
    have := (hu.times F.fl (1 / 2)).plus F.fl ((stage _ _ dt s1 z1).times F.fl (1 / 2))
    have e (w : W) : F.fl (F.fl (1 / 2 * c w) + F.fl (1 / 2 * c w)) = c w := by
      rw [show 1 / 2 * c w = c w / 2 by ring, F.fl_eq hp ((hc w).2 rfl), add_halves, hfc]
    simpa only [e] using this
  | ssprk3 =>
    simp only at hgo
    cases h1 : P.rhs F.fl t (F.fl (t + dt)) (u.plus F.fl (k0.times F.fl dt)) with
    | error e =>
      simp only [h1] at hgo
      cases hgo
    | ok r1 =>
    obtain ⟨_, k1⟩ := r1
    simp only [h1] at hgo
    have z1 := hk _ (stage _ _ dt hu z0) _ _ _ _ h1
    cases h2 : P.rhs F.fl t (F.fl (t + F.fl (1 / 2 * dt))) ((u.plus F.fl (k0.times F.fl (F.fl (1 / 4 * dt)))).plus F.fl
        (k1.times F.fl (F.fl (1 / 4 * dt)))) with
    | error e =>
      simp only [h2] at hgo
      cases hgo
    | ok r2 =>
    obtain ⟨_, k2⟩ := r2
    have z2 := hk _ (stage _ _ _ (stage _ _ _ hu z0) z1) _ _ _ _ h2
    simp only [h2, Except.ok.injEq] at hgo
    subst hgo
    exact stage _ _ _ hu (zsum _ _ _ (zsum' _ _ z0 z1) z2)
  | rk4 =>
    simp only at hgo
    cases h1 : P.rhs F.fl t (F.fl (t + F.fl (1 / 2 * dt))) (u.plus F.fl (k0.times F.fl (F.fl (1 / 2 * dt)))) with
    | error e =>
      simp only [h1] at hgo
      cases hgo
    | ok r1 =>
    obtain ⟨_, k1⟩ := r1
    simp only [h1] at hgo
    have z1 := hk _ (stage _ _ _ hu z0) _ _ _ _ h1
    cases h2 : P.rhs F.fl t (F.fl (t + F.fl (1 / 2 * dt))) (u.plus F.fl (k1.times F.fl (F.fl (1 / 2 * dt)))) with
    | error e =>
      simp only [h2] at hgo
      cases hgo
    | ok r2 =>
    obtain ⟨_, k2⟩ := r2
    simp only [h2] at hgo
    have z2 := hk _ (stage _ _ _ hu z1) _ _ _ _ h2
    cases h3 : P.rhs F.fl t (F.fl (t + dt)) (u.plus F.fl (k2.times F.fl dt)) with
    | error e =>
      simp only [h3] at hgo
      cases hgo
    | ok r3 =>
    obtain ⟨_, k3⟩ := r3
    have z3 := hk _ (stage _ _ _ hu z2) _ _ _ _ h3
    simp only [h3, Except.ok.injEq] at hgo
    subst hgo
    exact stage _ _ _ hu (zsum' _ _ (zsum _ _ _ (zsum _ _ _ z0 z1) z2) z3)

/-- **C99** (uniform flow). On a periodic domain, a run in floating-point arithmetic from a state that has the same values
in all cells ends with exactly these values in all cells, whatever the format, the degrees, the Riemann solver, the
integrator and the requested times, and however the run ends. (For `ssprk2`, which halves the state, the halves must be
numbers of the format: the values must not be odd subnormal numbers.) -/
theorem C99_uniform (F : Format) (hp : 1 ≤ F.p) (P : RoundedScheme W) (hn : ∀ d, 0 < P.n d) (c : W → ℚ) (m : Integrator)
    (hc : ∀ w, F.Has (c w) ∧ (m = .ssprk2 → F.Has (c w / 2))) (mk : ODEState ℚ (FState W) S → S) (T : ℚ)
    (downbeats : List ℚ) (logEvery : Bool) (fuel : ℕ) (st : ODEState ℚ (FState W) S) (out : Outcome ℚ (FState W) S)
    (h0 : ∀ w i, InCells P.n i → st.u w i = c w)
    (hrun : st.integrateWith F.ops (roundedProposal F.fl (P.rhs F.fl) m) mk T downbeats logEvery fuel = some out) :
    ∀ w i, InCells P.n i → out.1.u w i = c w := by
  unfold ODEState.integrateWith at hrun
  split at hrun
  · simp only [Option.some.injEq] at hrun
    subst hrun
    exact h0
  · exact loopWith_keeps F.ops _ mk T logEvery (UniformIn P.n c)
      (fun t u dt0 go dt u' => uniform_step F hp P hn c m hc t u u' dt0 dt go) fuel _ _ (st.snapshot mk) out h0 hrun

/-! ### Translations -/

/-- `v` is `u` moved by `s` cells on the periodic domain. -/
def Moved (n : Fin 3 → ℕ) (s : Ix) (u v : FState W) : Prop :=
  ∀ w i, InCells n i → v w i = u w fun d => (i d + s d) % (n d : ℤ)

theorem moved_iff {n : Fin 3 → ℕ} (hn : ∀ d, 0 < n d) (s : Ix) (u v : FState W) :
    Moved n s u v ↔ wrapAround n v = (wrapAround n u).shift s := by
  constructor
  · intro h
    funext w i
    have := h w _ (mod_inCells n hn i)
    show v w _ = u w _
    rw [this]
    congr 1
    funext d
    simp [Int.add_emod]
  · intro h w i hi
    rw [← wrapAround_cell n v w i hi, h]
    rfl

theorem Moved.plus {n : Fin 3 → ℕ} {s : Ix} {u v u' v' : FState W} (fl : ℚ → ℚ) (h : Moved n s u v) (h' : Moved n s u' v') :
    Moved n s (u.plus fl u') (v.plus fl v') := fun w i hi => by
  unfold FState.plus
  rw [h w i hi, h' w i hi]

theorem Moved.times {n : Fin 3 → ℕ} {s : Ix} {u v : FState W} (fl : ℚ → ℚ) (a : ℚ) (h : Moved n s u v) :
    Moved n s (u.times fl a) (v.times fl a) := fun w i hi => by
  unfold FState.times
  rw [h w i hi]

theorem npMax_congr {K : Type} [Field K] [LinearOrder K] [IsStrictOrderedRing K] (l l' : List K) (h : ∀ x, x ∈ l ↔ x ∈ l') :
    npMax l = npMax l' := by
  by_cases hl : l = []
  · have : l' = [] := by
      rw [List.eq_nil_iff_forall_not_mem]
      intro x hx
      rw [← h, hl] at hx
      simp at hx
    rw [hl, this]
  · have hl' : l' ≠ [] := by
      obtain ⟨x, hx⟩ := List.exists_mem_of_ne_nil l hl
      exact List.ne_nil_of_mem ((h x).1 hx)
    obtain ⟨m, h1, h2, h3⟩ := npMax_spec l hl
    obtain ⟨m', h1', h2', h3'⟩ := npMax_spec l' hl'
    rw [h1, h1', le_antisymm (h3' m ((h m).1 h2)) (h3 m' ((h m').2 h2'))]

theorem moved_of_periodic {n : Fin 3 → ℕ} (s : Ix) (k : FState W) (h : ∀ e : Ix, (∀ d, (n d : ℤ) ∣ e d) → k.shift e = k) :
    Moved n s k (k.shift s) := by
  intro w i _
  have h1 := congrFun (congrFun (h (fun d => (i d + s d) % (n d : ℤ) - (i d + s d)) fun d => by
    have := Int.emod_add_mul_ediv (i d + s d) (n d)
    exact ⟨-((i d + s d) / n d), by linarith⟩) w) (i + s)
  show k w (i + s) = _
  rw [← h1]
  show k w _ = k w _
  congr 1
  funext d
  simp

/-- The right-hand side of a moved state: the same step, and the moved time derivative. -/
theorem moved_rhs (fl : ℚ → ℚ) (P : RoundedScheme W) (hn : ∀ d, 0 < P.n d) (s : Ix) (u v : FState W) (h : Moved P.n s u v)
    (s' t' : ℚ) :
    ExRel (fun x y => x.1 = y.1 ∧ Moved P.n s x.2 y.2) (P.rhs fl s' t' u) (P.rhs fl s' t' v) := by
  have hw := (moved_iff hn s u v).1 h
  have hv : P.primAverages fl (wrapAround P.n v) = (P.primAverages fl (wrapAround P.n u)).shift s := by
    rw [hw, P.primAverages_shift]
  have hper (e : Ix) (he : ∀ d, (P.n d : ℤ) ∣ e d) :
      (P.primAverages fl (wrapAround P.n u)).shift e = P.primAverages fl (wrapAround P.n u) := by
    rw [← P.primAverages_shift, wrapAround_eq P.n u e he]
  have hdvd (i : Ix) : ∀ d, (P.n d : ℤ) ∣ (fun d => i d % (P.n d : ℤ) - i d) d := fun d => by
    have := Int.emod_add_mul_ediv (i d) (P.n d)
    exact ⟨-(i d / P.n d), by simp only; linarith⟩
  have hsize : P.size fl (P.primAverages fl (wrapAround P.n v)) = P.size fl (P.primAverages fl (wrapAround P.n u)) := by
    unfold RoundedScheme.size
    cases P.fixedDt with
    | some dt => rfl
    | none =>
      simp only
      rw [npMax_congr]
      intro x
      simp only [List.mem_map, mem_indexList]
      set a := P.primAverages fl (wrapAround P.n u) with ha
      have hmod (i : Ix) : (fun y => a y fun d => i d % (P.n d : ℤ)) = fun y => a y i := by
        funext y
        have := congrFun (congrFun (hper _ (hdvd i)) y) i
        rw [← this]
        show a y _ = a y _
        congr 1
        funext d
        simp
      rw [hv]
      constructor
      · rintro ⟨i, hi, rfl⟩
        refine ⟨_, mod_inCells P.n hn (i + s), ?_⟩
        rw [hmod (i + s)]
        rfl
      · rintro ⟨i, hi, rfl⟩
        refine ⟨_, mod_inCells P.n hn (i - s), ?_⟩
        have e : (fun y => a.shift s y fun d => (i - s) d % (P.n d : ℤ)) = fun y => a y i := by
          rw [← hmod i]
          funext y
          have h1 := congrFun (hmod (fun d => (i - s) d % (P.n d : ℤ) + s d)) y
          show a y _ = _
          refine h1.symm.trans ?_
          show a y _ = a y _
          congr 1
          funext d
          rw [Int.emod_add_emod, Pi.sub_apply, sub_add_cancel]
        rw [e]
  unfold RoundedScheme.rhs
  dsimp only
  rw [hsize]
  cases P.size fl (P.primAverages fl (wrapAround P.n u)) with
  | error e => exact rfl
  | ok dt =>
    have e1 : (fun d => P.flux fl d (P.primAverages fl (wrapAround P.n v))) =
        fun d => (P.flux fl d (P.primAverages fl (wrapAround P.n u))).shift s := by
      funext d
      rw [hv, P.flux_shift]
    rw [e1, roundedEulerEquation_shift]
    have hkper (e : Ix) (he : ∀ d, (P.n d : ℤ) ∣ e d) :
        (roundedEulerEquation fl P.active P.h fun d => P.flux fl d (P.primAverages fl (wrapAround P.n u))).shift e =
          roundedEulerEquation fl P.active P.h fun d => P.flux fl d (P.primAverages fl (wrapAround P.n u)) := by
      rw [← roundedEulerEquation_shift]
      refine congrArg (roundedEulerEquation fl P.active P.h) (funext fun d => ?_)
      rw [← P.flux_shift, hper e he]
    generalize roundedEulerEquation fl P.active P.h _ = k at hkper
    exact ⟨rfl, moved_of_periodic s k hkper⟩

/-- A relation that sums and multiples keep is kept by the steppers. -/
theorem roundedProposal_rel (fl : ℚ → ℚ) (f f' : RHS ℚ (FState W)) (m : Integrator) (R : FState W → FState W → Prop)
    (hplus : ∀ u v u' v', R u v → R u' v' → R (u.plus fl u') (v.plus fl v'))
    (htimes : ∀ a u v, R u v → R (u.times fl a) (v.times fl a))
    (hf : ∀ s t u v, R u v → ExRel (fun x y => x.1 = y.1 ∧ R x.2 y.2) (f s t u) (f' s t v)) (t : ℚ) (u v : FState W)
    (h : R u v) :
    ExRel (fun x y => x.1 = y.1 ∧ ∀ dt, ExRel R (x.2 dt) (y.2 dt)) (roundedProposal fl f m t u) (roundedProposal fl f' m t v) := by
  have call (s t : ℚ) (u v : FState W) (h : R u v) (G G' : ℚ × FState W → Except PyErr (FState W))
      (hG : ∀ x y, R x.2 y.2 → ExRel R (G x) (G' y)) : ExRel R ((f s t u).bind G) ((f' s t v).bind G') := by
    have := hf s t u v h
    cases h1 : f s t u with
    | error e =>
      cases h2 : f' s t v with
      | ok r => rw [h1, h2] at this; exact this.elim
      | error e' => rw [h1, h2] at this; exact this
    | ok r =>
      cases h2 : f' s t v with
      | error e' => rw [h1, h2] at this; exact this.elim
      | ok r' => rw [h1, h2] at this; exact hG _ _ this.2
  unfold roundedProposal
  have h0 := hf t t u v h
  cases h1 : f t t u with
  | error e =>
    cases h2 : f' t t v with
    | ok r => rw [h1, h2] at h0; exact h0.elim
    | error e' => rw [h1, h2] at h0; exact h0
  | ok r =>
    cases h2 : f' t t v with
    | error e' => rw [h1, h2] at h0; exact h0.elim
    | ok r' =>
      rw [h1, h2] at h0
      obtain ⟨dt0, k0⟩ := r
      obtain ⟨dt0', k0'⟩ := r'
      obtain ⟨e0, hk0⟩ : dt0 = dt0' ∧ R k0 k0' := h0
      refine ⟨e0, fun dt => ?_⟩
      cases m with
      | euler => exact hplus _ _ _ _ h (htimes _ _ _ hk0)
      | ssprk2 =>
        refine call _ _ _ _ (hplus _ _ _ _ h (htimes _ _ _ hk0)) _ _ fun x y hxy => ?_
        exact hplus _ _ _ _ (htimes _ _ _ h)
          (htimes _ _ _ (hplus _ _ _ _ (hplus _ _ _ _ h (htimes _ _ _ hk0)) (htimes _ _ _ hxy)))
      | ssprk3 =>
        refine call _ _ _ _ (hplus _ _ _ _ h (htimes _ _ _ hk0)) _ _ fun x y hxy => ?_
        refine call _ _ _ _ (hplus _ _ _ _ (hplus _ _ _ _ h (htimes _ _ _ hk0)) (htimes _ _ _ hxy)) _ _ fun x' y' hxy' => ?_
        exact hplus _ _ _ _ h (htimes _ _ _ (hplus _ _ _ _ (hplus _ _ _ _ hk0 hxy) (htimes _ _ _ hxy')))
      | rk4 =>
        refine call _ _ _ _ (hplus _ _ _ _ h (htimes _ _ _ hk0)) _ _ fun x y hxy => ?_
        refine call _ _ _ _ (hplus _ _ _ _ h (htimes _ _ _ hxy)) _ _ fun x' y' hxy' => ?_
        refine call _ _ _ _ (hplus _ _ _ _ h (htimes _ _ _ hxy')) _ _ fun x'' y'' hxy'' => ?_
        exact hplus _ _ _ _ h (htimes _ _ _ (hplus _ _ _ _ (hplus _ _ _ _ (hplus _ _ _ _ hk0 (htimes _ _ _ hxy))
          (htimes _ _ _ hxy')) hxy''))

/-- **C99** (translations). Two runs in floating-point arithmetic on a periodic domain, one from the initial values of the
other moved by `s` cells: if the one returns, so does the other, with the same exception if any, the same times of all
steps and snapshots, and exactly the moved values in all cells. -/
theorem C99_translation (F : Format) (P : RoundedScheme W) (hn : ∀ d, 0 < P.n d) (s : Ix) (m : Integrator)
    (mk : ODEState ℚ (FState W) S → S) (T : ℚ) (downbeats : List ℚ) (logEvery : Bool) (fuel : ℕ)
    (a b : ODEState ℚ (FState W) S) (out : Outcome ℚ (FState W) S) (ht : a.t = b.t)
    (hts : a.timestamps = b.timestamps) (hsc : a.stepCount = b.stepCount) (hsn : a.snapshotTimes = b.snapshotTimes)
    (hu : ∀ w i, InCells P.n i → b.u w i = a.u w fun d => (i d + s d) % (P.n d : ℤ))
    (hrun : a.integrateWith F.ops (roundedProposal F.fl (P.rhs F.fl) m) mk T downbeats logEvery fuel = some out) :
    ∃ out', b.integrateWith F.ops (roundedProposal F.fl (P.rhs F.fl) m) mk T downbeats logEvery fuel = some out' ∧
      out'.2 = out.2 ∧ out'.1.t = out.1.t ∧ out'.1.timestamps = out.1.timestamps ∧
      out'.1.snapshotTimes = out.1.snapshotTimes ∧
      ∀ w i, InCells P.n i → out'.1.u w i = out.1.u w fun d => (i d + s d) % (P.n d : ℤ) := by
  have hab : InStep (Moved P.n s) a b := ⟨ht, hts, hsc, hsn, hu⟩
  unfold ODEState.integrateWith at hrun ⊢
  split at hrun
  · simp only [Option.some.injEq] at hrun
    subst hrun
    exact ⟨_, rfl, rfl, ht.symm, hts.symm, hsn.symm, hu⟩
  · obtain ⟨out', h1, h2, h3⟩ := loopWith_inStep F.ops _ _ mk T logEvery (Moved P.n s)
      (roundedProposal_rel F.fl _ _ m _ (fun _ _ _ _ => Moved.plus F.fl) (fun a _ _ => Moved.times F.fl a)
        fun s' t' u v h => moved_rhs F.fl P hn s u v h s' t') fuel _ _ (a.snapshot mk) (b.snapshot mk) out
      ⟨ht, hts, hsc, by simp [ODEState.snapshot, hsn, ht], hu⟩ hrun
    exact ⟨out', h1, h2.symm, h3.t.symm, h3.timestamps.symm, h3.snapshotTimes.symm, h3.u⟩

/-- The double next to 0.1 in both cells of the carousel of C98: the hypotheses hold, and the values stay the same bit by
bit. -/
example (mk : ODEState ℚ (FState Unit) S → S) (m : Integrator) (T : ℚ) (fuel : ℕ)
    (out : Outcome ℚ (FState Unit) S) (st : ODEState ℚ (FState Unit) S) (h0 : st.u = fun _ _ => d01)
    (hrun : st.integrateWith double.ops (roundedProposal double.fl (carousel.rhs double.fl) m) mk T [] false fuel =
      some out) : out.1.u () ![0, 0, 0] = d01 ∧ out.1.u () ![1, 0, 0] = d01 := by
  have h := C99_uniform double (by decide) carousel (by decide) (fun _ => d01) m
    (fun _ => ⟨⟨3602879701896397, -55, by norm_num [d01], by decide, by decide⟩,
      fun _ => ⟨3602879701896397, -56, by norm_num [d01], by decide, by decide⟩⟩) mk T [] false fuel st out
    (by intro w i _; rw [h0]) hrun
  exact ⟨h () _ (by decide), h () _ (by decide)⟩

/-- Moving the state of C98 by one cell. -/
example : Moved carousel.n ![1, 0, 0] oneLeft fun _ i => if i 0 = 1 then 1 else 0 := by
  intro w i hi
  have a0 := hi 0
  simp only [carousel, twoCells, Matrix.cons_val_zero] at a0
  have : i 0 = 0 ∨ i 0 = 1 := by omega
  rcases this with h | h <;> simp [oneLeft, carousel, twoCells, h]

/-- A step that does something: a quarter of what is in the left cell moves on, up to rounding. -/
example : ∃ go u', roundedProposal double.fl (carousel.rhs double.fl) .euler 0 oneLeft = .ok (1 / 4, go) ∧
    go (1 / 4) = .ok u' ∧ u' () ![0, 0, 0] ≠ 1 ∧ u' () ![1, 0, 0] ≠ 0 := by
  refine ⟨_, _, rfl, rfl, ?_, ?_⟩ <;> decide +kernel

/-- **C99** (mirror images are not exact). The sums of a stencil run from left to right, so the value at the left face of
a cell is not the value at the right face of its mirror image: with the averages 2, 1, 1 and degree 2 the two differ in
the last bits. -/
theorem C99_mirror_violated : ∃ a : FState Unit,
    roundedInterp double.fl 2 0 "l" (fun w i => a w (-i)) () 0 ≠ roundedInterp double.fl 2 0 "r" a () 0 ∧
    roundedInterp id 2 0 "l" (fun w i => a w (-i)) () 0 = roundedInterp id 2 0 "r" a () 0 :=
  ⟨fun _ i => if i 0 = -1 then 2 else 1, by decide +kernel, by decide +kernel⟩

end FVHOE
