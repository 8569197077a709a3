import Verif.Props.C120

/-!
C121: signals travel a bounded number of cells per time step.
-/

set_option linter.unusedSectionVars false

namespace FVHOE

variable {K : Type} [Field K] [LinearOrder K] [IsStrictOrderedRing K]

section general

variable {V : Type} [AddCommGroup V] [Module K V]

/-- `u` and `v` agree at most `m` times the reach `R` away from `i`. -/
def SameNear (S : Scheme K V) (R : Fin 3 → ℕ) (m : ℕ) (i : Ix) (u v : Ix → V) : Prop :=
  ∀ j, CellsAway S (fun d => m * R d) i j → u j = v j

theorem SameNear.mono {S : Scheme K V} {R : Fin 3 → ℕ} {m m' : ℕ} {i : Ix} {u v : Ix → V} (h : SameNear S R m i u v)
    (hm : m' ≤ m) : SameNear S R m' i u v := fun j hj => h j (hj.mono fun _ => Nat.mul_le_mul_right _ hm)

theorem SameNear.add {S : Scheme K V} {R : Fin 3 → ℕ} {m : ℕ} {i : Ix} {u v k l : Ix → V} (h : SameNear S R m i u v)
    (h' : SameNear S R m i k l) : SameNear S R m i (u + k) (v + l) := fun j hj => by
  rw [Pi.add_apply, Pi.add_apply, h j hj, h' j hj]

theorem SameNear.smul {S : Scheme K V} {R : Fin 3 → ℕ} {m : ℕ} {i : Ix} {u v : Ix → V} (h : SameNear S R m i u v)
    (a : K) : SameNear S R m i (a • u) (a • v) := fun j hj => by
  rw [Pi.smul_apply, Pi.smul_apply, h j hj]

/-- A right-hand side with prescribed step `x` that looks at most `R` cells away. -/
structure LooksAway (S : Scheme K V) (R : Fin 3 → ℕ) (x : K) (f : RHS K (Ix → V)) : Prop where
  fixed : ∀ s t u dt k, f s t u = .ok (dt, k) → dt = x
  near : ∀ s t u v i, InCells S.n i → (∀ j, CellsAway S R i j → u j = v j) → ∀ k k',
    f s t u = .ok (x, k) → f s t v = .ok (x, k') → k i = k' i

theorem LooksAway.stage {S : Scheme K V} {R : Fin 3 → ℕ} {x : K} {f : RHS K (Ix → V)} (hf : LooksAway S R x f)
    {i : Ix} {m : ℕ} {u v : Ix → V} (h : SameNear S R (m + 1) i u v) {s t : K} {dt dt' : K}
    {k k' : Ix → V} (e : f s t u = .ok (dt, k)) (e' : f s t v = .ok (dt', k')) : SameNear S R m i k k' := by
  obtain rfl := hf.fixed _ _ _ _ _ e
  obtain rfl := hf.fixed _ _ _ _ _ e'
  exact fun j hj => hf.near s t u v j hj.cell (fun l hl => h l ((hj.trans hl).mono fun d => by
      show m * R d + R d ≤ (m + 1) * R d
      rw [Nat.succ_mul])) k k' e e'

theorem LooksAway.dt {S : Scheme K V} {R : Fin 3 → ℕ} {x : K} {f : RHS K (Ix → V)} (hf : LooksAway S R x f)
    (I : Integrator) {u : Ix → V} {t : K} {target : Option K} {dt : K} {w : Ix → V}
    (e : stepper f I t u target = .ok (dt, w)) : dt = hitTarget t x target := by
  cases I with
  | euler =>
    obtain ⟨⟨a, k⟩, q, e⟩ := bind_ok e
    obtain rfl := hf.fixed _ _ _ _ _ q
    cases e
    rfl
  | ssprk2 =>
    obtain ⟨⟨a, k⟩, q, e⟩ := bind_ok e
    obtain rfl := hf.fixed _ _ _ _ _ q
    obtain ⟨_, _, e⟩ := bind_ok e
    cases e
    rfl
  | ssprk3 =>
    obtain ⟨⟨a, k⟩, q, e⟩ := bind_ok e
    obtain rfl := hf.fixed _ _ _ _ _ q
    obtain ⟨_, _, e⟩ := bind_ok e
    obtain ⟨_, _, e⟩ := bind_ok e
    cases e
    rfl
  | rk4 =>
    obtain ⟨⟨a, k⟩, q, e⟩ := bind_ok e
    obtain rfl := hf.fixed _ _ _ _ _ q
    obtain ⟨_, _, e⟩ := bind_ok e
    obtain ⟨_, _, e⟩ := bind_ok e
    obtain ⟨_, _, e⟩ := bind_ok e
    cases e
    rfl

/-- Evaluations of the right-hand side per step. -/
def evaluations : Integrator → ℕ
  | .euler => 1
  | .ssprk2 => 2
  | .ssprk3 => 3
  | .rk4 => 4

theorem LooksAway.step {S : Scheme K V} {R : Fin 3 → ℕ} {x : K} {f : RHS K (Ix → V)} (hf : LooksAway S R x f)
    {i : Ix} (I : Integrator) {m : ℕ} {u v : Ix → V} (h : SameNear S R (m + evaluations I) i u v)
    {t : K} {target : Option K} {dt dt' : K} {w w' : Ix → V} (e : stepper f I t u target = .ok (dt, w))
    (e' : stepper f I t v target = .ok (dt', w')) : SameNear S R m i w w' := by
  cases I with
  | euler =>
    obtain ⟨⟨a, k⟩, q, e⟩ := bind_ok e
    obtain ⟨⟨a', k'⟩, q', e'⟩ := bind_ok e'
    obtain rfl := hf.fixed _ _ _ _ _ q
    obtain rfl := hf.fixed _ _ _ _ _ q'
    have hk := hf.stage h q q'
    cases e
    cases e'
    exact (h.mono (by omega)).add (hk.smul _)
  | ssprk2 =>
    obtain ⟨⟨b0, k⟩, q, e⟩ := bind_ok e
    obtain ⟨⟨a', k'⟩, q', e'⟩ := bind_ok e'
    obtain rfl : a' = b0 := (hf.fixed _ _ _ _ _ q').trans (hf.fixed _ _ _ _ _ q).symm
    have hk := hf.stage (m := m + 1) h q q'
    have hu := h.mono (show m + 1 ≤ m + evaluations .ssprk2 from Nat.add_le_add_left (by decide) _)
    obtain ⟨⟨b, l⟩, q1, e⟩ := bind_ok e
    obtain ⟨⟨b', l'⟩, q1', e'⟩ := bind_ok e'
    have h1 := hu.add (hk.smul (hitTarget t a' target))
    have hl := hf.stage h1 q1 q1'
    cases e
    cases e'
    exact ((hu.mono (by omega)).smul _).add (((h1.mono (by omega)).add (hl.smul _)).smul _)
  | ssprk3 =>
    obtain ⟨⟨a, k⟩, q, e⟩ := bind_ok e
    obtain ⟨⟨a', k'⟩, q', e'⟩ := bind_ok e'
    obtain rfl := hf.fixed _ _ _ _ _ q
    obtain rfl := hf.fixed _ _ _ _ _ q'
    have hk := hf.stage (m := m + 2) h q q'
    have hu := h.mono (show m + 2 ≤ m + evaluations .ssprk3 from Nat.add_le_add_left (by decide) _)
    obtain ⟨⟨b, l⟩, q1, e⟩ := bind_ok e
    obtain ⟨⟨b', l'⟩, q1', e'⟩ := bind_ok e'
    have hl := hf.stage (m := m + 1) (hu.add (hk.smul _)) q1 q1'
    obtain ⟨⟨b2, l2⟩, q2, e⟩ := bind_ok e
    obtain ⟨⟨b2', l2'⟩, q2', e'⟩ := bind_ok e'
    have hu1 := hu.mono (show m + 1 ≤ m + 2 by omega)
    have hk1 := hk.mono (show m + 1 ≤ m + 2 by omega)
    have hl2 := hf.stage ((hu1.add (hk1.smul _)).add (hl.smul _)) q2 q2'
    cases e
    cases e'
    exact (hu.mono (by omega)).add
      ((((hk.mono (by omega)).add (hl.mono (by omega))).add (hl2.smul _)).smul _)
  | rk4 =>
    obtain ⟨⟨a, k⟩, q, e⟩ := bind_ok e
    obtain ⟨⟨a', k'⟩, q', e'⟩ := bind_ok e'
    obtain rfl := hf.fixed _ _ _ _ _ q
    obtain rfl := hf.fixed _ _ _ _ _ q'
    have hk := hf.stage (m := m + 3) h q q'
    have hu := h.mono (show m + 3 ≤ m + evaluations .rk4 from Nat.add_le_add_left (by decide) _)
    obtain ⟨⟨b, l⟩, q1, e⟩ := bind_ok e
    obtain ⟨⟨b', l'⟩, q1', e'⟩ := bind_ok e'
    have hl := hf.stage (m := m + 2) (hu.add (hk.smul _)) q1 q1'
    obtain ⟨⟨b2, l2⟩, q2, e⟩ := bind_ok e
    obtain ⟨⟨b2', l2'⟩, q2', e'⟩ := bind_ok e'
    have hu1 := hu.mono (show m + 2 ≤ m + 3 by omega)
    have hl2 := hf.stage (m := m + 1) (hu1.add (hl.smul _)) q2 q2'
    obtain ⟨⟨b3, l3⟩, q3, e⟩ := bind_ok e
    obtain ⟨⟨b3', l3'⟩, q3', e'⟩ := bind_ok e'
    have hu2 := hu.mono (show m + 1 ≤ m + 3 by omega)
    have hl3 := hf.stage (hu2.add (hl2.smul _)) q3 q3'
    cases e
    cases e'
    exact (hu.mono (by omega)).add
      (((((hk.mono (by omega)).add ((hl.mono (by omega)).smul _)).add ((hl2.mono (by omega)).smul _)).add hl3).smul _)

variable {Sn : Type}

/-- Two objects at the same time after the same number of steps, with final states that agree `m` reaches around a cell if
the states agree `m` reaches and the evaluations of the steps in between around it. -/
def Tracked (S : Scheme K V) (R : Fin 3 → ℕ) (q : ℕ) (i : Ix) (st st' r r' : ODEState K (Ix → V) Sn) : Prop :=
  r.t = r'.t ∧ r.stepCount = r'.stepCount ∧ st.stepCount ≤ r.stepCount ∧
    ∀ m, SameNear S R (m + q * (r.stepCount - st.stepCount)) i st.u st'.u → SameNear S R m i r.u r'.u

theorem Tracked.refl (S : Scheme K V) (R : Fin 3 → ℕ) (q : ℕ) (i : Ix) (st st' : ODEState K (Ix → V) Sn)
    (ht : st.t = st'.t) (hc : st.stepCount = st'.stepCount) : Tracked S R q i st st' st st' :=
  ⟨ht, hc, le_rfl, fun m h => h.mono (by omega)⟩

theorem Tracked.trans {S : Scheme K V} {R : Fin 3 → ℕ} {q : ℕ} {i : Ix} {a a' b b' c c' : ODEState K (Ix → V) Sn}
    (h : Tracked S R q i a a' b b') (h' : Tracked S R q i b b' c c') : Tracked S R q i a a' c c' := by
  obtain ⟨-, -, h3, h4⟩ := h
  obtain ⟨k1, k2, k3, k4⟩ := h'
  refine ⟨k1, k2, h3.trans k3, fun m hm => k4 m (h4 _ (hm.mono ?_))⟩
  have : c.stepCount - a.stepCount = (c.stepCount - b.stepCount) + (b.stepCount - a.stepCount) := by omega
  rw [this, Nat.mul_add]
  omega

theorem LooksAway.takeStep {S : Scheme K V} {R : Fin 3 → ℕ} {x : K} {f : RHS K (Ix → V)} (hf : LooksAway S R x f)
    (i : Ix) (I : Integrator) {st st' r r' : ODEState K (Ix → V) Sn} (ht : st.t = st'.t)
    (hc : st.stepCount = st'.stepCount) {target : Option K} (e : st.takeStep (stepper f I) target = (r, none))
    (e' : st'.takeStep (stepper f I) target = (r', none)) : Tracked S R (evaluations I) i st st' r r' := by
  unfold ODEState.takeStep at e e'
  rw [← ht] at e'
  cases q : stepper f I st.t st.u target with
  | error x => rw [q] at e; cases e
  | ok y =>
    cases q' : stepper f I st.t st'.u target with
    | error x => rw [q'] at e'; cases e'
    | ok y' =>
      rw [q] at e
      rw [q'] at e'
      cases e
      cases e'
      obtain ⟨dt, w⟩ := y
      obtain ⟨dt', w'⟩ := y'
      refine ⟨?_, ?_, Nat.le_succ _, fun m hm => hf.step I ?_ q q'⟩
      · show st.t + dt = st.t + dt'
        rw [hf.dt I q, hf.dt I q']
      · show st.stepCount + 1 = st'.stepCount + 1
        rw [hc]
      · refine hm.mono ?_
        show m + evaluations I ≤ m + evaluations I * (st.stepCount + 1 - st.stepCount)
        rw [Nat.add_sub_cancel_left, mul_one]

theorem LooksAway.takeSteps {S : Scheme K V} {R : Fin 3 → ℕ} {x : K} {f : RHS K (Ix → V)} (hf : LooksAway S R x f)
    (i : Ix) (I : Integrator) (N : ℕ) {st st' r r' : ODEState K (Ix → V) Sn} (ht : st.t = st'.t)
    (hc : st.stepCount = st'.stepCount) (e : st.takeSteps (stepper f I) N = (r, none))
    (e' : st'.takeSteps (stepper f I) N = (r', none)) : Tracked S R (evaluations I) i st st' r r' := by
  induction N generalizing st st' with
  | zero =>
    cases e
    cases e'
    exact Tracked.refl _ _ _ _ _ _ ht hc
  | succ N ih =>
    unfold ODEState.takeSteps at e e'
    rcases q : st.takeStep (stepper f I) none with ⟨s1, _ | x⟩
    · rcases q' : st'.takeStep (stepper f I) none with ⟨s1', _ | x'⟩
      · rw [q] at e
        rw [q'] at e'
        have h1 := hf.takeStep i I ht hc q q'
        exact h1.trans (ih h1.1 h1.2.1 e e')
      · rw [q'] at e'
        cases e'
    · rw [q] at e
      cases e

theorem LooksAway.loop {S : Scheme K V} {R : Fin 3 → ℕ} {x : K} {f : RHS K (Ix → V)} (hf : LooksAway S R x f)
    (i : Ix) (I : Integrator) (mk : ODEState K (Ix → V) Sn → Sn) (T : K) (lg : Bool) (fuel : ℕ) (target : Option K)
    (ds : List K) {st st' r r' : ODEState K (Ix → V) Sn} (ht : st.t = st'.t) (hc : st.stepCount = st'.stepCount)
    (e : st.loop (stepper f I) mk T lg fuel target ds = some (r, none))
    (e' : st'.loop (stepper f I) mk T lg fuel target ds = some (r', none)) : Tracked S R (evaluations I) i st st' r r' := by
  induction fuel generalizing target ds st st' with
  | zero => cases e
  | succ fuel ih =>
    unfold ODEState.loop at e e'
    rw [← ht] at e'
    by_cases hT : st.t < T
    swap
    · rw [if_neg hT] at e e'
      cases e
      cases e'
      exact Tracked.refl _ _ _ _ _ _ ht hc
    rw [if_pos hT] at e e'
    rcases q : st.takeStep (stepper f I) target with ⟨s1, _ | x⟩
    swap
    · rw [q] at e
      cases e
    rcases q' : st'.takeStep (stepper f I) target with ⟨s1', _ | x'⟩
    swap
    · rw [q'] at e'
      cases e'
    rw [q] at e
    rw [q'] at e'
    have h1 := hf.takeStep i I ht hc q q'
    dsimp only at e e'
    rw [← h1.1] at e'
    have snap : Tracked S R (evaluations I) i st st' (s1.snapshot mk) (s1'.snapshot mk) := h1
    by_cases hs : target = some s1.t ∨ T ≤ s1.t ∨ lg = true
    · rw [if_pos hs] at e e'
      cases ds with
      | nil => exact snap.trans (ih _ _ snap.1 snap.2.1 e e')
      | cons d ds =>
        dsimp only at e e'
        by_cases hd : target = some s1.t
        · rw [if_pos hd] at e e'
          exact snap.trans (ih _ _ snap.1 snap.2.1 e e')
        · rw [if_neg hd] at e e'
          exact snap.trans (ih _ _ snap.1 snap.2.1 e e')
    · rw [if_neg hs] at e e'
      exact h1.trans (ih _ _ h1.1 h1.2.1 e e')

theorem LooksAway.integrate {S : Scheme K V} {R : Fin 3 → ℕ} {x : K} {f : RHS K (Ix → V)} (hf : LooksAway S R x f)
    (i : Ix) (I : Integrator) (mk : ODEState K (Ix → V) Sn → Sn) (fuel : ℕ) (a : IntegrateArgs K Sn)
    {st st' r r' : ODEState K (Ix → V) Sn} (ht : st.t = st'.t) (hc : st.stepCount = st'.stepCount)
    (e : st.integrate (stepper f I) mk fuel a = some (r, none))
    (e' : st'.integrate (stepper f I) mk fuel a = some (r', none)) : Tracked S R (evaluations I) i st st' r r' := by
  obtain ⟨T, n, ex, ds, lg, saved⟩ := a
  cases T with
  | none =>
    unfold ODEState.integrate at e e'
    dsimp only at e e'
    unfold ODEState.integrateN at e e'
    dsimp only at e e'
    cases n with
    | none => cases e
    | some n =>
      dsimp only at e e'
      rcases q : (st.snapshot mk).takeSteps (stepper f I) n with ⟨s1, _ | x⟩
      swap
      · rw [q] at e
        cases e
      rcases q' : (st'.snapshot mk).takeSteps (stepper f I) n with ⟨s1', _ | x'⟩
      swap
      · rw [q'] at e'
        cases e'
      rw [q] at e
      rw [q'] at e'
      cases e
      cases e'
      have h1 := hf.takeSteps i I n (st := st.snapshot mk) (st' := st'.snapshot mk) ht hc q q'
      exact h1
  | some T =>
    unfold ODEState.integrate at e e'
    dsimp only at e e'
    cases saved with
    | some l =>
      cases e
      cases e'
      exact Tracked.refl _ _ _ _ st st' ht hc
    | none =>
      dsimp only at e e'
      unfold ODEState.integrateT at e e'
      cases ex with
      | true =>
        simp only [if_true] at e e'
        cases hk : keyTimes ds T with
        | nil => rw [hk] at e; cases e
        | cons d l =>
          rw [hk] at e e'
          exact hf.loop i I mk T lg fuel _ _ (st := st.snapshot mk) (st' := st'.snapshot mk) ht hc e e'
      | false =>
        simp only [Bool.false_eq_true, if_false] at e e'
        exact hf.loop i I mk T lg fuel _ _ (st := st.snapshot mk) (st' := st'.snapshot mk) ht hc e e'

end general

variable {np : ℕ}

/-- How far one evaluation of the right-hand side looks along an axis, without and with limiting. -/
def evalReach (c : EulerConfig K np) : Option (LimiterOpts K) → Fin 3 → ℕ
  | none => reach c.scheme
  | some o => limitReach c o

theorem solver_looksAway (c : EulerConfig K np) (o : Option (LimiterOpts K)) (hw : WellPosed (c.limited o).scheme)
    (ho : Workable c o) (hm : ∀ o', o = some o' → o'.mode = "local") (x : K) (hx : c.fixedDt = some x)
    (f : RHS K (Ix → State K np)) (hf : IsSolverRHS (c.limited o).scheme f) :
    LooksAway c.scheme (evalReach c o) x f where
  fixed s t u dt k e := by
    obtain ⟨junk, mem, q⟩ := hf s t u
    rw [q] at e
    exact rhs_fixed c o hw ho x hx junk mem s t u dt k e
  near s t u v i hi h k k' e e' := by
    obtain ⟨junk, mem, q⟩ := hf s t u
    obtain ⟨junk', mem', q'⟩ := hf s t v
    rw [q] at e
    rw [q'] at e'
    cases o with
    | none =>
      refine C53_domain_of_dependence (c.limited none).scheme rfl hw.degree hw.cells hw.ghosts.1 s t u v i hi
        (fun j hj => h j fun d => ?_) junk junk' mem mem' _ _ _ _ e e'
      obtain ⟨h1, h2, h3 | ⟨h3, m, h4⟩⟩ := hj d
      · exact ⟨h1, h2, 0, Or.inl rfl, by rw [zero_mul, add_zero]; exact h3⟩
      · exact ⟨h1, h2, m, Or.inr h3, h4⟩
    | some o =>
      exact C120_local c o (ho o rfl).1 (hm o rfl) (ho o rfl).2.1 hw s t u v i hi h junk junk' mem mem' x k k' e e'

/-- **C121** Signals travel at most `evaluations × reach` cells per time step: with a prescribed step size, without limiting or
with the "local" test, two calls of `integrate` with the same arguments that return, from objects with the same clock and step
count whose states agree within `N × evaluations × reach` of a cell, end at the same time after the same number of steps, and
if these are at most `N` the final states agree in that cell. -/
theorem C121_run (c : EulerConfig K np) (o : Option (LimiterOpts K)) (hw : WellPosed (c.limited o).scheme)
    (ho : Workable c o) (hm : ∀ o', o = some o' → o'.mode = "local") (x : K) (hx : c.fixedDt = some x)
    (f : RHS K (Ix → State K np)) (hf : IsSolverRHS (c.limited o).scheme f) (I : Integrator) {Sn : Type}
    (mk : ODEState K (Ix → State K np) Sn → Sn) (fuel : ℕ) (a : IntegrateArgs K Sn)
    (st st' r r' : ODEState K (Ix → State K np) Sn) (ht : st.t = st'.t) (hc : st.stepCount = st'.stepCount)
    (e : st.integrate (stepper f I) mk fuel a = some (r, none))
    (e' : st'.integrate (stepper f I) mk fuel a = some (r', none)) :
    r.t = r'.t ∧ r.stepCount = r'.stepCount ∧ ∀ N, r.stepCount ≤ st.stepCount + N → ∀ i, InCells c.n i →
      (∀ j, CellsAway c.scheme (fun d => N * evaluations I * evalReach c o d) i j → st.u j = st'.u j) → r.u i = r'.u i := by
  have hL := solver_looksAway c o hw ho hm x hx f hf
  obtain ⟨h1, h2, -, -⟩ := hL.integrate 0 I mk fuel a ht hc e e'
  refine ⟨h1, h2, fun N hN i hi h => ?_⟩
  obtain ⟨-, -, h3, h4⟩ := hL.integrate i I mk fuel a ht hc e e'
  refine h4 0 (fun j hj => h j (hj.mono fun d => ?_)) i (CellsAway.plain hi fun d => by
    rw [sub_self, abs_zero]
    exact Int.natCast_nonneg _)
  refine Nat.mul_le_mul_right _ ?_
  rw [zero_add, Nat.mul_comm N]
  exact Nat.mul_le_mul_left _ (by omega)

theorem one_euler_step (f : RHS K (Ix → State K np)) (u : Ix → State K np) (dt : K)
    (k : Ix → State K np) (e : f 0 0 u = .ok (dt, k)) :
    ∃ r : ODEState K (Ix → State K np) Unit, (ODEState.init u).integrate (stepper f .euler) (fun _ => ()) 0
      ⟨none, some 1, false, [], false, none⟩ = some (r, none) ∧ r.stepCount = 1 := by
  simp [ODEState.integrate, ODEState.integrateN, ODEState.takeSteps, ODEState.takeStep, stepper, eulerStepper, e,
    ODEState.snapshot, ODEState.init, bind, Except.bind, pure, Except.pure]

/-- One Euler step on the line of C120 with the "local" test: the density of cell 13 does not reach cell 2. -/
example (f : RHS ℚ (Ix → State ℚ 0)) (hf : IsSolverRHS (ringConfig.limited (some (ringLimiter "local"))).scheme f) :
    ∃ r r' : ODEState ℚ (Ix → State ℚ 0) Unit,
      (ODEState.init (ringState 1)).integrate (stepper f .euler) (fun _ => ()) 0 ⟨none, some 1, false, [], false, none⟩ =
        some (r, none) ∧
      (ODEState.init (ringState 1000)).integrate (stepper f .euler) (fun _ => ()) 0 ⟨none, some 1, false, [], false, none⟩ =
        some (r', none) ∧ r.u ![2, 0, 0] = r'.u ![2, 0, 0] := by
  have hw := ring_periodic.wellPosed (ringLimiter "local")
  have ho := ring_workable "local" (Or.inr rfl)
  have ret : ∀ x, ∃ dt k, f 0 0 (ringState x) = .ok (dt, k) := fun x => by
    obtain ⟨junk, mem, q⟩ := hf 0 0 (ringState x)
    obtain ⟨dt, k, e⟩ := rhs_returns ringConfig _ hw ho junk mem 0 0 (ringState x)
    exact ⟨dt, k, q.trans e⟩
  obtain ⟨dt, k, e⟩ := ret 1
  obtain ⟨dt', k', e'⟩ := ret 1000
  obtain ⟨r, g, hr⟩ := one_euler_step f _ _ _ e
  obtain ⟨r', g', -⟩ := one_euler_step f _ _ _ e'
  have e2 : (![2, 0, 0] : Ix) = ringAt 1 := by funext e; revert e; decide
  refine ⟨r, r', g, g', (C121_run ringConfig _ hw ho (fun o' h => by cases h; rfl) (1 / 4) rfl f hf .euler _ 0 _
    (ODEState.init (ringState 1)) (ODEState.init (ringState 1000)) r r' rfl rfl
    g g').2.2 1 (by rw [hr]; rfl) _ (e2 ▸ ring_cell 1) fun j hj => ring_agree "local" j (hj.mono fun d => ?_)⟩
  show 1 * 1 * limitReach ringConfig (ringLimiter "local") d ≤ _
  rw [one_mul, one_mul]

end FVHOE
