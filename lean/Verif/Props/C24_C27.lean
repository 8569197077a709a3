import Mathlib.Data.Rat.Defs
import Mathlib.Algebra.Order.Ring.Rat
import Mathlib.Tactic.NormNum
import Verif.Proofs.ODE

/-!
C24 (requested times are hit exactly), C25 (termination), C26 (bookkeeping), C27 (no backward
steps), all about `ODE.integrate`.
-/

set_option linter.unusedSectionVars false

namespace FVHOE

variable {K : Type} [Field K] [LinearOrder K] [IsStrictOrderedRing K]
variable {U : Type} [AddCommGroup U] [Module K U] {S : Type}

/-- The right-hand side only proposes positive time steps. -/
def PosDt (f : RHS K U) : Prop := ∀ s t u dt k, f s t u = .ok (dt, k) → 0 < dt

/-- The right-hand side only proposes time steps of at least `δ`. -/
def MinDt (δ : K) (f : RHS K U) : Prop := ∀ s t u dt k, f s t u = .ok (dt, k) → δ ≤ dt

theorem posStepper_of_posDt {f : RHS K U} (h : PosDt f) (m : Integrator) :
    PosStepper (stepper f m) := by
  intro t u target dt' u' hs
  obtain ⟨dt, k, hf, rfl⟩ := stepper_dt f m t u target dt' u' hs
  exact ⟨dt, h _ _ _ _ _ hf, rfl⟩

/-- Right-hand side used in the examples: constant proposal 1/3, du/dt = 1. -/
def exampleRHS : RHS ℚ ℚ := fun _ _ _ => .ok (1 / 3, 1)

private theorem exampleRHS_min : MinDt (1 / 3) exampleRHS := by
  intro s t u dt k h; simp [exampleRHS] at h; exact le_of_eq (by simpa using h.1)

private theorem exampleRHS_pos : PosDt exampleRHS := by
  intro s t u dt k h; exact lt_of_lt_of_le (by norm_num) (exampleRHS_min s t u dt k h)

/-- A state in the middle of a run at time 1/4, used in examples. -/
def exampleState : ODEState ℚ ℚ Unit := ⟨1 / 4, [0, 1 / 4], 1, 5, [()], [0]⟩

/-- C24. From a state at time `st.t`, `integrate(T, downbeats, exact=True)` with any of the four
integrators, any right-hand side with positive steps and requested times that are 0 or in the
future: if it returns, then the time is exactly `T`; the recorded snapshot times are the start
time followed by exactly the requested times up to `T` in strictly increasing order (every step if
`log_every_step`); the visited times increase strictly and contain every requested time, so none is
stepped over. -/
theorem C24_exact_output_times (f : RHS K U) (m : Integrator) (mk : ODEState K U S → S)
    (hf : PosDt f) (T : K) (downbeats : List K) (logEvery : Bool) (fuel : ℕ)
    (st st' : ODEState K U S) (h0 : 0 ≤ st.t) (hT : st.t < T)
    (hd : ∀ d ∈ downbeats, d = 0 ∨ st.t < d)
    (hrun : st.integrateT (stepper f m) mk T true downbeats logEvery fuel = some (st', none)) :
    st'.t = T ∧
    ∃ L M : List K,
      st'.timestamps = st.timestamps ++ L ∧
      st'.snapshotTimes = st.snapshotTimes ++ st.t :: M ∧
      (st.t :: L).Pairwise (· < ·) ∧ L.getLast? = some T ∧
      (∀ d ∈ downbeats, d ≠ 0 → d ≤ T → d ∈ L) ∧
      (logEvery = true → M = L) ∧
      (logEvery = false → M.Pairwise (· < ·) ∧
        ∀ x, x ∈ M ↔ x = T ∨ (x ∈ downbeats ∧ x ≠ 0 ∧ x ≤ T)) := by
  have hT0 : 0 < T := lt_of_le_of_lt h0 hT
  have hd0 : ∀ d ∈ downbeats, 0 ≤ d := by
    intro d hdm
    rcases hd d hdm with h | h
    · exact le_of_eq h.symm
    · exact le_of_lt (lt_of_le_of_lt h0 h)
  obtain ⟨hs, hmem⟩ := keyTimes_spec downbeats T hT0 hd0
  have hTm : T ∈ keyTimes downbeats T := (hmem T).2 ⟨ne_of_gt hT0, Or.inr rfl⟩
  unfold ODEState.integrateT at hrun
  simp only [if_true] at hrun
  cases hk : keyTimes downbeats T with
  | nil => rw [hk] at hTm; simp at hTm
  | cons g gs =>
    rw [hk] at hrun hs hmem hTm
    simp only at hrun
    have hg : st.t < g := by
      have := (hmem g).1 (by simp)
      rcases this.2 with h | h
      · rcases hd g h with h1 | h1
        · exact absurd h1 this.1
        · exact h1
      · rw [h]; exact hT
    obtain ⟨L, h1, h2, h3, h4, h5, _, h7⟩ :=
      loop_exact _ mk T logEvery (posStepper_of_posDt hf m) fuel g gs (st.snapshot mk) st' hs
        (by simpa [ODEState.snapshot] using hg) hTm hrun
    have e1 : (st.snapshot mk).t = st.t := rfl
    have e2 : (st.snapshot mk).timestamps = st.timestamps := rfl
    have e3 : (st.snapshot mk).snapshotTimes = st.snapshotTimes ++ [st.t] := rfl
    rw [e2] at h1
    rw [e3] at h7
    have hLne : L ≠ [] := by
      rintro rfl
      have hx : st.t = T := by simpa [e1] using h3
      rw [hx] at hT
      exact lt_irrefl _ hT
    refine ⟨h4, L, _, h1, by rw [h7]; simp; rfl, h2, ?_, ?_, ?_, ?_⟩
    · rw [List.getLast?_eq_some_getLast hLne]
      rw [List.getLast_cons hLne] at h3
      rw [h3]
    · intro d hdm hdz hdT
      exact h5 d ((hmem d).2 ⟨hdz, Or.inl hdm⟩) hdT
    · intro hl; simp [hl]
    · intro hl
      simp only [hl, Bool.false_eq_true, if_false]
      refine ⟨hs.sublist List.filter_sublist, fun x => ?_⟩
      rw [List.mem_filter, hmem x]
      constructor
      · rintro ⟨⟨a, b⟩, c⟩
        rcases b with b | b
        · right; exact ⟨b, a, by simpa using c⟩
        · left; exact b
      · rintro (h | ⟨a, b, c⟩)
        · subst h; exact ⟨⟨ne_of_gt hT0, Or.inr rfl⟩, by simp⟩
        · exact ⟨⟨b, Or.inl a⟩, by simpa using c⟩

/-- The hypotheses of C24 are met by a run from 1/4 to 1 with unsorted, repeated, past-`T` and
zero requested times. -/
example : PosDt exampleRHS ∧ 0 ≤ exampleState.t ∧ exampleState.t < 1 ∧
    (∀ d ∈ ([1 / 2, 2, 1 / 2, 0] : List ℚ), d = 0 ∨ exampleState.t < d) ∧
    ((exampleState.integrateT (stepper exampleRHS .rk4) (fun _ => ()) 1 true [1 / 2, 2, 1 / 2, 0]
      false 10).map (fun o => (o.1.snapshotTimes, o.2))) = some ([0, 1 / 4, 1 / 2, 1], none) := by
  refine ⟨exampleRHS_pos, ?_, ?_, ?_, ?_⟩
  · norm_num [exampleState]
  · norm_num [exampleState]
  · norm_num [exampleState]
  · decide +kernel

/-- C25. If every proposed step is at least `δ > 0` the time loop stops: for every natural number
`N ≥ (T - t)/δ`, `N + len(downbeats) + 2` loop iterations suffice, and at most
`N + len(downbeats) + 1` steps are taken. (`f` raising also ends the loop.) -/
theorem C25_terminates (f : RHS K U) (m : Integrator) (mk : ODEState K U S → S) (δ : K)
    (hδ : 0 < δ) (hf : MinDt δ f) (T : K) (downbeats : List K) (logEvery : Bool)
    (st : ODEState K U S) (h0 : 0 ≤ st.t) (hT : st.t < T)
    (hd : ∀ d ∈ downbeats, d = 0 ∨ st.t < d) (N : ℕ) (hN : T - st.t ≤ N * δ) (fuel : ℕ)
    (hfuel : N + downbeats.length + 2 ≤ fuel) :
    ∃ out, st.integrateT (stepper f m) mk T true downbeats logEvery fuel = some out ∧
      out.1.stepCount ≤ st.stepCount + N + downbeats.length + 1 := by
  have hT0 : 0 < T := lt_of_le_of_lt h0 hT
  have hd0 : ∀ d ∈ downbeats, 0 ≤ d := by
    intro d hdm
    rcases hd d hdm with h | h
    · exact le_of_eq h.symm
    · exact le_of_lt (lt_of_le_of_lt h0 h)
  obtain ⟨hs, hmem⟩ := keyTimes_spec downbeats T hT0 hd0
  have hTm : T ∈ keyTimes downbeats T := (hmem T).2 ⟨ne_of_gt hT0, Or.inr rfl⟩
  have hlen : (keyTimes downbeats T).length ≤ downbeats.length + 1 := by
    unfold keyTimes
    rw [List.length_tail, List.length_insertionSort]
    have := (List.dedup_sublist (0 :: (downbeats ++ [T]))).length_le
    simp at this
    omega
  unfold ODEState.integrateT
  simp only [if_true]
  cases hk : keyTimes downbeats T with
  | nil => rw [hk] at hTm; simp at hTm
  | cons g gs =>
    rw [hk] at hs hmem hTm hlen
    have hg : st.t < g := by
      have := (hmem g).1 (by simp)
      rcases this.2 with h | h
      · rcases hd g h with h1 | h1
        · exact absurd h1 this.1
        · exact h1
      · rw [h]; exact hT
    have hb : BoundedStepper δ (stepper f m) := by
      intro t u target dt' u' hs
      obtain ⟨dt, k, hf', rfl⟩ := stepper_dt f m t u target dt' u' hs
      exact ⟨dt, hf _ _ _ _ _ hf', rfl⟩
    simp at hlen
    obtain ⟨out, h1, h2⟩ := loop_terminates _ mk T logEvery δ hδ hb fuel N g gs (st.snapshot mk) hs
      (by simpa [ODEState.snapshot] using hg) hTm (by simpa [ODEState.snapshot] using hN)
      (by omega)
    refine ⟨out, h1, ?_⟩
    simp only [ODEState.snapshot] at h2
    omega

example : (0 : ℚ) < 1 / 3 ∧ MinDt (1 / 3) exampleRHS ∧
    (1 : ℚ) - exampleState.t ≤ (3 : ℕ) * (1 / 3) :=
  ⟨by norm_num, exampleRHS_min, by norm_num [exampleState]⟩

/-! ## C26: bookkeeping -/

/-- `timestamps` starts at 0, ends at the current time and has one more entry than steps taken. -/
def BookOK (st : ODEState K U S) : Prop :=
  st.timestamps.length = st.stepCount + 1 ∧ st.timestamps.head? = some 0 ∧
  st.timestamps.getLast? = some st.t

/-- `snapshots` and `snapshot_times` have one entry per snapshot. -/
def SnapOK (st : ODEState K U S) : Prop := st.snapshots.length = st.snapshotTimes.length

variable {stp : K → U → Option K → Except PyErr (K × U)} {mk : ODEState K U S → S}

/-- A predicate kept by `take_step` and `snapshot` is kept by the loop. -/
theorem loop_preserves (P : ODEState K U S → Prop)
    (h1 : ∀ st target, P st → P (st.takeStep stp target).1) (h2 : ∀ st, P st → P (st.snapshot mk))
    (T : K) (logEvery : Bool) (fuel : ℕ) : ∀ target ds (st : ODEState K U S) out, P st →
      ODEState.loop stp mk T logEvery fuel target ds st = some out → P out.1 := by
  induction fuel with
  | zero => intro target ds st out _ h; simp [ODEState.loop] at h
  | succ fuel ih =>
    intro target ds st out hP h
    unfold ODEState.loop at h
    split at h
    · have h1' := h1 st target hP
      generalize hts : st.takeStep stp target = r at h h1'
      obtain ⟨st1, e⟩ := r
      cases e with
      | some e => simp only [Option.some.injEq] at h; rw [← h]; exact h1'
      | none =>
        simp only at h h1'
        split at h
        · cases ds with
          | nil => exact ih _ _ _ _ (h2 _ h1') h
          | cons d ds =>
            simp only at h
            split at h
            · exact ih _ _ _ _ (h2 _ h1') h
            · exact ih _ _ _ _ (h2 _ h1') h
        · exact ih _ _ _ _ h1' h
    · simp only [Option.some.injEq] at h; rw [← h]; exact hP

theorem takeSteps_preserves (P : ODEState K U S → Prop)
    (h1 : ∀ st target, P st → P (st.takeStep stp target).1) (n : ℕ) :
    ∀ st : ODEState K U S, P st → P (st.takeSteps stp n).1 := by
  induction n with
  | zero => intro st h; exact h
  | succ n ih =>
    intro st h
    unfold ODEState.takeSteps
    have h1' := h1 st none h
    generalize st.takeStep stp none = r at h1'
    obtain ⟨st1, e⟩ := r
    cases e with
    | some e => exact h1'
    | none => exact ih _ h1'

/-- A predicate kept by `take_step`, `snapshot` and reading saved snapshots is kept by
`integrate`, whatever the arguments and whether or not it raises. -/
theorem integrate_preserves (P : ODEState K U S → Prop)
    (h1 : ∀ st target, P st → P (st.takeStep stp target).1) (h2 : ∀ st, P st → P (st.snapshot mk))
    (fuel : ℕ) (a : IntegrateArgs K S)
    (h3 : ∀ st l, a.saved = some l → a.T ≠ none → P st → P { st with snapshots := l })
    (st : ODEState K U S) (out) (hP : P st) (h : st.integrate stp mk fuel a = some out) :
    P out.1 := by
  unfold ODEState.integrate at h
  cases hT : a.T with
  | none =>
    simp only [hT, Option.some.injEq] at h
    rw [← h]
    unfold ODEState.integrateN
    cases a.n with
    | none => exact h2 _ hP
    | some n =>
      have := takeSteps_preserves P h1 n _ (h2 _ hP)
      simp only
      generalize (st.snapshot mk).takeSteps stp n = r at this
      obtain ⟨st1, e⟩ := r
      cases e with
      | some e => exact this
      | none => exact h2 _ this
  | some T =>
    simp only [hT] at h
    cases hs : a.saved with
    | some l =>
      simp only [hs, Option.some.injEq] at h
      rw [← h]
      exact h3 st l hs (by simp [hT]) hP
    | none =>
      simp only [hs] at h
      unfold ODEState.integrateT at h
      split at h
      · cases hk : keyTimes a.downbeats T with
        | nil => simp only [hk, Option.some.injEq] at h; rw [← h]; exact hP
        | cons d ds =>
          simp only [hk] at h
          exact loop_preserves P h1 h2 T _ fuel _ _ _ _ (h2 _ hP) h
      · exact loop_preserves P h1 h2 T _ fuel _ _ _ _ (h2 _ hP) h

/-- A predicate kept by `snapshot` and by steps that do not start at or after their target is kept by
a loop whose targets lie ahead. -/
theorem loop_preserves_fwd (hpos : PosStepper stp) (P : ODEState K U S → Prop)
    (h1 : ∀ st target, (∀ g, target = some g → st.t < g) → P st → P (st.takeStep stp target).1)
    (h2 : ∀ st, P st → P (st.snapshot mk)) (T : K) (logEvery : Bool) (fuel : ℕ) :
    ∀ target ds (st : ODEState K U S) out,
      (∀ g, target = some g → (g :: ds).Pairwise (· < ·) ∧ (st.t < T → st.t < g) ∧
        (g < T → T ∈ ds)) → P st →
      ODEState.loop stp mk T logEvery fuel target ds st = some out → P out.1 := by
  induction fuel with
  | zero => intro target ds st out _ _ h; simp [ODEState.loop] at h
  | succ fuel ih =>
    intro target ds st out hg hP h
    unfold ODEState.loop at h
    split at h
    · rename_i htT
      have h1' := h1 st target (fun g e => (hg g e).2.1 htT) hP
      have ht1 : ∀ g, target = some g → (st.takeStep stp target).2 = none →
          (st.takeStep stp target).1.t ≤ g := by
        intro g e hok
        unfold ODEState.takeStep at hok ⊢
        cases hs : stp st.t st.u target with
        | error e => simp [hs] at hok
        | ok r =>
          obtain ⟨dt, _, hdt⟩ := hpos st.t st.u target r.1 r.2 hs
          subst e
          simp only [hdt]
          exact hitTarget_le _ _ _
      generalize hts : st.takeStep stp target = r at h h1' ht1
      obtain ⟨st1, e⟩ := r
      cases e with
      | some e => simp only [Option.some.injEq] at h; rw [← h]; exact h1'
      | none =>
        simp only at h h1' ht1
        have stay : ¬ (target = some st1.t) → ∀ g, target = some g →
            (g :: ds).Pairwise (· < ·) ∧ (st1.t < T → st1.t < g) ∧ (g < T → T ∈ ds) := by
          intro hne g e
          refine ⟨(hg g e).1, fun _ => lt_of_le_of_ne (ht1 g e trivial) ?_, (hg g e).2.2⟩
          intro h'; exact hne (by rw [e, h'])
        split at h
        · cases ds with
          | nil =>
            refine ih _ _ _ _ ?_ (h2 _ h1') h
            intro g e
            refine ⟨(hg g e).1, fun hlt => lt_of_lt_of_le hlt ?_, (hg g e).2.2⟩
            by_contra hc
            have := (hg g e).2.2 (not_le.1 hc)
            simp at this
          | cons d ds =>
            simp only at h
            split at h
            · rename_i hhit
              refine ih _ _ _ _ ?_ (h2 _ h1') h
              intro g e
              obtain ⟨hs, _, hm⟩ := hg _ hhit
              cases e
              refine ⟨(List.pairwise_cons.1 hs).2, fun _ => ?_, fun hdT => ?_⟩
              · exact List.rel_of_pairwise_cons hs (by simp)
              · have := hm (lt_trans (List.rel_of_pairwise_cons hs (by simp)) hdT)
                rcases List.mem_cons.1 this with h' | h'
                · exact absurd h' (ne_of_gt hdT)
                · exact h'
            · rename_i hne
              exact ih _ _ (st1.snapshot mk) _ (stay hne) (h2 _ h1') h
        · rename_i hne
          exact ih _ _ _ _ (stay (fun h' => hne (Or.inl h'))) h1' h
    · simp only [Option.some.injEq] at h; rw [← h]; exact hP

/-- The same for a whole call in either mode. -/
theorem integrateT_preserves_fwd (hpos : PosStepper stp) (P : ODEState K U S → Prop)
    (h1 : ∀ st target, (∀ g, target = some g → st.t < g) → P st → P (st.takeStep stp target).1)
    (h2 : ∀ st, P st → P (st.snapshot mk)) (T : K) (exact : Bool) (downbeats : List K)
    (logEvery : Bool) (fuel : ℕ) (st : ODEState K U S) (h0 : 0 ≤ st.t) (hT : st.t < T)
    (hd : ∀ d ∈ downbeats, d = 0 ∨ st.t < d) (out : Outcome K U S) (hP : P st)
    (h : st.integrateT stp mk T exact downbeats logEvery fuel = some out) : P out.1 := by
  have hT0 : 0 < T := lt_of_le_of_lt h0 hT
  have hd0 : ∀ d ∈ downbeats, 0 ≤ d := by
    intro d hdm
    rcases hd d hdm with h | h
    · exact le_of_eq h.symm
    · exact le_of_lt (lt_of_le_of_lt h0 h)
  obtain ⟨hs, hmem⟩ := keyTimes_spec downbeats T hT0 hd0
  have hTm : T ∈ keyTimes downbeats T := (hmem T).2 ⟨ne_of_gt hT0, Or.inr rfl⟩
  unfold ODEState.integrateT at h
  cases exact with
  | false =>
    simp only [Bool.false_eq_true, if_false] at h
    exact loop_preserves_fwd hpos P h1 h2 T logEvery fuel _ _ _ _ (by intro g e; cases e)
      (h2 _ hP) h
  | true =>
    simp only [if_true] at h
    cases hk : keyTimes downbeats T with
    | nil => rw [hk] at hTm; simp at hTm
    | cons g gs =>
      rw [hk] at h hs hmem hTm
      refine loop_preserves_fwd hpos P h1 h2 T logEvery fuel _ _ _ _ ?_ (h2 _ hP) h
      intro g' e
      cases e
      refine ⟨hs, fun _ => ?_, fun hgT => ?_⟩
      · have := (hmem g).1 (by simp)
        show st.t < g
        rcases this.2 with h | h
        · rcases hd g h with h1 | h1
          · exact absurd h1 this.1
          · exact h1
        · rw [h]; exact hT
      · rcases List.mem_cons.1 hTm with h' | h'
        · exact absurd h' (ne_of_gt hgT)
        · exact h'

/-- States reachable from a new object by any sequence of `integrate` calls, each with its own
integrator, right-hand side history, snapshot function and arguments, including calls that raise. -/
inductive Reachable (ok : IntegrateArgs K S → Prop) : ODEState K U S → Prop where
  | init (u0 : U) : Reachable ok (ODEState.init u0)
  | call (st : ODEState K U S) (stp : K → U → Option K → Except PyErr (K × U))
      (mk : ODEState K U S → S) (fuel : ℕ) (a : IntegrateArgs K S) (out : Outcome K U S) :
      Reachable ok st → ok a → st.integrate stp mk fuel a = some out → Reachable ok out.1

/-- C26 (times). After every history of `integrate` calls the time stamps start at 0, end at the
current time and number `step_count + 1`. -/
theorem C26_timestamps (st : ODEState K U S) (h : Reachable (fun _ => True) st) : BookOK st := by
  induction h with
  | init u0 => simp [BookOK, ODEState.init]
  | call st stp mk fuel a out _ _ hi ih =>
    refine integrate_preserves BookOK ?_ ?_ fuel a ?_ st out ih hi
    · intro st target h
      unfold ODEState.takeStep
      cases stp st.t st.u target with
      | error e => exact h
      | ok r =>
        obtain ⟨hl, hh, hg⟩ := h
        refine ⟨by simp [hl], ?_, by simp⟩
        simp only
        cases hts : st.timestamps with
        | nil => rw [hts] at hl; simp at hl
        | cons a as => rw [hts] at hh; simpa using hh
    · intro st h; exact h
    · intro st l _ _ h; exact h

/-- Each `take_step` that succeeds appends the old time plus the step size used. -/
theorem C26_step_sizes (st : ODEState K U S) (target : Option K) (dt : K) (u' : U)
    (h : stp st.t st.u target = .ok (dt, u')) :
    (st.takeStep stp target).1.timestamps = st.timestamps ++ [st.t + dt] ∧
    (st.takeStep stp target).1.t = st.t + dt ∧ (st.takeStep stp target).1.u = u' := by
  simp [ODEState.takeStep, h]

example : eulerStepper exampleRHS 0 5 none = .ok (1 / 3, 5 + (1 / 3 : ℚ) • 1) := rfl

/-- C26 (snapshots), partial: as long as no call reads a saved directory, `snapshots` and
`snapshot_times` have equal length. Missing: the read path, see `C26_read_breaks_snapshot_times`. -/
theorem C26_snapshots_partial (st : ODEState K U S)
    (h : Reachable (fun a => a.saved = none) st) : SnapOK st := by
  induction h with
  | init u0 => rfl
  | call st stp mk fuel a out _ ha hi ih =>
    refine integrate_preserves SnapOK ?_ ?_ fuel a ?_ st out ih hi
    · intro st target h
      unfold ODEState.takeStep
      cases stp st.t st.u target with
      | error e => exact h
      | ok r => exact h
    · intro st h; simpa [SnapOK, ODEState.snapshot] using h
    · intro st l hs _ _; rw [ha] at hs; cases hs

example : Reachable (K := ℚ) (U := ℚ) (S := Unit) (fun a => a.saved = none)
    ((ODEState.init (5 : ℚ) : ODEState ℚ ℚ Unit).integrateN (stepper exampleRHS .euler)
      (fun _ => ()) (some 3)).1 :=
  .call _ (stepper exampleRHS .euler) (fun _ => ()) 0 ⟨none, some 3, true, [], false, none⟩ _
    (.init 5) rfl rfl

/-- C26 is violated when snapshots are read back: `integrate` with an existing `snapshot_dir`
replaces `snapshots` but leaves `snapshot_times` empty (solver.py 882-886). -/
theorem C26_read_breaks_snapshot_times :
    ¬ ∀ st : ODEState ℚ ℚ Unit, Reachable (fun _ => True) st → SnapOK st := by
  intro h
  have := h _ (.call (ODEState.init 5) (stepper exampleRHS .euler) (fun _ => ()) 0
    ⟨some 1, none, true, [], false, some [(), ()]⟩ _ (.init 5) trivial rfl)
  simp [SnapOK, ODEState.init] at this

/-! ## C27: no backward steps -/

/-- C27, full claim: with a right-hand side that only proposes positive steps, an `integrate` call
that returns only appends increasing times. -/
def NeverStepsBack (K U S : Type) [Field K] [LinearOrder K] [AddCommGroup U] [Module K U] : Prop :=
  ∀ (f : RHS K U) (m : Integrator) (mk : ODEState K U S → S), (∀ s t u dt k, f s t u = .ok (dt, k) → 0 < dt) →
    ∀ (fuel : ℕ) (a : IntegrateArgs K S) (st : ODEState K U S) (out : Outcome K U S),
      Reachable (fun _ => True) st → st.timestamps.Pairwise (· < ·) →
      st.integrate (stepper f m) mk fuel a = some out → out.1.timestamps.Pairwise (· < ·)

/-- C27 is violated: run to `T = 2`, then call `integrate(T=3, downbeats=[1])`; the second call
first steps back from 2 to 1. -/
theorem C27_violated : ¬ NeverStepsBack ℚ ℚ Unit := by
  intro h
  let f : RHS ℚ ℚ := fun _ _ _ => .ok (2, 0)
  have hf : ∀ s t u dt k, f s t u = .ok (dt, k) → 0 < dt := by
    intro s t u dt k h; simp [f] at h; rw [← h.1]; norm_num
  let st2 : ODEState ℚ ℚ Unit := ⟨2, [0, 2], 1, 5, [(), ()], [0, 2]⟩
  have e1 : (ODEState.init (5 : ℚ) : ODEState ℚ ℚ Unit).integrate (stepper f .euler) (fun _ => ())
      5 ⟨some 2, none, true, [], false, none⟩ = some (st2, none) := by
    decide +kernel
  have r2 : Reachable (fun _ => True) st2 := by
    have := Reachable.call _ (stepper f .euler) (fun _ => ()) 5
      ⟨some 2, none, true, [], false, none⟩ _
      (Reachable.init (K := ℚ) (S := Unit) (ok := fun _ => True) (5 : ℚ)) trivial e1
    exact this
  let st3 : ODEState ℚ ℚ Unit := ⟨3, [0, 2, 1, 3], 3, 5, [(), (), (), (), ()], [0, 2, 2, 1, 3]⟩
  have e2 : st2.integrate (stepper f .euler) (fun _ => ()) 5
      ⟨some 3, none, true, [1], false, none⟩ = some (st3, none) := by
    decide +kernel
  have := h f .euler (fun _ => ()) hf 5 _ st2 _ r2 (by decide +kernel) e2
  revert this
  decide +kernel

/-- C27, partial: time strictly increases over a whole exact-mode call whenever every requested
time is 0 or later than the current time. Missing: requested times in the past (see
`C27_violated`). -/
theorem C27_no_backward_steps_partial (f : RHS K U) (m : Integrator) (mk : ODEState K U S → S)
    (hf : PosDt f) (T : K) (downbeats : List K) (logEvery : Bool) (fuel : ℕ)
    (st st' : ODEState K U S) (h0 : 0 ≤ st.t) (hT : st.t < T)
    (hd : ∀ d ∈ downbeats, d = 0 ∨ st.t < d)
    (hinc : st.timestamps.Pairwise (· < ·)) (hlast : st.timestamps.getLast? = some st.t)
    (hrun : st.integrateT (stepper f m) mk T true downbeats logEvery fuel = some (st', none)) :
    st'.timestamps.Pairwise (· < ·) := by
  obtain ⟨_, L, M, h1, _, h3, _⟩ :=
    C24_exact_output_times f m mk hf T downbeats logEvery fuel st st' h0 hT hd hrun
  rw [h1]
  refine List.pairwise_append.2 ⟨hinc, (List.pairwise_cons.1 h3).2, ?_⟩
  intro a ha b hb
  have hab : a ≤ st.t := by
    obtain ⟨pre, hpre⟩ : ∃ pre, st.timestamps = pre ++ [st.t] := by
      rw [List.getLast?_eq_some_iff] at hlast; exact hlast
    rw [hpre] at ha hinc
    rcases List.mem_append.1 ha with h | h
    · exact le_of_lt ((List.pairwise_append.1 hinc).2.2 a h st.t (by simp))
    · exact le_of_eq (by simpa using h)
  exact lt_of_le_of_lt hab (List.rel_of_pairwise_cons h3 hb)

example : exampleState.timestamps.Pairwise (· < ·) ∧
    exampleState.timestamps.getLast? = some exampleState.t := by
  constructor
  · decide +kernel
  · rfl

end FVHOE
