import Verif.Proofs.Float
import Verif.Proofs.FloatLoop
import Verif.Proofs.ODE

/-!
C91. Output times are met exactly in floating-point arithmetic.

`Format.fl` rounds to the nearest number of a binary format (`C91_rounding`); the loop of `integrate` is run with times that
are rounded after every addition and subtraction (`Verif/Model/FloatTime.lean`). Without rounding it is the loop of the other
theorems (`C91_exact`).
-/

set_option linter.unusedSectionVars false

namespace FVHOE

/-! ### Rounding -/

/-- `fl x` is a number of the format, no number of the format is nearer to `x`, and of two numbers that are equally near
it is the one that is an even multiple of the last bit around `x`. -/
theorem C91_rounding (F : Format) (hp : 1 ≤ F.p) (x : ℚ) :
    F.Has (F.fl x) ∧ (∀ y, F.Has y → |F.fl x - x| ≤ |y - x|) ∧
    ∀ m : ℤ, m % 2 = 0 → |x - m * 2 ^ F.lastBit x| ≤ 1 / 2 * 2 ^ F.lastBit x → F.fl x = m * 2 ^ F.lastBit x :=
  ⟨F.fl_has x, fun _ hy => F.fl_le hp x hy, fun m hm h => F.fl_even rfl m hm h⟩

/-- The doubles next to 0.1, 0.2, 0.3 and 0.9. -/
def d01 : ℚ := 3602879701896397 / 36028797018963968
def d02 : ℚ := 3602879701896397 / 18014398509481984
def d03 : ℚ := 5404319552844595 / 18014398509481984
def d09 : ℚ := 8106479329266893 / 9007199254740992

/-- They are what rounding gives, and `0.1 + 0.2 == 0.30000000000000004`. -/
example : double.fl (1 / 10) = d01 ∧ double.fl (2 / 10) = d02 ∧ double.fl (3 / 10) = d03 ∧ double.fl (9 / 10) = d09 ∧
    double.fl (d01 + d02) = d03 + 1 / 2 ^ 54 := by
  decide +kernel

/-! ### The loop without rounding -/

section exact

variable {K : Type} [Field K] [LinearOrder K] [IsStrictOrderedRing K]
variable {U : Type} [AddCommGroup U] [Module K U] {S : Type}

/-- The steppers of ode.py 248-297, split at `_hit_target`. -/
def proposal (f : RHS K U) (m : Integrator) : Proposal K U := fun t u => do
  let (dt0, k0) ← f t t u
  return (dt0, fun dt => match m with
    | .euler => .ok (u + dt • k0)
    | .ssprk2 => do
      let u1 := u + dt • k0
      let (_, k1) ← f t t u1
      return (1 / 2 : K) • u + (1 / 2 : K) • (u1 + dt • k1)
    | .ssprk3 => do
      let (_, k1) ← f t (t + dt) (u + dt • k0)
      let (_, k2) ← f t (t + (1 / 2 : K) * dt) (u + ((1 / 4 : K) * dt) • k0 + ((1 / 4 : K) * dt) • k1)
      return u + ((1 / 6 : K) * dt) • (k0 + k1 + (4 : K) • k2)
    | .rk4 => do
      let (_, k1) ← f t (t + (1 / 2 : K) * dt) (u + ((1 / 2 : K) * dt) • k0)
      let (_, k2) ← f t (t + (1 / 2 : K) * dt) (u + ((1 / 2 : K) * dt) • k1)
      let (_, k3) ← f t (t + dt) (u + dt • k2)
      return u + ((1 / 6 : K) * dt) • (k0 + (2 : K) • k1 + (2 : K) • k2 + k3))

theorem hitTargetWith_exact (t dt : K) (target : Option K) : hitTargetWith (exactOps K) t dt target = hitTarget t dt target := by
  cases target <;> rfl

theorem takeStepWith_exact (f : RHS K U) (m : Integrator) (st : ODEState K U S) (target : Option K) :
    st.takeStepWith (exactOps K) (proposal f m) target = st.takeStep (stepper f m) target := by
  unfold ODEState.takeStepWith ODEState.takeStep proposal
  cases hf : f st.t st.t st.u with
  | error e => cases m <;> simp [stepper, eulerStepper, ssprk2Stepper, ssprk3Stepper, rk4Stepper, hf, bind, Except.bind]
  | ok r =>
    obtain ⟨dt0, k0⟩ := r
    simp only [bind, Except.bind, pure, Except.pure, hitTargetWith_exact]
    cases m with
    | euler => simp [stepper, eulerStepper, hf, bind, Except.bind, pure, Except.pure, exactOps]
    | ssprk2 =>
      simp only [stepper, ssprk2Stepper, hf, bind, Except.bind, pure, Except.pure, exactOps]
      cases f st.t st.t (st.u + hitTarget st.t dt0 target • k0) <;> rfl
    | ssprk3 =>
      simp only [stepper, ssprk3Stepper, hf, bind, Except.bind, pure, Except.pure, exactOps]
      cases h1 : f st.t (st.t + hitTarget st.t dt0 target) (st.u + hitTarget st.t dt0 target • k0) with
      | error e => rfl
      | ok r1 =>
        simp only
        generalize f st.t _ _ = r2
        cases r2 <;> rfl
    | rk4 =>
      simp only [stepper, rk4Stepper, hf, bind, Except.bind, pure, Except.pure, exactOps]
      generalize f st.t _ (st.u + ((1 / 2 : K) * hitTarget st.t dt0 target) • k0) = r1
      cases r1 with
      | error e => rfl
      | ok r1 =>
        simp only
        generalize f st.t _ (st.u + ((1 / 2 : K) * hitTarget st.t dt0 target) • r1.2) = r2
        cases r2 with
        | error e => rfl
        | ok r2 =>
          simp only
          generalize f st.t _ _ = r3
          cases r3 <;> rfl

theorem loopWith_exactOps (f : RHS K U) (m : Integrator) (mk : ODEState K U S → S) (T : K) (logEvery : Bool) (fuel : ℕ) :
    ∀ (target : Option K) (ds : List K) (st : ODEState K U S),
      ODEState.loopWith (exactOps K) (proposal f m) mk T logEvery fuel target ds st =
        ODEState.loop (stepper f m) mk T logEvery fuel target ds st := by
  induction fuel with
  | zero => intros; rfl
  | succ fuel ih =>
    intro target ds st
    unfold ODEState.loopWith ODEState.loop
    rw [takeStepWith_exact]
    split
    · rcases st.takeStep (stepper f m) target with ⟨st1, _ | e⟩
      · simp only [ih]
        cases ds <;> rfl
      · rfl
    · rfl

/-- **C91** (link). Without rounding the loop is that of `ODEState.integrateT`, with any of the four integrators. -/
theorem C91_exact (f : RHS K U) (m : Integrator) (mk : ODEState K U S → S) (T : K) (downbeats : List K) (logEvery : Bool)
    (fuel : ℕ) (st : ODEState K U S) :
    st.integrateWith (exactOps K) (proposal f m) mk T downbeats logEvery fuel =
      st.integrateT (stepper f m) mk T true downbeats logEvery fuel := by
  unfold ODEState.integrateWith ODEState.integrateT keyTimes
  simp only [if_true, loopWith_exactOps]
  rfl

end exact

/-! ### One step -/

/-- **C91** (one step). The step that `_hit_target` shortens arrives exactly: from zero; from the second half of the way;
and from every earlier time when the target can be written with one bit less than the format has. -/
theorem C91_hit (F : Format) (hp : 2 ≤ F.p) (t T : ℚ) (ht : F.Has t) (hT : F.Has T) (h0 : 0 ≤ t) (htT : t ≤ T)
    (h : t = 0 ∨ T / 2 ≤ t ∨ ∃ n e : ℤ, T = n * 2 ^ e ∧ |n| ≤ 2 ^ (F.p - 1) ∧ F.emin ≤ e) :
    F.ops.add t (F.ops.sub T t) = T := by
  rcases h with rfl | h | h
  · exact F.hit_zero (by omega) hT
  · exact F.hit_near (by omega) ht hT h htT
  · exact F.hit_short hp ht h0 htT h

/-- From the double 0.3 the double 0.6 is reached, as half of the way is done, and 1 from both. -/
example : double.ops.add d03 (double.ops.sub (2 * d03) d03) = 2 * d03 ∧ double.ops.add d03 (double.ops.sub 1 d03) = 1 :=
  ⟨C91_hit double (by decide) _ _ ⟨5404319552844595, -54, by norm_num [d03], by decide, by decide⟩
      ⟨5404319552844595, -53, by norm_num [d03], by decide, by decide⟩ (by norm_num [d03]) (by norm_num [d03])
      (Or.inr (Or.inl (by norm_num [d03]))),
    C91_hit double (by decide) _ _ ⟨5404319552844595, -54, by norm_num [d03], by decide, by decide⟩
      ⟨1, 0, by norm_num, by decide, by decide⟩ (by norm_num [d03]) (by norm_num [d03])
      (Or.inr (Or.inr ⟨1, 0, by norm_num, by decide, by decide⟩))⟩

/-- The double 0.9 is not reached from the double 0.3: the sum is the next double. -/
theorem C91_hit_violated : double.Has d03 ∧ double.Has d09 ∧
    double.ops.add d03 (double.ops.sub d09 d03) = d09 + 1 / 2 ^ 53 := by
  refine ⟨⟨5404319552844595, -54, by norm_num [d03], by decide, by decide⟩,
    ⟨8106479329266893, -53, by norm_num [d09], by decide, by decide⟩, ?_⟩
  decide +kernel

/-! ### Runs -/

variable {U S : Type}

/-- The proposed steps are positive numbers of the format, at most `H`. -/
def FloatSteps (F : Format) (prop : Proposal ℚ U) (H : ℚ) : Prop :=
  ∀ t u dt go, prop t u = .ok (dt, go) → F.Has dt ∧ 0 < dt ∧ dt ≤ H

/-- A time that is safe to ask for: one that leaves a bit unused, or one of at least twice the largest step. -/
def SafeTime (F : Format) (H : ℚ) (g : ℚ) : Prop :=
  F.Has g ∧ ((∃ n e : ℤ, g = n * 2 ^ e ∧ |n| ≤ 2 ^ (F.p - 1) ∧ F.emin ≤ e) ∨ 2 * H ≤ g)

theorem stepsOK_float (F : Format) (hp : 2 ≤ F.p) (prop : Proposal ℚ U) (H : ℚ) (hprop : FloatSteps F prop H) :
    StepsOK F.ops prop (fun t => F.Has t ∧ 0 ≤ t) (SafeTime F H) := by
  intro t u dt go g ⟨ht, h0⟩ htg ⟨hg, hsafe⟩ hs
  have hp1 : 1 ≤ F.p := by omega
  obtain ⟨hdt, hpos, hH⟩ := hprop t u dt go hs
  have hnn : 0 ≤ F.fl (g - t) := by
    have := F.fl_mono hp1 (show (0 : ℚ) ≤ g - t by linarith)
    rwa [F.fl_eq hp1 F.has_zero] at this
  have hback (d : ℚ) (hd : 0 ≤ d) : t ≤ F.fl (t + d) := by
    have := F.fl_mono hp1 (show t ≤ t + d by linarith)
    rwa [F.fl_eq hp1 ht] at this
  -- either the step arrives exactly, or the proposal is too short to be cut
  have key : F.fl (t + F.fl (g - t)) = g ∨ (dt ≤ F.fl (g - t) ∧ t + dt ≤ g) := by
    rcases hsafe with hsafe | hsafe
    · exact Or.inl (F.hit_short hp ht h0 htg.le hsafe)
    · by_cases hh : g / 2 ≤ t
      · exact Or.inl (F.hit_near hp1 ht hg hh htg.le)
      · have hle : dt ≤ g - t := by linarith [not_le.1 hh]
        refine Or.inr ⟨?_, by linarith⟩
        have := F.fl_mono hp1 hle
        rwa [F.fl_eq hp1 hdt] at this
  show (F.Has (F.fl (t + hitTargetWith F.ops t dt (some g))) ∧ 0 ≤ F.fl (t + hitTargetWith F.ops t dt (some g))) ∧
    t ≤ F.fl (t + hitTargetWith F.ops t dt (some g)) ∧ F.fl (t + hitTargetWith F.ops t dt (some g)) ≤ g
  have hcase : hitTargetWith F.ops t dt (some g) = F.fl (g - t) ∧ F.fl (g - t) < dt ∨
      hitTargetWith F.ops t dt (some g) = dt ∧ dt ≤ F.fl (g - t) := by
    by_cases h : F.fl (g - t) < dt
    · exact Or.inl ⟨by simp [hitTargetWith, Format.ops, h], h⟩
    · exact Or.inr ⟨by simp [hitTargetWith, Format.ops, h], not_lt.1 h⟩
  rcases hcase with ⟨he, hlt⟩ | ⟨he, hle⟩
  · rw [he]
    have h1 := hback _ hnn
    refine ⟨⟨F.fl_has _, le_trans h0 h1⟩, h1, ?_⟩
    rcases key with h | h
    · exact h.le
    · exact absurd h.1 (not_le.2 hlt)
  · rw [he]
    have h1 := hback _ hpos.le
    refine ⟨⟨F.fl_has _, le_trans h0 h1⟩, h1, ?_⟩
    rcases key with h | h
    · rw [← h]
      exact F.fl_mono hp1 (by linarith)
    · have := F.fl_mono hp1 h.2
      rwa [F.fl_eq hp1 hg] at this

/-- **C91** (runs, partial). A run in floating-point arithmetic with positive steps of at most `H`, from a solver at time
zero, in which every requested time leaves a bit unused or is at least `2 H`: if it returns, the time is exactly `T`, the
recorded snapshot times are zero followed by exactly the requested times up to `T` in increasing order (every step if
`log_every_step`), time never runs backwards, and no requested time is stepped over. -/
theorem C91_run_partial (F : Format) (hp : 2 ≤ F.p) (prop : Proposal ℚ U) (mk : ODEState ℚ U S → S) (H : ℚ)
    (hprop : FloatSteps F prop H) (T : ℚ) (downbeats : List ℚ) (logEvery : Bool) (fuel : ℕ)
    (st st' : ODEState ℚ U S) (h0 : st.t = 0) (hT : 0 < T) (hd : ∀ d ∈ downbeats, 0 ≤ d)
    (hsafe : ∀ d ∈ T :: downbeats, d = 0 ∨ SafeTime F H d)
    (hrun : st.integrateWith F.ops prop mk T downbeats logEvery fuel = some (st', none)) :
    st'.t = T ∧
    ∃ L M : List ℚ,
      st'.timestamps = st.timestamps ++ L ∧
      st'.snapshotTimes = st.snapshotTimes ++ 0 :: M ∧
      (0 :: L).Pairwise (· ≤ ·) ∧ L.getLast? = some T ∧
      (∀ d ∈ downbeats, d ≠ 0 → d ≤ T → d ∈ L) ∧
      (logEvery = true → M = L) ∧
      (logEvery = false → M.Pairwise (· < ·) ∧
        ∀ x, x ∈ M ↔ x = T ∨ (x ∈ downbeats ∧ x ≠ 0 ∧ x ≤ T)) := by
  obtain ⟨hs, hmem⟩ := keyTimes_spec downbeats T hT hd
  have hTm : T ∈ keyTimes downbeats T := (hmem T).2 ⟨ne_of_gt hT, Or.inr rfl⟩
  unfold ODEState.integrateWith at hrun
  rw [show (List.insertionSort (· ≤ ·) (0 :: (downbeats ++ [T])).dedup).tail = keyTimes downbeats T from rfl] at hrun
  cases hk : keyTimes downbeats T with
  | nil => rw [hk] at hTm; simp at hTm
  | cons g gs =>
    rw [hk] at hrun hs hmem hTm
    simp only at hrun
    have htgt : ∀ d ∈ g :: gs, SafeTime F H d := by
      intro d hdm
      have h1 := (hmem d).1 hdm
      have h2 : d ∈ T :: downbeats := by
        rcases h1.2 with h | h
        · exact List.mem_cons_of_mem _ h
        · simp [h]
      exact (hsafe d h2).resolve_left h1.1
    have hg : st.t < g := by
      have h1 := (hmem g).1 (by simp)
      rw [h0]
      rcases h1.2 with h | h
      · exact lt_of_le_of_ne (hd g h) (Ne.symm h1.1)
      · rw [h]; exact hT
    obtain ⟨L, h1, h2, h3, h4, h5, _, h7⟩ :=
      loopWith_exact F.ops prop mk T logEvery _ _ (stepsOK_float F hp prop H hprop) fuel g gs (st.snapshot mk) st' hs htgt
        (by simp only [ODEState.snapshot, h0]; exact ⟨F.has_zero, le_rfl⟩)
        (by simpa [ODEState.snapshot] using hg) hTm hrun
    have e1 : (st.snapshot mk).t = 0 := h0
    have e2 : (st.snapshot mk).timestamps = st.timestamps := rfl
    have e3 : (st.snapshot mk).snapshotTimes = st.snapshotTimes ++ [0] := by simp [ODEState.snapshot, h0]
    rw [e1] at h2
    rw [e2] at h1
    rw [e3] at h7
    have hLne : L ≠ [] := by
      rintro rfl
      have hx : (0 : ℚ) = T := by simpa [e1] using h3
      exact absurd hx hT.ne
    refine ⟨h4, L, _, h1, by rw [h7]; simp; rfl, h2, ?_, ?_, ?_, ?_⟩
    · rw [List.getLast?_eq_some_getLast hLne]
      rw [List.getLast_cons hLne] at h3
      rw [h3]
    · intro d hdm hdz hdT
      exact h5 d ((hmem d).2 ⟨hdz, Or.inl hdm⟩) hdT
    · intro hl; simp [hl]
    · intro hl
      simp only [hl, Bool.false_eq_true, if_false]
      refine ⟨hs.sublist List.filter_sublist, fun x => ?_⟩
      rw [List.mem_filter, hmem x]
      constructor
      · rintro ⟨⟨a, b⟩, c⟩
        rcases b with b | b
        · right; exact ⟨b, a, by simpa using c⟩
        · left; exact b
      · rintro (h | ⟨a, b, c⟩)
        · subst h; exact ⟨⟨ne_of_gt hT, Or.inr rfl⟩, by simp⟩
        · exact ⟨⟨b, Or.inl a⟩, by simpa using c⟩

/-- Constant steps; the state does not matter. -/
def steadySteps (dt : ℚ) : Proposal ℚ Unit := fun _ _ => .ok (dt, fun _ => .ok ())

theorem steadySteps_float (F : Format) (dt : ℚ) (h : F.Has dt) (hpos : 0 < dt) : FloatSteps F (steadySteps dt) dt := by
  intro t u dt' go hs
  simp only [steadySteps, Except.ok.injEq, Prod.mk.injEq] at hs
  rw [← hs.1]
  exact ⟨h, hpos, le_rfl⟩

/-- Steps of the double 0.1 up to the double 0.9 with an output at the double 0.3: the hypotheses hold, and the output
times are met although the eighth step is to 0.7999999999999999. -/
example : FloatSteps double (steadySteps d01) d01 ∧ SafeTime double d01 d03 ∧ SafeTime double d01 d09 ∧
    ((ODEState.init ()).integrateWith (S := Unit) double.ops (steadySteps d01) (fun _ => ()) d09 [d03] false 20).map
      (fun o => (o.1.t, o.1.snapshotTimes, o.1.timestamps[8]?)) =
        some (d09, [0, d03, d09], some (7205759403792793 / 2 ^ 53)) := by
  refine ⟨steadySteps_float _ _ ⟨3602879701896397, -55, by norm_num [d01], by decide, by decide⟩ (by norm_num [d01]),
    ⟨⟨5404319552844595, -54, by norm_num [d03], by decide, by decide⟩, Or.inr (by norm_num [d01, d03])⟩,
    ⟨⟨8106479329266893, -53, by norm_num [d09], by decide, by decide⟩, Or.inr (by norm_num [d01, d09])⟩, ?_⟩
  decide +kernel

/-- **C91** (the loop ends). With the hypotheses of `C91_run_partial`, no requested time after `T`, and steps of at least
`δ`, where `δ` is not smaller than the distance of two numbers of the format around `T` (for doubles `2⁻⁵² T`), the loop
ends: in no more than `2 T / δ` steps, rounded up, and one for each requested time. -/
theorem C91_terminates (F : Format) (hp : 2 ≤ F.p) (prop : Proposal ℚ U) (mk : ODEState ℚ U S → S) (H : ℚ)
    (hprop : FloatSteps F prop H) (δ : ℚ) (hmin : ∀ t u dt go, prop t u = .ok (dt, go) → δ ≤ dt)
    (T : ℚ) (hδT : T * 2 ^ (1 - F.p : ℤ) ≤ δ) (hδe : 2 ^ F.emin ≤ δ)
    (downbeats : List ℚ) (logEvery : Bool) (st : ODEState ℚ U S) (h0 : st.t = 0) (hT : 0 < T)
    (hd : ∀ d ∈ downbeats, 0 ≤ d ∧ d ≤ T) (hsafe : ∀ d ∈ T :: downbeats, d = 0 ∨ SafeTime F H d)
    (N : ℕ) (hN : 2 * T ≤ N * δ) (fuel : ℕ) (hf : N + downbeats.length + 2 ≤ fuel) :
    ∃ out, st.integrateWith F.ops prop mk T downbeats logEvery fuel = some out ∧
      out.1.stepCount ≤ st.stepCount + N + downbeats.length + 1 := by
  have hp1 : 1 ≤ F.p := by omega
  have hδ : 0 < δ := lt_of_lt_of_le (two_zpow_pos _) hδe
  have hulp : (2 : ℚ) ^ F.lastBit T ≤ δ := by
    unfold Format.lastBit
    rcases le_total (binade T + 1 - F.p) F.emin with h | h
    · rwa [max_eq_right h]
    · rw [max_eq_left h]
      refine le_trans ?_ hδT
      have h1 := (binade_spec hT.ne').1
      rw [abs_of_pos hT] at h1
      rw [add_sub_assoc, zpow_add₀ (by norm_num)]
      exact mul_le_mul_of_nonneg_right h1 (two_zpow_pos _).le
  have hTT : F.Has T := ((hsafe T (by simp)).resolve_left hT.ne').1
  obtain ⟨hs, hmem⟩ := keyTimes_spec downbeats T hT (fun d h => (hd d h).1)
  have hTm : T ∈ keyTimes downbeats T := (hmem T).2 ⟨ne_of_gt hT, Or.inr rfl⟩
  have hlen : (keyTimes downbeats T).length ≤ downbeats.length + 1 := by
    unfold keyTimes
    rw [List.length_tail, List.length_insertionSort]
    have h1 := (List.dedup_sublist (0 :: (downbeats ++ [T]))).length_le
    simp only [List.length_cons, List.length_append, List.length_nil] at h1
    omega
  have hok := stepsOK_float F hp prop H hprop
  have hok' : StepsOK F.ops prop (fun t => F.Has t ∧ 0 ≤ t) (fun g => SafeTime F H g ∧ g ≤ T) :=
    fun t u dt go g h1 h2 h3 h4 => hok t u dt go g h1 h2 h3.1 h4
  have hmove : StepsMove F.ops prop (fun t => F.Has t ∧ 0 ≤ t) (fun g => SafeTime F H g ∧ g ≤ T) (δ / 2) := by
    intro t u dt go g ht htg hg hst
    obtain ⟨_, hle, hge⟩ := hok t u dt go g ht htg hg.1 hst
    by_cases hlt : F.fl (g - t) < dt
    · -- the step is cut: either it arrives, or it was too short to be cut
      left
      have he : hitTargetWith F.ops t dt (some g) = F.fl (g - t) := by simp [hitTargetWith, Format.ops, hlt]
      show F.fl (t + hitTargetWith F.ops t dt (some g)) = g
      rw [he]
      rcases hg.1.2 with h | h
      · exact F.hit_short hp ht.1 ht.2 htg.le h
      · by_cases hh : g / 2 ≤ t
        · exact F.hit_near hp1 ht.1 hg.1.1 hh htg.le
        · obtain ⟨hdt, hpos, hH⟩ := hprop t u dt go hst
          have := F.fl_mono hp1 (show dt ≤ g - t by linarith [not_le.1 hh])
          rw [F.fl_eq hp1 hdt] at this
          exact absurd this (not_le.2 hlt)
    · have he : hitTargetWith F.ops t dt (some g) = dt := by simp [hitTargetWith, Format.ops, hlt]
      have hd := hmin t u dt go hst
      show F.fl (t + hitTargetWith F.ops t dt (some g)) = g ∨ t + δ / 2 ≤ F.fl (t + hitTargetWith F.ops t dt (some g))
      replace hge : F.fl (t + hitTargetWith F.ops t dt (some g)) ≤ g := hge
      rw [he] at hge ⊢
      have hm := F.fl_mono hp1 (show t + δ ≤ t + dt by linarith)
      by_cases hc : t + δ ≤ T
      · right
        have h1 := abs_le.1 (F.fl_near (t + δ))
        have h2 : (2 : ℚ) ^ F.lastBit (t + δ) ≤ δ := by
          refine le_trans (zpow_le_zpow_right₀ (by norm_num) ?_) hulp
          exact F.lastBit_mono (by linarith [ht.2]) hc
        linarith [h1.1]
      · left
        have h1 := F.fl_mono hp1 (show T ≤ t + δ by linarith [not_le.1 hc])
        rw [F.fl_eq hp1 hTT] at h1
        exact le_antisymm hge (by linarith [hg.2])
  unfold ODEState.integrateWith
  rw [show (List.insertionSort (· ≤ ·) (0 :: (downbeats ++ [T])).dedup).tail = keyTimes downbeats T from rfl]
  cases hk : keyTimes downbeats T with
  | nil => rw [hk] at hTm; simp at hTm
  | cons g gs =>
    rw [hk] at hs hmem hTm hlen
    simp only [List.length_cons] at hlen
    have htgt : ∀ d ∈ g :: gs, SafeTime F H d ∧ d ≤ T := by
      intro d hdm
      have h1 := (hmem d).1 hdm
      rcases h1.2 with h | h
      · exact ⟨(hsafe d (List.mem_cons_of_mem _ h)).resolve_left h1.1, (hd d h).2⟩
      · exact ⟨(hsafe d (by simp [h])).resolve_left h1.1, h.le⟩
    have hg : st.t < g := by
      have h1 := (hmem g).1 (by simp)
      rw [h0]
      rcases h1.2 with h | h
      · exact lt_of_le_of_ne (hd g h).1 (Ne.symm h1.1)
      · rw [h]; exact hT
    obtain ⟨out, h1, h2⟩ := loopWith_terminates F.ops prop mk T logEvery _ _ hok' (δ / 2) (by linarith) hmove fuel N g gs
      (st.snapshot mk) hs htgt (by simp only [ODEState.snapshot, h0]; exact ⟨F.has_zero, le_rfl⟩)
      (by simpa [ODEState.snapshot] using hg) hTm (by simp only [ODEState.snapshot, h0]; linarith) (by omega)
    refine ⟨out, h1, le_trans h2 ?_⟩
    simp only [ODEState.snapshot]
    omega

/-- Steps of the double 0.1 up to the double 0.9: `δ` is the step, `N` is 19. -/
example : (∀ t u dt go, steadySteps d01 t u = .ok (dt, go) → d01 ≤ dt) ∧ d09 * 2 ^ (1 - double.p : ℤ) ≤ d01 ∧
    (2 : ℚ) ^ double.emin ≤ d01 ∧ 2 * d09 ≤ (19 : ℕ) * d01 := by
  refine ⟨?_, by norm_num [d09, d01, double], ?_, by norm_num [d09, d01]⟩
  · intro t u dt go hs
    simp only [steadySteps, Except.ok.injEq, Prod.mk.injEq] at hs
    exact hs.1.le
  · refine le_trans (zpow_le_zpow_right₀ (by norm_num) (show double.emin ≤ -4 by decide)) ?_
    norm_num [d01]

/-! ### What goes wrong otherwise -/

/-- One large step from the output at 0.3 to the final time 0.9 ends after the final time: the last snapshot is not at `T`.
Everything is a double and the steps are positive. -/
theorem C91_final_time_violated : FloatSteps double (steadySteps 1) 1 ∧ double.Has d03 ∧ double.Has d09 ∧
    ((ODEState.init ()).integrateWith (S := Unit) double.ops (steadySteps 1) (fun _ => ()) d09 [d03] false 5).map
      (fun o => (o.1.snapshotTimes, o.2)) = some ([0, d03, d09 + 1 / 2 ^ 53], none) := by
  refine ⟨steadySteps_float _ _ ⟨1, 0, by norm_num, by decide, by decide⟩ (by norm_num), C91_hit_violated.1,
    C91_hit_violated.2.1, ?_⟩
  decide +kernel

/-- With 0.9 as a downbeat and `T = 1` the loop steps over 0.9 and then takes a step backwards to it. -/
theorem C91_backwards_violated :
    ((ODEState.init ()).integrateWith (S := Unit) double.ops (steadySteps 1) (fun _ => ()) 1 [d03, d09] false 9).map
      (fun o => (o.1.timestamps, o.1.snapshotTimes, o.2)) =
        some ([0, d03, d09 + 1 / 2 ^ 53, d09, 1], [0, d03, d09, 1], none) := by
  decide +kernel

/-- Positive steps that are too small for the clock: at `t = 1` steps of `2⁻⁵⁴` leave the time as it is, and the loop never
ends, however many iterations are allowed. -/
theorem C91_endless_violated : FloatSteps double (steadySteps (1 / 2 ^ 54)) (1 / 2 ^ 54) ∧
    ∀ (fuel : ℕ) (st : ODEState ℚ Unit Unit), st.t = 1 →
      ODEState.loopWith double.ops (steadySteps (1 / 2 ^ 54)) (fun _ => ()) 2 false fuel (some 2) [] st = none := by
  refine ⟨steadySteps_float _ _ ⟨1, -54, by norm_num, by decide, by decide⟩ (by norm_num), ?_⟩
  intro fuel
  induction fuel with
  | zero => intros; rfl
  | succ fuel ih =>
    intro st ht
    have h1 : double.ops.add 1 (hitTargetWith double.ops 1 (1 / 2 ^ 54) (some 2)) = 1 := by decide +kernel
    unfold ODEState.loopWith
    simp only [ODEState.takeStepWith, steadySteps, ht, h1]
    rw [if_pos (by norm_num), if_neg (by norm_num)]
    exact ih _ rfl

end FVHOE
