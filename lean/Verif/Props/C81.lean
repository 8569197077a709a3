import Verif.Props.C79
import Verif.Props.C38
import Verif.Proofs.Total

/-!
C81: runs end. With a prescribed step size, and with CFL steps in a uniform flow, a call of one of the integrators
returns without an exception and reaches the requested time.
-/

set_option linter.unusedSectionVars false

namespace FVHOE

variable {K : Type} [Field K] [LinearOrder K] [IsStrictOrderedRing K] {np : ℕ}

/-- The limiting options, if any, are ones the right-hand side can work with. -/
def Workable (c : EulerConfig K np) (o : Option (LimiterOpts K)) : Prop := ∀ o', o = some o' →
  o'.toDetectOpts.Known ∧ c.dims ≠ [] ∧ (o'.convex = false ∨ ((∃ a, c.dims = [a]) ∨ ∃ a b, c.dims = [a, b] ∧
    ¬ (b = 2 ∧ (c.bc.kind 2 .l = .periodic ∧ c.bc.kind 2 .r = .periodic) ∧ c.n a ≠ 5)))

/-- The right-hand side returns for every state. -/
theorem rhs_returns (c : EulerConfig K np) (o : Option (LimiterOpts K)) (hw : WellPosed (c.limited o).scheme)
    (ho : Workable c o) (junk : ℕ → Ix → State K np) (mem : Fin 3 → Ix → State K np) (t t' : K)
    (u : Ix → State K np) : ∃ dt k, solverRHS (c.limited o).scheme junk mem t t' u = .ok (dt, k) := by
  cases o with
  | none =>
    obtain ⟨gl, gr, hs⟩ := hw.ghosts.sides t
    obtain ⟨dt, -, e⟩ := rhs_spec (c.limited none).scheme rfl hw.degree hw.cells t gl gr hs junk mem t' u u fun _ _ => rfl
    exact ⟨_, _, e⟩
  | some o =>
    obtain ⟨hk, hd, hc⟩ := ho o rfl
    obtain ⟨⟨dt, k⟩, e⟩ := C11_limited_returns c o hk hd hw hc junk mem t t' u
    exact ⟨dt, k, e⟩

/-- With a prescribed step size that is the step size. -/
theorem rhs_fixed (c : EulerConfig K np) (o : Option (LimiterOpts K)) (hw : WellPosed (c.limited o).scheme)
    (ho : Workable c o) (x : K) (hx : c.fixedDt = some x) (junk : ℕ → Ix → State K np) (mem : Fin 3 → Ix → State K np)
    (t t' : K) (u : Ix → State K np) (dt : K) (k : Ix → State K np)
    (h : solverRHS (c.limited o).scheme junk mem t t' u = .ok (dt, k)) : dt = x := by
  obtain ⟨gl, gr, hs⟩ := hw.ghosts.sides t
  cases o with
  | none =>
    obtain ⟨dt', hd, e⟩ := rhs_spec (c.limited none).scheme rfl hw.degree hw.cells t gl gr hs junk mem t' u u fun _ _ => rfl
    rw [h] at e
    cases e
    unfold IsDt at hd
    rw [show (c.limited none).scheme.fixedDt = some x from hx] at hd
    exact hd
  | some o =>
    obtain ⟨hk, hd, hc⟩ := ho o rfl
    obtain ⟨_, w1, w2⟩ := hw.limiter _ rfl
    obtain ⟨gl', gr', hs'⟩ := w1.sides t
    obtain ⟨gld, grd, hsd⟩ := w2.sides t
    obtain ⟨dt', tr, h1, h2, h3, h4⟩ := limited_rhs c o hk hd hw.degree hw.cells t gl gr gl' gr' gld grd hs hs' hsd
      junk mem t' u
    rw [h4] at h
    obtain ⟨rfl, -⟩ := limitedResult_inv c o _ _ dt' dt tr h2 k h
    unfold IsDt at h1
    rw [show c.scheme.fixedDt = some x from hx] at h1
    exact h1

/-- **C81, prescribed steps** For every well-posed configuration, with or without limiting, with a prescribed step size
`x > 0`, every method and every state, whatever the values in it: a call with a final time `T` returns without an
exception. The loop needs at most `N + len(downbeats) + 3` iterations for any `N ≥ (T - t)/x`. The final time is
reached; in exact mode the clock shows exactly `T` and the snapshots are those at the start and at the requested
times up to `T`. -/
theorem C81_fixed (c : EulerConfig K np) (o : Option (LimiterOpts K)) (hw : WellPosed (c.limited o).scheme)
    (ho : Workable c o) (x : K) (hx0 : 0 < x) (hx : c.fixedDt = some x) (f : RHS K (Ix → State K np))
    (hf : IsSolverRHS (c.limited o).scheme f) (m : Integrator) {Sn : Type}
    (mk : ODEState K (Ix → State K np) Sn → Sn) (T : K) (ex : Bool) (downbeats : List K) (logEvery : Bool)
    (st : ODEState K (Ix → State K np) Sn) (h0 : 0 ≤ st.t) (hT : st.t < T) (hd : ∀ d ∈ downbeats, d = 0 ∨ st.t < d)
    (N : ℕ) (hN : T - st.t ≤ N * x) (fuel : ℕ) (hfuel : N + downbeats.length + 3 ≤ fuel) :
    ∃ st', st.integrate (stepper f m) mk fuel ⟨some T, none, ex, downbeats, logEvery, none⟩ = some (st', none) ∧
      T ≤ st'.t ∧ (ex = true → st'.t = T ∧ (logEvery = false → ∃ M : List K,
        st'.snapshotTimes = st.snapshotTimes ++ st.t :: M ∧ M.Pairwise (· < ·) ∧
        ∀ y, y ∈ M ↔ y = T ∨ (y ∈ downbeats ∧ y ≠ 0 ∧ y ≤ T))) := by
  have hgood : ∀ s t u, ∃ dt k, f s t u = .ok (dt, k) ∧ x ≤ dt := by
    intro s t u
    obtain ⟨junk, mem, e⟩ := hf s t u
    obtain ⟨dt, k, e'⟩ := rhs_returns c o hw ho junk mem s t u
    exact ⟨dt, k, e.trans e', (rhs_fixed c o hw ho x hx junk mem s t u dt k e').ge⟩
  obtain ⟨st', h1, -, h2⟩ := integrateT_total hx0 _ (total_good (S := Sn) f m x hgood) (mk := mk) (fun _ h => h) T ex
    downbeats logEvery fuel st h0 hT hd trivial N hN hfuel
  refine ⟨st', h1, h2, ?_⟩
  rintro rfl
  have hpos : PosDt f := by
    intro s t u dt k hk
    obtain ⟨dt', k', e, h⟩ := hgood s t u
    rw [e] at hk
    cases hk
    exact lt_of_lt_of_le hx0 h
  obtain ⟨e1, L, M, -, e3, -, -, -, -, e8⟩ := C24_exact_output_times f m mk hpos T downbeats logEvery fuel st st' h0 hT hd h1
  exact ⟨e1, fun hl => ⟨M, e3, e8 hl⟩⟩

/-- **C81, a number of steps** For every well-posed configuration, with or without limiting, every method and every
state: a call with a number of steps `n` returns without an exception after exactly `n` steps. -/
theorem C81_steps (c : EulerConfig K np) (o : Option (LimiterOpts K)) (hw : WellPosed (c.limited o).scheme)
    (ho : Workable c o) (f : RHS K (Ix → State K np)) (hf : IsSolverRHS (c.limited o).scheme f) (m : Integrator)
    {Sn : Type} (mk : ODEState K (Ix → State K np) Sn → Sn) (n : ℕ) (ex : Bool) (downbeats : List K) (logEvery : Bool)
    (saved : Option (List Sn)) (st : ODEState K (Ix → State K np) Sn) (fuel : ℕ) :
    ∃ st', st.integrate (stepper f m) mk fuel ⟨none, some n, ex, downbeats, logEvery, saved⟩ = some (st', none) ∧
      st'.stepCount = st.stepCount + n ∧ st'.timestamps.length = st.timestamps.length + n ∧
      st'.snapshotTimes = st.snapshotTimes ++ [st.t, st'.t] := by
  have hret : ∀ t u target, ∃ r, stepper f m t u target = .ok r := by
    have hok : ∀ s t u, ∃ r, f s t u = .ok r := by
      intro s t u
      obtain ⟨junk, mem, e⟩ := hf s t u
      obtain ⟨dt, k, e'⟩ := rhs_returns c o hw ho junk mem s t u
      exact ⟨_, e.trans e'⟩
    choose R hR using hok
    intro t u target
    cases m <;>
      simp only [stepper, eulerStepper, ssprk2Stepper, ssprk3Stepper, rk4Stepper, bind, Except.bind, pure, Except.pure,
        hR] <;>
      exact ⟨_, rfl⟩
  have hsteps : ∀ (n : ℕ) (st : ODEState K (Ix → State K np) Sn), ∃ st', st.takeSteps (stepper f m) n = (st', none) ∧
      st'.stepCount = st.stepCount + n ∧ st'.timestamps.length = st.timestamps.length + n ∧
      st'.snapshotTimes = st.snapshotTimes := by
    intro n
    induction n with
    | zero => exact fun st => ⟨st, rfl, rfl, rfl, rfl⟩
    | succ n ih =>
      intro st
      obtain ⟨r, hr⟩ := hret st.t st.u none
      have hts : st.takeStep (stepper f m) none = (⟨st.t + r.1, st.timestamps ++ [st.t + r.1],
          st.stepCount + 1, r.2, st.snapshots, st.snapshotTimes⟩, none) := by
        unfold ODEState.takeStep
        rw [hr]
      obtain ⟨st', e1, e2, e3, e4⟩ := ih (st.takeStep (stepper f m) none).1
      rw [hts] at e1 e2 e3 e4
      refine ⟨st', ?_, ?_, ?_, e4⟩
      · unfold ODEState.takeSteps
        rw [hts]
        exact e1
      · rw [e2]; simp only; omega
      · rw [e3]; simp only [List.length_append, List.length_singleton]; omega
  obtain ⟨st', e1, e2, e3, e4⟩ := hsteps n (st.snapshot mk)
  refine ⟨st'.snapshot mk, ?_, e2, e3, ?_⟩
  · unfold ODEState.integrate ODEState.integrateN
    simp only [e1]
  · show st'.snapshotTimes ++ [st'.t] = _
    rw [e4]
    simp [ODEState.snapshot]

/-- **C81, positive steps are needed** A prescribed step size of zero is accepted, and a call with a final time then never
returns. -/
theorem C81_zero_step (c : EulerConfig K np) (o : Option (LimiterOpts K)) (hw : WellPosed (c.limited o).scheme)
    (ho : Workable c o) (hx : c.fixedDt = some 0) (f : RHS K (Ix → State K np))
    (hf : IsSolverRHS (c.limited o).scheme f) (m : Integrator) {Sn : Type}
    (mk : ODEState K (Ix → State K np) Sn → Sn) (T : K) (logEvery : Bool) (st : ODEState K (Ix → State K np) Sn)
    (h0 : 0 ≤ st.t) (hT : st.t < T) (fuel : ℕ) :
    st.integrate (stepper f m) mk fuel ⟨some T, none, true, [], logEvery, none⟩ = none := by
  have hgood : ∀ s t u, ∃ dt k, f s t u = .ok (dt, k) ∧ 0 ≤ dt := by
    intro s t u
    obtain ⟨junk, mem, e⟩ := hf s t u
    obtain ⟨dt, k, e'⟩ := rhs_returns c o hw ho junk mem s t u
    exact ⟨dt, k, e.trans e', (rhs_fixed c o hw ho 0 hx junk mem s t u dt k e').ge⟩
  have hzero : ∀ s t u dt k, f s t u = .ok (dt, k) → dt = 0 := by
    intro s t u dt k h
    obtain ⟨junk, mem, e⟩ := hf s t u
    exact rhs_fixed c o hw ho 0 hx junk mem s t u dt k (e.symm.trans h)
  have hloop : ∀ (fuel : ℕ) (st : ODEState K (Ix → State K np) Sn), st.t < T →
      ODEState.loop (stepper f m) mk T logEvery fuel (some T) [] st = none := by
    intro fuel
    induction fuel with
    | zero => exact fun _ _ => rfl
    | succ fuel ih =>
      intro st hst
      unfold ODEState.loop
      rw [if_pos hst]
      obtain ⟨st1, dt, e1, -, -, e2⟩ := total_good (S := Sn) f m 0 hgood st (some T) (fun g e => by cases e; exact hst)
        trivial
      have ht : st1.t = st.t := by
        have := e1
        unfold ODEState.takeStep at this
        cases hs : stepper f m st.t st.u (some T) with
        | error e => rw [hs] at this; cases this
        | ok r =>
          rw [hs] at this
          obtain ⟨dt', k, hf', hdt⟩ := stepper_dt f m st.t st.u (some T) r.1 r.2 hs
          rw [hzero _ _ _ _ _ hf'] at hdt
          have h2 : hitTarget st.t 0 (some T) = 0 := by
            simp only [hitTarget]
            rw [if_neg (by linarith)]
          cases this
          show st.t + r.1 = st.t
          rw [hdt, h2, add_zero]
      rw [e1]
      simp only
      split
      · exact ih _ (by show st1.t < T; rw [ht]; exact hst)
      · exact ih _ (by rw [ht]; exact hst)
  have hk : keyTimes ([] : List K) T = [T] := by
    have hT0 : (0 : K) < T := lt_of_le_of_lt h0 hT
    unfold keyTimes
    simp [hT0.ne, hT0.le, List.dedup_cons_of_notMem]
  unfold ODEState.integrate ODEState.integrateT
  simp only [if_true, hk]
  exact hloop fuel _ hT

/-! ## CFL steps in a uniform flow -/

/-- The proposed step is at least the CFL number times the smallest spacing over the signal speed at the smallest
density. -/
theorem flow_dt {c : EulerConfig K np} {o : LimiterOpts K} {s : SlopeKind} (h : FallbackSetup c o s) (hcfl : 0 < c.cfl)
    (hfix : c.fixedDt = none) (hp : ∀ d, c.p d ≤ 1) (v : Fin 3 → K) (P : K) (hP : 0 ≤ c.gas.gamma * P)
    (x : Fin np → K) (lo up : K) (hlo : 0 < lo) (u : Ix → State K np) (hu : UniformFlow c v P x lo up u)
    (junk : ℕ → Ix → State K np) (mem : Fin 3 → Ix → State K np) (t t' : K) :
    ∃ dt k, solverRHS (c.limited (some o)).scheme junk mem t t' u = .ok (dt, k) ∧
      c.cfl * min (min (c.h 0) (c.h 1)) (c.h 2) / signalSpeed c.gas c.scheme.ndim (flowing v P x lo) ≤ dt := by
  obtain ⟨dt, k, β, e, hd, hβ, -, -⟩ := fallback_rate h v P x lo up hlo u hu junk mem t t'
  refine ⟨dt, k, e, ?_⟩
  unfold IsDt at hd
  rw [show c.scheme.fixedDt = none from hfix] at hd
  obtain ⟨m, ⟨i₀, -, hm⟩, -, hd⟩ := hd
  rw [latPrim_low _ hp] at hm
  beta_reduce at hm
  rw [show c.scheme.prim = computePrimitives c.gas.gamma from rfl,
    prim_flowing _ h.gamma v P x _ (lt_of_lt_of_le hlo (hβ i₀).1).ne'] at hm
  have hm' : signalSpeed c.gas c.scheme.ndim (flowing v P x (β i₀)) = m := hm
  have hm0 : 0 < m := by rw [← hm']; exact signal_pos h _
  have hle : m ≤ signalSpeed c.gas c.scheme.ndim (flowing v P x lo) := by
    rw [← hm']
    have s1 := soundSpeed_spec c.gas h.sqrt h.floor (flowing v P x (β i₀))
    have s2 := soundSpeed_spec c.gas h.sqrt h.floor (flowing v P x lo)
    have hs : soundSpeed c.gas (flowing v P x (β i₀)) ≤ soundSpeed c.gas (flowing v P x lo) := by
      refine le_of_sq_le_sq ?_ s2.1.le
      rw [s1.2, s2.2]
      refine max_le_max ?_ le_rfl
      exact div_le_div_of_nonneg_left hP hlo (hβ i₀).1
    unfold signalSpeed
    have := mul_le_mul_of_nonneg_left hs (Nat.cast_nonneg (α := K) c.scheme.ndim)
    have e1 : (sum3 fun d => |flowing v P x (β i₀) (.mom d)|) = sum3 fun d => |flowing v P x lo (.mom d)| := rfl
    linarith
  have hh : 0 < min (min (c.h 0) (c.h 1)) (c.h 2) := lt_min (lt_min (h.spacing 0) (h.spacing 1)) (h.spacing 2)
  rw [hd]
  exact div_le_div_of_nonneg_left (mul_pos hcfl hh).le hm0 hle

theorem flow_convex (c : EulerConfig K np) (v : Fin 3 → K) (P : K) (x : Fin np → K) (lo up : K) :
    Convex K {u : Ix → State K np | UniformFlow c v P x lo up u} := by
  intro u hu w hw a b ha hb hab i hi
  obtain ⟨r, r1, r2, r3⟩ := hu i hi
  obtain ⟨q, q1, q2, q3⟩ := hw i hi
  refine ⟨a * r + b * q, ?_, ?_, ?_⟩
  · calc lo = a * lo + b * lo := by rw [← add_mul, hab, one_mul]
      _ ≤ _ := add_le_add (mul_le_mul_of_nonneg_left r1 ha) (mul_le_mul_of_nonneg_left q1 hb)
  · calc a * r + b * q ≤ a * up + b * up := add_le_add (mul_le_mul_of_nonneg_left r2 ha) (mul_le_mul_of_nonneg_left q2 hb)
      _ = up := by rw [← add_mul, hab, one_mul]
  · rw [Pi.add_apply, Pi.smul_apply, Pi.smul_apply, r3, q3, conserved_flowing, conserved_flowing, conserved_flowing]
    rw [show b = 1 - a by linarith]
    module

/-- **C81, CFL steps in a uniform flow** The runs of C79 end: in a uniform flow with densities at least `lo > 0` and a
pressure that is not negative, with CFL steps of the admitted size, every call of `euler`, `ssprk2` or `ssprk3` with a
final time returns without an exception, after at most `N + len(downbeats) + 3` iterations for any
`N ≥ (T - t) s / (CFL h)` with `s` the signal speed at density `lo`; its densities are between `lo` and `up`, the
final time is reached, and exactly so in exact mode. -/
theorem C81_flow (c : EulerConfig K np) (o : LimiterOpts K) (s : SlopeKind) (h : FallbackSetup c o s)
    (hfix : c.fixedDt = none) (v : Fin 3 → K) (hv : ShortSteps c s v) (P : K) (hP : 0 ≤ c.gas.gamma * P)
    (x : Fin np → K) (lo up : K) (hlo : 0 < lo) (f : RHS K (Ix → State K np))
    (hf : IsSolverRHS (c.limited (some o)).scheme f) (m : Integrator) (hm : m.SSP) {Sn : Type}
    (mk : ODEState K (Ix → State K np) Sn → Sn) (T : K) (ex : Bool) (downbeats : List K) (logEvery : Bool)
    (st : ODEState K (Ix → State K np) Sn) (h0 : 0 ≤ st.t) (hT : st.t < T) (hd : ∀ d ∈ downbeats, d = 0 ∨ st.t < d)
    (hu : UniformFlow c v P x lo up st.u) (N : ℕ)
    (hN : (T - st.t) * signalSpeed c.gas c.scheme.ndim (flowing v P x lo) ≤
      N * (c.cfl * min (min (c.h 0) (c.h 1)) (c.h 2)))
    (fuel : ℕ) (hfuel : N + downbeats.length + 3 ≤ fuel) :
    ∃ st', st.integrate (stepper f m) mk fuel ⟨some T, none, ex, downbeats, logEvery, none⟩ = some (st', none) ∧
      UniformFlow c v P x lo up st'.u ∧ T ≤ st'.t ∧ (ex = true → st'.t = T) := by
  have hv' := hv
  unfold ShortSteps at hv'
  rw [hfix] at hv'
  obtain ⟨hcfl, -, hp⟩ := hv'
  have hh : 0 < min (min (c.h 0) (c.h 1)) (c.h 2) := lt_min (lt_min (h.spacing 0) (h.spacing 1)) (h.spacing 2)
  have hsig := signal_pos h (flowing v P x lo)
  have hδ : 0 < c.cfl * min (min (c.h 0) (c.h 1)) (c.h 2) / signalSpeed c.gas c.scheme.ndim (flowing v P x lo) :=
    div_pos (mul_pos hcfl hh) hsig
  have hpos : PosDt f := by
    intro t t' u dt k hk
    obtain ⟨junk, mem, e⟩ := hf t t' u
    rw [e] at hk
    refine fallback_dt_pos h ?_ junk mem t t' u dt k hk
    rw [hfix]
    exact hcfl
  have hgood : GoodSteps (S := Sn) (stepper f m)
      (c.cfl * min (min (c.h 0) (c.h 1)) (c.h 2) / signalSpeed c.gas c.scheme.ndim (flowing v P x lo)) fun st => UniformFlow c v P x lo up st.u := by
    refine convex_good f {u | UniformFlow c v P x lo up u} (flow_convex c v P x lo up) m hm _ hδ ?_ ?_
    · intro t t' u hu'
      obtain ⟨junk, mem, e⟩ := hf t t' u
      obtain ⟨dt, k, e', hdt⟩ := flow_dt h hcfl hfix hp v P hP x lo up hlo u hu' junk mem t t'
      exact ⟨dt, k, e.trans e', hdt⟩
    · intro t w dσ l hw hl τ hτ0 hτ t' u dτ k hu' hk
      obtain ⟨junk, mem, e⟩ := hf t t w
      obtain ⟨junk', mem', e'⟩ := hf t t' u
      rw [e] at hl
      rw [e'] at hk
      refine C79_step c o s h v P x lo up hlo u hu' junk' mem' t t' dτ k hk τ hτ0.le ?_
      refine le_trans (mul_le_mul_of_nonneg_right hτ ?_) (hv.bound h P x lo up hlo w hw junk mem t t dσ l hl)
      refine Finset.sum_nonneg fun d _ => ?_
      have := h.spacing d
      split_ifs <;> positivity
  obtain ⟨st', h1, h2, h3⟩ := integrateT_total hδ _ hgood (mk := mk) (fun _ h => h) T ex downbeats logEvery fuel st h0 hT
    hd hu N (by rw [← mul_div_assoc, le_div_iff₀ hsig]; exact hN) hfuel
  refine ⟨st', h1, h2, h3, ?_⟩
  rintro rfl
  exact (C24_exact_output_times f m mk hpos T downbeats logEvery fuel st st' h0 hT hd h1).1

/-! ## Concrete cases -/

/-- The ramp of C79 with a CFL number of 2/3 runs to time 2 with snapshots at 1 and 2 (signal speed at most 10, so 30
steps and the cut ones suffice). -/
example (f : RHS ℝ (Ix → State ℝ 0))
    (hf : IsSolverRHS ((rampTube (2 / 3)).limited (some (forcedLimiter .minmod))).scheme f) :
    ∃ st', (ODEState.init ramp).integrate (stepper f .ssprk3) (fun _ => ()) 34
      ⟨some 2, none, true, [1], false, none⟩ = some (st', none) ∧ st'.t = 2 ∧
      ∀ i, InCells ![8, 1, 1] i → 1 ≤ st'.u i .rho ∧ st'.u i .rho ≤ 3 := by
  have hset := rampTube_setup (2 / 3) .minmod
  have hn : (rampTube (2 / 3)).scheme.ndim = 1 := by
    rw [EulerConfig.ndim_eq]
    decide
  obtain ⟨st', h1, h2, -, h4⟩ := C81_flow (rampTube (2 / 3)) (forcedLimiter .minmod) .minmod hset rfl ![9, 0, 0]
    (by
      refine ⟨by norm_num [rampTube], by norm_num [rampTube, crossingLimit], fun d => ?_⟩
      match d with | 0 | 1 | 2 => simp [rampTube]) (5 / 7) (by norm_num [rampTube, airGas]) ![] 1 3 one_pos f hf .ssprk3
    trivial (fun _ => ()) 2 true [1] false (ODEState.init ramp) le_rfl (by norm_num [ODEState.init])
    (fun d hd => .inr (by rw [List.mem_singleton.1 hd]; norm_num [ODEState.init])) (ramp_flow _) 30 (by
      have hs := soundSpeed_spec airGas airGas_sqrt (by norm_num [airGas]) (flowing ![9, 0, 0] (5 / 7) (![] : Fin 0 → ℝ) 1)
      have hc : soundSpeed airGas (flowing ![9, 0, 0] (5 / 7) (![] : Fin 0 → ℝ) 1) ≤ 1 := by
        have h1 : soundSpeed airGas (flowing ![9, 0, 0] (5 / 7) (![] : Fin 0 → ℝ) 1) ^ 2 ≤ 1 := by
          rw [hs.2]
          refine max_le ?_ (by norm_num [airGas])
          show 7 / 5 * (5 / 7) / (1 : ℝ) ≤ 1
          norm_num
        nlinarith [hs.1]
      rw [hn]
      have hsig : signalSpeed (rampTube (2 / 3)).gas 1 (flowing ![9, 0, 0] (5 / 7) (![] : Fin 0 → ℝ) 1) =
          9 + soundSpeed airGas (flowing ![9, 0, 0] (5 / 7) (![] : Fin 0 → ℝ) 1) := by
        show signalSpeed airGas 1 _ = _
        simp [signalSpeed, sum3, flowing]
      rw [hsig]
      simp [ODEState.init, rampTube]
      linarith) 34 (by norm_num)
  refine ⟨st', h1, h4 rfl, fun i hi => ?_⟩
  obtain ⟨r, r1, r2, r3⟩ := h2 i hi
  rw [r3]
  exact ⟨r1, r2⟩

/-- The channel with a prescribed step of 1/100 and a convex limiter runs from any state to time 1 with rk4. -/
example (f : RHS ℝ (Ix → State ℝ 1))
    (hf : IsSolverRHS (({ scalarChannel 1 with fixedDt := some (1 / 100) } : EulerConfig ℝ 1).limited
      (some convexLimiter)).scheme f) (u : Ix → State ℝ 1) :
    ∃ st', (ODEState.init u).integrate (stepper f .rk4) (fun _ => ()) 103 ⟨some 1, none, true, [], false, none⟩ =
      some (st', none) ∧ st'.t = 1 := by
  have hw := channel_wellPosed 1 (some convexLimiter)
  obtain ⟨st', h1, -, h3⟩ := C81_fixed { scalarChannel 1 with fixedDt := some (1 / 100) } (some convexLimiter)
    ⟨hw.degree, hw.cells, hw.ghosts, hw.limiter⟩ (by
      intro o' e
      cases e
      exact ⟨⟨Or.inl rfl, Or.inl rfl⟩, by decide, Or.inr (Or.inr ⟨0, 1, rfl, by simp⟩)⟩) (1 / 100) (by norm_num) rfl f hf
    .rk4 (fun _ => ()) 1 true [] false (ODEState.init u) le_rfl (by norm_num [ODEState.init]) (by simp) 100
    (by norm_num [ODEState.init]) 103 (by norm_num)
  exact ⟨st', h1, (h3 rfl).1⟩

end FVHOE
