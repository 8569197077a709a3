import Mathlib.Algebra.BigOperators.Field
import Mathlib.Tactic.Module
import Verif.Proofs.LowOrder
import Verif.Proofs.Sides
import Verif.Props.C13_solver
import Verif.Props.C24_C27

/-! Steps of the degree-zero scheme as sums of one-sided updates. -/

set_option linter.unusedSectionVars false

namespace FVHOE

variable {K : Type} [Field K] [LinearOrder K] [IsStrictOrderedRing K] {np : ℕ}

/-- Closed under sums and positive multiples. -/
structure IsCone (C : State K np → Prop) : Prop where
  add : ∀ a b, C a → C b → C (a + b)
  smul : ∀ (r : K) a, 0 < r → C a → C (r • a)

theorem IsCone.comb {C : State K np → Prop} (h : IsCone C) {r s : K} {a b : State K np} (hr : 0 ≤ r) (hs : 0 ≤ s)
    (hrs : 0 < r + s) (ha : C a) (hb : C b) : C (r • a + s • b) := by
  rcases hr.lt_or_eq with hr | rfl
  · rcases hs.lt_or_eq with hs | rfl
    · exact h.add _ _ (h.smul _ _ hr ha) (h.smul _ _ hs hb)
    · rw [zero_smul, add_zero]
      exact h.smul _ _ hr ha
  · rw [zero_smul, zero_add]
    exact h.smul _ _ (by linarith) hb

theorem IsCone.add_nonneg {C : State K np → Prop} (h : IsCone C) {s : K} {a b : State K np} (hs : 0 ≤ s)
    (ha : C a) (hb : C b) : C (a + s • b) := by
  rcases hs.lt_or_eq with hs | rfl
  · exact h.add _ _ ha (h.smul _ _ hs hb)
  · rwa [zero_smul, add_zero]

/-- The velocity across direction `d` plus the sound speed. -/
def frontSpeed (G : Gas K) (d : Fin 3) (u : State K np) : K :=
  |computePrimitives G.gamma u (.mom d)| + soundSpeed G (computePrimitives G.gamma u)

/-- One-sided updates from states in `P` lie in `C`, as long as the time step times the fastest of the two
states is at most `κ`. -/
def HalfSafe (G : Gas K) (k : RiemannKind) (P C : State K np → Prop) (κ : K) : Prop :=
  ∀ d : Fin 3, ∃ g : State K np → State K np, ∀ a b : State K np, ∀ l : K, P a → P b → 0 ≤ l →
    l * frontSpeed G d a ≤ κ → l * frontSpeed G d b ≤ κ →
    C ((1 / 2 : K) • a - l • (riemann k G d (computePrimitives G.gamma a) (computePrimitives G.gamma b) - g a)) ∧
    C ((1 / 2 : K) • b + l • (riemann k G d (computePrimitives G.gamma a) (computePrimitives G.gamma b) - g b))

/-- A degree-zero setup without limiting. -/
structure FirstOrder (c : EulerConfig K np) : Prop where
  limiting : c.limiting = none
  fixedDt : c.fixedDt = none
  degree : ∀ d, c.p d = 0
  cells : ∀ d, 1 ≤ c.n d
  spacing : ∀ d, 0 < c.h d
  cfl : 0 < c.cfl
  gas : c.gas.OK
  sides : PlainSides c.scheme (fluxWidth c.scheme c.p)
  extended : ∃ d, c.n d ≠ 1

theorem padded_cell (S : Scheme K (State K np)) (u : Ix → State K np) (i : Ix) (hi : InCells S.n i) :
    padded S u i = u i := by
  unfold padded extAll extAxis
  rw [if_neg (not_lt.2 (hi 2).1), if_neg (not_le.2 (hi 2).2), if_neg (not_lt.2 (hi 1).1),
    if_neg (not_le.2 (hi 1).2), if_neg (not_lt.2 (hi 0).1), if_neg (not_le.2 (hi 0).2)]

theorem FirstOrder.active {c : EulerConfig K np} (h : FirstOrder c) (d : Fin 3) :
    c.scheme.active d = true ↔ c.n d ≠ 1 := by
  have : c.scheme.active d = !(c.n d == 1 && c.p d == 0) := rfl
  rw [this, h.degree]
  simp

theorem FirstOrder.width {c : EulerConfig K np} (h : FirstOrder c) (d : Fin 3) :
    fluxWidth c.scheme c.p d = if c.scheme.active d = true then 1 else 0 := by
  unfold fluxWidth fluxGw
  simp [h.degree, ceilHalf]

theorem FirstOrder.ndim_pos {c : EulerConfig K np} (h : FirstOrder c) : 1 ≤ c.scheme.ndim := by
  rw [c.ndim_eq]
  obtain ⟨d, hd⟩ := h.extended
  exact Finset.card_pos.2 ⟨d, by simp [EulerConfig.directions, hd]⟩

/-- Everything a step of the degree-zero scheme does, in one statement. -/
theorem FirstOrder.rhs {c : EulerConfig K np} (h : FirstOrder c) (P : State K np → Prop)
    (hneg : ∀ d v, P v → P (negateMom d v)) (junk : ℕ → Ix → State K np) (mem : Fin 3 → Ix → State K np) (t t' : K)
    (u : Ix → State K np) (hu : ∀ i, InCells c.n i → P (u i)) :
    ∃ dt D, solverRHS c.scheme junk mem t t' u = .ok (dt, D) ∧ 0 < dt ∧ ∀ i, InCells c.n i →
      (∀ d, c.n d ≠ 1 → ∀ j, j = i ∨ j = i - Pi.single d 1 ∨ j = i + Pi.single d 1 →
        P (padded c.scheme u j) ∧ dt / c.h d * frontSpeed c.gas d (padded c.scheme u j) ≤ c.cfl) ∧
      padded c.scheme u i = u i ∧
      D i = ∑ d : Fin 3, if c.n d ≠ 1 then (-(1 / c.h d)) •
        (riemann c.riem c.gas d (computePrimitives c.gas.gamma (padded c.scheme u i))
            (computePrimitives c.gas.gamma (padded c.scheme u (i + Pi.single d 1))) -
          riemann c.riem c.gas d (computePrimitives c.gas.gamma (padded c.scheme u (i - Pi.single d 1)))
            (computePrimitives c.gas.gamma (padded c.scheme u i))) else 0 := by
  have hin : ∀ d, c.scheme.active d = false → fluxWidth c.scheme c.p d = 0 := fun d hd => by
    rw [h.width]; simp [hd]
  have hp1 : ∀ d, c.p d ≤ 1 := fun d => by rw [h.degree]; omega
  obtain ⟨dt, hdt, e⟩ := rhs_spec c.scheme h.limiting (fun d => (hp1 d).trans (by omega)) h.cells t _ _
    (h.sides.sides h.cells hin t) junk mem t' u u fun _ _ => rfl
  have hb := ext_onBox c.scheme (fluxWidth c.scheme c.p) t _ _ (h.sides.sides h.cells hin t) P
    (fun e => c.scheme.ghost_keeps _ .l (fun e _ _ v hv => hneg e v hv) e)
    (fun e => c.scheme.ghost_keeps _ .r (fun e _ _ v hv => hneg e v hv) e) h.cells u hu
  change OnBox _ _ P (padded c.scheme u) at hb
  have hW : latPrim K c.scheme.prim c.scheme.p (extAll c.scheme.n (c.scheme.ghost .l) (c.scheme.ghost .r) u) =
      fun i => computePrimitives c.gas.gamma (padded c.scheme u i) := latPrim_low _ hp1 _
  rw [hW] at hdt
  unfold IsDt at hdt
  rw [show c.scheme.fixedDt = none from h.fixedDt] at hdt
  obtain ⟨m, ⟨i₀, hi₀, hm⟩, hmax, rfl⟩ := hdt
  have hpos : ∀ v : State K np, 0 < soundSpeed c.gas v := fun v => (soundSpeed_spec c.gas h.gas.sqrt h.gas.floor v).1
  have hk : (1 : K) ≤ (c.scheme.ndim : K) := by exact_mod_cast h.ndim_pos
  have hspeed : ∀ d v, frontSpeed c.gas d v ≤ c.scheme.speed c.scheme.ndim (computePrimitives c.gas.gamma v) := by
    intro d v
    show _ ≤ signalSpeed c.gas _ _
    unfold signalSpeed frontSpeed sum3
    have h1 := mul_le_mul_of_nonneg_right hk (hpos (computePrimitives c.gas.gamma v)).le
    have h0 := abs_nonneg (computePrimitives c.gas.gamma v (.mom 0))
    have h2 := abs_nonneg (computePrimitives c.gas.gamma v (.mom 1))
    have h3 := abs_nonneg (computePrimitives c.gas.gamma v (.mom 2))
    match d with
    | 0 => linarith
    | 1 => linarith
    | 2 => linarith
  have hfpos : ∀ d v, 0 < frontSpeed c.gas d (v : State K np) := fun d v => by
    unfold frontSpeed
    have := hpos (computePrimitives c.gas.gamma v)
    positivity
  have hmpos : 0 < m := by
    rw [← hm]
    exact (hfpos 0 _).trans_le (hspeed 0 _)
  have hmin : 0 < min (min (c.h 0) (c.h 1)) (c.h 2) := lt_min (lt_min (h.spacing 0) (h.spacing 1)) (h.spacing 2)
  have hle : ∀ d, min (min (c.h 0) (c.h 1)) (c.h 2) ≤ c.h d := by
    intro d
    match d with
    | 0 => exact (min_le_left _ _).trans (min_le_left _ _)
    | 1 => exact (min_le_left _ _).trans (min_le_right _ _)
    | 2 => exact min_le_right _ _
  have hc := h.cfl
  refine ⟨_, _, e, ?_, fun i hi => ⟨fun d hd j hj => ?_, padded_cell c.scheme u i hi, ?_⟩⟩
  · show 0 < c.cfl * min (min (c.h 0) (c.h 1)) (c.h 2) / m
    positivity
  · have had := (h.active d).2 hd
    have hjb : ∀ e, (-(if c.scheme.active e = true then (1 : ℤ) else 0) ≤ j e ∧
        j e < c.n e + (if c.scheme.active e = true then (1 : ℤ) else 0)) := by
      intro e
      have := hi e
      by_cases he : e = d
      · subst he
        rw [if_pos had]
        rcases hj with rfl | rfl | rfl
        · omega
        · simp only [Pi.sub_apply, Pi.single_eq_same]; omega
        · simp only [Pi.add_apply, Pi.single_eq_same]; omega
      · have : j e = i e := by rcases hj with rfl | rfl | rfl <;> simp [he]
        rw [this]
        split_ifs <;> omega
    refine ⟨hb j fun e => ?_, ?_⟩
    · beta_reduce
      rw [h.width]
      have := hjb e
      push_cast
      exact this
    · have h1 := hmax j fun e => by
        have : fluxGw c.scheme.p = 1 := by show fluxGw c.p = 1; unfold fluxGw; simp [h.degree, ceilHalf]
        rw [this]
        exact hjb e
      have h2 := (hspeed d (padded c.scheme u j)).trans h1
      have h3 := h.spacing d
      show c.cfl * min (min (c.h 0) (c.h 1)) (c.h 2) / m / c.h d * _ ≤ c.cfl
      rw [div_div, div_mul_eq_mul_div, div_le_iff₀ (by positivity)]
      have h4 : min (min (c.h 0) (c.h 1)) (c.h 2) * frontSpeed c.gas d (padded c.scheme u j) ≤ c.h d * m :=
        mul_le_mul (hle d) h2 (hfpos _ _).le h3.le
      have := mul_le_mul_of_nonneg_left h4 hc.le
      linarith
  · refine (if_pos hi).trans ?_
    unfold latDiv schemeFlux
    refine Finset.sum_congr rfl fun d _ => ?_
    rw [hW]
    by_cases hd : c.n d ≠ 1
    · rw [if_pos hd, if_pos ((h.active d).2 hd)]
      show _ = (-(1 / c.scheme.h d)) • _
      rw [show c.scheme.p = c.p from rfl, latFlux_zero _ h.degree]
      simp only [add_sub_cancel_right]
      rfl
    · rw [if_neg hd, if_neg (mt (h.active d).1 hd)]

/-- One step of any length up to the proposed one takes states in `P` to states in `C`. -/
theorem FirstOrder.step {c : EulerConfig K np} (h : FirstOrder c) (P C : State K np → Prop) (κ : K)
    (hC : IsCone C) (hneg : ∀ d v, P v → P (negateMom d v)) (hsafe : HalfSafe c.gas c.riem P C κ)
    (hκ : (c.directions.card : K) * c.cfl ≤ κ) (junk : ℕ → Ix → State K np) (mem : Fin 3 → Ix → State K np) (t t' : K)
    (u : Ix → State K np) (hu : ∀ i, InCells c.n i → P (u i)) :
    ∃ dt D, solverRHS c.scheme junk mem t t' u = .ok (dt, D) ∧ 0 < dt ∧ ∀ τ, 0 ≤ τ → τ ≤ dt →
      ∀ i, InCells c.n i → C ((u + τ • D) i) := by
  obtain ⟨dt, D, e, hdt, hD⟩ := h.rhs P hneg junk mem t t' u hu
  refine ⟨dt, D, e, hdt, fun τ h0 hτ i hi => ?_⟩
  obtain ⟨hnb, hpi, hDi⟩ := hD i hi
  obtain ⟨N, hN⟩ : ∃ N : K, N = (c.directions.card : K) := ⟨_, rfl⟩
  have hN1 : 1 ≤ N := by
    rw [hN, ← c.ndim_eq]
    exact_mod_cast h.ndim_pos
  have hN0 : 0 < N := by linarith
  have hdir : ∀ d, d ∈ c.directions ↔ c.n d ≠ 1 := fun d => by
    simp [EulerConfig.directions, h.degree]
  have key : (u + τ • D) i = ∑ d ∈ c.directions, ((1 / N) • u i + τ • ((-(1 / c.h d)) •
        (riemann c.riem c.gas d (computePrimitives c.gas.gamma (padded c.scheme u i))
            (computePrimitives c.gas.gamma (padded c.scheme u (i + Pi.single d 1))) -
          riemann c.riem c.gas d (computePrimitives c.gas.gamma (padded c.scheme u (i - Pi.single d 1)))
            (computePrimitives c.gas.gamma (padded c.scheme u i))))) := by
    rw [Finset.sum_add_distrib, Finset.sum_const, ← Nat.cast_smul_eq_nsmul K, ← hN, smul_smul,
      mul_one_div_cancel hN0.ne', one_smul, ← Finset.smul_sum]
    show u i + τ • D i = _
    rw [hDi]
    congr 2
    have : c.directions = Finset.univ.filter fun d => c.n d ≠ 1 := by
      ext d; rw [hdir]; simp
    rw [this, Finset.sum_filter]
  rw [key]
  refine Finset.sum_induction_nonempty _ C hC.add ?_ fun d hd => ?_
  · rw [← Finset.card_pos]
    have : 0 < (c.directions.card : K) := hN ▸ hN0
    exact_mod_cast this
  · have hd' := (hdir d).1 hd
    obtain ⟨p0, f0⟩ := hnb d hd' i (.inl rfl)
    obtain ⟨p1, f1⟩ := hnb d hd' _ (.inr (.inl rfl))
    obtain ⟨p2, f2⟩ := hnb d hd' _ (.inr (.inr rfl))
    obtain ⟨g, hg⟩ := hsafe d
    have hh := h.spacing d
    have hfp : ∀ v : State K np, 0 ≤ frontSpeed c.gas d v := fun v => by
      unfold frontSpeed
      have := (soundSpeed_spec c.gas h.gas.sqrt h.gas.floor (computePrimitives c.gas.gamma v)).1
      positivity
    have hl : ∀ v : State K np, dt / c.h d * frontSpeed c.gas d v ≤ c.cfl → N * τ / c.h d * frontSpeed c.gas d v ≤ κ := by
      intro v hv
      refine le_trans ?_ hκ
      rw [← hN, mul_div_assoc, mul_assoc]
      refine mul_le_mul_of_nonneg_left (le_trans ?_ hv) hN0.le
      exact mul_le_mul_of_nonneg_right (div_le_div_of_nonneg_right hτ hh.le) (hfp v)
    have hl0 : 0 ≤ N * τ / c.h d := by positivity
    have c1 := (hg _ _ _ p0 p2 hl0 (hl _ f0) (hl _ f2)).1
    have c2 := (hg _ _ _ p1 p0 hl0 (hl _ f1) (hl _ f0)).2
    have c3 := hC.smul (1 / N) _ (by positivity) (hC.add _ _ c1 c2)
    convert c3 using 1
    rw [hpi]
    have e1 : τ • ((-(1 / c.h d)) • (riemann c.riem c.gas d (computePrimitives c.gas.gamma (u i))
            (computePrimitives c.gas.gamma (padded c.scheme u (i + Pi.single d 1))) -
          riemann c.riem c.gas d (computePrimitives c.gas.gamma (padded c.scheme u (i - Pi.single d 1)))
            (computePrimitives c.gas.gamma (u i)))) =
        -((1 / N) * (N * τ / c.h d)) • (riemann c.riem c.gas d (computePrimitives c.gas.gamma (u i))
            (computePrimitives c.gas.gamma (padded c.scheme u (i + Pi.single d 1))) -
          riemann c.riem c.gas d (computePrimitives c.gas.gamma (padded c.scheme u (i - Pi.single d 1)))
            (computePrimitives c.gas.gamma (u i))) := by
      rw [smul_smul]
      congr 1
      field_simp
    rw [e1]
    module

/-- A condition carried by the steps holds throughout a run of the explicit Euler method whose requested times lie
ahead. -/
theorem FirstOrder.run {c : EulerConfig K np} (h : FirstOrder c) (P : State K np → Prop) (Good : (Ix → State K np) → Prop)
    (hstep : ∀ u, Good u → (∀ i, InCells c.n i → P (u i)) → ∀ junk mem t t' dt D,
      solverRHS c.scheme junk mem t t' u = .ok (dt, D) → ∀ τ, 0 ≤ τ → τ ≤ dt →
      ∀ i, InCells c.n i → P ((u + τ • D) i))
    (f : RHS K (Ix → State K np)) (hf : IsCheckedRHS c.scheme Good f) {Sn : Type}
    (mk : ODEState K (Ix → State K np) Sn → Sn) (fuel : ℕ) (a : IntegrateArgs K Sn)
    (st : ODEState K (Ix → State K np) Sn) (h0 : 0 ≤ st.t)
    (hT : ∀ T, a.T = some T → st.t < T ∧ ∀ d ∈ a.downbeats, d = 0 ∨ st.t < d)
    (hP : ∀ i, InCells c.n i → P (st.u i)) (out : Outcome K (Ix → State K np) Sn)
    (hrun : st.integrate (stepper f .euler) mk fuel a = some out) : ∀ i, InCells c.n i → P (out.1.u i) := by
  have hin : ∀ d, c.scheme.active d = false → fluxWidth c.scheme c.p d = 0 := fun d hd => by
    rw [h.width]; simp [hd]
  have hpos : PosDt f := by
    intro s t u dt k hk
    obtain ⟨_, junk, mem, e⟩ := hf s t u _ hk
    obtain ⟨dt', D, e', hd, _⟩ := h.rhs (fun _ => True) (fun _ _ _ => trivial) junk mem s t u fun _ _ => trivial
    rw [e'] at e
    cases e
    exact hd
  have hts : ∀ (st : ODEState K (Ix → State K np) Sn) target, (∀ g, target = some g → st.t < g) →
      (∀ i, InCells c.n i → P (st.u i)) →
      ∀ i, InCells c.n i → P ((st.takeStep (stepper f .euler) target).1.u i) := by
    intro st target hg hP
    unfold ODEState.takeStep
    cases hs : stepper f .euler st.t st.u target with
    | error e => exact hP
    | ok r =>
      obtain ⟨dt', u'⟩ := r
      simp only [stepper, eulerStepper, bind, Except.bind, pure, Except.pure] at hs
      cases hk : f st.t st.t st.u with
      | error e => rw [hk] at hs; cases hs
      | ok r =>
        obtain ⟨dt, D⟩ := r
        rw [hk] at hs
        obtain ⟨hgood, junk, mem, e⟩ := hf _ _ _ _ hk
        have hd := hpos _ _ _ _ _ hk
        simp only [Except.ok.injEq, Prod.mk.injEq] at hs
        obtain ⟨h1, h2⟩ := hs
        have h3 : 0 ≤ hitTarget st.t dt target ∧ hitTarget st.t dt target ≤ dt := by
          cases target with
          | none => exact ⟨hd.le, le_rfl⟩
          | some g =>
            refine ⟨(hitTarget_pos hd (hg g rfl)).le, ?_⟩
            simp only [hitTarget]
            split
            · rename_i hlt; exact hlt.le
            · exact le_rfl
        intro i hi
        show P (u' i)
        rw [← h2]
        exact hstep _ hgood hP junk mem _ _ dt D e _ h3.1 h3.2 i hi
  unfold ODEState.integrate at hrun
  cases hTa : a.T with
  | none =>
    rw [hTa] at hrun
    simp only [Option.some.injEq] at hrun
    rw [← hrun]
    have hsteps : ∀ (n : ℕ) (st : ODEState K (Ix → State K np) Sn), (∀ i, InCells c.n i → P (st.u i)) →
        ∀ i, InCells c.n i → P ((st.takeSteps (stepper f .euler) n).1.u i) := by
      intro n
      induction n with
      | zero => exact fun st h => h
      | succ n ih =>
        intro st hst
        unfold ODEState.takeSteps
        have := hts st none (fun g hg => by cases hg) hst
        generalize st.takeStep (stepper f .euler) none = r at this
        obtain ⟨st1, e⟩ := r
        cases e with
        | some e => exact this
        | none => exact ih st1 this
    unfold ODEState.integrateN
    cases a.n with
    | none => exact hP
    | some n =>
      have := hsteps n (st.snapshot mk) hP
      simp only
      generalize (st.snapshot mk).takeSteps (stepper f .euler) n = r at this
      obtain ⟨st1, e⟩ := r
      cases e with
      | some e => exact this
      | none => exact this
  | some T =>
    rw [hTa] at hrun
    obtain ⟨hT1, hT2⟩ := hT T hTa
    cases hsv : a.saved with
    | some l =>
      rw [hsv] at hrun
      simp only [Option.some.injEq] at hrun
      rw [← hrun]
      exact hP
    | none =>
      rw [hsv] at hrun
      exact integrateT_preserves_fwd (posStepper_of_posDt hpos .euler)
        (fun st => ∀ i, InCells c.n i → P (st.u i)) hts (fun st h => h) T a.exact a.downbeats a.logEvery fuel st h0
        hT1 hT2 out hP hrun

end FVHOE
