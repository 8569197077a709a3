import Verif.Proofs.ODERel

/-! Runs of two right-hand sides related up to a change of the unit of time. -/

set_option linter.unusedSectionVars false

namespace FVHOE

variable {K : Type} [Field K] [LinearOrder K] [IsStrictOrderedRing K]
variable {U : Type} [AddCommGroup U] [Module K U] {U' : Type} [AddCommGroup U'] [Module K U']
variable {S S' : Type}

/-- Two results raise the same exception, or times in the ratio `τ` with related values. -/
def ScaledRes (τ : K) (R : U → U' → Prop) : Except PyErr (K × U) → Except PyErr (K × U') → Prop
  | .error e, .error e' => e = e'
  | .ok r, .ok r' => r'.1 = τ * r.1 ∧ R r.2 r'.2
  | _, _ => False

/-- The same with the derivatives in the new unit of time. -/
def ScaledRHS (τ : K) (R : U → U' → Prop) (x : Except PyErr (K × U)) (x' : Except PyErr (K × U')) : Prop :=
  ScaledRes τ (fun k k' => R k (τ • k')) x x'

theorem ScaledRes.bind {τ : K} {R Q : U → U' → Prop} {x : Except PyErr (K × U)} {x' : Except PyErr (K × U')}
    (h : ScaledRes τ R x x') {g : K × U → Except PyErr (K × U)} {g' : K × U' → Except PyErr (K × U')}
    (hg : ∀ dt k k', R k k' → ScaledRes τ Q (g (dt, k)) (g' (τ * dt, k'))) :
    ScaledRes τ Q (x >>= g) (x' >>= g') := by
  cases x with
  | error e =>
    cases x' with
    | error e' => exact h
    | ok r' => exact h.elim
  | ok r =>
    cases x' with
    | error e' => exact h.elim
    | ok r' =>
      obtain ⟨h1, h2⟩ := h
      obtain ⟨dt, k⟩ := r
      obtain ⟨dt', k'⟩ := r'
      simp only at h1
      subst h1
      exact hg _ _ _ h2

theorem hitTarget_scaled {τ : K} (hτ : 0 < τ) (t dt : K) (target : Option K) :
    hitTarget (τ * t) (τ * dt) (target.map (τ * ·)) = τ * hitTarget t dt target := by
  cases target with
  | none => rfl
  | some x =>
    simp only [hitTarget, Option.map, ← mul_sub]
    have : τ * (x - t) < τ * dt ↔ x - t < dt := mul_lt_mul_iff_right₀ hτ
    by_cases hx : x - t < dt
    · rw [if_pos hx, if_pos (this.2 hx)]
    · rw [if_neg hx, if_neg (fun h => hx (this.1 h))]

theorem InRel.step {R : Submodule K (U × U')} {τ : K} {k : U} {k' : U'} (h : InRel R k (τ • k')) (c : K) :
    InRel R (c • k) ((τ * c) • k') := by
  have := h.smul c
  rwa [smul_smul, mul_comm] at this

theorem stepper_scaled {τ : K} (hτ : 0 < τ) (R : Submodule K (U × U')) (f : RHS K U) (f' : RHS K U')
    (hf : ∀ s t u u', InRel R u u' → ScaledRHS τ (InRel R) (f s t u) (f' (τ * s) (τ * t) u'))
    (m : Integrator) (t : K) (u : U) (u' : U') (hu : InRel R u u') (target : Option K) :
    ScaledRes τ (InRel R) (stepper f m t u target) (stepper f' m (τ * t) u' (target.map (τ * ·))) := by
  cases m with
  | euler =>
    refine (hf t t u u' hu).bind fun dt k k' hk => ?_
    have e := hitTarget_scaled hτ t dt target
    refine ⟨e, ?_⟩
    dsimp only
    rw [e]
    exact hu.add (hk.step _)
  | ssprk2 =>
    refine (hf t t u u' hu).bind fun dt k k' hk => ?_
    have e := hitTarget_scaled hτ t dt target
    have h1 := hu.add (hk.step (hitTarget t dt target))
    dsimp only
    rw [e]
    refine (hf t t _ _ h1).bind fun dt1 k1 k1' hk1 => ⟨rfl, ?_⟩
    exact (hu.smul _).add ((h1.add (hk1.step _)).smul _)
  | ssprk3 =>
    refine (hf t t u u' hu).bind fun dt k k' hk => ?_
    have e := hitTarget_scaled hτ t dt target
    dsimp only
    rw [e]
    set δ := hitTarget t dt target
    have e1 : τ * t + τ * δ = τ * (t + δ) := by ring
    have e2 : τ * t + (1 / 2 : K) * (τ * δ) = τ * (t + (1 / 2) * δ) := by ring
    have e3 : ∀ c : K, c * (τ * δ) = τ * (c * δ) := fun c => by ring
    rw [e1, e2]
    simp only [e3]
    refine (hf _ _ _ _ (hu.add (hk.step _))).bind fun dt1 k1 k1' hk1 => ?_
    refine (hf _ _ _ _ ((hu.add (hk.step _)).add (hk1.step _))).bind fun dt2 k2 k2' hk2 => ⟨rfl, ?_⟩
    have : InRel R (k + k1 + (4 : K) • k2) (τ • (k' + k1' + (4 : K) • k2')) := by
      have := (hk.add hk1).add (hk2.smul 4)
      convert this using 1
      rw [smul_add, smul_add, smul_comm]
    exact hu.add (this.step _)
  | rk4 =>
    refine (hf t t u u' hu).bind fun dt k k' hk => ?_
    have e := hitTarget_scaled hτ t dt target
    dsimp only
    rw [e]
    set δ := hitTarget t dt target
    have e1 : τ * t + τ * δ = τ * (t + δ) := by ring
    have e2 : τ * t + (1 / 2 : K) * (τ * δ) = τ * (t + (1 / 2) * δ) := by ring
    have e3 : ∀ c : K, c * (τ * δ) = τ * (c * δ) := fun c => by ring
    rw [e1, e2]
    simp only [e3]
    refine (hf _ _ _ _ (hu.add (hk.step _))).bind fun dt1 k1 k1' hk1 => ?_
    refine (hf _ _ _ _ (hu.add (hk1.step _))).bind fun dt2 k2 k2' hk2 => ?_
    refine (hf _ _ _ _ (hu.add (hk2.step _))).bind fun dt3 k3 k3' hk3 => ⟨rfl, ?_⟩
    have : InRel R (k + (2 : K) • k1 + (2 : K) • k2 + k3) (τ • (k' + (2 : K) • k1' + (2 : K) • k2' + k3')) := by
      have := ((hk.add (hk1.smul 2)).add (hk2.smul 2)).add hk3
      convert this using 1
      rw [smul_add, smul_add, smul_add, smul_comm τ (2 : K) k1', smul_comm τ (2 : K) k2']
    exact hu.add (this.step _)

/-- Objects related up to the unit of time: times in the ratio `τ`, same step counts, related states and
snapshots. -/
structure ScaledState (τ : K) (R : U → U' → Prop) (Q : S → S' → Prop) (st : ODEState K U S)
    (st' : ODEState K U' S') : Prop where
  t : st'.t = τ * st.t
  timestamps : st'.timestamps = st.timestamps.map (τ * ·)
  stepCount : st'.stepCount = st.stepCount
  u : R st.u st'.u
  snapshots : List.Forall₂ Q st.snapshots st'.snapshots
  snapshotTimes : st'.snapshotTimes = st.snapshotTimes.map (τ * ·)

/-- Related outcomes: related objects and the same exception. -/
def ScaledOut (τ : K) (R : U → U' → Prop) (Q : S → S' → Prop) (o : Outcome K U S) (o' : Outcome K U' S') : Prop :=
  ScaledState τ R Q o.1 o'.1 ∧ o.2 = o'.2

section
variable {τ : K} {R : U → U' → Prop} {Q : S → S' → Prop}
variable {stp : K → U → Option K → Except PyErr (K × U)}
variable {stp' : K → U' → Option K → Except PyErr (K × U')}
variable {mk : ODEState K U S → S} {mk' : ODEState K U' S' → S'}

theorem ScaledState.snapshot (hmk : ∀ st st', ScaledState τ R Q st st' → Q (mk st) (mk' st'))
    {st : ODEState K U S} {st' : ODEState K U' S'} (h : ScaledState τ R Q st st') :
    ScaledState τ R Q (st.snapshot mk) (st'.snapshot mk') where
  t := h.t
  timestamps := h.timestamps
  stepCount := h.stepCount
  u := h.u
  snapshots := List.rel_append h.snapshots (List.Forall₂.cons (hmk st st' h) List.Forall₂.nil)
  snapshotTimes := by simp only [ODEState.snapshot, h.snapshotTimes, h.t, List.map_append, List.map_cons, List.map_nil]

variable (hs : ∀ t u u' target, R u u' → ScaledRes τ R (stp t u target) (stp' (τ * t) u' (target.map (τ * ·))))
include hs

theorem takeStep_scaled {st : ODEState K U S} {st' : ODEState K U' S'} (h : ScaledState τ R Q st st')
    (target : Option K) :
    ScaledOut τ R Q (st.takeStep stp target) (st'.takeStep stp' (target.map (τ * ·))) := by
  have key := hs st.t st.u st'.u target h.u
  unfold ODEState.takeStep
  rw [h.t]
  cases hx : stp st.t st.u target with
  | error e =>
    rw [hx] at key
    cases hx' : stp' (τ * st.t) st'.u (target.map (τ * ·)) with
    | error e' => rw [hx'] at key; exact ⟨h, congrArg some key⟩
    | ok r' => rw [hx'] at key; exact key.elim
  | ok r =>
    rw [hx] at key
    cases hx' : stp' (τ * st.t) st'.u (target.map (τ * ·)) with
    | error e' => rw [hx'] at key; exact key.elim
    | ok r' =>
      rw [hx'] at key
      obtain ⟨h1, h2⟩ := key
      refine ⟨⟨?_, ?_, ?_, h2, h.snapshots, h.snapshotTimes⟩, rfl⟩
      · simp only [h1, mul_add]
      · simp only [h.timestamps, h1, mul_add, List.map_append, List.map_cons, List.map_nil]
      · simp only [h.stepCount]

theorem takeSteps_scaled (n : ℕ) : ∀ {st : ODEState K U S} {st' : ODEState K U' S'}, ScaledState τ R Q st st' →
    ScaledOut τ R Q (st.takeSteps stp n) (st'.takeSteps stp' n) := by
  induction n with
  | zero => exact fun h => ⟨h, rfl⟩
  | succ n ih =>
    intro st st' h
    have h1 := takeStep_scaled hs h none
    unfold ODEState.takeSteps
    change ScaledOut τ R Q (st.takeStep stp none) (st'.takeStep stp' none) at h1
    generalize st.takeStep stp none = o at h1
    generalize st'.takeStep stp' none = o' at h1
    obtain ⟨st1, e⟩ := o
    obtain ⟨st1', e'⟩ := o'
    obtain ⟨h2, h3⟩ := h1
    simp only at h3
    subst h3
    cases e with
    | some e => exact ⟨h2, rfl⟩
    | none => exact ih h2

theorem loop_scaled (hτ : 0 < τ) (hmk : ∀ st st', ScaledState τ R Q st st' → Q (mk st) (mk' st')) (T : K)
    (logEvery : Bool) (fuel : ℕ) :
    ∀ (target : Option K) (ds : List K) {st : ODEState K U S} {st' : ODEState K U' S'},
      ScaledState τ R Q st st' →
      Option.Rel (ScaledOut τ R Q) (st.loop stp mk T logEvery fuel target ds)
        (st'.loop stp' mk' (τ * T) logEvery fuel (target.map (τ * ·)) (ds.map (τ * ·))) := by
  have hinj : Function.Injective fun x : K => τ * x := mul_right_injective₀ hτ.ne'
  have heq : ∀ (target : Option K) (x : K), target.map (τ * ·) = some (τ * x) ↔ target = some x := by
    intro target x
    cases target with
    | none => simp
    | some y => simp only [Option.map, Option.some.injEq]; exact hinj.eq_iff
  induction fuel with
  | zero => intro target ds st st' h; exact .none
  | succ fuel ih =>
    intro target ds st st' h
    unfold ODEState.loop
    rw [h.t]
    by_cases hT : st.t < T
    · rw [if_pos hT, if_pos ((mul_lt_mul_iff_right₀ hτ).2 hT)]
      have h1 := takeStep_scaled hs h target
      generalize st.takeStep stp target = o at h1
      generalize st'.takeStep stp' (target.map (τ * ·)) = o' at h1
      obtain ⟨st1, e⟩ := o
      obtain ⟨st1', e'⟩ := o'
      obtain ⟨h2, h3⟩ := h1
      simp only at h3
      subst h3
      cases e with
      | some e => exact .some ⟨h2, rfl⟩
      | none =>
        simp only at h2 ⊢
        rw [h2.t]
        simp only [heq, mul_le_mul_iff_right₀ hτ]
        split
        · cases ds with
          | nil => exact ih _ _ (h2.snapshot hmk)
          | cons d ds =>
            simp only [List.map_cons]
            split
            · exact ih (some d) ds (h2.snapshot hmk)
            · exact ih target (d :: ds) (h2.snapshot hmk)
        · exact ih _ _ h2
    · rw [if_neg hT, if_neg (fun h => hT ((mul_lt_mul_iff_right₀ hτ).1 h))]
      exact .some ⟨h, rfl⟩

end

theorem keyTimes_scaled {τ : K} (hτ : 0 < τ) (ds : List K) (T : K) :
    keyTimes (ds.map (τ * ·)) (τ * T) = (keyTimes ds T).map (τ * ·) := by
  have hinj : Function.Injective fun x : K => τ * x := mul_right_injective₀ hτ.ne'
  unfold keyTimes
  have h := List.map_insertionSort (r := (· ≤ ·)) (s := (· ≤ ·)) (f := fun x : K => τ * x)
    (l := (0 :: (ds ++ [T])).dedup) fun a _ b _ => (mul_le_mul_iff_right₀ hτ).symm
  rw [List.map_tail, h]
  rw [← List.dedup_map_of_injective hinj]
  simp

/-- Two solvers with right-hand sides related up to the unit of time run in step: times in the ratio `τ`, same
exceptions, related states and snapshots. -/
theorem integrate_scaled {τ : K} (hτ : 0 < τ) (R : Submodule K (U × U')) (Q : S → S' → Prop) (f : RHS K U)
    (f' : RHS K U')
    (hf : ∀ s t u u', InRel R u u' → ScaledRHS τ (InRel R) (f s t u) (f' (τ * s) (τ * t) u')) (m : Integrator)
    (mk : ODEState K U S → S) (mk' : ODEState K U' S' → S')
    (hmk : ∀ st st', ScaledState τ (InRel R) Q st st' → Q (mk st) (mk' st'))
    (fuel : ℕ) (T : Option K) (n : Option ℕ) (exact : Bool) (downbeats : List K) (logEvery : Bool)
    (st : ODEState K U S) (st' : ODEState K U' S') (h : ScaledState τ (InRel R) Q st st') :
    Option.Rel (ScaledOut τ (InRel R) Q)
      (st.integrate (stepper f m) mk fuel ⟨T, n, exact, downbeats, logEvery, none⟩)
      (st'.integrate (stepper f' m) mk' fuel
        ⟨T.map (τ * ·), n, exact, downbeats.map (τ * ·), logEvery, none⟩) := by
  have hs := fun t u u' target hu => stepper_scaled hτ R f f' hf m t u u' hu target
  unfold ODEState.integrate
  cases T with
  | none =>
    simp only [Option.map_none]
    unfold ODEState.integrateN
    cases n with
    | none => exact .some ⟨h.snapshot hmk, rfl⟩
    | some n =>
      simp only
      have h1 := takeSteps_scaled hs n (h.snapshot hmk)
      generalize (st.snapshot mk).takeSteps (stepper f m) n = o at h1
      generalize (st'.snapshot mk').takeSteps (stepper f' m) n = o' at h1
      obtain ⟨st1, e⟩ := o
      obtain ⟨st1', e'⟩ := o'
      obtain ⟨h2, h3⟩ := h1
      simp only at h3
      subst h3
      cases e with
      | some e => exact .some ⟨h2, rfl⟩
      | none => exact .some ⟨h2.snapshot hmk, rfl⟩
  | some T =>
    simp only [Option.map_some]
    unfold ODEState.integrateT
    rw [keyTimes_scaled hτ]
    split
    · cases keyTimes downbeats T with
      | nil => exact .some ⟨h, rfl⟩
      | cons d ds => exact loop_scaled hs hτ hmk T _ fuel (some d) ds (h.snapshot hmk)
    · exact loop_scaled hs hτ hmk T _ fuel none _ (h.snapshot hmk)

end FVHOE
