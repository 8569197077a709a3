import Verif.Props.C28_C30

/-! Invariant cosets of runs, and runs of two related right-hand sides. -/

set_option linter.unusedSectionVars false

namespace FVHOE

variable {K : Type} [Field K] [LinearOrder K] [IsStrictOrderedRing K]
variable {U : Type} [AddCommGroup U] [Module K U] {U' : Type} [AddCommGroup U'] [Module K U']
variable {S S' : Type}

/-- If the derivative lies in `W` at every state of the coset of `u`, a step stays in the coset. -/
theorem stepper_coset (f : RHS K U) (W : Submodule K U) (u : U)
    (hf : ∀ s t v dt k, v - u ∈ W → f s t v = .ok (dt, k) → k ∈ W) (m : Integrator) (t : K)
    (target : Option K) (dt : K) (u' : U) (h : stepper f m t u target = .ok (dt, u')) :
    u' - u ∈ W := by
  have hu : u - u ∈ W := by rw [sub_self]; exact W.zero_mem
  cases m with
  | euler =>
    simp only [stepper, eulerStepper] at h
    cases h0 : f t t u with
    | error e => rw [h0] at h; cases h
    | ok r =>
      rw [h0] at h; cases h
      have := hf _ _ _ _ _ hu h0
      simpa using W.smul_mem _ this
  | ssprk2 =>
    simp only [stepper, ssprk2Stepper] at h
    cases h0 : f t t u with
    | error e => rw [h0] at h; cases h
    | ok r =>
      rw [h0] at h
      simp only [bind, Except.bind] at h
      cases h1 : f t t (u + hitTarget t r.1 target • r.2) with
      | error e => rw [h1] at h; cases h
      | ok r1 =>
        rw [h1] at h; cases h
        have a0 := hf _ _ _ _ _ hu h0
        have a1 := hf _ _ _ _ _ (by rw [add_sub_cancel_left]; exact W.smul_mem _ a0) h1
        have : ((1 / 2 : K) • u + (1 / 2 : K) • (u + hitTarget t r.1 target • r.2 +
            hitTarget t r.1 target • r1.2)) - u =
            (1 / 2 * hitTarget t r.1 target) • r.2 + (1 / 2 * hitTarget t r.1 target) • r1.2 := by
          module
        rw [this]
        exact W.add_mem (W.smul_mem _ a0) (W.smul_mem _ a1)
  | ssprk3 =>
    simp only [stepper, ssprk3Stepper] at h
    cases h0 : f t t u with
    | error e => rw [h0] at h; cases h
    | ok r =>
      rw [h0] at h
      simp only [bind, Except.bind] at h
      split at h
      · cases h
      · rename_i r1 h1
        split at h
        · cases h
        · rename_i r2 h2
          cases h
          have a0 := hf _ _ _ _ _ hu h0
          have a1 := hf _ _ _ _ _ (by rw [add_sub_cancel_left]; exact W.smul_mem _ a0) h1
          have a2 := hf _ _ _ _ _ (by
            rw [add_assoc, add_sub_cancel_left]
            exact W.add_mem (W.smul_mem _ a0) (W.smul_mem _ a1)) h2
          rw [add_sub_cancel_left]
          exact W.smul_mem _ (W.add_mem (W.add_mem a0 a1) (W.smul_mem _ a2))
  | rk4 =>
    simp only [stepper, rk4Stepper] at h
    cases h0 : f t t u with
    | error e => rw [h0] at h; cases h
    | ok r =>
      rw [h0] at h
      simp only [bind, Except.bind] at h
      split at h
      · cases h
      · rename_i r1 h1
        split at h
        · cases h
        · rename_i r2 h2
          split at h
          · cases h
          · rename_i r3 h3
            cases h
            have a0 := hf _ _ _ _ _ hu h0
            have a1 := hf _ _ _ _ _ (by rw [add_sub_cancel_left]; exact W.smul_mem _ a0) h1
            have a2 := hf _ _ _ _ _ (by rw [add_sub_cancel_left]; exact W.smul_mem _ a1) h2
            have a3 := hf _ _ _ _ _ (by rw [add_sub_cancel_left]; exact W.smul_mem _ a2) h3
            rw [add_sub_cancel_left]
            exact W.smul_mem _ (W.add_mem (W.add_mem (W.add_mem a0 (W.smul_mem _ a1))
              (W.smul_mem _ a2)) a3)

/-- If the derivative lies in `W` at every state of a coset, a run stays in the coset. -/
theorem integrate_coset (f : RHS K U) (W : Submodule K U) (u0 : U)
    (hf : ∀ s t v dt k, v - u0 ∈ W → f s t v = .ok (dt, k) → k ∈ W) (m : Integrator)
    (mk : ODEState K U S → S) (fuel : ℕ) (a : IntegrateArgs K S) (st : ODEState K U S)
    (out : Outcome K U S) (h0 : st.u - u0 ∈ W)
    (h : st.integrate (stepper f m) mk fuel a = some out) : out.1.u - u0 ∈ W := by
  refine integrate_preserves (fun s => s.u - u0 ∈ W) ?_ (fun _ h => h) fuel a
    (fun _ _ _ _ h => h) st out h0 h
  intro s target hs
  unfold ODEState.takeStep
  cases hst : stepper f m s.t s.u target with
  | error e => exact hs
  | ok r =>
    have := stepper_coset f W s.u (fun s' t v dt k hv hk => hf s' t v dt k (by
      have := W.add_mem hv hs
      rwa [sub_add_sub_cancel] at this) hk) m _ _ r.1 r.2 hst
    have := W.add_mem this hs
    rwa [sub_add_sub_cancel] at this

/-! ### Related runs -/

/-- Two evaluations raise the same exception, or propose the same step with related derivatives. -/
def RelRes (R : U → U' → Prop) : Except PyErr (K × U) → Except PyErr (K × U') → Prop
  | .error e, .error e' => e = e'
  | .ok r, .ok r' => r.1 = r'.1 ∧ R r.2 r'.2
  | _, _ => False

/-- The graph of a linear relation. -/
def InRel (R : Submodule K (U × U')) (u : U) (u' : U') : Prop := (u, u') ∈ R

theorem InRel.add {R : Submodule K (U × U')} {a b : U} {a' b' : U'} (h : InRel R a a')
    (h' : InRel R b b') : InRel R (a + b) (a' + b') := R.add_mem h h'

theorem InRel.smul {R : Submodule K (U × U')} {a : U} {a' : U'} (c : K) (h : InRel R a a') :
    InRel R (c • a) (c • a') := R.smul_mem c h

theorem RelRes.bind {R : U → U' → Prop} {x : Except PyErr (K × U)} {x' : Except PyErr (K × U')}
    (h : RelRes R x x') {g : K × U → Except PyErr (K × U)} {g' : K × U' → Except PyErr (K × U')}
    (hg : ∀ dt k k', R k k' → RelRes R (g (dt, k)) (g' (dt, k'))) :
    RelRes R (x >>= g) (x' >>= g') := by
  cases x with
  | error e =>
    cases x' with
    | error e' => exact h
    | ok r' => exact h.elim
  | ok r =>
    cases x' with
    | error e' => exact h.elim
    | ok r' =>
      obtain ⟨h1, h2⟩ := h
      obtain ⟨dt, k⟩ := r
      obtain ⟨dt', k'⟩ := r'
      simp only at h1
      subst h1
      exact hg _ _ _ h2

theorem stepper_rel (R : Submodule K (U × U')) (f : RHS K U) (f' : RHS K U')
    (hf : ∀ s t u u', InRel R u u' → RelRes (InRel R) (f s t u) (f' s t u')) (m : Integrator) (t : K)
    (u : U) (u' : U') (hu : InRel R u u') (target : Option K) :
    RelRes (InRel R) (stepper f m t u target) (stepper f' m t u' target) := by
  cases m with
  | euler =>
    refine (hf t t u u' hu).bind fun dt k k' hk => ⟨rfl, ?_⟩
    exact hu.add (hk.smul _)
  | ssprk2 =>
    refine (hf t t u u' hu).bind fun dt k k' hk => ?_
    have h1 := hu.add (hk.smul (hitTarget t dt target))
    refine (hf t t _ _ h1).bind fun dt1 k1 k1' hk1 => ⟨rfl, ?_⟩
    exact (hu.smul _).add ((h1.add (hk1.smul _)).smul _)
  | ssprk3 =>
    refine (hf t t u u' hu).bind fun dt k k' hk => ?_
    refine (hf _ _ _ _ (hu.add (hk.smul _))).bind fun dt1 k1 k1' hk1 => ?_
    refine (hf _ _ _ _ ((hu.add (hk.smul _)).add (hk1.smul _))).bind fun dt2 k2 k2' hk2 => ⟨rfl, ?_⟩
    exact hu.add (((hk.add hk1).add (hk2.smul _)).smul _)
  | rk4 =>
    refine (hf t t u u' hu).bind fun dt k k' hk => ?_
    refine (hf _ _ _ _ (hu.add (hk.smul _))).bind fun dt1 k1 k1' hk1 => ?_
    refine (hf _ _ _ _ (hu.add (hk1.smul _))).bind fun dt2 k2 k2' hk2 => ?_
    refine (hf _ _ _ _ (hu.add (hk2.smul _))).bind fun dt3 k3 k3' hk3 => ⟨rfl, ?_⟩
    exact hu.add ((((hk.add (hk1.smul _)).add (hk2.smul _)).add hk3).smul _)

/-- Related objects: same times and step counts, related states and snapshots. -/
structure RelState (R : U → U' → Prop) (Q : S → S' → Prop) (st : ODEState K U S)
    (st' : ODEState K U' S') : Prop where
  t : st.t = st'.t
  timestamps : st.timestamps = st'.timestamps
  stepCount : st.stepCount = st'.stepCount
  u : R st.u st'.u
  snapshots : List.Forall₂ Q st.snapshots st'.snapshots
  snapshotTimes : st.snapshotTimes = st'.snapshotTimes

/-- Related outcomes: related objects and the same exception. -/
def RelOut (R : U → U' → Prop) (Q : S → S' → Prop) (o : Outcome K U S) (o' : Outcome K U' S') : Prop :=
  RelState R Q o.1 o'.1 ∧ o.2 = o'.2

section
variable {R : U → U' → Prop} {Q : S → S' → Prop}
variable {stp : K → U → Option K → Except PyErr (K × U)}
variable {stp' : K → U' → Option K → Except PyErr (K × U')}
variable {mk : ODEState K U S → S} {mk' : ODEState K U' S' → S'}

theorem RelState.snapshot (hmk : ∀ st st', RelState R Q st st' → Q (mk st) (mk' st'))
    {st : ODEState K U S} {st' : ODEState K U' S'} (h : RelState R Q st st') :
    RelState R Q (st.snapshot mk) (st'.snapshot mk') where
  t := h.t
  timestamps := h.timestamps
  stepCount := h.stepCount
  u := h.u
  snapshots := List.rel_append h.snapshots (List.Forall₂.cons (hmk st st' h) List.Forall₂.nil)
  snapshotTimes := by simp only [ODEState.snapshot, h.snapshotTimes, h.t]

theorem takeStep_rel
    (hs : ∀ t u u' target, R u u' → RelRes R (stp t u target) (stp' t u' target))
    {st : ODEState K U S} {st' : ODEState K U' S'} (h : RelState R Q st st') (target : Option K) :
    RelOut R Q (st.takeStep stp target) (st'.takeStep stp' target) := by
  have key := hs st.t st.u st'.u target h.u
  unfold ODEState.takeStep
  rw [← h.t]
  cases hx : stp st.t st.u target with
  | error e =>
    rw [hx] at key
    cases hx' : stp' st.t st'.u target with
    | error e' => rw [hx'] at key; exact ⟨h, congrArg some key⟩
    | ok r' => rw [hx'] at key; exact key.elim
  | ok r =>
    rw [hx] at key
    cases hx' : stp' st.t st'.u target with
    | error e' => rw [hx'] at key; exact key.elim
    | ok r' =>
      rw [hx'] at key
      obtain ⟨h1, h2⟩ := key
      refine ⟨⟨?_, ?_, ?_, h2, h.snapshots, h.snapshotTimes⟩, rfl⟩
      · simp only [h1]
      · simp only [h.timestamps, h1]
      · simp only [h.stepCount]

theorem takeSteps_rel
    (hs : ∀ t u u' target, R u u' → RelRes R (stp t u target) (stp' t u' target)) (n : ℕ) :
    ∀ {st : ODEState K U S} {st' : ODEState K U' S'}, RelState R Q st st' →
      RelOut R Q (st.takeSteps stp n) (st'.takeSteps stp' n) := by
  induction n with
  | zero => exact fun h => ⟨h, rfl⟩
  | succ n ih =>
    intro st st' h
    have h1 := takeStep_rel hs h none
    unfold ODEState.takeSteps
    generalize st.takeStep stp none = o at h1
    generalize st'.takeStep stp' none = o' at h1
    obtain ⟨st1, e⟩ := o
    obtain ⟨st1', e'⟩ := o'
    obtain ⟨h2, h3⟩ := h1
    simp only at h3
    subst h3
    cases e with
    | some e => exact ⟨h2, rfl⟩
    | none => exact ih h2

theorem loop_rel (hs : ∀ t u u' target, R u u' → RelRes R (stp t u target) (stp' t u' target))
    (hmk : ∀ st st', RelState R Q st st' → Q (mk st) (mk' st')) (T : K) (logEvery : Bool) (fuel : ℕ) :
    ∀ (target : Option K) (ds : List K) {st : ODEState K U S} {st' : ODEState K U' S'},
      RelState R Q st st' →
      Option.Rel (RelOut R Q) (st.loop stp mk T logEvery fuel target ds)
        (st'.loop stp' mk' T logEvery fuel target ds) := by
  induction fuel with
  | zero => intro target ds st st' h; exact .none
  | succ fuel ih =>
    intro target ds st st' h
    unfold ODEState.loop
    rw [← h.t]
    by_cases hT : st.t < T
    · simp only [hT, if_true]
      have h1 := takeStep_rel hs h target
      generalize st.takeStep stp target = o at h1
      generalize st'.takeStep stp' target = o' at h1
      obtain ⟨st1, e⟩ := o
      obtain ⟨st1', e'⟩ := o'
      obtain ⟨h2, h3⟩ := h1
      simp only at h3
      subst h3
      cases e with
      | some e => exact .some ⟨h2, rfl⟩
      | none =>
        simp only at h2 ⊢
        rw [← h2.t]
        split
        · cases ds with
          | nil => exact ih _ _ (h2.snapshot hmk)
          | cons d ds =>
            simp only
            split
            · exact ih _ _ (h2.snapshot hmk)
            · exact ih _ _ (h2.snapshot hmk)
        · exact ih _ _ h2
    · simp only [hT, if_false]
      exact .some ⟨h, rfl⟩

end

/-- Two solvers with related right-hand sides run in step: same times, same exceptions, related
states and snapshots. -/
theorem integrate_rel (R : Submodule K (U × U')) (Q : S → S' → Prop) (f : RHS K U) (f' : RHS K U')
    (hf : ∀ s t u u', InRel R u u' → RelRes (InRel R) (f s t u) (f' s t u')) (m : Integrator)
    (mk : ODEState K U S → S) (mk' : ODEState K U' S' → S')
    (hmk : ∀ st st', RelState (InRel R) Q st st' → Q (mk st) (mk' st'))
    (fuel : ℕ) (a : IntegrateArgs K S) (a' : IntegrateArgs K S')
    (ha : a.T = a'.T ∧ a.n = a'.n ∧ a.exact = a'.exact ∧ a.downbeats = a'.downbeats ∧
      a.logEvery = a'.logEvery ∧ Option.Rel (List.Forall₂ Q) a.saved a'.saved)
    (st : ODEState K U S) (st' : ODEState K U' S') (h : RelState (InRel R) Q st st') :
    Option.Rel (RelOut (InRel R) Q) (st.integrate (stepper f m) mk fuel a)
      (st'.integrate (stepper f' m) mk' fuel a') := by
  have hs := fun t u u' target hu => stepper_rel R f f' hf m t u u' hu target
  obtain ⟨e1, e2, e3, e4, e5, e6⟩ := ha
  unfold ODEState.integrate
  rw [← e1]
  cases a.T with
  | none =>
    simp only
    unfold ODEState.integrateN
    rw [← e2]
    cases a.n with
    | none => exact .some ⟨h.snapshot hmk, rfl⟩
    | some n =>
      simp only
      have h1 := takeSteps_rel hs n (h.snapshot hmk)
      generalize (st.snapshot mk).takeSteps (stepper f m) n = o at h1
      generalize (st'.snapshot mk').takeSteps (stepper f' m) n = o' at h1
      obtain ⟨st1, e⟩ := o
      obtain ⟨st1', e'⟩ := o'
      obtain ⟨h2, h3⟩ := h1
      simp only at h3
      subst h3
      cases e with
      | some e => exact .some ⟨h2, rfl⟩
      | none => exact .some ⟨h2.snapshot hmk, rfl⟩
  | some T =>
    simp only
    cases hsv : a.saved with
    | some l =>
      cases hsv' : a'.saved with
      | none => rw [hsv, hsv'] at e6; cases e6
      | some l' =>
        rw [hsv, hsv'] at e6
        cases e6 with
        | some hl => exact .some ⟨⟨h.t, h.timestamps, h.stepCount, h.u, hl, h.snapshotTimes⟩, rfl⟩
    | none =>
      cases hsv' : a'.saved with
      | some l' => rw [hsv, hsv'] at e6; cases e6
      | none =>
        simp only
        unfold ODEState.integrateT
        rw [← e3, ← e4, ← e5]
        split
        · cases keyTimes a.downbeats T with
          | nil => exact .some ⟨h, rfl⟩
          | cons d ds => exact loop_rel hs hmk T _ fuel _ _ (h.snapshot hmk)
        · exact loop_rel hs hmk T _ fuel _ _ (h.snapshot hmk)

end FVHOE
