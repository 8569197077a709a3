import Verif.Props.C28_C30

/-!
Convex sets under whole runs of the strong-stability-preserving integrators.
-/

set_option linter.unusedSectionVars false

namespace FVHOE

variable {K : Type} [Field K] [LinearOrder K] [IsStrictOrderedRing K] {U S : Type} [AddCommGroup U] [Module K U]

/-- `C29_run` for every way of calling `integrate`. -/
theorem run_convex (f : RHS K U) (hf : PosDt f) (C : Set U) (hC : Convex K C) (m : Integrator) (hm : m.SSP)
    (hE : ∀ s w dσ l, w ∈ C → f s s w = .ok (dσ, l) → ∀ h, 0 < h → h ≤ dσ →
      ∀ τ v dτ k, v ∈ C → f s τ v = .ok (dτ, k) → v + h • k ∈ C)
    (mk : ODEState K U S → S) (fuel : ℕ) (a : IntegrateArgs K S) (st : ODEState K U S) (h0 : 0 ≤ st.t)
    (hT : ∀ T, a.T = some T → st.t < T ∧ ∀ d ∈ a.downbeats, d = 0 ∨ st.t < d) (hst : st.u ∈ C)
    (out : Outcome K U S) (h : st.integrate (stepper f m) mk fuel a = some out) : out.1.u ∈ C := by
  have hts : ∀ (st : ODEState K U S) target, (∀ g, target = some g → st.t < g) → st.u ∈ C →
      (st.takeStep (stepper f m) target).1.u ∈ C := by
    intro s target htg hs
    unfold ODEState.takeStep
    cases hr : stepper f m s.t s.u target with
    | error e => exact hs
    | ok r =>
      obtain ⟨dt, k, hf', hdt⟩ := stepper_dt f m s.t s.u target r.1 r.2 hr
      have hp := hf _ _ _ _ _ hf'
      refine C29_convex_sets f C hC m hm s.t s.u target r.1 r.2 hs hr ?_
      intro τ v dτ k' hv hk
      refine hE s.t s.u dt k hs hf' r.1 ?_ ?_ τ v dτ k' hv hk
      · rw [hdt]
        cases target with
        | none => exact hp
        | some g => exact hitTarget_pos hp (htg g rfl)
      · rw [hdt]
        cases target with
        | none => exact le_rfl
        | some g =>
          simp only [hitTarget]
          split
          · rename_i hlt; exact hlt.le
          · exact le_rfl
  unfold ODEState.integrate at h
  cases hTa : a.T with
  | none =>
    rw [hTa] at h
    simp only [Option.some.injEq] at h
    rw [← h]
    have hsteps : ∀ (n : ℕ) (st : ODEState K U S), st.u ∈ C → (st.takeSteps (stepper f m) n).1.u ∈ C := by
      intro n
      induction n with
      | zero => exact fun st h => h
      | succ n ih =>
        intro st hst
        unfold ODEState.takeSteps
        have := hts st none (fun g hg => by cases hg) hst
        generalize st.takeStep (stepper f m) none = r at this
        obtain ⟨st1, e⟩ := r
        cases e with
        | some e => exact this
        | none => exact ih st1 this
    unfold ODEState.integrateN
    cases a.n with
    | none => exact hst
    | some n =>
      have := hsteps n (st.snapshot mk) hst
      simp only
      generalize (st.snapshot mk).takeSteps (stepper f m) n = r at this
      obtain ⟨st1, e⟩ := r
      cases e with
      | some e => exact this
      | none => exact this
  | some T =>
    rw [hTa] at h
    obtain ⟨hT1, hT2⟩ := hT T hTa
    cases hsv : a.saved with
    | some l =>
      rw [hsv] at h
      simp only [Option.some.injEq] at h
      rw [← h]
      exact hst
    | none =>
      rw [hsv] at h
      exact integrateT_preserves_fwd (posStepper_of_posDt hf m) (fun st => st.u ∈ C) hts (fun st h => h) T a.exact
        a.downbeats a.logEvery fuel st h0 hT1 hT2 out hst h

end FVHOE
