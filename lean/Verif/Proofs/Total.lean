import Verif.Proofs.Forward
import Verif.Proofs.Convex
import Mathlib.Algebra.Order.Archimedean.Basic

/-!
Total correctness of `integrate`: a call whose steps succeed and are bounded below ends without an exception.
-/

set_option linter.unusedSectionVars false

namespace FVHOE

variable {K : Type} [Field K] [LinearOrder K] [IsStrictOrderedRing K]
variable {U : Type} [AddCommGroup U] [Module K U] {S : Type}
variable {stp : K → U → Option K → Except PyErr (K × U)} {mk : ODEState K U S → S}

/-- Steps that start ahead of their target from a state with the predicate succeed, keep the predicate and are a
proposal of at least `δ`, cut at the target. -/
def GoodSteps (stp : K → U → Option K → Except PyErr (K × U)) (δ : K) (P : ODEState K U S → Prop) : Prop :=
  ∀ st target, (∀ g, target = some g → st.t < g) → P st → ∃ st1 dt, st.takeStep stp target = (st1, none) ∧ P st1 ∧
    δ ≤ dt ∧ st1.t = st.t + hitTarget st.t dt target

theorem loop_total {δ : K} (hδ : 0 < δ) (P : ODEState K U S → Prop) (h1 : GoodSteps stp δ P)
    (h2 : ∀ st, P st → P (st.snapshot mk)) (T : K) (logEvery : Bool) (fuel : ℕ) :
    ∀ (N : ℕ) target ds (st : ODEState K U S),
      (∀ g, target = some g → (g :: ds).Pairwise (· < ·) ∧ (st.t < T → st.t < g) ∧ (g < T → T ∈ ds)) → P st →
      T - st.t ≤ N * δ → N + ds.length + 2 ≤ fuel →
      ∃ st', ODEState.loop stp mk T logEvery fuel target ds st = some (st', none) ∧ P st' ∧ T ≤ st'.t := by
  induction fuel with
  | zero => intro N target ds st _ _ _ hf; omega
  | succ fuel ih =>
    intro N target ds st hg hP hN hf
    by_cases htT : st.t < T
    · obtain ⟨st1, dt, e1, hP1, hdt, ht1⟩ := h1 st target (fun g e => (hg g e).2.1 htT) hP
      unfold ODEState.loop
      rw [if_pos htT, e1]
      simp only
      have hpos : st.t < st1.t := by
        rw [ht1]
        cases target with
        | none => show _ < _ + dt; linarith
        | some g => have := hitTarget_pos (lt_of_lt_of_le hδ hdt) ((hg g rfl).2.1 htT); linarith
      have hle : ∀ g, target = some g → st1.t ≤ g := by
        rintro g rfl
        rw [ht1]
        exact hitTarget_le _ _ _
      have stay : target ≠ some st1.t → ∀ g, target = some g →
          (g :: ds).Pairwise (· < ·) ∧ (st1.t < T → st1.t < g) ∧ (g < T → T ∈ ds) := by
        intro hne g e
        refine ⟨(hg g e).1, fun _ => lt_of_le_of_ne (hle g e) ?_, (hg g e).2.2⟩
        intro h'; exact hne (by rw [e, h'])
      have fewer : target ≠ some st1.t → ∃ M : ℕ, N = M + 1 ∧ T - st1.t ≤ M * δ := by
        intro hne
        have hfull : hitTarget st.t dt target = dt := by
          cases target with
          | none => rfl
          | some g =>
            rcases hitTarget_cases st.t dt g with h | h
            · exact absurd (by rw [ht1, h]) hne
            · exact h
        rw [hfull] at ht1
        cases N with
        | zero => simp at hN; linarith
        | succ M =>
          refine ⟨M, rfl, ?_⟩
          push_cast at hN
          rw [ht1]
          linarith
      by_cases hhit : target = some st1.t
      · rw [if_pos (Or.inl hhit)]
        obtain ⟨hs, -, hm⟩ := hg _ hhit
        cases ds with
        | nil =>
          have hTle : T ≤ st1.t := by
            by_contra hc
            have := hm (not_le.1 hc)
            simp at this
          refine ⟨st1.snapshot mk, ?_, h2 _ hP1, hTle⟩
          cases fuel with
          | zero => simp at hf
          | succ fuel => exact loop_stop _ _ _ _ _ _ _ _ (not_lt.2 hTle)
        | cons d ds =>
          simp only [if_pos hhit]
          refine ih N _ _ _ ?_ (h2 _ hP1) ?_ (by simp at hf; omega)
          · intro g e
            cases e
            refine ⟨(List.pairwise_cons.1 hs).2, fun _ => ?_, fun hdT => ?_⟩
            · exact List.rel_of_pairwise_cons hs (by simp)
            · have := hm (lt_trans (List.rel_of_pairwise_cons hs (by simp)) hdT)
              rcases List.mem_cons.1 this with h' | h'
              · exact absurd h' (ne_of_gt hdT)
              · exact h'
          · show T - st1.t ≤ _
            linarith
      · obtain ⟨M, rfl, hM⟩ := fewer hhit
        by_cases hc : target = some st1.t ∨ T ≤ st1.t ∨ logEvery = true
        · rw [if_pos hc]
          cases ds with
          | nil => exact ih M _ _ (st1.snapshot mk) (stay hhit) (h2 _ hP1) hM (by omega)
          | cons d ds =>
            simp only [if_neg hhit]
            exact ih M _ _ (st1.snapshot mk) (stay hhit) (h2 _ hP1) hM (by omega)
        · rw [if_neg hc]
          exact ih M _ _ st1 (stay hhit) hP1 hM (by omega)
    · exact ⟨st, loop_stop _ _ _ _ _ _ _ _ htT, hP, not_lt.1 htT⟩

/-- `integrate` with a final time ends in at most `N + len(downbeats) + 3` iterations of its loop. -/
theorem integrateT_total {δ : K} (hδ : 0 < δ) (P : ODEState K U S → Prop) (h1 : GoodSteps stp δ P)
    (h2 : ∀ st, P st → P (st.snapshot mk)) (T : K) (exact : Bool) (downbeats : List K)
    (logEvery : Bool) (fuel : ℕ) (st : ODEState K U S) (h0 : 0 ≤ st.t) (hT : st.t < T)
    (hd : ∀ d ∈ downbeats, d = 0 ∨ st.t < d) (hP : P st) (N : ℕ) (hN : T - st.t ≤ N * δ)
    (hfuel : N + downbeats.length + 3 ≤ fuel) :
    ∃ st', st.integrateT stp mk T exact downbeats logEvery fuel = some (st', none) ∧ P st' ∧ T ≤ st'.t := by
  have hT0 : 0 < T := lt_of_le_of_lt h0 hT
  have hd0 : ∀ d ∈ downbeats, 0 ≤ d := by
    intro d hdm
    rcases hd d hdm with h | h
    · exact le_of_eq h.symm
    · exact le_of_lt (lt_of_le_of_lt h0 h)
  obtain ⟨hs, hmem⟩ := keyTimes_spec downbeats T hT0 hd0
  have hTm : T ∈ keyTimes downbeats T := (hmem T).2 ⟨ne_of_gt hT0, Or.inr rfl⟩
  have hlen : (keyTimes downbeats T).length ≤ downbeats.length + 1 := by
    unfold keyTimes
    rw [List.length_tail, List.length_insertionSort]
    have := (List.dedup_sublist (0 :: (downbeats ++ [T]))).length_le
    simp at this
    omega
  unfold ODEState.integrateT
  cases exact with
  | false =>
    simp only [Bool.false_eq_true, if_false]
    exact loop_total hδ P h1 h2 T logEvery fuel N _ _ _ (by intro g e; cases e) (h2 _ hP) hN (by omega)
  | true =>
    simp only [if_true]
    cases hk : keyTimes downbeats T with
    | nil => rw [hk] at hTm; simp at hTm
    | cons g gs =>
      rw [hk] at hs hmem hTm hlen
      simp at hlen
      refine loop_total hδ P h1 h2 T logEvery fuel N _ _ _ ?_ (h2 _ hP) hN (by omega)
      intro g' e
      cases e
      refine ⟨hs, fun _ => ?_, fun hgT => ?_⟩
      · have := (hmem g).1 (by simp)
        show st.t < g
        rcases this.2 with h | h
        · rcases hd g h with h1 | h1
          · exact absurd h1 this.1
          · exact h1
        · rw [h]; exact hT
      · rcases List.mem_cons.1 hTm with h' | h'
        · exact absurd h' (ne_of_gt hgT)
        · exact h'

theorem good_of_ok {f : RHS K U} {m : Integrator} {δ : K} {P : U → Prop}
    (h : ∀ t u target, (∀ g, target = some g → t < g) → P u → ∃ r, stepper f m t u target = .ok r ∧ P r.2 ∧
      ∀ dt k, f t t u = .ok (dt, k) → δ ≤ dt) :
    GoodSteps (S := S) (stepper f m) δ fun st => P st.u := by
  intro st target hg hst
  obtain ⟨r, h1, h2, h3⟩ := h st.t st.u target hg hst
  obtain ⟨dt, k, hf, hdt⟩ := stepper_dt f m st.t st.u target r.1 r.2 h1
  refine ⟨_, dt, by unfold ODEState.takeStep; rw [h1], h2, h3 dt k hf, ?_⟩
  show st.t + r.1 = _
  rw [hdt]

/-- A right-hand side that always returns and never proposes less than `δ`: every method makes good steps. -/
theorem total_good (f : RHS K U) (m : Integrator) (δ : K)
    (h : ∀ s t u, ∃ dt k, f s t u = .ok (dt, k) ∧ δ ≤ dt) :
    GoodSteps (S := S) (stepper f m) δ fun _ => True := by
  refine good_of_ok (P := fun _ => True) fun t u target _ _ => ?_
  have hmin : ∀ dt k, f t t u = .ok (dt, k) → δ ≤ dt := by
    intro dt k hk
    obtain ⟨dt', k', e, hd⟩ := h t t u
    rw [e] at hk
    cases hk
    exact hd
  choose D G hD _ using h
  cases m <;>
    simp only [stepper, eulerStepper, ssprk2Stepper, ssprk3Stepper, rk4Stepper, bind, Except.bind, pure, Except.pure,
      hD] <;>
    exact ⟨_, rfl, trivial, by simpa only [hD] using hmin⟩

/-- A convex set kept by the Euler updates, on which the right-hand side returns and proposes at least `δ`: the
strong-stability-preserving methods make good steps in it. -/
theorem convex_good (f : RHS K U) (C : Set U) (hC : Convex K C) (m : Integrator) (hm : m.SSP) (δ : K) (hδ : 0 < δ)
    (h : ∀ s t u, u ∈ C → ∃ dt k, f s t u = .ok (dt, k) ∧ δ ≤ dt)
    (hE : ∀ s w dσ l, w ∈ C → f s s w = .ok (dσ, l) → ∀ h, 0 < h → h ≤ dσ →
      ∀ τ v dτ k, v ∈ C → f s τ v = .ok (dτ, k) → v + h • k ∈ C) :
    GoodSteps (S := S) (stepper f m) δ fun st => st.u ∈ C := by
  refine good_of_ok (P := fun u => u ∈ C) fun t u target hg hu => ?_
  obtain ⟨dt, k0, e0, hd⟩ := h t t u hu
  have hmin : ∀ dt k, f t t u = .ok (dt, k) → δ ≤ dt := by
    intro dt' k hk
    rw [e0] at hk
    cases hk
    exact hd
  have hE' : ∀ τ v dτ k, v ∈ C → f t τ v = .ok (dτ, k) → v + hitTarget t dt target • k ∈ C := by
    refine hE t u dt k0 hu e0 _ ?_ ?_
    · cases target with
      | none => exact lt_of_lt_of_le hδ hd
      | some g => exact hitTarget_pos (lt_of_lt_of_le hδ hd) (hg g rfl)
    · cases target with
      | none => exact le_rfl
      | some g =>
        simp only [hitTarget]
        split
        · rename_i hlt; exact hlt.le
        · exact le_rfl
  have hret : ∃ r, stepper f m t u target = .ok r := by
    have a0 := hE' _ _ _ _ hu e0
    cases m with
    | rk4 => exact hm.elim
    | euler =>
      simp only [stepper, eulerStepper, e0, bind, Except.bind, pure, Except.pure]
      exact ⟨_, rfl⟩
    | ssprk2 =>
      obtain ⟨d1, k1, e1, -⟩ := h t t _ a0
      simp only [stepper, ssprk2Stepper, e0, e1, bind, Except.bind, pure, Except.pure]
      exact ⟨_, rfl⟩
    | ssprk3 =>
      obtain ⟨d1, k1, e1, -⟩ := h t (t + hitTarget t dt target) _ a0
      have a1 := hE' _ _ _ _ a0 e1
      have a1' := hC hu a1 (a := 3 / 4) (b := 1 / 4) (by norm_num) (by norm_num) (by norm_num)
      have q1 : (3 / 4 : K) • u + (1 / 4 : K) • (u + hitTarget t dt target • k0 +
          hitTarget t dt target • k1) = u + ((1 / 4 : K) * hitTarget t dt target) • k0 +
          ((1 / 4 : K) * hitTarget t dt target) • k1 := by module
      rw [q1] at a1'
      obtain ⟨d2, k2, e2, -⟩ := h t (t + 1 / 2 * hitTarget t dt target) _ a1'
      simp only [stepper, ssprk3Stepper, e0, e1, e2, bind, Except.bind, pure, Except.pure]
      exact ⟨_, rfl⟩
  obtain ⟨r, hr⟩ := hret
  refine ⟨r, hr, ?_, hmin⟩
  obtain ⟨dt', k', hf', hdt⟩ := stepper_dt f m t u target r.1 r.2 hr
  rw [e0] at hf'
  cases hf'
  exact C29_convex_sets f C hC m hm t u target r.1 r.2 hu hr (by rw [hdt]; exact hE')

end FVHOE
