import Verif.Proofs.Forward

/-!
What holds at the end of a call of `integrate` with a final time, from what steps that start before that time do.
-/

set_option linter.unusedSectionVars false

namespace FVHOE

variable {K : Type} [Field K] [LinearOrder K] [IsStrictOrderedRing K]
variable {U : Type} [AddCommGroup U] [Module K U] {S : Type}
variable {stp : K → U → Option K → Except PyErr (K × U)} {mk : ODEState K U S → S}

/-- An exception of the loop comes from a step that started ahead of its target, from a state with the predicate. -/
theorem loop_outcome_before (hpos : PosStepper stp) (P : ODEState K U S → Prop) (T : K)
    (h1 : ∀ st target, (∀ g, target = some g → st.t < g) → st.t < T → P st → P (st.takeStep stp target).1)
    (h2 : ∀ st, P st → P (st.snapshot mk)) (logEvery : Bool) (fuel : ℕ) :
    ∀ target ds (st : ODEState K U S) out,
      (∀ g, target = some g → (g :: ds).Pairwise (· < ·) ∧ (st.t < T → st.t < g) ∧
        (g < T → T ∈ ds)) → P st →
      ODEState.loop stp mk T logEvery fuel target ds st = some out → P out.1 ∧
        ∀ e, out.2 = some e → ∃ st target, (∀ g, target = some g → st.t < g) ∧ st.t < T ∧ P st ∧
          (st.takeStep stp target).2 = some e := by
  induction fuel with
  | zero => intro target ds st out _ _ h; simp [ODEState.loop] at h
  | succ fuel ih =>
    intro target ds st out hg hP h
    unfold ODEState.loop at h
    split at h
    · rename_i htT
      have h1' := h1 st target (fun g e => (hg g e).2.1 htT) htT hP
      have ht1 : ∀ g, target = some g → (st.takeStep stp target).2 = none →
          (st.takeStep stp target).1.t ≤ g := by
        intro g e hok
        unfold ODEState.takeStep at hok ⊢
        cases hs : stp st.t st.u target with
        | error e => simp [hs] at hok
        | ok r =>
          obtain ⟨dt, _, hdt⟩ := hpos st.t st.u target r.1 r.2 hs
          subst e
          simp only [hdt]
          exact hitTarget_le _ _ _
      generalize hts : st.takeStep stp target = r at h h1' ht1
      obtain ⟨st1, e⟩ := r
      cases e with
      | some e => simp only [Option.some.injEq] at h; rw [← h]; exact ⟨h1', fun e' he => ⟨st, target, fun g e => (hg g e).2.1 htT, htT, hP, by rw [hts]; exact he⟩⟩
      | none =>
        simp only at h h1' ht1
        have stay : ¬ (target = some st1.t) → ∀ g, target = some g →
            (g :: ds).Pairwise (· < ·) ∧ (st1.t < T → st1.t < g) ∧ (g < T → T ∈ ds) := by
          intro hne g e
          refine ⟨(hg g e).1, fun _ => lt_of_le_of_ne (ht1 g e trivial) ?_, (hg g e).2.2⟩
          intro h'; exact hne (by rw [e, h'])
        split at h
        · cases ds with
          | nil =>
            refine ih _ _ _ _ ?_ (h2 _ h1') h
            intro g e
            refine ⟨(hg g e).1, fun hlt => lt_of_lt_of_le hlt ?_, (hg g e).2.2⟩
            by_contra hc
            have := (hg g e).2.2 (not_le.1 hc)
            simp at this
          | cons d ds =>
            simp only at h
            split at h
            · rename_i hhit
              refine ih _ _ _ _ ?_ (h2 _ h1') h
              intro g e
              obtain ⟨hs, _, hm⟩ := hg _ hhit
              cases e
              refine ⟨(List.pairwise_cons.1 hs).2, fun _ => ?_, fun hdT => ?_⟩
              · exact List.rel_of_pairwise_cons hs (by simp)
              · have := hm (lt_trans (List.rel_of_pairwise_cons hs (by simp)) hdT)
                rcases List.mem_cons.1 this with h' | h'
                · exact absurd h' (ne_of_gt hdT)
                · exact h'
            · rename_i hne
              exact ih _ _ (st1.snapshot mk) _ (stay hne) (h2 _ h1') h
        · rename_i hne
          exact ih _ _ _ _ (stay (fun h' => hne (Or.inl h'))) h1' h
    · simp only [Option.some.injEq] at h; rw [← h]; exact ⟨hP, fun e he => by cases he⟩

theorem integrateT_outcome_before (hpos : PosStepper stp) (P : ODEState K U S → Prop) (T : K)
    (h1 : ∀ st target, (∀ g, target = some g → st.t < g) → st.t < T → P st → P (st.takeStep stp target).1)
    (h2 : ∀ st, P st → P (st.snapshot mk)) (exact : Bool) (downbeats : List K)
    (logEvery : Bool) (fuel : ℕ) (st : ODEState K U S) (h0 : 0 ≤ st.t) (hT : st.t < T)
    (hd : ∀ d ∈ downbeats, d = 0 ∨ st.t < d) (out : Outcome K U S) (hP : P st)
    (h : st.integrateT stp mk T exact downbeats logEvery fuel = some out) : P out.1 ∧
      ∀ e, out.2 = some e → ∃ st target, (∀ g, target = some g → st.t < g) ∧ st.t < T ∧ P st ∧
        (st.takeStep stp target).2 = some e := by
  have hT0 : 0 < T := lt_of_le_of_lt h0 hT
  have hd0 : ∀ d ∈ downbeats, 0 ≤ d := by
    intro d hdm
    rcases hd d hdm with h | h
    · exact le_of_eq h.symm
    · exact le_of_lt (lt_of_le_of_lt h0 h)
  obtain ⟨hs, hmem⟩ := keyTimes_spec downbeats T hT0 hd0
  have hTm : T ∈ keyTimes downbeats T := (hmem T).2 ⟨ne_of_gt hT0, Or.inr rfl⟩
  unfold ODEState.integrateT at h
  cases exact with
  | false =>
    simp only [Bool.false_eq_true, if_false] at h
    exact loop_outcome_before hpos P T h1 h2 logEvery fuel _ _ _ _ (by intro g e; cases e)
      (h2 _ hP) h
  | true =>
    simp only [if_true] at h
    cases hk : keyTimes downbeats T with
    | nil => rw [hk] at hTm; simp at hTm
    | cons g gs =>
      rw [hk] at h hs hmem hTm
      refine loop_outcome_before hpos P T h1 h2 logEvery fuel _ _ _ _ ?_ (h2 _ hP) h
      intro g' e
      cases e
      refine ⟨hs, fun _ => ?_, fun hgT => ?_⟩
      · have := (hmem g).1 (by simp)
        show st.t < g
        rcases this.2 with h | h
        · rcases hd g h with h1 | h1
          · exact absurd h1 this.1
          · exact h1
        · rw [h]; exact hT
      · rcases List.mem_cons.1 hTm with h' | h'
        · exact absurd h' (ne_of_gt hgT)
        · exact h'

/-- A predicate kept by `snapshot` and by steps that start before the final time and ahead of their target holds after a
call with that final time whose requested times lie ahead; if such steps never raise neither does the call. -/
theorem integrate_outcome_before (hpos : PosStepper stp) (P : ODEState K U S → Prop) (T : K)
    (h1 : ∀ st target, (∀ g, target = some g → st.t < g) → st.t < T → P st →
      P (st.takeStep stp target).1 ∧ (st.takeStep stp target).2 = none)
    (h2 : ∀ st, P st → P (st.snapshot mk)) (fuel : ℕ) (a : IntegrateArgs K S) (haT : a.T = some T) (ha : a.saved = none)
    (st : ODEState K U S) (h0 : 0 ≤ st.t) (hT : st.t < T) (hd : ∀ d ∈ a.downbeats, d = 0 ∨ st.t < d)
    (out : Outcome K U S) (hP : P st) (h : st.integrate stp mk fuel a = some out) : P out.1 ∧ out.2 = none := by
  unfold ODEState.integrate at h
  simp only [haT, ha] at h
  obtain ⟨k1, k2⟩ := integrateT_outcome_before hpos P T (fun st target hg ht hst => (h1 st target hg ht hst).1) h2 a.exact
    a.downbeats a.logEvery fuel st h0 hT hd out hP h
  refine ⟨k1, ?_⟩
  cases ho : out.2 with
  | none => rfl
  | some e =>
    obtain ⟨st', target, hg, ht, hst, he⟩ := k2 e ho
    rw [(h1 st' target hg ht hst).2] at he
    cases he

end FVHOE
