import Verif.Proofs.ODE

/-! The loop in exact mode returns if the proposed steps are bounded below along the run. -/

set_option linter.unusedSectionVars false

namespace FVHOE

variable {K : Type} [Field K] [LinearOrder K] [IsStrictOrderedRing K]
variable {U : Type} [AddCommGroup U] [Module K U] {S : Type}

theorem loop_returns (stp : K → U → Option K → Except PyErr (K × U)) (mk : ODEState K U S → S)
    (T : K) (logEvery : Bool) (δ : K) (hδ : 0 < δ) (P : ODEState K U S → Prop)
    (hb : ∀ st g dt' u', P st → st.t < g → st.t < T → stp st.t st.u (some g) = .ok (dt', u') →
      ∃ dt, δ ≤ dt ∧ dt' = hitTarget st.t dt (some g))
    (h1 : ∀ st g, st.t < g → st.t < T → P st → P (st.takeStep stp (some g)).1) (h2 : ∀ st, P st → P (st.snapshot mk)) (fuel : ℕ) :
    ∀ (N : ℕ) (g : K) (ds : List K) (st : ODEState K U S),
      (g :: ds).Pairwise (· < ·) → st.t < g → T ∈ g :: ds → T - st.t ≤ N * δ →
      N + (ds.length + 1) + 1 ≤ fuel → P st →
      ∃ out, ODEState.loop stp mk T logEvery fuel (some g) ds st = some out := by
  induction fuel with
  | zero => intro N g ds st _ _ _ _ hf; omega
  | succ fuel ih =>
    intro N g ds st hsort hlt hT hN hf hP
    have hgT : g ≤ T := by
      rcases List.mem_cons.1 hT with h1 | h1
      · exact le_of_eq h1.symm
      · exact le_of_lt (List.rel_of_pairwise_cons hsort h1)
    have htT : st.t < T := lt_of_lt_of_le hlt hgT
    have hP1 := h1 st g hlt htT hP
    unfold ODEState.loop
    simp only [htT, if_true]
    unfold ODEState.takeStep at hP1 ⊢
    cases hs : stp st.t st.u (some g) with
    | error e => exact ⟨_, rfl⟩
    | ok r =>
      obtain ⟨dt', u'⟩ := r
      simp only
      obtain ⟨dt, hdt, rfl⟩ := hb st g _ _ hP hlt htT hs
      simp only [hs] at hP1
      set t1 := st.t + hitTarget st.t dt (some g) with ht1
      have hlt1 : st.t < t1 := by
        have := hitTarget_pos (lt_of_lt_of_le hδ hdt) hlt; linarith
      have hle1 : t1 ≤ g := hitTarget_le _ _ _
      set st1 : ODEState K U S :=
        { st with t := t1, u := u', timestamps := st.timestamps ++ [t1],
                  stepCount := st.stepCount + 1 } with hst1
      by_cases hg : t1 = g
      · have hcond : some g = some st1.t ∨ T ≤ st1.t ∨ logEvery = true := by
          left; simp [hst1, hg]
        rw [if_pos hcond]
        cases ds with
        | nil =>
          have hTg : T = g := by simpa using hT
          have hnot : ¬ (st1.snapshot mk).t < T := by simp [ODEState.snapshot, hst1, hg, hTg]
          cases fuel with
          | zero => simp at hf
          | succ fuel =>
            exact ⟨(st1.snapshot mk, none), loop_stop _ _ _ _ _ _ _ _ hnot⟩
        | cons d ds =>
          have hgs : some g = some t1 := by rw [hg]
          simp only [hgs, if_true]
          by_cases hTg : T = g
          · have hnot : ¬ (st1.snapshot mk).t < T := by simp [ODEState.snapshot, hst1, hg, hTg]
            cases fuel with
            | zero => simp at hf
            | succ fuel =>
              exact ⟨(st1.snapshot mk, none), loop_stop _ _ _ _ _ _ _ _ hnot⟩
          · have hT' : T ∈ d :: ds := by
              rcases List.mem_cons.1 hT with h1 | h1
              · exact absurd h1 hTg
              · exact h1
            have hsort' : (d :: ds).Pairwise (· < ·) := (List.pairwise_cons.1 hsort).2
            have hlt' : (st1.snapshot mk).t < d := by
              simp only [ODEState.snapshot, hst1, hg]
              exact List.rel_of_pairwise_cons hsort (by simp)
            exact ih N d ds (st1.snapshot mk) hsort' hlt' hT'
              (by simp only [ODEState.snapshot, hst1]; linarith) (by simp at hf; omega) (h2 _ hP1)
      · have hdt1 : hitTarget st.t dt (some g) = dt := by
          rcases hitTarget_cases st.t dt g with h | h
          · exact absurd h hg
          · exact h
        have hltg : t1 < g := lt_of_le_of_ne hle1 hg
        have hltT : t1 < T := lt_of_lt_of_le hltg hgT
        have hne : ¬ (some g = some t1) := by simp [Ne.symm hg]
        obtain ⟨M, rfl⟩ : ∃ M, N = M + 1 := by
          cases N with
          | zero => simp at hN; linarith
          | succ M => exact ⟨M, rfl⟩
        have hM : T - t1 ≤ M * δ := by
          push_cast at hN
          rw [ht1, hdt1]
          nlinarith
        by_cases hc : some g = some st1.t ∨ T ≤ st1.t ∨ logEvery = true
        · rw [if_pos hc]
          obtain ⟨out, k1⟩ := ih M g ds (st1.snapshot mk) hsort
            (by simp only [hst1, ODEState.snapshot]; exact hltg) hT
            (by simp only [ODEState.snapshot, hst1]; exact hM) (by omega) (h2 _ hP1)
          refine ⟨out, ?_⟩
          cases ds with
          | nil => exact k1
          | cons d ds => simp only [hne, if_false]; exact k1
        · rw [if_neg hc]
          exact ih M g ds st1 hsort (by simp only [hst1]; exact hltg) hT
            (by simp only [hst1]; exact hM) (by omega) hP1

end FVHOE
