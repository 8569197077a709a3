import Mathlib.Tactic.Linarith
import Mathlib.Tactic.Ring
import Mathlib.Tactic.Push
import Verif.Model.FloatTime

/-!
The time loop with any arithmetic for times: what it needs from the steps to meet every target and to stop.
-/

set_option linter.unusedSectionVars false

namespace FVHOE

variable {K : Type} [Field K] [LinearOrder K] [IsStrictOrderedRing K] {U S : Type}

/-- What the loop needs from the steps: from a good time before a target, the new time is a good one, not earlier and
not beyond the target. -/
def StepsOK (A : ClockOps K) (prop : Proposal K U) (Good Tgt : K → Prop) : Prop :=
  ∀ t u dt go g, Good t → t < g → Tgt g → prop t u = .ok (dt, go) →
    Good (A.add t (hitTargetWith A t dt (some g))) ∧ t ≤ A.add t (hitTargetWith A t dt (some g)) ∧
      A.add t (hitTargetWith A t dt (some g)) ≤ g

theorem loopWith_stop (A : ClockOps K) (prop : Proposal K U) (mk : ODEState K U S → S)
    (T : K) (logEvery : Bool) (fuel : ℕ) (tg : Option K) (ds : List K) (st : ODEState K U S)
    (h : ¬ st.t < T) :
    ODEState.loopWith A prop mk T logEvery (fuel + 1) tg ds st = some (st, none) := by
  unfold ODEState.loopWith; rw [if_neg h]

/-- Main invariant of the loop. -/
theorem loopWith_exact (A : ClockOps K) (prop : Proposal K U) (mk : ODEState K U S → S)
    (T : K) (logEvery : Bool) (Good Tgt : K → Prop) (hok : StepsOK A prop Good Tgt) (fuel : ℕ) :
    ∀ (g : K) (ds : List K) (st : ODEState K U S) (st' : ODEState K U S),
      (g :: ds).Pairwise (· < ·) → (∀ d ∈ g :: ds, Tgt d) → Good st.t → st.t < g → T ∈ g :: ds →
      ODEState.loopWith A prop mk T logEvery fuel (some g) ds st = some (st', none) →
      ∃ L : List K, st'.timestamps = st.timestamps ++ L ∧ (st.t :: L).Pairwise (· ≤ ·) ∧
        (st.t :: L).getLast (by simp) = T ∧ st'.t = T ∧
        (∀ d ∈ g :: ds, d ≤ T → d ∈ L) ∧
        st'.stepCount = st.stepCount + L.length ∧
        st'.snapshotTimes = st.snapshotTimes ++
          (if logEvery then L else (g :: ds).filter (· ≤ T)) := by
  induction fuel with
  | zero => intro g ds st st' _ _ _ _ _ h; simp [ODEState.loopWith] at h
  | succ fuel ih =>
    intro g ds st st' hsort htgt hgood hlt hT h
    have hgT : g ≤ T := by
      rcases List.mem_cons.1 hT with h1 | h1
      · exact le_of_eq h1.symm
      · exact le_of_lt (List.rel_of_pairwise_cons hsort h1)
    have htT : st.t < T := lt_of_lt_of_le hlt hgT
    unfold ODEState.loopWith at h
    simp only [htT, if_true] at h
    unfold ODEState.takeStepWith at h
    cases hs : prop st.t st.u with
    | error e => simp [hs] at h
    | ok r =>
     obtain ⟨dt, go⟩ := r
     simp only [hs] at h
     cases hs' : go (hitTargetWith A st.t dt (some g)) with
     | error e => simp [hs'] at h
     | ok u' =>
      simp only [hs'] at h
      obtain ⟨hgood1, hlt1, hle1⟩ := hok _ _ _ _ g hgood hlt (htgt g (by simp)) hs
      set t1 := A.add st.t (hitTargetWith A st.t dt (some g)) with ht1
      set st1 : ODEState K U S :=
        { st with t := t1, u := u', timestamps := st.timestamps ++ [t1],
                  stepCount := st.stepCount + 1 } with hst1
      by_cases hg : t1 = g
      · -- target reached
        have hcond : some g = some st1.t ∨ T ≤ st1.t ∨ logEvery = true := by
          left; simp [hst1, hg]
        rw [if_pos hcond] at h
        cases ds with
        | nil =>
          have hTg : T = g := by simpa using hT
          have hnot : ¬ (st1.snapshot mk).t < T := by simp [ODEState.snapshot, hst1, hg, hTg]
          cases fuel with
          | zero => simp [ODEState.loopWith] at h
          | succ fuel =>
            rw [loopWith_stop _ _ _ _ _ _ _ _ _ hnot] at h
            simp only [Option.some.injEq, Prod.mk.injEq, and_true] at h
            subst h
            refine ⟨[t1], rfl, ?_, ?_, ?_, ?_, ?_, ?_⟩
            · simpa using hlt1
            · simp [hg, hTg]
            · simp [ODEState.snapshot, hst1, hg, hTg]
            · intro d hd _; simp at hd; simp [hd, hg]
            · rfl
            · simp only [ODEState.snapshot, hst1]
              cases logEvery <;> simp [hg, hTg]
        | cons d ds =>
          have hgs : some g = some t1 := by rw [hg]
          simp only [hgs, if_true] at h
          by_cases hTg : T = g
          · -- T reached: loop stops although later downbeats remain
            have hnot : ¬ (st1.snapshot mk).t < T := by simp [ODEState.snapshot, hst1, hg, hTg]
            cases fuel with
            | zero => simp [ODEState.loopWith] at h
            | succ fuel =>
              rw [loopWith_stop _ _ _ _ _ _ _ _ _ hnot] at h
              simp only [Option.some.injEq, Prod.mk.injEq, and_true] at h
              subst h
              have hgt : ∀ x ∈ d :: ds, g < x := fun x hx => List.rel_of_pairwise_cons hsort hx
              refine ⟨[t1], rfl, ?_, ?_, ?_, ?_, ?_, ?_⟩
              · simpa using hlt1
              · simp [hg, hTg]
              · simp [ODEState.snapshot, hst1, hg, hTg]
              · intro x hx hxT
                rcases List.mem_cons.1 hx with h1 | h1
                · simp [h1, hg]
                · exact absurd (hgt x h1) (not_lt.2 (hTg ▸ hxT))
              · rfl
              · have hf : (d :: ds).filter (fun x => decide (x ≤ g)) = [] := by
                  rw [List.filter_eq_nil_iff]
                  intro x hx
                  simpa using hgt x hx
                simp only [ODEState.snapshot, hst1, List.filter_cons (x := g)]
                cases logEvery <;> simp [hg, hTg, hf]
          · have hT' : T ∈ d :: ds := by
              rcases List.mem_cons.1 hT with h1 | h1
              · exact absurd h1 hTg
              · exact h1
            have hsort' : (d :: ds).Pairwise (· < ·) := (List.pairwise_cons.1 hsort).2
            have hlt' : (st1.snapshot mk).t < d := by
              simp only [ODEState.snapshot, hst1, hg]
              exact List.rel_of_pairwise_cons hsort (by simp)
            obtain ⟨L, h1, h2, h3, h4, h5, h6, h7⟩ := ih d ds _ st' hsort' (fun x hx => htgt x (by simp [List.mem_cons.1 hx])) hgood1 hlt' hT' h
            have e1 : (st1.snapshot mk).t = t1 := rfl
            rw [e1] at h2
            refine ⟨t1 :: L, ?_, ?_, ?_, h4, ?_, ?_, ?_⟩
            · rw [h1]; simp [ODEState.snapshot, hst1]
            · refine List.pairwise_cons.2 ⟨?_, h2⟩
              intro x hx
              rcases List.mem_cons.1 hx with hx | hx
              · rw [hx]; exact hlt1
              · exact le_trans hlt1 (List.rel_of_pairwise_cons h2 hx)
            · rw [List.getLast_cons (by simp)]; exact h3
            · intro x hx hxT
              rcases List.mem_cons.1 hx with hx | hx
              · simp [hx, hg]
              · exact List.mem_cons_of_mem _ (h5 x hx hxT)
            · rw [h6]; simp [ODEState.snapshot, hst1]; omega
            · rw [h7]
              simp only [ODEState.snapshot, hst1]
              rw [List.filter_cons (x := g)]
              cases logEvery <;> simp [hg, hgT]
      · -- target not reached yet
        have hltg : t1 < g := lt_of_le_of_ne hle1 hg
        have hltT : t1 < T := lt_of_lt_of_le hltg hgT
        have hne : ¬ (some g = some t1) := by simp [Ne.symm hg]
        have hTn : ¬ T ≤ t1 := not_le.2 hltT
        cases logEvery with
        | false =>
          simp only [hne, hTn, false_or, Bool.false_eq_true, if_false] at h
          obtain ⟨L, h1, h2, h3, h4, h5, h6, h7⟩ := ih g ds st1 st' hsort htgt hgood1 (by simpa [hst1]) hT h
          have e1 : st1.t = t1 := rfl
          rw [e1] at h2
          refine ⟨t1 :: L, ?_, ?_, ?_, h4, ?_, ?_, ?_⟩
          · rw [h1]; simp [hst1]
          · refine List.pairwise_cons.2 ⟨?_, h2⟩
            intro x hx
            rcases List.mem_cons.1 hx with hx | hx
            · rw [hx]; exact hlt1
            · exact le_trans hlt1 (List.rel_of_pairwise_cons h2 hx)
          · rw [List.getLast_cons (by simp)]; exact h3
          · intro x hx hxT; exact List.mem_cons_of_mem _ (h5 x hx hxT)
          · rw [h6]; simp [hst1]; omega
          · rw [h7]; simp [hst1]
        | true =>
          simp only [or_true, if_true] at h
          have hh : ODEState.loopWith A prop mk T true fuel (some g) ds (st1.snapshot mk)
              = some (st', none) := by
            cases ds with
            | nil => exact h
            | cons d ds => simp only [hne, if_false] at h; exact h
          obtain ⟨L, h1, h2, h3, h4, h5, h6, h7⟩ :=
            ih g ds (st1.snapshot mk) st' hsort htgt hgood1 (by simpa [hst1, ODEState.snapshot]) hT hh
          have e1 : (st1.snapshot mk).t = t1 := rfl
          rw [e1] at h2
          refine ⟨t1 :: L, ?_, ?_, ?_, h4, ?_, ?_, ?_⟩
          · rw [h1]; simp [ODEState.snapshot, hst1]
          · refine List.pairwise_cons.2 ⟨?_, h2⟩
            intro x hx
            rcases List.mem_cons.1 hx with hx | hx
            · rw [hx]; exact hlt1
            · exact le_trans hlt1 (List.rel_of_pairwise_cons h2 hx)
          · rw [List.getLast_cons (by simp)]; exact h3
          · intro x hx hxT; exact List.mem_cons_of_mem _ (h5 x hx hxT)
          · rw [h6]; simp [ODEState.snapshot, hst1]; omega
          · rw [h7]; simp [ODEState.snapshot, hst1]

/-- What termination needs: the new time is the target or later by `δ`. -/
def StepsMove (A : ClockOps K) (prop : Proposal K U) (Good Tgt : K → Prop) (δ : K) : Prop :=
  ∀ t u dt go g, Good t → t < g → Tgt g → prop t u = .ok (dt, go) →
    A.add t (hitTargetWith A t dt (some g)) = g ∨ t + δ ≤ A.add t (hitTargetWith A t dt (some g))

/-- The loop stops within a bounded number of iterations. -/
theorem loopWith_terminates (A : ClockOps K) (prop : Proposal K U) (mk : ODEState K U S → S)
    (T : K) (logEvery : Bool) (Good Tgt : K → Prop) (hok : StepsOK A prop Good Tgt) (δ : K) (hδ : 0 < δ)
    (hmove : StepsMove A prop Good Tgt δ) (fuel : ℕ) :
    ∀ (N : ℕ) (g : K) (ds : List K) (st : ODEState K U S),
      (g :: ds).Pairwise (· < ·) → (∀ d ∈ g :: ds, Tgt d) → Good st.t → st.t < g → T ∈ g :: ds → T - st.t ≤ N * δ →
      N + (ds.length + 1) + 1 ≤ fuel →
      ∃ out, ODEState.loopWith A prop mk T logEvery fuel (some g) ds st = some out ∧
        out.1.stepCount ≤ st.stepCount + N + (ds.length + 1) := by
  induction fuel with
  | zero => intro N g ds st _ _ _ _ _ _ hf; omega
  | succ fuel ih =>
    intro N g ds st hsort htgt hgood hlt hT hN hf
    have hgT : g ≤ T := by
      rcases List.mem_cons.1 hT with h1 | h1
      · exact le_of_eq h1.symm
      · exact le_of_lt (List.rel_of_pairwise_cons hsort h1)
    have htT : st.t < T := lt_of_lt_of_le hlt hgT
    unfold ODEState.loopWith
    simp only [htT, if_true]
    unfold ODEState.takeStepWith
    cases hs : prop st.t st.u with
    | error e => exact ⟨_, rfl, by simp; omega⟩
    | ok r =>
     obtain ⟨dt, go⟩ := r
     simp only
     cases hs' : go (hitTargetWith A st.t dt (some g)) with
     | error e => exact ⟨_, rfl, by simp; omega⟩
     | ok u' =>
      simp only
      obtain ⟨hgood1, hlt1, hle1⟩ := hok _ _ _ _ g hgood hlt (htgt g (by simp)) hs
      have hmv := hmove _ _ _ _ g hgood hlt (htgt g (by simp)) hs
      set t1 := A.add st.t (hitTargetWith A st.t dt (some g)) with ht1
      set st1 : ODEState K U S :=
        { st with t := t1, u := u', timestamps := st.timestamps ++ [t1],
                  stepCount := st.stepCount + 1 } with hst1
      by_cases hg : t1 = g
      · have hcond : some g = some st1.t ∨ T ≤ st1.t ∨ logEvery = true := by
          left; simp [hst1, hg]
        rw [if_pos hcond]
        cases ds with
        | nil =>
          have hTg : T = g := by simpa using hT
          have hnot : ¬ (st1.snapshot mk).t < T := by simp [ODEState.snapshot, hst1, hg, hTg]
          cases fuel with
          | zero => simp at hf
          | succ fuel =>
            refine ⟨(st1.snapshot mk, none), ?_, ?_⟩
            · exact loopWith_stop _ _ _ _ _ _ _ _ _ hnot
            · simp only [ODEState.snapshot, hst1, List.length_nil]; omega
        | cons d ds =>
          have hgs : some g = some t1 := by rw [hg]
          simp only [hgs, if_true]
          by_cases hTg : T = g
          · have hnot : ¬ (st1.snapshot mk).t < T := by simp [ODEState.snapshot, hst1, hg, hTg]
            cases fuel with
            | zero => simp at hf
            | succ fuel =>
              refine ⟨(st1.snapshot mk, none), ?_, ?_⟩
              · exact loopWith_stop _ _ _ _ _ _ _ _ _ hnot
              · simp [ODEState.snapshot, hst1]; omega
          · have hT' : T ∈ d :: ds := by
              rcases List.mem_cons.1 hT with h1 | h1
              · exact absurd h1 hTg
              · exact h1
            have hsort' : (d :: ds).Pairwise (· < ·) := (List.pairwise_cons.1 hsort).2
            have hlt' : (st1.snapshot mk).t < d := by
              simp only [ODEState.snapshot, hst1, hg]
              exact List.rel_of_pairwise_cons hsort (by simp)
            obtain ⟨out, h1, h2⟩ := ih N d ds (st1.snapshot mk) hsort' (fun x hx => htgt x (by simp [List.mem_cons.1 hx]))
              hgood1 hlt' hT'
              (by simp only [ODEState.snapshot, hst1]; linarith) (by simp at hf; omega)
            refine ⟨out, h1, ?_⟩
            simp only [ODEState.snapshot, hst1, List.length_cons] at h2 ⊢
            omega
      · have hmv : st.t + δ ≤ t1 := hmv.resolve_left hg
        have hltg : t1 < g := lt_of_le_of_ne hle1 hg
        have hltT : t1 < T := lt_of_lt_of_le hltg hgT
        have hne : ¬ (some g = some t1) := by simp [Ne.symm hg]
        obtain ⟨M, rfl⟩ : ∃ M, N = M + 1 := by
          cases N with
          | zero => simp at hN; linarith
          | succ M => exact ⟨M, rfl⟩
        have hM : T - t1 ≤ M * δ := by
          push_cast at hN
          linarith
        by_cases hc : some g = some st1.t ∨ T ≤ st1.t ∨ logEvery = true
        · rw [if_pos hc]
          obtain ⟨out, h1, h2⟩ := ih M g ds (st1.snapshot mk) hsort htgt hgood1
            (by simp only [hst1, ODEState.snapshot]; exact hltg) hT
            (by simp only [ODEState.snapshot, hst1]; exact hM) (by omega)
          refine ⟨out, ?_, ?_⟩
          · cases ds with
            | nil => exact h1
            | cons d ds => simp only [hne, if_false]; exact h1
          · simp only [ODEState.snapshot, hst1] at h2 ⊢; omega
        · rw [if_neg hc]
          obtain ⟨out, h1, h2⟩ := ih M g ds st1 hsort htgt hgood1 (by simp only [hst1]; exact hltg) hT
            (by simp only [hst1]; exact hM) (by omega)
          refine ⟨out, h1, ?_⟩
          simp only [hst1] at h2 ⊢; omega


end FVHOE
