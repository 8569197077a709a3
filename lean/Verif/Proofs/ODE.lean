import Mathlib.Tactic.Linarith
import Mathlib.Tactic.Ring
import Mathlib.Tactic.Push
import Verif.Model.ODE

/-!
Helper lemmas about the time loop.
-/

set_option linter.unusedSectionVars false

namespace FVHOE

variable {K : Type} [Field K] [LinearOrder K] [IsStrictOrderedRing K]
variable {U : Type} [AddCommGroup U] [Module K U] {S : Type}

/-- Every stepper uses the step size proposed by the first evaluation, cut at the target. -/
theorem stepper_dt (f : RHS K U) (m : Integrator) (t : K) (u : U) (target : Option K) (dt' : K)
    (u' : U) (h : stepper f m t u target = .ok (dt', u')) :
    ∃ dt k, f t t u = .ok (dt, k) ∧ dt' = hitTarget t dt target := by
  cases m <;>
    simp only [stepper, eulerStepper, ssprk2Stepper, ssprk3Stepper, rk4Stepper, bind, Except.bind,
      pure, Except.pure] at h <;>
    (cases hf : f t t u with
      | error e => simp [hf] at h
      | ok r =>
        obtain ⟨dt, k⟩ := r
        simp only [hf] at h
        refine ⟨dt, k, rfl, ?_⟩
        repeat' (split at h)
        all_goals simp_all)

/-- What the loop needs from a stepper: the step is a positive proposal cut at the target. -/
def PosStepper (stp : K → U → Option K → Except PyErr (K × U)) : Prop :=
  ∀ t u target dt' u', stp t u target = .ok (dt', u') → ∃ dt, 0 < dt ∧ dt' = hitTarget t dt target

/-- The proposals are even bounded below. -/
def BoundedStepper (δ : K) (stp : K → U → Option K → Except PyErr (K × U)) : Prop :=
  ∀ t u target dt' u', stp t u target = .ok (dt', u') → ∃ dt, δ ≤ dt ∧ dt' = hitTarget t dt target

theorem hitTarget_le (t dt g : K) : t + hitTarget t dt (some g) ≤ g := by
  simp only [hitTarget]; split <;> linarith

theorem hitTarget_pos {t dt g : K} (h : 0 < dt) (hg : t < g) : 0 < hitTarget t dt (some g) := by
  simp only [hitTarget]; split <;> linarith

theorem hitTarget_cases (t dt g : K) :
    t + hitTarget t dt (some g) = g ∨ hitTarget t dt (some g) = dt := by
  simp only [hitTarget]; split
  · left; ring
  · right; rfl

theorem loop_stop (stp : K → U → Option K → Except PyErr (K × U)) (mk : ODEState K U S → S)
    (T : K) (logEvery : Bool) (fuel : ℕ) (tg : Option K) (ds : List K) (st : ODEState K U S)
    (h : ¬ st.t < T) :
    ODEState.loop stp mk T logEvery (fuel + 1) tg ds st = some (st, none) := by
  unfold ODEState.loop; rw [if_neg h]

/-- Main invariant of the loop in exact mode. -/
theorem loop_exact (stp : K → U → Option K → Except PyErr (K × U)) (mk : ODEState K U S → S)
    (T : K) (logEvery : Bool) (hpos : PosStepper stp) (fuel : ℕ) :
    ∀ (g : K) (ds : List K) (st : ODEState K U S) (st' : ODEState K U S),
      (g :: ds).Pairwise (· < ·) → st.t < g → T ∈ g :: ds →
      ODEState.loop stp mk T logEvery fuel (some g) ds st = some (st', none) →
      ∃ L : List K, st'.timestamps = st.timestamps ++ L ∧ (st.t :: L).Pairwise (· < ·) ∧
        (st.t :: L).getLast (by simp) = T ∧ st'.t = T ∧
        (∀ d ∈ g :: ds, d ≤ T → d ∈ L) ∧
        st'.stepCount = st.stepCount + L.length ∧
        st'.snapshotTimes = st.snapshotTimes ++
          (if logEvery then L else (g :: ds).filter (· ≤ T)) := by
  induction fuel with
  | zero => intro g ds st st' _ _ _ h; simp [ODEState.loop] at h
  | succ fuel ih =>
    intro g ds st st' hsort hlt hT h
    have hgT : g ≤ T := by
      rcases List.mem_cons.1 hT with h1 | h1
      · exact le_of_eq h1.symm
      · exact le_of_lt (List.rel_of_pairwise_cons hsort h1)
    have htT : st.t < T := lt_of_lt_of_le hlt hgT
    unfold ODEState.loop at h
    simp only [htT, if_true] at h
    unfold ODEState.takeStep at h
    cases hs : stp st.t st.u (some g) with
    | error e => simp [hs] at h
    | ok r =>
      obtain ⟨dt', u'⟩ := r
      simp only [hs] at h
      obtain ⟨dt, hdt, rfl⟩ := hpos _ _ _ _ _ hs
      set t1 := st.t + hitTarget st.t dt (some g) with ht1
      have hlt1 : st.t < t1 := by have := hitTarget_pos hdt hlt; linarith
      have hle1 : t1 ≤ g := hitTarget_le _ _ _
      set st1 : ODEState K U S :=
        { st with t := t1, u := u', timestamps := st.timestamps ++ [t1],
                  stepCount := st.stepCount + 1 } with hst1
      by_cases hg : t1 = g
      · -- target reached
        have hcond : some g = some st1.t ∨ T ≤ st1.t ∨ logEvery = true := by
          left; simp [hst1, hg]
        rw [if_pos hcond] at h
        cases ds with
        | nil =>
          have hTg : T = g := by simpa using hT
          have hnot : ¬ (st1.snapshot mk).t < T := by simp [ODEState.snapshot, hst1, hg, hTg]
          cases fuel with
          | zero => simp [ODEState.loop] at h
          | succ fuel =>
            rw [loop_stop _ _ _ _ _ _ _ _ hnot] at h
            simp only [Option.some.injEq, Prod.mk.injEq, and_true] at h
            subst h
            refine ⟨[t1], rfl, ?_, ?_, ?_, ?_, ?_, ?_⟩
            · simpa using hlt1
            · simp [hg, hTg]
            · simp [ODEState.snapshot, hst1, hg, hTg]
            · intro d hd _; simp at hd; simp [hd, hg]
            · rfl
            · simp only [ODEState.snapshot, hst1]
              cases logEvery <;> simp [hg, hTg]
        | cons d ds =>
          have hgs : some g = some t1 := by rw [hg]
          simp only [hgs, if_true] at h
          by_cases hTg : T = g
          · -- T reached: loop stops although later downbeats remain
            have hnot : ¬ (st1.snapshot mk).t < T := by simp [ODEState.snapshot, hst1, hg, hTg]
            cases fuel with
            | zero => simp [ODEState.loop] at h
            | succ fuel =>
              rw [loop_stop _ _ _ _ _ _ _ _ hnot] at h
              simp only [Option.some.injEq, Prod.mk.injEq, and_true] at h
              subst h
              have hgt : ∀ x ∈ d :: ds, g < x := fun x hx => List.rel_of_pairwise_cons hsort hx
              refine ⟨[t1], rfl, ?_, ?_, ?_, ?_, ?_, ?_⟩
              · simpa using hlt1
              · simp [hg, hTg]
              · simp [ODEState.snapshot, hst1, hg, hTg]
              · intro x hx hxT
                rcases List.mem_cons.1 hx with h1 | h1
                · simp [h1, hg]
                · exact absurd (hgt x h1) (not_lt.2 (hTg ▸ hxT))
              · rfl
              · have hf : (d :: ds).filter (fun x => decide (x ≤ g)) = [] := by
                  rw [List.filter_eq_nil_iff]
                  intro x hx
                  simpa using hgt x hx
                simp only [ODEState.snapshot, hst1, List.filter_cons (x := g)]
                cases logEvery <;> simp [hg, hTg, hf]
          · have hT' : T ∈ d :: ds := by
              rcases List.mem_cons.1 hT with h1 | h1
              · exact absurd h1 hTg
              · exact h1
            have hsort' : (d :: ds).Pairwise (· < ·) := (List.pairwise_cons.1 hsort).2
            have hlt' : (st1.snapshot mk).t < d := by
              simp only [ODEState.snapshot, hst1, hg]
              exact List.rel_of_pairwise_cons hsort (by simp)
            obtain ⟨L, h1, h2, h3, h4, h5, h6, h7⟩ := ih d ds _ st' hsort' hlt' hT' h
            have e1 : (st1.snapshot mk).t = t1 := rfl
            rw [e1] at h2
            refine ⟨t1 :: L, ?_, ?_, ?_, h4, ?_, ?_, ?_⟩
            · rw [h1]; simp [ODEState.snapshot, hst1]
            · refine List.pairwise_cons.2 ⟨?_, h2⟩
              intro x hx
              rcases List.mem_cons.1 hx with hx | hx
              · rw [hx]; exact hlt1
              · exact lt_trans hlt1 (List.rel_of_pairwise_cons h2 hx)
            · rw [List.getLast_cons (by simp)]; exact h3
            · intro x hx hxT
              rcases List.mem_cons.1 hx with hx | hx
              · simp [hx, hg]
              · exact List.mem_cons_of_mem _ (h5 x hx hxT)
            · rw [h6]; simp [ODEState.snapshot, hst1]; omega
            · rw [h7]
              simp only [ODEState.snapshot, hst1]
              rw [List.filter_cons (x := g)]
              cases logEvery <;> simp [hg, hgT]
      · -- target not reached yet
        have hltg : t1 < g := lt_of_le_of_ne hle1 hg
        have hltT : t1 < T := lt_of_lt_of_le hltg hgT
        have hne : ¬ (some g = some t1) := by simp [Ne.symm hg]
        have hTn : ¬ T ≤ t1 := not_le.2 hltT
        cases logEvery with
        | false =>
          simp only [hne, hTn, false_or, Bool.false_eq_true, if_false] at h
          obtain ⟨L, h1, h2, h3, h4, h5, h6, h7⟩ := ih g ds st1 st' hsort (by simpa [hst1]) hT h
          have e1 : st1.t = t1 := rfl
          rw [e1] at h2
          refine ⟨t1 :: L, ?_, ?_, ?_, h4, ?_, ?_, ?_⟩
          · rw [h1]; simp [hst1]
          · refine List.pairwise_cons.2 ⟨?_, h2⟩
            intro x hx
            rcases List.mem_cons.1 hx with hx | hx
            · rw [hx]; exact hlt1
            · exact lt_trans hlt1 (List.rel_of_pairwise_cons h2 hx)
          · rw [List.getLast_cons (by simp)]; exact h3
          · intro x hx hxT; exact List.mem_cons_of_mem _ (h5 x hx hxT)
          · rw [h6]; simp [hst1]; omega
          · rw [h7]; simp [hst1]
        | true =>
          simp only [or_true, if_true] at h
          have hh : ODEState.loop stp mk T true fuel (some g) ds (st1.snapshot mk)
              = some (st', none) := by
            cases ds with
            | nil => exact h
            | cons d ds => simp only [hne, if_false] at h; exact h
          obtain ⟨L, h1, h2, h3, h4, h5, h6, h7⟩ :=
            ih g ds (st1.snapshot mk) st' hsort (by simpa [hst1, ODEState.snapshot]) hT hh
          have e1 : (st1.snapshot mk).t = t1 := rfl
          rw [e1] at h2
          refine ⟨t1 :: L, ?_, ?_, ?_, h4, ?_, ?_, ?_⟩
          · rw [h1]; simp [ODEState.snapshot, hst1]
          · refine List.pairwise_cons.2 ⟨?_, h2⟩
            intro x hx
            rcases List.mem_cons.1 hx with hx | hx
            · rw [hx]; exact hlt1
            · exact lt_trans hlt1 (List.rel_of_pairwise_cons h2 hx)
          · rw [List.getLast_cons (by simp)]; exact h3
          · intro x hx hxT; exact List.mem_cons_of_mem _ (h5 x hx hxT)
          · rw [h6]; simp [ODEState.snapshot, hst1]; omega
          · rw [h7]; simp [ODEState.snapshot, hst1]

/-- The loop in exact mode stops within a bounded number of iterations. -/
theorem loop_terminates (stp : K → U → Option K → Except PyErr (K × U)) (mk : ODEState K U S → S)
    (T : K) (logEvery : Bool) (δ : K) (hδ : 0 < δ) (hb : BoundedStepper δ stp) (fuel : ℕ) :
    ∀ (N : ℕ) (g : K) (ds : List K) (st : ODEState K U S),
      (g :: ds).Pairwise (· < ·) → st.t < g → T ∈ g :: ds → T - st.t ≤ N * δ →
      N + (ds.length + 1) + 1 ≤ fuel →
      ∃ out, ODEState.loop stp mk T logEvery fuel (some g) ds st = some out ∧
        out.1.stepCount ≤ st.stepCount + N + (ds.length + 1) := by
  induction fuel with
  | zero => intro N g ds st _ _ _ _ hf; omega
  | succ fuel ih =>
    intro N g ds st hsort hlt hT hN hf
    have hgT : g ≤ T := by
      rcases List.mem_cons.1 hT with h1 | h1
      · exact le_of_eq h1.symm
      · exact le_of_lt (List.rel_of_pairwise_cons hsort h1)
    have htT : st.t < T := lt_of_lt_of_le hlt hgT
    unfold ODEState.loop
    simp only [htT, if_true]
    unfold ODEState.takeStep
    cases hs : stp st.t st.u (some g) with
    | error e => exact ⟨_, rfl, by simp; omega⟩
    | ok r =>
      obtain ⟨dt', u'⟩ := r
      simp only
      obtain ⟨dt, hdt, rfl⟩ := hb _ _ _ _ _ hs
      set t1 := st.t + hitTarget st.t dt (some g) with ht1
      have hlt1 : st.t < t1 := by
        have := hitTarget_pos (lt_of_lt_of_le hδ hdt) hlt; linarith
      have hle1 : t1 ≤ g := hitTarget_le _ _ _
      set st1 : ODEState K U S :=
        { st with t := t1, u := u', timestamps := st.timestamps ++ [t1],
                  stepCount := st.stepCount + 1 } with hst1
      by_cases hg : t1 = g
      · have hcond : some g = some st1.t ∨ T ≤ st1.t ∨ logEvery = true := by
          left; simp [hst1, hg]
        rw [if_pos hcond]
        cases ds with
        | nil =>
          have hTg : T = g := by simpa using hT
          have hnot : ¬ (st1.snapshot mk).t < T := by simp [ODEState.snapshot, hst1, hg, hTg]
          cases fuel with
          | zero => simp at hf
          | succ fuel =>
            refine ⟨(st1.snapshot mk, none), ?_, ?_⟩
            · exact loop_stop _ _ _ _ _ _ _ _ hnot
            · simp only [ODEState.snapshot, hst1, List.length_nil]; omega
        | cons d ds =>
          have hgs : some g = some t1 := by rw [hg]
          simp only [hst1, hgs, if_true]
          by_cases hTg : T = g
          · have hnot : ¬ (st1.snapshot mk).t < T := by simp [ODEState.snapshot, hst1, hg, hTg]
            cases fuel with
            | zero => simp at hf
            | succ fuel =>
              refine ⟨(st1.snapshot mk, none), ?_, ?_⟩
              · exact loop_stop _ _ _ _ _ _ _ _ hnot
              · simp [ODEState.snapshot, hst1]; omega
          · have hT' : T ∈ d :: ds := by
              rcases List.mem_cons.1 hT with h1 | h1
              · exact absurd h1 hTg
              · exact h1
            have hsort' : (d :: ds).Pairwise (· < ·) := (List.pairwise_cons.1 hsort).2
            have hlt' : (st1.snapshot mk).t < d := by
              simp only [ODEState.snapshot, hst1, hg]
              exact List.rel_of_pairwise_cons hsort (by simp)
            obtain ⟨out, h1, h2⟩ := ih N d ds (st1.snapshot mk) hsort' hlt' hT'
              (by simp only [ODEState.snapshot, hst1]; linarith) (by simp at hf; omega)
            refine ⟨out, h1, ?_⟩
            simp only [ODEState.snapshot, hst1, List.length_cons] at h2 ⊢
            omega
      · have hdt1 : hitTarget st.t dt (some g) = dt := by
          rcases hitTarget_cases st.t dt g with h | h
          · exact absurd h hg
          · exact h
        have hltg : t1 < g := lt_of_le_of_ne hle1 hg
        have hltT : t1 < T := lt_of_lt_of_le hltg hgT
        have hne : ¬ (some g = some t1) := by simp [Ne.symm hg]
        obtain ⟨M, rfl⟩ : ∃ M, N = M + 1 := by
          cases N with
          | zero => simp at hN; linarith
          | succ M => exact ⟨M, rfl⟩
        have hM : T - t1 ≤ M * δ := by
          push_cast at hN
          rw [ht1, hdt1]
          nlinarith
        by_cases hc : some g = some st1.t ∨ T ≤ st1.t ∨ logEvery = true
        · rw [if_pos hc]
          obtain ⟨out, h1, h2⟩ := ih M g ds (st1.snapshot mk) hsort
            (by simp only [hst1, ODEState.snapshot]; exact hltg) hT
            (by simp only [ODEState.snapshot, hst1]; exact hM) (by omega)
          refine ⟨out, ?_, ?_⟩
          · cases ds with
            | nil => exact h1
            | cons d ds => simp only [hst1, hne, if_false]; exact h1
          · simp only [ODEState.snapshot, hst1] at h2 ⊢; omega
        · rw [if_neg hc]
          obtain ⟨out, h1, h2⟩ := ih M g ds st1 hsort (by simp only [hst1]; exact hltg) hT
            (by simp only [hst1]; exact hM) (by omega)
          refine ⟨out, h1, ?_⟩
          simp only [hst1] at h2 ⊢; omega

/-- `keyTimes` when nothing requested is negative: strictly increasing, and its elements are the
requested times and `T`, without 0. -/
theorem keyTimes_spec (downbeats : List K) (T : K) (hT : 0 < T) (h : ∀ d ∈ downbeats, 0 ≤ d) :
    (keyTimes downbeats T).Pairwise (· < ·) ∧
    ∀ x, x ∈ keyTimes downbeats T ↔ x ≠ 0 ∧ (x ∈ downbeats ∨ x = T) := by
  set l := List.insertionSort (· ≤ ·) (0 :: (downbeats ++ [T])).dedup with hl
  have hperm : l.Perm (0 :: (downbeats ++ [T])).dedup := List.perm_insertionSort _ _
  have hmem : ∀ x, x ∈ l ↔ x = 0 ∨ x ∈ downbeats ∨ x = T := by
    intro x; rw [hperm.mem_iff, List.mem_dedup]; simp
  have hnd : l.Nodup := hperm.nodup_iff.2 (List.nodup_dedup _)
  have hs : l.Pairwise (· ≤ ·) := List.pairwise_insertionSort _ _
  have hlt : l.Pairwise (· < ·) := by
    have := hs.and hnd
    exact this.imp (fun ⟨a, b⟩ => lt_of_le_of_ne a b)
  have h0 : (0 : K) ∈ l := (hmem 0).2 (Or.inl rfl)
  cases hll : l with
  | nil => rw [hll] at h0; simp at h0
  | cons a as =>
    have ha : a = 0 := by
      have hge : 0 ≤ a := by
        have : a ∈ l := by rw [hll]; simp
        rcases (hmem a).1 this with h1 | h1 | h1
        · exact le_of_eq h1.symm
        · exact h a h1
        · rw [h1]; exact le_of_lt hT
      rw [hll] at h0 hs
      rcases List.mem_cons.1 h0 with h1 | h1
      · exact h1.symm
      · exact le_antisymm (List.rel_of_pairwise_cons hs h1) hge
    have hk : keyTimes downbeats T = as := by
      unfold keyTimes; rw [← hl, hll]; rfl
    rw [hk]
    rw [hll] at hlt
    refine ⟨(List.pairwise_cons.1 hlt).2, fun x => ?_⟩
    have hx := hmem x
    rw [hll, ha] at hx
    rw [ha] at hlt
    constructor
    · intro hxa
      have hpos : (0 : K) < x := List.rel_of_pairwise_cons hlt hxa
      refine ⟨ne_of_gt hpos, ?_⟩
      rcases hx.1 (List.mem_cons_of_mem _ hxa) with h1 | h1
      · exact absurd h1 (ne_of_gt hpos)
      · exact h1
    · rintro ⟨h1, h2⟩
      rcases List.mem_cons.1 (hx.2 (Or.inr h2)) with h3 | h3
      · exact absurd h3 h1
      · exact h3

end FVHOE
