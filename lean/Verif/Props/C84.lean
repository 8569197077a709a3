import Verif.Props.C24_C27

/-!
C84: a run can be split at an output time. Going on from an object that has been run to `T₁` gives the same steps,
times and states as one run to `T₂` that has `T₁` among its output times; the only trace of the break is a second
snapshot at `T₁`.
-/

set_option linter.unusedSectionVars false

namespace FVHOE

variable {K : Type} [Field K] [LinearOrder K] [IsStrictOrderedRing K]
variable {U : Type} [AddCommGroup U] [Module K U] {S : Type}

variable (stp : K → U → Option K → Except PyErr (K × U)) (mk : ODEState K U S → S)

theorem loop_mono (T : K) (logEvery : Bool) (fuel k : ℕ) : ∀ tg ds (st : ODEState K U S) out,
    ODEState.loop stp mk T logEvery fuel tg ds st = some out →
    ODEState.loop stp mk T logEvery (fuel + k) tg ds st = some out := by
  induction fuel with
  | zero => intro tg ds st out h; simp [ODEState.loop] at h
  | succ fuel ih =>
    intro tg ds st out h
    rw [Nat.succ_add]
    unfold ODEState.loop at h ⊢
    split at h
    · rename_i ht
      rw [if_pos ht]
      generalize st.takeStep stp tg = r at h ⊢
      obtain ⟨st1, e⟩ := r
      cases e with
      | some e => exact h
      | none =>
        simp only at h ⊢
        split at h
        · rename_i h1
          rw [if_pos h1]
          cases ds with
          | nil => exact ih _ _ _ _ h
          | cons d ds =>
            simp only at h ⊢
            split at h
            · rename_i h2; rw [if_pos h2]; exact ih _ _ _ _ h
            · rename_i h2; rw [if_neg h2]; exact ih _ _ _ _ h
        · rename_i h1
          rw [if_neg h1]
          exact ih _ _ _ _ h
    · rename_i ht
      rw [if_neg ht]; exact h

/-- A longer run starts with the steps of the shorter one. -/
theorem loop_prefix (hpos : PosStepper stp) (T₁ T₂ : K) (h12 : T₁ < T₂) (logEvery : Bool) (d : K) (rest : List K)
    (fuel : ℕ) : ∀ (g : K) (ds : List K) (st : ODEState K U S) (out : Outcome K U S),
      (g :: ds).Pairwise (· < ·) → st.t < g → (g :: ds).getLast (by simp) = T₁ →
      ODEState.loop stp mk T₁ logEvery fuel (some g) ds st = some out →
      ∃ j, ∀ k, ODEState.loop stp mk T₂ logEvery (j + k) (some g) (ds ++ d :: rest) st =
        match out.2 with
        | none => ODEState.loop stp mk T₂ logEvery k (some d) rest out.1
        | some _ => some out := by
  induction fuel with
  | zero => intro g ds st out _ _ _ h; simp [ODEState.loop] at h
  | succ fuel ih =>
    intro g ds st out hs hg hl h
    have hgT : g ≤ T₁ := by
      rcases List.mem_cons.1 (List.getLast_mem (l := g :: ds) (by simp)) with h1 | h1
      · rw [← hl, h1]
      · rw [← hl]; exact le_of_lt ((List.pairwise_cons.1 hs).1 _ h1)
    unfold ODEState.loop at h
    rw [if_pos (lt_of_lt_of_le hg hgT)] at h
    have h2 : st.t < T₂ := hg.trans_le (hgT.trans h12.le)
    cases hst : stp st.t st.u (some g) with
    | error e =>
      have e1 : st.takeStep stp (some g) = (st, some e) := by unfold ODEState.takeStep; rw [hst]
      rw [e1] at h
      simp only [Option.some.injEq] at h
      subst h
      refine ⟨1, fun k => ?_⟩
      rw [Nat.add_comm]
      unfold ODEState.loop
      rw [if_pos h2, e1]
    | ok r =>
      obtain ⟨st1, hst1⟩ : ∃ st1, st1 = (st.takeStep stp (some g)).1 := ⟨_, rfl⟩
      have e1 : st.takeStep stp (some g) = (st1, none) := by
        rw [hst1]; unfold ODEState.takeStep; rw [hst]
      have et : st1.t = st.t + r.1 := by rw [hst1]; unfold ODEState.takeStep; rw [hst]
      have hle : st1.t ≤ g := by
        obtain ⟨dt, _, e⟩ := hpos _ _ _ _ _ hst
        rw [et, e]; exact hitTarget_le _ _ _
      rw [e1] at h
      simp only at h
      by_cases hh : st1.t = g
      · rw [if_pos (.inl (by rw [hh]))] at h
        cases ds with
        | nil =>
          have hgT1 : g = T₁ := by simpa using hl
          simp only at h
          have : out = (st1.snapshot mk, none) := by
            cases fuel with
            | zero => simp [ODEState.loop] at h
            | succ fuel =>
              rw [loop_stop _ _ _ _ _ _ _ _ (by show ¬ st1.t < T₁; rw [hh, hgT1]; exact lt_irrefl _)] at h
              exact (Option.some.inj h).symm
          subst this
          refine ⟨1, fun k => ?_⟩
          rw [Nat.add_comm]
          conv_lhs => unfold ODEState.loop
          rw [if_pos h2, e1]
          simp only [List.nil_append]
          rw [if_pos (.inl (by rw [hh])), if_pos (by rw [hh])]
        | cons g' ds =>
          simp only at h
          rw [if_pos (by rw [hh])] at h
          have hs' := (List.pairwise_cons.1 hs)
          obtain ⟨j, hj⟩ := ih g' ds (st1.snapshot mk) out hs'.2
            (by show st1.t < g'; rw [hh]; exact hs'.1 g' (by simp)) (by simpa using hl) h
          refine ⟨j + 1, fun k => ?_⟩
          rw [← hj k, Nat.succ_add]
          conv_lhs => unfold ODEState.loop
          rw [if_pos h2, e1]
          simp only [List.cons_append]
          rw [if_pos (.inl (by rw [hh])), if_pos (by rw [hh])]
      · have hlt : st1.t < g := lt_of_le_of_ne hle hh
        have hn : ¬ (some g : Option K) = some st1.t := fun e => hh (Option.some.inj e).symm
        have hT1 : ¬ T₁ ≤ st1.t := not_le.2 (hlt.trans_le hgT)
        have hT2 : ¬ T₂ ≤ st1.t := not_le.2 (hlt.trans_le (hgT.trans h12.le))
        by_cases hlog : logEvery = true
        · rw [if_pos (.inr (.inr hlog))] at h
          have h' : ODEState.loop stp mk T₁ logEvery fuel (some g) ds (st1.snapshot mk) = some out := by
            cases ds with
            | nil => exact h
            | cons g' ds => simp only at h; rw [if_neg hn] at h; exact h
          obtain ⟨j, hj⟩ := ih g ds (st1.snapshot mk) out hs hlt hl h'
          refine ⟨j + 1, fun k => ?_⟩
          rw [← hj k, Nat.succ_add]
          conv_lhs => unfold ODEState.loop
          rw [if_pos h2, e1]
          simp only
          rw [if_pos (.inr (.inr hlog))]
          cases ds with
          | nil => simp only [List.nil_append]; rw [if_neg hn]
          | cons g' ds => simp only [List.cons_append]; rw [if_neg hn]
        · rw [if_neg (by rintro (a | a | a); exacts [hn a, hT1 a, hlog a])] at h
          obtain ⟨j, hj⟩ := ih g ds st1 out hs hlt hl h
          refine ⟨j + 1, fun k => ?_⟩
          rw [← hj k, Nat.succ_add]
          conv_lhs => unfold ODEState.loop
          rw [if_pos h2, e1]
          simp only
          rw [if_neg (by rintro (a | a | a); exacts [hn a, hT2 a, hlog a])]

/-- The shorter run stops if the longer one does. -/
theorem loop_prefix_stops (hpos : PosStepper stp) (T₁ T₂ : K) (h12 : T₁ < T₂) (logEvery : Bool) (d : K)
    (rest : List K) (fuel : ℕ) : ∀ (g : K) (ds : List K) (st : ODEState K U S) (out : Outcome K U S),
      (g :: ds).Pairwise (· < ·) → st.t < g → (g :: ds).getLast (by simp) = T₁ →
      ODEState.loop stp mk T₂ logEvery fuel (some g) (ds ++ d :: rest) st = some out →
      ∃ out₁, ODEState.loop stp mk T₁ logEvery (fuel + 1) (some g) ds st = some out₁ := by
  induction fuel with
  | zero => intro g ds st out _ _ _ h; simp [ODEState.loop] at h
  | succ fuel ih =>
    intro g ds st out hs hg hl h
    have hgT : g ≤ T₁ := by
      rcases List.mem_cons.1 (List.getLast_mem (l := g :: ds) (by simp)) with h1 | h1
      · rw [← hl, h1]
      · rw [← hl]; exact le_of_lt ((List.pairwise_cons.1 hs).1 _ h1)
    have h2 : st.t < T₂ := hg.trans_le (hgT.trans h12.le)
    unfold ODEState.loop at h ⊢
    rw [if_pos h2] at h
    rw [if_pos (lt_of_lt_of_le hg hgT)]
    cases hst : stp st.t st.u (some g) with
    | error e =>
      have e1 : st.takeStep stp (some g) = (st, some e) := by unfold ODEState.takeStep; rw [hst]
      rw [e1]
      exact ⟨_, rfl⟩
    | ok r =>
      obtain ⟨st1, hst1⟩ : ∃ st1, st1 = (st.takeStep stp (some g)).1 := ⟨_, rfl⟩
      have e1 : st.takeStep stp (some g) = (st1, none) := by
        rw [hst1]; unfold ODEState.takeStep; rw [hst]
      have et : st1.t = st.t + r.1 := by rw [hst1]; unfold ODEState.takeStep; rw [hst]
      have hle : st1.t ≤ g := by
        obtain ⟨dt, _, e⟩ := hpos _ _ _ _ _ hst
        rw [et, e]; exact hitTarget_le _ _ _
      rw [e1] at h ⊢
      simp only at h ⊢
      by_cases hh : st1.t = g
      · rw [if_pos (.inl (by rw [hh]))] at h ⊢
        cases ds with
        | nil =>
          have hgT1 : g = T₁ := by simpa using hl
          exact ⟨_, loop_stop _ _ _ _ _ _ _ _ (by show ¬ st1.t < T₁; rw [hh, hgT1]; exact lt_irrefl _)⟩
        | cons g' ds =>
          simp only [List.cons_append] at h ⊢
          rw [if_pos (by rw [hh])] at h ⊢
          have hs' := (List.pairwise_cons.1 hs)
          exact ih g' ds (st1.snapshot mk) out hs'.2
            (by show st1.t < g'; rw [hh]; exact hs'.1 g' (by simp)) (by simpa using hl) h
      · have hlt : st1.t < g := lt_of_le_of_ne hle hh
        have hn : ¬ (some g : Option K) = some st1.t := fun e => hh (Option.some.inj e).symm
        have hT1 : ¬ T₁ ≤ st1.t := not_le.2 (hlt.trans_le hgT)
        have hT2 : ¬ T₂ ≤ st1.t := not_le.2 (hlt.trans_le (hgT.trans h12.le))
        by_cases hlog : logEvery = true
        · rw [if_pos (.inr (.inr hlog))] at h ⊢
          have h' : ODEState.loop stp mk T₂ logEvery fuel (some g) (ds ++ d :: rest) (st1.snapshot mk) = some out := by
            cases ds with
            | nil => simp only [List.nil_append] at h; rw [if_neg hn] at h; exact h
            | cons g' ds => simp only [List.cons_append] at h; rw [if_neg hn] at h; exact h
          obtain ⟨o, ho⟩ := ih g ds (st1.snapshot mk) out hs hlt hl h'
          refine ⟨o, ?_⟩
          rw [← ho]
          cases ds with
          | nil => rfl
          | cons g' ds => simp only; rw [if_neg hn]
        · rw [if_neg (by rintro (a | a | a); exacts [hn a, hT2 a, hlog a])] at h
          rw [if_neg (by rintro (a | a | a); exacts [hn a, hT1 a, hlog a])]
          exact ih g ds st1 out hs hlt hl h

/-- Same clock, state and steps; the logs agree except that the second one has `A`, `a` where the first has `B`, `b`
in front. -/
structure Resumed (A B : List S) (a b : List K) (st st' : ODEState K U S) : Prop where
  t : st'.t = st.t
  u : st'.u = st.u
  timestamps : st'.timestamps = st.timestamps
  stepCount : st'.stepCount = st.stepCount
  logs : ∃ (X : List S) (x : List K), st.snapshots = A ++ X ∧ st'.snapshots = B ++ X ∧
    st.snapshotTimes = a ++ x ∧ st'.snapshotTimes = b ++ x

theorem Resumed.snapshot {A B : List S} {a b : List K} {st st' : ODEState K U S} (h : Resumed A B a b st st')
    (hmk : ∀ s s' : ODEState K U S, s.t = s'.t → s.u = s'.u → mk s = mk s') :
    Resumed A B a b (st.snapshot mk) (st'.snapshot mk) := by
  obtain ⟨X, x, h1, h2, h3, h4⟩ := h.logs
  refine ⟨h.t, h.u, h.timestamps, h.stepCount, X ++ [mk st], x ++ [st.t], ?_, ?_, ?_, ?_⟩
  · simp [ODEState.snapshot, h1]
  · simp [ODEState.snapshot, h2, hmk st' st h.t h.u]
  · simp [ODEState.snapshot, h3]
  · simp [ODEState.snapshot, h4, h.t]

theorem loop_resumed (T : K) (logEvery : Bool) (A B : List S) (a b : List K)
    (hmk : ∀ s s' : ODEState K U S, s.t = s'.t → s.u = s'.u → mk s = mk s') (fuel : ℕ) :
    ∀ tg ds (st st' : ODEState K U S), Resumed A B a b st st' →
      Option.Rel (fun o o' => Resumed A B a b o.1 o'.1 ∧ o.2 = o'.2)
        (ODEState.loop stp mk T logEvery fuel tg ds st) (ODEState.loop stp mk T logEvery fuel tg ds st') := by
  induction fuel with
  | zero => intro tg ds st st' _; exact .none
  | succ fuel ih =>
    intro tg ds st st' h
    unfold ODEState.loop
    rw [h.t]
    by_cases ht : st.t < T
    · rw [if_pos ht, if_pos ht]
      have key : (st.takeStep stp tg).2 = (st'.takeStep stp tg).2 ∧
          Resumed A B a b (st.takeStep stp tg).1 (st'.takeStep stp tg).1 := by
        unfold ODEState.takeStep
        rw [h.t, h.u]
        cases stp st.t st.u tg with
        | error e => exact ⟨rfl, h⟩
        | ok r =>
          exact ⟨rfl, rfl, rfl, by simp [h.timestamps], by simp [h.stepCount], h.logs⟩
      generalize st.takeStep stp tg = r at key ⊢
      generalize st'.takeStep stp tg = r' at key ⊢
      obtain ⟨s1, e⟩ := r
      obtain ⟨s1', e'⟩ := r'
      obtain ⟨k1, k2⟩ := key
      simp only at k1 k2
      subst k1
      cases e with
      | some e => exact .some ⟨k2, rfl⟩
      | none =>
        simp only
        rw [k2.t]
        by_cases hc : tg = some s1.t ∨ T ≤ s1.t ∨ logEvery = true
        · rw [if_pos hc, if_pos hc]
          cases ds with
          | nil => exact ih _ _ _ _ (k2.snapshot mk hmk)
          | cons d ds =>
            simp only
            by_cases hd : tg = some s1.t
            · rw [if_pos hd, if_pos hd]; exact ih _ _ _ _ (k2.snapshot mk hmk)
            · rw [if_neg hd, if_neg hd]; exact ih _ _ _ _ (k2.snapshot mk hmk)
        · rw [if_neg hc, if_neg hc]; exact ih _ _ _ _ k2
    · rw [if_neg ht, if_neg ht]
      exact .some ⟨h, rfl⟩

/-- Two strictly increasing lists with the same members are equal. -/
theorem eq_of_increasing {l l' : List K} (h : l.Pairwise (· < ·)) (h' : l'.Pairwise (· < ·))
    (hm : ∀ x, x ∈ l ↔ x ∈ l') : l = l' := by
  have p : l.Perm l' := (List.perm_ext_iff_of_nodup (h.imp (fun h => ne_of_lt h)) (h'.imp (fun h => ne_of_lt h))).2 hm
  exact p.eq_of_pairwise (le := (· < ·)) (fun a b _ _ h1 h2 => absurd h1 (not_lt.2 h2.le)) h h'

theorem keyTimes_split (D₁ D₂ : List K) (T₁ T₂ : K) (h0 : 0 < T₁) (h12 : T₁ < T₂)
    (hd₁ : ∀ d ∈ D₁, 0 ≤ d ∧ d ≤ T₁) (hd₂ : ∀ d ∈ D₂, d = 0 ∨ T₁ < d) :
    keyTimes (D₁ ++ T₁ :: D₂) T₂ = keyTimes D₁ T₁ ++ keyTimes D₂ T₂ ∧
    ∃ h, (keyTimes D₁ T₁).getLast h = T₁ := by
  obtain ⟨s1, m1⟩ := keyTimes_spec D₁ T₁ h0 fun d h => (hd₁ d h).1
  obtain ⟨s2, m2⟩ := keyTimes_spec D₂ T₂ (h0.trans h12) fun d h => (hd₂ d h).elim (fun e => e.ge) fun e => (h0.trans e).le
  obtain ⟨s3, m3⟩ := keyTimes_spec (D₁ ++ T₁ :: D₂) T₂ (h0.trans h12) (by
    intro d h
    rcases List.mem_append.1 h with h | h
    · exact (hd₁ d h).1
    · rcases List.mem_cons.1 h with h | h
      · rw [h]; exact h0.le
      · exact (hd₂ d h).elim (fun e => e.ge) fun e => (h0.trans e).le)
  have hle : ∀ x ∈ keyTimes D₁ T₁, x ≤ T₁ := by
    intro x hx
    rcases ((m1 x).1 hx).2 with h | h
    · exact (hd₁ x h).2
    · exact h.le
  have hgt : ∀ x ∈ keyTimes D₂ T₂, T₁ < x := by
    intro x hx
    rcases (m2 x).1 hx with ⟨hx0, h | h⟩
    · exact (hd₂ x h).resolve_left hx0
    · exact h ▸ h12
  have hm : T₁ ∈ keyTimes D₁ T₁ := (m1 T₁).2 ⟨h0.ne', .inr rfl⟩
  refine ⟨eq_of_increasing s3 (List.pairwise_append.2 ⟨s1, s2, fun x hx y hy => (hle x hx).trans_lt (hgt y hy)⟩) ?_,
    List.ne_nil_of_mem hm, ?_⟩
  · intro x
    rw [m3, List.mem_append, List.mem_append, List.mem_cons, m1, m2]
    constructor
    · rintro ⟨hx, (h | h | h) | h⟩
      exacts [.inl ⟨hx, .inl h⟩, .inl ⟨hx, .inr h⟩, .inr ⟨hx, .inl h⟩, .inr ⟨hx, .inr h⟩]
    · rintro (⟨hx, h | h⟩ | ⟨hx, h | h⟩)
      exacts [⟨hx, .inl (.inl h)⟩, ⟨hx, .inl (.inr (.inl h))⟩, ⟨hx, .inl (.inr (.inr h))⟩, ⟨hx, .inr h⟩]
  · refine le_antisymm (hle _ (List.getLast_mem _)) ?_
    obtain ⟨l, x, e⟩ : ∃ l x, keyTimes D₁ T₁ = l ++ [x] :=
      ⟨_, _, (List.dropLast_append_getLast (List.ne_nil_of_mem hm)).symm⟩
    simp only [e, List.getLast_append_singleton]
    rw [e] at hm s1
    rcases List.mem_append.1 hm with h | h
    · exact ((List.pairwise_append.1 s1).2.2 _ h x (by simp)).le
    · exact (List.mem_singleton.1 h).le

/-- The two lists of target times of a split run, and what is known about them. -/
theorem split_targets (T₁ T₂ : K) (h12 : T₁ < T₂) (D₁ D₂ : List K) (st : ODEState K U S)
    (h0 : 0 ≤ st.t) (hT : st.t < T₁) (hd₁ : ∀ d ∈ D₁, d = 0 ∨ st.t < d ∧ d ≤ T₁) (hd₂ : ∀ d ∈ D₂, d = 0 ∨ T₁ < d) :
    ∃ g ds d rest, keyTimes D₁ T₁ = g :: ds ∧ keyTimes D₂ T₂ = d :: rest ∧
      keyTimes (D₁ ++ T₁ :: D₂) T₂ = g :: (ds ++ d :: rest) ∧ (g :: ds).Pairwise (· < ·) ∧ st.t < g ∧
      (g :: ds).getLast (by simp) = T₁ := by
  have hT0 : 0 < T₁ := h0.trans_lt hT
  have hnn : ∀ d ∈ D₁, 0 ≤ d ∧ d ≤ T₁ := by
    intro d hd
    rcases hd₁ d hd with h | ⟨h, h'⟩
    · rw [h]; exact ⟨le_rfl, hT0.le⟩
    · exact ⟨h0.trans h.le, h'⟩
  obtain ⟨hk, hne, hl⟩ := keyTimes_split D₁ D₂ T₁ T₂ hT0 h12 hnn hd₂
  obtain ⟨s1, m1⟩ := keyTimes_spec D₁ T₁ hT0 fun d h => (hnn d h).1
  obtain ⟨s2, m2⟩ := keyTimes_spec D₂ T₂ (hT0.trans h12)
    fun d h => (hd₂ d h).elim (fun e => e.ge) fun e => (hT0.trans e).le
  have hm2 : T₂ ∈ keyTimes D₂ T₂ := (m2 T₂).2 ⟨(hT0.trans h12).ne', .inr rfl⟩
  cases e1 : keyTimes D₁ T₁ with
  | nil => exact absurd e1 hne
  | cons g ds =>
    cases e2 : keyTimes D₂ T₂ with
    | nil => rw [e2] at hm2; cases hm2
    | cons d rest =>
      refine ⟨g, ds, d, rest, rfl, rfl, by rw [hk, e1, e2]; rfl, by rw [← e1]; exact s1, ?_, ?_⟩
      · rcases (m1 g).1 (by rw [e1]; simp) with ⟨hg0, h | h⟩
        · exact ((hd₁ g h).resolve_left hg0).1
        · rw [h]; exact hT
      · simp only [e1] at hl; exact hl

/-- **C84** A run to `T₁` followed by a run of the same object to `T₂ > T₁` makes the steps of a single run to `T₂`
with `T₁` among the output times: same exception if any, same final time and state, same times of all steps and same
number of steps, and the same snapshots and snapshot times, except that the snapshot at `T₁` is there twice. -/
theorem C84_split (f : RHS K U) (m : Integrator)
    (hmk : ∀ s s' : ODEState K U S, s.t = s'.t → s.u = s'.u → mk s = mk s') (hf : PosDt f) (T₁ T₂ : K)
    (h12 : T₁ < T₂) (D₁ D₂ : List K) (logEvery : Bool) (fuel₁ fuel₂ : ℕ) (st st₁ st₂ : ODEState K U S)
    (e : Option PyErr) (h0 : 0 ≤ st.t) (hT : st.t < T₁) (hd₁ : ∀ d ∈ D₁, d = 0 ∨ st.t < d ∧ d ≤ T₁)
    (hd₂ : ∀ d ∈ D₂, d = 0 ∨ T₁ < d)
    (hrun₁ : st.integrate (stepper f m) mk fuel₁ ⟨some T₁, none, true, D₁, logEvery, none⟩ = some (st₁, none))
    (hrun₂ : st₁.integrate (stepper f m) mk fuel₂ ⟨some T₂, none, true, D₂, logEvery, none⟩ = some (st₂, e)) :
    st₁.t = T₁ ∧ ∃ fuel st',
      st.integrate (stepper f m) mk fuel ⟨some T₂, none, true, D₁ ++ T₁ :: D₂, logEvery, none⟩ = some (st', e) ∧
      st'.t = st₂.t ∧ st'.u = st₂.u ∧ st'.timestamps = st₂.timestamps ∧ st'.stepCount = st₂.stepCount ∧
      ∃ X x, st₂.snapshots = st₁.snapshots ++ mk st₁ :: X ∧ st'.snapshots = st₁.snapshots ++ X ∧
        st₂.snapshotTimes = st₁.snapshotTimes ++ T₁ :: x ∧ st'.snapshotTimes = st₁.snapshotTimes ++ x := by
  have ht1 : st₁.t = T₁ := (C24_exact_output_times f m mk hf T₁ D₁ logEvery fuel₁ st st₁ h0 hT
    (fun d h => (hd₁ d h).imp_right And.left) hrun₁).1
  refine ⟨ht1, ?_⟩
  obtain ⟨g, ds, d, rest, e1, e2, e3, hs, hg, hl⟩ := split_targets T₁ T₂ h12 D₁ D₂ st h0 hT hd₁ hd₂
  simp only [ODEState.integrate, ODEState.integrateT, if_true, e1, e2, e3] at hrun₁ hrun₂ ⊢
  obtain ⟨j, hj⟩ := loop_prefix (stepper f m) mk (posStepper_of_posDt hf m) T₁ T₂ h12 logEvery d rest fuel₁ g ds
    (st.snapshot mk) _ hs hg hl hrun₁
  have hr := loop_resumed (stepper f m) mk T₂ logEvery (st₁.snapshots ++ [mk st₁]) st₁.snapshots
    (st₁.snapshotTimes ++ [T₁]) st₁.snapshotTimes hmk fuel₂ (some d) rest (st₁.snapshot mk) st₁
    ⟨rfl, rfl, rfl, rfl, [], [], by simp [ODEState.snapshot], by simp, by simp [ODEState.snapshot, ht1], by simp⟩
  have hj' := hj fuel₂
  simp only at hj'
  rw [hrun₂] at hr
  generalize hx : ODEState.loop (stepper f m) mk T₂ logEvery fuel₂ (some d) rest st₁ = x at hr hj'
  cases hr with
  | some hr =>
    rename_i o
    obtain ⟨st', e'⟩ := o
    obtain ⟨⟨r1, r2, r3, r4, X, x, r5, r6, r7, r8⟩, r9⟩ := hr
    simp only at r1 r2 r3 r4 r5 r6 r7 r8 r9
    subst r9
    exact ⟨_, st', hj', r1, r2, r3, r4, X, x, by simpa using r5, r6, by simpa using r7, r8⟩

/-- **C84** If the run to `T₁` raises, the run to `T₂` raises the same exception at the same point. -/
theorem C84_raises (f : RHS K U) (m : Integrator) (hf : PosDt f) (T₁ T₂ : K)
    (h12 : T₁ < T₂) (D₁ D₂ : List K) (logEvery : Bool) (fuel₁ : ℕ) (st st₁ : ODEState K U S) (e : PyErr)
    (h0 : 0 ≤ st.t) (hT : st.t < T₁) (hd₁ : ∀ d ∈ D₁, d = 0 ∨ st.t < d ∧ d ≤ T₁) (hd₂ : ∀ d ∈ D₂, d = 0 ∨ T₁ < d)
    (hrun₁ : st.integrate (stepper f m) mk fuel₁ ⟨some T₁, none, true, D₁, logEvery, none⟩ = some (st₁, some e)) :
    ∃ fuel, st.integrate (stepper f m) mk fuel ⟨some T₂, none, true, D₁ ++ T₁ :: D₂, logEvery, none⟩ =
      some (st₁, some e) := by
  obtain ⟨g, ds, d, rest, e1, e2, e3, hs, hg, hl⟩ := split_targets T₁ T₂ h12 D₁ D₂ st h0 hT hd₁ hd₂
  simp only [ODEState.integrate, ODEState.integrateT, if_true, e1, e3] at hrun₁ ⊢
  obtain ⟨j, hj⟩ := loop_prefix (stepper f m) mk (posStepper_of_posDt hf m) T₁ T₂ h12 logEvery d rest fuel₁ g ds
    (st.snapshot mk) _ hs hg hl hrun₁
  exact ⟨j, hj 0⟩

/-- **C84** If the single run ends, in any way, then so do its parts. -/
theorem C84_parts (f : RHS K U) (m : Integrator)
    (hmk : ∀ s s' : ODEState K U S, s.t = s'.t → s.u = s'.u → mk s = mk s') (hf : PosDt f) (T₁ T₂ : K)
    (h12 : T₁ < T₂) (D₁ D₂ : List K) (logEvery : Bool) (fuel : ℕ) (st : ODEState K U S)
    (out : Outcome K U S) (h0 : 0 ≤ st.t) (hT : st.t < T₁) (hd₁ : ∀ d ∈ D₁, d = 0 ∨ st.t < d ∧ d ≤ T₁)
    (hd₂ : ∀ d ∈ D₂, d = 0 ∨ T₁ < d)
    (hrun : st.integrate (stepper f m) mk fuel ⟨some T₂, none, true, D₁ ++ T₁ :: D₂, logEvery, none⟩ = some out) :
    ∃ fuel₁ st₁ e₁, st.integrate (stepper f m) mk fuel₁ ⟨some T₁, none, true, D₁, logEvery, none⟩ = some (st₁, e₁) ∧
      (e₁ = none → ∃ fuel₂ st₂,
        st₁.integrate (stepper f m) mk fuel₂ ⟨some T₂, none, true, D₂, logEvery, none⟩ = some (st₂, out.2)) ∧
      (e₁ ≠ none → out = (st₁, e₁)) := by
  obtain ⟨g, ds, d, rest, e1, e2, e3, hs, hg, hl⟩ := split_targets T₁ T₂ h12 D₁ D₂ st h0 hT hd₁ hd₂
  simp only [ODEState.integrate, ODEState.integrateT, if_true, e1, e2, e3] at hrun ⊢
  have hpos := posStepper_of_posDt hf m
  obtain ⟨⟨st₁, e₁⟩, ho⟩ := loop_prefix_stops (stepper f m) mk hpos T₁ T₂ h12 logEvery d rest fuel g ds
    (st.snapshot mk) _ hs hg hl hrun
  obtain ⟨j, hj⟩ := loop_prefix (stepper f m) mk hpos T₁ T₂ h12 logEvery d rest _ g ds (st.snapshot mk) _ hs hg hl ho
  have hmono := loop_mono (stepper f m) mk T₂ logEvery fuel j _ _ _ _ hrun
  rw [Nat.add_comm, hj fuel] at hmono
  refine ⟨fuel + 1, st₁, e₁, ho, ?_, ?_⟩
  · rintro rfl
    simp only at hmono
    have hr := loop_resumed (stepper f m) mk T₂ logEvery st₁.snapshots (st₁.snapshots ++ [mk st₁])
      st₁.snapshotTimes (st₁.snapshotTimes ++ [st₁.t]) hmk fuel (some d) rest st₁ (st₁.snapshot mk)
      ⟨rfl, rfl, rfl, rfl, [], [], by simp, by simp [ODEState.snapshot], by simp, by simp [ODEState.snapshot]⟩
    rw [hmono] at hr
    generalize hx : ODEState.loop (stepper f m) mk T₂ logEvery fuel (some d) rest (st₁.snapshot mk) = x at hr
    cases hr with
    | some hr =>
      rename_i o
      refine ⟨fuel, o.1, ?_⟩
      rw [hx, hr.2]
  · intro he
    cases e₁ with
    | none => exact absurd rfl he
    | some e => exact (Option.some.inj hmono).symm

theorem takeSteps_succ (n : ℕ) (st : ODEState K U S) : st.takeSteps stp (n + 1) =
    match st.takeStep stp none with
    | (st1, some e) => (st1, some e)
    | (st1, none) => st1.takeSteps stp n := rfl

theorem takeSteps_add (n₁ n₂ : ℕ) : ∀ st : ODEState K U S, st.takeSteps stp (n₁ + n₂) =
    match st.takeSteps stp n₁ with
    | (st1, some e) => (st1, some e)
    | (st1, none) => st1.takeSteps stp n₂ := by
  induction n₁ with
  | zero => intro st; rw [Nat.zero_add]; rfl
  | succ n ih =>
    intro st
    rw [Nat.succ_add, takeSteps_succ, takeSteps_succ]
    generalize st.takeStep stp none = r
    obtain ⟨st1, e⟩ := r
    cases e with
    | some e => rfl
    | none => exact ih st1

theorem takeSteps_logs (n : ℕ) : ∀ (st : ODEState K U S) (l : List S) (x : List K),
    ({ st with snapshots := l, snapshotTimes := x } : ODEState K U S).takeSteps stp n =
      ({ (st.takeSteps stp n).1 with snapshots := l, snapshotTimes := x }, (st.takeSteps stp n).2) := by
  induction n with
  | zero => intro st l x; rfl
  | succ n ih =>
    intro st l x
    rw [takeSteps_succ, takeSteps_succ]
    unfold ODEState.takeStep
    simp only
    cases stp st.t st.u none with
    | error e => rfl
    | ok r =>
      exact ih { st with t := st.t + r.1, u := r.2, timestamps := st.timestamps ++ [st.t + r.1],
                         stepCount := st.stepCount + 1 } l x

/-- **C84** `n₁` steps and then `n₂` steps are `n₁ + n₂` steps, whatever the steps do. -/
theorem C84_steps (fuel n₁ n₂ : ℕ) (exact : Bool) (D₁ D₂ D : List K) (logEvery : Bool) (st st₁ st₂ : ODEState K U S)
    (saved : Option (List S)) (e : Option PyErr)
    (h₁ : st.integrate stp mk fuel ⟨none, some n₁, exact, D₁, logEvery, saved⟩ = some (st₁, none))
    (h₂ : st₁.integrate stp mk fuel ⟨none, some n₂, exact, D₂, logEvery, saved⟩ = some (st₂, e)) :
    ∃ st', st.integrate stp mk fuel ⟨none, some (n₁ + n₂), exact, D, logEvery, saved⟩ = some (st', e) ∧
      st'.t = st₂.t ∧ st'.u = st₂.u ∧ st'.timestamps = st₂.timestamps ∧ st'.stepCount = st₂.stepCount := by
  simp only [ODEState.integrate, ODEState.integrateN, Option.some.injEq] at h₁ h₂ ⊢
  rw [takeSteps_add]
  generalize hr : (st.snapshot mk).takeSteps stp n₁ = r at h₁ ⊢
  obtain ⟨s1, e1⟩ := r
  cases e1 with
  | some e1 => simp at h₁
  | none =>
    simp only [Prod.mk.injEq, and_true] at h₁ ⊢
    have hs : st₁.snapshot mk = { s1 with
        snapshots := (st₁.snapshot mk).snapshots, snapshotTimes := (st₁.snapshot mk).snapshotTimes } := by
      rw [← h₁]; rfl
    rw [hs, takeSteps_logs] at h₂
    generalize s1.takeSteps stp n₂ = q at h₂ ⊢
    obtain ⟨s2, e2⟩ := q
    cases e2 with
    | some e2 =>
      simp only [Prod.mk.injEq] at h₂ ⊢
      obtain ⟨rfl, rfl⟩ := h₂
      exact ⟨_, ⟨rfl, rfl⟩, rfl, rfl, rfl, rfl⟩
    | none =>
      simp only [Prod.mk.injEq] at h₂ ⊢
      obtain ⟨rfl, rfl⟩ := h₂
      exact ⟨_, ⟨rfl, rfl⟩, rfl, rfl, rfl, rfl⟩

/-- A run of `du/dt = 1` with steps of at most 1/3, to 1/2 and then to 1 with an output at 3/4: both calls end, and the
single run has the same five steps and four snapshots instead of five. -/
example :
    let f : RHS ℚ ℚ := fun _ _ _ => .ok (1 / 3, 1)
    let a : Option (Outcome ℚ ℚ ℚ) := (ODEState.init 0).integrate (stepper f .euler) (·.u) 9 ⟨some (1 / 2), none, true, [], false, none⟩
    let b := a.bind fun o => o.1.integrate (stepper f .euler) (·.u) 9 ⟨some 1, none, true, [3 / 4], false, none⟩
    let c : Option (Outcome ℚ ℚ ℚ) := (ODEState.init 0).integrate (stepper f .euler) (·.u) 9 ⟨some 1, none, true, [1 / 2, 3 / 4], false, none⟩
    b.map (fun o => (o.1.timestamps, o.1.u, o.1.snapshotTimes)) =
      some ([0, 1 / 3, 1 / 2, 3 / 4, 1], 1, [0, 1 / 2, 1 / 2, 3 / 4, 1]) ∧
    c.map (fun o => (o.1.timestamps, o.1.u, o.1.snapshotTimes)) =
      some ([0, 1 / 3, 1 / 2, 3 / 4, 1], 1, [0, 1 / 2, 3 / 4, 1]) := by
  decide +kernel

end FVHOE
