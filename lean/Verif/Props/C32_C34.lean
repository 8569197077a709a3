import Verif.Model.Limiter
import Verif.Model.TroubleLog
import Verif.Proofs.Detect

/-!
C32 (the NAD test), C33 (physical admissibility bounds), C34 (flags, magnitudes, plotting), C50 (the
log of a step).

The arrays given to `detect_troubled_cells` hold a value for the cells `[0, n)` and three more layers on
both sides of every active direction: `boxArr n (detPad dims) U`.
-/

set_option linter.unusedSectionVars false

namespace FVHOE

variable {K : Type} [Field K] [LinearOrder K] [IsStrictOrderedRing K]

/-- Every array with room for the cells and the layers is of this form. -/
theorem boxArr_every {α : Type} (dims : List (Fin 3)) (n : Fin 3 → ℕ) (A : Arr α)
    (h : ∀ d, A.shape d = n d + 2 * (if d ∈ dims then 3 else 0)) :
    A = boxArr n (detPad dims) (fun i => A.get fun d => i d + detPad dims d) := by
  obtain ⟨s, g⟩ := A
  unfold boxArr
  congr 1
  · funext d; exact h d
  · funext j; simp

/-! ## C32 -/

/-- `lo` and `hi` are the extrema of variable `v` over the `3^d` block around cell `i`. -/
def BlockRange (dims : List (Fin 3)) (U : Ix → State K 0) (i : Ix) (v : Var 0) (lo hi : K) : Prop :=
  IsLeast {x | ∃ k : Ix, (∀ d, if d ∈ dims then |k d - i d| ≤ 1 else k d = i d) ∧ x = U k v} lo ∧
    IsGreatest {x | ∃ k : Ix, (∀ d, if d ∈ dims then |k d - i d| ≤ 1 else k d = i d) ∧ x = U k v} hi

/-- `lo` and `hi` are the extrema of variable `v` over the whole array, ghost layers included. -/
def ArrayRange (dims : List (Fin 3)) (n : Fin 3 → ℕ) (U : Ix → State K 0) (v : Var 0) (lo hi : K) : Prop :=
  IsLeast {x | ∃ k : Ix, (∀ d, if d ∈ dims then -3 ≤ k d ∧ k d < n d + 3 else 0 ≤ k d ∧ k d < n d) ∧
      x = U k v} lo ∧
    IsGreatest {x | ∃ k : Ix, (∀ d, if d ∈ dims then -3 ≤ k d ∧ k d < n d + 3 else 0 ≤ k d ∧ k d < n d) ∧
      x = U k v} hi

/-- The variable takes part in the NAD test. -/
def Considered (o : DetectOpts K) (v : Var 0) : Prop := ∀ l, o.nadVars = some l → v ∈ l

theorem considers_iff (o : DetectOpts K) (v : Var 0) : o.considers v = true ↔ Considered o v := by
  unfold DetectOpts.considers Considered
  cases o.nadVars with
  | none => simp
  | some l => simp

theorem BlockRange.eq {dims : List (Fin 3)} {U : Ix → State K 0} {i : Ix} {v : Var 0} {lo hi : K}
    (h : BlockRange dims U i v lo hi) : nLo dims U i v = lo ∧ nHi dims U i v = hi := by
  have e : (fun k => U k v) '' {k | Nbr dims i k} =
      {x | ∃ k : Ix, (∀ d, if d ∈ dims then |k d - i d| ≤ 1 else k d = i d) ∧ x = U k v} := by
    ext x
    constructor
    · rintro ⟨k, hk, rfl⟩; exact ⟨k, hk, rfl⟩
    · rintro ⟨k, hk, rfl⟩; exact ⟨k, hk, rfl⟩
  have h1 := nLo_least dims U i v
  have h2 := nHi_greatest dims U i v
  rw [e] at h1 h2
  exact ⟨h1.unique h.1, h2.unique h.2⟩

theorem ArrayRange.eq {dims : List (Fin 3)} {n : Fin 3 → ℕ} (hn : ∀ d, 1 ≤ n d) {U : Ix → State K 0}
    {v : Var 0} {lo hi : K} (h : ArrayRange dims n U v lo hi) :
    gLo dims n U v = lo ∧ gHi dims n U v = hi := by
  have e : (fun k => U k v) '' {k | InPadded dims n k} =
      {x | ∃ k : Ix, (∀ d, if d ∈ dims then -3 ≤ k d ∧ k d < n d + 3 else 0 ≤ k d ∧ k d < n d) ∧
        x = U k v} := by
    have key : ∀ k : Ix, InPadded dims n k ↔
        ∀ d, if d ∈ dims then -3 ≤ k d ∧ k d < n d + 3 else 0 ≤ k d ∧ k d < n d := by
      intro k
      unfold InPadded detPad
      refine forall_congr' fun d => ?_
      by_cases hd : d ∈ dims
      · simp [hd]
      · simp [hd]
    ext x
    constructor
    · rintro ⟨k, hk, rfl⟩; exact ⟨k, (key k).1 hk, rfl⟩
    · rintro ⟨k, hk, rfl⟩; exact ⟨k, (key k).2 hk, rfl⟩
  have h1 := gLo_least dims n hn U v
  have h2 := gHi_greatest dims n hn U v
  rw [e] at h1 h2
  exact ⟨h1.unique h.1, h2.unique h.2⟩

/-- The ranges exist. -/
theorem blockRange_exists (dims : List (Fin 3)) (U : Ix → State K 0) (i : Ix) (v : Var 0) :
    ∃ lo hi, BlockRange dims U i v lo hi := by
  have e : (fun k => U k v) '' {k | Nbr dims i k} =
      {x | ∃ k : Ix, (∀ d, if d ∈ dims then |k d - i d| ≤ 1 else k d = i d) ∧ x = U k v} := by
    ext x
    constructor
    · rintro ⟨k, hk, rfl⟩; exact ⟨k, hk, rfl⟩
    · rintro ⟨k, hk, rfl⟩; exact ⟨k, hk, rfl⟩
  exact ⟨_, _, e ▸ nLo_least dims U i v, e ▸ nHi_greatest dims U i v⟩

/-- With known mode and range type the call returns arrays of the shape of the mesh. -/
theorem C32_returns (o : DetectOpts K) (hm : o.mode = "global" ∨ o.mode = "local")
    (hr : o.rangeType = "relative" ∨ o.rangeType = "absolute") (dims : List (Fin 3)) (hd : dims.Nodup)
    (hne : dims ≠ []) (n : Fin 3 → ℕ) (hn : ∀ d, 1 ≤ n d) (U C : Ix → State K 0) :
    ∃ D, detectTroubledCells o dims (boxArr n (detPad dims) U) (boxArr n (detPad dims) C) = .ok D ∧
      D.trouble.shape = n ∧ D.nadMag.shape = n ∧ D.padMag.shape = n := by
  obtain ⟨D, h1, h2, _⟩ := detect_spec o ⟨hm, hr⟩ dims ⟨hd, hne⟩ n hn U C
  exact ⟨D, h1, h2⟩

/-- Other modes and range types are rejected with ValueError. -/
theorem C32_rejects (o : DetectOpts K) (h : (o.mode ≠ "global" ∧ o.mode ≠ "local") ∨
      (o.rangeType ≠ "relative" ∧ o.rangeType ≠ "absolute"))
    (dims : List (Fin 3)) (u c : Arr (State K 0)) :
    detectTroubledCells o dims u c = .error .valueError := by
  have : ∀ cin b, nadPerVar o u cin b = .error .valueError := by
    intro cin b
    unfold nadPerVar
    split_ifs with h1 h2
    · rcases h with h | h
      · unfold nadRange
        rw [if_neg h.1, if_neg h.2]
        rfl
      · exact absurd h1 h.1
    · rcases h with h | h
      · unfold nadBounds
        rw [if_neg h.1, if_neg h.2]
        rfl
      · exact absurd h2 h.2
    · rfl
  unfold detectTroubledCells
  simp only [this, bind, Except.bind]

/-- **C32** Without smooth-extremum relaxation and without PAD bounds a cell is reported troubled
exactly when the candidate of a considered variable leaves the tolerated range, in all four
combinations of mode and range type. -/
theorem C32_nad (o : DetectOpts K) (hsed : o.sed = false) (hpad : o.pad = [])
    (dims : List (Fin 3)) (hd : dims.Nodup) (hne : dims ≠ []) (n : Fin 3 → ℕ) (hn : ∀ d, 1 ≤ n d)
    (U C : Ix → State K 0) (D : Detected K)
    (h : detectTroubledCells o dims (boxArr n (detPad dims) U) (boxArr n (detPad dims) C) = .ok D)
    (i : Ix) (hi : InCells n i) (lo hi' glo ghi : Var 0 → K)
    (hb : ∀ v, BlockRange dims U i v (lo v) (hi' v)) (hg : ∀ v, ArrayRange dims n U v (glo v) (ghi v)) :
    (o.rangeType = "relative" → o.mode = "global" → (D.trouble.get i = true ↔ ∃ v, Considered o v ∧
      (C i v < lo v - o.eps * (ghi v - glo v) ∨ hi' v + o.eps * (ghi v - glo v) < C i v))) ∧
    (o.rangeType = "relative" → o.mode = "local" → (D.trouble.get i = true ↔ ∃ v, Considered o v ∧
      (C i v < lo v - o.eps * (hi' v - lo v) ∨ hi' v + o.eps * (hi' v - lo v) < C i v))) ∧
    (o.rangeType = "absolute" → o.mode = "global" → (D.trouble.get i = true ↔ ∃ v, Considered o v ∧
      (C i v < (1 - o.eps) * glo v ∨ (1 + o.eps) * ghi v < C i v))) ∧
    (o.rangeType = "absolute" → o.mode = "local" → (D.trouble.get i = true ↔ ∃ v, Considered o v ∧
      (C i v < (1 - o.eps) * lo v ∨ (1 + o.eps) * hi' v < C i v))) := by
  have main : o.Known → (D.trouble.get i = true ↔ ∃ v, Considered o v ∧
      (C i v < tolLo o dims n U i v ∨ tolHi o dims n U i v < C i v)) := by
    intro ho
    obtain ⟨D', h1, _, h3⟩ := detect_spec o ho dims ⟨hd, hne⟩ n hn U C
    rw [h] at h1
    cases h1
    rw [(h3 i hi).1]
    have : ¬ padAt o.pad (C i) < 0 := by rw [hpad]; exact lt_irrefl _
    simp only [this, or_false, NadCell, NadFlag, considers_iff, hsed]
    simp
  have eb := fun v => (hb v).eq
  have eg := fun v => (hg v).eq hn
  have gl : ("local" = "global") = False := by decide
  have ar : ("absolute" = "relative") = False := by decide
  refine ⟨fun hr hm => ?_, fun hr hm => ?_, fun hr hm => ?_, fun hr hm => ?_⟩
  · rw [main ⟨Or.inl hm, Or.inl hr⟩]
    simp only [tolLo, tolHi, hr, hm, if_true, (eb _).1, (eb _).2, (eg _).1, (eg _).2]
  · rw [main ⟨Or.inr hm, Or.inl hr⟩]
    simp only [tolLo, tolHi, hr, hm, gl, if_true, if_false, (eb _).1, (eb _).2]
  · rw [main ⟨Or.inl hm, Or.inr hr⟩]
    simp only [tolLo, tolHi, hr, hm, ar, if_true, if_false, (eg _).1, (eg _).2]
  · rw [main ⟨Or.inr hm, Or.inr hr⟩]
    simp only [tolLo, tolHi, hr, hm, ar, gl, if_false, (eb _).1, (eb _).2]

/-! ## C33 -/

/-- The value breaks the bound. -/
def Breaks (b : Option K × Option K) (x : K) : Prop :=
  (∃ l, b.1 = some l ∧ x < l) ∨ ∃ h, b.2 = some h ∧ h < x

theorem padPoint_neg (lo hi : Option K) (x : K) : padPoint lo hi x < 0 ↔ Breaks (lo, hi) x := by
  have c : ∀ y : K, ((y : K) : WithTop K) < 0 ↔ y < 0 := fun y => by
    rw [show (0 : WithTop K) = ((0 : K) : WithTop K) from rfl, WithTop.coe_lt_coe]
  unfold padPoint Breaks
  rw [min_lt_iff]
  refine or_congr ?_ ?_
  · cases lo with
    | none => simp
    | some l => simp only [c, sub_neg]; simp
  · cases hi with
    | none => simp
    | some l => simp only [c, sub_neg]; simp

theorem padPoint_mag (lo hi : Option K) (x : K) (h : padPoint lo hi x < 0) :
    0 < -((padPoint lo hi x).untopD 0) ∧ (∀ l, lo = some l → l - x ≤ -((padPoint lo hi x).untopD 0)) ∧
      ∀ l, hi = some l → x - l ≤ -((padPoint lo hi x).untopD 0) := by
  have hne : padPoint lo hi x ≠ ⊤ := ne_top_of_lt h
  obtain ⟨y, hy⟩ := WithTop.ne_top_iff_exists.1 hne
  rw [← hy] at h ⊢
  rw [show (0 : WithTop K) = ((0 : K) : WithTop K) from rfl, WithTop.coe_lt_coe] at h
  rw [WithTop.untopD_coe]
  refine ⟨by linarith, ?_, ?_⟩
  · rintro l rfl
    have : (y : WithTop K) ≤ ((x - l : K) : WithTop K) := by rw [hy]; exact min_le_left _ _
    rw [WithTop.coe_le_coe] at this
    linarith
  · rintro l rfl
    have : (y : WithTop K) ≤ ((l - x : K) : WithTop K) := by rw [hy]; exact min_le_right _ _
    rw [WithTop.coe_le_coe] at this
    linarith

/-- **C33, partial** The last bound of the dictionary is enforced: a cell breaking it is troubled and
its PAD magnitude is positive and at least the excess. With a single bound this is the whole claim.
Missing: the other bounds, which are never enforced (`C33_earlier_ignored`). -/
theorem C33_partial (o : DetectOpts K) (dims : List (Fin 3)) (hd : dims.Nodup) (hne : dims ≠ [])
    (n : Fin 3 → ℕ) (hn : ∀ d, 1 ≤ n d) (U C : Ix → State K 0) (D : Detected K)
    (h : detectTroubledCells o dims (boxArr n (detPad dims) U) (boxArr n (detPad dims) C) = .ok D)
    (l : List (Var 0 × Option K × Option K)) (v : Var 0) (b : Option K × Option K)
    (hp : o.pad = l ++ [(v, b)]) (i : Ix) (hi : InCells n i) :
    (Breaks b (C i v) ↔ 0 < D.padMag.get i) ∧ (Breaks b (C i v) → D.trouble.get i = true ∧
      (∀ x, b.1 = some x → x - C i v ≤ D.padMag.get i) ∧ ∀ x, b.2 = some x → C i v - x ≤ D.padMag.get i) := by
  have ho : o.Known := by
    by_contra hk
    have : (o.mode ≠ "global" ∧ o.mode ≠ "local") ∨ (o.rangeType ≠ "relative" ∧ o.rangeType ≠ "absolute") := by
      unfold DetectOpts.Known at hk
      tauto
    rw [C32_rejects o this] at h
    cases h
  obtain ⟨D', h1, _, h3⟩ := detect_spec o ho dims ⟨hd, hne⟩ n hn U C
  rw [h] at h1
  cases h1
  obtain ⟨e1, _, _, e2⟩ := h3 i hi
  have hpa : padAt o.pad (C i) = padPoint b.1 b.2 (C i v) := by
    rw [hp]
    unfold padAt
    simp
  rw [hpa] at e1 e2
  by_cases hb : padPoint b.1 b.2 (C i v) < 0
  · have m := padPoint_mag b.1 b.2 (C i v) hb
    rw [if_pos hb] at e2
    rw [e2]
    exact ⟨iff_of_true ((padPoint_neg _ _ _).1 hb) m.1, fun _ => ⟨e1.2 (Or.inr hb), m.2⟩⟩
  · rw [if_neg hb] at e2
    rw [e2]
    have : ¬ Breaks b (C i v) := fun h' => hb ((padPoint_neg _ _ _).2 h')
    exact ⟨iff_of_false this (lt_irrefl _), fun h' => absurd h' this⟩

/-- **C33 fails** Whatever the other bounds say, flags and magnitudes are those of the dictionary holding
only the last bound. -/
theorem C33_earlier_ignored (o : DetectOpts K) (dims : List (Fin 3)) (hd : dims.Nodup) (hne : dims ≠ [])
    (n : Fin 3 → ℕ) (hn : ∀ d, 1 ≤ n d) (U C : Ix → State K 0) (D : Detected K)
    (h : detectTroubledCells o dims (boxArr n (detPad dims) U) (boxArr n (detPad dims) C) = .ok D)
    (D' : Detected K) (l : List (Var 0 × Option K × Option K)) (v : Var 0) (b : Option K × Option K)
    (h' : detectTroubledCells { o with pad := [(v, b)] } dims (boxArr n (detPad dims) U)
      (boxArr n (detPad dims) C) = .ok D')
    (hp : o.pad = l ++ [(v, b)]) (i : Ix) (hi : InCells n i) :
    (D.trouble.get i, D.nadMag.get i, D.padMag.get i) =
      (D'.trouble.get i, D'.nadMag.get i, D'.padMag.get i) := by
  have ho : o.Known := by
    by_contra hk
    have : (o.mode ≠ "global" ∧ o.mode ≠ "local") ∨ (o.rangeType ≠ "relative" ∧ o.rangeType ≠ "absolute") := by
      unfold DetectOpts.Known at hk
      tauto
    rw [C32_rejects o this] at h
    cases h
  obtain ⟨E, h1, _, h3⟩ := detect_spec o ho dims ⟨hd, hne⟩ n hn U C
  rw [h] at h1
  cases h1
  obtain ⟨E', h1', _, h3'⟩ := detect_spec { o with pad := [(v, b)] } ho dims ⟨hd, hne⟩ n hn U C
  rw [h'] at h1'
  cases h1'
  obtain ⟨a1, a2, a3, a4⟩ := h3 i hi
  obtain ⟨b1, b2, b3, b4⟩ := h3' i hi
  have hpa : padAt o.pad (C i) = padAt [(v, b)] (C i) := by
    rw [hp]
    unfold padAt
    simp
  have hcell : NadCell { o with pad := [(v, b)] } dims n U C i ↔ NadCell o dims n U C i := Iff.rfl
  have ht : D.trouble.get i = D'.trouble.get i := by
    rw [Bool.eq_iff_iff, a1, b1, hpa, hcell]
  have hq : D.padMag.get i = D'.padMag.get i := by rw [a4, b4, hpa]
  have hm : D.nadMag.get i = D'.nadMag.get i := by
    by_cases hc : NadCell o dims n U C i
    · rw [a2 hc, b2 hc]; rfl
    · rw [a3 hc, b3 hc]
  rw [ht, hm, hq]

/-- A line of 7 values around one cell: density 1, a large value at the far end. -/
def wideLine (centre far : ℚ) : Arr (State ℚ 0) :=
  ⟨![7, 1, 1], fun j v => match v with
    | .rho => if j 0 = 0 then far else if j 0 = 3 then centre else 1
    | _ => 1⟩

/-- The options the solver uses by default with a tolerance of 1/100000. -/
def defaultDetect : DetectOpts ℚ := ⟨1 / 100000, "global", "relative", none, defaultPad, false, 1 / 10000000000⟩

/-- **C33 fails for the solver's own default bounds** A negative candidate density is not reported: the
pressure bound overwrites the density bound, and the large value elsewhere widens the tolerated range. -/
theorem C33_violated :
    (detectTroubledCells defaultDetect [0] (wideLine 1 1000000) (wideLine (-1) 1000000)).map
      (fun D => (D.trouble.get 0, D.padMag.get 0)) = .ok (false, 0) ∧
    defaultDetect.pad.head? = some (.rho, some 0, none) ∧ (wideLine (-1) 1000000).get ![3, 0, 0] .rho < 0 := by
  decide +kernel

/-! ## C34 -/

/-- **C34** With a non-negative tolerance the flag of a cell is set exactly when one of the two violation
magnitudes is positive, and the magnitudes are never negative. -/
theorem C34_flags (o : DetectOpts K) (heps : 0 ≤ o.eps) (dims : List (Fin 3)) (hd : dims.Nodup)
    (hne : dims ≠ []) (n : Fin 3 → ℕ) (hn : ∀ d, 1 ≤ n d) (U C : Ix → State K 0) (D : Detected K)
    (h : detectTroubledCells o dims (boxArr n (detPad dims) U) (boxArr n (detPad dims) C) = .ok D)
    (i : Ix) (hi : InCells n i) :
    (D.trouble.get i = true ↔ 0 < D.nadMag.get i ∨ 0 < D.padMag.get i) ∧
      0 ≤ D.nadMag.get i ∧ 0 ≤ D.padMag.get i := by
  have ho : o.Known := by
    by_contra hk
    have : (o.mode ≠ "global" ∧ o.mode ≠ "local") ∨ (o.rangeType ≠ "relative" ∧ o.rangeType ≠ "absolute") := by
      unfold DetectOpts.Known at hk
      tauto
    rw [C32_rejects o this] at h
    cases h
  obtain ⟨D', h1, _, h3⟩ := detect_spec o ho dims ⟨hd, hne⟩ n hn U C
  rw [h] at h1
  cases h1
  obtain ⟨e1, e2, e3, e4⟩ := h3 i hi
  have hpad : (padAt o.pad (C i) < 0 ↔ 0 < D.padMag.get i) ∧ 0 ≤ D.padMag.get i := by
    rw [e4]
    by_cases hp : padAt o.pad (C i) < 0
    · have : 0 < -((padAt o.pad (C i)).untopD 0) := by
        obtain ⟨y, hy⟩ := WithTop.ne_top_iff_exists.1 (ne_top_of_lt hp)
        rw [← hy] at hp ⊢
        rw [show (0 : WithTop K) = ((0 : K) : WithTop K) from rfl, WithTop.coe_lt_coe] at hp
        rw [WithTop.untopD_coe]
        linarith
      rw [if_pos hp]
      exact ⟨iff_of_true hp this, this.le⟩
    · rw [if_neg hp]
      exact ⟨iff_of_false hp (lt_irrefl _), le_rfl⟩
  have hnad : (NadCell o dims n U C i ↔ 0 < D.nadMag.get i) ∧ 0 ≤ D.nadMag.get i := by
    by_cases hc : NadCell o dims n U C i
    · have : 0 < D.nadMag.get i := by
        rw [e2 hc, neg_pos]
        obtain ⟨v, _, hv, _⟩ := hc
        refine lt_of_le_of_lt ((listMin_spec (by simp [activeVars])).2 _
          (List.mem_map.2 ⟨v, mem_activeVars v, rfl⟩)) ?_
        unfold nadInd
        have hl : nLo dims U i v ≤ nHi dims U i v :=
          (nLo_least dims U i v).2 (nHi_greatest dims U i v).1
        have hg : gLo dims n U v ≤ gHi dims n U v :=
          (gLo_least dims n hn U v).2 (gHi_greatest dims n hn U v).1
        split_ifs with hr
        · unfold tolLo tolHi at hv
          simp only [hr, if_true] at hv
          have hrange : 0 ≤ o.eps * (if o.mode = "global" then gHi dims n U v - gLo dims n U v
              else nHi dims U i v - nLo dims U i v) := by
            refine mul_nonneg heps ?_
            split_ifs <;> linarith
          rw [min_lt_iff]
          rcases hv with hv | hv
          · left; linarith
          · right; linarith
        · rw [min_lt_iff]
          rcases hv with hv | hv
          · left; linarith
          · right; linarith
      exact ⟨iff_of_true hc this, this.le⟩
    · rw [e3 hc]
      exact ⟨iff_of_false hc (lt_irrefl _), le_rfl⟩
  exact ⟨by rw [e1, hnad.1, hpad.1], hnad.2, hpad.2⟩

/-- A log entry is consistent on the cells. -/
def TroubleEntry.Consistent (n : Fin 3 → ℕ) (x : TroubleEntry K) : Prop :=
  ∀ i, InCells n i → (0 < x.trouble i ↔ 0 < x.nad i ∨ 0 < x.pad i) ∧
    0 ≤ x.trouble i ∧ 0 ≤ x.nad i ∧ 0 ≤ x.pad i

theorem TroubleEntry.Consistent.add {n : Fin 3 → ℕ} {x y : TroubleEntry K} (hx : x.Consistent n)
    (hy : y.Consistent n) : (x.add y).Consistent n := by
  have pos : ∀ a b : K, 0 ≤ a → 0 ≤ b → (0 < a + b ↔ 0 < a ∨ 0 < b) := by
    intro a b ha hb
    constructor
    · intro h
      by_contra hc
      push Not at hc
      linarith
    · rintro (h | h) <;> linarith
  intro i hi
  obtain ⟨x1, x2, x3, x4⟩ := hx i hi
  obtain ⟨y1, y2, y3, y4⟩ := hy i hi
  simp only [TroubleEntry.add]
  rw [pos _ _ x2 y2, pos _ _ x3 y3, pos _ _ x4 y4, x1, y1]
  exact ⟨by tauto, by linarith, by linarith, by linarith⟩

theorem TroubleEntry.Consistent.div {n : Fin 3 → ℕ} {x : TroubleEntry K} (hx : x.Consistent n) (c : K)
    (hc : 0 < c) : (x.map (· / c)).Consistent n := by
  intro i hi
  obtain ⟨x1, x2, x3, x4⟩ := hx i hi
  simp only [TroubleEntry.map]
  rw [div_pos_iff_of_pos_right hc, div_pos_iff_of_pos_right hc, div_pos_iff_of_pos_right hc]
  exact ⟨x1, div_nonneg x2 hc.le, div_nonneg x3 hc.le, div_nonneg x4 hc.le⟩

theorem log_fold_consistent {n : Fin 3 → ℕ} (l : List (TroubleEntry K)) (s : TroubleLog K)
    (hs : s.mean.Consistent n) (hl : ∀ x ∈ l, x.Consistent n) :
    (l.foldl TroubleLog.log s).mean.Consistent n := by
  induction l generalizing s with
  | nil => exact hs
  | cons x l ih =>
    refine ih _ ?_ (fun y hy => hl y (by simp [hy]))
    unfold TroubleLog.log
    split_ifs
    · exact hl x (by simp)
    · exact hs.add (hl x (by simp))

theorem log_run_consistent {n : Fin 3 → ℕ} (steps : List (List (TroubleEntry K))) (s s' : TroubleLog K)
    (hs : s.mean.Consistent n) (hl : ∀ l ∈ steps, ∀ x ∈ l, x.Consistent n) (h : s.run steps = .ok s') :
    s'.mean.Consistent n := by
  induction steps generalizing s with
  | nil => cases h; exact hs
  | cons l steps ih =>
    unfold TroubleLog.run at h
    rw [List.foldlM_cons] at h
    obtain ⟨m, hm, h2⟩ := bind_ok h
    refine ih m ?_ (fun l hl' => hl l (by simp [hl'])) h2
    unfold TroubleLog.step TroubleLog.reset at hm
    split_ifs at hm with hc
    cases hm
    exact (log_fold_consistent l s hs (hl l (by simp))).div _ (by exact_mod_cast hc)

/-- **C34, plotting** When all flags logged so far come from the detector with a non-negative tolerance,
`plotting_trouble` does not reject the logged means, after any number of steps with any number of
stages, in any of its modes. -/
theorem C34_plotting (n : Fin 3 → ℕ) (hn : ∀ d, 1 ≤ n d) (dims : List (Fin 3)) (hd : dims.Nodup)
    (hne : dims ≠ []) (steps : List (List (TroubleEntry K)))
    (hsteps : ∀ l ∈ steps, ∀ x ∈ l, ∃ (o : DetectOpts K) (U C : Ix → State K 0) (D : Detected K),
      0 ≤ o.eps ∧ detectTroubledCells o dims (boxArr n (detPad dims) U) (boxArr n (detPad dims) C) = .ok D ∧
      x = D.entry false)
    (s : TroubleLog K) (h : TroubleLog.init.run steps = .ok s) (mode : String)
    (hmode : mode = "all" ∨ mode = "NAD" ∨ mode = "PAD") (tol : K) :
    ∃ marks, plottingTrouble n s.mean mode tol = .ok marks := by
  have h0 : (TroubleLog.init : TroubleLog K).mean.Consistent n := by
    intro i _
    simp [TroubleLog.init]
  have hc := log_run_consistent steps _ s h0 (by
    intro l hl x hx
    obtain ⟨o, U, C, D, he, hD, rfl⟩ := hsteps l hl x hx
    intro i hi
    obtain ⟨h1, h2, h3⟩ := C34_flags o he dims hd hne n hn U C D hD i hi
    simp only [Detected.entry, Bool.false_or]
    refine ⟨?_, ?_, h2, h3⟩
    · rw [← h1]
      split_ifs with ht <;> simp [ht]
    · split_ifs <;> simp) h
  unfold plottingTrouble
  rw [if_pos (fun i hi => (hc i ((mem_indexList n i).1 hi)).1)]
  rcases hmode with rfl | rfl | rfl
  · exact ⟨_, if_pos rfl⟩
  · exact ⟨_, by rw [if_neg (by decide), if_pos rfl]⟩
  · exact ⟨_, by rw [if_neg (by decide), if_neg (by decide), if_pos rfl]⟩

/-- **C34, what is plotted** With tolerance 0 the mode "all" marks exactly the cells whose logged flag is
positive, and for any tolerance it marks what "NAD" or "PAD" marks. -/
theorem C34_marks (n : Fin 3 → ℕ) (x : TroubleEntry K) (tol : K) (all nad pad : Ix → ℕ)
    (ha : plottingTrouble n x "all" tol = .ok all) (hn : plottingTrouble n x "NAD" tol = .ok nad)
    (hp : plottingTrouble n x "PAD" tol = .ok pad) (i : Ix) (hi : InCells n i) :
    (all i = 1 ↔ nad i = 1 ∨ pad i = 1) ∧ all i ≤ 1 ∧ (nad i = 1 ↔ tol < x.nad i) ∧
      (pad i = 1 ↔ 0 < x.pad i) ∧ (tol = 0 → (all i = 1 ↔ 0 < x.trouble i)) := by
  unfold plottingTrouble at ha hn hp
  by_cases hc : ∀ i ∈ indexList n, (x.trouble i > 0 ↔ x.nad i > 0 ∨ x.pad i > 0)
  · rw [if_pos hc, if_pos rfl] at ha
    rw [if_pos hc, if_neg (by decide), if_pos rfl] at hn
    rw [if_pos hc, if_neg (by decide), if_neg (by decide), if_pos rfl] at hp
    cases ha
    cases hn
    cases hp
    have := hc i ((mem_indexList n i).2 hi)
    refine ⟨?_, ?_, ?_, ?_, ?_⟩
    · beta_reduce; split_ifs <;> simp
    · beta_reduce; split_ifs <;> simp
    · beta_reduce; split_ifs with h <;> simp [h]
    · beta_reduce; split_ifs with h <;> simp [h]
    · rintro rfl
      rw [show (0 < x.trouble i) = (x.trouble i > 0) from rfl, this]
      beta_reduce
      split_ifs with h h' <;> simp [h] <;> simpa using h'
  · rw [if_neg hc] at ha
    cases ha

/-- With `force_trouble` a cell without violation makes `plotting_trouble` raise. -/
theorem C34_forced (n : Fin 3 → ℕ) (D : Detected K) (i : Ix) (hi : InCells n i)
    (h1 : D.nadMag.get i = 0) (h2 : D.padMag.get i = 0) (mode : String) (tol : K) :
    plottingTrouble n (D.entry true) mode tol = .error .valueError := by
  unfold plottingTrouble
  rw [if_neg]
  intro h
  have := h i ((mem_indexList n i).2 hi)
  simp [Detected.entry, h1, h2] at this

/-! ## C50 -/

/-- The arithmetic mean of the entries of one step. -/
def IsMean (l : List (TroubleEntry K)) (m : TroubleEntry K) : Prop :=
  ∀ i, m.trouble i = (l.map fun x => x.trouble i).sum / l.length ∧
    m.nad i = (l.map fun x => x.nad i).sum / l.length ∧ m.pad i = (l.map fun x => x.pad i).sum / l.length

theorem log_fold (l : List (TroubleEntry K)) (s : TroubleLog K) (hs : s.counter ≠ 0) :
    (l.foldl TroubleLog.log s).counter = s.counter + l.length ∧
    ∀ i, (l.foldl TroubleLog.log s).mean.trouble i = s.mean.trouble i + (l.map fun x => x.trouble i).sum ∧
      (l.foldl TroubleLog.log s).mean.nad i = s.mean.nad i + (l.map fun x => x.nad i).sum ∧
      (l.foldl TroubleLog.log s).mean.pad i = s.mean.pad i + (l.map fun x => x.pad i).sum := by
  induction l generalizing s with
  | nil => simp
  | cons x l ih =>
    have e : s.log x = ⟨s.counter + 1, s.mean.add x⟩ := if_neg hs
    rw [List.foldl_cons, e]
    obtain ⟨h1, h2⟩ := ih ⟨s.counter + 1, s.mean.add x⟩ (by simp)
    refine ⟨by rw [h1]; simp; ring, fun i => ?_⟩
    obtain ⟨a, b, c⟩ := h2 i
    refine ⟨?_, ?_, ?_⟩
    · rw [a]; simp [TroubleEntry.add]; ring
    · rw [b]; simp [TroubleEntry.add]; ring
    · rw [c]; simp [TroubleEntry.add]; ring

theorem log_step_zero (l : List (TroubleEntry K)) (hl : l ≠ []) (s : TroubleLog K) (hs : s.counter = 0) :
    ∃ s', s.step l = .ok s' ∧ s'.counter = 0 ∧ IsMean l s'.mean := by
  cases l with
  | nil => exact absurd rfl hl
  | cons x l =>
    have e : s.log x = ⟨s.counter + 1, x⟩ := if_pos hs
    obtain ⟨h1, h2⟩ := log_fold l ⟨s.counter + 1, x⟩ (by simp)
    unfold TroubleLog.step TroubleLog.reset
    rw [List.foldl_cons, e, h1, if_pos (by simp)]
    refine ⟨_, rfl, rfl, fun i => ?_⟩
    obtain ⟨a, b, c⟩ := h2 i
    simp only [TroubleEntry.map]
    rw [a, b, c]
    have : ((s.counter + 1 + l.length : ℕ) : K) = ((x :: l).length : ℕ) := by
      simp [hs, add_comm]
    simp only [this, List.map_cons, List.sum_cons, and_self]

theorem log_step_init (l : List (TroubleEntry K)) :
    ∃ s', (TroubleLog.init : TroubleLog K).step l = .ok s' ∧ s'.counter = 0 ∧
      ∀ i, s'.mean.trouble i = (l.map fun x => x.trouble i).sum / (l.length + 1) ∧
        s'.mean.nad i = (l.map fun x => x.nad i).sum / (l.length + 1) ∧
        s'.mean.pad i = (l.map fun x => x.pad i).sum / (l.length + 1) := by
  obtain ⟨h1, h2⟩ := log_fold l (TroubleLog.init : TroubleLog K) (by simp [TroubleLog.init])
  unfold TroubleLog.step TroubleLog.reset
  rw [h1, if_pos (by simp [TroubleLog.init])]
  refine ⟨_, rfl, rfl, fun i => ?_⟩
  obtain ⟨a, b, c⟩ := h2 i
  simp only [TroubleEntry.map]
  rw [a, b, c]
  have : (((TroubleLog.init : TroubleLog K).counter + l.length : ℕ) : K) = l.length + 1 := by
    simp [TroubleLog.init, add_comm]
  rw [this]
  simp [TroubleLog.init]

/-- **C50, partial** After any number of steps, at least two, the stored arrays are the arithmetic mean over
the evaluations of the last step. Missing: the first step (`C50_first_step`). -/
theorem C50_partial (first last : List (TroubleEntry K)) (steps : List (List (TroubleEntry K)))
    (hsteps : ∀ l ∈ steps, l ≠ []) (hlast : last ≠ []) :
    ∃ s, (TroubleLog.init : TroubleLog K).run (first :: steps ++ [last]) = .ok s ∧ IsMean last s.mean := by
  obtain ⟨s0, e0, c0, _⟩ := log_step_init first
  have main : ∀ (steps : List (List (TroubleEntry K))) (s0 : TroubleLog K), s0.counter = 0 →
      (∀ l ∈ steps, l ≠ []) → ∃ s, s0.run (steps ++ [last]) = .ok s ∧ IsMean last s.mean := by
    intro steps
    induction steps with
    | nil =>
      intro s0 c0 _
      obtain ⟨s, e, _, hm⟩ := log_step_zero last hlast s0 c0
      refine ⟨s, ?_, hm⟩
      unfold TroubleLog.run
      simp [e]
    | cons l steps ih =>
      intro s0 c0 hl
      obtain ⟨s1, e1, c1, _⟩ := log_step_zero l (hl l (by simp)) s0 c0
      obtain ⟨s, e, hm⟩ := ih s1 c1 (fun l' hl' => hl l' (by simp [hl']))
      refine ⟨s, ?_, hm⟩
      unfold TroubleLog.run at e ⊢
      rw [List.cons_append, List.foldlM_cons, e1]
      exact e
  obtain ⟨s, e, hm⟩ := main steps s0 c0 hsteps
  refine ⟨s, ?_, hm⟩
  unfold TroubleLog.run at e ⊢
  rw [List.cons_append, List.foldlM_cons, e0]
  exact e

/-- **C50 fails after the first step** The sum over the evaluations is divided by one more than their
number, so the stored flags are the mean only where no evaluation was troubled. -/
theorem C50_first_step (l : List (TroubleEntry K)) :
    ∃ s, (TroubleLog.init : TroubleLog K).run [l] = .ok s ∧
      (∀ i, s.mean.trouble i = (l.map fun x => x.trouble i).sum / (l.length + 1)) ∧
      ∀ i, (l.map fun x => x.trouble i).sum ≠ 0 → ¬ IsMean l s.mean := by
  obtain ⟨s, e, _, h⟩ := log_step_init l
  refine ⟨s, ?_, fun i => (h i).1, fun i hi hm => ?_⟩
  · unfold TroubleLog.run
    simp [e]
  · have h1 := (h i).1
    rw [(hm i).1] at h1
    have hl : (0 : K) < l.length := by
      cases l with
      | nil => simp at hi
      | cons x l => simp; positivity
    rw [div_eq_div_iff hl.ne' (by positivity)] at h1
    have : (l.map fun x => x.trouble i).sum * 1 = 0 := by linear_combination h1
    exact hi (by simpa using this)

/-! ## Concrete cases -/

/-- A line with a candidate overshoot: values 1, candidate 2 in the middle of three cells. -/
def flatLine : Ix → State ℚ 0 := fun _ _ => 1

/-- The candidate. -/
def spikeLine : Ix → State ℚ 0 := fun i v => if i 0 = 1 ∧ v = .rho then 2 else 1

/-- Plain NAD test. -/
def plainDetect : DetectOpts ℚ := ⟨1 / 100000, "local", "relative", none, [], false, 0⟩

example : (detectTroubledCells plainDetect [0] (boxArr ![3, 1, 1] (detPad [0]) flatLine)
    (boxArr ![3, 1, 1] (detPad [0]) spikeLine)).map
      (fun D => (D.trouble.get ![0, 0, 0], D.trouble.get ![1, 0, 0], D.nadMag.get ![1, 0, 0])) =
    .ok (false, true, 1) := by decide +kernel

example : (∀ v, BlockRange [0] flatLine ![1, 0, 0] v 1 1) ∧ ∀ v, ArrayRange [0] ![3, 1, 1] flatLine v 1 1 := by
  constructor
  · intro v
    refine ⟨⟨⟨![1, 0, 0], fun d => ?_, rfl⟩, ?_⟩, ⟨⟨![1, 0, 0], fun d => ?_, rfl⟩, ?_⟩⟩
    · split_ifs <;> simp
    · rintro _ ⟨_, _, rfl⟩; exact le_rfl
    · split_ifs <;> simp
    · rintro _ ⟨_, _, rfl⟩; exact le_rfl
  · intro v
    refine ⟨⟨⟨![1, 0, 0], by decide, rfl⟩, ?_⟩, ⟨⟨![1, 0, 0], by decide, rfl⟩, ?_⟩⟩
    · rintro _ ⟨_, _, rfl⟩; exact le_rfl
    · rintro _ ⟨_, _, rfl⟩; exact le_rfl

example : Breaks (some (0 : ℚ), none) (-1) := Or.inl ⟨0, rfl, by norm_num⟩

end FVHOE
