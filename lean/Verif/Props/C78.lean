import Verif.Props.C38
import Verif.Props.C32_C34
import Verif.Proofs.LowOrder

/-!
C78: a-posteriori limiting is local.
-/

set_option linter.unusedSectionVars false

namespace FVHOE

variable {K : Type} [Field K] [LinearOrder K] [IsStrictOrderedRing K] {np : ℕ}

/-- The troubled cells of state `u` for step `dt`: the cells the detector reports when it compares the state
with the one after an unlimited Euler step. -/
def TroubledCell (c : EulerConfig K np) (o : LimiterOpts K) (gl gr gld grd : Fin 3 → Ghost (State K np)) (dt : K)
    (u : Ix → State K np) (i : Ix) : Prop :=
  InCells c.n i ∧ Reported o.toDetectOpts c.dims c.n (seenPrim c gld grd u)
    (seenPrim c gld grd fun i => u i + dt • latDiv c.scheme.active c.h (highFlux c gl gr u) i) i

/-- No troubled cell close enough to touch the fluxes of cell `i`: for simple spreading the cell and its
neighbours across a face, for convex spreading the cells at most 3 away in every direction. -/
def Clear (convex : Bool) (T : Ix → Prop) (i : Ix) : Prop :=
  if convex then ∀ j, T j → ∃ d, 3 < |j d - i d|
  else ¬ T i ∧ ∀ d, ¬ T (i - Pi.single d 1) ∧ ¬ T (i + Pi.single d 1)

theorem along_close {a : Fin 3} {k : ℕ} {i j : Ix} (h : Along a k i j) (e : Fin 3) :
    |j e - i e| ≤ if e = a then (k : ℤ) else 0 := by
  rcases h with rfl | rfl <;> by_cases he : e = a
  · subst he; simp
  · simp [he]
  · subst he; simp
  · simp [he]

theorem across_close {a b : Fin 3} (hab : a ≠ b) {k l : ℕ} {i j : Ix} (h : Across a b k l i j) (e : Fin 3) :
    |j e - i e| ≤ if e = a then (k : ℤ) else if e = b then (l : ℤ) else 0 := by
  obtain ⟨m, h1, h2⟩ := h
  have g1 := along_close h1 e
  have g2 := along_close h2 e
  have g3 := abs_sub_le (j e) (m e) (i e)
  by_cases ha : e = a
  · subst ha
    rw [if_pos rfl] at g1 ⊢
    rw [if_neg hab] at g2
    omega
  · rw [if_neg ha] at g1 ⊢
    split_ifs at g2 ⊢ <;> omega

/-- The factors of the faces of a cell. -/
theorem blend_factors (c : EulerConfig K np) (o : LimiterOpts K) (hn : ∀ d, 1 ≤ c.n d) (tr : Arr Bool)
    (hsh : tr.shape = c.n) (theta : Fin 3 → Arr K)
    (hb : broadcastTrouble K o.convex c.isPeriodic c.dims tr = .ok theta) (i : Ix) (hi : InCells c.n i) (d : Fin 3)
    (hdd : d ∈ c.dims) :
    (Troubled tr i → (theta d).get i = 1 ∧ (theta d).get (i + Pi.single d 1) = 1) ∧
    (Clear o.convex (Troubled tr) i → (theta d).get i = 0 ∧ (theta d).get (i + Pi.single d 1) = 0) := by
  have f1 : InFaces tr.shape d i := by
    rw [hsh]
    intro e
    have := hi e
    by_cases he : e = d
    · subst he; rw [Pi.single_eq_same]; omega
    · rw [Pi.single_eq_of_ne he]; omega
  have f2 : InFaces tr.shape d (i + Pi.single d 1) := by
    rw [hsh]
    intro e
    have := hi e
    rw [Pi.add_apply]
    by_cases he : e = d
    · subst he; rw [Pi.single_eq_same]; omega
    · rw [Pi.single_eq_of_ne he]; omega
  have e1 : i + Pi.single d 1 - Pi.single d 1 = i := add_sub_cancel_right _ _
  cases hcv : o.convex with
  | false =>
    rw [hcv] at hb
    obtain ⟨theta', h1, h2⟩ := C35_simple (K := K) c.isPeriodic c.dims tr
    rw [hb] at h1
    cases h1
    obtain ⟨_, h3⟩ := h2 d
    obtain ⟨g1, g2⟩ := h3 _ f1
    obtain ⟨g3, g4⟩ := h3 _ f2
    rw [e1] at g3 g4
    refine ⟨fun h => ⟨g1 ⟨hdd, Or.inr h⟩, g3 ⟨hdd, Or.inl h⟩⟩, fun h => ?_⟩
    unfold Clear at h
    simp only [Bool.false_eq_true, if_false] at h
    obtain ⟨k1, k2⟩ := h
    refine ⟨g2 ?_, g4 ?_⟩
    · rintro ⟨_, h | h⟩
      · exact (k2 d).1 h
      · exact k1 h
    · rintro ⟨_, h | h⟩
      · exact k1 h
      · exact (k2 d).2 h
  | true =>
    rw [hcv] at hb
    -- weights of the cells
    have key : ∃ w : Ix → K, (∀ j, 0 ≤ w j ∧ w j ≤ 1) ∧ (∀ j, Troubled tr j → w j = 1) ∧
        (∀ j, (∀ m, Troubled tr m → ∃ e, 2 < |m e - j e|) → w j = 0) ∧
        ∀ j, InFaces tr.shape d j → (theta d).get j = max (w (j - Pi.single d 1)) (w j) := by
      have hdims : (∃ a, c.dims = [a]) ∨ ∃ a b, c.dims = [a, b] := by
        cases hq : c.dims with
        | nil => rw [hq] at hdd; cases hdd
        | cons a l =>
          cases l with
          | nil => exact Or.inl ⟨a, rfl⟩
          | cons b l =>
            cases l with
            | nil => exact Or.inr ⟨a, b, rfl⟩
            | cons e l =>
              exfalso
              rw [hq] at hb
              unfold broadcastTrouble at hb
              simp only [if_true, bind, Except.bind] at hb
              cases h1 : allocTrouble (tr.map flag : Arr K) (a :: b :: e :: l) with
              | error x => rw [h1] at hb; cases hb
              | ok A =>
                rw [h1] at hb
                dsimp only at hb
                cases h2 : List.foldlM (wrapTrouble (tr.map flag : Arr K) (a :: b :: e :: l) c.isPeriodic) A
                    [0, 1, 2] with
                | error x => rw [h2] at hb; cases hb
                | ok B =>
                  rw [h2] at hb
                  dsimp only at hb
                  cases l <;> cases hb
      have hlevel : ∀ {w : Ix → K}, (∀ j, w j = 1 ∨ w j = 3 / 4 ∨ w j = 1 / 2 ∨ w j = 1 / 4 ∨ w j = 0) →
          ∀ j, 0 ≤ w j ∧ w j ≤ 1 := by
        intro w h j
        rcases h j with h | h | h | h | h <;> rw [h] <;> norm_num
      rcases hdims with ⟨a, ha⟩ | ⟨a, b, hab⟩
      · rw [ha] at hb hdd
        have hda : d = a := by simpa using hdd
        subst hda
        obtain ⟨theta', w, h1, h2, _, h3, _⟩ := C36_line (K := K) tr d (fun e he => by
          rw [hsh]; exact dims_cells c e (by rw [ha]; simpa using he)) (by rw [hsh]; exact hn d) c.isPeriodic
        rw [hb] at h1
        cases h1
        refine ⟨w, hlevel fun j => ?_, h2.hit, fun j hj => h2.far j ?_, h3⟩
        · by_cases g0 : Troubled tr j
          · exact Or.inl (h2.hit j g0)
          by_cases g1 : ∃ c', Troubled tr c' ∧ Along d 1 j c'
          · exact Or.inr (Or.inl (h2.next j g0 g1))
          by_cases g2 : ∃ c', Troubled tr c' ∧ Along d 2 j c'
          · exact Or.inr (Or.inr (Or.inr (Or.inl (h2.second j g0 g1 g2))))
          refine Or.inr (Or.inr (Or.inr (Or.inr (h2.far j ?_))))
          rintro ⟨k, hk, c', k1, k2⟩
          interval_cases k
          · refine g0 ?_
            have : c' = j := by rcases k2 with h | h <;> simpa using h
            rwa [this] at k1
          · exact g1 ⟨c', k1, k2⟩
          · exact g2 ⟨c', k1, k2⟩
        · rintro ⟨k, hk, m, k1, k2⟩
          obtain ⟨e, he⟩ := hj m k1
          have := along_close k2 e
          split_ifs at this <;> omega
      · have hlt : a < b := by
          have := dims_sorted c
          rw [hab] at this
          simpa using this
        rw [hab] at hb hdd
        obtain ⟨w, h2, _, h3, _⟩ := (C36_plane (K := K) tr a b hlt (fun e h5 h6 => by
          rw [hsh]; exact dims_cells c e (by rw [hab]; simp [h5, h6])) (fun e => by rw [hsh]; exact hn e)
          c.isPeriodic).2 theta hb
        refine ⟨w, hlevel fun j => ?_, h2.hit, fun j hj => h2.far j ?_, h3 d (by simpa using hdd)⟩
        · by_cases g0 : Troubled tr j
          · exact Or.inl (h2.hit j g0)
          by_cases g1 : ∃ c', Troubled tr c' ∧ (Across a b 1 0 j c' ∨ Across a b 0 1 j c')
          · exact Or.inr (Or.inl (h2.edge j g0 g1))
          by_cases g2 : ∃ c', Troubled tr c' ∧ Across a b 1 1 j c'
          · exact Or.inr (Or.inr (Or.inl (h2.corner j g0 g1 g2)))
          have g3 : ¬ ∃ k ≤ 1, ∃ l ≤ 1, ∃ c', Troubled tr c' ∧ Across a b k l j c' := by
            rintro ⟨k, hk, l, hl, c', k1, k2⟩
            interval_cases k <;> interval_cases l
            · refine g0 ?_
              have : c' = j := by
                obtain ⟨m, q1, q2⟩ := k2
                have : m = j := by rcases q1 with h | h <;> simpa using h
                subst this
                rcases q2 with h | h <;> simpa using h
              rwa [this] at k1
            · exact g1 ⟨c', k1, Or.inr k2⟩
            · exact g1 ⟨c', k1, Or.inl k2⟩
            · exact g2 ⟨c', k1, k2⟩
          by_cases g4 : ∃ k ≤ 2, ∃ l ≤ 2, ∃ c', Troubled tr c' ∧ Across a b k l j c'
          · exact Or.inr (Or.inr (Or.inr (Or.inl (h2.rest j g3 g4))))
          · exact Or.inr (Or.inr (Or.inr (Or.inr (h2.far j g4))))
        · rintro ⟨k, hk, l, hl, m, k1, k2⟩
          obtain ⟨e, he⟩ := hj m k1
          have := across_close hlt.ne k2 e
          split_ifs at this <;> omega
    obtain ⟨w, w1, w2, w3, w4⟩ := key
    have v1 := w4 _ f1
    have v2 := w4 _ f2
    rw [e1] at v2
    refine ⟨fun h => ?_, fun h => ?_⟩
    · rw [v1, v2, w2 i h]
      exact ⟨max_eq_right (w1 _).2, max_eq_left (w1 _).2⟩
    · unfold Clear at h
      simp only [if_true] at h
      have close : ∀ j : Ix, (∀ e, |j e - i e| ≤ 1) → w j = 0 := by
        intro j hj
        refine w3 j fun m hm => ?_
        obtain ⟨e, he⟩ := h m hm
        refine ⟨e, ?_⟩
        have h1 := hj e
        have h2 := abs_sub_le (m e) (j e) (i e)
        omega
      have c0 : w i = 0 := close i fun e => by simp
      have c1 : w (i - Pi.single d 1) = 0 := close _ fun e => by
        rw [Pi.sub_apply]
        by_cases he : e = d
        · subst he; simp
        · simp [he]
      have c2 : w (i + Pi.single d 1) = 0 := close _ fun e => by
        rw [Pi.add_apply]
        by_cases he : e = d
        · subst he; simp
        · simp [he]
      rw [v1, v2, c0, c1, c2, max_self]
      exact ⟨rfl, rfl⟩

/-- **C78** Limiting is local, for both ways of spreading and all degrees and fallback slopes. If the limited
right-hand side returns, it has the step of the solver without limiting; a cell with no troubled cell near it has
exactly the rate of change of the solver without limiting; a troubled cell has exactly the rate of change of
the solver that falls back everywhere (`force_trouble`, simple spreading). -/
theorem C78_local (c : EulerConfig K np) (o : LimiterOpts K) (hk : o.toDetectOpts.Known) (hf : o.force = false)
    (hd : c.dims ≠ []) (hp : ∀ d, c.p d ≤ 8) (hn : ∀ d, 1 ≤ c.n d) (t : K)
    (gl gr gl' gr' gld grd : Fin 3 → Ghost (State K np))
    (hs : Sides c.scheme (fluxWidth c.scheme c.p) t gl gr)
    (hs' : Sides c.scheme (fluxWidth c.scheme (fallbackP c.p)) t gl' gr')
    (hsd : Sides c.scheme (detectWidth c.scheme) t gld grd)
    (junk : ℕ → Ix → State K np) (mem : Fin 3 → Ix → State K np) (t' : K) (u : Ix → State K np)
    (dt : K) (k : Ix → State K np)
    (h : solverRHS (c.limited (some o)).scheme junk mem t t' u = .ok (dt, k)) :
    ∃ kh kf, solverRHS (c.limited none).scheme junk mem t t' u = .ok (dt, kh) ∧
      solverRHS (c.limited (some { o with force := true, convex := false })).scheme junk mem t t' u = .ok (dt, kf) ∧
      ∀ i, InCells c.n i →
        (Clear o.convex (TroubledCell c o gl gr gld grd dt u) i → k i = kh i) ∧
        (TroubledCell c o gl gr gld grd dt u i → k i = kf i) := by
  obtain ⟨dt', tr, h1, h2, h3, h4⟩ := limited_rhs c o hk hd hp hn t gl gr gl' gr' gld grd hs hs' hsd junk mem t' u
  rw [h4] at h
  obtain ⟨rfl, hc⟩ := limitedResult_inv c o _ _ dt' dt tr h2 k h
  obtain ⟨dt₀, g1, g2⟩ := rhs_spec (c.limited none).scheme rfl hp hn t gl gr hs junk mem t' u u fun _ _ => rfl
  have : dt₀ = dt := IsDt.unique (S := c.scheme) g1 h1
  subst this
  obtain ⟨dt₁, ⟨k₁, q1⟩, q2⟩ := C38_forced c { o with force := true, convex := false } hk hd hp hn t gl gr gl' gr' gld
    grd hs hs' hsd rfl rfl junk mem t' u
  rw [q1] at g2
  cases g2
  refine ⟨_, _, q1, q2, fun i hi => ?_⟩
  have hu : used o tr = tr := by unfold used; rw [hf]; rfl
  have hT : Troubled tr = TroubledCell c o gl gr gld grd dt₀ u := by
    funext j
    refine propext ⟨fun hj => ?_, fun hj => ?_⟩
    · have hj1 : InCells c.n j := by rw [← h2]; exact hj.1
      exact ⟨hj1, (h3 j hj1).1 hj.2⟩
    · exact ⟨by rw [h2]; exact hj.1, (h3 j hj.1).2 hj.2⟩
  rw [hu] at hc
  rcases hc with ⟨hq, rfl⟩ | ⟨_, theta, hb, rfl⟩
  · refine ⟨fun _ => rfl, fun hi' => ?_⟩
    rw [← hT] at hi'
    have := (anyTrue_iff tr).2 ⟨i, hi'.1, hi'.2⟩
    rw [hq] at this
    cases this
  · have hfac := blend_factors c o hn tr h2 theta hb i hi
    rw [hT] at hfac
    refine ⟨fun hcl => ?_, fun htr => ?_⟩
    · refine (if_pos hi).trans (Eq.trans ?_ (if_pos hi).symm)
      unfold latDiv
      refine Finset.sum_congr rfl fun d _ => ?_
      by_cases hdj : c.scheme.active d = true
      · obtain ⟨r1, r2⟩ := (hfac d ((mem_dims c d).2 hdj)).2 hcl
        rw [if_pos hdj]
        refine Eq.trans ?_ (if_pos hdj).symm
        unfold blendFlux
        simp only [r1, r2, sub_zero, one_smul, zero_smul, add_zero]
        rfl
      · exact (if_neg hdj).trans (if_neg hdj).symm
    · refine (if_pos hi).trans (Eq.trans ?_ (if_pos hi).symm)
      unfold latDiv
      refine Finset.sum_congr rfl fun d _ => ?_
      by_cases hdj : c.scheme.active d = true
      · obtain ⟨r1, r2⟩ := (hfac d ((mem_dims c d).2 hdj)).1 htr
        rw [if_pos hdj]
        refine Eq.trans ?_ (if_pos hdj).symm
        unfold blendFlux fallbackFlux
        simp only [r1, r2, sub_self, one_smul, zero_smul, zero_add]
      · exact (if_neg hdj).trans (if_neg hdj).symm

/-- **C78, accepted cells** For degrees at most 1 and without smooth-extremum relaxation: in a cell with no troubled
cell near it, the primitive variables after an Euler step with the limited rate stay within the range of the
block of `3^d` cells around it before the step, up to the tolerance times the range (of the block or of the
whole array); with the default bounds the pressure is not negative. -/
theorem C78_accepted (c : EulerConfig K np) (o : LimiterOpts K) (hk : o.toDetectOpts.Known) (hf : o.force = false)
    (hsed : o.sed = false) (hr : o.rangeType = "relative") (hd : c.dims ≠ []) (hp : ∀ d, c.p d ≤ 1)
    (hn : ∀ d, 1 ≤ c.n d) (t : K) (gl gr gl' gr' gld grd : Fin 3 → Ghost (State K np))
    (hs : Sides c.scheme (fluxWidth c.scheme c.p) t gl gr)
    (hs' : Sides c.scheme (fluxWidth c.scheme (fallbackP c.p)) t gl' gr')
    (hsd : Sides c.scheme (detectWidth c.scheme) t gld grd)
    (junk : ℕ → Ix → State K np) (mem : Fin 3 → Ix → State K np) (t' : K) (u : Ix → State K np)
    (dt : K) (k : Ix → State K np)
    (h : solverRHS (c.limited (some o)).scheme junk mem t t' u = .ok (dt, k)) (i : Ix) (hi : InCells c.n i)
    (hcl : Clear o.convex (TroubledCell c o gl gr gld grd dt u) i) :
    let old : Ix → State K 0 := fun j => activePart (computePrimitives c.gas.gamma (extAll c.n gld grd u j))
    let new : State K 0 := activePart (computePrimitives c.gas.gamma (u i + dt • k i))
    (∀ v, Considered o.toDetectOpts v → ∀ lo up glo gup, BlockRange c.dims old i v lo up →
      ArrayRange c.dims c.n old v glo gup →
      (o.mode = "local" → lo - o.eps * (up - lo) ≤ new v ∧ new v ≤ up + o.eps * (up - lo)) ∧
      (o.mode = "global" → lo - o.eps * (gup - glo) ≤ new v ∧ new v ≤ up + o.eps * (gup - glo))) ∧
    (o.pad = defaultPad → 0 ≤ computePrimitives c.gas.gamma (u i + dt • k i) .en) := by
  intro old new
  have hp8 : ∀ d, c.p d ≤ 8 := fun d => (hp d).trans (by norm_num)
  obtain ⟨kh, kf, e1, e2, e3⟩ := C78_local c o hk hf hd hp8 hn t gl gr gl' gr' gld grd hs hs' hsd junk mem t' u dt k h
  have hki := (e3 i hi).1 hcl
  obtain ⟨dt₀, g1⟩ := C38_high c hp8 hn t gl gr hs junk mem t' u
  rw [e1] at g1
  obtain ⟨g2, g3⟩ := Prod.mk.inj (Except.ok.inj g1)
  have hkh : k i = latDiv c.scheme.active c.h (highFlux c gl gr u) i := by
    rw [hki, g3]
    exact if_pos hi
  have hseen : ∀ U : Ix → State K np, seenPrim c gld grd U =
      fun j => activePart (computePrimitives c.gas.gamma (extAll c.n gld grd U j)) := by
    intro U
    funext j
    unfold seenPrim
    rw [latPrim_low _ hp]
    rfl
  have hcell : ∀ U : Ix → State K np, extAll c.n gld grd U i = U i := by
    intro U
    unfold extAll extAxis
    rw [if_neg (not_lt.2 (hi 2).1), if_neg (not_le.2 (hi 2).2), if_neg (not_lt.2 (hi 1).1),
      if_neg (not_le.2 (hi 1).2), if_neg (not_lt.2 (hi 0).1), if_neg (not_le.2 (hi 0).2)]
  have hnot : ¬ TroubledCell c o gl gr gld grd dt u i := by
    unfold Clear at hcl
    split_ifs at hcl with hcv
    · intro hT
      obtain ⟨d, hd⟩ := hcl i hT
      simp at hd
    · exact hcl.1
  have hrep : ¬ Reported o.toDetectOpts c.dims c.n (seenPrim c gld grd u)
      (seenPrim c gld grd fun i => u i + dt • latDiv c.scheme.active c.h (highFlux c gl gr u) i) i :=
    fun hR => hnot ⟨hi, hR⟩
  rw [hseen, hseen] at hrep
  unfold Reported at hrep
  simp only [hcell] at hrep
  rw [← hkh] at hrep
  push Not at hrep
  obtain ⟨r1, r2⟩ := hrep
  constructor
  · intro v hv lo up glo gup hb hg
    have eb := hb.eq
    have eg := hg.eq hn
    have hq : ¬ NadFlag o.toDetectOpts c.dims c.n old
        (fun j => activePart (computePrimitives c.gas.gamma (extAll c.n gld grd
          (fun i => u i + dt • latDiv c.scheme.active c.h (highFlux c gl gr u) i) j))) i v := fun hx =>
      r1 ⟨v, (considers_iff _ v).2 hv, hx⟩
    unfold NadFlag at hq
    simp only [hcell] at hq
    rw [← hkh] at hq
    have hq' : tolLo o.toDetectOpts c.dims c.n old i v ≤ new v ∧ new v ≤ tolHi o.toDetectOpts c.dims c.n old i v := by
      refine ⟨?_, ?_⟩ <;> by_contra hx <;> rw [not_le] at hx
      · exact hq ⟨Or.inl hx, fun h => by rw [hsed] at h; cases h⟩
      · exact hq ⟨Or.inr hx, fun h => by rw [hsed] at h; cases h⟩
    unfold tolLo tolHi at hq'
    rw [if_pos hr, if_pos hr, eb.1, eb.2, eg.1, eg.2] at hq'
    refine ⟨fun hm => ?_, fun hm => ?_⟩
    · rwa [if_neg (by rw [hm]; decide)] at hq'
    · rwa [if_pos hm] at hq'
  · intro hpd
    rw [hpd] at r2
    by_contra hneg
    rw [not_le] at hneg
    refine absurd r2 (not_le.2 ?_)
    show min (((activePart (computePrimitives c.gas.gamma (u i + dt • k i)) .en - 0 : K)) : WithTop K) ⊤ < 0
    rw [min_eq_left le_top, sub_zero]
    exact_mod_cast hneg

/-! ## Concrete cases -/

/-- A limiter without smooth-extremum relaxation that spreads to the faces of the troubled cells only. -/
noncomputable def plainLimiter : LimiterOpts ℝ where
  eps := 1 / 100
  mode := "global"
  rangeType := "relative"
  nadVars := none
  pad := defaultPad
  sed := false
  sedEps := 1 / 10 ^ 10
  convex := false
  force := false
  slope := some .minmod
  tiny := 1 / 10 ^ 16

/-- In a channel the limited right-hand side returns for either limiter and every state, and the theorem applies. -/
example (u : Ix → State ℝ 1) : ∃ dt k gl gr gld grd,
    solverRHS ((scalarChannel 1).limited (some plainLimiter)).scheme (fun _ _ => 0) (fun _ _ => 0) 0 0 u =
      .ok (dt, k) ∧
    ∃ kh kf : Ix → State ℝ 1,
    solverRHS ((scalarChannel 1).limited none).scheme (fun _ _ => 0) (fun _ _ => 0) 0 0 u = .ok (dt, kh) ∧
    ∀ i, InCells (scalarChannel 1).n i →
      (Clear false (TroubledCell (scalarChannel 1) plainLimiter gl gr gld grd dt u) i → k i = kh i) ∧
      (TroubledCell (scalarChannel 1) plainLimiter gl gr gld grd dt u i → k i = kf i) := by
  have hd : (scalarChannel 1).dims = [0, 1] := rfl
  have hk : plainLimiter.toDetectOpts.Known := ⟨Or.inl rfl, Or.inl rfl⟩
  have hw := channel_wellPosed 1 (some plainLimiter)
  obtain ⟨⟨dt, k⟩, h⟩ := C11_limited_returns _ plainLimiter hk (by rw [hd]; simp) hw (Or.inl rfl) (fun _ _ => 0)
    (fun _ _ => 0) 0 0 u
  obtain ⟨gl, gr, hs⟩ := hw.ghosts.sides 0
  obtain ⟨_, w1, w2⟩ := hw.limiter _ rfl
  obtain ⟨gl', gr', hs'⟩ := w1.sides 0
  obtain ⟨gld, grd, hsd⟩ := w2.sides 0
  obtain ⟨kh, kf, h1, _, h3⟩ := C78_local (scalarChannel 1) plainLimiter hk rfl (by rw [hd]; simp) hw.degree hw.cells 0 gl
    gr gl' gr' gld grd hs hs' hsd _ _ _ u dt k h
  exact ⟨dt, k, gl, gr, gld, grd, h, kh, kf, h1, h3⟩

/-- Both kinds of cells occur for one troubled cell: it is not clear, a cell 4 further along x is. -/
example : ¬ Clear true (fun j => j = 0) 0 ∧ Clear true (fun j : Ix => j = 0) (Pi.single 0 4) ∧
    ¬ Clear false (fun j => j = 0) (Pi.single 1 1) ∧ Clear false (fun j : Ix => j = 0) (Pi.single 0 2) := by
  refine ⟨?_, ?_, ?_, ?_⟩
  · intro h
    obtain ⟨d, hd⟩ := h 0 rfl
    simp at hd
  · rintro j rfl
    exact ⟨0, by simp⟩
  · rintro ⟨_, h⟩
    exact (h 1).1 (by simp)
  · refine ⟨fun h => ?_, fun d => ⟨fun h => ?_, fun h => ?_⟩⟩
    · simpa using congrFun h 0
    · have := congrFun h 0
      by_cases hd : (0 : Fin 3) = d
      · subst hd; simp at this
      · simp [hd] at this
    · have := congrFun h 0
      by_cases hd : (0 : Fin 3) = d
      · subst hd; simp at this
      · simp [hd] at this

end FVHOE
