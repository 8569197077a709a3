import Mathlib.Tactic.Ring
import Mathlib.Tactic.SplitIfs
import Verif.Model.Limiter
import Verif.Proofs.Natural

/-! Detection without the smooth-extremum relaxation does not depend on the units of the variables. -/

set_option linter.unusedSectionVars false

namespace FVHOE

variable {K : Type} [Field K] [LinearOrder K] [IsStrictOrderedRing K] {ι : Type}

/-- Every row multiplied by its own factor. -/
def rescale (s : ι → K) (w : ι → K) : ι → K := fun v => s v * w v

/-- The bounds in other units. -/
def rescalePad (s : Var 0 → K) (pad : List (Var 0 × Option K × Option K)) : List (Var 0 × Option K × Option K) :=
  pad.map fun e => (e.1, e.2.1.map (s e.1 * ·), e.2.2.map (s e.1 * ·))

theorem foldl_max_mul {c : K} (hc : 0 ≤ c) (l : List K) (x : K) :
    (l.map (c * ·)).foldl max (c * x) = c * l.foldl max x := by
  induction l generalizing x with
  | nil => rfl
  | cons y l ih => rw [List.map_cons, List.foldl_cons, List.foldl_cons, ← mul_max_of_nonneg _ _ hc, ih]

theorem foldl_min_mul {c : K} (hc : 0 ≤ c) (l : List K) (x : K) :
    (l.map (c * ·)).foldl min (c * x) = c * l.foldl min x := by
  induction l generalizing x with
  | nil => rfl
  | cons y l ih => rw [List.map_cons, List.foldl_cons, List.foldl_cons, ← mul_min_of_nonneg _ _ hc, ih]

theorem listMax_mul {c : K} (hc : 0 ≤ c) (l : List K) : listMax (l.map (c * ·)) = c * listMax l := by
  cases l with
  | nil => exact (mul_zero c).symm
  | cons x l => exact foldl_max_mul hc l x

theorem listMin_mul {c : K} (hc : 0 ≤ c) (l : List K) : listMin (l.map (c * ·)) = c * listMin l := by
  cases l with
  | nil => exact (mul_zero c).symm
  | cons x l => exact foldl_min_mul hc l x

theorem interior_map {α β : Type} (f : α → β) (dims : List (Fin 3)) (A : Arr α) :
    interior dims (A.map f) = (interior dims A).map f := by
  unfold interior
  by_cases h0 : (0 : Fin 3) ∈ dims <;> by_cases h1 : (1 : Fin 3) ∈ dims <;> by_cases h2 : (2 : Fin 3) ∈ dims <;>
    simp only [h0, h1, h2, if_true, if_false] <;> rfl

/-- A pair of bounds of every row in other units. -/
def rescale2 (s : ι → K) (w : ι → K × K) : ι → K × K := fun v => (s v * (w v).1, s v * (w v).2)

theorem filters_units {s : ι → K} (hs : ∀ v, 0 < s v) (dims : List (Fin 3)) (u : Arr (ι → K)) :
    filters dims (u.map (rescale s)) = (filters dims u).map (rescale2 s) := by
  have h0 : ∀ v k, (u.map (rescale s)).orZero v k = s v * u.orZero v k := by
    intro v k
    unfold Arr.orZero
    change (if u.InB k then _ else _) = _
    split_ifs
    · rfl
    · exact (mul_zero _).symm
  unfold filters Arr.map rescale2
  congr 1
  funext j v
  have e : (neighbours dims j).map (Arr.orZero ⟨u.shape, fun j => rescale s (u.get j)⟩ v) =
      ((neighbours dims j).map (u.orZero v)).map (s v * ·) := by
    rw [List.map_map]
    exact List.map_congr_left fun k _ => h0 v k
  simp only [e, listMax_mul (hs v).le, listMin_mul (hs v).le]

theorem globalRange_units {s : ι → K} (hs : ∀ v, 0 < s v) (u : Arr (ι → K)) :
    globalRange (u.map (rescale s)) = (globalRange u).map (rescale2 s) := by
  unfold globalRange
  change (if indexList u.shape = [] then _ else _) = _
  split_ifs
  · rfl
  · simp only [Except.map]
    congr 1
    funext v
    have e : (indexList u.shape).map (fun j => (u.map (rescale s)).get j v) =
        ((indexList u.shape).map fun j => u.get j v).map (s v * ·) := by
      rw [List.map_map]; rfl
    change (listMin ((indexList u.shape).map fun j => (u.map (rescale s)).get j v),
      listMax ((indexList u.shape).map fun j => (u.map (rescale s)).get j v)) = _
    rw [e, listMin_mul (hs v).le, listMax_mul (hs v).le]
    rfl

theorem nadRange_units {s : ι → K} (hs : ∀ v, 0 < s v) (o : DetectOpts K) (u : Arr (ι → K)) (b : Arr (ι → K × K)) :
    nadRange o (u.map (rescale s)) (b.map (rescale2 s)) = (nadRange o u b).map (Arr.map (rescale s)) := by
  unfold nadRange
  rw [globalRange_units hs]
  split_ifs
  · cases globalRange u with
    | error e => rfl
    | ok g =>
      simp only [Except.map, Arr.map]
      congr 2
      funext j v
      exact (mul_sub _ _ _).symm
  · simp only [Except.map, Arr.map]
    congr 2
    funext j v
    exact (mul_sub _ _ _).symm
  · rfl

theorem nadBounds_units {s : ι → K} (hs : ∀ v, 0 < s v) (o : DetectOpts K) (u : Arr (ι → K)) (b : Arr (ι → K × K)) :
    nadBounds o (u.map (rescale s)) (b.map (rescale2 s)) = (nadBounds o u b).map (Arr.map (rescale2 s)) := by
  unfold nadBounds
  rw [globalRange_units hs]
  split_ifs
  · cases globalRange u with
    | error e => rfl
    | ok g =>
      simp only [Except.map, Arr.map]
      congr 2
      funext j v
      exact Prod.ext (mul_left_comm _ _ _) (mul_left_comm _ _ _)
  · simp only [Except.map, Arr.map]
    congr 2
    funext j v
    exact Prod.ext (mul_left_comm _ _ _) (mul_left_comm _ _ _)
  · rfl

theorem margin_units {s : ι → K} (hs : ∀ v, 0 < s v) (c : ι → K) (x : ι → K × K) :
    (fun v => min (rescale s c v - (rescale2 s x v).1) ((rescale2 s x v).2 - rescale s c v)) =
      rescale s fun v => min (c v - (x v).1) ((x v).2 - c v) := by
  funext v
  simp only [rescale, rescale2]
  rw [mul_min_of_nonneg _ _ (hs v).le, mul_sub, mul_sub]

theorem nadPerVar_units {s : ι → K} (hs : ∀ v, 0 < s v) (o : DetectOpts K) (u cin : Arr (ι → K))
    (b : Arr (ι → K × K)) :
    nadPerVar o (u.map (rescale s)) (cin.map (rescale s)) (b.map (rescale2 s)) =
      (nadPerVar o u cin b).map fun r => (r.1.map (rescale s), r.2) := by
  unfold nadPerVar
  split_ifs
  · rw [nadRange_units hs, bind_map, map_bind]
    congr 1; funext range
    rw [zip_natural (rescale s) (rescale2 s) (rescale s) _ _ (margin_units hs), bind_map, map_bind]
    congr 1; funext ind
    have := zip_natural (rescale s) (rescale s) id (fun (i r : ι → K) v => decide (i v < -o.eps * r v))
      (fun (i r : ι → K) v => decide (i v < -o.eps * r v)) (fun i r => by
        funext v
        simp only [rescale, id]
        congr 1
        rw [mul_left_comm]
        exact propext (mul_lt_mul_iff_right₀ (hs v))) ind range
    rw [this, bind_map, map_bind]
    rfl
  · rw [nadBounds_units hs, bind_map, map_bind]
    congr 1; funext bounds
    rw [zip_natural (rescale s) (rescale2 s) (rescale s) _ _ (margin_units hs), bind_map, map_bind]
    congr 1; funext ind
    simp only [pure, Except.pure, Except.map, Arr.map, rescale]
    congr 3
    funext j v
    congr 1
    have := mul_lt_mul_iff_right₀ (b := ind.get j v) (c := 0) (hs v)
    rw [mul_zero] at this
    exact propext this
  · rfl

theorem padPoint_units {c : K} (hc : 0 < c) (lo hi : Option K) (x : K) :
    padPoint (lo.map (c * ·)) (hi.map (c * ·)) (c * x) < 0 ↔ padPoint lo hi x < 0 := by
  have h1 : ∀ l : K, ((c * x - c * l : K) : WithTop K) < 0 ↔ ((x - l : K) : WithTop K) < 0 := by
    intro l
    rw [← WithTop.coe_zero, WithTop.coe_lt_coe, WithTop.coe_lt_coe, ← mul_sub]
    have := mul_lt_mul_iff_right₀ (b := x - l) (c := 0) hc
    rwa [mul_zero] at this
  have h2 : ∀ l : K, ((c * l - c * x : K) : WithTop K) < 0 ↔ ((l - x : K) : WithTop K) < 0 := by
    intro l
    rw [← WithTop.coe_zero, WithTop.coe_lt_coe, WithTop.coe_lt_coe, ← mul_sub]
    have := mul_lt_mul_iff_right₀ (b := l - x) (c := 0) hc
    rwa [mul_zero] at this
  unfold padPoint
  rw [min_lt_iff, min_lt_iff]
  refine or_congr ?_ ?_
  · cases lo with
    | none => exact Iff.rfl
    | some l => exact h1 l
  · cases hi with
    | none => exact Iff.rfl
    | some l => exact h2 l

/-- The same entries are negative. -/
def SameSign (x y : Except PyErr (Arr (WithTop K))) : Prop :=
  x.map (Arr.map fun a => decide (a < 0)) = y.map (Arr.map fun a => decide (a < 0))

theorem padIndicator_units {s : Var 0 → K} (hs : ∀ v, 0 < s v) (pad : List (Var 0 × Option K × Option K))
    (cin : Arr (State K 0)) (P Q : Arr (WithTop K))
    (h : P.map (fun a => decide (a < 0)) = Q.map fun a => decide (a < 0)) :
    SameSign (padIndicator (rescalePad s pad) (cin.map (rescale s)) P) (padIndicator pad cin Q) := by
  induction pad generalizing P Q with
  | nil => exact congrArg Except.ok h
  | cons e pad ih =>
    have hsh : P.shape = Q.shape := congrArg (fun A : Arr Bool => A.shape) h
    unfold rescalePad padIndicator
    rw [List.map_cons, List.foldlM_cons, List.foldlM_cons]
    unfold Arr.assign
    rw [hsh]
    change SameSign ((if broadcastsTo cin.shape Q.shape then _ else _) >>= _) ((if broadcastsTo cin.shape Q.shape then _ else _) >>= _)
    by_cases hb : broadcastsTo cin.shape Q.shape
    · simp only [if_pos hb]
      refine ih _ _ ?_
      unfold Arr.map
      congr 1
      funext j
      exact decide_eq_decide.2 (padPoint_units (hs e.1) e.2.1 e.2.2 _)
    · simp only [if_neg hb]
      rfl

/-- The troubled cells do not depend on the units: rows multiplied by positive factors, bounds accordingly, without
the smooth-extremum relaxation. -/
theorem detect_units {s : Var 0 → K} (hs : ∀ v, 0 < s v) (o : DetectOpts K) (ho : o.sed = false)
    (dims : List (Fin 3)) (u cand : Arr (State K 0)) :
    (detectTroubledCells { o with pad := rescalePad s o.pad } dims (u.map (rescale s)) (cand.map (rescale s))).map
        (·.trouble) = (detectTroubledCells o dims u cand).map (·.trouble) := by
  unfold detectTroubledCells
  simp only [interior_map, filters_units hs]
  have h1 := nadPerVar_units hs o u (interior dims cand) (interior dims (filters dims u))
  have h2 : nadPerVar { o with pad := rescalePad s o.pad } (u.map (rescale s)) ((interior dims cand).map (rescale s))
      ((interior dims (filters dims u)).map (rescale2 s)) =
      nadPerVar o (u.map (rescale s)) ((interior dims cand).map (rescale s))
      ((interior dims (filters dims u)).map (rescale2 s)) := rfl
  rw [h2, h1, map_bind, bind_map, map_bind]
  congr 1; funext r
  have h3 : relaxSmooth { o with pad := rescalePad s o.pad } dims (cand.map (rescale s)) r.2 =
      relaxSmooth o dims cand r.2 := by
    unfold relaxSmooth
    simp only [ho]
    rfl
  simp only [h3]
  rw [map_bind, map_bind]
  congr 1; funext bad
  have h4 : ∀ v, DetectOpts.considers { o with pad := rescalePad s o.pad } v = o.considers v := fun _ => rfl
  simp only [h4]
  set nad : Arr Bool := bad.map fun (x : Var 0 → Bool) => activeVars.any fun v => o.considers v && x v with hnad
  set N : Arr K := r.1.map fun i => listMin (activeVars.map i) with hN
  set N' : Arr K := (r.1.map (rescale s)).map fun i => listMin (activeVars.map i) with hN'
  have hz : ∀ M : Arr K, M.shape = r.1.shape → ∃ g : Ix → K,
      nad.zip (fun t i => if t then -i else 0) M = if ∀ d, dimCompat (nad.shape d) (r.1.shape d) then
        .ok ⟨fun d => dimBroadcast (nad.shape d) (r.1.shape d), g⟩ else .error .valueError := by
    intro M hM
    unfold Arr.zip
    rw [hM]
    exact ⟨_, rfl⟩
  obtain ⟨g, e1⟩ := hz N rfl
  obtain ⟨g', e2⟩ := hz N' rfl
  rw [e1, e2]
  by_cases hc : ∀ d, dimCompat (nad.shape d) (r.1.shape d)
  · rw [if_pos hc, if_pos hc]
    simp only [bind, Except.bind]
    have hp := padIndicator_units hs o.pad (interior dims cand)
      ((⟨fun d => dimBroadcast (nad.shape d) (r.1.shape d), g'⟩ : Arr K).map fun _ => (0 : WithTop K))
      ((⟨fun d => dimBroadcast (nad.shape d) (r.1.shape d), g⟩ : Arr K).map fun _ => (0 : WithTop K)) rfl
    unfold SameSign at hp
    cases hx : padIndicator (rescalePad s o.pad) ((interior dims cand).map (rescale s))
      ((⟨fun d => dimBroadcast (nad.shape d) (r.1.shape d), g'⟩ : Arr K).map fun _ => (0 : WithTop K)) with
    | error e =>
      rw [hx] at hp
      cases hy : padIndicator o.pad (interior dims cand)
        ((⟨fun d => dimBroadcast (nad.shape d) (r.1.shape d), g⟩ : Arr K).map fun _ => (0 : WithTop K)) with
      | error e' => rw [hy] at hp; cases hp; rfl
      | ok P => rw [hy] at hp; cases hp
    | ok P' =>
      rw [hx] at hp
      cases hy : padIndicator o.pad (interior dims cand)
        ((⟨fun d => dimBroadcast (nad.shape d) (r.1.shape d), g⟩ : Arr K).map fun _ => (0 : WithTop K)) with
      | error e' => rw [hy] at hp; cases hp
      | ok P =>
        rw [hy] at hp
        have hp : P'.map (fun a => decide (a < 0)) = P.map fun a => decide (a < 0) := by
          injection hp
        have hsh : P'.shape = P.shape := congrArg (fun A : Arr Bool => A.shape) hp
        have hg : ∀ j, P'.get j < 0 ↔ P.get j < 0 := fun j => by
          have := congrFun (congrArg Arr.get hp) j
          simpa [Arr.map] using this
        have : P'.zip (fun (x : WithTop K) t => if x < 0 then true else t) nad =
            P.zip (fun (x : WithTop K) t => if x < 0 then true else t) nad := by
          unfold Arr.zip
          rw [hsh]
          split_ifs
          · congr 2
            funext j
            have hbix : P'.bix j = P.bix j := by unfold Arr.bix; rw [hsh]
            rw [hbix]
            simp only [hg]
          · rfl
        dsimp only
        rw [this]
        cases P.zip (fun (x : WithTop K) t => if x < 0 then true else t) nad <;> rfl
  · rw [if_neg hc, if_neg hc]
    rfl

end FVHOE
