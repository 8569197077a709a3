import Mathlib.Tactic.Abel
import Mathlib.Tactic.Linarith
import Mathlib.Tactic.Ring
import Verif.Model.Detect
import Verif.Proofs.Arr
import Verif.Proofs.Hydro
import Verif.Proofs.Limited

/-!
Evaluation of the troubled cell detection on the lattice.
-/

set_option linter.unusedSectionVars false

namespace FVHOE

variable {K : Type} [Field K] [LinearOrder K] [IsStrictOrderedRing K] {ι : Type}

/-! ## Extrema of lists -/

theorem foldl_max_cons (xs : List K) (x : K) :
    xs.foldl max x ∈ x :: xs ∧ ∀ y ∈ x :: xs, y ≤ xs.foldl max x := by
  induction xs generalizing x with
  | nil => simp
  | cons a as ih =>
    obtain ⟨h1, h2⟩ := ih (max x a)
    rw [List.foldl_cons]
    constructor
    · rcases List.mem_cons.1 h1 with h | h
      · rw [h]
        rcases max_choice x a with h | h <;> rw [h] <;> simp
      · simp [h]
    · intro y hy
      have hm := h2 (max x a) (by simp)
      rcases List.mem_cons.1 hy with rfl | hy
      · exact (le_max_left _ _).trans hm
      rcases List.mem_cons.1 hy with rfl | hy
      · exact (le_max_right _ _).trans hm
      · exact h2 y (by simp [hy])

theorem foldl_min_cons (xs : List K) (x : K) :
    xs.foldl min x ∈ x :: xs ∧ ∀ y ∈ x :: xs, xs.foldl min x ≤ y := by
  induction xs generalizing x with
  | nil => simp
  | cons a as ih =>
    obtain ⟨h1, h2⟩ := ih (min x a)
    rw [List.foldl_cons]
    constructor
    · rcases List.mem_cons.1 h1 with h | h
      · rw [h]
        rcases min_choice x a with h | h <;> rw [h] <;> simp
      · simp [h]
    · intro y hy
      have hm := h2 (min x a) (by simp)
      rcases List.mem_cons.1 hy with rfl | hy
      · exact hm.trans (min_le_left _ _)
      rcases List.mem_cons.1 hy with rfl | hy
      · exact hm.trans (min_le_right _ _)
      · exact h2 y (by simp [hy])

theorem listMax_spec {l : List K} (hl : l ≠ []) : listMax l ∈ l ∧ ∀ y ∈ l, y ≤ listMax l := by
  cases l with
  | nil => exact absurd rfl hl
  | cons x xs => exact foldl_max_cons xs x

theorem listMin_spec {l : List K} (hl : l ≠ []) : listMin l ∈ l ∧ ∀ y ∈ l, listMin l ≤ y := by
  cases l with
  | nil => exact absurd rfl hl
  | cons x xs => exact foldl_min_cons xs x

/-! ## Neighbourhoods -/

/-- `k` is in the block of `3^d` cells around `i`. -/
def Nbr (dims : List (Fin 3)) (i k : Ix) : Prop :=
  ∀ d, if d ∈ dims then |k d - i d| ≤ 1 else k d = i d

theorem mem_footprint (dims : List (Fin 3)) (d : Fin 3) (x y : ℤ) :
    (∃ a ∈ footprint dims d, x + a = y) ↔ if d ∈ dims then |y - x| ≤ 1 else y = x := by
  unfold footprint
  split_ifs
  · rw [abs_le]
    constructor
    · rintro ⟨a, ha, rfl⟩
      simp at ha
      omega
    · intro h
      refine ⟨y - x, ?_, by ring⟩
      simp
      omega
  · simp [eq_comm]

theorem mem_neighbours (dims : List (Fin 3)) (i k : Ix) : k ∈ neighbours dims i ↔ Nbr dims i k := by
  have h := fun d => mem_footprint dims d (i d) (k d)
  unfold Nbr neighbours
  simp only [List.mem_flatMap, List.mem_map]
  constructor
  · rintro ⟨a, ha, b, hb, c, hc, rfl⟩ d
    rw [← h d]
    match d with
    | 0 => exact ⟨a, ha, rfl⟩
    | 1 => exact ⟨b, hb, rfl⟩
    | 2 => exact ⟨c, hc, rfl⟩
  · intro hk
    obtain ⟨a, ha, ea⟩ := (h 0).2 (hk 0)
    obtain ⟨b, hb, eb⟩ := (h 1).2 (hk 1)
    obtain ⟨c, hc, ec⟩ := (h 2).2 (hk 2)
    refine ⟨a, ha, b, hb, c, hc, ?_⟩
    funext d
    match d with
    | 0 => exact ea
    | 1 => exact eb
    | 2 => exact ec

theorem neighbours_ne (dims : List (Fin 3)) (i : Ix) : neighbours dims i ≠ [] := by
  intro h
  have : i ∈ neighbours dims i := (mem_neighbours dims i i).2 (fun d => by split_ifs <;> simp)
  rw [h] at this
  simp at this

theorem neighbours_sub (dims : List (Fin 3)) (i lo : Ix) :
    neighbours dims (i - lo) = (neighbours dims i).map (· - lo) := by
  unfold neighbours
  simp only [List.map_flatMap, List.map_map]
  refine List.flatMap_congr fun a _ => List.flatMap_congr fun b _ => List.map_congr_left fun c _ => ?_
  funext d
  match d with
  | 0 => simp; ring
  | 1 => simp; ring
  | 2 => simp; ring

/-- Smallest and largest value in the neighbourhood. -/
def nLo (dims : List (Fin 3)) (U : Ix → ι → K) (i : Ix) (v : ι) : K :=
  listMin ((neighbours dims i).map fun k => U k v)

@[inherit_doc nLo]
def nHi (dims : List (Fin 3)) (U : Ix → ι → K) (i : Ix) (v : ι) : K :=
  listMax ((neighbours dims i).map fun k => U k v)

/-- Width of the padding. -/
def detPad (dims : List (Fin 3)) (d : Fin 3) : ℕ := if d ∈ dims then 3 else 0

/-- Smallest and largest value of the padded array. -/
def gLo (dims : List (Fin 3)) (n : Fin 3 → ℕ) (U : Ix → ι → K) (v : ι) : K :=
  listMin ((indexList fun d => n d + 2 * detPad dims d).map fun j => U (fun d => j d - detPad dims d) v)

@[inherit_doc gLo]
def gHi (dims : List (Fin 3)) (n : Fin 3 → ℕ) (U : Ix → ι → K) (v : ι) : K :=
  listMax ((indexList fun d => n d + 2 * detPad dims d).map fun j => U (fun d => j d - detPad dims d) v)

/-- The cells of the padded array. -/
def InPadded (dims : List (Fin 3)) (n : Fin 3 → ℕ) (k : Ix) : Prop :=
  ∀ d, -(detPad dims d : ℤ) ≤ k d ∧ k d < n d + detPad dims d

theorem nLo_least (dims : List (Fin 3)) (U : Ix → ι → K) (i : Ix) (v : ι) :
    IsLeast ((fun k => U k v) '' {k | Nbr dims i k}) (nLo dims U i v) := by
  obtain ⟨h1, h2⟩ := listMin_spec (l := (neighbours dims i).map fun k => U k v)
    (by simpa using neighbours_ne dims i)
  obtain ⟨k, hk, e⟩ := List.mem_map.1 h1
  refine ⟨⟨k, (mem_neighbours dims i k).1 hk, e⟩, ?_⟩
  rintro _ ⟨k, hk, rfl⟩
  exact h2 _ (List.mem_map.2 ⟨k, (mem_neighbours dims i k).2 hk, rfl⟩)

theorem nHi_greatest (dims : List (Fin 3)) (U : Ix → ι → K) (i : Ix) (v : ι) :
    IsGreatest ((fun k => U k v) '' {k | Nbr dims i k}) (nHi dims U i v) := by
  obtain ⟨h1, h2⟩ := listMax_spec (l := (neighbours dims i).map fun k => U k v)
    (by simpa using neighbours_ne dims i)
  obtain ⟨k, hk, e⟩ := List.mem_map.1 h1
  refine ⟨⟨k, (mem_neighbours dims i k).1 hk, e⟩, ?_⟩
  rintro _ ⟨k, hk, rfl⟩
  exact h2 _ (List.mem_map.2 ⟨k, (mem_neighbours dims i k).2 hk, rfl⟩)

theorem mem_padded (dims : List (Fin 3)) (n : Fin 3 → ℕ) (k : Ix) :
    (fun d => k d + detPad dims d) ∈ indexList (fun d => n d + 2 * detPad dims d) ↔ InPadded dims n k := by
  rw [mem_indexList]
  unfold InPadded
  refine forall_congr' fun d => ?_
  push_cast
  constructor <;> intro h <;> constructor <;> omega

theorem padded_ne (dims : List (Fin 3)) (n : Fin 3 → ℕ) (hn : ∀ d, 1 ≤ n d) :
    indexList (fun d => n d + 2 * detPad dims d) ≠ [] := by
  intro h
  have := (mem_padded dims n 0).2 (fun d => by have := hn d; simp; omega)
  rw [h] at this
  simp at this

theorem gLo_least (dims : List (Fin 3)) (n : Fin 3 → ℕ) (hn : ∀ d, 1 ≤ n d) (U : Ix → ι → K) (v : ι) :
    IsLeast ((fun k => U k v) '' {k | InPadded dims n k}) (gLo dims n U v) := by
  obtain ⟨h1, h2⟩ := listMin_spec (l := (indexList fun d => n d + 2 * detPad dims d).map
    fun j => U (fun d => j d - detPad dims d) v) (by simpa using padded_ne dims n hn)
  obtain ⟨j, hj, e⟩ := List.mem_map.1 h1
  refine ⟨⟨_, (mem_padded dims n _).1 (by simpa using hj), e⟩, ?_⟩
  rintro _ ⟨k, hk, rfl⟩
  exact h2 _ (List.mem_map.2 ⟨_, (mem_padded dims n k).2 hk, by simp⟩)

theorem gHi_greatest (dims : List (Fin 3)) (n : Fin 3 → ℕ) (hn : ∀ d, 1 ≤ n d) (U : Ix → ι → K) (v : ι) :
    IsGreatest ((fun k => U k v) '' {k | InPadded dims n k}) (gHi dims n U v) := by
  obtain ⟨h1, h2⟩ := listMax_spec (l := (indexList fun d => n d + 2 * detPad dims d).map
    fun j => U (fun d => j d - detPad dims d) v) (by simpa using padded_ne dims n hn)
  obtain ⟨j, hj, e⟩ := List.mem_map.1 h1
  refine ⟨⟨_, (mem_padded dims n _).1 (by simpa using hj), e⟩, ?_⟩
  rintro _ ⟨k, hk, rfl⟩
  exact h2 _ (List.mem_map.2 ⟨_, (mem_padded dims n k).2 hk, by simp⟩)

/-! ## The padded arrays -/

/-- Corners of the padded array. -/
def dpLo (dims : List (Fin 3)) : Ix := fun d => -(detPad dims d : ℤ)

@[inherit_doc dpLo]
def dpHi (dims : List (Fin 3)) (n : Fin 3 → ℕ) : Ix := fun d => (n d : ℤ) + detPad dims d

/-- The shape of the cells as the corner of a box. -/
def corner (n : Fin 3 → ℕ) : Ix := fun d => (n d : ℤ)

theorem boxArr_rep {α : Type} (dims : List (Fin 3)) (n : Fin 3 → ℕ) (Φ : Ix → α) :
    Rep (boxArr n (detPad dims) Φ) (dpLo dims) (dpHi dims n) Φ := by
  refine ⟨fun d => ?_, fun j _ => ?_⟩
  · simp only [boxArr, dpLo, dpHi]
    push_cast
    ring
  · simp only [boxArr]
    congr 1

theorem rep_interior {α : Type} {dims : List (Fin 3)} {n : Fin 3 → ℕ} {A : Arr α} {Φ : Ix → α}
    (h : Rep A (dpLo dims) (dpHi dims n) Φ) : Rep (interior dims A) 0 (corner n) Φ := by
  have step : ∀ (d : Fin 3) (B : Arr α) (lo hi : Ix), lo d = dpLo dims d → hi d = dpHi dims n d →
      Rep B lo hi Φ → Rep (if d ∈ dims then B.slice d (some 3) (some (-3)) else B)
        (Function.update lo d 0) (Function.update hi d (n d)) Φ := by
    intro d B lo hi e1 e2 hB
    by_cases hd : d ∈ dims
    · rw [if_pos hd]
      have h3 : detPad dims d = 3 := if_pos hd
      refine (rep_cut hB d 3 3 (by omega) (by omega) ?_).congr ?_ ?_ (fun _ _ => rfl)
      · rw [e1, e2]; simp only [dpLo, dpHi, h3]; push_cast; omega
      · funext e
        by_cases he : e = d
        · subst he; simp [e1, dpLo, h3]
        · simp [he]
      · funext e
        by_cases he : e = d
        · subst he; simp [e2, dpHi, h3]
        · simp [he]
    · rw [if_neg hd]
      have h3 : detPad dims d = 0 := if_neg hd
      refine hB.congr ?_ ?_ (fun _ _ => rfl)
      · funext e
        by_cases he : e = d
        · subst he; simp [e1, dpLo, h3]
        · simp [he]
      · funext e
        by_cases he : e = d
        · subst he; simp [e2, dpHi, h3]
        · simp [he]
  have h0 := step 0 A _ _ rfl rfl h
  have h1 := step 1 _ _ _ (by simp) (by simp) h0
  have h2 := step 2 _ _ _ (by simp) (by simp) h1
  refine Rep.congr h2 ?_ ?_ (fun _ _ => rfl)
  · funext e
    match e with
    | 0 => simp
    | 1 => simp
    | 2 => simp
  · funext e
    match e with
    | 0 => simp [corner]
    | 1 => simp [corner]
    | 2 => simp [corner]

theorem rep_filters (dims : List (Fin 3)) (n : Fin 3 → ℕ) (U : Ix → ι → K) :
    Rep (interior dims (filters dims (boxArr n (detPad dims) U))) 0 (corner n)
      (fun i v => (nLo dims U i v, nHi dims U i v)) := by
  have hu := boxArr_rep dims n U
  have h0 : Rep (filters dims (boxArr n (detPad dims) U)) (dpLo dims) (dpHi dims n) (fun i v =>
      (listMin ((neighbours dims (i - dpLo dims)).map ((boxArr n (detPad dims) U).orZero v)),
       listMax ((neighbours dims (i - dpLo dims)).map ((boxArr n (detPad dims) U).orZero v)))) := by
    refine ⟨hu.1, fun j _ => ?_⟩
    simp only [filters, add_sub_cancel_right]
  refine (rep_interior h0).congr rfl rfl fun i hi => ?_
  funext v
  have key : (neighbours dims (i - dpLo dims)).map ((boxArr n (detPad dims) U).orZero v) =
      (neighbours dims i).map fun k => U k v := by
    rw [neighbours_sub, List.map_map]
    refine List.map_congr_left fun k hk => ?_
    have hN := (mem_neighbours dims i k).1 hk
    have hb : ∀ d, dpLo dims d ≤ k d ∧ k d < dpHi dims n d := by
      intro d
      have h1 := hN d
      have h2 := hi d
      simp only [Pi.zero_apply, corner] at h2
      unfold dpLo dpHi detPad
      by_cases hd : d ∈ dims
      · simp only [hd, if_true, abs_le] at h1 ⊢
        push_cast
        omega
      · simp only [hd, if_false] at h1 ⊢
        push_cast
        omega
    simp only [Function.comp, Arr.orZero]
    have hin : (boxArr n (detPad dims) U).InB (k - dpLo dims) := by
      intro d
      have := hb d
      have hs := hu.1 d
      simp only [Pi.sub_apply]
      omega
    rw [if_pos hin, hu.get_at k hb]
  simp only [key]
  rfl

theorem globalRange_eq (dims : List (Fin 3)) (n : Fin 3 → ℕ) (hn : ∀ d, 1 ≤ n d) (U : Ix → ι → K) :
    globalRange (boxArr n (detPad dims) U) = .ok fun v => (gLo dims n U v, gHi dims n U v) := by
  unfold globalRange
  rw [if_neg (by exact padded_ne dims n hn)]
  rfl

/-! ## The NAD test -/

/-- The tolerated interval of a cell. -/
def tolLo (o : DetectOpts K) (dims : List (Fin 3)) (n : Fin 3 → ℕ) (U : Ix → ι → K) (i : Ix) (v : ι) : K :=
  if o.rangeType = "relative" then
    nLo dims U i v - o.eps * (if o.mode = "global" then gHi dims n U v - gLo dims n U v
      else nHi dims U i v - nLo dims U i v)
  else (1 - o.eps) * (if o.mode = "global" then gLo dims n U v else nLo dims U i v)

@[inherit_doc tolLo]
def tolHi (o : DetectOpts K) (dims : List (Fin 3)) (n : Fin 3 → ℕ) (U : Ix → ι → K) (i : Ix) (v : ι) : K :=
  if o.rangeType = "relative" then
    nHi dims U i v + o.eps * (if o.mode = "global" then gHi dims n U v - gLo dims n U v
      else nHi dims U i v - nLo dims U i v)
  else (1 + o.eps) * (if o.mode = "global" then gHi dims n U v else nHi dims U i v)

/-- The distance to the nearer end of the interval, without tolerance in the relative test. -/
def nadInd (o : DetectOpts K) (dims : List (Fin 3)) (n : Fin 3 → ℕ) (U C : Ix → ι → K) (i : Ix) (v : ι) : K :=
  if o.rangeType = "relative" then min (C i v - nLo dims U i v) (nHi dims U i v - C i v)
  else min (C i v - tolLo o dims n U i v) (tolHi o dims n U i v - C i v)

/-- Mode and range type are ones the code knows. -/
def DetectOpts.Known (o : DetectOpts K) : Prop :=
  (o.mode = "global" ∨ o.mode = "local") ∧ (o.rangeType = "relative" ∨ o.rangeType = "absolute")

theorem nadPerVar_spec (o : DetectOpts K) (ho : o.Known) (dims : List (Fin 3)) (n : Fin 3 → ℕ)
    (hn : ∀ d, 1 ≤ n d) (U C : Ix → ι → K) {cin : Arr (ι → K)} {b : Arr (ι → K × K)}
    (hc : Rep cin 0 (corner n) C)
    (hb : Rep b 0 (corner n) (fun i v => (nLo dims U i v, nHi dims U i v))) :
    ∃ I B, nadPerVar o (boxArr n (detPad dims) U) cin b = .ok (I, B) ∧
      Rep I 0 (corner n) (nadInd o dims n U C) ∧
      Rep B 0 (corner n) (fun i v => decide (C i v < tolLo o dims n U i v ∨ tolHi o dims n U i v < C i v)) := by
  have gl : ("local" = "global") = False := by decide
  have ar : ("absolute" = "relative") = False := by decide
  obtain ⟨hm, hr⟩ := ho
  rcases hr with hr | hr
  · -- relative
    have hrange : ∃ R, nadRange o (boxArr n (detPad dims) U) b = .ok R ∧ Rep R 0 (corner n) (fun i v =>
        if o.mode = "global" then gHi dims n U v - gLo dims n U v
        else nHi dims U i v - nLo dims U i v) := by
      rcases hm with hm | hm
      · refine ⟨_, ?_, rep_map hb (fun _ v => gHi dims n U v - gLo dims n U v) |>.congr rfl rfl
          (fun i _ => by simp [hm])⟩
        unfold nadRange
        rw [if_pos hm, globalRange_eq dims n hn]
        rfl
      · refine ⟨_, ?_, rep_map hb (fun x v => (x v).2 - (x v).1) |>.congr rfl rfl
          (fun i _ => by simp [hm])⟩
        unfold nadRange
        simp only [hm, gl, if_false, if_true]
    obtain ⟨R, eR, rR⟩ := hrange
    obtain ⟨I, eI, rI⟩ := rep_zip hc hb (fun c x v => min (c v - (x v).1) ((x v).2 - c v))
    obtain ⟨B, eB, rB⟩ := rep_zip rI rR (fun i r v => decide (i v < -o.eps * r v))
    refine ⟨I, B, ?_, rI.congr rfl rfl ?_, rB.congr rfl rfl ?_⟩
    · unfold nadPerVar
      rw [if_pos hr, eR]
      simp only [bind, Except.bind]
      rw [eI]
      simp only
      rw [eB]
      rfl
    · intro i _
      funext v
      simp [nadInd, hr]
    · intro i _
      funext v
      refine decide_eq_decide.2 ?_
      simp only [tolLo, tolHi, hr, if_true]
      generalize (if o.mode = "global" then gHi dims n U v - gLo dims n U v
        else nHi dims U i v - nLo dims U i v) = r
      rw [min_lt_iff, show -o.eps * r = -(o.eps * r) by ring]
      constructor <;> rintro (h | h)
      · left; linarith
      · right; linarith
      · left; linarith
      · right; linarith
  · -- absolute
    have hbounds : ∃ R, nadBounds o (boxArr n (detPad dims) U) b = .ok R ∧ Rep R 0 (corner n) (fun i v =>
        (tolLo o dims n U i v, tolHi o dims n U i v)) := by
      rcases hm with hm | hm
      · refine ⟨_, ?_, rep_map hb (fun _ v => ((1 - o.eps) * gLo dims n U v, (1 + o.eps) * gHi dims n U v))
          |>.congr rfl rfl (fun i _ => by simp [hm, hr, tolLo, tolHi])⟩
        unfold nadBounds
        rw [if_pos hm, globalRange_eq dims n hn]
        rfl
      · refine ⟨_, ?_, rep_map hb (fun x v => ((1 - o.eps) * (x v).1, (1 + o.eps) * (x v).2))
          |>.congr rfl rfl (fun i _ => by simp [hm, hr, tolLo, tolHi])⟩
        unfold nadBounds
        simp only [hm, gl, if_false, if_true]
    obtain ⟨R, eR, rR⟩ := hbounds
    obtain ⟨I, eI, rI⟩ := rep_zip hc rR (fun c x v => min (c v - (x v).1) ((x v).2 - c v))
    refine ⟨I, _, ?_, rI.congr rfl rfl ?_, (rep_map rI (fun i v => decide (i v < 0))).congr rfl rfl ?_⟩
    · unfold nadPerVar
      simp only [hr, ar, if_false, if_true]
      rw [eR]
      simp only [bind, Except.bind]
      rw [eI]
      rfl
    · intro i _
      funext v
      simp [nadInd, hr]
    · intro i _
      funext v
      refine decide_eq_decide.2 ?_
      rw [min_lt_iff, sub_neg, sub_neg]

/-! ## Smooth extrema -/

/-- Half the difference of the two neighbours along `d`. -/
def cdiff (d : Fin 3) (Φ : Ix → ι → K) (i : Ix) (v : ι) : K :=
  (1 / 2) * (Φ (i + Pi.single d 1) v - Φ (i - Pi.single d 1) v)

/-- The detector before taking minima. -/
def sedAt (eps : K) (d : Fin 3) (Φ : Ix → ι → K) (i : Ix) (v : ι) : K :=
  sedPoint eps (cdiff d (cdiff d Φ) i v) (cdiff d Φ (i - Pi.single d 1) v) (cdiff d Φ i v)
    (cdiff d Φ (i + Pi.single d 1) v)

/-- The detector along one axis. -/
def sedAlong (eps : K) (d : Fin 3) (Φ : Ix → ι → K) (i : Ix) (v : ι) : K :=
  min (min (sedAt eps d Φ (i + Pi.single d 1) v) (sedAt eps d Φ i v)) (sedAt eps d Φ (i - Pi.single d 1) v)

theorem Rep.moved {α : Type} {A : Arr α} {lo hi : Ix} {Φ : Ix → α} (h : Rep A lo hi Φ) (s : Ix) :
    Rep A (lo + s) (hi + s) (fun i => Φ (i - s)) := by
  refine ⟨fun d => ?_, fun j hj => ?_⟩
  · have := h.1 d
    simp only [Pi.add_apply]
    omega
  · rw [h.2 j hj]
    congr 1
    abel

/-- A slice cutting `a` at the start and `b` at the end, read from the middle. -/
theorem rep_cut_at {α : Type} {A : Arr α} {lo hi : Ix} {Φ : Ix → α} (h : Rep A lo hi Φ) (d : Fin 3)
    (a b w : ℤ) (ha : 0 ≤ a) (hb : 0 ≤ b) (hw : a + b = 2 * w) (hab : a + b ≤ hi d - lo d) :
    Rep (A.cut d a (-b)) (lo + Pi.single d w) (hi - Pi.single d w) (fun i => Φ (i + Pi.single d (a - w))) := by
  refine ((rep_cut h d a b ha hb hab).moved (Pi.single d (w - a))).congr ?_ ?_ (fun i _ => ?_)
  · rw [add_assoc, ← Pi.single_add]; congr 2; ring
  · funext e
    simp only [Pi.sub_apply, Pi.add_apply, Pi.single_apply]
    split_ifs <;> omega
  · congr 1
    funext e
    simp only [Pi.sub_apply, Pi.add_apply, Pi.single_apply]
    split_ifs <;> ring

theorem rep_cdiff {u : Arr (ι → K)} {lo hi : Ix} {Φ : Ix → ι → K} (h : Rep u lo hi Φ) (d : Fin 3)
    (hab : 2 ≤ hi d - lo d) :
    ∃ D, centralDifference u d = .ok D ∧ Rep D (lo + Pi.single d 1) (hi - Pi.single d 1) (cdiff d Φ) := by
  have h1 := rep_cut_at h d 2 0 1 (by omega) (by omega) (by omega) (by omega)
  have h2 := rep_cut_at h d 0 2 1 (by omega) (by omega) (by omega) (by omega)
  obtain ⟨D, e, r⟩ := rep_zip h1 h2 (fun a b v => (1 / 2) * (a v - b v))
  refine ⟨D, e, r.congr rfl rfl fun i _ => ?_⟩
  funext v
  simp only [cdiff]
  congr 4
  funext e
  simp only [Pi.sub_apply, Pi.add_apply, Pi.single_apply]
  split_ifs <;> ring

theorem rep_sed1 (eps : K) {u : Arr (ι → K)} {lo hi : Ix} {Φ : Ix → ι → K} (h : Rep u lo hi Φ) (d : Fin 3)
    (hab : 6 ≤ hi d - lo d) :
    ∃ A, sed1 eps u d = .ok A ∧ Rep A (lo + Pi.single d 3) (hi - Pi.single d 3) (sedAlong eps d Φ) := by
  have merge : ∀ (x : Ix) (a b : ℤ), x + Pi.single d a + Pi.single d b = x + Pi.single d (a + b) := by
    intro x a b; rw [add_assoc, ← Pi.single_add]
  have mergeS : ∀ (x : Ix) (a b : ℤ), x - Pi.single d a - Pi.single d b = x - Pi.single d (a + b) := by
    intro x a b; rw [sub_sub, ← Pi.single_add]
  obtain ⟨dU, e1, r1⟩ := rep_cdiff h d (by omega)
  obtain ⟨d2, e2, r2⟩ := rep_cdiff r1 d (by simp; omega)
  have hw : (2 : ℤ) ≤ (hi - Pi.single d 1 : Ix) d - (lo + Pi.single d 1 : Ix) d := by simp; omega
  have cl := rep_cut_at r1 d 0 2 1 (by omega) (by omega) (by omega) hw
  have cc := rep_cut_at r1 d 1 1 1 (by omega) (by omega) (by omega) hw
  have cr := rep_cut_at r1 d 2 0 1 (by omega) (by omega) (by omega) hw
  obtain ⟨lc, e3, r3⟩ := rep_zip cl cc (fun a b v => (a v, b v))
  obtain ⟨lcr, e4, r4⟩ := rep_zip r3 cr (fun a b v => (a v, b v))
  obtain ⟨al, e5, r5⟩ := rep_zip r2 r4 (fun a b v => sedPoint eps (a v) (b v).1.1 (b v).1.2 (b v).2)
  rw [merge, mergeS] at r5
  norm_num only at r5
  have ra : Rep al (lo + Pi.single d 2) (hi - Pi.single d 2) (sedAt eps d Φ) := by
    refine r5.congr rfl rfl fun i _ => ?_
    funext v
    simp only [sedAt]
    congr 2
    · funext e
      simp only [Pi.sub_apply, Pi.add_apply, Pi.single_apply]
      split_ifs <;> ring
    · simp
  have hw2 : (2 : ℤ) ≤ (hi - Pi.single d 2 : Ix) d - (lo + Pi.single d 2 : Ix) d := by simp; omega
  have ml := rep_cut_at ra d 0 2 1 (by omega) (by omega) (by omega) hw2
  have mc := rep_cut_at ra d 1 1 1 (by omega) (by omega) (by omega) hw2
  have mr := rep_cut_at ra d 2 0 1 (by omega) (by omega) (by omega) hw2
  obtain ⟨m, e6, r6⟩ := rep_zip mr mc (fun a b v => min (a v) (b v))
  obtain ⟨A, e7, r7⟩ := rep_zip r6 ml (fun a b v => min (a v) (b v))
  rw [merge, mergeS] at r7
  norm_num only at r7
  refine ⟨A, ?_, r7.congr rfl rfl fun i _ => ?_⟩
  · unfold sed1
    rw [e1]
    simp only [bind, Except.bind]
    rw [e2]
    simp only
    erw [e3]
    simp only
    erw [e4]
    simp only
    rw [e5]
    simp only
    erw [e6]
    simp only
    exact e7
  · funext v
    simp only [sedAlong]
    congr 2
    · simp
    · congr 1
      funext e
      simp only [Pi.sub_apply, Pi.add_apply, Pi.single_apply]
      split_ifs <;> ring


theorem min_least (x y : K) : IsLeast {z | z = x ∨ z = y} (min x y) := by
  refine ⟨min_choice x y, ?_⟩
  rintro _ (rfl | rfl)
  · exact min_le_left _ _
  · exact min_le_right _ _

theorem rep_cut3 {α : Type} {A : Arr α} {lo hi : Ix} {Φ : Ix → α} (h : Rep A lo hi Φ) (d : Fin 3)
    (hab : 6 ≤ hi d - lo d) :
    Rep (A.cut d 3 (-3)) (lo + Pi.single d 3) (hi - Pi.single d 3) Φ :=
  rep_cut h d 3 3 (by omega) (by omega) (by omega)

theorem rep_sed2 (eps : K) {u : Arr (ι → K)} {lo hi : Ix} {Φ : Ix → ι → K} (h : Rep u lo hi Φ)
    (a b : Fin 3) (hab : a ≠ b) (ha : 6 ≤ hi a - lo a) (hb : 6 ≤ hi b - lo b) :
    ∃ A, sed2 eps u a b = .ok A ∧
      Rep A (lo + Pi.single a 3 + Pi.single b 3) (hi - Pi.single a 3 - Pi.single b 3)
        (fun i v => min (sedAlong eps a Φ i v) (sedAlong eps b Φ i v)) := by
  obtain ⟨A1, e1, r1⟩ := rep_sed1 eps (rep_cut3 h b hb) a (by simp [hab]; omega)
  obtain ⟨A2, e2, r2⟩ := rep_sed1 eps (rep_cut3 h a ha) b (by simp [hab.symm]; omega)
  rw [add_right_comm, sub_right_comm] at r1
  obtain ⟨A, e, r⟩ := rep_zip r1 r2 (fun a b v => min (a v) (b v))
  refine ⟨A, ?_, r⟩
  unfold sed2
  rw [e1]
  simp only [bind, Except.bind]
  rw [e2]
  exact e

theorem rep_sed3 (eps : K) {u : Arr (ι → K)} {lo hi : Ix} {Φ : Ix → ι → K} (h : Rep u lo hi Φ)
    (hs : ∀ d, 6 ≤ hi d - lo d) :
    ∃ A, sed3 eps u = .ok A ∧
      Rep A (lo + Pi.single 0 3 + Pi.single 1 3 + Pi.single 2 3)
        (hi - Pi.single 0 3 - Pi.single 1 3 - Pi.single 2 3)
        (fun i v => min (min (sedAlong eps 0 Φ i v) (sedAlong eps 1 Φ i v)) (sedAlong eps 2 Φ i v)) := by
  have h0 := hs 0
  have h1 := hs 1
  have h2 := hs 2
  obtain ⟨A1, e1, r1⟩ := rep_sed2 eps (rep_cut3 h 2 h2) 0 1 (by decide) (by simp; omega) (by simp; omega)
  obtain ⟨A2, e2, r2⟩ := rep_sed1 eps (rep_cut3 (rep_cut3 h 0 h0) 1 (by simp; omega)) 2 (by simp; omega)
  obtain ⟨A, e, r⟩ := rep_zip (r1.congr (lo' := lo + Pi.single 0 3 + Pi.single 1 3 + Pi.single 2 3)
    (hi' := hi - Pi.single 0 3 - Pi.single 1 3 - Pi.single 2 3) (by abel) (by abel) (fun _ _ => rfl)) r2
    (fun a b v => min (a v) (b v))
  refine ⟨A, ?_, r⟩
  unfold sed3
  rw [e1]
  simp only [bind, Except.bind]
  rw [e2]
  exact e

/-- The list of directions is one the code can be given by the solver. -/
def DimsOK (dims : List (Fin 3)) : Prop := dims.Nodup ∧ dims ≠ []

theorem sed_ends (dims : List (Fin 3)) (n : Fin 3 → ℕ) (lo hi : Ix)
    (h1 : ∀ d, lo d = if d ∈ dims then 3 else 0) (h2 : ∀ d, hi d = if d ∈ dims then 3 else 0) :
    dpLo dims + lo = 0 ∧ dpHi dims n - hi = corner n := by
  constructor <;> funext d
  · simp only [Pi.add_apply, dpLo, detPad, h1 d, Pi.zero_apply]
    split_ifs <;> simp
  · simp only [Pi.sub_apply, dpHi, detPad, h2 d, corner]
    split_ifs <;> simp

theorem smoothExtrema_spec (eps : K) (dims : List (Fin 3)) (hd : DimsOK dims) (n : Fin 3 → ℕ)
    (C : Ix → ι → K) :
    ∃ A al, smoothExtrema eps dims (boxArr n (detPad dims) C) = .ok A ∧ Rep A 0 (corner n) al ∧
      ∀ i v, IsLeast {x | ∃ d ∈ dims, x = sedAlong eps d C i v} (al i v) := by
  have hC := boxArr_rep dims n C
  have size : ∀ d ∈ dims, 6 ≤ dpHi dims n d - dpLo dims d := by
    intro d h
    simp only [dpHi, dpLo, detPad, h, if_true]
    push_cast
    omega
  obtain ⟨hnd, hne⟩ := hd
  match dims, hnd, hne with
  | [a], _, _ =>
    obtain ⟨A, e, r⟩ := rep_sed1 eps hC a (size a (by simp))
    obtain ⟨e1, e2⟩ := sed_ends [a] n (Pi.single a 3) (Pi.single a 3)
      (fun d => by simp [Pi.single_apply]) (fun d => by simp [Pi.single_apply])
    rw [e1, e2] at r
    refine ⟨A, _, e, r, fun i v => ?_⟩
    simp [IsLeast, lowerBounds]
  | [a, b], hnd, _ =>
    have hab : a ≠ b := by simpa using hnd
    obtain ⟨A, e, r⟩ := rep_sed2 eps hC a b hab (size a (by simp)) (size b (by simp))
    have ends : ∀ d, (Pi.single a 3 + Pi.single b 3 : Ix) d = if d ∈ [a, b] then 3 else 0 := by
      intro d
      simp only [Pi.add_apply, Pi.single_apply, List.mem_cons, List.not_mem_nil, or_false]
      split_ifs <;> simp_all
    obtain ⟨e1, e2⟩ := sed_ends [a, b] n (Pi.single a 3 + Pi.single b 3) (Pi.single a 3 + Pi.single b 3)
      ends ends
    rw [add_assoc, sub_sub, e1, e2] at r
    refine ⟨A, _, e, r, fun i v => ?_⟩
    have := min_least (sedAlong eps a C i v) (sedAlong eps b C i v)
    simpa using this
  | [a, b, c], hnd, _ =>
    have hall : ∀ d, d ∈ [a, b, c] := (by decide : ∀ a b c : Fin 3, [a, b, c].Nodup → ∀ d, d ∈ [a, b, c])
      a b c hnd
    obtain ⟨A, e, r⟩ := rep_sed3 eps hC (fun d => size d (hall d))
    have ends : ∀ d, (Pi.single 0 3 + Pi.single 1 3 + Pi.single 2 3 : Ix) d =
        if d ∈ [a, b, c] then 3 else 0 := by
      intro d
      rw [if_pos (hall d)]
      match d with
      | 0 => simp
      | 1 => simp
      | 2 => simp
    obtain ⟨e1, e2⟩ := sed_ends [a, b, c] n _ _ ends ends
    rw [add_assoc, add_assoc, sub_sub, sub_sub, ← add_assoc (Pi.single 0 3), e1, e2] at r
    refine ⟨A, _, e, r, fun i v => ⟨?_, ?_⟩⟩
    · rcases min_choice (min (sedAlong eps 0 C i v) (sedAlong eps 1 C i v)) (sedAlong eps 2 C i v)
        with h | h
      · rcases min_choice (sedAlong eps 0 C i v) (sedAlong eps 1 C i v) with h' | h'
        · exact ⟨0, hall 0, h.trans h'⟩
        · exact ⟨1, hall 1, h.trans h'⟩
      · exact ⟨2, hall 2, h⟩
    · rintro _ ⟨d, _, rfl⟩
      match d with
      | 0 => exact (min_le_left _ _).trans (min_le_left _ _)
      | 1 => exact (min_le_left _ _).trans (min_le_right _ _)
      | 2 => exact min_le_right _ _
  | a :: b :: c :: d :: l, hnd, _ =>
    exfalso
    revert hnd
    rw [show a :: b :: c :: d :: l = [a, b, c, d] ++ l from rfl]
    intro hnd
    exact (by decide : ∀ a b c d : Fin 3, ¬ [a, b, c, d].Nodup) a b c d (List.Nodup.of_append_left hnd)

/-- Some indicator in `dims` shows that the profile is not a smooth extremum. -/
def Rough (eps : K) (dims : List (Fin 3)) (C : Ix → ι → K) (i : Ix) (v : ι) : Prop :=
  ∃ d ∈ dims, sedAlong eps d C i v < 1

instance (eps : K) (dims : List (Fin 3)) (C : Ix → ι → K) (i : Ix) (v : ι) :
    Decidable (Rough eps dims C i v) := by unfold Rough; infer_instance

theorem relaxSmooth_spec (o : DetectOpts K) (dims : List (Fin 3)) (hd : DimsOK dims) (n : Fin 3 → ℕ)
    (C : Ix → ι → K) {B : Arr (ι → Bool)} {bad : Ix → ι → Bool} (hB : Rep B 0 (corner n) bad) :
    ∃ B', relaxSmooth o dims (boxArr n (detPad dims) C) B = .ok B' ∧
      Rep B' 0 (corner n) (fun i v => decide (bad i v = true ∧ (o.sed = true → Rough o.sedEps dims C i v))) := by
  unfold relaxSmooth
  by_cases hs : o.sed = true
  · rw [if_pos hs]
    obtain ⟨A, al, e, r, hal⟩ := smoothExtrema_spec o.sedEps dims hd n C
    obtain ⟨W, e2, r2⟩ := rep_zip r hB (fun a b v => if a v < 1 then b v else false)
    obtain ⟨B', e3, r3⟩ := rep_assign hB.1 r2
    refine ⟨B', ?_, r3.congr rfl rfl fun i _ => ?_⟩
    · rw [e]
      simp only [bind, Except.bind]
      rw [e2]
      exact e3
    · funext v
      have : al i v < 1 ↔ Rough o.sedEps dims C i v := by
        constructor
        · intro h
          obtain ⟨d, hd, e⟩ := (hal i v).1
          exact ⟨d, hd, e ▸ h⟩
        · rintro ⟨d, hd, h⟩
          exact lt_of_le_of_lt ((hal i v).2 ⟨d, hd, rfl⟩) h
      by_cases h : al i v < 1
      · rw [if_pos h]
        simp [this.1 h]
      · rw [if_neg h]
        have h' : ¬ Rough o.sedEps dims C i v := fun h' => h (this.2 h')
        simp [h', hs]
  · rw [if_neg hs]
    exact ⟨B, rfl, hB.congr rfl rfl fun i _ => by funext v; simp [hs]⟩

/-! ## The PAD test -/

/-- What the loop over the bounds leaves behind: the indicator of the last bound. -/
def padAt (pad : List (Var 0 × Option K × Option K)) (c : State K 0) : WithTop K :=
  match pad.getLast? with
  | none => 0
  | some e => padPoint e.2.1 e.2.2 (c e.1)

theorem padIndicator_spec (pad : List (Var 0 × Option K × Option K)) (n : Fin 3 → ℕ)
    (C : Ix → State K 0) {cin : Arr (State K 0)} (hc : Rep cin 0 (corner n) C)
    {P : Arr (WithTop K)} (hP : Rep P 0 (corner n) (fun _ => 0)) :
    ∃ Q, padIndicator pad cin P = .ok Q ∧ Rep Q 0 (corner n) (fun i => padAt pad (C i)) := by
  have main : ∀ (l : List (Var 0 × Option K × Option K)) (P : Arr (WithTop K)) (s : Ix → WithTop K),
      Rep P 0 (corner n) s → ∃ Q, padIndicator l cin P = .ok Q ∧ Rep Q 0 (corner n) (fun i =>
        match l.getLast? with
        | none => s i
        | some e => padPoint e.2.1 e.2.2 (C i e.1)) := by
    intro l
    induction l with
    | nil => intro P s h; exact ⟨P, rfl, h⟩
    | cons e l ih =>
      intro P s h
      obtain ⟨Q, e1, r1⟩ := rep_assign h.1 (rep_map hc (fun c => padPoint e.2.1 e.2.2 (c e.1)))
      obtain ⟨Q', e2, r2⟩ := ih Q _ r1
      refine ⟨Q', ?_, r2.congr rfl rfl fun i _ => ?_⟩
      · unfold padIndicator
        rw [List.foldlM_cons]
        erw [e1]
        exact e2
      · cases hl : l.getLast? with
        | none =>
          have : l = [] := by simpa using hl
          subst this
          rfl
        | some x =>
          rw [List.getLast?_cons, hl]
          rfl
  obtain ⟨Q, e, r⟩ := main pad P _ hP
  exact ⟨Q, e, r⟩

/-! ## Everything together -/

/-- The candidate leaves the tolerated interval of variable `v`, and not at a smooth extremum. -/
def NadFlag (o : DetectOpts K) (dims : List (Fin 3)) (n : Fin 3 → ℕ) (U C : Ix → State K 0) (i : Ix)
    (v : Var 0) : Prop :=
  (C i v < tolLo o dims n U i v ∨ tolHi o dims n U i v < C i v) ∧
    (o.sed = true → Rough o.sedEps dims C i v)

/-- The cell is flagged by the NAD test. -/
def NadCell (o : DetectOpts K) (dims : List (Fin 3)) (n : Fin 3 → ℕ) (U C : Ix → State K 0) (i : Ix) : Prop :=
  ∃ v, o.considers v = true ∧ NadFlag o dims n U C i v

theorem mem_activeVars (v : Var 0) : v ∈ activeVars := by
  unfold activeVars
  match v with
  | .rho => simp
  | .mom 0 => simp
  | .mom 1 => simp
  | .mom 2 => simp
  | .en => simp
  | .ps j => exact j.elim0

theorem Rep.at_cell {α : Type} {A : Arr α} {n : Fin 3 → ℕ} {Φ : Ix → α} (h : Rep A 0 (corner n) Φ) :
    A.shape = n ∧ ∀ i, InCells n i → A.get i = Φ i := by
  constructor
  · funext d
    have := h.1 d
    simp [corner] at this
    exact this
  · intro i hi
    have := h.get_at i (fun d => by simpa [corner] using hi d)
    rwa [sub_zero] at this

theorem detect_spec (o : DetectOpts K) (ho : o.Known) (dims : List (Fin 3)) (hd : DimsOK dims)
    (n : Fin 3 → ℕ) (hn : ∀ d, 1 ≤ n d) (U C : Ix → State K 0) :
    ∃ D, detectTroubledCells o dims (boxArr n (detPad dims) U) (boxArr n (detPad dims) C) = .ok D ∧
      (D.trouble.shape = n ∧ D.nadMag.shape = n ∧ D.padMag.shape = n) ∧
      ∀ i, InCells n i →
        (D.trouble.get i = true ↔ NadCell o dims n U C i ∨ padAt o.pad (C i) < 0) ∧
        (NadCell o dims n U C i → D.nadMag.get i = -listMin (activeVars.map (nadInd o dims n U C i))) ∧
        (¬ NadCell o dims n U C i → D.nadMag.get i = 0) ∧
        D.padMag.get i = (if padAt o.pad (C i) < 0 then -((padAt o.pad (C i)).untopD 0) else 0) := by
  have hc : Rep (interior dims (boxArr n (detPad dims) C)) 0 (corner n) C := rep_interior (boxArr_rep dims n C)
  have hb := rep_filters dims n U
  obtain ⟨I, B, e1, rI, rB⟩ := nadPerVar_spec o ho dims n hn U C hc hb
  obtain ⟨B', e2, rB'⟩ := relaxSmooth_spec o dims hd n C rB
  have rnad := rep_map rB' fun (x : Var 0 → Bool) => activeVars.any fun v => o.considers v && x v
  have rind := rep_map rI fun i => listMin (activeVars.map i)
  obtain ⟨M, e3, rM⟩ := rep_zip rnad rind (fun t i => if t then -i else 0)
  obtain ⟨P, e4, rP⟩ := padIndicator_spec o.pad n C hc (rep_map rM fun _ => (0 : WithTop K))
  obtain ⟨T, e5, rT⟩ := rep_zip rP rnad (fun x t => if x < 0 then true else t)
  have rQ := rep_map rP fun x => if x < 0 then -(x.untopD 0) else (0 : K)
  refine ⟨⟨T, M, _⟩, ?_, ⟨rT.at_cell.1, rM.at_cell.1, rQ.at_cell.1⟩, fun i hi => ?_⟩
  · unfold detectTroubledCells
    simp only [e1, bind, Except.bind, e2, e3, e4, e5, pure, Except.pure]
    rfl
  · have key : (activeVars.any fun v => o.considers v && decide
        (decide (C i v < tolLo o dims n U i v ∨ tolHi o dims n U i v < C i v) = true ∧
          (o.sed = true → Rough o.sedEps dims C i v))) = true ↔ NadCell o dims n U C i := by
      rw [List.any_eq_true]
      unfold NadCell NadFlag
      constructor
      · rintro ⟨v, _, h⟩
        exact ⟨v, by simpa only [Bool.and_eq_true, decide_eq_true_eq] using h⟩
      · rintro ⟨v, h⟩
        exact ⟨v, mem_activeVars v, by simpa only [Bool.and_eq_true, decide_eq_true_eq] using h⟩
    refine ⟨?_, fun h => ?_, fun h => ?_, ?_⟩
    · rw [rT.at_cell.2 i hi]
      by_cases hp : padAt o.pad (C i) < 0
      · rw [if_pos hp]; simp [hp]
      · rw [if_neg hp, key]; simp [hp]
    · rw [rM.at_cell.2 i hi, if_pos (key.2 h)]
    · rw [rM.at_cell.2 i hi, if_neg (fun h' => h (key.1 h'))]
    · exact rQ.at_cell.2 i hi

end FVHOE
