import Verif.Model.HydroState
import Verif.Model.Arr
import Mathlib.Tactic.FinCases

/-!
C110: what the slicer selects.
-/

set_option linter.unusedSectionVars false

namespace FVHOE

/-- The cells of an axis of `n` cells between the bounds `a` and `b`, which count from the end if they are negative and are no bounds if
they are zero. -/
def InWindow (n : ℕ) (a b i : ℤ) : Prop :=
  0 ≤ i ∧ i < n ∧ (0 < a → a ≤ i) ∧ (a < 0 → n + a ≤ i) ∧ (0 < b → i < b) ∧ (b < 0 → i < n + b)

/-- All cells, in order. -/
def SelectsAll (e : SliceItem) : Prop := ∃ s, e = .slice s ∧ ∀ n, s.indices n = .ok ((List.range n).map fun i : ℕ => (i : ℤ))

/-- All cells, from the last to the first. -/
def SelectsReversed (e : SliceItem) : Prop :=
  ∃ s, e = .slice s ∧ ∀ n, s.indices n = .ok ((List.range n).map fun i : ℕ => (i : ℤ)).reverse

/-- The cells between two bounds, in order. -/
def SelectsWindow (a b : ℤ) (e : SliceItem) : Prop :=
  ∃ s, e = .slice s ∧ ∀ n, ∃ l, s.indices n = .ok l ∧ l.Pairwise (· < ·) ∧ ∀ i, i ∈ l ↔ InWindow n a b i

/-- The variables that were asked for. -/
def SelectsVar (v : VarSel) (e : SliceItem) : Prop := if v = .all then SelectsAll e else e = .sel v

/-! ### Positions -/

theorem range_step_one (a : ℤ) (k : ℕ) : ((List.range k).map fun j : ℕ => a + j * 1).Pairwise (· < ·) ∧
    ∀ i, i ∈ ((List.range k).map fun j : ℕ => a + j * 1) ↔ a ≤ i ∧ i < a + k := by
  constructor
  · rw [List.pairwise_map]
    exact List.pairwise_lt_range.imp fun h => by omega
  · intro i
    simp only [List.mem_map, List.mem_range]
    constructor
    · rintro ⟨j, hj, rfl⟩
      omega
    · rintro ⟨h1, h2⟩
      exact ⟨(i - a).toNat, by omega, by omega⟩

theorem selectsWindow (a b : ℤ) :
    SelectsWindow a b (.slice ⟨if a = 0 then none else some a, if b = 0 then none else some b, none⟩) := by
  refine ⟨_, rfl, fun n => ?_⟩
  unfold PySlice.indices
  simp only [Option.getD_none, one_ne_zero, if_false, zero_lt_one, if_true, Int.ediv_one]
  refine ⟨_, rfl, (range_step_one _ _).1, fun i => ?_⟩
  rw [(range_step_one _ _).2]
  unfold InWindow
  by_cases ha : a = 0 <;> by_cases hb : b = 0 <;>
    simp only [ha, hb, if_true, if_false, Option.map_some, Option.map_none, Option.getD_some, Option.getD_none] <;>
    split_ifs <;> omega

theorem selectsAll : SelectsAll (.slice ⟨none, none, none⟩) := by
  refine ⟨_, rfl, fun n => ?_⟩
  unfold PySlice.indices
  simp only [Option.getD_none, one_ne_zero, if_false, zero_lt_one, if_true, Int.ediv_one, Option.map_none]
  congr 1
  have : (if (0 : ℤ) < n then ((n : ℤ) - 0 - 1 + 1).toNat else 0) = n := by split_ifs <;> omega
  rw [this]
  refine List.map_congr_left fun j _ => ?_
  omega

theorem selectsReversed : SelectsReversed (.slice ⟨none, none, some (-1)⟩) := by
  refine ⟨_, rfl, fun n => ?_⟩
  unfold PySlice.indices
  simp only [Option.getD_some, Option.map_none, Option.getD_none]
  rw [if_neg (by omega), if_neg (by omega)]
  congr 1
  have : (if (-1 : ℤ) < (n : ℤ) - 1 then (((n : ℤ) - 1 - -1 - 1) / (- -1) + 1).toNat else 0) = n := by
    rw [neg_neg, Int.ediv_one]
    split_ifs <;> omega
  rw [this]
  apply List.ext_getElem
  · simp
  · intro i h1 h2
    simp at h1
    simp
    omega

/-! ### The list of slices -/

theorem pySetItem_nat {α : Type} (l : List α) (i : ℕ) (h : i < l.length) (x : α) : pySetItem l i x = .ok (l.set i x) := by
  unfold pySetItem
  rw [if_pos ⟨by omega, by omega⟩, Int.toNat_natCast]

theorem HydroState.init_ndim {passives : List String} {ndim : ℕ} {hs : HydroState} (h : HydroState.init passives ndim = .ok hs) :
    hs.ndim = ndim := by
  unfold HydroState.init at h
  dsimp only at h
  split_ifs at h <;> cases h <;> rfl

/-- The list with the variables chosen. -/
def startSlices (ndim : ℕ) (v : VarSel) : List SliceItem :=
  if v = .all then List.replicate ndim (.slice ⟨none, none, none⟩) else (List.replicate ndim (.slice ⟨none, none, none⟩)).set 0 (.sel v)

theorem startSlices_length (ndim : ℕ) (v : VarSel) : (startSlices ndim v).length = ndim := by
  unfold startSlices
  split <;> simp

theorem startSlices_all (ndim : ℕ) (v : VarSel) (e : ℕ) (h : e < ndim) (h0 : 1 ≤ e) :
    (startSlices ndim v)[e]? = some (.slice ⟨none, none, none⟩) := by
  unfold startSlices
  split
  · rw [List.getElem?_replicate, if_pos h]
  · rw [List.getElem?_set_ne (by omega), List.getElem?_replicate, if_pos h]

theorem startSlices_var (ndim : ℕ) (v : VarSel) (h : 1 ≤ ndim) : ∃ e, (startSlices ndim v)[0]? = some e ∧ SelectsVar v e := by
  unfold startSlices SelectsVar
  split
  · exact ⟨_, by rw [List.getElem?_replicate, if_pos (by omega)], selectsAll⟩
  · exact ⟨_, by rw [List.getElem?_set_self (by rw [List.length_replicate]; omega)], rfl⟩

/-- The call after the choice of variables. -/
theorem call_eq (hs : HydroState) (hn : 1 ≤ hs.ndim) (var : VarArg) (v : VarSel) (hv : hs.sel var = .ok v) (x y z : CutArg)
    (axis : Option ℤ) (cut : CutArg) (step : Option ℤ) : hs.call var x y z axis cut step = (do
      let l ← cutAxis hs.ndim (startSlices hs.ndim v) (some 1) x (if axis = some 1 then step else none)
      let l ← cutAxis hs.ndim l (some 2) y (if axis = some 2 then step else none)
      let l ← cutAxis hs.ndim l (some 3) z (if axis = some 3 then step else none)
      let l ← cutAxis hs.ndim l axis cut step
      match l with
      | [s] => return .one s
      | l => return .tuple l) := by
  unfold HydroState.call
  have h0 : ∀ w : VarSel, pySetItem (List.replicate hs.ndim (SliceItem.slice ⟨none, none, none⟩)) 0 (.sel w) =
      .ok ((List.replicate hs.ndim (SliceItem.slice ⟨none, none, none⟩)).set 0 (.sel w)) := fun w =>
    pySetItem_nat _ 0 (by rw [List.length_replicate]; omega) _
  rw [hv]
  cases v with
  | all => rfl
  | ix w => simp only [bind, Except.bind, h0]; rfl
  | many w => simp only [bind, Except.bind, h0]; rfl

theorem tuple_of_length {l : List SliceItem} (h : 2 ≤ l.length) : (match l with
    | [s] => (pure (.one s) : Except PyErr SlicerOut)
    | l => pure (.tuple l)) = .ok (.tuple l) := by
  match l, h with
  | _ :: _ :: _, _ => rfl

/-! ### The property -/

section
variable {passives : List String} {ndim : ℕ} {hs : HydroState} (hhs : HydroState.init passives ndim = .ok hs)
include hhs

/-- **C110** (`axis` and `cut`). In an array of any number of dimensions the slicer selects the named variables on the first axis, the cells between
the two bounds on the given axis, and everything on the others. -/
theorem C110_cut (var : VarArg) (v : VarSel) (hv : hs.sel var = .ok v) (axis : ℕ) (h1 : 1 ≤ axis) (h2 : axis < ndim) (a b : ℤ) :
    ∃ l, hs.call var .none .none .none (some axis) (.tuple [a, b]) none = .ok (.tuple l) ∧ l.length = ndim ∧
      (∃ e, l[0]? = some e ∧ SelectsVar v e) ∧
      ∀ k, 1 ≤ k → k < ndim → ∃ e, l[k]? = some e ∧ if k = axis then SelectsWindow a b e else SelectsAll e := by
  have hn := HydroState.init_ndim hhs
  rw [call_eq hs (by omega) var v hv]
  have hc : cutAxis hs.ndim (startSlices hs.ndim v) (some (axis : ℤ)) (.tuple [a, b]) none =
      .ok ((startSlices hs.ndim v).set axis (.slice ⟨if a = 0 then none else some a, if b = 0 then none else some b, none⟩)) := by
    unfold cutAxis
    dsimp only
    rw [if_neg (by omega), pySetItem_nat _ _ (by rw [startSlices_length]; omega)]
  have hl : ((startSlices hs.ndim v).set axis (.slice ⟨if a = 0 then none else some a, if b = 0 then none else some b, none⟩)).length = ndim := by
    rw [List.length_set, startSlices_length, hn]
  refine ⟨_, ?_, hl, ?_, ?_⟩
  · show (cutAxis hs.ndim (startSlices hs.ndim v) (some (axis : ℤ)) (.tuple [a, b]) none >>= _) = _
    rw [hc]
    exact tuple_of_length (by rw [hl]; omega)
  · obtain ⟨e, h, h'⟩ := startSlices_var hs.ndim v (by omega)
    exact ⟨e, by rw [List.getElem?_set_ne (by omega)]; exact h, h'⟩
  · intro k hk hk'
    by_cases he : k = axis
    · subst he
      exact ⟨_, List.getElem?_set_self (by rw [startSlices_length]; omega), by rw [if_pos rfl]; exact selectsWindow a b⟩
    · refine ⟨_, by rw [List.getElem?_set_ne (by omega)]; exact startSlices_all _ _ k (by omega) hk, ?_⟩
      rw [if_neg he]
      exact selectsAll

/-- **C110** (reversal). With the bounds zero and the step -1 the axis is turned around. -/
theorem C110_flip (var : VarArg) (v : VarSel) (hv : hs.sel var = .ok v) (axis : ℕ) (h1 : 1 ≤ axis) (h2 : axis < ndim) :
    ∃ l, hs.call var .none .none .none (some axis) (.tuple [0, 0]) (some (-1)) = .ok (.tuple l) ∧ l.length = ndim ∧
      (∃ e, l[0]? = some e ∧ SelectsVar v e) ∧
      ∀ k, 1 ≤ k → k < ndim → ∃ e, l[k]? = some e ∧ if k = axis then SelectsReversed e else SelectsAll e := by
  have hn := HydroState.init_ndim hhs
  rw [call_eq hs (by omega) var v hv]
  have hc : cutAxis hs.ndim (startSlices hs.ndim v) (some (axis : ℤ)) (.tuple [0, 0]) (some (-1)) =
      .ok ((startSlices hs.ndim v).set axis (.slice ⟨none, none, some (-1)⟩)) := by
    unfold cutAxis
    dsimp only
    rw [if_neg (by omega), pySetItem_nat _ _ (by rw [startSlices_length]; omega)]
    rfl
  have hl : ((startSlices hs.ndim v).set axis (.slice ⟨none, none, some (-1)⟩)).length = ndim := by
    rw [List.length_set, startSlices_length, hn]
  refine ⟨_, ?_, hl, ?_, ?_⟩
  · show (cutAxis hs.ndim (startSlices hs.ndim v) (some (axis : ℤ)) (.tuple [0, 0]) (some (-1)) >>= _) = _
    rw [hc]
    exact tuple_of_length (by rw [hl]; omega)
  · obtain ⟨e, h, h'⟩ := startSlices_var hs.ndim v (by omega)
    exact ⟨e, by rw [List.getElem?_set_ne (by omega)]; exact h, h'⟩
  · intro k hk hk'
    by_cases he : k = axis
    · subst he
      exact ⟨_, List.getElem?_set_self (by rw [startSlices_length]; omega), by rw [if_pos rfl]; exact selectsReversed⟩
    · refine ⟨_, by rw [List.getElem?_set_ne (by omega)]; exact startSlices_all _ _ k (by omega) hk, ?_⟩
      rw [if_neg he]
      exact selectsAll

/-- An optional pair of bounds as an argument. -/
def cutOf : Option (ℤ × ℤ) → CutArg
  | none => .none
  | some (a, b) => .tuple [a, b]

/-- What an optional pair of bounds selects. -/
def SelectsOf (c : Option (ℤ × ℤ)) (e : SliceItem) : Prop :=
  match c with
  | none => SelectsAll e
  | some (a, b) => SelectsWindow a b e

omit hhs in
theorem cutAxis_of {n : ℕ} {l : List SliceItem} (hl : l.length = n) {i : ℕ} (hi : i < n) (c : Option (ℤ × ℤ)) (P : SliceItem → Prop)
    (hP : c = none → ∃ e, l[i]? = some e ∧ P e) (hP' : ∀ a b e, c = some (a, b) → SelectsWindow a b e → P e) (st : Option ℤ) (hst : st = none) :
    ∃ l', cutAxis n l (some i) (cutOf c) st = .ok l' ∧ l'.length = n ∧ (∃ e, l'[i]? = some e ∧ P e) ∧ ∀ k, k ≠ i → l'[k]? = l[k]? := by
  subst hst
  cases c with
  | none => exact ⟨l, rfl, hl, hP rfl, fun _ _ => rfl⟩
  | some ab =>
    obtain ⟨a, b⟩ := ab
    refine ⟨l.set i (.slice ⟨if a = 0 then none else some a, if b = 0 then none else some b, none⟩), ?_, by rw [List.length_set, hl], ?_, ?_⟩
    · unfold cutAxis cutOf
      dsimp only
      rw [if_neg (by omega), pySetItem_nat _ _ (by omega)]
    · exact ⟨_, List.getElem?_set_self (by omega), hP' a b _ rfl (selectsWindow a b)⟩
    · intro k hk
      rw [List.getElem?_set_ne (by omega)]

/-- **C110** (x, y, z). In arrays of four dimensions each of the arguments x, y and z cuts its own axis, and `cut` takes the place of the one whose
axis is `axis`. -/
theorem C110_xyz (h4 : ndim = 4) (var : VarArg) (v : VarSel) (hv : hs.sel var = .ok v) (c : Fin 3 → Option (ℤ × ℤ)) (d : Fin 3)
    (c' : Option (ℤ × ℤ)) :
    ∃ l, hs.call var (cutOf (c 0)) (cutOf (c 1)) (cutOf (c 2)) (some ((d : ℕ) + 1 : ℕ)) (cutOf c') none = .ok (.tuple l) ∧ l.length = 4 ∧
      (∃ e, l[0]? = some e ∧ SelectsVar v e) ∧
      ∀ k : Fin 3, ∃ e, l[(k : ℕ) + 1]? = some e ∧ SelectsOf (if k = d ∧ c' ≠ none then c' else c k) e := by
  have hn := HydroState.init_ndim hhs
  subst h4
  rw [call_eq hs (by omega) var v hv]
  have keep (i : ℕ) (l : List SliceItem) (e : SliceItem) (h : l[i]? = some e) (ci : Option (ℤ × ℤ)) (hs' : ci = none → SelectsAll e) :
      ci = none → ∃ e, l[i]? = some e ∧ SelectsOf ci e := fun hc => ⟨e, h, by rw [hc]; exact hs' hc⟩
  have win (ci : Option (ℤ × ℤ)) : ∀ a b e, ci = some (a, b) → SelectsWindow a b e → SelectsOf ci e := fun a b e hc h => by rw [hc]; exact h
  have step0 (j : ℤ) : (if some (((d : ℕ) + 1 : ℕ) : ℤ) = some j then (none : Option ℤ) else none) = none := by split <;> rfl
  have all (k : ℕ) (h : k < 4) (h0 : 1 ≤ k) := startSlices_all hs.ndim v k (by omega) h0
  obtain ⟨l1, e1, n1, p1, q1⟩ := cutAxis_of (n := hs.ndim) (startSlices_length hs.ndim v) (i := 1) (by omega) (c 0) (SelectsOf (c 0))
    (keep 1 _ _ (all 1 (by omega) (by omega)) _ fun _ => selectsAll) (win _) _ (step0 1)
  obtain ⟨l2, e2, n2, p2, q2⟩ := cutAxis_of (n := hs.ndim) n1 (i := 2) (by omega) (c 1) (SelectsOf (c 1))
    (keep 2 _ _ (by rw [q1 2 (by omega)]; exact all 2 (by omega) (by omega)) _ fun _ => selectsAll) (win _) _ (step0 2)
  obtain ⟨l3, e3, n3, p3, q3⟩ := cutAxis_of (n := hs.ndim) n2 (i := 3) (by omega) (c 2) (SelectsOf (c 2))
    (keep 3 _ _ (by rw [q2 3 (by omega), q1 3 (by omega)]; exact all 3 (by omega) (by omega)) _ fun _ => selectsAll) (win _) _ (step0 3)
  have r3 : ∀ k : Fin 3, ∃ e, l3[(k : ℕ) + 1]? = some e ∧ SelectsOf (c k) e := by
    intro k
    fin_cases k
    · obtain ⟨e, he, hp⟩ := p1
      exact ⟨e, by rw [show ((⟨0, by omega⟩ : Fin 3) : ℕ) + 1 = 1 from rfl, q3 1 (by omega), q2 1 (by omega)]; exact he, hp⟩
    · obtain ⟨e, he, hp⟩ := p2
      exact ⟨e, by rw [show ((⟨1, by omega⟩ : Fin 3) : ℕ) + 1 = 2 from rfl, q3 2 (by omega)]; exact he, hp⟩
    · exact p3
  have k1 : c' = none → ∃ e, l3[(d : ℕ) + 1]? = some e ∧ SelectsOf (if c' ≠ none then c' else c d) e := fun hc => by
    obtain ⟨e, he, hp⟩ := r3 d
    exact ⟨e, he, by rw [if_neg (by simp [hc])]; exact hp⟩
  have k2 : ∀ a b e, c' = some (a, b) → SelectsWindow a b e → SelectsOf (if c' ≠ none then c' else c d) e := fun a b e hc h => by
    rw [if_pos (by simp [hc]), hc]
    exact h
  obtain ⟨l4, e4, n4, p4, q4⟩ := cutAxis_of (n := hs.ndim) n3 (i := (d : ℕ) + 1) (by omega) c'
    (SelectsOf (if c' ≠ none then c' else c d)) k1 k2 none rfl
  refine ⟨l4, ?_, by omega, ?_, fun k => ?_⟩
  · have e1' : cutAxis hs.ndim (startSlices hs.ndim v) (some 1) (cutOf (c 0)) (if some (((d : ℕ) + 1 : ℕ) : ℤ) = some 1 then none else none) = .ok l1 := e1
    have e2' : cutAxis hs.ndim l1 (some 2) (cutOf (c 1)) (if some (((d : ℕ) + 1 : ℕ) : ℤ) = some 2 then none else none) = .ok l2 := e2
    have e3' : cutAxis hs.ndim l2 (some 3) (cutOf (c 2)) (if some (((d : ℕ) + 1 : ℕ) : ℤ) = some 3 then none else none) = .ok l3 := e3
    simp only [bind, Except.bind, e1', e2', e3', e4]
    exact tuple_of_length (by omega)
  · obtain ⟨e, he, hp⟩ := startSlices_var hs.ndim v (by omega)
    refine ⟨e, ?_, hp⟩
    rw [q4 0 (by omega), q3 0 (by omega), q2 0 (by omega), q1 0 (by omega)]
    exact he
  · by_cases hk : k = d
    · subst hk
      obtain ⟨e, he, hp⟩ := p4
      refine ⟨e, he, ?_⟩
      simpa using hp
    · have : (k : ℕ) + 1 ≠ (d : ℕ) + 1 := fun h => hk (Fin.ext (by omega))
      obtain ⟨e, he, hp⟩ := r3 k
      refine ⟨e, by rw [q4 _ this]; exact he, ?_⟩
      rw [if_neg fun h => hk h.1]
      exact hp

/-- **C110** (wrong arguments). Axes beyond the last, bounds that are no tuple or not two, and unknown variables raise ValueError. -/
theorem C110_errors (var : VarArg) (v : VarSel) (hv : hs.sel var = .ok v) (h1 : 1 ≤ ndim) :
    (∀ (axis : ℤ) cut step, (ndim : ℤ) ≤ axis → cut ≠ .none →
      hs.call var .none .none .none (some axis) cut step = .error .valueError) ∧
    (∀ (axis : ℤ) step, hs.call var .none .none .none (some axis) .other step = .error .valueError) ∧
    (∀ (axis : ℤ) t step, t.length ≠ 2 → hs.call var .none .none .none (some axis) (.tuple t) step = .error .valueError) ∧
    (∀ s x y z axis cut step, hs.map s = none → hs.call (.str s) x y z axis cut step = .error .valueError) := by
  have hn := HydroState.init_ndim hhs
  refine ⟨fun axis cut step ha hc => ?_, fun axis step => ?_, fun axis t step ht => ?_, fun s x y z axis cut step h => ?_⟩
  · rw [call_eq hs (by omega) var v hv]
    have : cutAxis hs.ndim (startSlices hs.ndim v) (some axis) cut step = .error .valueError := by
      unfold cutAxis
      cases cut with
      | none => exact absurd rfl hc
      | tuple t => dsimp only; rw [if_pos (by omega)]
      | other => dsimp only; rw [if_pos (by omega)]
    show (cutAxis hs.ndim (startSlices hs.ndim v) (some axis) cut step >>= _) = _
    rw [this]
    rfl
  · rw [call_eq hs (by omega) var v hv]
    have : cutAxis hs.ndim (startSlices hs.ndim v) (some axis) .other step = .error .valueError := by
      unfold cutAxis
      dsimp only
      split <;> rfl
    show (cutAxis hs.ndim (startSlices hs.ndim v) (some axis) .other step >>= _) = _
    rw [this]
    rfl
  · rw [call_eq hs (by omega) var v hv]
    have : cutAxis hs.ndim (startSlices hs.ndim v) (some axis) (.tuple t) step = .error .valueError := by
      unfold cutAxis
      dsimp only
      split
      · rfl
      · split
        · rename_i h
          cases h
          exact absurd rfl ht
        · rfl
    show (cutAxis hs.ndim (startSlices hs.ndim v) (some axis) (.tuple t) step >>= _) = _
    rw [this]
    rfl
  · have : hs.sel (.str s) = .error .valueError := by
      unfold HydroState.sel
      dsimp only
      rw [h]
    unfold HydroState.call
    rw [this]
    rfl

/-- **C110** (axes from the end). Negative axes count from the last one. -/
theorem C110_from_end (var : VarArg) (v : VarSel) (hv : hs.sel var = .ok v) (axis : ℤ) (h1 : axis < 0) (h2 : -axis < ndim) (a b : ℤ)
    (step : Option ℤ) : hs.call var .none .none .none (some axis) (.tuple [a, b]) step =
      hs.call var .none .none .none (some (ndim + axis)) (.tuple [a, b]) step := by
  have hn := HydroState.init_ndim hhs
  rw [call_eq hs (by omega) var v hv, call_eq hs (by omega) var v hv]
  have : cutAxis hs.ndim (startSlices hs.ndim v) (some axis) (.tuple [a, b]) step =
      cutAxis hs.ndim (startSlices hs.ndim v) (some (ndim + axis)) (.tuple [a, b]) step := by
    unfold cutAxis
    dsimp only
    have hl := startSlices_length hs.ndim v
    rw [if_neg (show ¬ (hs.ndim : ℤ) ≤ axis by omega), if_neg (show ¬ (hs.ndim : ℤ) ≤ ndim + axis by omega)]
    unfold pySetItem
    have c1 : ¬ (0 ≤ axis ∧ axis < ((startSlices hs.ndim v).length : ℤ)) := fun h => by omega
    have c2 : axis < 0 ∧ -axis ≤ ((startSlices hs.ndim v).length : ℤ) := ⟨h1, by omega⟩
    have c3 : 0 ≤ (ndim : ℤ) + axis ∧ (ndim : ℤ) + axis < ((startSlices hs.ndim v).length : ℤ) := ⟨by omega, by omega⟩
    have c4 : axis + ((startSlices hs.ndim v).length : ℤ) = ndim + axis := by omega
    rw [if_neg c1, if_pos c2, if_pos c3, c4]
  show (cutAxis hs.ndim (startSlices hs.ndim v) (some axis) (.tuple [a, b]) step >>= _) =
    (cutAxis hs.ndim (startSlices hs.ndim v) (some (ndim + axis)) (.tuple [a, b]) step >>= _)
  rw [this]

/-- **C110, the docstring on `cut`** "ignored if axis is None": it raises TypeError, whatever the bounds. -/
theorem C110_ignored_violated (h1 : 1 ≤ ndim) (var : VarArg) (v : VarSel) (hv : hs.sel var = .ok v) (cut : CutArg) (hc : cut ≠ .none)
    (step : Option ℤ) : hs.call var .none .none .none none cut step = .error .typeError := by
  have hn := HydroState.init_ndim hhs
  rw [call_eq hs (by omega) var v hv]
  have : cutAxis hs.ndim (startSlices hs.ndim v) none cut step = .error .typeError := by
    unfold cutAxis
    cases cut with
    | none => exact absurd rfl hc
    | tuple t => rfl
    | other => rfl
  show (cutAxis hs.ndim (startSlices hs.ndim v) none cut step >>= _) = _
  rw [this]
  rfl

/-- **C110, the first axis** A cut of axis 0 silently replaces the choice of variables. -/
theorem C110_variables_lost (h1 : 1 ≤ ndim) (var : VarArg) (v : VarSel) (hv : hs.sel var = .ok v) (a b : ℤ) (step : Option ℤ) :
    hs.call var .none .none .none (some 0) (.tuple [a, b]) step = hs.call .none .none .none .none (some 0) (.tuple [a, b]) step := by
  have hn := HydroState.init_ndim hhs
  rw [call_eq hs (by omega) var v hv, call_eq hs (by omega) .none .all rfl]
  have : cutAxis hs.ndim (startSlices hs.ndim v) (some 0) (.tuple [a, b]) step =
      cutAxis hs.ndim (startSlices hs.ndim .all) (some 0) (.tuple [a, b]) step := by
    unfold cutAxis
    dsimp only
    have z (w : VarSel) (e : SliceItem) : pySetItem (startSlices hs.ndim w) 0 e = .ok ((startSlices hs.ndim w).set 0 e) :=
      pySetItem_nat _ 0 (by rw [startSlices_length]; omega) _
    rw [if_neg (show ¬ (hs.ndim : ℤ) ≤ 0 by omega), if_neg (show ¬ (hs.ndim : ℤ) ≤ 0 by omega), z, z]
    congr 1
    unfold startSlices
    rw [if_pos rfl]
    split
    · rfl
    · rw [List.set_set]
  show (cutAxis hs.ndim (startSlices hs.ndim v) (some 0) (.tuple [a, b]) step >>= _) =
    (cutAxis hs.ndim (startSlices hs.ndim .all) (some 0) (.tuple [a, b]) step >>= _)
  rw [this]

end

/-- **C110** (stencils). `get_symmetric_slices` gives as many slices as asked for; on an axis of any number `n` of cells the one numbered `k` selects the
cells `k, …, n - nslices + k`, none if there are fewer cells than slices. -/
theorem C110_windows (ndim axis nslices : ℕ) (h1 : 1 ≤ axis) (h2 : axis < ndim) (h3 : 1 ≤ nslices) :
    ∃ out, getSymmetricSlices ndim nslices axis = .ok out ∧ out.length = nslices ∧
      ∀ k (hk : k < out.length), ∃ l s, out[k] = .tuple l ∧ l.length = ndim ∧ l[axis]? = some (.slice s) ∧
        (∀ n : ℕ, s.indices n = .ok ((List.range (n + 1 - nslices)).map fun j : ℕ => (k : ℤ) + j)) ∧
        ∀ e, e < ndim → e ≠ axis → ∃ x, l[e]? = some x ∧ SelectsAll x := by
  obtain ⟨hs, hhs⟩ : ∃ hs, HydroState.init [] ndim = .ok hs := ⟨_, rfl⟩
  have hn := HydroState.init_ndim hhs
  have hcall (k : ℕ) : hs.call .none .none .none .none (some (axis : ℤ)) (.tuple [(k : ℤ), -((nslices : ℤ) - 1) + k]) none =
      .ok (.tuple ((startSlices hs.ndim .all).set axis (.slice ⟨if (k : ℤ) = 0 then none else some (k : ℤ),
        if -((nslices : ℤ) - 1) + k = 0 then none else some (-((nslices : ℤ) - 1) + k), none⟩))) := by
    rw [call_eq hs (by omega) .none .all rfl]
    show (cutAxis hs.ndim (startSlices hs.ndim .all) (some (axis : ℤ)) (.tuple [(k : ℤ), -((nslices : ℤ) - 1) + k]) none >>= _) = _
    unfold cutAxis
    dsimp only
    rw [if_neg (by omega), pySetItem_nat _ _ (by rw [startSlices_length]; omega)]
    exact tuple_of_length (by rw [List.length_set, startSlices_length]; omega)
  have hmap : getSymmetricSlices ndim nslices axis = .ok ((List.range nslices).map fun k : ℕ =>
      .tuple ((startSlices hs.ndim .all).set axis (.slice ⟨if (k : ℤ) = 0 then none else some (k : ℤ),
        if -((nslices : ℤ) - 1) + k = 0 then none else some (-((nslices : ℤ) - 1) + k), none⟩))) := by
    unfold getSymmetricSlices
    rw [if_neg (by omega), hhs]
    show List.mapM _ _ = _
    simp only [hcall, Int.toNat_natCast]
    exact List.mapM_pure
  refine ⟨_, hmap, by simp, fun k hk => ?_⟩
  rw [List.length_map, List.length_range] at hk
  rw [List.getElem_map, List.getElem_range]
  refine ⟨_, _, rfl, by rw [List.length_set, startSlices_length, hn], List.getElem?_set_self (by rw [startSlices_length]; omega), fun n => ?_,
    fun e he hne => ?_⟩
  · unfold PySlice.indices
    simp only [Option.getD_none, one_ne_zero, if_false, zero_lt_one, if_true, Int.ediv_one]
    congr 1
    by_cases hn1 : nslices ≤ n
    · have e1 : ((if (k : ℤ) = 0 then none else some (k : ℤ)).map fun a : ℤ => if a < 0 then max (a + n) 0 else min a n).getD 0 = (k : ℤ) := by
        by_cases h : (k : ℤ) = 0
        · simp only [h, if_true, Option.map_none, Option.getD_none]
        · simp only [h, if_false, Option.map_some, Option.getD_some]
          split_ifs <;> omega
      have e2 : ((if -((nslices : ℤ) - 1) + k = 0 then none else some (-((nslices : ℤ) - 1) + k)).map
          fun a : ℤ => if a < 0 then max (a + n) 0 else min a n).getD (n : ℤ) = (n : ℤ) - (nslices - 1) + k := by
        by_cases h : -((nslices : ℤ) - 1) + k = 0
        · simp only [h, if_true, Option.map_none, Option.getD_none]
          omega
        · simp only [h, if_false, Option.map_some, Option.getD_some]
          split_ifs <;> omega
      rw [e1, e2]
      have e3 : (if (k : ℤ) < (n : ℤ) - (nslices - 1) + k then ((n : ℤ) - (nslices - 1) + k - k - 1 + 1).toNat else 0) = n + 1 - nslices := by
        split_ifs <;> omega
      rw [e3]
      exact List.map_congr_left fun j _ => by omega
    · have e3 : n + 1 - nslices = 0 := by omega
      rw [e3, List.range_zero, List.map_nil, List.map_eq_nil_iff, List.range_eq_nil]
      rw [if_neg]
      obtain ⟨q, hq⟩ : ∃ q : ℤ, q = -((nslices : ℤ) - 1) + k := ⟨_, rfl⟩
      rw [← hq]
      by_cases h : (k : ℤ) = 0 <;> by_cases h' : q = 0 <;>
        simp only [h, h', if_true, if_false, Option.map_some, Option.getD_some, Option.map_none, Option.getD_none] <;>
        first | omega | (split_ifs <;> omega)
  · by_cases h0 : e = 0
    · subst h0
      obtain ⟨x, hx, hs'⟩ := startSlices_var hs.ndim .all (by omega)
      exact ⟨x, by rw [List.getElem?_set_ne (by omega)]; exact hx, by simpa [SelectsVar] using hs'⟩
    · exact ⟨_, by rw [List.getElem?_set_ne (by omega)]; exact startSlices_all _ _ e (by omega) (by omega), selectsAll⟩

/-- **C110** (the arrays of the other models). `Arr.cut` and `Arr.flip`, by which the models of the boundary conditions and the stencils describe what
the slicer does, are numpy's indexing with the slices of the slicer. -/
theorem C110_arrays {α : Type} (A : Arr α) (d : Fin 3) (a b : ℤ) :
    ∃ l, (PySlice.mk (if a = 0 then none else some a) (if b = 0 then none else some b) none).indices (A.shape d) = .ok l ∧
      (A.cut d a b).shape = Function.update A.shape d l.length ∧
      ∀ j : Ix, ∀ h : (j d).toNat < l.length, 0 ≤ j d → (A.cut d a b).get j = A.get (Function.update j d l[(j d).toNat]) := by
  unfold PySlice.indices
  simp only [Option.getD_none, one_ne_zero, if_false, zero_lt_one, if_true, Int.ediv_one]
  obtain ⟨n, hn⟩ : ∃ n, n = A.shape d := ⟨_, rfl⟩
  have e1 : ((if a = 0 then none else some a).map fun a : ℤ => if a < 0 then max (a + n) 0 else min a n).getD 0 =
      (sliceStart n (orNone a) : ℤ) := by
    unfold orNone
    split_ifs
    · rfl
    · simp only [Option.map_some, Option.getD_some, sliceStart, pyBound]
      split_ifs <;> omega
  have e2 : ((if b = 0 then none else some b).map fun a : ℤ => if a < 0 then max (a + n) 0 else min a n).getD (n : ℤ) =
      (sliceStop n (orNone b) : ℤ) := by
    unfold orNone
    split_ifs
    · rfl
    · simp only [Option.map_some, Option.getD_some, sliceStop, pyBound]
      split_ifs <;> omega
  rw [← hn, e1, e2]
  have e3 : (if (sliceStart n (orNone a) : ℤ) < sliceStop n (orNone b) then
      ((sliceStop n (orNone b) : ℤ) - sliceStart n (orNone a) - 1 + 1).toNat else 0) = sliceStop n (orNone b) - sliceStart n (orNone a) := by
    split_ifs <;> omega
  rw [e3]
  refine ⟨_, rfl, ?_, fun j h h0 => ?_⟩
  · rw [List.length_map, List.length_range]
    unfold Arr.cut Arr.slice
    rw [← hn]
  · unfold Arr.cut Arr.slice
    dsimp only
    rw [← hn]
    congr 1
    funext e
    by_cases he : e = d
    · subst he
      simp only [Pi.add_apply, Pi.single_eq_same, Function.update_self, List.getElem_map, List.getElem_range]
      omega
    · simp [he]

/-! ### Examples -/

/-- Ghost cells: two on the left, two on the right, and the cells next to them, of eight. -/
example : (PySlice.mk none (some 2) none).indices 8 = .ok [0, 1] ∧ (PySlice.mk (some (-2)) none none).indices 8 = .ok [6, 7] ∧
    (PySlice.mk (some 2) (some 4) none).indices 8 = .ok [2, 3] ∧ (PySlice.mk (some (-4)) (some (-2)) none).indices 8 = .ok [4, 5] ∧
    (PySlice.mk none none (some (-1))).indices 3 = .ok [2, 1, 0] := by decide +kernel

example : InWindow 8 (-2) 0 6 ∧ ¬ InWindow 8 (-2) 0 5 ∧ InWindow 8 2 4 3 ∧ ¬ InWindow 8 0 (-2) 6 := by
  unfold InWindow
  omega

/-- A state with two passive scalars. -/
example : ∃ hs, HydroState.init ["dye", "salt"] 4 = .ok hs ∧ hs.sel (.str "salt") = .ok (.ix (.row 6)) ∧ hs.map "pepper" = none ∧
    hs.call (.str "salt") .none (.tuple [1, -1]) .none none .none none =
      .ok (.tuple [.sel (.ix (.row 6)), .slice ⟨none, none, none⟩, .slice ⟨some 1, some (-1), none⟩, .slice ⟨none, none, none⟩]) :=
  ⟨_, rfl, by decide +kernel, by decide +kernel, by decide +kernel⟩

end FVHOE
