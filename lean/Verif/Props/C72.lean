import Mathlib.Tactic.FinCases
import Mathlib.Tactic.Positivity
import Mathlib.Tactic.Linarith
import Mathlib.Tactic.FieldSimp
import Verif.Model.Plots
import Verif.Props.C52_C54
import Verif.Props.C47_C48

/-!
C72 (line plots and images show the field of the nearest snapshot at the right cells and positions).
-/

set_option linter.unusedSectionVars false

namespace FVHOE

variable {K : Type} [Field K] [LinearOrder K] [IsStrictOrderedRing K]

/-! ### Statement -/

/-- The cell centres of a snapshot along an axis. -/
def PlotSnap.axis (s : PlotSnap K) (d : Fin 3) : List K := ![s.coords.x, s.coords.y, s.coords.z] d

/-- A snapshot of `nv` variables: the array of the variables has one entry for every variable and cell, and
there is at least one cell. -/
structure PlotSnap.Good (nv : ℕ) (s : PlotSnap K) : Prop where
  shape : s.w.shape = [nv, (s.axis 0).length, (s.axis 1).length, (s.axis 2).length]
  cells : ∀ d, s.axis d ≠ []

/-- `s` is the last snapshot when no time is given, and otherwise the first of those nearest in time. -/
def IsChosen (snaps : List (PlotSnap K)) (t : Option K) (s : PlotSnap K) : Prop :=
  match t with
  | none => snaps.getLast? = some s
  | some t => ∃ m : ℕ, IsFirstNearest (snaps.map fun s => s.coords.t) t m ∧ snaps[m]? = some s

/-- `f` is the field of that name: one of the rows, or the norm of the velocity. -/
def IsField (sqrt : K → K) (passives : List String) (s : PlotSnap K) (param : String) (f : (Fin 3 → ℕ) → K) : Prop :=
  (∃ r, (rowNames passives)[r]? = some param ∧ ∀ i, f i = s.w.get [r, i 0, i 1, i 2]) ∨
  (param = "v" ∧ ∀ i, f i = sqrt (s.w.get [1, i 0, i 1, i 2] * s.w.get [1, i 0, i 1, i 2] +
    s.w.get [2, i 0, i 1, i 2] * s.w.get [2, i 0, i 1, i 2] + s.w.get [3, i 0, i 1, i 2] * s.w.get [3, i 0, i 1, i 2]))

/-! ### Lemmas -/

/-- What `nearestIn` picks along one axis. -/
def Picks (arr : List K) (x : Option K) (i : IxSel) : Prop :=
  match x with | none => i = .all | some x => ∃ a, i = .at_ a ∧ IsFirstNearest arr x a

theorem IsFirstNearest.lt {l : List K} {x : K} {i : ℕ} (h : IsFirstNearest l x i) : i < l.length := by
  obtain ⟨c, hc, _⟩ := h
  by_contra hn
  rw [List.getElem?_eq_none (by omega)] at hc
  cases hc

theorem pyItem_map {α β : Type} (f : α → β) (l : List α) (n : ℤ) :
    pyItem (l.map f) n = (pyItem l n).map f := by
  unfold pyItem
  simp only [List.length_map, List.getElem?_map]
  split_ifs
  · cases l[(n + l.length).toNat]? <;> rfl
  · rfl
  · cases l[n.toNat]? <;> rfl

theorem getIndices_chosen {nv : ℕ} (snaps : List (PlotSnap K)) (hne : snaps ≠ []) (hg : ∀ s ∈ snaps, s.Good nv)
    (t x y z : Option K) :
    ∃ n i j k s, getIndices (snaps.map PlotSnap.coords) t x y z = .ok (n, i, j, k) ∧ pyItem snaps n = .ok s ∧
      s ∈ snaps ∧ IsChosen snaps t s ∧ Picks s.coords.x x i ∧ Picks s.coords.y y j ∧ Picks s.coords.z z k := by
  obtain ⟨n, i, j, k, c, e, ht, hx, hy, hz⟩ := C52_nearest (snaps.map PlotSnap.coords) (by simpa using hne)
    (by intro c hc; obtain ⟨s, hs, rfl⟩ := List.mem_map.1 hc; exact (hg s hs).cells 0)
    (by intro c hc; obtain ⟨s, hs, rfl⟩ := List.mem_map.1 hc; exact (hg s hs).cells 1)
    (by intro c hc; obtain ⟨s, hs, rfl⟩ := List.mem_map.1 hc; exact (hg s hs).cells 2) t x y z
  cases t with
  | none =>
    obtain ⟨rfl, hl⟩ := ht
    rw [List.getLast?_map, Option.map_eq_some_iff] at hl
    obtain ⟨s, hs, rfl⟩ := hl
    have hl : 0 < snaps.length := List.length_pos_of_ne_nil hne
    refine ⟨-1, i, j, k, s, e, ?_, List.mem_of_getLast? hs, hs, hx, hy, hz⟩
    unfold pyItem
    have e : ((-1 : ℤ) + snaps.length).toNat = snaps.length - 1 := by omega
    rw [if_pos (by norm_num), if_pos (by omega), e, ← List.getLast?_eq_getElem?, hs]
  | some t =>
    obtain ⟨m, rfl, hm, hl⟩ := ht
    rw [List.getElem?_map, Option.map_eq_some_iff] at hl
    obtain ⟨s, hs, rfl⟩ := hl
    refine ⟨m, i, j, k, s, e, ?_, List.mem_of_getElem? hs, ⟨m, ?_, hs⟩, hx, hy, hz⟩
    · unfold pyItem
      rw [if_neg (by omega), Int.toNat_natCast, hs]
    · rw [List.map_map] at hm
      exact hm

/-- The array of a named field. -/
theorem field_array (sqrt : K → K) (passives : List String) (hd : passives.Nodup)
    (hr : ∀ s ∈ passives, s ∉ reservedNames) (hs : HydroState) (hhs : HydroState.init passives 4 = .ok hs)
    (s : PlotSnap K) (hg : s.Good (5 + passives.length)) (param : String) (f : (Fin 3 → ℕ) → K)
    (hf : IsField sqrt passives s param f) :
    ∃ A : NArr K, (if param = "v" then velocityMagnitude sqrt s.w else paramRows hs s param) = .ok A ∧
      A.shape = [(s.axis 0).length, (s.axis 1).length, (s.axis 2).length] ∧
      ∀ i : Fin 3 → ℕ, A.get [i 0, i 1, i 2] = f i := by
  rcases hf with ⟨r, hrow, hf⟩ | ⟨rfl, hf⟩
  · have hlt : r < (rowNames passives).length := by
      by_contra hn
      rw [List.getElem?_eq_none (by omega)] at hrow
      cases hrow
    have hv : param ≠ "v" := by
      rintro rfl
      have := List.mem_of_getElem? hrow
      rcases List.mem_append.1 this with h | h
      · revert h; decide
      · exact hr _ h (by decide)
    obtain ⟨hs', e', _, hb⟩ := C48_bijection passives 4 hd hr
    rw [hhs] at e'
    cases e'
    have hsel := (hb r hlt r).2 rfl
    rw [List.getElem?_eq_getElem hlt] at hrow
    cases hrow
    rw [if_neg hv]
    refine ⟨⟨[(s.axis 0).length, (s.axis 1).length, (s.axis 2).length], fun l => s.w.get (r :: l)⟩, ?_, rfl,
      fun i => (hf i).symm⟩
    have hn : r < 5 + passives.length := by simp [rowNames] at hlt; omega
    have h4 : hs.ndim = 4 := by
      unfold HydroState.init at hhs
      dsimp only at hhs
      split_ifs at hhs <;> cases hhs <;> rfl
    have hcall : hs.call (.str (rowNames passives)[r]) .none .none .none none .none none =
        .ok (.tuple [.sel (.ix (.row r)), .slice ⟨none, none, none⟩, .slice ⟨none, none, none⟩,
          .slice ⟨none, none, none⟩]) := by
      unfold HydroState.call
      rw [hsel, h4]
      rfl
    unfold paramRows
    rw [hcall]
    simp only [bind, Except.bind]
    simp only [NArr.rows, NArr.index, hg.shape, ixShape, if_pos hn, bind, Except.bind, pure, Except.pure, ixFill]
  · rw [if_pos rfl]
    refine ⟨⟨[(s.axis 0).length, (s.axis 1).length, (s.axis 2).length], fun l => sqrt (s.w.get (1 :: l) * s.w.get (1 :: l) +
        s.w.get (2 :: l) * s.w.get (2 :: l) + s.w.get (3 :: l) * s.w.get (3 :: l))⟩, ?_, rfl, fun i => (hf i).symm⟩
    unfold velocityMagnitude
    simp only [NArr.rows, NArr.index, hg.shape, ixShape, if_pos (show 1 < 5 + passives.length by omega),
      if_pos (show 2 < 5 + passives.length by omega), if_pos (show 3 < 5 + passives.length by omega),
      bind, Except.bind, pure, Except.pure, ixFill]
/-- The index behind a selection. -/
def IxSel.ix : IxSel → ℕ
  | .all => 0
  | .at_ i => i

theorem Picks.none {arr : List K} {i : IxSel} (h : Picks arr none i) : i = .all := h

theorem Picks.some {arr : List K} {x : K} {i : IxSel} (h : Picks arr (some x) i) :
    i = .at_ i.ix ∧ i.ix < arr.length ∧ IsFirstNearest arr x i.ix := by
  obtain ⟨a, rfl, ha⟩ := h
  exact ⟨rfl, ha.lt, ha⟩

/-! ### C72 -/

/-- **C72, lines** With exactly one coordinate omitted, along axis `d`, the line plot of a row or of the
speed puts the cell centres along `d` of the chosen snapshot against the values of the field in the cells
nearest to the two given coordinates. -/
theorem C72_line (sqrt : K → K) (passives : List String) (hd : passives.Nodup)
    (hr : ∀ s ∈ passives, s ∉ reservedNames) (hs : HydroState) (hhs : HydroState.init passives 4 = .ok hs)
    (snaps : List (PlotSnap K)) (hne : snaps ≠ []) (hg : ∀ s ∈ snaps, s.Good (5 + passives.length))
    (param : String) (hp : param ≠ "trouble") (mode : Option String) (t : Option K) (tol : K)
    (d : Fin 3) (at_ : Fin 3 → Option K) (hfree : ∀ e, at_ e = none ↔ e = d) :
    ∃ s i, IsChosen snaps t s ∧ (∀ e x, at_ e = some x → IsFirstNearest (s.axis e) x (i e)) ∧
      ∀ f, IsField sqrt passives s param f → ∃ ys,
        plot1d sqrt (.solver hs snaps) param mode t (at_ 0) (at_ 1) (at_ 2) tol = .ok (s.axis d, ys) ∧
        ys.shape = [(s.axis d).length] ∧
        ∀ m, m < (s.axis d).length → ys.get [m] = f (Function.update i d m) := by
  obtain ⟨n, i, j, k, s, e, hitem, hmem, hch, hx, hy, hz⟩ := getIndices_chosen snaps hne hg t (at_ 0) (at_ 1) (at_ 2)
  refine ⟨s, ![i.ix, j.ix, k.ix], hch, ?_, ?_⟩
  · intro c x hc
    match c with
    | 0 => rw [hc] at hx; exact hx.some.2.2
    | 1 => rw [hc] at hy; exact hy.some.2.2
    | 2 => rw [hc] at hz; exact hz.some.2.2
  intro f hf
  obtain ⟨A, hA, hshape, hget⟩ := field_array sqrt passives hd hr hs hhs s (hg s hmem) param f hf
  have some_of : ∀ c, c ≠ d → ∃ x, at_ c = some x := fun c hc =>
    Option.ne_none_iff_exists'.1 fun h => hc ((hfree c).1 h)
  have hn := (hfree d).2 rfl
  simp only [plot1d, PlotSource.hydroState, PlotSource.snapshots, bind, Except.bind, pure, Except.pure, e, hitem,
    if_neg hp, hA, NArr.index, hshape]
  match d with
  | 0 =>
    obtain ⟨y, ey⟩ := some_of 1 (by decide)
    obtain ⟨z, ez⟩ := some_of 2 (by decide)
    rw [hn] at hx
    rw [ey] at hy
    rw [ez] at hz
    obtain ⟨hj, ljy, _⟩ := hy.some
    obtain ⟨hk, lkz, _⟩ := hz.some
    rw [hx.none, hj, hk, hn]
    have l1 : j.ix < (s.axis 1).length := ljy
    have l2 : k.ix < (s.axis 2).length := lkz
    simp only [Option.isNone_none, if_true, ixShape, if_pos l1, if_pos l2, bind, Except.bind, pure, Except.pure]
    refine ⟨_, rfl, ?_⟩
    refine ⟨rfl, fun m hm => ?_⟩
    rw [← hget]
    rfl
  | 1 =>
    obtain ⟨x, ex⟩ := some_of 0 (by decide)
    obtain ⟨z, ez⟩ := some_of 2 (by decide)
    rw [ex] at hx
    rw [hn] at hy
    rw [ez] at hz
    obtain ⟨hi, lix, _⟩ := hx.some
    obtain ⟨hk, lkz, _⟩ := hz.some
    rw [hy.none, hi, hk, hn, ex]
    have l1 : i.ix < (s.axis 0).length := lix
    have l2 : k.ix < (s.axis 2).length := lkz
    simp only [Option.isNone_none, Option.isNone_some, if_true, if_false, Bool.false_eq_true, ixShape, if_pos l1,
      if_pos l2, bind, Except.bind, pure, Except.pure]
    refine ⟨_, rfl, ?_⟩
    refine ⟨rfl, fun m hm => ?_⟩
    rw [← hget]
    rfl
  | 2 =>
    obtain ⟨x, ex⟩ := some_of 0 (by decide)
    obtain ⟨y, ey⟩ := some_of 1 (by decide)
    rw [ex] at hx
    rw [ey] at hy
    rw [hn] at hz
    obtain ⟨hi, lix, _⟩ := hx.some
    obtain ⟨hj, ljy, _⟩ := hy.some
    rw [hz.none, hi, hj, hn, ex, ey]
    have l1 : i.ix < (s.axis 0).length := lix
    have l2 : j.ix < (s.axis 1).length := ljy
    simp only [Option.isNone_none, Option.isNone_some, if_true, if_false, Bool.false_eq_true, ixShape, if_pos l1,
      if_pos l2, bind, Except.bind, pure, Except.pure]
    refine ⟨_, rfl, ?_⟩
    refine ⟨rfl, fun m hm => ?_⟩
    rw [← hget]
    rfl

/-- The first and the last entry. -/
def Ends (l : List K) (a b : K) : Prop := l.head? = some a ∧ l.getLast? = some b

theorem firstOf_ends (l : List K) (h : l ≠ []) : ∃ a b, firstOf l = .ok a ∧ lastOf l = .ok b ∧ Ends l a b := by
  refine ⟨l.head h, l.getLast h, ?_, ?_, List.head?_eq_some_head h, List.getLast?_eq_getLast_of_ne_nil h⟩
  · unfold firstOf; rw [List.head?_eq_some_head h]
  · unfold lastOf; rw [List.getLast?_eq_getLast_of_ne_nil h]

/-- What the summary shows of one axis: the nearest cell centre, or the first and the last. -/
def Shows (arr : List K) (x : Option K) (e : Extent K) : Prop :=
  match x with
  | none => ∃ a b, e = .range a b ∧ Ends arr a b
  | some x => ∃ i c, e = .point c ∧ arr[i]? = some c ∧ IsFirstNearest arr x i

theorem extentOf_shows (arr : List K) (hne : arr ≠ []) (x : Option K) (i : IxSel) (h : Picks arr x i) :
    ∃ e, extentOf arr i = .ok e ∧ Shows arr x e := by
  cases x with
  | none =>
    obtain ⟨a, b, ha, hb, hE⟩ := firstOf_ends arr hne
    rw [h.none]
    refine ⟨.range a b, ?_, a, b, rfl, hE⟩
    simp only [extentOf, ha, hb, bind, Except.bind, pure, Except.pure]
  | some x =>
    obtain ⟨hi, hlt, hn⟩ := h.some
    rw [hi]
    refine ⟨.point (arr[i.ix]'hlt), ?_, i.ix, _, rfl, List.getElem?_eq_getElem hlt, hn⟩
    simp only [extentOf, List.getElem?_eq_getElem hlt]

/-- **C72, summary** The summary printed for the indices of a plot gives the time of the chosen snapshot, the nearest cell
centre along every given axis, and the first and the last cell centre along the others. -/
theorem C72_summary {nv : ℕ} (snaps : List (PlotSnap K)) (hne : snaps ≠ []) (hg : ∀ s ∈ snaps, s.Good nv) (t x y z : Option K) :
    ∃ n i j k s ex ey ez, getIndices (snaps.map PlotSnap.coords) t x y z = .ok (n, i, j, k) ∧ IsChosen snaps t s ∧
      xyztSummary (snaps.map PlotSnap.coords) n i j k = .ok (s.coords.t, ex, ey, ez) ∧
      Shows (s.axis 0) x ex ∧ Shows (s.axis 1) y ey ∧ Shows (s.axis 2) z ez := by
  obtain ⟨n, i, j, k, s, e, hitem, hmem, hch, hx, hy, hz⟩ := getIndices_chosen snaps hne hg t x y z
  obtain ⟨ex, e1, h1⟩ := extentOf_shows _ ((hg s hmem).cells 0) x i hx
  obtain ⟨ey, e2, h2⟩ := extentOf_shows _ ((hg s hmem).cells 1) y j hy
  obtain ⟨ez, e3, h3⟩ := extentOf_shows _ ((hg s hmem).cells 2) z k hz
  refine ⟨n, i, j, k, s, ex, ey, ez, e, hch, ?_, h1, h2, h3⟩
  have e1' : extentOf s.coords.x i = .ok ex := e1
  have e2' : extentOf s.coords.y j = .ok ey := e2
  have e3' : extentOf s.coords.z k = .ok ez := e3
  simp only [xyztSummary, pyItem_map, hitem, Except.map, bind, Except.bind, pure, Except.pure, e1', e2', e3']

/-- **C72, images** With exactly one coordinate given, along axis `d`, and `a < b` the two other axes, the
image of a row or of the speed has one row for each cell along `b` and one column for each cell along
`a`: the entry in row `r` and column `q` is the field of the chosen snapshot in the cell nearest to the given
coordinate, `q`-th along `a` and `r`-th from the top along `b`. The positions handed to the contour plot are
the centres of that cell, and the extent of the image runs between the first and last centres. -/
theorem C72_image (sqrt : K → K) (passives : List String) (hd : passives.Nodup)
    (hr : ∀ s ∈ passives, s ∉ reservedNames) (hs : HydroState) (hhs : HydroState.init passives 4 = .ok hs)
    (snaps : List (PlotSnap K)) (hne : snaps ≠ []) (hg : ∀ s ∈ snaps, s.Good (5 + passives.length))
    (param : String) (hp : param ∉ ["trouble", "NAD", "PAD"]) (t : Option K) (tol : K)
    (overlay : OverlayArg) (ho : overlay = .none ∨ overlay = .bool false)
    (d a b : Fin 3) (hab : a < b) (had : a ≠ d) (hbd : b ≠ d) (at_ : Fin 3 → Option K) (x : K)
    (hgiven : ∀ e, at_ e = if e = d then some x else none) :
    ∃ s i, IsChosen snaps t s ∧ IsFirstNearest (s.axis d) x (i d) ∧
      ∀ f, IsField sqrt passives s param f → ∃ pic,
        plot2d sqrt (.solver hs snaps) param t (at_ 0) (at_ 1) (at_ 2) overlay tol = .ok pic ∧
        Ends (s.axis a) pic.limits.1 pic.limits.2.1 ∧ Ends (s.axis b) pic.limits.2.2.1 pic.limits.2.2.2 ∧
        pic.values.shape = [(s.axis b).length, (s.axis a).length] ∧
        pic.X.shape = pic.values.shape ∧ pic.Y.shape = pic.values.shape ∧
        ∀ r q, r < (s.axis b).length → q < (s.axis a).length →
          pic.values.get [r, q] = some (f (Function.update (Function.update i a q) b ((s.axis b).length - 1 - r))) ∧
          (s.axis a)[q]? = some (pic.X.get [r, q]) ∧
          (s.axis b)[(s.axis b).length - 1 - r]? = some (pic.Y.get [r, q]) := by
  obtain ⟨n, i, j, k, s, e, hitem, hmem, hch, hx, hy, hz⟩ := getIndices_chosen snaps hne hg t (at_ 0) (at_ 1) (at_ 2)
  have htr : overlay.truthy = false := by rcases ho with rfl | rfl <;> rfl
  have hp1 : ¬ (param = "trouble" ∨ param = "NAD" ∨ param = "PAD") := by simpa using hp
  refine ⟨s, ![i.ix, j.ix, k.ix], hch, ?_, ?_⟩
  · have hc := hgiven d
    rw [if_pos rfl] at hc
    match d with
    | 0 => rw [hc] at hx; exact hx.some.2.2
    | 1 => rw [hc] at hy; exact hy.some.2.2
    | 2 => rw [hc] at hz; exact hz.some.2.2
  intro f hf
  obtain ⟨A, hA, hshape, hget⟩ := field_array sqrt passives hd hr hs hhs s (hg s hmem) param f hf
  obtain ⟨fa, la, efa, ela, hea⟩ := firstOf_ends (s.axis a) ((hg s hmem).cells a)
  obtain ⟨fb, lb, efb, elb, heb⟩ := firstOf_ends (s.axis b) ((hg s hmem).cells b)
  have hX : ∀ (l : List K) q, q < l.length → l[q]? = some (l.getD q 0) := fun l q hq => by
    rw [List.getD_eq_getElem?_getD, List.getElem?_eq_getElem hq]; rfl
  simp only [plot2d, PlotSource.hydroState, PlotSource.snapshots, bind, Except.bind, pure, Except.pure, e, hitem,
    if_neg hp1, hA, NArr.index, hshape, htr]
  have c0 := hgiven 0
  have c1 := hgiven 1
  have c2 := hgiven 2
  have cases3 : (d = 2 ∧ a = 0 ∧ b = 1) ∨ (d = 0 ∧ a = 1 ∧ b = 2) ∨ (d = 1 ∧ a = 0 ∧ b = 2) := by
    clear hgiven efa ela hea efb elb heb c0 c1 c2
    revert d a b; decide
  rcases cases3 with ⟨rfl, rfl, rfl⟩ | ⟨rfl, rfl, rfl⟩ | ⟨rfl, rfl, rfl⟩
  all_goals
    simp only [Fin.isValue, Fin.reduceEq, if_true, if_false] at c0 c1 c2
    rw [c0] at hx
    rw [c1] at hy
    rw [c2] at hz
  · obtain ⟨hk, lk, _⟩ := hz.some
    rw [hx.none, hy.none, hk, c0, c1]
    have l : k.ix < (s.axis 2).length := lk
    have efa' : firstOf s.coords.x = .ok fa := efa
    have ela' : lastOf s.coords.x = .ok la := ela
    have efb' : firstOf s.coords.y = .ok fb := efb
    have elb' : lastOf s.coords.y = .ok lb := elb
    simp only [Option.isNone_none, Bool.and_self, if_true, efa', ela', efb', elb', Bool.false_eq_true, if_false, ixShape,
      if_pos l, NArr.rot90, meshAxis, bind, Except.bind, pure, Except.pure]
    refine ⟨_, rfl, ?_⟩
    refine ⟨hea, heb, rfl, rfl, rfl, fun r q hrr hq => ⟨?_, hX _ _ hq, hX _ _ (by omega)⟩⟩
    rw [← hget]
    rfl
  · obtain ⟨hi, li, _⟩ := hx.some
    rw [hy.none, hz.none, hi, c0, c1, c2]
    have l : i.ix < (s.axis 0).length := li
    have efa' : firstOf s.coords.y = .ok fa := efa
    have ela' : lastOf s.coords.y = .ok la := ela
    have efb' : firstOf s.coords.z = .ok fb := efb
    have elb' : lastOf s.coords.z = .ok lb := elb
    simp only [Option.isNone_none, Option.isNone_some, Bool.and_self, Bool.false_and, if_true, efa', ela', efb', elb',
      Bool.false_eq_true, if_false, ixShape, if_pos l, NArr.rot90, meshAxis, bind, Except.bind, pure, Except.pure]
    refine ⟨_, rfl, ?_⟩
    refine ⟨hea, heb, rfl, rfl, rfl, fun r q hrr hq => ⟨?_, hX _ _ hq, hX _ _ (by omega)⟩⟩
    rw [← hget]
    rfl
  · obtain ⟨hj, lj, _⟩ := hy.some
    rw [hx.none, hz.none, hj, c0, c1, c2]
    have l : j.ix < (s.axis 1).length := lj
    have efa' : firstOf s.coords.x = .ok fa := efa
    have ela' : lastOf s.coords.x = .ok la := ela
    have efb' : firstOf s.coords.z = .ok fb := efb
    have elb' : lastOf s.coords.z = .ok lb := elb
    simp only [Option.isNone_none, Option.isNone_some, Bool.and_self, Bool.false_and, Bool.and_false, if_true, efa', ela',
      efb', elb', Bool.false_eq_true, if_false, ixShape, if_pos l, NArr.rot90, meshAxis, bind, Except.bind, pure,
      Except.pure]
    refine ⟨_, rfl, ?_⟩
    refine ⟨hea, heb, rfl, rfl, rfl, fun r q hrr hq => ⟨?_, hX _ _ hq, hX _ _ (by omega)⟩⟩
    rw [← hget]
    rfl

/-- **C72, pixels** On a uniform mesh the middle of the `q`-th of the `n` equal pixels between the first and
the last cell centre, which is where an image of that extent shows its column `q`, lies strictly inside cell
`q`, off its centre by less than half a cell; it is the centre only in the middle of the image. -/
theorem C72_pixels (x0 h : K) (hh : 0 < h) (l : List K)
    (hl : ∀ m (hm : m < l.length), l[m] = x0 + ((m : K) + 1 / 2) * h) (a b : K) (he : Ends l a b)
    (q : ℕ) (hq : q < l.length) (pixel : K) (hpix : pixel = a + ((q : K) + 1 / 2) * ((b - a) / l.length)) :
    x0 + (q : K) * h < pixel ∧ pixel < x0 + ((q : K) + 1) * h ∧
      pixel - l[q] = h * (1 / 2 - ((q : K) + 1 / 2) / l.length) := by
  have hn : 0 < l.length := by omega
  have hne : l ≠ [] := List.ne_nil_of_length_pos hn
  have ea : a = x0 + 1 / 2 * h := by
    have := he.1
    rw [List.head?_eq_getElem?, List.getElem?_eq_getElem hn, hl 0 hn] at this
    simpa using (Option.some.inj this).symm
  have eb : b = x0 + ((l.length : K) - 1 + 1 / 2) * h := by
    have := he.2
    rw [List.getLast?_eq_getElem?, List.getElem?_eq_getElem (by omega), hl _ (by omega)] at this
    rw [← Option.some.inj this, Nat.cast_sub (by omega)]
    simp
  have hN : (0 : K) < l.length := by exact_mod_cast hn
  have hq' : (q : K) + 1 ≤ l.length := by exact_mod_cast hq
  have e : pixel - l[q] = h * (1 / 2 - ((q : K) + 1 / 2) / l.length) := by
    rw [hpix, hl q hq, ea, eb]
    field_simp
    ring
  have e1 : pixel = x0 + ((q : K) + 1 / 2) * h + h * (1 / 2 - ((q : K) + 1 / 2) / l.length) := by
    rw [← e, hl q hq]; ring
  have p1 : 0 < ((q : K) + 1 / 2) / l.length := by positivity
  have p2 : ((q : K) + 1 / 2) / l.length < 1 := by
    rw [div_lt_one hN]; linarith
  refine ⟨?_, ?_, e⟩
  · rw [e1]; nlinarith
  · rw [e1]; nlinarith

/-! ### Examples -/

/-- Two snapshots of a box of 2 × 3 × 1 cells. -/
def plotSnaps : List (PlotSnap ℚ) :=
  [⟨⟨0, [1 / 2, 3 / 2], [1 / 2, 3 / 2, 5 / 2], [0]⟩, ⟨[5, 2, 3, 1], fun l => l.getD 0 0 + 10 * l.getD 1 0 + 100 * l.getD 2 0⟩, none⟩,
    ⟨⟨1, [1 / 2, 3 / 2], [1 / 2, 3 / 2, 5 / 2], [0]⟩, ⟨[5, 2, 3, 1], fun l => 1000 + l.getD 0 0 + 10 * l.getD 1 0 + 100 * l.getD 2 0⟩, none⟩]

theorem plotSnaps_good : ∀ s ∈ plotSnaps, s.Good (5 + ([] : List String).length) := by
  intro s hs
  simp only [plotSnaps, List.mem_cons, List.not_mem_nil, or_false] at hs
  rcases hs with rfl | rfl <;> refine ⟨rfl, fun d => ?_⟩ <;> fin_cases d <;> simp [PlotSnap.axis]

example : ∃ hs, HydroState.init [] 4 = .ok hs ∧ plotSnaps ≠ [] ∧ (∀ s ∈ plotSnaps, s.Good (5 + ([] : List String).length)) ∧
    IsField id [] (plotSnaps.getD 1 ⟨⟨0, [], [], []⟩, ⟨[], fun _ => 0⟩, none⟩) "P" (fun i => 1004 + 10 * i 0 + 100 * i 1) := by
  refine ⟨_, rfl, by decide, plotSnaps_good, Or.inl ⟨4, rfl, fun i => ?_⟩⟩
  simp [plotSnaps]
  ring

/-- The pressure along `y` at `x = 1.4` in the last snapshot. -/
example : ∃ hs, HydroState.init [] 4 = .ok hs ∧
    (plot1d id (.solver hs plotSnaps) "P" none none (some (7 / 5)) none (some 0) 0).map
      (fun o => (o.1, (List.range 3).map fun m => o.2.get [m])) = .ok ([1 / 2, 3 / 2, 5 / 2], [1014, 1114, 1214]) := by
  refine ⟨_, rfl, ?_⟩
  decide +kernel

/-- The image at `z = 0`: rows from the largest `y` down. -/
example : ∃ hs, HydroState.init [] 4 = .ok hs ∧
    (plot2d id (.solver hs plotSnaps) "rho" (some (1 / 4)) none none (some 0) .none 0).map
      (fun o => (o.limits, (List.range 3).map fun r => (List.range 2).map fun q => o.values.get [r, q])) =
        .ok ((1 / 2, 3 / 2, 1 / 2, 5 / 2), [[some 200, some 210], [some 100, some 110], [some 0, some 10]]) := by
  refine ⟨_, rfl, ?_⟩
  decide +kernel

/-- A mesh of two cells: the pixels of the extent [1/2, 3/2] have their middles at 3/4 and 5/4. -/
example : Ends ([1 / 2, 3 / 2] : List ℚ) (1 / 2) (3 / 2) ∧
    ∀ m (hm : m < ([1 / 2, 3 / 2] : List ℚ).length), ([1 / 2, 3 / 2] : List ℚ)[m] = 0 + ((m : ℚ) + 1 / 2) * 1 := by
  refine ⟨⟨rfl, rfl⟩, fun m hm => ?_⟩
  match m, hm with
  | 0, _ => norm_num
  | 1, _ => norm_num

end FVHOE
