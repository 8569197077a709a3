import Verif.Props.C73

/-!
C74 (documented requests to the plotting functions): several are not honoured.
-/

set_option linter.unusedSectionVars false

namespace FVHOE

variable {K : Type} [Field K] [LinearOrder K] [IsStrictOrderedRing K]

/-! ### Statement of the part that holds -/

/-- `mode` marks a cell: a physical violation, or a numerical one above the tolerance. -/
def Marks (mode : String) (tol nad pad : K) : Prop :=
  (mode ∈ ["all", "PAD"] ∧ 0 < pad) ∨ (mode ∈ ["all", "NAD"] ∧ tol < nad)

/-- The trouble arrays of a snapshot, if they had one entry for each cell. -/
structure PerCell (s : PlotSnap K) (tr nad pad : NArr K) : Prop where
  has : s.trouble = some (tr, nad, pad)
  shape : tr.shape = [(s.axis 0).length, (s.axis 1).length, (s.axis 2).length]
  consistent : ∀ i j k, 0 < tr.get [i, j, k] ↔ 0 < nad.get [i, j, k] ∨ 0 < pad.get [i, j, k]

theorem mem_box {n0 n1 n2 : ℕ} {l : List ℕ} (h : l ∈ allIndices [n0, n1, n2]) : ∃ i j k, l = [i, j, k] := by
  simp [allIndices] at h
  obtain ⟨i, _, j, _, k, _, rfl⟩ := h
  exact ⟨i, j, k, rfl⟩

theorem plottingTrouble_perCell {s : PlotSnap K} {tr nad pad : NArr K} (h : PerCell s tr nad pad) (mode : String)
    (hm : mode ∈ ["all", "NAD", "PAD"]) (tol : K) :
    ∃ A, plottingTroubleN s (some mode) tol = .ok A ∧
      A.shape = [(s.axis 0).length, (s.axis 1).length, (s.axis 2).length] ∧
      ∀ i, (0 < A.get i ↔ Marks mode tol (nad.get i) (pad.get i)) := by
  have hc : ∀ l ∈ allIndices tr.shape, (tr.get l > 0 ↔ nad.get l > 0 ∨ pad.get l > 0) := by
    intro l hl
    rw [h.shape] at hl
    obtain ⟨i, j, k, rfl⟩ := mem_box hl
    exact h.consistent i j k
  unfold plottingTroubleN
  simp only [h.has, if_pos hc]
  simp only [List.mem_cons, List.not_mem_nil, or_false] at hm
  rcases hm with rfl | rfl | rfl
  · rw [if_pos rfl]
    refine ⟨_, rfl, h.shape, fun i => ?_⟩
    by_cases h1 : 0 < pad.get i <;> by_cases h2 : tol < nad.get i <;> simp [Marks, h1, h2]
  · rw [if_neg (by decide), if_pos rfl]
    refine ⟨_, rfl, h.shape, fun i => ?_⟩
    by_cases h2 : tol < nad.get i <;> simp [Marks, h2]
  · rw [if_neg (by decide), if_neg (by decide), if_pos rfl]
    refine ⟨_, rfl, h.shape, fun i => ?_⟩
    by_cases h1 : 0 < pad.get i <;> simp [Marks, h1]

theorem zip_plane {α β γ : Type} (F : α → β → γ) (n0 n1 : ℕ) (A : NArr α) (B : NArr β) (hA : A.shape = [n0, n1])
    (hB : B.shape = [n0, n1]) :
    ∃ C : NArr γ, NArr.zipWith F A B = .ok C ∧ C.shape = [n0, n1] ∧
      ∀ i j, i < n0 → j < n1 → C.get [i, j] = F (A.get [i, j]) (B.get [i, j]) := by
  have one : ∀ n i : ℕ, i < n → (if n = 1 then 0 else i) = i := by intro n i h; split_ifs <;> omega
  refine ⟨⟨[n0, n1], fun l => F (A.bget l) (B.bget l)⟩, ?_, rfl, ?_⟩
  · simp [NArr.zipWith, hA, hB, bshapeRev, bind, Except.bind, pure, Except.pure]
  · intro i j hi hj
    simp [NArr.bget, hA, hB, bfillRev, one _ _ hi, one _ _ hj]

/-- **C74, what holds** If the trouble arrays of the snapshots had one entry for each cell, the overlay of an
image of a row or of the speed would blank exactly the marked cells and leave the others as without it.
Missing from the full statement: in the code the arrays have another axis (see `C74_overlay_violated`), and the
other documented requests below. -/
theorem C74_partial (sqrt : K → K) (passives : List String) (hd : passives.Nodup)
    (hr : ∀ s ∈ passives, s ∉ reservedNames) (hs : HydroState) (hhs : HydroState.init passives 4 = .ok hs)
    (snaps : List (PlotSnap K)) (hne : snaps ≠ []) (hg : ∀ s ∈ snaps, s.Good (5 + passives.length))
    (tr nad pad : PlotSnap K → NArr K) (htr : ∀ s ∈ snaps, PerCell s (tr s) (nad s) (pad s))
    (param : String) (hp : param ∉ ["trouble", "NAD", "PAD"]) (t : Option K) (tol : K)
    (mode : String) (hm : mode ∈ ["all", "NAD", "PAD"])
    (d a b : Fin 3) (hab : a < b) (had : a ≠ d) (hbd : b ≠ d) (at_ : Fin 3 → Option K) (x : K)
    (hgiven : ∀ e, at_ e = if e = d then some x else none) :
    ∃ s i, IsChosen snaps t s ∧ IsFirstNearest (s.axis d) x (i d) ∧
      ∀ f, IsField sqrt passives s param f → ∃ pic,
        plot2d sqrt (.solver hs snaps) param t (at_ 0) (at_ 1) (at_ 2) (.str mode) tol = .ok pic ∧
        pic.values.shape = [(s.axis b).length, (s.axis a).length] ∧
        ∀ r q c, r < (s.axis b).length → q < (s.axis a).length →
          c = Function.update (Function.update i a q) b ((s.axis b).length - 1 - r) →
          (Marks mode tol ((nad s).get [c 0, c 1, c 2]) ((pad s).get [c 0, c 1, c 2]) → pic.values.get [r, q] = none) ∧
          (¬ Marks mode tol ((nad s).get [c 0, c 1, c 2]) ((pad s).get [c 0, c 1, c 2]) →
            pic.values.get [r, q] = some (f c)) := by
  obtain ⟨n, i, j, k, s, e, hitem, hmem, hch, hx, hy, hz⟩ := getIndices_chosen snaps hne hg t (at_ 0) (at_ 1) (at_ 2)
  have htruthy : (OverlayArg.str mode).truthy = true := by
    simp only [List.mem_cons, List.not_mem_nil, or_false] at hm
    rcases hm with rfl | rfl | rfl <;> rfl
  have hmode : (OverlayArg.str mode).mode = some mode := rfl
  have hp1 : ¬ (param = "trouble" ∨ param = "NAD" ∨ param = "PAD") := by simpa using hp
  refine ⟨s, ![i.ix, j.ix, k.ix], hch, ?_, ?_⟩
  · have hc := hgiven d
    rw [if_pos rfl] at hc
    match d with
    | 0 => rw [hc] at hx; exact hx.some.2.2
    | 1 => rw [hc] at hy; exact hy.some.2.2
    | 2 => rw [hc] at hz; exact hz.some.2.2
  intro f hf
  obtain ⟨A, hA, hshape, hget⟩ := field_array sqrt passives hd hr hs hhs s (hg s hmem) param f hf
  obtain ⟨T, hT, hTshape, hTget⟩ := plottingTrouble_perCell (htr s hmem) mode hm tol
  obtain ⟨fa, la, efa, ela, hea⟩ := firstOf_ends (s.axis a) ((hg s hmem).cells a)
  obtain ⟨fb, lb, efb, elb, heb⟩ := firstOf_ends (s.axis b) ((hg s hmem).cells b)
  simp only [plot2d, PlotSource.hydroState, PlotSource.snapshots, bind, Except.bind, pure, Except.pure, e, hitem,
    if_neg hp1, hA, NArr.index, hshape, htruthy, if_true, hmode, hT, hTshape]
  have c0 := hgiven 0
  have c1 := hgiven 1
  have c2 := hgiven 2
  have cases3 : (d = 2 ∧ a = 0 ∧ b = 1) ∨ (d = 0 ∧ a = 1 ∧ b = 2) ∨ (d = 1 ∧ a = 0 ∧ b = 2) := by
    clear hgiven efa ela hea efb elb heb c0 c1 c2
    revert d a b; decide
  have fin : ∀ (E : Except PyErr (Picture K)) (n0 n1 : ℕ) (B C : NArr K) (cell : ℕ → ℕ → Fin 3 → ℕ),
      (∀ D, NArr.zipWith (fun b a => if b > 0 then none else some a) B C = .ok D →
        ∃ pic, E = .ok pic ∧ pic.values = D) →
      B.shape = [n0, n1] → C.shape = [n0, n1] →
      (∀ r q, r < n0 → q < n1 → B.get [r, q] = T.get [cell r q 0, cell r q 1, cell r q 2]) →
      (∀ r q, r < n0 → q < n1 → C.get [r, q] = A.get [cell r q 0, cell r q 1, cell r q 2]) →
      ∃ pic : Picture K, E = .ok pic ∧ pic.values.shape = [n0, n1] ∧
        ∀ r q c, r < n0 → q < n1 → c = cell r q →
          (Marks mode tol ((nad s).get [c 0, c 1, c 2]) ((pad s).get [c 0, c 1, c 2]) → pic.values.get [r, q] = none) ∧
          (¬ Marks mode tol ((nad s).get [c 0, c 1, c 2]) ((pad s).get [c 0, c 1, c 2]) →
            pic.values.get [r, q] = some (f c)) := by
    intro E n0 n1 B C cell hE hB hC hBg hCg
    obtain ⟨D, hD, hDs, hDg⟩ := zip_plane (fun (b a : K) => if b > 0 then none else some a) n0 n1 B C hB hC
    obtain ⟨pic, hpic, rfl⟩ := hE D hD
    refine ⟨pic, hpic, hDs, fun r q c h1 h2 hc => ?_⟩
    subst hc
    rw [hDg r q h1 h2, hBg r q h1 h2, hCg r q h1 h2, hget]
    have := hTget [cell r q 0, cell r q 1, cell r q 2]
    exact ⟨fun h => if_pos (this.2 h), fun h => if_neg fun h' => h (this.1 h')⟩
  rcases cases3 with ⟨rfl, rfl, rfl⟩ | ⟨rfl, rfl, rfl⟩ | ⟨rfl, rfl, rfl⟩
  all_goals
    simp only [Fin.isValue, Fin.reduceEq, if_true, if_false] at c0 c1 c2
    rw [c0] at hx
    rw [c1] at hy
    rw [c2] at hz
  · obtain ⟨hk, lk, _⟩ := hz.some
    rw [hx.none, hy.none, hk, c0, c1]
    have l : k.ix < (s.axis 2).length := lk
    have efa' : firstOf s.coords.x = .ok fa := efa
    have ela' : lastOf s.coords.x = .ok la := ela
    have efb' : firstOf s.coords.y = .ok fb := efb
    have elb' : lastOf s.coords.y = .ok lb := elb
    simp only [Option.isNone_none, Bool.and_self, if_true, efa', ela', efb', elb', Bool.false_eq_true, if_false, ixShape,
      if_pos l, NArr.rot90, meshAxis, bind, Except.bind, pure, Except.pure]
    refine fin _ _ _ _ _ (fun r q => Function.update (Function.update ![IxSel.all.ix, IxSel.all.ix, (IxSel.at_ k.ix).ix] 0 q) 1 ((s.axis 1).length - 1 - r))
      (fun D hD => by rw [hD]; exact ⟨_, rfl, rfl⟩) rfl rfl ?_ ?_ <;> intros <;> rfl
  · obtain ⟨hi, li, _⟩ := hx.some
    rw [hy.none, hz.none, hi, c0, c1, c2]
    have l : i.ix < (s.axis 0).length := li
    have efa' : firstOf s.coords.y = .ok fa := efa
    have ela' : lastOf s.coords.y = .ok la := ela
    have efb' : firstOf s.coords.z = .ok fb := efb
    have elb' : lastOf s.coords.z = .ok lb := elb
    simp only [Option.isNone_none, Option.isNone_some, Bool.and_self, Bool.false_and, if_true, efa', ela', efb', elb',
      Bool.false_eq_true, if_false, ixShape, if_pos l, NArr.rot90, meshAxis, bind, Except.bind, pure, Except.pure]
    refine fin _ _ _ _ _ (fun r q => Function.update (Function.update ![(IxSel.at_ i.ix).ix, IxSel.all.ix, IxSel.all.ix] 1 q) 2 ((s.axis 2).length - 1 - r))
      (fun D hD => by rw [hD]; exact ⟨_, rfl, rfl⟩) rfl rfl ?_ ?_ <;> intros <;> rfl
  · obtain ⟨hj, lj, _⟩ := hy.some
    rw [hx.none, hz.none, hj, c0, c1, c2]
    have l : j.ix < (s.axis 1).length := lj
    have efa' : firstOf s.coords.x = .ok fa := efa
    have ela' : lastOf s.coords.x = .ok la := ela
    have efb' : firstOf s.coords.z = .ok fb := efb
    have elb' : lastOf s.coords.z = .ok lb := elb
    simp only [Option.isNone_none, Option.isNone_some, Bool.and_self, Bool.false_and, Bool.and_false, if_true, efa', ela',
      efb', elb', Bool.false_eq_true, if_false, ixShape, if_pos l, NArr.rot90, meshAxis, bind, Except.bind, pure,
      Except.pure]
    refine fin _ _ _ _ _ (fun r q => Function.update (Function.update ![IxSel.all.ix, (IxSel.at_ j.ix).ix, IxSel.all.ix] 0 q) 2 ((s.axis 2).length - 1 - r))
      (fun D hD => by rw [hD]; exact ⟨_, rfl, rfl⟩) rfl rfl ?_ ?_ <;> intros <;> rfl

/-! ### Violations -/

/-- **C74 violated, lists** A list of snapshots, documented for all three functions, always raises
AttributeError. -/
theorem C74_list_violated [FloorRing K] (sqrt : K → K) (l : List (PlotSnap K)) (param : String) (mode : Option String)
    (t x y z : Option K) (overlay : OverlayArg) (tol : K) (c : Option (K × K × K)) (r : Option (Radii K)) :
    plot1d sqrt (.list l) param mode t x y z tol = .error .attributeError ∧
    plot2d sqrt (.list l) param t x y z overlay tol = .error .attributeError ∧
    circularAverage sqrt (.list l) param t c r = .error .attributeError :=
  ⟨rfl, rfl, rfl⟩

/-- The number of full slices. -/
def IxSel.free : IxSel → ℕ
  | .all => 1
  | .at_ _ => 0

theorem ixShape_length : ∀ (ns : List ℕ) (sel : List IxSel) (out : List ℕ), ixShape ns sel = .ok out →
    out.length + sel.length = ns.length + (sel.map IxSel.free).sum
  | ns, [], out, h => by simp only [ixShape] at h; cases h; simp
  | [], _ :: _, out, h => by simp only [ixShape] at h; cases h
  | n :: ns, .all :: r, out, h => by
    simp only [ixShape, bind, Except.bind, pure, Except.pure] at h
    cases hl : ixShape ns r with
    | error e => rw [hl] at h; cases h
    | ok l =>
      rw [hl] at h
      cases h
      have := ixShape_length ns r l hl
      simp only [List.length_cons, List.map_cons, List.sum_cons, IxSel.free]
      omega
  | n :: ns, .at_ i :: r, out, h => by
    simp only [ixShape] at h
    split_ifs at h
    have := ixShape_length ns r out h
    simp only [List.length_cons, List.map_cons, List.sum_cons, IxSel.free]
    omega

theorem bindOk {α β : Type} {a : Except PyErr α} {f : α → Except PyErr β} {b : β} (h : (a >>= f) = .ok b) :
    ∃ x, a = .ok x ∧ f x = .ok b := by
  cases a with
  | error e => cases h
  | ok x => exact ⟨x, rfl, h⟩

theorem nearestIn_free {snaps : List (SnapCoords K)} {n : ℤ} {arr : SnapCoords K → List K} {x : Option K} {i : IxSel}
    (h : nearestIn snaps n arr x = .ok i) : i.free = if x = none then 1 else 0 := by
  cases x with
  | none => simp only [nearestIn] at h; cases h; rfl
  | some x =>
    unfold nearestIn at h
    obtain ⟨s, _, h⟩ := bindOk h
    unfold nearestOrAll at h
    obtain ⟨k, _, h⟩ := bindOk h
    cases h
    rfl

theorem getIndices_free {snaps : List (SnapCoords K)} {t x y z : Option K} {o : ℤ × IxSel × IxSel × IxSel}
    (h : getIndices snaps t x y z = .ok o) :
    o.2.1.free = (if x = none then 1 else 0) ∧ o.2.2.1.free = (if y = none then 1 else 0) ∧
      o.2.2.2.free = (if z = none then 1 else 0) := by
  have : ∃ n, (do
      let i ← nearestIn snaps n SnapCoords.x x
      let j ← nearestIn snaps n SnapCoords.y y
      let k ← nearestIn snaps n SnapCoords.z z
      pure (n, i, j, k) : Except PyErr (ℤ × IxSel × IxSel × IxSel)) = .ok o := by
    cases t with
    | none => exact ⟨-1, h⟩
    | some t =>
      unfold getIndices at h
      obtain ⟨n, _, h⟩ := bindOk h
      exact ⟨n, h⟩
  obtain ⟨n, h⟩ := this
  obtain ⟨i, hi, h⟩ := bindOk h
  obtain ⟨j, hj, h⟩ := bindOk h
  obtain ⟨k, hk, h⟩ := bindOk h
  cases h
  exact ⟨nearestIn_free hi, nearestIn_free hj, nearestIn_free hk⟩

theorem index_length {α : Type} {A B : NArr α} {i j k : IxSel} (h : A.index [i, j, k] = .ok B) :
    B.shape.length + 3 = A.shape.length + (i.free + j.free + k.free) := by
  unfold NArr.index at h
  obtain ⟨l, hl, h⟩ := bindOk h
  cases h
  have := ixShape_length _ _ _ hl
  simpa [Nat.add_assoc] using this

/-- The trouble arrays as the solver stores them (solver.py 413-415): five rows for the cells. -/
def StoredTrouble (s : PlotSnap K) : Prop :=
  ∀ tr nad pad, s.trouble = some (tr, nad, pad) → tr.shape.length = 4 ∧ nad.shape.length = 4 ∧ pad.shape.length = 4

theorem plottingTrouble_length {s : PlotSnap K} (h : StoredTrouble s) {mode : Option String} {tol : K} {A : NArr K}
    (hA : plottingTroubleN s mode tol = .ok A) : A.shape.length = 4 := by
  unfold plottingTroubleN at hA
  cases hs : s.trouble with
  | none => rw [hs] at hA; cases hA
  | some T =>
    obtain ⟨tr, nad, pad⟩ := T
    rw [hs] at hA
    have := (h tr nad pad hs).1
    dsimp only at hA
    split_ifs at hA <;> cases hA <;> exact this

theorem pyItem_mem {α : Type} {l : List α} {n : ℤ} {a : α} (h : pyItem l n = .ok a) : a ∈ l := by
  unfold pyItem at h
  split_ifs at h with h1 h2
  · cases hl : l[(n + l.length).toNat]? with
    | none => rw [hl] at h; cases h
    | some b => rw [hl] at h; cases h; exact List.mem_of_getElem? hl
  · cases hl : l[n.toNat]? with
    | none => rw [hl] at h; cases h
    | some b => rw [hl] at h; cases h; exact List.mem_of_getElem? hl

/-- The number of omitted coordinates. -/
def omitted (x y z : Option K) : ℕ := (if x = none then 1 else 0) + (if y = none then 1 else 0) + (if z = none then 1 else 0)

/-- **C74 violated, lines of trouble** With the trouble arrays as stored, a line plot of `"trouble"` never
hands over one value for each position: with exactly one coordinate omitted, the values have two axes. -/
theorem C74_trouble_line_violated (sqrt : K → K) (src : PlotSource K) (snaps : List (PlotSnap K))
    (hsrc : src.snapshots = .ok snaps) (hst : ∀ s ∈ snaps, StoredTrouble s) (mode : Option String) (t x y z : Option K) (tol : K)
    (ho : omitted x y z = 1) (xs : List K) (ys : NArr K)
    (h : plot1d sqrt src "trouble" mode t x y z tol = .ok (xs, ys)) : ys.shape.length = 2 := by
  unfold plot1d at h
  obtain ⟨hs, _, h⟩ := bindOk h
  obtain ⟨l, hl, h⟩ := bindOk h
  rw [hsrc] at hl
  cases hl
  obtain ⟨⟨n, i, j, k⟩, hi, h⟩ := bindOk h
  obtain ⟨_, _, h⟩ := bindOk h
  obtain ⟨s, hitem, h⟩ := bindOk h
  obtain ⟨A, hA, h⟩ := bindOk h
  obtain ⟨B, hB, h⟩ := bindOk h
  cases h
  rw [if_pos rfl] at hA
  have h1 := plottingTrouble_length (hst s (pyItem_mem hitem)) hA
  have h2 := index_length hB
  obtain ⟨e1, e2, e3⟩ := getIndices_free hi
  dsimp only at e1 e2 e3
  unfold omitted at ho
  omega

theorem rot90_length {α : Type} {A B : NArr α} (h : A.rot90 = .ok B) : B.shape.length = A.shape.length := by
  unfold NArr.rot90 at h
  split at h
  · rename_i n m rest hs
    cases h
    rw [hs]
    rfl
  · cases h

theorem bshapeRev_length : ∀ (a b c : List ℕ), bshapeRev a b = .ok c → c.length = max a.length b.length
  | [], l, c, h => by simp only [bshapeRev] at h; cases h; simp
  | a :: as, [], c, h => by simp only [bshapeRev] at h; cases h; simp
  | a :: as, b :: bs, c, h => by
    simp only [bshapeRev] at h
    obtain ⟨l, hl, h⟩ := bindOk h
    have := bshapeRev_length as bs l hl
    split_ifs at h <;> cases h <;> simp only [List.length_cons] <;> omega

theorem zipWith_length {α β γ : Type} {F : α → β → γ} {A : NArr α} {B : NArr β} {C : NArr γ}
    (h : NArr.zipWith F A B = .ok C) : C.shape.length = max A.shape.length B.shape.length := by
  unfold NArr.zipWith at h
  obtain ⟨l, hl, h⟩ := bindOk h
  cases h
  have := bshapeRev_length _ _ _ hl
  simpa using this

/-- **C74 violated, images of trouble** With the trouble arrays as stored and exactly one coordinate given, the
images of `"trouble"`, `"NAD"`, `"PAD"` and every image with an overlay have three axes instead of two. -/
theorem C74_overlay_violated (sqrt : K → K) (src : PlotSource K) (snaps : List (PlotSnap K))
    (hsrc : src.snapshots = .ok snaps) (hst : ∀ s ∈ snaps, StoredTrouble s)
    (param : String) (t x y z : Option K) (overlay : OverlayArg) (tol : K) (ho : omitted x y z = 2)
    (hreq : param ∈ ["trouble", "NAD", "PAD"] ∨ overlay.truthy = true) (pic : Picture K)
    (h : plot2d sqrt src param t x y z overlay tol = .ok pic) : 3 ≤ pic.values.shape.length := by
  unfold plot2d at h
  obtain ⟨hs, _, h⟩ := bindOk h
  obtain ⟨l, hl, h⟩ := bindOk h
  rw [hsrc] at hl
  cases hl
  obtain ⟨⟨n, i, j, k⟩, hi, h⟩ := bindOk h
  obtain ⟨⟨xs, ys⟩, _, h⟩ := bindOk h
  obtain ⟨_, _, h⟩ := bindOk h
  obtain ⟨_, _, h⟩ := bindOk h
  obtain ⟨_, _, h⟩ := bindOk h
  obtain ⟨_, _, h⟩ := bindOk h
  obtain ⟨s, hitem, h⟩ := bindOk h
  obtain ⟨T, hT, h⟩ := bindOk h
  obtain ⟨A, hA, h⟩ := bindOk h
  obtain ⟨B, hB, h⟩ := bindOk h
  obtain ⟨_, _, h⟩ := bindOk h
  obtain ⟨_, _, h⟩ := bindOk h
  obtain ⟨C, hC, h⟩ := bindOk h
  obtain ⟨D, hD, h⟩ := bindOk h
  cases h
  have hstore := hst s (pyItem_mem hitem)
  obtain ⟨e1, e2, e3⟩ := getIndices_free hi
  dsimp only at e1 e2 e3
  unfold omitted at ho
  have hC' := rot90_length hC
  have hB' := index_length hB
  have hover : overlay.truthy = true → 3 ≤ D.shape.length := by
    intro ht
    rw [ht, if_pos rfl] at hT
    obtain ⟨P, hP, hT⟩ := bindOk hT
    obtain ⟨Q, hQ, hT⟩ := bindOk hT
    cases hT
    have h1 := plottingTrouble_length hstore hP
    have h2 := index_length hQ
    dsimp only at hD
    obtain ⟨W, hW, hD⟩ := bindOk hD
    have h3 := rot90_length hW
    have h4 := zipWith_length hD
    show 3 ≤ D.shape.length
    omega
  show 3 ≤ D.shape.length
  rcases hreq with hp | ht
  · by_cases ht : overlay.truthy = true
    · exact hover ht
    · rw [if_neg ht] at hT
      cases hT
      cases hD
      have hp' : param = "trouble" ∨ param = "NAD" ∨ param = "PAD" := by simpa using hp
      rw [if_pos hp'] at hA
      cases hs : s.trouble with
      | none => rw [hs] at hA; cases hA
      | some T =>
        obtain ⟨tr, nad, pad⟩ := T
        rw [hs] at hA
        obtain ⟨h1, h2, h3⟩ := hstore tr nad pad hs
        have hA4 : A.shape.length = 4 := by
          cases hA
          split_ifs
          · exact h1
          · exact h2
          · exact h3
        show 3 ≤ C.shape.length
        omega
  · exact hover ht

/-- **C74 violated, True** `overlay_trouble=True`, documented to mean "all", never gives an image. -/
theorem C74_overlay_true_violated (sqrt : K → K) (src : PlotSource K) (param : String) (t x y z : Option K) (tol : K)
    (pic : Picture K) : plot2d sqrt src param t x y z (.bool true) tol ≠ .ok pic := by
  intro h
  unfold plot2d at h
  obtain ⟨hs, _, h⟩ := bindOk h
  obtain ⟨l, hl, h⟩ := bindOk h
  obtain ⟨⟨n, i, j, k⟩, hi, h⟩ := bindOk h
  obtain ⟨⟨xs, ys⟩, _, h⟩ := bindOk h
  obtain ⟨_, _, h⟩ := bindOk h
  obtain ⟨_, _, h⟩ := bindOk h
  obtain ⟨_, _, h⟩ := bindOk h
  obtain ⟨_, _, h⟩ := bindOk h
  obtain ⟨s, hitem, h⟩ := bindOk h
  obtain ⟨T, hT, h⟩ := bindOk h
  rw [if_pos (show (OverlayArg.bool true).truthy = true from rfl)] at hT
  obtain ⟨P, hP, hT⟩ := bindOk hT
  unfold plottingTroubleN at hP
  simp only [OverlayArg.mode] at hP
  split at hP
  · cases hP
  · simp at hP

/-- **C74 violated, conserved names** The snapshots hold primitive variables, so a plot of the energy is the
plot of the pressure, and a plot of a momentum is the plot of the velocity. -/
theorem C74_conserved_violated (sqrt : K → K) (passives : List String) (hd : passives.Nodup)
    (hr : ∀ s ∈ passives, s ∉ reservedNames) (hs : HydroState) (hhs : HydroState.init passives 4 = .ok hs)
    (snaps : List (PlotSnap K)) (mode : Option String) (t x y z : Option K) (tol : K) (a b : String)
    (hab : (a, b) ∈ [("E", "P"), ("mx", "vx"), ("my", "vy"), ("mz", "vz")]) :
    plot1d sqrt (.solver hs snaps) a mode t x y z tol = plot1d sqrt (.solver hs snaps) b mode t x y z tol := by
  obtain ⟨hs', e', _, _, h1, h1', h2, h2', h3, h3', h4, h4', _⟩ := C48_slots passives 4 hd hr
  rw [hhs] at e'
  cases e'
  have key : hs.sel (.str a) = hs.sel (.str b) ∧ a ≠ "trouble" ∧ a ≠ "v" ∧ b ≠ "trouble" ∧ b ≠ "v" := by
    simp only [List.mem_cons, Prod.mk.injEq, List.not_mem_nil, or_false] at hab
    rcases hab with ⟨rfl, rfl⟩ | ⟨rfl, rfl⟩ | ⟨rfl, rfl⟩ | ⟨rfl, rfl⟩
    · exact ⟨h4'.trans h4.symm, by decide, by decide, by decide, by decide⟩
    · exact ⟨h1'.trans h1.symm, by decide, by decide, by decide, by decide⟩
    · exact ⟨h2'.trans h2.symm, by decide, by decide, by decide, by decide⟩
    · exact ⟨h3'.trans h3.symm, by decide, by decide, by decide, by decide⟩
  obtain ⟨hk, k1, k2, k3, k4⟩ := key
  have hp : ∀ s : PlotSnap K, paramRows hs s a = paramRows hs s b := by
    intro s
    unfold paramRows HydroState.call
    rw [hk]
  simp only [plot1d, PlotSource.hydroState, bind, Except.bind, if_neg k1, if_neg k2, if_neg k3, if_neg k4, hp]

/-- **C74 violated, plot_fields** Of the six fields that `plot_fields` names for two dimensions the panels show
four, two of them twice: `vy` and `vz` are never shown. -/
theorem C74_fields_violated (dims : String) :
    ∃ l, fieldPanels 2 dims = .ok l ∧ l.length = fieldNames.length ∧ (∀ p ∈ l, p.2 ≠ "vy" ∧ p.2 ≠ "vz") ∧
      fieldNames = ["rho", "P", "v", "vx", "vy", "vz"] ∧
      l.map Prod.snd = ["rho", "P", "v", "P", "v", "vx"] := by
  refine ⟨_, rfl, rfl, ?_, rfl, rfl⟩
  decide +kernel

/-- **C74 violated, no coordinates** `plot_fields` of a one-dimensional run without further arguments hands
values with three axes to the line plot. -/
theorem C74_line_without_coordinates_violated (sqrt : K → K) (passives : List String) (hd : passives.Nodup)
    (hr : ∀ s ∈ passives, s ∉ reservedNames) (hs : HydroState) (hhs : HydroState.init passives 4 = .ok hs)
    (snaps : List (PlotSnap K)) (hne : snaps ≠ []) (hg : ∀ s ∈ snaps, s.Good (5 + passives.length))
    (param : String) (hp : param ∈ ["rho", "P", "vx", "vy", "vz"]) (mode : Option String) (t : Option K) (tol : K) :
    ∃ xs ys, plot1d sqrt (.solver hs snaps) param mode t none none none tol = .ok (xs, ys) ∧ ys.shape.length = 3 := by
  obtain ⟨n, i, j, k, s, e, hitem, hmem, hch, hx, hy, hz⟩ := getIndices_chosen snaps hne hg t none none none
  have hrow : ∃ r : ℕ, (rowNames passives)[r]? = some param := by
    simp only [List.mem_cons, List.not_mem_nil, or_false] at hp
    rcases hp with rfl | rfl | rfl | rfl | rfl
    · exact ⟨0, rfl⟩
    · exact ⟨4, rfl⟩
    · exact ⟨1, rfl⟩
    · exact ⟨2, rfl⟩
    · exact ⟨3, rfl⟩
  obtain ⟨r, hrow⟩ := hrow
  have hpt : param ≠ "trouble" := by
    rintro rfl
    revert hp; decide
  obtain ⟨A, hA, hshape, _⟩ := field_array sqrt passives hd hr hs hhs s (hg s hmem) param
    (fun i => s.w.get [r, i 0, i 1, i 2]) (Or.inl ⟨r, hrow, fun _ => rfl⟩)
  simp only [plot1d, PlotSource.hydroState, PlotSource.snapshots, bind, Except.bind, pure, Except.pure, e, hitem,
    if_neg hpt, hA, NArr.index, hshape]
  rw [hx.none, hy.none, hz.none]
  simp only [Option.isNone_none, if_true, ixShape, bind, Except.bind, pure, Except.pure]
  exact ⟨_, _, rfl, rfl⟩

/-- **C74 violated, integer radii** With radii of integer type the averages are rounded towards zero: one cell
with density 7/2 in the shell (0, 1] gives 3. A shell without cells raises. -/
theorem C74_integer_violated : ∃ hs, HydroState.init [] 4 = .ok hs ∧ ∃ snaps : List (PlotSnap ℚ), snaps ≠ [] ∧
    (∀ s ∈ snaps, s.Good (5 + ([] : List String).length)) ∧
    circularAverage fewRoots (.solver hs snaps) "rho" none (some (0, 0, 0)) (some ⟨[0, 1], false⟩) =
      .ok ([some (7 / 2)], [some 1]) ∧
    circularAverage fewRoots (.solver hs snaps) "rho" none (some (0, 0, 0)) (some ⟨[0, 1], true⟩) =
      .ok ([some 3], [some 1]) ∧
    circularAverage fewRoots (.solver hs snaps) "rho" none (some (0, 0, 0)) (some ⟨[0, 1, 2], true⟩) =
      .error .valueError := by
  refine ⟨_, rfl, [⟨⟨0, [1], [0], [0]⟩, ⟨[5, 1, 1, 1], fun _ => 7 / 2⟩, none⟩], by simp, ?_, ?_, ?_, ?_⟩
  · intro s hs
    simp only [List.mem_cons, List.not_mem_nil, or_false] at hs
    subst hs
    refine ⟨rfl, fun d => ?_⟩
    fin_cases d <;> simp [PlotSnap.axis]
  all_goals decide +kernel

/-! ### Examples -/

/-- Trouble in the cell (1, 2, 0) of the box, stored as the solver does. -/
def troubledSnap : PlotSnap ℚ :=
  ⟨⟨0, [1 / 2, 3 / 2], [1 / 2, 3 / 2, 5 / 2], [0]⟩, ⟨[5, 2, 3, 1], fun l => l.getD 0 0 + 10 * l.getD 1 0 + 100 * l.getD 2 0⟩,
    some (⟨[5, 2, 3, 1], fun l => if l.tail = [1, 2, 0] then 1 else 0⟩, ⟨[5, 2, 3, 1], fun l => if l.tail = [1, 2, 0] then 1 else 0⟩,
      ⟨[5, 2, 3, 1], fun _ => 0⟩)⟩

example : StoredTrouble troubledSnap := by
  intro tr nad pad h
  cases h
  exact ⟨rfl, rfl, rfl⟩

/-- At `z = 0` the image of the trouble has shape (2, 5, 1), the overlay on the density raises because that does not
broadcast with the image, and the line along `y` has 3 positions and values of shape (2, 1). -/
example : ∃ hs, HydroState.init [] 4 = .ok hs ∧
    (plot2d id (.solver hs [troubledSnap]) "trouble" none none none (some 0) .none 0).map (fun o => o.values.shape) =
      .ok [2, 5, 1] ∧
    (plot2d id (.solver hs [troubledSnap]) "rho" none none none (some 0) (.str "all") 0).map (fun o => o.values.shape) =
      .error .valueError ∧
    (plot1d id (.solver hs [troubledSnap]) "trouble" (some "all") none (some 0) none (some 0) 0).map (fun o => (o.1.length, o.2.shape)) =
      .ok (3, [2, 1]) := by
  refine ⟨_, rfl, ?_⟩
  decide +kernel

/-- Trouble with one entry for each cell. -/
def perCellSnap : PlotSnap ℚ :=
  { troubledSnap with trouble := some (⟨[2, 3, 1], fun l => if l = [1, 2, 0] then 1 else 0⟩,
      ⟨[2, 3, 1], fun l => if l = [1, 2, 0] then 1 else 0⟩, ⟨[2, 3, 1], fun _ => 0⟩) }

example : PerCell perCellSnap ⟨[2, 3, 1], fun l => if l = [1, 2, 0] then 1 else 0⟩
    ⟨[2, 3, 1], fun l => if l = [1, 2, 0] then 1 else 0⟩ ⟨[2, 3, 1], fun _ => 0⟩ :=
  ⟨rfl, rfl, fun i j k => by simp⟩

end FVHOE
