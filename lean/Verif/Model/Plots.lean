import Mathlib.Algebra.Order.Floor.Ring
import Verif.Model.Viz
import Verif.Model.HydroState

/-!
Model of the rest of `fvhoe/visualization.py`: the data handed to matplotlib by `plot_1d_slice` and
`plot_2d_slice`, the coordinate summary, `plotting_trouble` on the stored arrays, the radial averages;
and the panels of `plot_fields` (solver.py 976-1001).

Simplifications: matplotlib, colour maps, colour norms and contour levels are left out; what is passed
as positions, values and extent is the result. `nan` is `none`. `sqrt` is a parameter. Entries are
numbers of an ordered field.
-/

namespace FVHOE

/-! ### numpy arrays of any dimension -/

/-- An array: its shape and its entries at the index tuples below the shape. -/
structure NArr (α : Type) where
  shape : List ℕ
  get : List ℕ → α

/-- All index tuples below a shape, in C order. -/
def allIndices : List ℕ → List (List ℕ)
  | [] => [[]]
  | n :: ns => (List.range n).flatMap fun i => (allIndices ns).map (i :: ·)

/-- The shape of `a[sel]` for a tuple of integers and full slices; axes beyond the tuple are kept. An
integer out of range or too many indices raise. -/
def ixShape : List ℕ → List IxSel → Except PyErr (List ℕ)
  | ns, [] => .ok ns
  | [], _ :: _ => .error .indexError
  | n :: ns, .all :: r => do
    let l ← ixShape ns r
    return n :: l
  | n :: ns, .at_ i :: r => if i < n then ixShape ns r else .error .indexError

/-- The index into `a` behind an index into `a[sel]`. -/
def ixFill : List IxSel → List ℕ → List ℕ
  | [], l => l
  | .at_ i :: r, l => i :: ixFill r l
  | .all :: r, k :: l => k :: ixFill r l
  | .all :: _, [] => []

/-- `a[sel]`. -/
def NArr.index {α : Type} (a : NArr α) (sel : List IxSel) : Except PyErr (NArr α) := do
  let s ← ixShape a.shape sel
  return ⟨s, fun l => a.get (ixFill sel l)⟩

/-- `a[v]` for an index or an index array on the first axis. -/
def NArr.rows {α : Type} (a : NArr α) : VarIx → Except PyErr (NArr α)
  | .row i => a.index [.at_ i]
  | .rows l =>
    match a.shape with
    | [] => .error .indexError
    | n :: ns =>
      if ∀ i ∈ l, i < n then
        .ok ⟨l.length :: ns, fun k => match k with | [] => a.get [] | k :: r => a.get (l.getD k 0 :: r)⟩
      else .error .indexError

/-- `np.rot90(a, 1)`: `out[r, c] = a[c, m - 1 - r]` for `a` of shape `(n, m, …)`; less than two axes
raise. -/
def NArr.rot90 {α : Type} (a : NArr α) : Except PyErr (NArr α) :=
  match a.shape with
  | n :: m :: rest => .ok ⟨m :: n :: rest, fun l =>
      match l with | r :: c :: l => a.get (c :: (m - 1 - r) :: l) | l => a.get l⟩
  | _ => .error .valueError

/-- Broadcasting of two shapes, last axis first. -/
def bshapeRev : List ℕ → List ℕ → Except PyErr (List ℕ)
  | [], l => .ok l
  | l, [] => .ok l
  | a :: as, b :: bs => do
    let l ← bshapeRev as bs
    if a = b then return a :: l
    else if a = 1 then return b :: l
    else if b = 1 then return a :: l
    else .error .valueError

/-- The index, last axis first, that a broadcast array of reversed shape `s` is read at. -/
def bfillRev : List ℕ → List ℕ → List ℕ
  | [], _ => []
  | _, [] => []
  | n :: ns, i :: l => (if n = 1 then 0 else i) :: bfillRev ns l

/-- The entry of `a` at an index of a broadcast shape. -/
def NArr.bget {α : Type} (a : NArr α) (l : List ℕ) : α := a.get (bfillRev a.shape.reverse l.reverse).reverse

/-- An entrywise operation of two arrays. -/
def NArr.zipWith {α β γ : Type} (f : α → β → γ) (a : NArr α) (b : NArr β) : Except PyErr (NArr γ) := do
  let s ← bshapeRev a.shape.reverse b.shape.reverse
  return ⟨s.reverse, fun l => f (a.bget l) (b.bget l)⟩

/-- `np.meshgrid(x, y, indexing="ij")[axis]` and the same for three arrays: the entry at an index is the
coordinate at its component `axis`. -/
def meshAxis {α : Type} (shape : List ℕ) (arr : ℕ → α) (axis : ℕ) : NArr α := ⟨shape, fun l => arr (l.getD axis 0)⟩

variable {K : Type} [Field K] [LinearOrder K]

/-! ### Snapshots and sources -/

/-- A snapshot (solver.py 858-868): times and cell centres, the primitive variables, and the three trouble
arrays when a-posteriori limiting is on. -/
structure PlotSnap (K : Type) where
  coords : SnapCoords K
  w : NArr K
  trouble : Option (NArr K × NArr K × NArr K)

/-- The first argument of the plotting functions: a list of snapshots, a solver with its `hydro_state` and
`snapshots`, or something else. -/
inductive PlotSource (K : Type) where
  | list (l : List (PlotSnap K))
  | solver (hs : HydroState) (l : List (PlotSnap K))
  | other

/-- `solver.hydro_state` (visualization.py 163, 242, 337); lists have no such attribute. -/
def PlotSource.hydroState : PlotSource K → Except PyErr HydroState
  | .solver hs _ => .ok hs
  | _ => .error .attributeError

/-- visualization.py 11-24 `get_snapshot_list`. -/
def PlotSource.snapshots : PlotSource K → Except PyErr (List (PlotSnap K))
  | .list l => .ok l
  | .solver _ l => .ok l
  | .other => .error .valueError

/-- visualization.py 95-105 `get_velocity_magnitude`: rows 1, 2, 3 (hydro.py 37-43). -/
def velocityMagnitude (sqrt : K → K) (w : NArr K) : Except PyErr (NArr K) := do
  let a ← w.rows (.row 1)
  let b ← w.rows (.row 2)
  let c ← w.rows (.row 3)
  return ⟨a.shape, fun l => sqrt (a.get l * a.get l + b.get l * b.get l + c.get l * c.get l)⟩

/-- visualization.py 108-131 `plotting_trouble`. `mode = none` stands for an argument that is not a string,
such as `True`. The three arrays have the same shape. -/
def plottingTroubleN (s : PlotSnap K) (mode : Option String) (tol : K) : Except PyErr (NArr K) :=
  match s.trouble with
  | none => .error .keyError
  | some (tr, nad, pad) =>
    if ∀ l ∈ allIndices tr.shape, (tr.get l > 0 ↔ nad.get l > 0 ∨ pad.get l > 0) then
      if mode = some "all" then
        .ok ⟨tr.shape, fun l => if pad.get l > 0 then 1 else if nad.get l > tol then 1 else 0⟩
      else if mode = some "NAD" then .ok ⟨tr.shape, fun l => if nad.get l > tol then 1 else 0⟩
      else if mode = some "PAD" then .ok ⟨tr.shape, fun l => if pad.get l > 0 then 1 else 0⟩
      else .error .valueError
    else .error .valueError

/-- `snapshots[n]["w"][hs(param)]` (visualization.py 181, 277, 354). -/
def paramRows (hs : HydroState) (s : PlotSnap K) (param : String) : Except PyErr (NArr K) := do
  match ← hs.call (.str param) .none .none .none none .none none with
  | .tuple (.sel (.ix v) :: _) => s.w.rows v
  | _ => .ok s.w

/-! ### Lines -/

/-- visualization.py 134-190 `plot_1d_slice` up to the call of `ax.plot`: the positions and the values. -/
def plot1d (sqrt : K → K) (src : PlotSource K) (param : String) (troubleMode : Option String) (t x y z : Option K)
    (tol : K) : Except PyErr (List K × NArr K) := do
  let hs ← src.hydroState
  let snaps ← src.snapshots
  let (n, i, j, k) ← getIndices (snaps.map PlotSnap.coords) t x y z
  let xs ← show Except PyErr (List K) from
    if x.isNone then do let s ← pyItem snaps n; pure s.coords.x
    else if y.isNone then do let s ← pyItem snaps n; pure s.coords.y
    else if z.isNone then do let s ← pyItem snaps n; pure s.coords.z
    else .error .baseException
  let s ← pyItem snaps n
  let source ← show Except PyErr (NArr K) from
    if param = "trouble" then plottingTroubleN s troubleMode tol
    else if param = "v" then velocityMagnitude sqrt s.w
    else paramRows hs s param
  let ys ← source.index [i, j, k]
  return (xs, ys)

/-! ### Images -/

/-- The argument `overlay_trouble`. -/
inductive OverlayArg where
  | none
  | bool (b : Bool)
  | str (s : String)
  deriving DecidableEq

/-- `if overlay_trouble:`. -/
def OverlayArg.truthy : OverlayArg → Bool
  | .none => false
  | .bool b => b
  | .str s => s ≠ ""

/-- As the mode of `plotting_trouble`. -/
def OverlayArg.mode : OverlayArg → Option String
  | .str s => some s
  | _ => Option.none

/-- What `plot_2d_slice` hands to `ax.imshow` (values, extent) or `ax.contour` (X, Y, values). -/
structure Picture (K : Type) where
  limits : K × K × K × K
  X : NArr K
  Y : NArr K
  values : NArr (Option K)

/-- `a[0]` of a one-dimensional array. -/
def firstOf (l : List K) : Except PyErr K := match l.head? with | some a => .ok a | none => .error .indexError

/-- `a[-1]` of a one-dimensional array. -/
def lastOf (l : List K) : Except PyErr K := match l.getLast? with | some a => .ok a | none => .error .indexError

/-- visualization.py 193-311 `plot_2d_slice` up to the call of `ax.imshow` or `ax.contour`. -/
def plot2d (sqrt : K → K) (src : PlotSource K) (param : String) (t x y z : Option K) (overlay : OverlayArg) (tol : K) :
    Except PyErr (Picture K) := do
  let hs ← src.hydroState
  let snaps ← src.snapshots
  let (n, i, j, k) ← getIndices (snaps.map PlotSnap.coords) t x y z
  let (xs, ys) ← show Except PyErr (List K × List K) from
    if x.isNone && y.isNone then do let s ← pyItem snaps n; pure (s.coords.x, s.coords.y)
    else if y.isNone && z.isNone then do let s ← pyItem snaps n; pure (s.coords.y, s.coords.z)
    else if x.isNone && z.isNone then do let s ← pyItem snaps n; pure (s.coords.x, s.coords.z)
    else .error .baseException
  let limits := (← firstOf xs, ← lastOf xs, ← firstOf ys, ← lastOf ys)
  let s ← pyItem snaps n
  let trouble ← show Except PyErr (Option (NArr K)) from
    if overlay.truthy then do
      let a ← plottingTroubleN s overlay.mode tol
      let a ← a.index [i, j, k]
      pure (some a)
    else pure none
  let source ← show Except PyErr (NArr K) from
    if param = "trouble" ∨ param = "NAD" ∨ param = "PAD" then
      match s.trouble with
      | none => .error .keyError
      | some (tr, nad, pad) => .ok (if param = "trouble" then tr else if param = "NAD" then nad else pad)
    else if param = "v" then velocityMagnitude sqrt s.w
    else paramRows hs s param
  let zs ← source.index [i, j, k]
  let X ← (meshAxis [xs.length, ys.length] (fun a => xs.getD a 0) 0).rot90
  let Y ← (meshAxis [xs.length, ys.length] (fun a => ys.getD a 0) 1).rot90
  let zs ← zs.rot90
  let values ← show Except PyErr (NArr (Option K)) from
    match trouble with
    | none => .ok ⟨zs.shape, fun l => some (zs.get l)⟩
    | some tr => do
      let tr ← tr.rot90
      NArr.zipWith (fun b a => if b > 0 then none else some a) tr zs
  return ⟨limits, X, Y, values⟩

/-! ### The summary -/

/-- One entry of the summary: a point or the first and the last coordinate. -/
inductive Extent (K : Type) where
  | point (x : K)
  | range (a b : K)

/-- visualization.py 84-91, one axis. -/
def extentOf (arr : List K) : IxSel → Except PyErr (Extent K)
  | .at_ i => match arr[i]? with | some x => .ok (.point x) | none => .error .indexError
  | .all => do return .range (← firstOf arr) (← lastOf arr)

/-- visualization.py 66-92 `xyzt_summary`, before formatting. -/
def xyztSummary (snaps : List (SnapCoords K)) (n : ℤ) (i j k : IxSel) :
    Except PyErr (K × Extent K × Extent K × Extent K) := do
  let s ← pyItem snaps n
  return (s.t, ← extentOf s.x i, ← extentOf s.y j, ← extentOf s.z k)

/-! ### Radial averages -/

/-- The argument `radii`: the values, and whether the array has an integer type. -/
structure Radii (K : Type) where
  values : List K
  isInt : Bool

/-- `float -> int` conversion on assignment: towards zero. -/
def truncate [FloorRing K] (x : K) : K := if 0 ≤ x then (⌊x⌋ : K) else (⌈x⌉ : K)

/-- Assignment of a float to an entry of `np.empty_like(radii[:-1])` (visualization.py 355-356): integer
arrays truncate and refuse nan. -/
def storeLike [FloorRing K] (isInt : Bool) : Option K → Except PyErr (Option K)
  | some x => .ok (some (if isInt then truncate x else x))
  | none => if isInt then .error .valueError else .ok none

/-- `np.sum`. -/
def NArr.sum (a : NArr K) : K := ((allIndices a.shape).map a.get).sum

/-- visualization.py 359-363: the sums of one bin `little_r < R <= big_r`. -/
def circularBin [FloorRing K] (isInt : Bool) (R data : NArr K) (little big : K) :
    Except PyErr (Option K × Option K) := do
  let count : K := NArr.sum ⟨R.shape, fun l => if little < R.get l ∧ R.get l ≤ big then 1 else 0⟩
  let rSum : K := NArr.sum ⟨R.shape, fun l => if little < R.get l ∧ R.get l ≤ big then R.get l else 0⟩
  let vals ← NArr.zipWith (fun r a => if little < r ∧ r ≤ big then a else 0) R data
  let r ← storeLike isInt (if 0 < count then some (rSum / count) else none)
  let v ← storeLike isInt (if 0 < count then some (vals.sum / count) else none)
  return (v, r)

/-- visualization.py 314-363 `sample_circular_average`. -/
def circularAverage [FloorRing K] (sqrt : K → K) (src : PlotSource K) (param : String) (t : Option K)
    (center : Option (K × K × K)) (radii : Option (Radii K)) :
    Except PyErr (List (Option K) × List (Option K)) := do
  let hs ← src.hydroState
  let snaps ← src.snapshots
  let (n, _) ← getIndices (snaps.map PlotSnap.coords) t none none none
  let s ← pyItem snaps n
  let shape := [s.coords.x.length, s.coords.y.length, s.coords.z.length]
  let c ← show Except PyErr (K × K × K) from
    match center with | some c => Except.ok c | none => Except.error PyErr.typeError
  let R : NArr K := ⟨shape, fun l =>
    let a := s.coords.x.getD (l.getD 0 0) 0 - c.1
    let b := s.coords.y.getD (l.getD 1 0) 0 - c.2.1
    let d := s.coords.z.getD (l.getD 2 0) 0 - c.2.2
    sqrt (a * a + b * b + d * d)⟩
  let data ← show Except PyErr (NArr K) from
    if param = "v" then velocityMagnitude sqrt s.w else paramRows hs s param
  let r ← show Except PyErr (Radii K) from
    match radii with | some r => Except.ok r | none => Except.error PyErr.typeError
  let bins ← (r.values.dropLast.zip r.values.tail).mapM fun e => circularBin r.isInt R data e.1 e.2
  return (bins.map Prod.fst, bins.map Prod.snd)

/-! ### The panels of `plot_fields` -/

/-- solver.py 985: the names shown in two dimensions. -/
def fieldNames : List String := ["rho", "P", "v", "vx", "vy", "vz"]

/-- solver.py 976-998 `plot_fields`: the parameter of each panel, with the indices of its axes. `dims` is the
string of active dimensions (solver.py 262-275). -/
def fieldPanels (ndim : ℕ) (dims : String) : Except PyErr (List ((ℕ × ℕ) × String)) :=
  if ndim = 1 then .ok [((0, 0), "rho"), ((0, 1), "P"), ((0, 2), "v" ++ dims)]
  else if ndim = 2 then
    .ok ((List.range 2).flatMap fun i => (List.range 3).map fun j => ((i, j), fieldNames.getD (i + j) ""))
  else .error .notImplementedError

end FVHOE
