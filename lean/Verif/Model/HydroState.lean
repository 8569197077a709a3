import Mathlib.Data.List.Nodup
import Mathlib.Data.Int.Notation
import Mathlib.Logic.Function.Basic
import Verif.Py

/-!
Model of `HydroState` (fvhoe/hydro.py 8-139): the variable map and the slicer.
-/

namespace FVHOE

/-- A value of the variable map: an index or an index array. -/
inductive VarIx where
  | row (i : ℕ)
  | rows (l : List ℕ)
  deriving DecidableEq, Repr

/-- A dictionary from names. -/
abbrev VarMap := String → Option VarIx

/-- `map[name] = v`. -/
def VarMap.set (m : VarMap) (name : String) (v : VarIx) : VarMap := Function.update m name (some v)

/-- hydro.py 36-49: the names present for every solver. -/
def baseEntries : List (String × VarIx) :=
  [("rho", .row 0), ("vx", .row 1), ("mx", .row 1), ("vy", .row 2), ("my", .row 2), ("vz", .row 3),
    ("mz", .row 3), ("v", .rows [1, 2, 3]), ("m", .rows [1, 2, 3]), ("P", .row 4), ("E", .row 4),
    ("active_scalars", .rows [0, 1, 2, 3, 4])]

/-- hydro.py 57-58: `for i, scalar in enumerate(self.passive_scalars, start=5)`. -/
def addPassives (m : VarMap) : ℕ → List String → VarMap
  | _, [] => m
  | i, s :: ss => addPassives (m.set s (.row i)) (i + 1) ss

/-- The object after `__init__`. -/
structure HydroState where
  map : VarMap
  passives : List String
  includesPassives : Bool
  nvars : ℕ
  ndim : ℕ

/-- hydro.py 28-67 `HydroState.__init__`. -/
def HydroState.init (passives : List String) (ndim : ℕ) : Except PyErr HydroState :=
  let m : VarMap := baseEntries.foldl (fun m e => m.set e.1 e.2) (fun _ => none)
  if ¬ passives.Nodup then .error .valueError
  else
    if passives ≠ [] then
      let m := addPassives m 5 passives
      let m := m.set "passive_scalars" (.rows (List.range' 5 passives.length))
      .ok ⟨m, passives, true, 5 + passives.length, ndim⟩
    else .ok ⟨m, passives, false, 5 + passives.length, ndim⟩

/-- The argument `var` of `__call__`: `None`, a string, a tuple of strings, or something else. -/
inductive VarArg where
  | none
  | str (s : String)
  | tuple (l : List String)
  | other

/-- First index of the returned tuple: all, one entry of the map, or several. -/
inductive VarSel where
  | all
  | ix (v : VarIx)
  | many (l : List VarIx)
  deriving DecidableEq, Repr

/-- The shape of an entry: none for an index, the length for an index array. -/
def VarIx.size : VarIx → Option ℕ
  | .row _ => none
  | .rows l => some l.length

/-- hydro.py 98-111: selection of the variables. `np.array` of indices mixed with index arrays, or of index arrays of
unequal lengths, raises ValueError (numpy 1.24 and later). -/
def HydroState.sel (hs : HydroState) : VarArg → Except PyErr VarSel
  | .none => .ok .all
  | .str s =>
    match hs.map s with
    | none => .error .valueError
    | some v => .ok (.ix v)
  | .tuple l =>
    if l.all fun s => (hs.map s).isSome then
      if ∀ v ∈ l.filterMap hs.map, ∀ w ∈ l.filterMap hs.map, v.size = w.size then .ok (.many (l.filterMap hs.map))
      else .error .valueError
    else .error .valueError
  | .other => .error .valueError

/-- A slice `slice(start, stop, step)`. -/
structure PySlice where
  start : Option ℤ
  stop : Option ℤ
  step : Option ℤ
  deriving DecidableEq, Repr

/-- The positions along an axis of length `n` that Python's `slice` selects, in order: `range(*slice.indices(n))` of the language
reference, which is also the rule of numpy. -/
def PySlice.indices (s : PySlice) (n : ℕ) : Except PyErr (List ℤ) :=
  let st := s.step.getD 1
  let bound (lo hi a : ℤ) : ℤ := if a < 0 then max (a + n) lo else min a hi
  if st = 0 then .error .valueError
  else if 0 < st then
    let start := (s.start.map (bound 0 n)).getD 0
    let stop := (s.stop.map (bound 0 n)).getD n
    .ok ((List.range (if start < stop then ((stop - start - 1) / st + 1).toNat else 0)).map fun k : ℕ => start + k * st)
  else
    let start := (s.start.map (bound (-1) (n - 1))).getD (n - 1)
    let stop := (s.stop.map (bound (-1) (n - 1))).getD (-1)
    .ok ((List.range (if stop < start then ((start - stop - 1) / (-st) + 1).toNat else 0)).map fun k : ℕ => start + k * st)

/-- An entry of the list `slices`: a slice, or what the variable map gives. -/
inductive SliceItem where
  | slice (s : PySlice)
  | sel (v : VarSel)
  deriving DecidableEq, Repr

/-- `l[i] = a`: negative indices count from the end, others than those of entries raise IndexError. -/
def pySetItem {α : Type} (l : List α) (i : ℤ) (a : α) : Except PyErr (List α) :=
  if 0 ≤ i ∧ i < l.length then .ok (l.set i.toNat a)
  else if i < 0 ∧ -i ≤ l.length then .ok (l.set (i + l.length).toNat a)
  else .error .indexError

/-- An argument x, y, z or cut: `None`, a tuple of integers, or something else. -/
inductive CutArg where
  | none
  | tuple (l : List ℤ)
  | other

/-- hydro.py 113-134, one round of the loop: axis `i` (`none` is the Python `None`, which cannot be
compared with `ndim`), `stepHere` is `step if i == axis else None`. -/
def cutAxis (ndim : ℕ) (slices : List SliceItem) (i : Option ℤ) (arg : CutArg) (stepHere : Option ℤ) :
    Except PyErr (List SliceItem) :=
  match arg with
  | .none => .ok slices
  | _ =>
    match i with
    | none => .error .typeError
    | some i =>
      if (ndim : ℤ) ≤ i then .error .valueError
      else
        match arg with
        | .tuple [a, b] =>
          pySetItem slices i (.slice ⟨if a = 0 then none else some a, if b = 0 then none else some b, stepHere⟩)
        | _ => .error .valueError

/-- What `__call__` returns: the only entry of a list of one entry, else all as a tuple. -/
inductive SlicerOut where
  | one (s : SliceItem)
  | tuple (l : List SliceItem)
  deriving DecidableEq, Repr

/-- hydro.py 72-139 `__call__`. The cache (72) is in `Model/Cache.lean`; the arguments are those that can be its
keys. -/
def HydroState.call (hs : HydroState) (var : VarArg) (x y z : CutArg) (axis : Option ℤ) (cut : CutArg)
    (step : Option ℤ) : Except PyErr SlicerOut := do
  let slices := List.replicate hs.ndim (SliceItem.slice ⟨none, none, none⟩)
  let v ← hs.sel var
  let slices ← match v with
    | .all => .ok slices
    | v => pySetItem slices 0 (.sel v)
  let at_ (i : ℤ) : Option ℤ := if axis = some i then step else none
  let slices ← cutAxis hs.ndim slices (some 1) x (at_ 1)
  let slices ← cutAxis hs.ndim slices (some 2) y (at_ 2)
  let slices ← cutAxis hs.ndim slices (some 3) z (at_ 3)
  let slices ← cutAxis hs.ndim slices axis cut step
  match slices with
  | [s] => return .one s
  | l => return .tuple l

/-- fv.py 87-103 `get_symmetric_slices`. -/
def getSymmetricSlices (ndim : ℕ) (nslices : ℤ) (axis : ℤ) : Except PyErr (List SlicerOut) :=
  if nslices < 1 then .error .valueError
  else do
    let hs ← HydroState.init [] ndim
    (List.range nslices.toNat).mapM fun i : ℕ =>
      hs.call .none .none .none .none (some axis) (.tuple [(i : ℤ), -(nslices - 1) + i]) none

end FVHOE
