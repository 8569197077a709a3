import Mathlib.Algebra.Order.Field.Basic
import Mathlib.Data.List.Basic
import Verif.Py

/-!
Model of parts of `fvhoe/visualization.py`: nearest-index lookup.
-/

namespace FVHOE

variable {K : Type} [Field K] [LinearOrder K]

/-- The scan of `np.argmin`: `best` is the least entry so far, first found at `at_`; `i` is the index
of the next entry. -/
def argminFrom (best : K) (at_ : ℕ) : ℕ → List K → ℕ
  | _, [] => at_
  | i, x :: xs => if x < best then argminFrom x i (i + 1) xs else argminFrom best at_ (i + 1) xs

/-- `np.argmin` of a one-dimensional array without NaN: the first position of the least entry; an
empty array raises. -/
def argmin : List K → Except PyErr ℕ
  | [] => .error .valueError
  | x :: xs => .ok (argminFrom x 0 1 xs)

/-- The entries "t", "x", "y", "z" of a snapshot (solver.py 859-865): the time and the 1-d arrays of
cell centres. -/
structure SnapCoords (K : Type) where
  t : K
  x : List K
  y : List K
  z : List K

/-- A Python index or slice: `slice(None)` or an integer. -/
inductive IxSel where
  | all
  | at_ (i : ℕ)
  deriving DecidableEq, Repr

/-- visualization.py 49-52, 53-56, 57-60: one of the three blocks `if x is None: … else: …`. -/
def nearestOrAll (arr : List K) : Option K → Except PyErr IxSel
  | none => .ok .all
  | some x => do
    let i ← argmin (arr.map fun a => |a - x|)
    return .at_ i

/-- `snapshots[n]` for an `n` that is -1 or a non-negative index; out of range raises. -/
def pyItem {α : Type} (l : List α) (n : ℤ) : Except PyErr α :=
  match (if n < 0 then if -n ≤ l.length then l[(n + l.length).toNat]? else none else l[n.toNat]?) with
  | some a => .ok a
  | none => .error .indexError

/-- visualization.py 49-60: `snapshots[n]` is only evaluated when a coordinate is given. -/
def nearestIn (snapshots : List (SnapCoords K)) (n : ℤ) (arr : SnapCoords K → List K) (x : Option K) :
    Except PyErr IxSel :=
  match x with
  | none => .ok .all
  | some x => do
    let s ← pyItem snapshots n
    nearestOrAll (arr s) (some x)

/-- visualization.py 27-63 `get_indices_from_coordinates`. -/
def getIndices (snapshots : List (SnapCoords K)) (t x y z : Option K) :
    Except PyErr (ℤ × IxSel × IxSel × IxSel) := do
  let n : ℤ ← match t with
    | none => pure (-1)
    | some t => do
      let n ← argmin (snapshots.map fun s => |s.t - t|)
      pure (n : ℤ)
  let i ← nearestIn snapshots n SnapCoords.x x
  let j ← nearestIn snapshots n SnapCoords.y y
  let k ← nearestIn snapshots n SnapCoords.z z
  return (n, i, j, k)

end FVHOE
