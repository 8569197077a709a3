import Mathlib.Algebra.Order.Field.Basic
import Mathlib.Data.Fintype.Basic
import Verif.Model.Arr

/-!
Model of `broadcast_to_troubled_interfaces` and the convex variants (`fvhoe/slope_limiting.py`
247-442).

The one- and two-dimensional arrays of the convex variants keep their unit axes here, so taking the
slice `[0]` along an inactive axis and reshaping back are not visible. `dims` is the list of the
characters of the argument `dims`, "x" being 0. The leading axis of length 1 of the results is the
variable axis.
-/

namespace FVHOE

variable {K : Type} [Field K] [LinearOrder K] {α : Type}

/-- A slice `a:b` for each axis. -/
abbrev Box := Fin 3 → Option ℤ × Option ℤ

/-- The full slice `:` along every axis. -/
def Box.full : Box := fun _ => (none, none)

/-- `A[a0:b0, a1:b1, a2:b2]`. -/
def Arr.box (A : Arr α) (b : Box) : Arr α where
  shape := fun d => sliceStop (A.shape d) (b d).2 - sliceStart (A.shape d) (b d).1
  get := fun j => A.get fun d => j d + sliceStart (A.shape d) (b d).1

/-- `A[a0:b0, a1:b1, a2:b2] = src`. -/
def Arr.setBox (A : Arr α) (b : Box) (src : Arr α) : Except PyErr (Arr α) :=
  let s := fun d => sliceStart (A.shape d) (b d).1
  let e := fun d => sliceStop (A.shape d) (b d).2
  if broadcastsTo src.shape (fun d => e d - s d) then
    .ok ⟨A.shape, fun j =>
      if ∀ d, (s d : ℤ) ≤ j d ∧ j d < e d then src.get (src.bix fun d => j d - s d) else A.get j⟩
  else .error .valueError

/-- `np.zeros` for the faces of direction `d` of cells with the given sizes (slope_limiting.py
269-279). -/
def zeroFaces (K : Type) [Zero K] (n : Fin 3 → ℕ) (d : Fin 3) : Arr K :=
  ⟨fun e => if e = d then n e + 1 else n e, fun _ => 0⟩

/-- A flag as a number. -/
def flag (b : Bool) : K := if b then 1 else 0

/-! ## Simple broadcasting -/

/-- slope_limiting.py 364-380: the faces of direction `d` in simple broadcasting. -/
def simpleFaces (trouble : Arr K) (dims : List (Fin 3)) (d : Fin 3) : Except PyErr (Arr K) :=
  let z := zeroFaces K trouble.shape d
  if d ∈ dims then do
    let a ← z.setSlice d (some 1) none trouble
    let m ← (a.slice d none (some (-1))).zip max trouble
    a.setSlice d none (some (-1)) m
  else .ok z

/-! ## Convex broadcasting -/

/-- The entries that have a neighbour at offset `o` (each component -1, 0 or 1). -/
def dstBox (o : Ix) : Box := fun d =>
  if o d = 1 then (none, some (-1)) else if o d = -1 then (some 1, none) else (none, none)

/-- Those neighbours. -/
def srcBox (o : Ix) : Box := fun d =>
  if o d = 1 then (some 1, none) else if o d = -1 then (none, some (-1)) else (none, none)

/-- `theta[dst] = np.maximum(f(src[shifted by o]), theta[dst])`, as in every assignment of
slope_limiting.py 397-402, 421-436: for instance `theta[:-1] = np.maximum(0.75 * trouble[1:],
theta[:-1])` has offset 1. -/
def maxFrom (f : K → K) (src : Arr K) (o : Ix) (theta : Arr K) : Except PyErr (Arr K) := do
  let m ← ((src.box (srcBox o)).map f).zip max (theta.box (dstBox o))
  theta.setBox (dstBox o) m

/-- `c * x`. -/
def scaleBy (c x : K) : K := c * x

/-- `0.25 * (x > 0)`. -/
def quarterIfPos (x : K) : K := (1 / 4) * flag (decide (x > 0))

/-- The offset of `s` cells along axis `a`. -/
def off (a : Fin 3) (s : ℤ) : Ix := Pi.single a s

/-- slope_limiting.py 394-402: the weights of the cells in one dimension. -/
def convexCells1 (trouble : Arr K) (a : Fin 3) : Except PyErr (Arr K) := do
  let theta ← maxFrom (scaleBy (3 / 4)) trouble (off a 1) trouble
  let theta ← maxFrom (scaleBy (3 / 4)) trouble (off a (-1)) theta
  let theta ← maxFrom quarterIfPos theta (off a 1) theta
  maxFrom quarterIfPos theta (off a (-1)) theta

/-- slope_limiting.py 387-407 `convex_1d_broadcast_to_troubled_interfaces`. -/
def convex1 (trouble : Arr K) (a : Fin 3) : Except PyErr (Arr K) := do
  let theta ← convexCells1 trouble a
  (theta.slice a (some 1) (some (-2))).zip max (theta.slice a (some 2) (some (-1)))

/-- slope_limiting.py 418-436: the weights of the cells in two dimensions, first array axis `a`,
second `b`. -/
def convexCells2 (trouble : Arr K) (a b : Fin 3) : Except PyErr (Arr K) := do
  let theta ← maxFrom (scaleBy (3 / 4)) trouble (off b 1) trouble
  let theta ← maxFrom (scaleBy (3 / 4)) trouble (off b (-1)) theta
  let theta ← maxFrom (scaleBy (3 / 4)) trouble (off a 1) theta
  let theta ← maxFrom (scaleBy (3 / 4)) trouble (off a (-1)) theta
  let theta ← maxFrom (scaleBy (1 / 2)) trouble (off a 1 + off b 1) theta
  let theta ← maxFrom (scaleBy (1 / 2)) trouble (off a 1 + off b (-1)) theta
  let theta ← maxFrom (scaleBy (1 / 2)) trouble (off a (-1) + off b 1) theta
  let theta ← maxFrom (scaleBy (1 / 2)) trouble (off a (-1) + off b (-1)) theta
  let theta ← maxFrom quarterIfPos theta (off b 1) theta
  let theta ← maxFrom quarterIfPos theta (off b (-1)) theta
  let theta ← maxFrom quarterIfPos theta (off a 1) theta
  maxFrom quarterIfPos theta (off a (-1)) theta

/-- slope_limiting.py 410-442 `convex_2d_broadcast_to_troubled_interfaces`. -/
def convex2 (trouble : Arr K) (a b : Fin 3) : Except PyErr (Arr K × Arr K) := do
  let theta ← convexCells2 trouble a b
  let ta := theta.slice b (some 2) (some (-2))
  let fa ← (ta.slice a (some 2) (some (-1))).zip max (ta.slice a (some 1) (some (-2)))
  let tb := theta.slice a (some 2) (some (-2))
  let fb ← (tb.slice b (some 2) (some (-1))).zip max (tb.slice b (some 1) (some (-2)))
  return (fa, fb)

/-- slope_limiting.py 280-295: the array with two extra layers along the active axes. -/
def allocTrouble (trouble : Arr K) (dims : List (Fin 3)) : Except PyErr (Arr K) :=
  Arr.setBox ⟨fun d => if d ∈ dims then trouble.shape d + 4 else 1, fun _ => 0⟩
    (fun d => if d ∈ dims then (some 2, some (-2)) else (none, none)) trouble

/-- `:2` along axis `d` and `2:-2` along the others. -/
def lowBox (d : Fin 3) : Box := fun e => if e = d then (none, some 2) else (some 2, some (-2))

/-- `-2:` along axis `d` and `2:-2` along the others. -/
def highBox (d : Fin 3) : Box := fun e => if e = d then (some (-2), none) else (some 2, some (-2))

/-- What is copied to the low end: `trouble[-2:, :, :]`, `trouble[:, -2:, :]`, and
`trouble[2:-2, 2:-2, -2:]` for z (slope_limiting.py 298, 301, 304). -/
def fromHighBox (d : Fin 3) : Box := fun e =>
  if e = d then (some (-2), none) else if d = 2 then (some 2, some (-2)) else (none, none)

/-- What is copied to the high end (slope_limiting.py 299, 302, 305). -/
def fromLowBox (d : Fin 3) : Box := fun e =>
  if e = d then (none, some 2) else if d = 2 then (some 2, some (-2)) else (none, none)

/-- slope_limiting.py 296-305: the periodic layers of one direction. -/
def wrapTrouble (trouble : Arr K) (dims : List (Fin 3)) (periodic : Fin 3 → Bool) (A : Arr K)
    (d : Fin 3) : Except PyErr (Arr K) :=
  if periodic d = true ∧ d ∈ dims then do
    let B ← A.setBox (lowBox d) (trouble.box (fromHighBox d))
    B.setBox (highBox d) (trouble.box (fromLowBox d))
  else .ok A

/-- slope_limiting.py 306-363: the faces in convex broadcasting from the padded array. With a
character repeated, none, or more than three the code raises or does nothing; those are not
modelled (ValueError). -/
def convexFaces (n : Fin 3 → ℕ) (dims : List (Fin 3)) (A : Arr K) : Except PyErr (Fin 3 → Arr K) :=
  match dims with
  | [a] => do
    let f ← convex1 A a
    let F ← (zeroFaces K n a).assign f
    return fun e => if e = a then F else zeroFaces K n e
  | [a, b] =>
    if a = b then .error .valueError
    else do
      let r ← convex2 A (min a b) (max a b)
      let F ← (zeroFaces K n (min a b)).assign r.1
      let G ← (zeroFaces K n (max a b)).assign r.2
      return fun e => if e = min a b then F else if e = max a b then G else zeroFaces K n e
  | [_, _, _] => .error .notImplementedError
  | _ => .error .valueError

/-- slope_limiting.py 247-384 `broadcast_to_troubled_interfaces`. -/
def broadcastTrouble (K : Type) [Field K] [LinearOrder K] (convex : Bool) (periodic : Fin 3 → Bool)
    (dims : List (Fin 3)) (trouble : Arr Bool) : Except PyErr (Fin 3 → Arr K) :=
  let tr : Arr K := trouble.map flag
  if convex then do
    let A ← allocTrouble tr dims
    let A ← ([0, 1, 2] : List (Fin 3)).foldlM (wrapTrouble tr dims periodic) A
    convexFaces trouble.shape dims A
  else do
    let x ← simpleFaces tr dims 0
    let y ← simpleFaces tr dims 1
    let z ← simpleFaces tr dims 2
    return ![x, y, z]

end FVHOE
