import Mathlib.Algebra.Order.Ring.WithTop
import Mathlib.Data.Prod.Basic
import Verif.Model.FvSweep
import Verif.Model.Hydro

/-!
Model of `fvhoe/smooth_extrema_detection.py` and of `detect_troubled_cells`
(`fvhoe/slope_limiting.py` 87-244).

Exact arithmetic, no NaN. `dims` is the list of the characters of the argument `dims`, "x" being 0.
An array entry is the column of all variables, so what the code does "per variable" is a function of
the row.
-/

namespace FVHOE

variable {K : Type} [Field K] [LinearOrder K] {ι : Type}

/-! ## Smooth extrema -/

/-- fv.py 280-296 `second_order_central_difference` with `h=None`. -/
def centralDifference (u : Arr (ι → K)) (d : Fin 3) : Except PyErr (Arr (ι → K)) :=
  (u.cut d 2 0).zip (fun a b v => (1 / 2) * (a v - b v)) (u.cut d 0 (-2))

/-- smooth_extrema_detection.py 28-31: half the second difference, kept away from zero. -/
def sedCurvature (eps d2U : K) : K :=
  let dv := (1 / 2) * d2U
  if |dv| ≤ eps then (if dv ≥ 0 then eps else -eps) else dv

/-- smooth_extrema_detection.py 34-39: the left detector. -/
def sedLeft (dv vL : K) : K :=
  let a := -(if dv < 0 then (if vL > 0 then vL else 0) else (if vL < 0 then vL else 0)) / dv
  if a < 1 then a else 1

/-- smooth_extrema_detection.py 42-45: the right detector, given the left one. -/
def sedRight (eps dv vR alphaL : K) : K :=
  let a := (if dv > 0 then (if vR > 0 then vR else 0) else (if vR < 0 then vR else 0)) / dv
  let a := if |dv| ≤ eps then 1 else a
  if a < alphaL then a else alphaL

/-- smooth_extrema_detection.py 28-48: the detector of one cell from the first differences of the
cell and its neighbours and the second difference. -/
def sedPoint (eps d2U dUl dUc dUr : K) : K :=
  let dv := sedCurvature eps d2U
  let aL := sedLeft dv (dUl - dUc)
  let aR := sedRight eps dv (dUr - dUc) aL
  min aL aR

/-- smooth_extrema_detection.py 8-50 `compute_1d_smooth_extrema_detector`. -/
def sed1 (eps : K) (u : Arr (ι → K)) (d : Fin 3) : Except PyErr (Arr (ι → K)) := do
  let dU ← centralDifference u d
  let d2U ← centralDifference dU d
  let lc ← (dU.cut d 0 (-2)).zip (fun a b v => (a v, b v)) (dU.cut d 1 (-1))
  let lcr ← lc.zip (fun a b v => (a v, b v)) (dU.cut d 2 0)
  let alpha ← d2U.zip (fun a b v => sedPoint eps (a v) (b v).1.1 (b v).1.2 (b v).2) lcr
  let m ← (alpha.cut d 2 0).zip (fun a b v => min (a v) (b v)) (alpha.cut d 1 (-1))
  m.zip (fun a b v => min (a v) (b v)) (alpha.cut d 0 (-2))

/-- smooth_extrema_detection.py 53-74 `compute_2d_smooth_extrema_detector`. -/
def sed2 (eps : K) (u : Arr (ι → K)) (d1 d2 : Fin 3) : Except PyErr (Arr (ι → K)) := do
  let a1 ← sed1 eps (u.cut d2 3 (-3)) d1
  let a2 ← sed1 eps (u.cut d1 3 (-3)) d2
  a1.zip (fun a b v => min (a v) (b v)) a2

/-- smooth_extrema_detection.py 77-95 `compute_3d_smooth_extrema_detector`. -/
def sed3 (eps : K) (u : Arr (ι → K)) : Except PyErr (Arr (ι → K)) := do
  let axy ← sed2 eps (u.cut 2 3 (-3)) 0 1
  let az ← sed1 eps ((u.cut 0 3 (-3)).cut 1 3 (-3)) 2
  axy.zip (fun a b v => min (a v) (b v)) az

/-- slope_limiting.py 200-214: the detector chosen by the number of characters in `dims`. -/
def smoothExtrema (eps : K) (dims : List (Fin 3)) (u : Arr (ι → K)) : Except PyErr (Arr (ι → K)) :=
  match dims with
  | [d] => sed1 eps u d
  | [d1, d2] => sed2 eps u d1 d2
  | [_, _, _] => sed3 eps u
  | _ => .error .valueError

/-! ## Troubled cells -/

/-- The optional arguments of `detect_troubled_cells`. `nadVars` and the keys of `pad` are names of
single rows; in a bound `none` is an infinite one (-inf below, inf above). -/
structure DetectOpts (K : Type) where
  eps : K
  mode : String
  rangeType : String
  nadVars : Option (List (Var 0))
  pad : List (Var 0 × Option K × Option K)
  sed : Bool
  sedEps : K

/-- The offsets covered by the footprint along one axis (slope_limiting.py 125-138). -/
def footprint (dims : List (Fin 3)) (d : Fin 3) : List ℤ := if d ∈ dims then [-1, 0, 1] else [0]

/-- The entries seen by the filters at `j`. -/
def neighbours (dims : List (Fin 3)) (j : Ix) : List Ix :=
  (footprint dims 0).flatMap fun a => (footprint dims 1).flatMap fun b =>
    (footprint dims 2).map fun c => (![j 0 + a, j 1 + b, j 2 + c] : Ix)

/-- Largest element of a non-empty list. -/
def listMax : List K → K
  | [] => 0
  | x :: xs => xs.foldl max x

/-- Smallest element of a non-empty list. -/
def listMin : List K → K
  | [] => 0
  | x :: xs => xs.foldl min x

/-- An entry with `mode="constant", cval=0` outside the array. -/
def Arr.orZero (u : Arr (ι → K)) (v : ι) (k : Ix) : K := if u.InB k then u.get k v else 0

/-- slope_limiting.py 146-153: `minimum_filter` and `maximum_filter`. -/
def filters (dims : List (Fin 3)) (u : Arr (ι → K)) : Arr (ι → K × K) :=
  ⟨u.shape, fun j v =>
    (listMin ((neighbours dims j).map (u.orZero v)), listMax ((neighbours dims j).map (u.orZero v)))⟩

/-- The slice `3:-3` along the axes in `dims` (slope_limiting.py 126-138). -/
def interior {α : Type} (dims : List (Fin 3)) (A : Arr α) : Arr α :=
  let c (B : Arr α) (d : Fin 3) : Arr α := if d ∈ dims then B.slice d (some 3) (some (-3)) else B
  c (c (c A 0) 1) 2

/-- `np.min` and `np.max` over the spatial axes; raises on an empty array. -/
def globalRange (u : Arr (ι → K)) : Except PyErr (ι → K × K) :=
  if indexList u.shape = [] then .error .valueError
  else .ok fun v => (listMin ((indexList u.shape).map fun j => u.get j v),
    listMax ((indexList u.shape).map fun j => u.get j v))

/-- slope_limiting.py 165-175: the range in the relative test. `b` are the filtered values (minimum,
maximum). -/
def nadRange (o : DetectOpts K) (u : Arr (ι → K)) (b : Arr (ι → K × K)) : Except PyErr (Arr (ι → K)) :=
  if o.mode = "global" then (globalRange u).map fun g => b.map fun _ v => (g v).2 - (g v).1
  else if o.mode = "local" then .ok (b.map fun x v => (x v).2 - (x v).1)
  else .error .valueError

/-- slope_limiting.py 181-191: the bounds in the absolute test. -/
def nadBounds (o : DetectOpts K) (u : Arr (ι → K)) (b : Arr (ι → K × K)) :
    Except PyErr (Arr (ι → K × K)) :=
  if o.mode = "global" then
    (globalRange u).map fun g => b.map fun _ v => ((1 - o.eps) * (g v).1, (1 + o.eps) * (g v).2)
  else if o.mode = "local" then .ok (b.map fun x v => ((1 - o.eps) * (x v).1, (1 + o.eps) * (x v).2))
  else .error .valueError

/-- slope_limiting.py 164-197: the NAD indicator and the flag of every variable. -/
def nadPerVar (o : DetectOpts K) (u : Arr (ι → K)) (cin : Arr (ι → K)) (b : Arr (ι → K × K)) :
    Except PyErr (Arr (ι → K) × Arr (ι → Bool)) :=
  if o.rangeType = "relative" then do
    let range ← nadRange o u b
    let ind ← cin.zip (fun c x v => min (c v - (x v).1) ((x v).2 - c v)) b
    let bad ← ind.zip (fun i r v => decide (i v < -o.eps * r v)) range
    return (ind, bad)
  else if o.rangeType = "absolute" then do
    let bounds ← nadBounds o u b
    let ind ← cin.zip (fun c x v => min (c v - (x v).1) ((x v).2 - c v)) bounds
    return (ind, ind.map fun i v => decide (i v < 0))
  else .error .valueError

/-- slope_limiting.py 199-215: flags are removed where the extremum is smooth. -/
def relaxSmooth (o : DetectOpts K) (dims : List (Fin 3)) (cand : Arr (ι → K)) (bad : Arr (ι → Bool)) :
    Except PyErr (Arr (ι → Bool)) :=
  if o.sed then do
    let alpha ← smoothExtrema o.sedEps dims cand
    let w ← alpha.zip (fun a b v => if a v < 1 then b v else false) bad
    bad.assign w
  else .ok bad

/-- The five rows. -/
def activeVars : List (Var 0) := [.rho, .mom 0, .mom 1, .mom 2, .en]

/-- slope_limiting.py 217-222: the rows selected by `NAD_vars`. -/
def DetectOpts.considers (o : DetectOpts K) (v : Var 0) : Bool :=
  match o.nadVars with
  | none => true
  | some l => decide (v ∈ l)

/-- The difference to the nearer bound; `⊤` is numpy's inf. -/
def padPoint (lo hi : Option K) (x : K) : WithTop K :=
  min (match lo with | none => ⊤ | some l => ((x - l : K) : WithTop K))
    (match hi with | none => ⊤ | some h => ((h - x : K) : WithTop K))

/-- slope_limiting.py 229-238: the loop over the PAD bounds; each round overwrites the indicator. -/
def padIndicator (pad : List (Var 0 × Option K × Option K)) (cin : Arr (State K 0))
    (start : Arr (WithTop K)) : Except PyErr (Arr (WithTop K)) :=
  pad.foldlM (fun P e => P.assign (cin.map fun c => padPoint e.2.1 e.2.2 (c e.1))) start

/-- What `detect_troubled_cells` returns. -/
structure Detected (K : Type) where
  trouble : Arr Bool
  nadMag : Arr K
  padMag : Arr K

/-- slope_limiting.py 87-244 `detect_troubled_cells` on numpy arrays with five variables. -/
def detectTroubledCells (o : DetectOpts K) (dims : List (Fin 3)) (u cand : Arr (State K 0)) :
    Except PyErr (Detected K) := do
  let cin := interior dims cand
  let b := interior dims (filters dims u)
  let r ← nadPerVar o u cin b
  let bad ← relaxSmooth o dims cand r.2
  let nad := bad.map fun (x : Var 0 → Bool) => activeVars.any fun v => o.considers v && x v
  let nadInd := r.1.map fun i => listMin (activeVars.map i)
  let nadMag ← nad.zip (fun t i => if t then -i else 0) nadInd
  let P ← padIndicator o.pad cin (nadMag.map fun _ => 0)
  let trouble ← P.zip (fun x t => if x < 0 then true else t) nad
  return ⟨trouble, nadMag, P.map fun x => if x < 0 then -(x.untopD 0) else 0⟩

end FVHOE
