import Mathlib.Algebra.Order.Field.Basic
import Mathlib.Data.Sign.Defs
import Verif.Model.FvSweep

/-!
Model of `fvhoe/slope_limiting.py` 24-84: slope-limited linear interpolation.
-/

namespace FVHOE

variable {K : Type} [Field K] [LinearOrder K]

/-- slope_limiting.py 56-70 `minmod`, one entry; `tiny` is the constant 1e-16. -/
def minmod (tiny dl dr : K) : K :=
  let ratio := dr / (if dl > 0 then (if dl > tiny then dl else tiny)
    else (if dl < -tiny then dl else -tiny))
  let ratio := if ratio < 1 then ratio else 1
  (if ratio > 0 then ratio else 0) * dl

/-- `np.sign`. -/
def npSign (x : K) : K := if x > 0 then 1 else if x < 0 then -1 else 0

/-- slope_limiting.py 73-84 `moncen`, one entry. -/
def moncen (dl dr : K) : K :=
  let c := (1 / 2) * (dl + dr)
  let slope := min |2 * dl| |2 * dr|
  let slope := npSign c * min slope |c|
  if dl * dr ≥ 0 then slope else 0

/-- slope_limiting.py 43-44: the slope for `limiter=None`. -/
def centralSlope (dl dr : K) : K := (1 / 2) * (dl + dr)

/-- slope_limiting.py 38-47: the limiter selected by the argument `limiter`. -/
def limiterFn (tiny : K) : Option String → Except PyErr (K → K → K)
  | some "minmod" => .ok (minmod tiny)
  | some "moncen" => .ok moncen
  | none => .ok centralSlope
  | some _ => .error .valueError

/-- slope_limiting.py 24-53 `MUSCL_interpolations`; `slope` is the limiter chosen in lines 39-47. -/
def muscl (K : Type) [Field K] {V : Type} [AddCommGroup V] [Module K V] (u : Arr V) (d : Fin 3)
    (slope : V → V → V) : Except PyErr (Arr V × Arr V) := do
  let c0 := u.cut d 0 (-2)
  let c1 := u.cut d 1 (-1)
  let c2 := u.cut d 2 0
  let dl ← c1.zip (fun a b => a - b) c0
  let dr ← c2.zip (fun a b => a - b) c1
  let s ← dl.zip slope dr
  let l ← c1.zip (fun a b => a - (1 / 2 : K) • b) s
  let r ← c1.zip (fun a b => a + (1 / 2 : K) • b) s
  return (l, r)

/-- slope_limiting.py 24-53 with the selection of the limiter, which comes after the differences are
formed (these cannot fail); the limiter acts on every variable separately. -/
def musclInterpolations (tiny : K) {ι : Type} (u : Arr (ι → K)) (d : Fin 3) (limiter : Option String) :
    Except PyErr (Arr (ι → K) × Arr (ι → K)) := do
  let s ← limiterFn tiny limiter
  muscl K u d fun a b i => s (a i) (b i)

end FVHOE
