import Mathlib.Data.Rat.Defs
import Mathlib.Algebra.Order.Ring.Rat
import Verif.Py

/-!
Model of `fvhoe/stencils.py`. Weights are exact rationals (the code rounds them to float64).
Degrees are natural numbers; a negative `p` would also end in `NotImplementedError`.
-/

namespace FVHOE

/-- The `mode` argument of `get_stencil_size`. -/
inductive SizeMode where
  | total | right | other
  deriving DecidableEq

/-- stencils.py 5-22 `get_stencil_size`; Python's `-p // 2` is floor division. -/
def getStencilSize (p : ℕ) : SizeMode → Except PyErr ℤ
  | .total => .ok (-2 * ((-(p : ℤ)) / 2) + 1)
  | .right => .ok (-((-(p : ℤ)) / 2))
  | .other => .error .valueError

/-- stencils.py 45-178, `pos == "l"`: left-face weights. -/
def leftWeights : ℕ → Except PyErr (List ℚ)
  | 0 => .ok [1]
  | 1 => .ok [1 / 4, 1, -1 / 4]
  | 2 => .ok [2 / 6, 5 / 6, -1 / 6]
  | 3 => .ok [-1 / 24, 10 / 24, 20 / 24, -6 / 24, 1 / 24]
  | 4 => .ok [-3 / 60, 27 / 60, 47 / 60, -13 / 60, 2 / 60]
  | 5 => .ok [1 / 120, -1 / 12, 59 / 120, 47 / 60, -31 / 120, 1 / 15, -1 / 120]
  | 6 => .ok [1 / 105, -19 / 210, 107 / 210, 319 / 420, -101 / 420, 5 / 84, -1 / 140]
  | 7 => .ok [-1 / 560, 17 / 840, -97 / 840, 449 / 840, 319 / 420, -223 / 840, 71 / 840, -1 / 56,
      1 / 560]
  | 8 => .ok [-1 / 504, 11 / 504, -61 / 504, 275 / 504, 1879 / 2520, -641 / 2520, 199 / 2520, -41
      / 2520, 1 / 630]
  | _ => .error .notImplementedError

/-- stencils.py 45-178, `pos == "c"`: cell-centre weights. -/
def centerWeights : ℕ → Except PyErr (List ℚ)
  | 0 => .ok [1]
  | 1 => .ok [0, 1, 0]
  | 2 => .ok [-1 / 24, 26 / 24, -1 / 24]
  | 3 => .ok [0, -1 / 24, 26 / 24, -1 / 24, 0]
  | 4 => .ok [9 / 1920, -116 / 1920, 2134 / 1920, -116 / 1920, 9 / 1920]
  | 5 => .ok [0, 3 / 640, -29 / 480, 1067 / 960, -29 / 480, 3 / 640, 0]
  | 6 => .ok [-5 / 7168, 159 / 17920, -7621 / 107520, 30251 / 26880, -7621 / 107520, 159 / 17920,
      -5 / 7168]
  | 7 => .ok [0, -5 / 7168, 159 / 17920, -7621 / 107520, 30251 / 26880, -7621 / 107520, 159 /
      17920, -5 / 7168, 0]
  | 8 => .ok [35 / 294912, -425 / 258048, 31471 / 2580480, -100027 / 1290240, 5851067 / 5160960,
      -100027 / 1290240, 31471 / 2580480, -425 / 258048, 35 / 294912]
  | _ => .error .notImplementedError

/-- stencils.py 45-178 for the other strings that pass the substring test `pos in "lcr"`: only
`p = 0` assigns `out`; for the rest the final `return out` raises `UnboundLocalError`. -/
def otherWeights : ℕ → Except PyErr (List ℚ)
  | 0 => .ok [1]
  | p => if p ≤ 8 then .error .nameError else .error .notImplementedError

/-- stencils.py 25-178 `get_conservative_interpolation_stencil_weights`. -/
def conservativeWeights (p : ℕ) (pos : String) : Except PyErr (List ℚ) :=
  if pos ∈ ["", "l", "c", "r", "lc", "cr", "lcr"] then
    if pos = "r" then (leftWeights p).map List.reverse
    else if pos = "l" then leftWeights p
    else if pos = "c" then centerWeights p
    else otherWeights p
  else .error .valueError

/-- stencils.py 181-255 `get_transverse_reconstruction_stencil_weights`. -/
def transverseWeights : ℕ → Except PyErr (List ℚ)
  | 0 => .ok [1]
  | 1 => .ok [0, 1, 0]
  | 2 => .ok [1 / 24, 22 / 24, 1 / 24]
  | 3 => .ok [0, 1 / 24, 22 / 24, 1 / 24, 0]
  | 4 => .ok [-17 / 5760, 308 / 5760, 5178 / 5760, 308 / 5760, -17 / 5760]
  | 5 => .ok [0, -17 / 5760, 308 / 5760, 5178 / 5760, 308 / 5760, -17 / 5760, 0]
  | 6 => .ok [367 / 967680, -281 / 53760, 6361 / 107520, 215641 / 241920, 6361 / 107520, -281 /
      53760, 367 / 967680]
  | 7 => .ok [0, 367 / 967680, -281 / 53760, 6361 / 107520, 215641 / 241920, 6361 / 107520, -281 /
      53760, 367 / 967680, 0]
  | 8 => .ok [-27859 / 464486400, 49879 / 58060800, -801973 / 116121600, 3629953 / 58060800,
      41208059 / 46448640, 3629953 / 58060800, -801973 / 116121600, 49879 / 58060800, -27859 /
      464486400]
  | _ => .error .notImplementedError

end FVHOE
