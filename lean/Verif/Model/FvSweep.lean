import Mathlib.Data.Rat.Cast.Defs
import Verif.Model.Arr
import Verif.Model.Stencils

/-!
Model of `fvhoe/fv.py` 88-224: stencil sweeps and the conversions between cell averages and cell
centres. `ndim` of the slicer is always 4 here, so the axis is always valid.
-/

namespace FVHOE

variable {K : Type} [Field K] {V : Type} [AddCommGroup V] [Module K V]

/-- fv.py 88-103 `get_symmetric_slices`: the bounds `(i, -(nslices-1)+i)`. -/
def symmetricCuts (m : ℕ) : List (ℤ × ℤ) :=
  (List.range m).map fun i : ℕ => ((i : ℤ), -((m : ℤ) - 1) + i)

/-- fv.py 131-140: the accumulation loop of `stencil_sweep`. `nslices < 1` raises (fv.py 99). -/
def sweepLoop (K : Type) [Field K] {V : Type} [AddCommGroup V] [Module K V]
    (u : Arr V) (weights : List ℚ) (d : Fin 3) : Except PyErr (Arr V) :=
  match symmetricCuts weights.length with
  | [] => .error .valueError
  | c :: cs =>
    (List.zip weights (c :: cs)).foldlM
      (fun out (w, c) => out.addInPlace ((u.cut d c.1 c.2).map fun x => (w : K) • x))
      ((u.cut d c.1 c.2).zerosLike)

/-- The `mode` argument of `stencil_sweep`. -/
inductive SweepMode where
  | interpolation | reconstruction | other
  deriving DecidableEq

/-- fv.py 124-129: the weights for a mode. -/
def sweepWeights (mode : SweepMode) (p : ℕ) (pos : String) : Except PyErr (List ℚ) :=
  match mode with
  | .interpolation => conservativeWeights p pos
  | .reconstruction => transverseWeights p
  | .other => .error .valueError

/-- fv.py 106-140 `stencil_sweep`. -/
def stencilSweep (K : Type) [Field K] {V : Type} [AddCommGroup V] [Module K V]
    (u : Arr V) (mode : SweepMode) (p : ℕ) (d : Fin 3) (pos : String) : Except PyErr (Arr V) := do
  let weights ← sweepWeights mode p pos
  sweepLoop K u weights d

/-- fv.py 143-159 `conservative_interpolation`. -/
def conservativeInterpolation (K : Type) [Field K] {V : Type} [AddCommGroup V] [Module K V]
    (u : Arr V) (p : ℕ) (d : Fin 3) (pos : String) : Except PyErr (Arr V) :=
  stencilSweep K u .interpolation p d pos

/-- fv.py 162-172 `transverse_reconstruction`. -/
def transverseReconstruction (K : Type) [Field K] {V : Type} [AddCommGroup V] [Module K V]
    (u : Arr V) (p : ℕ) (d : Fin 3) : Except PyErr (Arr V) :=
  stencilSweep K u .reconstruction p d ""

/-- fv.py 175-197 `interpolate_cell_centers`. -/
def interpolateCellCenters (K : Type) [Field K] {V : Type} [AddCommGroup V] [Module K V]
    (u : Arr V) (p : Fin 3 → ℕ) : Except PyErr (Arr V) := do
  let a ← conservativeInterpolation K u (p 0) 0 "c"
  let b ← conservativeInterpolation K a (p 1) 1 "c"
  conservativeInterpolation K b (p 2) 2 "c"

/-- fv.py 200-224 `interpolate_fv_averages`. -/
def interpolateFvAverages (K : Type) [Field K] {V : Type} [AddCommGroup V] [Module K V]
    (u : Arr V) (p : Fin 3 → ℕ) : Except PyErr (Arr V) := do
  let a ← transverseReconstruction K u (p 0) 0
  let b ← transverseReconstruction K a (p 1) 1
  transverseReconstruction K b (p 2) 2

end FVHOE
