import Mathlib.Algebra.BigOperators.Fin
import Verif.Model.Mesh

/-!
Model of `SedovBlast` (fvhoe/initial_conditions.py 484-538).
-/

namespace FVHOE

variable {K : Type} [Field K]

/-- Sum of all entries. -/
def Arr.total {V : Type} [AddCommMonoid V] (A : Arr V) : V :=
  ∑ a ∈ Finset.range (A.shape 0), ∑ b ∈ Finset.range (A.shape 1), ∑ c ∈ Finset.range (A.shape 2),
    A.get ![(a : ℤ), (b : ℤ), (c : ℤ)]

/-- `np.mean(A)`; numpy gives nan for an empty array. -/
def Arr.mean (A : Arr K) : K := A.total / ((A.shape 0 * A.shape 1 * A.shape 2 : ℕ) : K)

/-- initial_conditions.py 512-514: `np.mean(x[1:, :, :] - x[:-1, :, :])`. -/
def meanSpacing (x : Arr K) (d : Fin 3) : Except PyErr K := do
  let diff ← (x.slice d (some 1) none).zip (· - ·) (x.slice d none (some (-1)))
  return diff.mean

/-- The argument `mode`. -/
inductive SedovMode where
  | corner
  | center
  | other

/-- The five rows of the initial array at a cell. -/
structure SedovCell (K : Type) where
  rho : K
  vx : K
  vy : K
  vz : K
  e : K

/-- initial_conditions.py 504-536, the function `f`; `dims d` says whether the letter of axis `d` occurs
in the string `dims`. The negative start `Nx // 2 - 1` that occurs for `Nx = 1` counts from the end.
In mode "corner" the index (0, 0, 0) raises IndexError on an empty array. Any other mode leaves
`peak` unassigned. -/
def sedov (mode : SedovMode) (dims : Fin 3 → Bool) (rho0 E0 E1 : K) (mesh : Fin 3 → Arr K) :
    Except PyErr (Arr (SedovCell K)) := do
  let n := (mesh 0).shape
  let hx ← meanSpacing (mesh 0) 0
  let hy ← meanSpacing (mesh 1) 1
  let hz ← meanSpacing (mesh 2) 2
  let emax := E1 / (if dims 0 then 2 * hx else 1) / (if dims 1 then 2 * hy else 1) /
    (if dims 2 then 2 * hz else 1)
  match mode with
  | .other => .error .nameError
  | .corner =>
    if ∃ d, n d = 0 then .error .indexError
    else .ok ⟨n, fun i => ⟨rho0, 0, 0, 0, if i = 0 then emax else E0⟩⟩
  | .center =>
    let start (d : Fin 3) : ℤ := sliceStart (n d) (some (((n d / 2 : ℕ) : ℤ) - 1))
    let stop (d : Fin 3) : ℤ := sliceStop (n d) (some (((n d / 2 : ℕ) : ℤ) + 1))
    .ok ⟨n, fun i => ⟨rho0, 0, 0, 0,
      if ∀ d, dims d → start d ≤ i d ∧ i d < stop d then emax else E0⟩⟩

end FVHOE
