import Mathlib.Data.List.Sort
import Mathlib.Order.Lex
import Mathlib.Data.Prod.Lex
import Mathlib.Data.List.Lex
import Mathlib.Data.Nat.Cast.Basic
import Mathlib.Algebra.Field.Defs
import Verif.Model.Run
import Verif.Model.Snapshots

/-!
Model of `EulerSolver_wrapper` (fvhoe/scripting.py 9-104).

The module imports a name that `initial_conditions.py` does not define, so that it cannot be imported as it stands; the
function is modelled as written. Python strings are lists of characters. The plots that `snapshot_plotter` saves (lines 60-75)
are left out.
-/

namespace FVHOE

/-- A Python string. -/
abbrev PyStr := List Char

/-- scripting.py 46: the sort key `[(c.lower(), c.isupper()) for c in x]`, compared lexicographically. `Char.toLower` and
`Char.isUpper` agree with Python on ASCII characters, of which the names of keyword arguments consist. -/
def kwKey (x : PyStr) : List (ℕ ×ₗ Bool) := x.map fun c => toLex (c.toLower.toNat, c.isUpper)

/-- scripting.py 43-48: the keyword arguments sorted by name, each with the text of its value. -/
def sortedKwargs (kw : List (PyStr × PyStr)) : List (PyStr × PyStr) :=
  kw.insertionSort fun a b => kwKey a.1 ≤ kwKey b.1

/-- Arguments of `EulerSolver_wrapper` (scripting.py 9-21) other than `ic`, `bc` and those about plots. `kwargs` holds the text
`f"{v}"` of every value, `textT` is `f"{T=}"` without `T=`, and so on. -/
structure WrapperArgs (K : Type) where
  pref : PyStr
  parent : PyStr
  kwargs : List (PyStr × PyStr)
  T : K
  integrator : ℤ
  nSnapshots : ℕ
  overwrite : Bool
  textT : PyStr
  textIntegrator : PyStr
  textN : PyStr

variable {K : Type}

/-- scripting.py 42-50 `project_name`. -/
def WrapperArgs.projectName (a : WrapperArgs K) : PyStr :=
  a.pref ++ ['_'] ++ List.intercalate ['_'] ((sortedKwargs a.kwargs).map fun kv => kv.1 ++ ['='] ++ kv.2) ++
    "_T=".toList ++ a.textT ++ "_integrator=".toList ++ a.textIntegrator ++ "_n_snapshots=".toList ++ a.textN

/-- `os.path.join` of two parts on a POSIX system. -/
def pathJoin (a b : PyStr) : PyStr :=
  if b.head? = some '/' then b else if a = [] ∨ a.getLast? = some '/' then a ++ b else a ++ ['/'] ++ b

/-- scripting.py 51 `snapshot_dir`. -/
def WrapperArgs.dir (a : WrapperArgs K) : PyStr := pathJoin a.parent a.projectName

/-- `np.linspace(0, T, n)` in exact arithmetic. -/
def linspace [Field K] (T : K) (n : ℕ) : List K := (List.range n).map fun i : ℕ => (i : K) * (T / ((n : K) - 1))

/-- The solver that scripting.py 77-84 constructs from `ic`, `bc` and the keyword arguments. -/
structure BuiltSolver (K U S : Type) where
  f : RHS K U
  p : Fin 3 → ℤ
  snap : ODEState K U S → S
  u0 : U

/-- scripting.py 90-102: the method called. -/
def WrapperArgs.method (a : WrapperArgs K) (p : Fin 3 → ℤ) : Except PyErr Integrator :=
  match a.integrator with
  | -1 => runSolver p (fun m _ => m) ()
  | 1 => .ok .euler
  | 2 => .ok .ssprk2
  | 3 => .ok .ssprk3
  | 4 => .ok .rk4
  | _ => .error .valueError

variable [Field K] [LinearOrder K] {U S : Type} [AddCommGroup U] [Module K U]

/-- scripting.py 77-104: what the call does with the directory `fs`, and the snapshots of the returned solver. `none` means that
`fuel` iterations of the time loop were not enough; `listing` and `rep` as in `writeSnapshots`. -/
def wrapperRun (P : Pickle S) (s : BuiltSolver K U S) (a : WrapperArgs K) (fuel : ℕ) (listing : List String) (rep : Report) (fs : FS) :
    Option (List FSCall × Except PyErr (List S)) :=
  match a.method s.p with
  | .error e => some ([], .error e)
  | .ok m =>
    let compute : Option (List FSCall × Except PyErr (List S)) :=
      match (ODEState.init s.u0).integrate (stepper s.f m) s.snap fuel ⟨some a.T, none, true, linspace a.T a.nSnapshots, false, none⟩ with
      | none => none
      | some (_, some e) => some ([], .error e)
      | some (st, none) =>
        match writeSnapshots P fs a.overwrite listing rep st.snapshots with
        | (calls, some e) => some (calls, .error e)
        | (calls, none) => some (calls, .ok st.snapshots)
    if a.overwrite then compute
    else
      match readSnapshots P fs with
      | .error e => some ([], .error e)
      | .ok (some l) => some ([], .ok l)
      | .ok none => compute

/-- The directories on disk, by path. -/
abbrev Disk := PyStr → FS

/-- scripting.py 9-104 `EulerSolver_wrapper`: the disk afterwards and the snapshots of the returned solver. -/
def wrapper (P : Pickle S) (s : BuiltSolver K U S) (a : WrapperArgs K) (fuel : ℕ) (listing : List String) (rep : Report) (disk : Disk) :
    Option (Disk × Except PyErr (List S)) :=
  (wrapperRun P s a fuel listing rep (disk a.dir)).map fun r =>
    (Function.update disk a.dir (runCalls (disk a.dir) r.1), r.2)

end FVHOE
