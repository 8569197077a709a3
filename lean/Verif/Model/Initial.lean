import Mathlib.Algebra.Module.Basic
import Verif.Model.Hydro
import Verif.Model.HydroState
import Verif.Model.Mesh

/-!
Initial data: `get_legendre_quadrature` and `fv_average` (fvhoe/fv.py 226-277), `build_ic`
(fvhoe/initial_conditions.py 30-81) and the initial array of `EulerSolver` (fvhoe/solver.py 220-312).

`np.polynomial.legendre.leggauss` is an argument of the model: a table `gauss` with the nodes and weights for
every positive number of nodes. numpy raises ValueError for no nodes, which never happens here because the
degree is a natural number. The cache around `get_legendre_quadrature` returns arrays that nothing modifies, so
it is dropped.
-/

namespace FVHOE

variable {K : Type} [Field K] {V : Type} [AddCommGroup V] [Module K V] {np : ℕ}

/-- fv.py 236: `-(-(p + 1) // 2)`; Python's and Lean's division both round down for the divisor 2. -/
def quadPoints (p : ℕ) : ℕ := (-(-((p : ℤ) + 1) / 2)).toNat

/-- fv.py 226-240 `get_legendre_quadrature`: nodes and weights, both halved. -/
def legendreQuadrature (gauss : ℕ → List (K × K)) (p : ℕ) : List (K × K) :=
  (gauss (quadPoints p)).map fun xw => (xw.1 / 2, xw.2 / 2)

/-- The mesh arrays of fv.py 275: `x + xp * hx`, `y + yp * hy`, `z + zp * hz`. -/
def Slab.shift (m : Slab K) (pt h : Fin 3 → K) : Slab K where
  coord := fun d => ⟨(m.coord d).shape, fun j => (m.coord d).get j + pt d * h d⟩

/-- fv.py 243-277 `fv_average`: three nested loops accumulating into an array of zeros. The function is applied to
whole mesh arrays; it is assumed to return an array of the same shape every time, otherwise numpy raises. -/
def fvAverage (gauss : ℕ → List (K × K)) (f : Slab K → Arr V) (m : Slab K) (h : Fin 3 → K) (p : Fin 3 → ℕ) : Arr V :=
  (legendreQuadrature gauss (p 0)).foldl (fun out x =>
    (legendreQuadrature gauss (p 1)).foldl (fun out y =>
      (legendreQuadrature gauss (p 2)).foldl (fun out z =>
        let g := f (m.shift ![x.1, y.1, z.1] h)
        ⟨out.shape, fun j => out.get j + (x.2 * y.2 * z.2) • g.get j⟩) out) out)
    ⟨(f m).shape, fun _ => 0⟩

/-- solver.py 220-234: the spacings `(x[1] - x[0]) / nx` and the mesh `fv_uniform_meshgen`. -/
def solverSpacing (n : Fin 3 → ℕ) (dom : Fin 3 → K × K) (d : Fin 3) : K := ((dom d).2 - (dom d).1) / n d

/-- solver.py 256-308: the initial array. `ic` is the function returned by `build_ic` (solver.py 271). With
`conservative_ic` it gives conserved variables, with `fv_ic` as well it is used without averaging, and `fv_ic` alone is
rejected. -/
def initialArray (gamma : K) (gauss : ℕ → List (K × K)) (ic : Slab K → Arr (State K np)) (conservativeIc fvIc : Bool)
    (n : Fin 3 → ℕ) (dom : Fin 3 → K × K) (p : Fin 3 → ℕ) : Except PyErr (Arr (State K np)) :=
  let mesh := meshgen n dom
  match conservativeIc, fvIc with
  | true, true => .ok (ic mesh)
  | false, true => .error .valueError
  | true, false => .ok (fvAverage gauss ic mesh (solverSpacing n dom) p)
  | false, false =>
    let u0 (m : Slab K) : Arr (State K np) := ⟨(ic m).shape, fun j => computeConservatives gamma ((ic m).get j)⟩
    .ok (fvAverage gauss u0 mesh (solverSpacing n dom) p)

/-- A dictionary of initial-condition functions for passive scalars. -/
abbrev PassiveICs (K : Type) := List (String × (Slab K → Arr K))

/-- `d[name]`: the last entry wins. -/
def PassiveICs.get? (d : PassiveICs K) (name : String) : Option (Slab K → Arr K) :=
  (d.reverse.find? fun e => e.1 == name).map Prod.snd

/-- `out[ix, ...] = a`: row `r` of the output, whose rows are `rows`. -/
def assignRows (rows : ℕ → Ix → K) (ix : VarIx) (a : Arr K) : ℕ → Ix → K := fun r =>
  match ix with
  | .row i => if r = i then a.get else rows r
  | .rows l => if r ∈ l then a.get else rows r

/-- initial_conditions.py 72-79: the loop over the passive scalars. Every name is in the variable map
(hydro.py 57-58). -/
def writePassives (hs : HydroState) (d : PassiveICs K) (m : Slab K) : List String → (ℕ → Ix → K) → Except PyErr (ℕ → Ix → K)
  | [], rows => .ok rows
  | s :: ss, rows =>
    match d.get? s, hs.map s with
    | some f, some ix => writePassives hs d m ss (assignRows rows ix (f m))
    | _, _ => .error .keyError

/-- initial_conditions.py 30-81 `build_ic`, the returned function applied to a mesh: `core` is the function returned by
`base_ic`, its rows numbered 0 to 4, and `junk` is what `np.empty` holds. A missing function raises ValueError when the
function is built. The result is an array with `5 + len(passive_scalars)` rows. -/
def buildIC (hs : HydroState) (core : Slab K → ℕ → Ix → K) (d : PassiveICs K) (junk : ℕ → Ix → K) (m : Slab K) :
    Except PyErr (ℕ → Ix → K) :=
  if hs.includesPassives && !(hs.passives.all fun s => (d.get? s).isSome) then .error .valueError
  else
    let rows : ℕ → Ix → K := fun r => if r < 5 then core m r else junk r
    if hs.includesPassives then writePassives hs d m hs.passives rows else .ok rows

end FVHOE
