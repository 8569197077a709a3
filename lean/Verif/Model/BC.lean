import Mathlib.Data.Fintype.Basic
import Verif.Model.Arr

/-!
Model of `fvhoe/boundary_conditions.py`.

An entry of the padded array is a whole column of variables (type `V`); `negate d` is what
multiplying the row `m{dim}` by -1 does to a column. Arrays are values: the in-place updates of the
code become functions returning the new array. `np.pad(mode="empty")` leaves the ghost entries
unspecified; they are given by the parameter `junk`, about which nothing is assumed.
-/

namespace FVHOE

/-- Left or right side of an axis. -/
inductive Side where
  | l | r
  deriving DecidableEq

/-- The boundary types `apply` distinguishes (boundary_conditions.py 332-400). `none` is the Python
`None`, `unknown` any other value. -/
inductive BCKind where
  | dirichlet | ic | free | outflow | reflective | periodic | doubleMach | none | unknown
  deriving DecidableEq

/-- The data of a dirichlet side: a callable of the coordinate meshes (and of the time, for
"dirichlet"), a one-dimensional array, or something else. -/
inductive BCValue (K V : Type) where
  | func (g : Arr K → Arr K → Arr K → Option K → Except PyErr (Arr V))
  | const (v : V)
  | other

/-- The three coordinate meshes of one slab. -/
structure Slab (K : Type) where
  coord : Fin 3 → Arr K

/-- A `BoundaryCondition` (boundary_conditions.py 154-245) after `__post_init__`: the types, the
values and the slab coordinates (`none` when no `slab_coords` were given, in which case looking them
up in the array manager raises KeyError). -/
structure BC (K V : Type) where
  kind : Fin 3 → Side → BCKind
  value : Fin 3 → Side → BCValue K V
  slabs : Option (Fin 3 → Side → Slab K)

variable {K V : Type}

/-- boundary_conditions.py 44-46, 80-82, 101-104, 133-137: the slab of ghost entries on a side. -/
def outerCut (st : ℕ) : Side → ℤ × ℤ
  | .l => (0, st)
  | .r => (-(st : ℤ), 0)

/-- boundary_conditions.py 103, 105, 134, 137: the interior slab next to a side. -/
def innerCut (st : ℕ) : Side → ℤ × ℤ
  | .l => (st, 2 * st)
  | .r => (-(2 * (st : ℤ)), -(st : ℤ))

/-- boundary_conditions.py 78-82: the interior layer next to a side. -/
def edgeCut (st : ℕ) : Side → ℤ × ℤ
  | .l => (st, st + 1)
  | .r => (-((st : ℤ) + 1), -(st : ℤ))

/-- boundary_conditions.py 18-57 `_set_dirichlet_bc`. An array value has one entry per variable here
(another length raises in the code). For anything else the code evaluates `cp.ndarray`; cupy is not
installed, so that is a NameError. -/
def setDirichlet (u : Arr V) (val : BCValue K V) (st : ℕ) (d : Fin 3) (s : Side)
    (coord : Fin 3 → Arr K) (t : Option K) : Except PyErr (Arr V) :=
  match val with
  | .func g => do
    let vals ← g (coord 0) (coord 1) (coord 2) t
    u.setCut d (outerCut st s).1 (outerCut st s).2 vals
  | .const v =>
    u.setCut d (outerCut st s).1 (outerCut st s).2
      ((u.cut d (outerCut st s).1 (outerCut st s).2).map fun _ => v)
  | .other => .error .nameError

/-- boundary_conditions.py 60-85 `_set_free_bc`. -/
def setFree (u : Arr V) (st : ℕ) (d : Fin 3) (s : Side) : Except PyErr (Arr V) :=
  u.setCut d (outerCut st s).1 (outerCut st s).2 (u.cut d (edgeCut st s).1 (edgeCut st s).2)

/-- boundary_conditions.py 88-107 `_set_periodic_bc`. -/
def setPeriodic (u : Arr V) (st : ℕ) (d : Fin 3) : Except PyErr (Arr V) := do
  let u1 ← u.setCut d (outerCut st .l).1 (outerCut st .l).2
    (u.cut d (innerCut st .r).1 (innerCut st .r).2)
  u1.setCut d (outerCut st .r).1 (outerCut st .r).2
    (u1.cut d (innerCut st .l).1 (innerCut st .l).2)

/-- boundary_conditions.py 110-151 `_set_symmetric_bc`; `neg` is the identity when `negate_var` is
None. -/
def setSymmetric (u : Arr V) (st : ℕ) (d : Fin 3) (s : Side) (neg : V → V) :
    Except PyErr (Arr V) := do
  let u1 ← u.setCut d (outerCut st s).1 (outerCut st s).2
    ((u.cut d (innerCut st s).1 (innerCut st s).2).flip d)
  u1.setCut d (outerCut st s).1 (outerCut st s).2
    ((u1.cut d (outerCut st s).1 (outerCut st s).2).map neg)

/-- boundary_conditions.py 208-216: thickness of the stored slabs. -/
def bufferSize (slabs : Fin 3 → Side → Slab K) (d : Fin 3) : ℕ := ((slabs d .l).coord 0).shape d

/-- boundary_conditions.py 274-301: the trimming of one slab along axis `e`. -/
def trimCut (buffer gw : Fin 3 → ℕ) (d : Fin 3) (s : Side) (e : Fin 3) : ℤ × ℤ :=
  if e = d then
    match s with
    | .l => (-(gw e : ℤ), 0)
    | .r => (0, gw e)
  else ((buffer e : ℤ) - gw e, -((buffer e : ℤ) - gw e))

/-- boundary_conditions.py 247-304 `trim_slabs`. -/
def trimSlabs (slabs : Option (Fin 3 → Side → Slab K)) (gw : Fin 3 → ℕ) (d : Fin 3) (s : Side) :
    Except PyErr (Fin 3 → Arr K) :=
  match slabs with
  | none => .error .keyError
  | some sl =>
    if ∃ e, bufferSize sl e < gw e then .error .valueError
    else
      let c := trimCut (bufferSize sl) gw d s
      .ok fun a => ((((sl d s).coord a).cut 0 (c 0).1 (c 0).2).cut 1 (c 1).1 (c 1).2).cut 2
        (c 2).1 (c 2).2

/-- boundary_conditions.py 321-400: the treatment of one slab. The double-Mach case calls
`_set_free_bc` without its `hs` argument, which is a TypeError. -/
def applySlab (bc : BC K V) (negate : Fin 3 → V → V) (gw : Fin 3 → ℕ) (t : K) (out : Arr V)
    (slab : Fin 3 × Side) : Except PyErr (Arr V) :=
  let d := slab.1
  let s := slab.2
  if gw d = 0 then .ok out
  else
    match bc.kind d s with
    | .dirichlet => do
      let c ← trimSlabs bc.slabs gw d s
      setDirichlet out (bc.value d s) (gw d) d s c (some t)
    | .ic => do
      let c ← trimSlabs bc.slabs gw d s
      setDirichlet out (bc.value d s) (gw d) d s c none
    | .free => setFree out (gw d) d s
    | .outflow => setSymmetric out (gw d) d s id
    | .reflective => setSymmetric out (gw d) d s (negate d)
    | .periodic => if s = .l then setPeriodic out (gw d) d else .ok out
    | .doubleMach => do
      let _ ← trimSlabs bc.slabs gw 1 .l
      .error .typeError
    | .none => .ok out
    | .unknown => .error .valueError

/-- boundary_conditions.py 317-321: `np.pad(u, gw, mode="empty")`. -/
def padEmpty (u : Arr V) (gw : Fin 3 → ℕ) (junk : Ix → V) : Arr V where
  shape := fun d => u.shape d + 2 * gw d
  get := fun j =>
    if u.InB (fun d => j d - gw d) then u.get (fun d => j d - gw d) else junk j

/-- boundary_conditions.py 324: the slabs in the order they are treated. -/
def slabOrder : List (Fin 3 × Side) := [(0, .l), (0, .r), (1, .l), (1, .r), (2, .l), (2, .r)]

/-- boundary_conditions.py 306-402 `BoundaryCondition.apply`. -/
def BC.apply (bc : BC K V) (negate : Fin 3 → V → V) (u : Arr V) (gw : Fin 3 → ℕ) (t : K)
    (junk : Ix → V) : Except PyErr (Arr V) :=
  slabOrder.foldlM (applySlab bc negate gw t) (padEmpty u gw junk)

end FVHOE
