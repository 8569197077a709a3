import Verif.Model.Initial
import Verif.Model.Limiter

/-!
Model of the construction of a solver: `EulerSolver.__init__` (fvhoe/solver.py 42-420) and
`BoundaryCondition.__post_init__` (fvhoe/boundary_conditions.py 193-225), without cupy.
-/

namespace FVHOE

variable {K : Type} [Field K] [LinearOrder K] {V : Type}

/-- A value that may be given once for both sides, as a tuple, or as a list. -/
inductive SideArg (α : Type) where
  | single (a : α)
  | tuple (l : List α)
  | list (l : List α)

/-- boundary_conditions.py 195-203: `(left, right)`. -/
def SideArg.pair {α : Type} : SideArg α → Except PyErr (α × α)
  | .single a => .ok (a, a)
  | .tuple [a, b] => .ok (a, b)
  | .tuple _ => .error .valueError
  | .list _ => .error .valueError

/-- The arguments x, y, z and x_value, y_value, z_value of `BoundaryCondition`. A boundary type that is neither `None`
nor one of the known strings is `BCKind.unknown`; a value that is neither callable nor an array is `BCValue.other`. -/
structure BCArgs (K V : Type) where
  kind : Fin 3 → SideArg BCKind
  value : Fin 3 → SideArg (BCValue K V)

/-- The component of a pair. -/
def sideOf {α : Type} (p : α × α) : Side → α
  | .l => p.1
  | .r => p.2

/-- array_management.py 33-40 `add`, names only: KeyError if the name is taken. -/
def takeName (names : List String) (name : String) : Except PyErr (List String) :=
  if name ∈ names then .error .keyError else .ok (names ++ [name])

/-- Several names in turn. -/
def takeNames (names : List String) (l : List String) : Except PyErr (List String) := l.foldlM takeName names

/-- The letter of a direction. -/
def dimName (d : Fin 3) : String := if d = 0 then "x" else if d = 1 then "y" else "z"

/-- The letter of a side. -/
def Side.name : Side → String
  | .l => "l"
  | .r => "r"

/-- Is the value a numpy array? -/
def BCValue.isArray : BCValue K V → Bool
  | .const _ => true
  | _ => false

/-- boundary_conditions.py 206-213: the names under which array values are stored. -/
def valueNames (value : Fin 3 → Side → BCValue K V) : List String :=
  (slabOrder.filter fun e => (value e.1 e.2).isArray).map fun e => s!"bc_{dimName e.1}{e.2.name}_value"

/-- boundary_conditions.py 220-225: the names under which the slab coordinates are stored. -/
def slabNames : List String :=
  slabOrder.flatMap fun e => ([0, 1, 2] : List (Fin 3)).map fun a => s!"bc_{dimName e.1}{e.2.name}_slab_{dimName a}"

/-- boundary_conditions.py 193-225 `__post_init__`: `names` are the names in the array manager. The copies in the array
manager are identified with the arrays given. -/
def BCArgs.init (a : BCArgs K V) (slabs : Option (Fin 3 → Side → Slab K)) (names : List String) :
    Except PyErr (BC K V × List String) := do
  let k0 ← (a.kind 0).pair
  let v0 ← (a.value 0).pair
  let k1 ← (a.kind 1).pair
  let v1 ← (a.value 1).pair
  let k2 ← (a.kind 2).pair
  let v2 ← (a.value 2).pair
  let kind : Fin 3 → Side → BCKind := fun d => sideOf (if d = 0 then k0 else if d = 1 then k1 else k2)
  let value : Fin 3 → Side → BCValue K V := fun d => sideOf (if d = 0 then v0 else if d = 1 then v1 else v2)
  let names ← takeNames names (valueNames value)
  let names ← takeNames names (if slabs.isSome then slabNames else [])
  return (⟨kind, value, slabs⟩, names)

/-- What `fv_uniform_meshgen` returns: three arrays, or three arrays and a dictionary. -/
inductive MeshResult (K : Type) where
  | three (m : Slab K)
  | pair (m : Slab K) (slabs : Fin 3 → Side → Slab K)

/-- fv.py 12-85 `fv_uniform_meshgen`; the calls for the slabs have `slab_thickness=(0, 0, 0)`. -/
def uniformMeshgen (n : Fin 3 → ℕ) (dom : Fin 3 → K × K) (thickness : Fin 3 → ℕ) : Except PyErr (MeshResult K) :=
  if ∀ d, thickness d = 0 then .ok (.three (meshgen n dom))
  else if ∃ d, n d = 0 then .error .zeroDivisionError
  else .ok (.pair (meshgen n dom) (meshSlab n dom thickness))

/-- `_, slab_coords = …` (solver.py 326): three values are too many. -/
def MeshResult.unpack : MeshResult K → Except PyErr (Fin 3 → Side → Slab K)
  | .three _ => .error .valueError
  | .pair _ s => .ok s

/-- The arguments of `EulerSolver` (solver.py 42-82). `core` is the function returned by `w0.base_ic`, with the five
rows in the order of the state. `w0_passives=None` and `{}` are both the empty list; a dictionary has distinct keys, a
list with repeated names stands for no call. The arguments that nothing reads are left out, as are those of progress
bar and snapshots; `cupy` is False. `sqrt` is `np.sqrt`, `tiny` (in the limiter options) the constant of `minmod`. -/
structure SolverArgs (K : Type) where
  core : Slab K → ℕ → Ix → K
  passives : PassiveICs K
  n : Fin 3 → ℕ
  p : Fin 3 → ℕ
  dom : Fin 3 → K × K
  cfl : K
  fixedDt : Option K
  gamma : K
  bc : Option (BCArgs K (State K passives.length))
  riemannSolver : String
  conservativeIc : Bool
  fvIc : Bool
  limiter : Option (LimiterOpts K)
  csqFloor : K
  slabBufferSize : ℕ
  sqrt : K → K

/-- Number of passive scalars. -/
abbrev SolverArgs.np (a : SolverArgs K) : ℕ := a.passives.length

/-- The row of a variable (hydro.py 36-64). -/
def varRow {np : ℕ} : Var np → ℕ
  | .rho => 0
  | .mom d => 1 + d
  | .en => 4
  | .ps j => 5 + j

/-- solver.py 241-243. -/
def SolverArgs.active (a : SolverArgs K) (d : Fin 3) : Bool := !(a.n d == 1 && a.p d == 0)

/-- The object built. -/
structure Built (K : Type) (np : ℕ) where
  config : EulerConfig K np
  u : Arr (State K np)
  names : List String

/-- solver.py 185-193: the choice of the Riemann solver. -/
def riemannOf : String → Except PyErr RiemannKind
  | "advection_upwind" => .ok .advectionUpwind
  | "llf" => .ok .llf
  | "hllc" => .ok .hllc
  | _ => .error .typeError

/-- solver.py 271: the function returned by `build_ic` as columns of variables. When `build_ic` refuses the passive
scalars the constructor has already stopped. -/
def SolverArgs.icFunc (a : SolverArgs K) (hs : HydroState) (junk : ℕ → Ix → K) (m : Slab K) : Arr (State K a.np) :=
  ⟨(m.coord 0).shape, fun j v =>
    match buildIC hs a.core a.passives junk m with
    | .ok rows => rows (varRow v) j
    | .error _ => 0⟩

/-- solver.py 288-298: the pointwise conserved variables as a function with keywords x, y and z only. -/
def SolverArgs.u0Func (a : SolverArgs K) (hs : HydroState) (junk : ℕ → Ix → K) (x y z : Arr K) (t : Option K) :
    Except PyErr (Arr (State K a.np)) :=
  match t with
  | some _ => .error .typeError
  | none =>
    let w := a.icFunc hs junk ⟨![x, y, z]⟩
    .ok (if a.conservativeIc then w else w.map (computeConservatives a.gamma))

/-- solver.py 281-298: `self.u0`; it is `NotImplemented` with `fv_ic`. -/
def SolverArgs.u0 (a : SolverArgs K) (hs : HydroState) (junk : ℕ → Ix → K) : BCValue K (State K a.np) :=
  if a.fvIc then .other else .func (a.u0Func hs junk)

/-- solver.py 324-328: the thickness of the slabs. -/
def SolverArgs.thickness (a : SolverArgs K) (d : Fin 3) : ℕ := if a.active d then a.slabBufferSize else 0

/-- solver.py 336-356: the boundary condition before "ic" sides get their value. -/
def SolverArgs.initBC (a : SolverArgs K) (slabs : Fin 3 → Side → Slab K) (names : List String) :
    Except PyErr (BC K (State K a.np) × List String) :=
  match a.bc with
  | none => (⟨fun _ => .tuple [.periodic, .periodic], fun _ => .single .other⟩ : BCArgs K (State K a.np)).init none names
  | some b => b.init (some slabs) names

/-- solver.py 358-362: the value of "ic" sides. -/
def setIcValues (bc : BC K V) (u0 : BCValue K V) : BC K V :=
  { bc with value := fun d s => if bc.kind d s = .ic then u0 else bc.value d s }

/-- solver.py 402-420: the arrays allocated. -/
def solverArrays : List String := ["w", "mean trouble", "mean NAD mag", "mean PAD mag", "F", "G", "H"]

/-- solver.py 231-233: the divisions by the numbers of cells. -/
def checkCells (n : Fin 3 → ℕ) : Except PyErr Unit := if ∃ d, n d = 0 then .error .zeroDivisionError else .ok ()

/-- solver.py 42-218 `EulerSolver.__init__`, in the order of the calls at 167-193. `gauss` is `leggauss`, `junk` is what
`np.empty` holds. -/
def SolverArgs.build (a : SolverArgs K) (gauss : ℕ → List (K × K)) (junk : ℕ → Ix → K) : Except PyErr (Built K a.np) := do
  let _ ← checkCells a.n
  let hs ← HydroState.init (a.passives.map Prod.fst) 4
  let _ ← buildIC hs a.core a.passives junk (meshgen a.n a.dom)
  let u ← initialArray a.gamma gauss (a.icFunc hs junk) a.conservativeIc a.fvIc a.n a.dom a.p
  let names ← takeName [] "u"
  let mesh ← uniformMeshgen a.n a.dom a.thickness
  let slabs ← mesh.unpack
  let bcn ← a.initBC slabs names
  let names ← takeNames bcn.2 solverArrays
  let riem ← riemannOf a.riemannSolver
  let c : EulerConfig K a.np :=
    ⟨⟨a.gamma, a.csqFloor, a.sqrt⟩, riem, a.n, a.p, solverSpacing a.n a.dom, a.cfl, a.fixedDt,
      setIcValues bcn.1 (a.u0 hs junk), none⟩
  return ⟨c.limited a.limiter, u, names⟩

end FVHOE
