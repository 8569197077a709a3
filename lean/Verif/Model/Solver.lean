import Mathlib.Algebra.Order.Field.Basic
import Verif.Model.BC
import Verif.Model.Muscl
import Verif.Model.Hydro
import Verif.Model.Riemann
import Verif.Model.ODE

/-!
Model of the right-hand side of `fvhoe/solver.py` (422-792).

The pipeline is written for a column of variables of any type `V` with the pointwise physics as
parameters of the record `Scheme`; `Verif/Model/Euler.lean` supplies the Euler equations. Timer calls
are modelled in `Verif/Model/TimerTrace.lean`, the bookkeeping of troubles in
`Verif/Model/TroubleLog.lean`. Only numpy arrays (no cupy) are considered.
-/

namespace FVHOE

/-- The options of the a-posteriori limiter: detection (slope_limiting.py 87-244 applied to the
active scalars of the two primitive arrays), the spreading to faces (247-384), `force_trouble`, and
the slope limiter of the fallback scheme (`None` or a limiter). An unknown limiter name raises and is
not modelled. -/
structure Limiting (K V : Type) where
  detect : Arr V → Arr V → Except PyErr (Arr Bool)
  broadcast : Arr Bool → Except PyErr (Fin 3 → Arr K)
  force : Bool
  slope : Option (V → V → V)

/-- What the right-hand side reads from the solver object. -/
structure Scheme (K V : Type) where
  /-- cells per direction, `self.n` -/
  n : Fin 3 → ℕ
  /-- degrees, `self.p` -/
  p : Fin 3 → ℕ
  /-- mesh spacings, `self.h` -/
  h : Fin 3 → K
  /-- `compute_primitives`, pointwise -/
  prim : V → V
  /-- `self.riemann_solver` for a direction, pointwise -/
  riem : Fin 3 → V → V → V
  /-- signal speed maximised by `hydro_dt`, for a given `ndim` -/
  speed : ℕ → V → K
  /-- negation of the normal momentum, for reflective sides -/
  negate : Fin 3 → V → V
  cfl : K
  fixedDt : Option K
  bc : BC K V
  limiting : Option (Limiting K V)

variable {K : Type} [Field K] [LinearOrder K] {V : Type} [AddCommGroup V] [Module K V]

/-- solver.py 241-243 `self.xdim`, `self.ydim`, `self.zdim`. -/
def Scheme.active (S : Scheme K V) (d : Fin 3) : Bool := !(S.n d == 1 && S.p d == 0)

/-- solver.py 244-251 `self.ndim`. -/
def Scheme.ndim (S : Scheme K V) : ℕ := ([0, 1, 2] : List (Fin 3)).countP fun d => S.active d

/-- `int(np.ceil(p / 2))`. -/
def ceilHalf (p : ℕ) : ℕ := (p + 1) / 2

/-- solver.py 492-493: the ghost width needed by the flux computation. -/
def fluxGw (p : Fin 3 → ℕ) : ℕ :=
  let pmax := max (max (p 0) (p 1)) (p 2)
  max (ceilHalf pmax + 1) (2 * ceilHalf pmax)

/-- solver.py 753-792 `interpolate_primitives_from_conservatives` with `fv_average=True`. -/
def primitivesFromConservatives (S : Scheme K V) (selfT : K) (junk : Ix → V) (p gw : Fin 3 → ℕ)
    (u : Arr V) : Except PyErr (Arr V) := do
  let ubc ← S.bc.apply S.negate u (fun d => gw d + 2 * ceilHalf (p d)) selfT junk
  let uc ← interpolateCellCenters K ubc p
  interpolateFvAverages K (uc.map S.prim) p

/-- hydro.py 270-294 `hydro_dt` with the signal speed as a parameter. -/
def cflDt (speed : V → K) (w : Arr V) (h CFL : K) : Except PyErr K := do
  let m ← npMax ((indexList w.shape).map fun j => speed (w.get j))
  .ok (CFL * h / m)

/-- solver.py 502-514: the time-step size. -/
def timeStep (S : Scheme K V) (w : Arr V) : Except PyErr K :=
  match S.fixedDt with
  | none => cflDt (S.speed S.ndim) w (min (min (S.h 0) (S.h 1)) (S.h 2)) S.cfl
  | some dt => .ok dt

/-- solver.py 519-566: the directions of the two centre interpolations before direction `d`. -/
def centerOrder (d : Fin 3) : Fin 3 × Fin 3 := if d = 0 then (2, 1) else if d = 1 then (0, 2) else (1, 0)

/-- solver.py 631-648: the directions of the two reconstructions for the fluxes in direction `d`. -/
def transverseOrder (d : Fin 3) : Fin 3 × Fin 3 :=
  if d = 0 then (1, 2) else if d = 1 then (0, 2) else (0, 1)

/-- solver.py 521-566: the left and right face values of every cell in direction `d`. -/
def faceValues (w : Arr V) (p : ℕ) (d : Fin 3) (slope : Option (V → V → V)) :
    Except PyErr (Arr V × Arr V) :=
  match slope with
  | some s =>
    if p = 1 then muscl K w d s
    else do
      let l ← conservativeInterpolation K w p d "l"
      let r ← conservativeInterpolation K w p d "r"
      return (l, r)
  | none => do
    let l ← conservativeInterpolation K w p d "l"
    let r ← conservativeInterpolation K w p d "r"
    return (l, r)

/-- solver.py 607-627: the number of ghost layers to cut off the fluxes of direction `d` along axis
`e`. -/
def excess (S : Scheme K V) (p : Fin 3 → ℕ) (d e : Fin 3) : ℤ :=
  if S.active e then
    if e = d then (fluxGw p : ℤ) - ceilHalf (p e) - 1 else (fluxGw p : ℤ) - 2 * ceilHalf (p e)
  else 0

/-- solver.py 519-650: the fluxes in an active direction `d` from the primitive cell averages. -/
def fluxDir (S : Scheme K V) (p : Fin 3 → ℕ) (slope : Option (V → V → V)) (w : Arr V) (d : Fin 3) :
    Except PyErr (Arr V) := do
  let a ← conservativeInterpolation K w (p (centerOrder d).1) (centerOrder d).1 "c"
  let b ← conservativeInterpolation K a (p (centerOrder d).2) (centerOrder d).2 "c"
  let lr ← faceValues (K := K) b (p d) d slope
  let f ← (lr.2.cut d 0 (-1)).zip (S.riem d) (lr.1.cut d 1 0)
  let t1 ← transverseReconstruction K f (p (transverseOrder d).1) (transverseOrder d).1
  let t2 ← transverseReconstruction K t1 (p (transverseOrder d).2) (transverseOrder d).2
  return ((t2.cut 0 (excess S p d 0) (-(excess S p d 0))).cut 1 (excess S p d 1)
    (-(excess S p d 1))).cut 2 (excess S p d 2) (-(excess S p d 2))

/-- The flux of direction `d`, or the stored array when the direction is inactive
(solver.py 631-650). -/
def fluxOrMem (S : Scheme K V) (p : Fin 3 → ℕ) (slope : Option (V → V → V)) (w : Arr V)
    (mem : Fin 3 → Arr V) (d : Fin 3) : Except PyErr (Arr V) :=
  if S.active d then fluxDir S p slope w d else .ok (mem d)

/-- Evaluate something for each direction in turn. -/
def forDims {α : Type} (f : Fin 3 → Except PyErr α) : Except PyErr (Fin 3 → α) := do
  let a ← f 0
  let b ← f 1
  let c ← f 2
  return ![a, b, c]

/-- solver.py 456-651 `hydrofluxes`; `mem` are the stored flux arrays, `junk` the uninitialised
ghost memory. (The code interleaves the three directions stage by stage; they do not interact.) -/
def hydrofluxes (S : Scheme K V) (selfT : K) (junk : Ix → V) (mem : Fin 3 → Arr V) (p : Fin 3 → ℕ)
    (slope : Option (V → V → V)) (u : Arr V) : Except PyErr (K × (Fin 3 → Arr V)) :=
  if slope.isSome = true ∧ 1 < max (max (p 0) (p 1)) (p 2) then .error .valueError
  else do
    let w ← primitivesFromConservatives S selfT junk p
      (fun d => if S.active d then fluxGw p else 0) u
    let dt ← timeStep S w
    let F ← forDims (fluxOrMem S p slope w mem)
    return (dt, F)

/-- `dudt += diff`, where `none` is the initial number 0.0. -/
def accumulate (acc : Option (Arr V)) (diff : Arr V) : Except PyErr (Option (Arr V)) :=
  match acc with
  | none => .ok (some diff)
  | some A => (A.addInPlace diff).map some

/-- solver.py 746-751: one term of `euler_equation`; `none` stands for the initial `0.0`. -/
def addTerm (S : Scheme K V) (F : Fin 3 → Arr V) (acc : Option (Arr V)) (d : Fin 3) :
    Except PyErr (Option (Arr V)) :=
  if S.active d then do
    let diff ← ((F d).cut d 1 0).zip (fun a b => (-(1 / S.h d)) • (a - b)) ((F d).cut d 0 (-1))
    accumulate acc diff
  else .ok acc

/-- solver.py 734-751 `euler_equation`. Without an active direction the code returns the number 0.0,
represented by a zero array. -/
def eulerEquation (S : Scheme K V) (F : Fin 3 → Arr V) : Except PyErr (Arr V) := do
  let r ← ([0, 1, 2] : List (Fin 3)).foldlM (addTerm S F) none
  .ok (r.getD ⟨S.n, fun _ => 0⟩)

/-- solver.py 710-714, 719: degrees of the fallback scheme. -/
def fallbackP (p : Fin 3 → ℕ) : Fin 3 → ℕ := fun d => if 0 < p d then 1 else 0

/-- `np.any`. -/
def anyTrue (A : Arr Bool) : Bool := (indexList A.shape).any fun j => A.get j

/-- solver.py 727-731: `(1 - theta) * F + theta * Fl` for one direction, stored into the flux
array. -/
def blend (theta : Arr K) (F Fl : Arr V) : Except PyErr (Arr V) := do
  let a ← theta.zip (fun t x => (1 - t) • x) F
  let b ← theta.zip (fun t x => t • x) Fl
  let c ← a.zip (fun x y => x + y) b
  F.assign c

/-- solver.py 653-732 `revise_fluxes`. -/
def reviseFluxes (S : Scheme K V) (L : Limiting K V) (selfT : K) (junk : ℕ → Ix → V)
    (u : Arr V) (F : Fin 3 → Arr V) (dt : K) : Except PyErr (Fin 3 → Arr V) := do
  let dudt ← eulerEquation S F
  let ustar ← u.zip (fun x y => x + dt • y) dudt
  let gw : Fin 3 → ℕ := fun d => if S.active d then 3 else 0
  let w ← primitivesFromConservatives S selfT (junk 1) S.p gw u
  let wstar ← primitivesFromConservatives S selfT (junk 2) S.p gw ustar
  let troubled ← L.detect w wstar
  let troubled := if L.force then troubled.map fun _ => true else troubled
  if anyTrue troubled then do
    let r ← hydrofluxes S selfT (junk 3) F (fallbackP S.p) L.slope u
    let theta ← L.broadcast troubled
    forDims fun d => blend (theta d) (F d) (r.2 d)
  else .ok F

/-- solver.py 442-450: the limiting stage of `hydrodynamics`. -/
def limitFluxes (S : Scheme K V) (selfT : K) (junk : ℕ → Ix → V) (u : Arr V) (F : Fin 3 → Arr V)
    (dt : K) : Except PyErr (Fin 3 → Arr V) :=
  match S.limiting with
  | none => .ok F
  | some L => reviseFluxes S L selfT junk u F dt

/-- solver.py 433-450: the flux arrays `F`, `G`, `H` that `hydrodynamics` leaves in `self.arrays`. -/
def solverFluxes (S : Scheme K V) (selfT : K) (junk : ℕ → Ix → V) (mem : Fin 3 → Arr V)
    (u : Arr V) : Except PyErr (K × (Fin 3 → Arr V)) := do
  let r ← hydrofluxes S selfT (junk 0) mem S.p none u
  let F ← forDims fun d => (mem d).assign (r.2 d)
  let F' ← limitFluxes S selfT junk u F r.1
  return (r.1, F')

/-- solver.py 429-454 `hydrodynamics`. -/
def hydrodynamics (S : Scheme K V) (selfT : K) (junk : ℕ → Ix → V) (mem : Fin 3 → Arr V)
    (u : Arr V) : Except PyErr (K × Arr V) := do
  let r ← solverFluxes S selfT junk mem u
  let dudt ← eulerEquation S r.2
  return (r.1, dudt)

/-- The stored flux arrays with their allocated shapes (solver.py 415-418) and arbitrary contents. -/
def Scheme.mem (S : Scheme K V) (contents : Fin 3 → Ix → V) : Fin 3 → Arr V := fun d =>
  ⟨fun e => if e = d then S.n e + 1 else S.n e, contents d⟩

/-- solver.py 422-427 `f` as the right-hand side of the ODE model. States are functions on ℤ³ of which
only the entries over the `n` cells are read; the derivative is zero elsewhere. The state array of the
solver has shape `n`; a derivative of another shape would raise when added to it. -/
def solverRHS (S : Scheme K V) (junk : ℕ → Ix → V) (mem : Fin 3 → Ix → V) : RHS K (Ix → V) :=
  fun selfT _ u => do
    let r ← hydrodynamics S selfT junk (S.mem mem) ⟨S.n, u⟩
    if r.2.shape = S.n then
      .ok (r.1, fun i => if (⟨S.n, u⟩ : Arr V).InB i then r.2.get i else 0)
    else .error .valueError

end FVHOE
