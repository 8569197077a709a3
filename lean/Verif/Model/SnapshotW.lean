import Verif.Model.Solver

/-!
Model of what `EulerSolver.snapshot` stores (fvhoe/solver.py 840-874), without the timers (those are in
`Verif/Model/TimerTrace.lean`) and without the trouble arrays (those are in `Verif/Model/TroubleLog.lean`).
-/

namespace FVHOE

variable {K : Type} [Field K] [LinearOrder K] {V : Type} [AddCommGroup V] [Module K V]

/-- solver.py 753-792 `interpolate_primitives_from_conservatives` as called by `snapshot` (solver.py 845-849), with
`gw=(0, 0, 0)`; `fv` is `self.snapshots_as_fv_averages`. The result is assigned to the array "w" of shape `S.n`. -/
def snapshotPrimitives (S : Scheme K V) (selfT : K) (junk : Ix → V) (fv : Bool) (u : Ix → V) :
    Except PyErr (Arr V) := do
  let ubc ← S.bc.apply S.negate ⟨S.n, u⟩ (fun d => 0 + (if fv then 2 else 1) * ceilHalf (S.p d)) selfT junk
  let uc ← interpolateCellCenters K ubc S.p
  if fv then interpolateFvAverages K (uc.map S.prim) S.p else return uc.map S.prim

/-- The entries "t" and "w" of a snapshot (solver.py 858-864). `get_numpy` copies the array. -/
structure StoredSnap (K V : Type) where
  t : K
  w : Arr V

/-- solver.py 840-874 `snapshot`: `mk` logs the primitive variables of the present state, whatever the uninitialised
memory holds. -/
def IsSolverSnapshot (S : Scheme K V) (fv : Bool) (mk : ODEState K (Ix → V) (StoredSnap K V) → StoredSnap K V) : Prop :=
  ∀ st, (mk st).t = st.t ∧ ∃ junk, snapshotPrimitives S st.t junk fv st.u = .ok (mk st).w

end FVHOE
