import Mathlib.Algebra.BigOperators.Fin
import Verif.Spec.Lattice
import Verif.Model.Solver

/-!
The right-hand side on the infinite lattice: the functions the array computations of the solver hold
on their boxes. Cell `i` has its left face in direction `d` at lattice point `i` and its right face
at `i + e_d`. The weights are those of `Verif/Model/Stencils.lean`.
-/

namespace FVHOE

variable {K : Type} [Field K] [LinearOrder K] {V : Type} [AddCommGroup V] [Module K V]

/-- The weights, or none when the degree is not supported. -/
def wts (x : Except PyErr (List ℚ)) : List ℚ := (x.toOption).getD []

/-- Interpolation to cell centres along `d`. -/
def latC (K : Type) [Field K] {V : Type} [AddCommGroup V] [Module K V] (p : ℕ) (d : Fin 3)
    (Φ : Ix → V) : Ix → V := lsweep K d (ceilHalf p) (wts (conservativeWeights p "c")) Φ

/-- Interpolation to left faces along `d`. -/
def latL (K : Type) [Field K] {V : Type} [AddCommGroup V] [Module K V] (p : ℕ) (d : Fin 3)
    (Φ : Ix → V) : Ix → V := lsweep K d (ceilHalf p) (wts (conservativeWeights p "l")) Φ

/-- Interpolation to right faces along `d`. -/
def latR (K : Type) [Field K] {V : Type} [AddCommGroup V] [Module K V] (p : ℕ) (d : Fin 3)
    (Φ : Ix → V) : Ix → V := lsweep K d (ceilHalf p) (wts (conservativeWeights p "r")) Φ

/-- Reconstruction of averages along `d`. -/
def latT (K : Type) [Field K] {V : Type} [AddCommGroup V] [Module K V] (p : ℕ) (d : Fin 3)
    (Φ : Ix → V) : Ix → V := lsweep K d (ceilHalf p) (wts (transverseWeights p)) Φ

/-- Centre values of the conservative variables. -/
def latCenters (K : Type) [Field K] {V : Type} [AddCommGroup V] [Module K V] (p : Fin 3 → ℕ)
    (Φ : Ix → V) : Ix → V := latC K (p 2) 2 (latC K (p 1) 1 (latC K (p 0) 0 Φ))

/-- Cell averages of the primitive variables. -/
def latPrim (K : Type) [Field K] {V : Type} [AddCommGroup V] [Module K V] (prim : V → V)
    (p : Fin 3 → ℕ) (Φ : Ix → V) : Ix → V :=
  latT K (p 2) 2 (latT K (p 1) 1 (latT K (p 0) 0 fun i => prim (latCenters K p Φ i)))

/-- Limited slope along `d`. -/
def latSlope (d : Fin 3) (s : V → V → V) (Ψ : Ix → V) : Ix → V := fun i =>
  s (Ψ i - Ψ (i - Pi.single d 1)) (Ψ (i + Pi.single d 1) - Ψ i)

/-- Left face values of the cells. -/
def latFaceL (K : Type) [Field K] {V : Type} [AddCommGroup V] [Module K V] (p : ℕ) (d : Fin 3)
    (slope : Option (V → V → V)) (Ψ : Ix → V) : Ix → V :=
  match slope with
  | some s => if p = 1 then fun i => Ψ i - (1 / 2 : K) • latSlope d s Ψ i else latL K p d Ψ
  | none => latL K p d Ψ

/-- Right face values of the cells. -/
def latFaceR (K : Type) [Field K] {V : Type} [AddCommGroup V] [Module K V] (p : ℕ) (d : Fin 3)
    (slope : Option (V → V → V)) (Ψ : Ix → V) : Ix → V :=
  match slope with
  | some s => if p = 1 then fun i => Ψ i + (1 / 2 : K) • latSlope d s Ψ i else latR K p d Ψ
  | none => latR K p d Ψ

/-- Primitive values averaged over the direction `d`, pointwise across it. -/
def latLine (K : Type) [Field K] {V : Type} [AddCommGroup V] [Module K V] (p : Fin 3 → ℕ) (d : Fin 3)
    (W : Ix → V) : Ix → V :=
  latC K (p (centerOrder d).2) (centerOrder d).2 (latC K (p (centerOrder d).1) (centerOrder d).1 W)

/-- Numerical flux at face midpoints. -/
def latMid (K : Type) [Field K] {V : Type} [AddCommGroup V] [Module K V] (riem : V → V → V)
    (p : Fin 3 → ℕ) (slope : Option (V → V → V)) (d : Fin 3) (W : Ix → V) : Ix → V := fun i =>
  riem (latFaceR K (p d) d slope (latLine K p d W) (i - Pi.single d 1))
    (latFaceL K (p d) d slope (latLine K p d W) i)

/-- Face-averaged numerical flux. -/
def latFlux (K : Type) [Field K] {V : Type} [AddCommGroup V] [Module K V] (riem : V → V → V)
    (p : Fin 3 → ℕ) (slope : Option (V → V → V)) (d : Fin 3) (W : Ix → V) : Ix → V :=
  latT K (p (transverseOrder d).2) (transverseOrder d).2
    (latT K (p (transverseOrder d).1) (transverseOrder d).1 (latMid K riem p slope d W))

/-- Divergence of the fluxes over the active directions. -/
def latDiv (act : Fin 3 → Bool) (h : Fin 3 → K) (F : Fin 3 → Ix → V) : Ix → V := fun i =>
  ∑ d : Fin 3, if act d then (-(1 / h d)) • (F d (i + Pi.single d 1) - F d i) else 0

/-- The cells of the domain. -/
def InCells (n : Fin 3 → ℕ) (i : Ix) : Prop := ∀ d, 0 ≤ i d ∧ i d < n d

/-- The faces of the domain in direction `d`. -/
def InFaces (n : Fin 3 → ℕ) (d : Fin 3) (i : Ix) : Prop :=
  ∀ e, 0 ≤ i e ∧ i e < n e + (Pi.single d 1 : Ix) e

instance (n : Fin 3 → ℕ) (i : Ix) : Decidable (InCells n i) := by unfold InCells; infer_instance

instance (n : Fin 3 → ℕ) (d : Fin 3) (i : Ix) : Decidable (InFaces n d i) := by
  unfold InFaces; infer_instance

/-- The cells and ghost cells whose signal speed bounds the time step. -/
def InDtBox (S : Scheme K V) (p : Fin 3 → ℕ) (i : Ix) : Prop := ∀ d,
  -(if S.active d then (fluxGw p : ℤ) else 0) ≤ i d ∧
    i d < S.n d + (if S.active d then (fluxGw p : ℤ) else 0)

/-- `dt` is the prescribed step, or the CFL number times the smallest spacing over the largest
signal speed of the primitive averages `W`. -/
def IsDt (S : Scheme K V) (p : Fin 3 → ℕ) (W : Ix → V) (dt : K) : Prop :=
  match S.fixedDt with
  | some x => dt = x
  | none => ∃ m, (∃ i, InDtBox S p i ∧ S.speed S.ndim (W i) = m) ∧
      (∀ i, InDtBox S p i → S.speed S.ndim (W i) ≤ m) ∧
      dt = S.cfl * min (min (S.h 0) (S.h 1)) (S.h 2) / m

end FVHOE
