import Mathlib.Algebra.Module.Pi
import Mathlib.Data.Rat.Cast.Defs
import Mathlib.Data.Fin.VecNotation

/-!
Specification vocabulary on the infinite lattice ℤ³, independent of the array model.
-/

namespace FVHOE

/-- Weighted sum `∑ₖ wₖ f(s + k)`. -/
def wsum (K : Type) [Field K] {V : Type} [AddCommGroup V] [Module K V] :
    List ℚ → ℤ → (ℤ → V) → V
  | [], _, _ => 0
  | w :: ws, s, f => (w : K) • f s + wsum K ws (s + 1) f

/-- Convolution along axis `d` with a stencil of radius `r`. -/
def lsweep (K : Type) [Field K] {V : Type} [AddCommGroup V] [Module K V]
    (d : Fin 3) (r : ℤ) (ws : List ℚ) (Φ : (Fin 3 → ℤ) → V) : (Fin 3 → ℤ) → V :=
  fun i => wsum K ws (-r) fun k => Φ (i + Pi.single d k)

/-- How a function on a box is continued beyond one side of one axis: by the edge value, by the
mirror image (with a map applied to the value), periodically, or by given values. -/
inductive Ghost (V : Type) where
  | clamp
  | mirror (σ : V → V)
  | wrap
  | fixed (g : (Fin 3 → ℤ) → V)

/-- Value continued beyond the left side (`i d < 0`) of an axis with `n` cells. -/
def Ghost.left {V : Type} (G : Ghost V) (n : ℤ) (d : Fin 3) (Φ : (Fin 3 → ℤ) → V)
    (i : Fin 3 → ℤ) : V :=
  match G with
  | .clamp => Φ (Function.update i d 0)
  | .mirror σ => σ (Φ (Function.update i d (-1 - i d)))
  | .wrap => Φ (Function.update i d (i d % n))
  | .fixed g => g i

/-- Value continued beyond the right side (`n ≤ i d`) of an axis with `n` cells. -/
def Ghost.right {V : Type} (G : Ghost V) (n : ℤ) (d : Fin 3) (Φ : (Fin 3 → ℤ) → V)
    (i : Fin 3 → ℤ) : V :=
  match G with
  | .clamp => Φ (Function.update i d (n - 1))
  | .mirror σ => σ (Φ (Function.update i d (2 * n - 1 - i d)))
  | .wrap => Φ (Function.update i d (i d % n))
  | .fixed g => g i

/-- Continuation along one axis. -/
def extAxis {V : Type} (n : ℤ) (d : Fin 3) (gl gr : Ghost V) (Φ : (Fin 3 → ℤ) → V) :
    (Fin 3 → ℤ) → V := fun i =>
  if i d < 0 then gl.left n d Φ i else if n ≤ i d then gr.right n d Φ i else Φ i

/-- Continuation along x, then y, then z. -/
def extAll {V : Type} (n : Fin 3 → ℕ) (gl gr : Fin 3 → Ghost V) (Φ : (Fin 3 → ℤ) → V) :
    (Fin 3 → ℤ) → V :=
  extAxis (n 2) 2 (gl 2) (gr 2) (extAxis (n 1) 1 (gl 1) (gr 1) (extAxis (n 0) 0 (gl 0) (gr 0) Φ))

end FVHOE
