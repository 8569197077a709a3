import Mathlib.Data.Rat.Defs
import Mathlib.Algebra.Field.Basic
import Verif.Model.BC

/-!
Model of `fv_uniform_meshgen` (fvhoe/fv.py 12-85). Zero cell numbers along an axis, for which the
code raises ZeroDivisionError, are excluded by the hypotheses of the theorems.
-/

namespace FVHOE

variable {K : Type} [Field K]

/-- `np.linspace(a, b, m + 1)[k]`. -/
def linspaceAt (a b : K) (m : ℕ) (k : ℤ) : K := a + k * ((b - a) / m)

/-- fv.py 34-44: cell centres `0.5 * (bound[1:] + bound[:-1])` of one direction. -/
def midAt (a b : K) (m : ℕ) (k : ℤ) : K :=
  1 / 2 * (linspaceAt a b m (k + 1) + linspaceAt a b m k)

/-- fv.py 34-51: the uniform mesh `np.meshgrid(x_mid, y_mid, z_mid, indexing="ij")`. -/
def meshgen (n : Fin 3 → ℕ) (dom : Fin 3 → K × K) : Slab K where
  coord := fun a => ⟨n, fun j => midAt (dom a).1 (dom a).2 (n a) (j a)⟩

/-- fv.py 57: mesh spacing. -/
def meshH (n : Fin 3 → ℕ) (dom : Fin 3 → K × K) (e : Fin 3) : K := ((dom e).2 - (dom e).1) / n e

/-- fv.py 61-81: the mesh of one slab of thickness `gw`. -/
def meshSlab (n : Fin 3 → ℕ) (dom : Fin 3 → K × K) (gw : Fin 3 → ℕ) (d : Fin 3) (s : Side) : Slab K :=
  meshgen (fun e => if e = d then gw e else n e + 2 * gw e) (fun e =>
    if e = d then
      match s with
      | .l => ((dom e).1 - meshH n dom e * gw e, (dom e).1)
      | .r => ((dom e).2, (dom e).2 + meshH n dom e * gw e)
    else ((dom e).1 - meshH n dom e * gw e, (dom e).2 + meshH n dom e * gw e))

end FVHOE
