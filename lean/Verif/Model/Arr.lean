import Mathlib.Algebra.Group.Pi.Basic
import Mathlib.Algebra.Module.Pi
import Mathlib.Data.Fin.VecNotation
import Mathlib.Data.Fintype.Pi
import Verif.Py

/-!
Numpy arrays with three spatial axes, as far as FVHOE uses them: basic slices, reversal, elementwise
operations with broadcasting, in-place updates.

The code's arrays have a leading variable axis, (# vars, nx, ny, nz); here an entry is the whole
vector of variables, so array axis `i + 1` of the code is spatial axis `i`. Only entries whose index
is in range are meaningful.
-/

namespace FVHOE

/-- A lattice index. -/
abbrev Ix := Fin 3 → ℤ

/-- An array: a size per axis and the entries. -/
structure Arr (α : Type) where
  shape : Fin 3 → ℕ
  get : Ix → α

variable {α β γ : Type}

/-- The index is in range. -/
def Arr.InB (A : Arr α) (j : Ix) : Prop := ∀ d, 0 ≤ j d ∧ j d < A.shape d

instance (A : Arr α) (j : Ix) : Decidable (A.InB j) := by unfold Arr.InB; infer_instance

/-- Python's clipping of a slice bound for an axis of length `n` (negative bounds count from the
end). -/
def pyBound (n : ℕ) (a : ℤ) : ℕ := if a < 0 then (a + n).toNat else min a.toNat n

/-- Start of `slice(a, b)`. -/
def sliceStart (n : ℕ) : Option ℤ → ℕ
  | none => 0
  | some a => pyBound n a

/-- Stop of `slice(a, b)`. -/
def sliceStop (n : ℕ) : Option ℤ → ℕ
  | none => n
  | some b => pyBound n b

/-- `A[..., a:b, ...]` along axis `d`. -/
def Arr.slice (A : Arr α) (d : Fin 3) (a b : Option ℤ) : Arr α where
  shape := Function.update A.shape d (sliceStop (A.shape d) b - sliceStart (A.shape d) a)
  get := fun j => A.get (j + Pi.single d (sliceStart (A.shape d) a : ℤ))

/-- `x or None` for an integer. -/
def orNone (a : ℤ) : Option ℤ := if a = 0 then none else some a

/-- hydro.py 123-134: `hs(axis=d, cut=(a, b))` turns zero bounds into `None`. -/
def Arr.cut (A : Arr α) (d : Fin 3) (a b : ℤ) : Arr α := A.slice d (orNone a) (orNone b)

/-- `A[..., ::-1, ...]` along axis `d` (hydro.py 123-134 with `cut=(0, 0), step=-1`). -/
def Arr.flip (A : Arr α) (d : Fin 3) : Arr α where
  shape := A.shape
  get := fun j => A.get (Function.update j d ((A.shape d : ℤ) - 1 - j d))

/-- `np.zeros_like(A)`. -/
def Arr.zerosLike [Zero β] (A : Arr α) : Arr β := ⟨A.shape, fun _ => 0⟩

/-- Elementwise function of one array. -/
def Arr.map (f : α → β) (A : Arr α) : Arr β := ⟨A.shape, fun j => f (A.get j)⟩

/-- Two sizes can be broadcast together. -/
def dimCompat (s t : ℕ) : Prop := s = t ∨ s = 1 ∨ t = 1

instance (s t : ℕ) : Decidable (dimCompat s t) := by unfold dimCompat; infer_instance

/-- The broadcast size. -/
def dimBroadcast (s t : ℕ) : ℕ := if s = 1 then t else s

/-- Index into an operand of a broadcast operation: axes of length 1 are repeated. -/
def Arr.bix (A : Arr α) (j : Ix) : Ix := fun d => if A.shape d = 1 then 0 else j d

/-- Elementwise function of two arrays with numpy broadcasting; incompatible sizes raise. -/
def Arr.zip (f : α → β → γ) (A : Arr α) (B : Arr β) : Except PyErr (Arr γ) :=
  if ∀ d, dimCompat (A.shape d) (B.shape d) then
    .ok ⟨fun d => dimBroadcast (A.shape d) (B.shape d), fun j => f (A.get (A.bix j)) (B.get (B.bix j))⟩
  else .error .valueError

/-- The operand can be broadcast to the shape of the destination. -/
def broadcastsTo (src dst : Fin 3 → ℕ) : Prop := ∀ d, src d = dst d ∨ src d = 1

instance (src dst : Fin 3 → ℕ) : Decidable (broadcastsTo src dst) := by
  unfold broadcastsTo; infer_instance

/-- `np.add(out, x, out=out)` and `out += x`: the result must have the shape of `out`. -/
def Arr.addInPlace [Add α] (out x : Arr α) : Except PyErr (Arr α) :=
  if broadcastsTo x.shape out.shape then
    .ok ⟨out.shape, fun j => out.get j + x.get (x.bix j)⟩
  else .error .valueError

/-- `dst[...] = src`. -/
def Arr.assign (dst src : Arr α) : Except PyErr (Arr α) :=
  if broadcastsTo src.shape dst.shape then .ok ⟨dst.shape, fun j => src.get (src.bix j)⟩
  else .error .valueError

/-- `A[..., a:b, ...] = src` along axis `d`. -/
def Arr.setSlice (A : Arr α) (d : Fin 3) (a b : Option ℤ) (src : Arr α) : Except PyErr (Arr α) :=
  let s := sliceStart (A.shape d) a
  let e := sliceStop (A.shape d) b
  if broadcastsTo src.shape (Function.update A.shape d (e - s)) then
    .ok ⟨A.shape, fun j =>
      if (s : ℤ) ≤ j d ∧ j d < e then src.get (src.bix (j + Pi.single d (-(s : ℤ)))) else A.get j⟩
  else .error .valueError

/-- `A[hs(axis=d, cut=(a, b))] = src`. -/
def Arr.setCut (A : Arr α) (d : Fin 3) (a b : ℤ) (src : Arr α) : Except PyErr (Arr α) :=
  A.setSlice d (orNone a) (orNone b) src

end FVHOE
