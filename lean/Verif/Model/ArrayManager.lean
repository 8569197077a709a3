import Mathlib.Logic.Function.Basic
import Mathlib.Data.List.Basic
import Verif.Py

/-!
Model of `fvhoe/array_management.py` with object identity.

Python objects are references into a heap. An array is a numpy or a cupy array with some content
(opaque here); anything else is `other`. Assignment to an array changes the heap at its reference.
`cp.asarray` of a numpy array allocates a cupy array; `cp.asnumpy` of a cupy array allocates a numpy
array and of a numpy array returns it unchanged; `.copy()` allocates an array of the same kind.
-/

namespace FVHOE

variable {α : Type}

/-- A heap object. -/
inductive PyObj (α : Type) where
  | numpy (content : α)
  | cupy (content : α)
  | other

/-- Content of an array object. -/
def PyObj.content : PyObj α → Option α
  | .numpy c => some c
  | .cupy c => some c
  | .other => none

/-- The world: the heap (references below `next` are allocated) and the manager's two fields
(array_management.py 18-19). -/
structure AMState (α : Type) where
  heap : ℕ → PyObj α
  next : ℕ
  arrays : String → Option ℕ
  usingCupy : Bool

/-- Allocate an object. -/
def AMState.alloc (s : AMState α) (o : PyObj α) : AMState α × ℕ :=
  ({ s with heap := Function.update s.heap s.next o, next := s.next + 1 }, s.next)

/-- array_management.py 24-28 `enable_cupy`; `avail` is CUPY_AVAILABLE. -/
def AMState.enable (avail : Bool) (s : AMState α) : AMState α :=
  if avail then { s with usingCupy := true } else s

/-- array_management.py 30-31 `disable_cupy`. -/
def AMState.disable (s : AMState α) : AMState α := { s with usingCupy := false }

/-- array_management.py 33-40 `add`. -/
def AMState.add (s : AMState α) (name : String) (ref : ℕ) : AMState α × Except PyErr Unit :=
  if (s.arrays name).isSome then (s, .error .keyError)
  else
    match s.heap ref with
    | .numpy c =>
      if s.usingCupy then
        let (s, r) := s.alloc (.cupy c)
        ({ s with arrays := Function.update s.arrays name (some r) }, .ok ())
      else ({ s with arrays := Function.update s.arrays name (some ref) }, .ok ())
    | _ => (s, .error .typeError)

/-- array_management.py 46-48 `remove`. -/
def AMState.remove (s : AMState α) (name : String) : AMState α × Except PyErr Unit :=
  match s.arrays name with
  | none => (s, .error .keyError)
  | some _ => ({ s with arrays := Function.update s.arrays name none }, .ok ())

/-- array_management.py 50-54 `get_numpy`. -/
def AMState.getNumpy (s : AMState α) (name : String) : AMState α × Except PyErr ℕ :=
  match s.arrays name with
  | none => (s, .error .keyError)
  | some r =>
    if s.usingCupy then
      match s.heap r with
      | .cupy c => let (s, r') := s.alloc (.numpy c); (s, .ok r')
      | _ => (s, .ok r)
    else let (s, r') := s.alloc (s.heap r); (s, .ok r')

/-- array_management.py 56-58 `__call__`. -/
def AMState.call (s : AMState α) (name : String) : Except PyErr ℕ :=
  match s.arrays name with
  | none => .error .keyError
  | some r => .ok r

/-- `array[...] = content` through a reference held by the caller. -/
def PyObj.set : PyObj α → α → PyObj α
  | .numpy _, c => .numpy c
  | .cupy _, c => .cupy c
  | .other, _ => .other

/-- `array[...] = content`. -/
def AMState.write (s : AMState α) (ref : ℕ) (c : α) : AMState α :=
  { s with heap := Function.update s.heap ref ((s.heap ref).set c) }

/-- What a program can do with a manager and its arrays. `writeVia` is `am(name)[...] = c`, `new` creates
an object of the caller. -/
inductive AMOp (α : Type) where
  | enable
  | disable
  | add (name : String) (ref : ℕ)
  | remove (name : String)
  | getNumpy (name : String)
  | call (name : String)
  | writeVia (name : String) (c : α)
  | write (ref : ℕ) (c : α)
  | new (o : PyObj α)

/-- One operation; the second component is the returned reference, if any, or the exception. -/
def AMState.step (avail : Bool) (s : AMState α) : AMOp α → AMState α × Except PyErr (Option ℕ)
  | .enable => (s.enable avail, .ok none)
  | .disable => (s.disable, .ok none)
  | .add name ref => let (s', r) := s.add name ref; (s', r.map fun _ => none)
  | .remove name => let (s', r) := s.remove name; (s', r.map fun _ => none)
  | .getNumpy name => let (s', r) := s.getNumpy name; (s', r.map some)
  | .call name => (s, (s.call name).map some)
  | .writeVia name c =>
    match s.call name with
    | .error e => (s, .error e)
    | .ok r => (s.write r c, .ok none)
  | .write ref c => (s.write ref c, .ok none)
  | .new o => let (s', r) := s.alloc o; (s', .ok (some r))

/-- A sequence of operations; exceptions are caught by the caller, who goes on. -/
def AMState.exec (avail : Bool) (s : AMState α) : List (AMOp α) → AMState α
  | [] => s
  | op :: ops => ((s.step avail op).1).exec avail ops

/-- The manager at construction (array_management.py 18-19) in a world with some objects. -/
def AMState.init (heap : ℕ → PyObj α) (next : ℕ) (usingCupy : Bool) : AMState α :=
  ⟨heap, next, fun _ => none, usingCupy⟩

end FVHOE
