import Mathlib.Algebra.Order.Field.Basic
import Verif.Py

/-!
Model of `fvhoe/timer.py`, class `Timer`.

The two dictionaries `_start_time` and `cum_time` always have exactly the keys in `cats`
(timer.py 34-36 adds to all three together), so they are modelled as total functions that are
only consulted for names in `cats`. `precision`, `to_dict` and `report` only format and are
modelled in `Verif/Model/Attrs.lean`. The clock `time.time()` is an argument. Methods return the state after the call
together with the exception raised, if any.
-/

namespace FVHOE

variable {K : Type} [Field K] [LinearOrder K] [IsStrictOrderedRing K]

/-- timer.py 11-21: fields of `Timer`. -/
structure Timer (K : Type) where
  cats : List String
  startTime : String → Option K
  cumTime : String → K

/-- timer.py 17-19: the state before `add_cat` in `__init__`. -/
def Timer.empty : Timer K := ⟨[], fun _ => none, fun _ => 0⟩

/-- timer.py 23-36 `add_cat`, the loop over an iterable of names. A failing name leaves the
names before it added, as in the code. A single string is the one-element list. -/
def Timer.addCat (t : Timer K) : List String → Timer K × Option PyErr
  | [] => (t, none)
  | c :: cs =>
    if c ∈ t.cats then (t, some .valueError)
    else Timer.addCat
      { cats := t.cats ++ [c]
        startTime := Function.update t.startTime c none
        cumTime := Function.update t.cumTime c 0 } cs

/-- timer.py 47-58 `start`. -/
def Timer.start (t : Timer K) (cat : String) (now : K) : Timer K × Option PyErr :=
  if cat ∉ t.cats then (t, some .valueError)
  else match t.startTime cat with
    | some _ => (t, some .runtimeError)
    | none => ({ t with startTime := Function.update t.startTime cat (some now) }, none)

/-- timer.py 60-72 `stop`. -/
def Timer.stop (t : Timer K) (cat : String) (now : K) : Timer K × Option PyErr :=
  if cat ∉ t.cats then (t, some .valueError)
  else match t.startTime cat with
    | none => (t, some .runtimeError)
    | some s =>
      ({ t with
          cumTime := Function.update t.cumTime cat (t.cumTime cat + (now - s))
          startTime := Function.update t.startTime cat none }, none)

/-- A call of the public API; `now` is what `time.time()` returns during the call. -/
inductive TimerOp (K : Type) where
  | addCat (cs : List String)
  | start (c : String) (now : K)
  | stop (c : String) (now : K)

/-- Dispatch of one call. -/
def Timer.step (t : Timer K) : TimerOp K → Timer K × Option PyErr
  | .addCat cs => t.addCat cs
  | .start c now => t.start c now
  | .stop c now => t.stop c now

/-- A whole history: final state and the outcome of each call in order. -/
def Timer.runOps (t : Timer K) : List (TimerOp K) → Timer K × List (TimerOp K × Option PyErr)
  | [] => (t, [])
  | op :: ops =>
    let r := t.step op
    let s := Timer.runOps r.1 ops
    (s.1, (op, r.2) :: s.2)

end FVHOE
