import Verif.Model.HydroState

/-!
Model of `functools.lru_cache` as used in `fvhoe/hydro.py` 72, `fvhoe/fv.py` 88 and 227, `fvhoe/stencils.py` 5, 25 and 181, and of
the objects `HydroState` in memory, whose addresses are their hashes (hydro.py 69-70).
-/

namespace FVHOE

/-- One call of a function decorated with `lru_cache(maxsize)` (fv.py 88, 227; stencils.py 5, 25, 181): the outcome and the cache
afterwards, entries last used first. `same` is Python's `==` of the arguments, `hashable` says whether `hash` of them exists (a list
has none, and the call raises TypeError). Exceptions are not stored. `maxsize = none` is Python's `None`. -/
def lruCall {A V : Type} (same : A → A → Bool) (hashable : A → Bool) (maxsize : Option ℕ) (f : A → Except PyErr V) (a : A)
    (cache : List (A × V)) : Except PyErr V × List (A × V) :=
  if hashable a = false then (.error .typeError, cache)
  else
    match cache.find? fun e => same e.1 a with
    | some e => (.ok e.2, e :: cache.eraseP fun e => same e.1 a)
    | none =>
      match f a with
      | .error x => (.error x, cache)
      | .ok v =>
        match maxsize with
        | none => (.ok v, (a, v) :: cache)
        | some n => (.ok v, ((a, v) :: cache).take n)

/-- Several calls one after the other. -/
def lruCalls {A V : Type} (same : A → A → Bool) (hashable : A → Bool) (maxsize : Option ℕ) (f : A → Except PyErr V) :
    List A → List (A × V) → List (Except PyErr V) × List (A × V)
  | [], cache => ([], cache)
  | a :: as, cache =>
    let (r, cache) := lruCall same hashable maxsize f a cache
    let (rs, cache) := lruCalls same hashable maxsize f as cache
    (r :: rs, cache)

deriving instance DecidableEq for VarArg
deriving instance DecidableEq for CutArg

/-- The arguments of `__call__` (hydro.py 73-82). -/
structure SlicerArgs where
  var : VarArg
  x : CutArg
  y : CutArg
  z : CutArg
  axis : Option ℤ
  cut : CutArg
  step : Option ℤ
  deriving DecidableEq

/-- The undecorated `__call__` with these arguments. -/
def HydroState.slices (hs : HydroState) (a : SlicerArgs) : Except PyErr SlicerOut := hs.call a.var a.x a.y a.z a.axis a.cut a.step

/-- A key of the cache of `__call__` (hydro.py 72): the object by its hash, the address (69-70), how the arguments were written
(positions and order of keywords, as a number), and the arguments. -/
structure SlicerKey where
  addr : ℕ
  form : ℕ
  args : SlicerArgs
  deriving DecidableEq

/-- Memory: the objects in use with their addresses, and the cache, which is shared by all objects of the class. -/
structure SlicerWorld where
  heap : ℕ → Option HydroState
  cache : List (SlicerKey × SlicerOut)

/-- What a program does with these objects: create one (the allocator chooses the address), call one, or give up its last reference
to one. Attributes are not assigned after `__init__`, which no code of the package does. -/
inductive SlicerOp where
  | new (passives : List String) (ndim : ℕ) (addr : ℕ)
  | call (addr form : ℕ) (args : SlicerArgs)
  | drop (addr : ℕ)

/-- One operation and what it returns; `none` if it cannot happen: an address in use is not given out again, and a program cannot
call what is not there. A dropped object is freed unless it occurs in a key of the cache. -/
def SlicerWorld.step (w : SlicerWorld) : SlicerOp → Option (SlicerWorld × Except PyErr (Option SlicerOut))
  | .new passives ndim i =>
    match w.heap i with
    | some _ => none
    | none =>
      match HydroState.init passives ndim with
      | .error e => some (w, .error e)
      | .ok hs => some ({ w with heap := Function.update w.heap i (some hs) }, .ok none)
  | .call i form a =>
    match w.heap i with
    | none => none
    | some hs =>
      let (r, cache) := lruCall (fun k l => k == l) (fun _ => true) none (fun k => hs.slices k.args) ⟨i, form, a⟩ w.cache
      some ({ w with cache := cache }, r.map some)
  | .drop i =>
    if w.cache.any fun e => e.1.addr == i then some (w, .ok none)
    else some ({ w with heap := Function.update w.heap i none }, .ok none)

/-- The histories of a program that starts with no objects, with the memory they lead to. -/
inductive SlicerRun : List SlicerOp → SlicerWorld → Prop where
  | start : SlicerRun [] ⟨fun _ => none, []⟩
  | next {ops w op w' r} : SlicerRun ops w → w.step op = some (w', r) → SlicerRun (ops ++ [op]) w'

end FVHOE
