import Mathlib.Data.List.Sort
import Verif.Model.BC
import Verif.Model.ODE
import Verif.Model.Snapshots
import Verif.Model.TimerTrace

/-!
Model of the attribute file and the timing file that `EulerSolver.write_snapshots` writes
(fvhoe/solver.py 908-951), of `to_dict` of the array manager (array_management.py 60-61), the boundary
conditions (boundary_conditions.py 404-412) and the timer (timer.py 74-76), and of `Timer.report`
(timer.py 78-109).

Python values are modelled as far as `json.dump` tells them apart. `np.float64` is a subclass of
`float` and is identified with it, as are tuples with lists, which `json` writes alike.
-/

namespace FVHOE

/-- Python values. `object isCallable dict` is an object with a method `to_dict` returning `dict`;
`callable name` is a function, with its `__name__` if it has one, or a callable object; `array` is a
numpy array; `opaque` stands for any other object. -/
inductive PyVal (K : Type) where
  | null
  | bool (b : Bool)
  | int (i : ℤ)
  | num (x : K)
  | posInf
  | negInf
  | str (s : String)
  | seq (l : List (PyVal K))
  | dict (l : List (String × PyVal K))
  | object (isCallable : Bool) (toDict : PyVal K)
  | callable (name : Option String)
  | array
  | notImplemented
  | opaque

/-- What a JSON file holds. Python writes infinities as `Infinity` and `-Infinity`. -/
inductive Json (K : Type) where
  | null
  | bool (b : Bool)
  | int (i : ℤ)
  | num (x : K)
  | posInf
  | negInf
  | str (s : String)
  | arr (l : List (Json K))
  | obj (l : List (String × Json K))

variable {K : Type}

mutual
/-- `json.dump`: the value written, or TypeError for a value that is not serialisable. -/
def PyVal.toJson : PyVal K → Except PyErr (Json K)
  | .null => .ok .null
  | .bool b => .ok (.bool b)
  | .int i => .ok (.int i)
  | .num x => .ok (.num x)
  | .posInf => .ok .posInf
  | .negInf => .ok .negInf
  | .str s => .ok (.str s)
  | .seq l =>
    match PyVal.listToJson l with
    | .error e => .error e
    | .ok js => .ok (.arr js)
  | .dict l =>
    match PyVal.dictToJson l with
    | .error e => .error e
    | .ok js => .ok (.obj js)
  | .object _ _ => .error .typeError
  | .callable _ => .error .typeError
  | .array => .error .typeError
  | .notImplemented => .error .typeError
  | .opaque => .error .typeError
/-- The elements of a list in turn. -/
def PyVal.listToJson : List (PyVal K) → Except PyErr (List (Json K))
  | [] => .ok []
  | v :: vs =>
    match PyVal.toJson v with
    | .error e => .error e
    | .ok j =>
      match PyVal.listToJson vs with
      | .error e => .error e
      | .ok js => .ok (j :: js)
/-- The entries of a dictionary in turn. -/
def PyVal.dictToJson : List (String × PyVal K) → Except PyErr (List (String × Json K))
  | [] => .ok []
  | (k, v) :: vs =>
    match PyVal.toJson v with
    | .error e => .error e
    | .ok j =>
      match PyVal.dictToJson vs with
      | .error e => .error e
      | .ok js => .ok ((k, j) :: js)
end

/-- `callable(v)`. -/
def PyVal.isCallable : PyVal K → Bool
  | .callable _ => true
  | .object c _ => c
  | _ => false

/-- `isinstance(v, np.ndarray)`. -/
def PyVal.isArray : PyVal K → Bool
  | .array => true
  | _ => false

/-- `v.to_dict()`; used for objects only. -/
def PyVal.toDict : PyVal K → PyVal K
  | .object _ d => d
  | v => v

/-- `{np.inf: "inf", -np.inf: "-inf"}.get(item, item)`. -/
def PyVal.nameInf : PyVal K → PyVal K
  | .posInf => .str "inf"
  | .negInf => .str "-inf"
  | v => v

/-- `[… for item in v]`. -/
def PyVal.nameInfs : PyVal K → PyVal K
  | .seq l => .seq (l.map PyVal.nameInf)
  | v => v

/-- solver.py 935-938: the bounds with infinities as strings. -/
def PyVal.namePad : PyVal K → PyVal K
  | .dict l => .dict (l.map fun e => (e.1, e.2.nameInfs))
  | v => v

/-- `getattr(v, "__name__", "__name__ not found")`. -/
def PyVal.name : PyVal K → String
  | .callable (some s) => s
  | _ => "__name__ not found"

/-- solver.py 910-939: one turn of the loop over `self.__dict__`; `none` if the attribute is skipped. -/
def saveAttr (e : String × PyVal K) : Option (String × PyVal K) :=
  if e.1 = "w0" then some (e.1, .str e.2.name)
  else if (e.2.isCallable ∧ e.1 ≠ "am") ∨ e.2.isArray ∨
      e.1 ∈ ["progress_bar", "timestamps", "snapshots", "w0_cell_centers_cache"] then none
  else if e.1 ∈ ["am", "bc", "timer"] then some (e.1, e.2.toDict)
  else if e.1 = "PAD" then some (e.1, e.2.namePad)
  else some e

/-- solver.py 942: the sort key `(x.lower(), x)`. -/
def attrKey (e : String × PyVal K) : List Char × List Char := (e.1.toLower.toList, e.1.toList)

/-- Comparison of sort keys, as Python compares tuples of strings. -/
def attrLe (a b : String × PyVal K) : Prop :=
  (attrKey a).1 < (attrKey b).1 ∨ ((attrKey a).1 = (attrKey b).1 ∧ (attrKey a).2 ≤ (attrKey b).2)

instance : DecidableRel (attrLe (K := K)) := fun _ _ => inferInstanceAs (Decidable (_ ∨ _))

/-- solver.py 908-943: the dictionary given to `json.dump`. -/
def attrsToSave (dict : List (String × PyVal K)) : List (String × PyVal K) :=
  (dict.filterMap saveAttr).insertionSort attrLe

/-- solver.py 908-945: what `attrs.json` holds, or the exception `json.dump` raises. -/
def attrsJson (dict : List (String × PyVal K)) : Except PyErr (Json K) := (PyVal.dict (attrsToSave dict)).toJson

/-! ### The attributes of a solver -/

/-- The arguments of `EulerSolver` (solver.py 42-82) that end up as attributes, with the documented
types. `w0Name` is the `__name__` of the function `ic_func` of `build_ic`. -/
structure AttrArgs (K : Type) where
  n : Fin 3 → ℕ
  p : Fin 3 → ℕ
  dom : Fin 3 → K × K
  cfl : K
  fixedDt : Option K
  gamma : K
  riemannSolver : String
  conservativeIc : Bool
  fvIc : Bool
  limiting : Bool
  slopeLimiter : Option String
  forceTrouble : Bool
  nad : K
  nadMode : String
  nadRange : String
  nadVars : Option (List String)
  /-- Lower and upper bounds; `none` is the infinity. -/
  pad : List (String × Option K × Option K)
  sed : Bool
  sedTolerance : K
  convex : Bool
  densityFloor : Option K
  pressureFloor : Option K
  csqFloor : K
  progressBar : Bool
  fvSnapshots : Bool
  /-- Is a snapshot helper function given? -/
  helper : Bool
  slabBufferSize : ℕ
  npassive : ℕ

/-- The other things the object holds when the snapshots are written. `bcKind` are the boundary types
(strings or `None`) after `__post_init__`; `commit` is what `get_commit_details` (ode.py 61-92) found. -/
structure AttrState (K : Type) where
  t : K
  timestamps : List K
  stepCount : ℕ
  snapshotTimes : List K
  evaluations : ℕ
  troubleCounter : ℕ
  names : List String
  timer : Timer K
  bcKind : Fin 3 → Option String × Option String
  commit : List (String × Option String)
  integrator : String
  snapshotDir : String

/-- A number or `None`. -/
def PyVal.ofOption : Option K → PyVal K
  | none => .null
  | some x => .num x

/-- A string or `None`. -/
def PyVal.ofName : Option String → PyVal K
  | none => .null
  | some s => .str s

/-- array_management.py 60-61 `to_dict`. -/
def managerDict (names : List String) : PyVal K :=
  .dict [("names", .seq (names.map .str)), ("using_cupy", .bool false)]

/-- boundary_conditions.py 404-412 `to_dict`. -/
def bcDict (kind : Fin 3 → Option String × Option String) : PyVal K :=
  .dict [("x", .seq [.ofName (kind 0).1, .ofName (kind 0).2]),
    ("y", .seq [.ofName (kind 1).1, .ofName (kind 1).2]),
    ("z", .seq [.ofName (kind 2).1, .ofName (kind 2).2])]

/-- timer.py 74-76 `to_dict`; `round` is `np.round` to the precision of the timer. -/
def timerDict (round : K → K) (t : Timer K) : PyVal K :=
  .dict (t.cats.map fun c => (c, .num (round (t.cumTime c))))

/-- A lower bound. -/
def PyVal.ofLower : Option K → PyVal K
  | none => .negInf
  | some x => .num x

/-- An upper bound. -/
def PyVal.ofUpper : Option K → PyVal K
  | none => .posInf
  | some x => .num x

/-- solver.py 396: the bounds as given. -/
def padDict (pad : List (String × Option K × Option K)) : PyVal K :=
  .dict (pad.map fun e => (e.1, .seq [.ofLower e.2.1, .ofUpper e.2.2]))

/-- solver.py 244-254: `self.dims`. -/
def dimsString (n p : Fin 3 → ℕ) : String :=
  (if n 0 = 1 ∧ p 0 = 0 then "" else "x") ++ (if n 1 = 1 ∧ p 1 = 0 then "" else "y") ++
    (if n 2 = 1 ∧ p 2 = 0 then "" else "z")

/-- `self.__dict__` of an `EulerSolver` without cupy at the call of `write_snapshots` (solver.py 155-400,
ode.py 37-59, 133, 211, 246-297), in the order of the assignments as far as they happen once. -/
def solverDict [Field K] (round : K → K) (a : AttrArgs K) (s : AttrState K) : List (String × PyVal K) :=
  let ends (d : Fin 3) : PyVal K := .seq [.num (a.dom d).1, .num (a.dom d).2]
  let h (d : Fin 3) : PyVal K := .num (((a.dom d).2 - (a.dom d).1) / a.n d)
  let dim (d : Fin 3) : PyVal K := .bool (!(a.n d == 1 && a.p d == 0))
  let given : PyVal K := .callable (some "ic_func")
  let lambda : PyVal K := .callable (some "<lambda>")
  [("csq_floor", .num a.csqFloor), ("density_floor", .ofOption a.densityFloor), ("gamma", .num a.gamma),
    ("pressure_floor", .ofOption a.pressureFloor), ("riemann_solver_name", .str a.riemannSolver),
    ("snapshot_helper_function", if a.helper then .callable none else .null),
    ("snapshots_as_fv_averages", .bool a.fvSnapshots),
    ("CFL", .num a.cfl), ("fixed_dt", .ofOption a.fixedDt), ("x_domain", ends 0), ("y_domain", ends 1),
    ("z_domain", ends 2), ("h", .seq [h 0, h 1, h 2]), ("n", .seq [.int (a.n 0), .int (a.n 1), .int (a.n 2)]),
    ("p", .seq [.int (a.p 0), .int (a.p 1), .int (a.p 2)]), ("X", .array), ("Y", .array), ("Z", .array),
    ("x", .array), ("y", .array), ("z", .array), ("xdim", dim 0), ("ydim", dim 1), ("zdim", dim 2),
    ("dims", .str (dimsString a.n a.p)), ("ndim", .int (dimsString a.n a.p).length),
    ("conservative_ic", .bool a.conservativeIc), ("fv_ic", .bool a.fvIc), ("hydro_state", .callable none),
    ("nvars", .int (5 + a.npassive)),
    ("w0", if a.conservativeIc then .notImplemented else given),
    ("u0", if a.conservativeIc then (if a.fvIc then .notImplemented else given) else lambda),
    ("u0_fv", if a.conservativeIc ∧ a.fvIc then given else lambda),
    ("t", .num s.t), ("timestamps", .seq (s.timestamps.map .num)), ("step_count", .int s.stepCount),
    ("am", .object true (managerDict s.names)), ("timer", .object false (timerDict round s.timer)),
    ("snapshots", .seq (s.snapshotTimes.map fun t => .dict [("t", .num t), ("w", .array)])),
    ("snapshot_times", .seq (s.snapshotTimes.map .num)), ("print_progress_bar", .bool a.progressBar),
    ("commit_details", .dict (s.commit.map fun e => (e.1, .ofName e.2))),
    ("f_evaluation_count", .int s.evaluations), ("slab_buffer_size", .int a.slabBufferSize),
    ("bc", .object false (bcDict s.bcKind)), ("a_posteriori_slope_limiting", .bool a.limiting),
    ("slope_limiter", .ofName a.slopeLimiter), ("force_trouble", .bool a.forceTrouble), ("NAD", .num a.nad),
    ("NAD_mode", .str a.nadMode), ("NAD_range", .str a.nadRange),
    ("NAD_vars", match a.nadVars with | none => .null | some l => .seq (l.map .str)),
    ("PAD", padDict a.pad), ("SED", .bool a.sed), ("SED_tolerance", .num a.sedTolerance),
    ("convex", .bool a.convex), ("trouble_counter", .int s.troubleCounter),
    ("riemann_solver", .callable (some a.riemannSolver)), ("plot_1d_slice", lambda), ("plot_2d_slice", lambda),
    ("integrator", .str s.integrator), ("stepper", .callable (some "stepper")),
    ("snapshot_dir", .str s.snapshotDir)] ++
    (if a.progressBar then [("progress_bar", .opaque)] else [])

/-! ### The timing report -/

/-- `f"{s:<{w}}"`. -/
def padRight (w : ℕ) (s : List Char) : List Char := s ++ List.replicate (w - s.length) ' '

/-- `f"{s:>{w}}"`. -/
def padLeft (w : ℕ) (s : List Char) : List Char := List.replicate (w - s.length) ' ' ++ s

/-- `max` of the lengths of a non-empty list of texts. -/
def maxLen (l : List (List Char)) : ℕ := (l.map List.length).foldr max 0

/-- timer.py 88-90: the width of the first column. -/
def catWidth (t : Timer K) : ℕ :=
  if t.cats = [] then "Category".toList.length else maxLen (t.cats.map String.toList)

/-- timer.py 91-98: the width of the second column; `fmt` is `f"{t:.{precision}f}"`. -/
def timeWidth (fmt : K → List Char) (t : Timer K) : ℕ :=
  max (if t.cats = [] then "Time (s)".toList.length else maxLen (t.cats.map fun c => fmt (t.cumTime c)))
    "Time (s)".toList.length

/-- timer.py 78-109 `report`, line by line without the newlines. -/
def reportLines (fmt : K → List Char) (t : Timer K) : List (List Char) :=
  let cw := catWidth t
  let tw := timeWidth fmt t
  [padRight cw "Category".toList ++ [' '] ++ padRight tw "Time (s)".toList, List.replicate (cw + tw + 1) '-'] ++
    t.cats.map fun c => padRight cw c.toList ++ [' '] ++ padLeft tw (fmt (t.cumTime c))

/-- timer.py 78-109 `report`. -/
def Timer.report (fmt : K → List Char) (t : Timer K) : List Char := (reportLines fmt t).flatMap (· ++ ['\n'])

/-- solver.py 908-951: the two files. `text` is the text of a JSON value, `part` what `json.dump` has
written when it raises. -/
def savedReport (text : Json K → Bytes) (part : Bytes) (fmt : K → List Char) (dict : List (String × PyVal K))
    (t : Timer K) : Report :=
  match attrsJson dict with
  | .ok j => ⟨text j, none, (t.report fmt).map Char.toNat⟩
  | .error e => ⟨part, some e, (t.report fmt).map Char.toNat⟩

end FVHOE
