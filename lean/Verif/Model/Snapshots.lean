import Mathlib.Data.List.Basic
import Mathlib.Logic.Function.Basic
import Verif.Py

/-!
Model of saving and reading snapshots: `EulerSolver.read_snapshots` and `write_snapshots`
(fvhoe/solver.py 876-953) and their use in `ODE.integrate` (fvhoe/ode.py 130-136, 169-171).

The file system is the directory `snapshot_dir` alone: absent, or a map from file names to byte
strings. Other files, permissions and the case of a plain file at that path are left out. The
functions emit the file-system calls one by one, and every single byte written is a call of its own,
so that a process that dies leaves the effect of some prefix of the calls. Loss of data by the
operating system after a call returned is left out.
-/

namespace FVHOE

/-- File contents. -/
abbrev Bytes := List ℕ

/-- The files of the directory. -/
abbrev Dir := String → Option Bytes

/-- The directory `snapshot_dir`: absent or present. -/
abbrev FS := Option Dir

/-- The file-system calls the code makes. -/
inductive FSCall where
  | unlink (name : String)
  | rmdir
  | mkdir
  | create (name : String)
  | append (name : String) (b : ℕ)

/-- Effect of a call. -/
def FSCall.run : FSCall → FS → FS
  | .unlink name, some d => some (Function.update d name none)
  | .rmdir, some _ => none
  | .mkdir, none => some fun _ => none
  | .create name, some d => some (Function.update d name (some []))
  | .append name b, some d => some (Function.update d name ((d name).map (· ++ [b])))
  | _, fs => fs

/-- Effect of several calls. -/
def runCalls (fs : FS) (calls : List FSCall) : FS := calls.foldl (fun fs c => c.run fs) fs

/-- `with open(name, "w") as f: f.write(content)`. -/
def writeFile (name : String) (content : Bytes) : List FSCall :=
  .create name :: content.map (.append name)

/-- `shutil.rmtree`: unlink the entries in the order the system lists them, then the directory. -/
def rmtree (listing : List String) : List FSCall := listing.map .unlink ++ [.rmdir]

/-- The pickle format, as far as the code relies on it: what is dumped can be loaded again, and a file
cut short does not load (a pickle ends with its only STOP opcode). -/
structure Pickle (S : Type) where
  dump : List S → Bytes
  load : Bytes → Option (List S)
  load_dump : ∀ l, load (dump l) = some l
  load_cut : ∀ l b, b <+: dump l → b ≠ dump l → load b = none

/-- What `write_snapshots` puts into the two other files: `json.dump` of the attributes may raise after
having written some bytes; the timing report is text. -/
structure Report where
  json : Bytes
  jsonError : Option PyErr
  timing : Bytes

/-- solver.py 889-953 `write_snapshots`: the calls made and the exception raised, if any. `listing` is
the order in which the system lists the directory. -/
def writeSnapshots {S : Type} (P : Pickle S) (fs : FS) (overwrite : Bool) (listing : List String)
    (rep : Report) (snapshots : List S) : List FSCall × Option PyErr :=
  if fs.isSome ∧ ¬ overwrite then ([], some .fileExistsError)
  else
    let clear := if fs.isSome ∧ overwrite then rmtree listing else []
    let head := clear ++ [.mkdir] ++ writeFile "arrs.pkl" (P.dump snapshots) ++
      writeFile "attrs.json" rep.json
    match rep.jsonError with
    | some e => (head, some e)
    | none => (head ++ writeFile "timing.txt" rep.timing, none)

/-- solver.py 876-887 `read_snapshots`: `none` when the directory is absent (`return False`), the list
assigned to `self.snapshots` otherwise. -/
def readSnapshots {S : Type} (P : Pickle S) (fs : FS) : Except PyErr (Option (List S)) :=
  match fs with
  | none => .ok none
  | some d =>
    match d "arrs.pkl" with
    | none => .error .fileNotFoundError
    | some b =>
      match P.load b with
      | none => .error .unpicklingError
      | some l => .ok (some l)

/-- What `integrate` does with the file system (ode.py 130-136, 169-171), given `snapshot_dir`:
`computed` is the snapshot list that the time loop produces. Returns the calls made, the final
snapshot list, and the exception raised. -/
def integrateSaving {S : Type} (P : Pickle S) (fs : FS) (overwrite : Bool) (listing : List String)
    (rep : Report) (computed : List S) : List FSCall × Except PyErr (List S) :=
  let compute : List FSCall × Except PyErr (List S) :=
    match writeSnapshots P fs overwrite listing rep computed with
    | (calls, some e) => (calls, .error e)
    | (calls, none) => (calls, .ok computed)
  if overwrite then compute
  else
    match readSnapshots P fs with
    | .error e => ([], .error e)
    | .ok (some l) => ([], .ok l)
    | .ok none => compute

end FVHOE
