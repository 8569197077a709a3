import Verif.Py

/-!
Model of `ODE.get_commit_details` (fvhoe/ode.py 61-92), which runs `git log -1 --pretty=format:%H|%an|%ai|%D` and takes
the line apart. Text is a list of characters.
-/

namespace FVHOE

/-- `str.isspace` of one character: what `str.strip()` removes and `str.split()` splits at. -/
def pySpace (c : Char) : Bool :=
  decide (c.toNat ∈ [9, 10, 11, 12, 13, 28, 29, 30, 31, 32, 133, 160, 5760, 8192, 8193, 8194, 8195, 8196, 8197, 8198,
    8199, 8200, 8201, 8202, 8232, 8233, 8239, 8287, 12288])

/-- `s.strip()`. -/
def pyStrip (s : List Char) : List Char := ((s.dropWhile pySpace).reverse.dropWhile pySpace).reverse

/-- `s.split(sep)` for a separator of one character. -/
def pySplit (sep : Char) : List Char → List (List Char)
  | [] => [[]]
  | c :: cs =>
    if c = sep then [] :: pySplit sep cs
    else match pySplit sep cs with
      | [] => [[c]]
      | h :: t => (c :: h) :: t

/-- The loop of `s.split()`; `cur` is the word being read, backwards. -/
def pyWordsFrom (cur : List Char) : List Char → List (List Char)
  | [] => if cur = [] then [] else [cur.reverse]
  | c :: cs =>
    if pySpace c then (if cur = [] then pyWordsFrom [] cs else cur.reverse :: pyWordsFrom [] cs)
    else pyWordsFrom (c :: cur) cs

/-- `s.split()`: the words between runs of white space. -/
def pyWords (s : List Char) : List (List Char) := pyWordsFrom [] s

/-- What `subprocess.run([...], check=True)` does (ode.py 68-74): the program may be missing, which raises
FileNotFoundError; it may fail, which raises CalledProcessError with its error text; or it prints. Text that is not valid
in the locale's encoding, which raises UnicodeDecodeError, is left out. -/
inductive GitRun where
  | missing
  | failed (stderr : List Char)
  | printed (stdout : List Char)

/-- `l[i]` for `i ≥ 0`. -/
def fieldAt (l : List (List Char)) (i : Nat) : Except PyErr (List Char) :=
  match l[i]? with
  | some s => .ok s
  | none => .error .indexError

/-- `l[-1]`. -/
def lastField (l : List (List Char)) : Except PyErr (List Char) :=
  match l.getLast? with
  | some s => .ok s
  | none => .error .indexError

/-- ode.py 79-83: `commit_info[3].split(",")[0].strip().split()[-1] if len(commit_info) > 3 else None`. -/
def branchField (info : List (List Char)) : Except PyErr (Option (List Char)) :=
  if info.length > 3 then do
    let f ← fieldAt info 3
    let first ← fieldAt (pySplit ',' f) 0
    let name ← lastField (pyWords (pyStrip first))
    return some name
  else return none

/-- ode.py 61-92 `get_commit_details`: the dictionary, in order. Only CalledProcessError is caught. -/
def getCommitDetails : GitRun → Except PyErr (List (String × Option (List Char)))
  | .missing => .error .fileNotFoundError
  | .failed e => .ok [("error", some ("An error occurred: ".toList ++ pyStrip e))]
  | .printed out => do
    let info := pySplit '|' (pyStrip out)
    let hash ← fieldAt info 0
    let author ← fieldAt info 1
    let date ← fieldAt info 2
    let branch ← branchField info
    return [("commit_hash", some hash), ("author_name", some author), ("commit_date", some date), ("branch_name", branch)]

end FVHOE
