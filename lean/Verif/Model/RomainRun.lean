import Verif.Py
import Verif.Model.Romain

/-!
Model of the rest of `fvhoe/romain_solver.py`: initial states, ghost columns, limited interpolation, the flux function and
the driver `weno`. Arrays of shape (3, m) are functions from column numbers; columns outside the array are never
read for the sizes below. Arithmetic is exact; `x / 0 = 0` stands for the inf and nan of numpy, so statements
that need finite values carry positivity hypotheses. Printing is left out. The constants `gamma = 1.4` and `1e-15` are
parameters.
-/

namespace FVHOE.Romain

variable {K : Type} [Field K] [LinearOrder K]

/-- The constants of the file and the numpy functions it uses. -/
structure Consts (K : Type) where
  gamma : K
  tiny : K
  sqrt : K → K
  sin : K → K

/-- The argument `bc_type`: the two known words, or another one. -/
inductive BCType where
  | periodic | free | unknown
  deriving DecidableEq

/-- The argument `riemann_solver`. -/
inductive Solver where
  | llf | hll | hllc | exact | unknown
  deriving DecidableEq

/-- The argument `ic_type`. -/
inductive ICType where
  | sod | toro1 | toro2 | toro3 | shuOsher | blob | sedov | unknown
  deriving DecidableEq

/-- romain_solver.py 39-118 `set_ic`, the primitive columns (line 116). Line 106-107 writes cells `N // 2` and
`N // 2 + 1`; with one cell the second is an IndexError. An unknown type leaves zeros. -/
def icPrim (C : Consts K) (ty : ICType) (n : ℕ) (x : ℕ → K) : Except PyErr (ℕ → Col K) :=
  match ty with
  | .sod => .ok fun i => if x i < 1 / 2 then ⟨1, 0, 1⟩ else ⟨125 / 1000, 0, 1 / 10⟩
  | .toro1 => .ok fun i => if x i < 3 / 10 then ⟨1, 75 / 100, 1⟩ else ⟨125 / 1000, 0, 1 / 10⟩
  | .toro2 => .ok fun i => if x i < 1 / 2 then ⟨1, -2, 4 / 10⟩ else ⟨1, 2, 4 / 10⟩
  | .toro3 => .ok fun i => if x i < 1 / 2 then ⟨1, 0, 1000⟩ else ⟨1, 0, 1 / 100⟩
  | .shuOsher => .ok fun i => if x i < 1 / 10 then ⟨3857143 / 1000000, 2629369 / 1000000, 1033333 / 100000⟩
      else ⟨1 + 2 / 10 * C.sin (5 * (x i * 10 - 5)), 0, 1⟩
  | .blob => .ok fun i => if x i > 4 / 10 ∧ x i < 6 / 10 then ⟨10, 3 * C.sqrt (50 / 3), 1⟩ else ⟨1 / 10, 0, 1⟩
  | .sedov =>
    if n ≤ n / 2 + 1 then .error .indexError
    else .ok fun i => ⟨1, 0, if i = n / 2 ∨ i = n / 2 + 1 then 1 / 2 * n * (C.gamma - 1) else 1 / 100000⟩
  | .unknown => .ok fun _ => ⟨0, 0, 0⟩

/-- romain_solver.py 39-118 `set_ic`. -/
def setIc (C : Consts K) (ty : ICType) (n : ℕ) (x : ℕ → K) : Except PyErr (ℕ → Col K) :=
  (icPrim C ty n x).map fun w i => primToCons C.gamma (w i)

/-- An assignment `u[:, a] = u[:, b]`. -/
def copyCol {V : Type} (a b : ℤ) (u : ℤ → V) : ℤ → V := Function.update u a (u b)

/-- romain_solver.py 121-141 `set_bc` on an array with `n + 8` columns, so that column `-k` is column `n + 8 - k`. -/
def setBC {V : Type} (n : ℕ) (ty : BCType) (u : ℤ → V) : ℤ → V :=
  match ty with
  | .periodic =>
    let u := copyCol 0 n u
    let u := copyCol 1 (n + 1) u
    let u := copyCol 2 (n + 2) u
    let u := copyCol 3 (n + 3) u
    let u := copyCol (n + 7) 7 u
    let u := copyCol (n + 6) 6 u
    let u := copyCol (n + 5) 5 u
    copyCol (n + 4) 4 u
  | .free =>
    let u := copyCol 0 4 u
    let u := copyCol 1 4 u
    let u := copyCol 2 4 u
    let u := copyCol 3 4 u
    let u := copyCol (n + 7) (n + 3) u
    let u := copyCol (n + 6) (n + 3) u
    let u := copyCol (n + 5) (n + 3) u
    copyCol (n + 4) (n + 3) u
  | .unknown => u

/-- `np.pad(x, [(0, 0), (1, 1)])` of an array with `n + 6` columns, indexed by the columns of the result. -/
def padOne (n : ℕ) (x : ℤ → K) (j : ℤ) : K := if 1 ≤ j ∧ j ≤ n + 6 then x j else 0

/-- romain_solver.py 144-174 `smooth_extrema`, one row. -/
def smoothExtrema (n : ℕ) (ty : BCType) (u : ℤ → K) : ℤ → K :=
  let uprime := setBC n ty (padOne n fun j => (1 / 2) * (u (j + 1) - u (j - 1)))
  setBC n ty (padOne n fun j => marker (uprime (j - 1)) (uprime j) (uprime (j + 1)))

/-- romain_solver.py 228-238: the largest and smallest interpolated value minus the cell average. -/
def bigmj (space : ℕ) (u : ℤ → K) (i : ℤ) : K :=
  (if space > 2 then max (umiddle space u i) (max (uleft space u i) (uright space u i))
    else max (uleft space u i) (uright space u i)) - u i

/-- romain_solver.py 228-236: smallest interpolated value minus the cell average. -/
def smallmj (space : ℕ) (u : ℤ → K) (i : ℤ) : K :=
  (if space > 2 then min (umiddle space u i) (min (uleft space u i) (uright space u i))
    else min (uleft space u i) (uright space u i)) - u i

/-- romain_solver.py 228-248: the factor applied to the deviations from the cell average. -/
def theta (tiny : K) (space : ℕ) (u alpha : ℤ → K) (i : ℤ) : K :=
  let bigm := max (u (i - 1)) (max (u i) (u (i + 1)))
  let smallm := min (u (i - 1)) (min (u i) (u (i + 1)))
  let th := min 1 (min (|bigm - u i| / (|bigmj space u i| + tiny)) (|smallm - u i| / (|smallmj space u i| + tiny)))
  let aslp := min (min (alpha (i - 1)) (alpha (i + 1))) (alpha i)
  if aslp < 1 then th else 1

/-- romain_solver.py 177-253 `trace`, one row, at cell column `i`: the values at the right and the left face. -/
def trace (tiny : K) (space : ℕ) (u alpha : ℤ → K) (i : ℤ) : K × K :=
  if space > 1 then
    (theta tiny space u alpha i * (uleft space u i - u i) + u i,
      theta tiny space u alpha i * (uright space u i - u i) + u i)
  else (uleft space u i, uright space u i)

/-- The rows of a function of columns. -/
def rowsOf (w : ℤ → Col K) : Fin 3 → ℤ → K := ![fun j => (w j).r0, fun j => (w j).r1, fun j => (w j).r2]

/-- One column from its rows. -/
def colOf (f : Fin 3 → K) : Col K := ⟨f 0, f 1, f 2⟩

/-- romain_solver.py 177-253 `trace`, all rows. -/
def traceCols (tiny : K) (space : ℕ) (w alpha : ℤ → Col K) (i : ℤ) : Col K × Col K :=
  (colOf fun k => (trace tiny space (rowsOf w k) (rowsOf alpha k) i).1,
    colOf fun k => (trace tiny space (rowsOf w k) (rowsOf alpha k) i).2)

/-- romain_solver.py 323: `smooth_extrema(w, bc_type)`, all rows. -/
def markers (n : ℕ) (ty : BCType) (w : ℤ → Col K) (j : ℤ) : Col K :=
  colOf fun k => smoothExtrema n ty (rowsOf w k) j

/-- romain_solver.py 332-342: the flux of one face for the chosen solver. An unknown name leaves `flux` unbound. -/
def solve (C : Consts K) : Solver → Except PyErr (Col K → Col K → Col K)
  | .llf => .ok (llf C.gamma C.sqrt)
  | .hllc => .ok (hllc C.gamma C.sqrt)
  | .hll => .error .notImplementedError
  | .exact => .error .notImplementedError
  | .unknown => .error .nameError

/-- romain_solver.py 317-319: the primitive columns after the ghost columns are set. -/
def primCols (C : Consts K) (n : ℕ) (ty : BCType) (u : ℤ → Col K) (j : ℤ) : Col K :=
  consToPrim C.gamma (setBC n ty u j)

/-- romain_solver.py 316-344 `cmp_flux`: the fluxes at the faces `0 … n` and the primitive columns. Face `k` lies between
the columns `k + 3` and `k + 4`. `space` outside 1 … 5 leaves a variable of `trace` unbound. -/
def cmpFlux (C : Consts K) (n : ℕ) (ty : BCType) (rs : Solver) (space : ℕ) (u : ℤ → Col K) :
    Except PyErr ((ℤ → Col K) × (ℤ → Col K)) :=
  if space = 0 ∨ 5 < space then .error .nameError
  else do
    let w := primCols C n ty u
    let f ← solve C rs
    let tr := traceCols C.tiny space w (markers n ty w)
    return (fun k => f (tr (k + 3)).1 (tr (k + 4)).2, w)

/-- The rows times a factor. -/
def Col.smul (x : K) (a : Col K) : Col K := ⟨x * a.r0, x * a.r1, x * a.r2⟩

/-- The sum of two columns. -/
def Col.add (a b : Col K) : Col K := ⟨a.r0 + b.r0, a.r1 + b.r1, a.r2 + b.r2⟩

/-- romain_solver.py 372-376, 384: `u1[:, 4:-4] = …` in an array of zeros. -/
def embed (n : ℕ) (u : ℕ → Col K) (j : ℤ) : Col K :=
  if 4 ≤ j ∧ j < n + 4 then u (j - 4).toNat else ⟨0, 0, 0⟩

/-- romain_solver.py 389: `-(flux[:, 1:] - flux[:, :-1]) / h`. -/
def slopeOf (h : K) (flux : ℤ → Col K) (i : ℕ) : Col K :=
  let a := flux (i + 1)
  let b := flux i
  ⟨-(a.r0 - b.r0) / h, -(a.r1 - b.r1) / h, -(a.r2 - b.r2) / h⟩

/-- romain_solver.py 386-389 and its repetitions: the time derivative of the cells. -/
def rhs (C : Consts K) (n : ℕ) (ty : BCType) (rs : Solver) (space : ℕ) (u : ℕ → Col K) :
    Except PyErr ((ℕ → Col K) × (ℤ → Col K)) := do
  let r ← cmpFlux C n ty rs space (embed n u)
  return (slopeOf (1 / (n : K)) r.1, r.2)

/-- romain_solver.py 321, 390: the largest signal speed over all columns, Python's `max`. -/
def maxSpeed (C : Consts K) (n : ℕ) (w : ℤ → Col K) : K :=
  let s (j : ℕ) : K := |(w j).r1| + C.sqrt (C.gamma * (w j).r2 / (w j).r0)
  (List.range (n + 7)).foldl (fun m j => max m (s (j + 1))) (s 0)

/-- romain_solver.py 392-437: one step of size `dt` from the first slope `k1`. An unknown `time` leaves `unew` unbound. -/
def advance (f : (ℕ → Col K) → Except PyErr ((ℕ → Col K) × (ℤ → Col K))) (time : ℕ) (dt : K) (u k1 : ℕ → Col K) :
    Except PyErr (ℕ → Col K) :=
  match time with
  | 1 => .ok fun i => (u i).add ((k1 i).smul dt)
  | 2 => do
    let r2 ← f fun i => (u i).add ((k1 i).smul (dt / 2))
    return fun i => (u i).add ((r2.1 i).smul dt)
  | 3 => do
    let r2 ← f fun i => (u i).add ((k1 i).smul (dt / 3))
    let r3 ← f fun i => (u i).add ((r2.1 i).smul (2 * dt / 3))
    return fun i => (u i).add (((k1 i).add ((r3.1 i).smul 3)).smul (dt / 4))
  | 4 => do
    let r2 ← f fun i => (u i).add ((k1 i).smul (dt / 2))
    let r3 ← f fun i => (u i).add ((r2.1 i).smul (dt / 2))
    let r4 ← f fun i => (u i).add ((r3.1 i).smul dt)
    return fun i => (u i).add
      (((((k1 i).add ((r2.1 i).smul 2)).add ((r3.1 i).smul 2)).add (r4.1 i)).smul (dt / 6))
  | _ => .error .nameError

/-- romain_solver.py 384-440: the body of the time loop, with the time step of line 390. -/
def step (C : Consts K) (n : ℕ) (cfl : K) (ty : BCType) (rs : Solver) (time space : ℕ) (u : ℕ → Col K) :
    Except PyErr (K × (ℕ → Col K)) := do
  let r ← rhs C n ty rs space u
  let dt := cfl * (1 / (n : K)) / maxSpeed C n r.2
  let v ← advance (rhs C n ty rs space) time dt u r.1
  return (dt, v)

/-- romain_solver.py 383-442: the time loop from time `t`; the steps that remain allowed; the states stored, in order. -/
def loop (C : Consts K) (n : ℕ) (cfl tend : K) (ty : BCType) (rs : Solver) (time space : ℕ) :
    ℕ → K → (ℕ → Col K) → Except PyErr (List (K × (ℕ → Col K)))
  | 0, _, _ => .ok []
  | fuel + 1, t, u =>
    if t < tend then do
      let s ← step C n cfl ty rs time space u
      let rest ← loop C n cfl tend ty rs time space fuel (t + s.1) s.2
      return (t + s.1, s.2) :: rest
    else .ok []

/-- romain_solver.py 347-445 `weno`, with the number of steps allowed (100000, line 359) as a parameter; the
times, which the code only prints, are kept beside the states. `n = 0` divides by zero in line 358. -/
def weno (C : Consts K) (nitermax n : ℕ) (tend cfl : K) (ic : ICType) (ty : BCType) (rs : Solver) (time space : ℕ) :
    Except PyErr (List (K × (ℕ → Col K))) :=
  if n = 0 then .error .zeroDivisionError
  else do
    let u ← setIc C ic n fun i => (1 / 2) * (((i : K) + 1) / n + (i : K) / n)
    let l ← loop C n cfl tend ty rs time space nitermax 0 u
    return (0, u) :: l

end FVHOE.Romain
