import Verif.Model.Initial

/-!
The initial conditions shipped with the code (fvhoe/initial_conditions.py 84-481, 541-574), except `SedovBlast`
(`Verif/Model/Sedov.lean`). Each function `f(x, y, z)` writes the five rows of an array made by `np.empty`; the three
mesh arrays have equal shapes. Entries are written at one index at a time, `np.where` is `if`.
-/

namespace FVHOE

variable {K : Type} [Field K] [LinearOrder K]

/-- The functions of numpy that the initial conditions use. -/
structure NumFns (K : Type) where
  sin : K → K
  exp : K → K
  sqrt : K → K
  tan : K → K
  pi : K

/-- `out[_hs(name)] = value` with `_hs = HydroState(ndim=1)` (initial_conditions.py 8). -/
def writeVar (rows : ℕ → Ix → K) (e : String × (Ix → K)) : Except PyErr (ℕ → Ix → K) := do
  let hs ← HydroState.init [] 1
  match ← hs.sel (.str e.1) with
  | .ix ix => .ok (assignRows rows ix ⟨fun _ => 0, e.2⟩)
  | _ => .error .typeError

/-- The assignments in turn. -/
def writeVars (rows : ℕ → Ix → K) (l : List (String × (Ix → K))) : Except PyErr (ℕ → Ix → K) := l.foldlM writeVar rows

/-- `c in dims` for one character. -/
def letterIn (c : Char) (dims : String) : Bool := decide (c ∈ dims.toList)

/-- The letters in the order of the loops `zip("xyz", [x, y, z])`. -/
def letter (d : Fin 3) : Char := if d = 0 then 'x' else if d = 1 then 'y' else 'z'

/-- `{"x": x, "y": y, "z": z}[dim]`. -/
def coordOf (dim : String) : Except PyErr (Fin 3) :=
  match dim with
  | "x" => .ok 0
  | "y" => .ok 1
  | "z" => .ok 2
  | _ => .error .keyError

/-- initial_conditions.py 84-125 `Sinus`. -/
def sinusIC (F : NumFns K) (dims : String) (rho : K × K) (P : K) (v : Fin 3 → K) (m : Slab K) (junk : ℕ → Ix → K) :
    Except PyErr (ℕ → Ix → K) :=
  let r (j : Ix) : K := 0 + (if letterIn 'x' dims then (m.coord 0).get j else 0) +
    (if letterIn 'y' dims then (m.coord 1).get j else 0) + (if letterIn 'z' dims then (m.coord 2).get j else 0)
  writeVars junk [("rho", fun j => (rho.2 - rho.1) * (1 / 2 * F.sin (2 * F.pi * r j) + 1 / 2) + rho.1),
    ("vx", fun _ => v 0), ("vy", fun _ => v 1), ("vz", fun _ => v 2), ("P", fun _ => P)]

/-- initial_conditions.py 128-170 `Square`. -/
def squareIC (dims : String) (rho : K × K) (P : K) (v : Fin 3 → K) (m : Slab K) (junk : ℕ → Ix → K) :
    Except PyErr (ℕ → Ix → K) :=
  let inside (j : Ix) : Prop := ∀ d, letterIn (letter d) dims = true → (m.coord d).get j > 1 / 4 ∧ (m.coord d).get j < 3 / 4
  writeVars junk [("rho", fun j => if inside j then rho.2 else rho.1),
    ("vx", fun _ => v 0), ("vy", fun _ => v 1), ("vz", fun _ => v 2), ("P", fun _ => P)]

/-- initial_conditions.py 173-206 `SlottedDisk`. -/
def slottedDiskIC (rho : K × K) (P : K) (m : Slab K) (junk : ℕ → Ix → K) : Except PyErr (ℕ → Ix → K) :=
  let x := (m.coord 0).get
  let y := (m.coord 1).get
  let xc (j : Ix) : K := x j - 1 / 2
  let yc (j : Ix) : K := y j - 1 / 2
  let rsq (j : Ix) : K := xc j * xc j + (y j - 3 / 4) * (y j - 3 / 4)
  let inside (j : Ix) : Prop := rsq j < (15 / 100) ^ 2 ∧ ¬ (|xc j| < 25 / 1000 ∧ y j < 85 / 100)
  writeVars junk [("rho", fun j => if inside j then rho.2 else rho.1),
    ("vx", fun j => -yc j), ("vy", fun j => xc j), ("vz", fun _ => 0), ("P", fun _ => P)]

/-- initial_conditions.py 209-250 `Shock1D`. The test `dim not in "xyz"` asks for a substring. -/
def shock1dIC (dim : String) (position : K) (rho P v : K × K) (m : Slab K) (junk : ℕ → Ix → K) :
    Except PyErr (ℕ → Ix → K) :=
  if dim ∉ ["", "x", "y", "z", "xy", "yz", "xyz"] then .error .valueError
  else do
    let d ← coordOf dim
    let pick (q : K × K) (j : Ix) : K := if (m.coord d).get j < position then q.1 else q.2
    writeVars junk [("rho", pick rho), ("vx", fun j => if dim = "x" then pick v j else 0),
      ("vy", fun j => if dim = "y" then pick v j else 0), ("vz", fun j => if dim = "z" then pick v j else 0),
      ("P", pick P)]

/-- initial_conditions.py 253-296 `DoubleShock1D`. -/
def doubleShock1dIC (dim : String) (positions : K × K) (rho v P : Fin 3 → K) (m : Slab K) (junk : ℕ → Ix → K) :
    Except PyErr (ℕ → Ix → K) := do
  let d ← coordOf dim
  let place (q : Fin 3 → K) (j : Ix) : K :=
    if (m.coord d).get j < positions.1 then q 0 else if (m.coord d).get j < positions.2 then q 1 else q 2
  writeVars junk [("rho", place rho), ("vx", fun j => if dim = "x" then place v j else 0),
    ("vy", fun j => if dim = "y" then place v j else 0), ("vz", fun j => if dim = "z" then place v j else 0),
    ("P", place P)]

/-- initial_conditions.py 299-328 `ShuOsher1D`. -/
def shuOsherIC (F : NumFns K) (dim : String) (m : Slab K) (junk : ℕ → Ix → K) : Except PyErr (ℕ → Ix → K) := do
  let d ← coordOf dim
  let r (j : Ix) : K := (m.coord d).get j - 5
  let v (j : Ix) : K := if r j < -4 then 2629369 / 1000000 else 0
  writeVars junk [("rho", fun j => if r j < -4 then 3857143 / 1000000 else 1 + 2 / 10 * F.sin (5 * r j)),
    ("vx", fun j => if dim = "x" then v j else 0), ("vy", fun j => if dim = "y" then v j else 0),
    ("vz", fun j => if dim = "z" then v j else 0), ("P", fun j => if r j < -4 then 1033333 / 100000 else 1)]

/-- initial_conditions.py 331-366 `KelvinHelmholtz2D`. -/
def kelvinHelmholtzIC (F : NumFns K) (sigma w0 : K) (m : Slab K) (junk : ℕ → Ix → K) : Except PyErr (ℕ → Ix → K) :=
  let x := (m.coord 0).get
  let y := (m.coord 1).get
  let inner (j : Ix) : Prop := 1 / 4 < y j ∧ y j < 3 / 4
  writeVars junk [("rho", fun j => if inner j then 2 else 1), ("vx", fun j => if inner j then 1 / 2 else -(1 / 2)),
    ("vy", fun j => w0 * F.sin (4 * F.pi * x j) * (F.exp (-((y j - 1 / 4) * (y j - 1 / 4)) / (2 * sigma * sigma)) +
      F.exp (-((y j - 3 / 4) * (y j - 3 / 4)) / (2 * sigma * sigma)))),
    ("vz", fun _ => 0), ("P", fun _ => 25 / 10)]

/-- initial_conditions.py 369-399 `DoubleMachReflection2D`. -/
def doubleMachIC (F : NumFns K) (gamma : K) (m : Slab K) (junk : ℕ → Ix → K) : Except PyErr (ℕ → Ix → K) :=
  let xp (j : Ix) : K := (m.coord 0).get j - (m.coord 1).get j / F.tan (F.pi / 3)
  let pick (a b : K) (j : Ix) : K := if xp j < 1 / 6 then a else b
  writeVars junk [("rho", pick 8 gamma), ("vx", pick (7145 / 1000) 0), ("vy", pick (-(825 / 100) / 2) 0),
    ("vz", fun _ => 0), ("P", pick (1165 / 10) 1)]

/-- The argument `center` of `ShockTube`. -/
inductive CenterArg (K : Type) where
  | number (c : K)
  | tuple (l : List K)

/-- initial_conditions.py 441. -/
def CenterArg.asTuple : CenterArg K → List K
  | .number c => [c]
  | .tuple l => l

/-- initial_conditions.py 446-448: the loop over `dims`; `"xyz".index` raises ValueError. What is never written stays
`nan` and is never read. -/
def placeCenters (junk : Fin 3 → K) : List Char → List K → Except PyErr (Fin 3 → K)
  | c :: cs, a :: as => do
    let d ← if c = 'x' then .ok (0 : Fin 3) else if c = 'y' then .ok 1 else if c = 'z' then .ok 2 else .error .valueError
    placeCenters (Function.update junk d a) cs as
  | _, _ => .ok junk

/-- initial_conditions.py 461-466: one direction of the cube; `None` does not restrict. -/
def inCube (cube : Option (K × K)) (x : K) : Bool :=
  match cube with
  | none => true
  | some q => decide (x ≥ q.1 ∧ x ≤ q.2)

/-- initial_conditions.py 438-467: is the point inside? Any other mode leaves `inside_region` unassigned. -/
def tubeRegion (mode dims : String) (center : CenterArg K) (radius : K) (cube : Fin 3 → Option (K × K)) (m : Slab K) :
    Except PyErr (Ix → Bool) :=
  if mode = "tube" then
    if center.asTuple.length ≠ dims.toList.length then .error .valueError
    else do
      let c ← placeCenters (fun _ => 0) dims.toList center.asTuple
      let rel (d : Fin 3) (j : Ix) : K := if letterIn (letter d) dims then (m.coord d).get j - c d else 0
      return fun j => decide (rel 0 j ^ 2 + rel 1 j ^ 2 + rel 2 j ^ 2 ≤ radius ^ 2)
  else if mode = "cube" then
    if ∀ d, cube d = none then .error .valueError
    else .ok fun j => decide (∀ d, inCube (cube d) ((m.coord d).get j) = true)
  else .error .nameError

/-- initial_conditions.py 402-481 `ShockTube`. -/
def shockTubeIC (mode dims : String) (center : CenterArg K) (radius : K) (cube : Fin 3 → Option (K × K))
    (rho P vx vy vz : K × K) (m : Slab K) (junk : ℕ → Ix → K) : Except PyErr (ℕ → Ix → K) := do
  let inside ← tubeRegion mode dims center radius cube m
  let pick (q : K × K) (j : Ix) : K := if inside j then q.1 else q.2
  writeVars junk [("rho", pick rho), ("vx", pick vx), ("vy", pick vy), ("vz", pick vz), ("P", pick P)]

/-- initial_conditions.py 541-574 `AthenaBlast`; its five arguments are never read. -/
def athenaBlastIC (F : NumFns K) (m : Slab K) (junk : ℕ → Ix → K) : Except PyErr (ℕ → Ix → K) :=
  let r (j : Ix) : K := F.sqrt ((m.coord 0).get j * (m.coord 0).get j + (m.coord 1).get j * (m.coord 1).get j)
  writeVars junk [("rho", fun _ => 1), ("vx", fun _ => 0), ("vy", fun _ => 0), ("vz", fun _ => 0),
    ("P", fun j => if r j < 1 / 10 then 10 else 1 / 10)]

/-- An initial condition with its arguments. -/
inductive Scenario (K : Type) where
  | sinus (dims : String) (rho : K × K) (P : K) (v : Fin 3 → K)
  | square (dims : String) (rho : K × K) (P : K) (v : Fin 3 → K)
  | slottedDisk (rho : K × K) (P : K)
  | shock1d (dim : String) (position : K) (rho P v : K × K)
  | doubleShock1d (dim : String) (positions : K × K) (rho v P : Fin 3 → K)
  | shuOsher (dim : String)
  | kelvinHelmholtz (sigma w0 : K)
  | doubleMach (gamma : K)
  | shockTube (mode dims : String) (center : CenterArg K) (radius : K) (cube : Fin 3 → Option (K × K))
      (rho P vx vy vz : K × K)
  | athenaBlast

/-- The function returned by `base_ic`, applied to a mesh. -/
def Scenario.rows (F : NumFns K) : Scenario K → Slab K → (ℕ → Ix → K) → Except PyErr (ℕ → Ix → K)
  | .sinus dims rho P v => sinusIC F dims rho P v
  | .square dims rho P v => squareIC dims rho P v
  | .slottedDisk rho P => slottedDiskIC rho P
  | .shock1d dim position rho P v => shock1dIC dim position rho P v
  | .doubleShock1d dim positions rho v P => doubleShock1dIC dim positions rho v P
  | .shuOsher dim => shuOsherIC F dim
  | .kelvinHelmholtz sigma w0 => kelvinHelmholtzIC F sigma w0
  | .doubleMach gamma => doubleMachIC F gamma
  | .shockTube mode dims center radius cube rho P vx vy vz => shockTubeIC mode dims center radius cube rho P vx vy vz
  | .athenaBlast => athenaBlastIC F

end FVHOE
