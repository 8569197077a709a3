import Mathlib.Analysis.SpecialFunctions.Pow.Real
import Mathlib.Analysis.Real.Pi.Bounds
import Verif.Py

/-!
Model of `examples/sedov.py`: the analytical Sedov solution that the notebooks compare with. Numbers are reals and `**` is
the real power; numpy gives nan for a fractional power of a negative number, the theorems have positive bases.
-/

namespace FVHOE

/-- One entry of the four arrays: radius, density, velocity, pressure. -/
structure Sample where
  r : ℝ
  d : ℝ
  u : ℝ
  p : ℝ

namespace SedovAna

section profile

variable (g : ℝ) (n : ℕ)

/-- sedov.py 53. -/
noncomputable def vmax : ℝ := 4 / (n + 2) / (g + 1)

/-- sedov.py 54. -/
noncomputable def vmin : ℝ := 2 / (n + 2) / g

/-- sedov.py 58-62. -/
noncomputable def a2 : ℝ := (1 - g) / (2 * (g - 1) + n)
noncomputable def a1 : ℝ := (n + 2) * g / (2 + n * (g - 1)) * (2 * n * (2 - g) / g / (n + 2) ^ 2 - a2 g n)
noncomputable def a3 : ℝ := n / (2 * (g - 1) + n)
noncomputable def a4 : ℝ := a1 g n * (n + 2) / (2 - g)
noncomputable def a5 : ℝ := 2 / (g - 2)

/-- The four numbers raised to powers in sedov.py 64-99. -/
noncomputable def bA (v : ℝ) : ℝ := (n + 2) * (g + 1) / 4 * v
noncomputable def bB (v : ℝ) : ℝ := (g + 1) / (g - 1) * ((n + 2) * g / 2 * v - 1)
noncomputable def bC (v : ℝ) : ℝ := (g + 1) / (g - 1) * (1 - (n + 2) / 2 * v)
noncomputable def bD (v : ℝ) : ℝ :=
  (n + 2) * (g + 1) / ((n + 2) * (g + 1) - 2 * (2 + n * (g - 1))) * (1 - (2 + n * (g - 1)) / 2 * v)

/-- sedov.py 64-74. -/
noncomputable def r1 (v : ℝ) : ℝ := bA g n v ^ (-2 / (2 + n) : ℝ) * bB g n v ^ (-a2 g n) * bD g n v ^ (-a1 g n)

/-- sedov.py 76. -/
noncomputable def u1 (v : ℝ) : ℝ := (n + 2) * (g + 1) / 4 * v * r1 g n v

/-- sedov.py 78-88. -/
noncomputable def d1 (v : ℝ) : ℝ := bB g n v ^ a3 g n * bC g n v ^ a5 g * bD g n v ^ a4 g n

/-- sedov.py 89-99. -/
noncomputable def p1 (v : ℝ) : ℝ :=
  bA g n v ^ (2 * n / (2 + n) : ℝ) * bC g n v ^ (a5 g + 1) * bD g n v ^ (a4 g n - 2 * a1 g n)

/-- sedov.py 55-57: entry `i` of the array `v`. -/
noncomputable def vAt (n1 i : ℕ) : ℝ := vmin g n + (10 : ℝ) ^ (-10 * (1 - ((i : ℝ) + 1) / n1)) * (vmax g n - vmin g n)

/-- sedov.py 101-104: entry `j` of the inner region, from the first entry of the outer one. -/
noncomputable def inner (n1 n2 j : ℕ) : Sample :=
  let r2 := r1 g n (vAt g n n1 0) * ((j : ℝ) + 1 / 2) / n2
  ⟨r2, d1 g n (vAt g n n1 0) * (r2 / r1 g n (vAt g n n1 0)) ^ (n / (g - 1) : ℝ),
    u1 g n (vAt g n n1 0) * r2 / r1 g n (vAt g n n1 0), p1 g n (vAt g n n1 0) * 1⟩

/-- sedov.py 64-99: entry `i` of the outer region. -/
noncomputable def outer (n1 i : ℕ) : Sample :=
  ⟨r1 g n (vAt g n n1 i), d1 g n (vAt g n n1 i), u1 g n (vAt g n n1 i), p1 g n (vAt g n n1 i)⟩

/-- `r1.max()`. -/
noncomputable def rMax (n1 : ℕ) : ℝ :=
  ((List.range n1).map fun i => r1 g n (vAt g n n1 i)).foldr max (r1 g n (vAt g n n1 0))

/-- sedov.py 106-131: the four regions. -/
noncomputable def regions (n1 n2 : ℕ) : List Sample :=
  (List.range n2).map (inner g n n1 n2) ++ (List.range n1).map (outer g n n1) ++
    [⟨rMax g n n1, 1 / ((g + 1) / (g - 1)), 0, 0⟩, ⟨rMax g n n1 + 1000, 1 / ((g + 1) / (g - 1)), 0, 0⟩]

/-- sedov.py 133-135. -/
noncomputable def rescaled (s : Sample) : Sample :=
  ⟨s.r, s.d * (g + 1) / (g - 1), s.u * 4 / (n + 2) / (g + 1), s.p * 8 / (n + 2) ^ 2 / (g + 1)⟩

end profile

/-- sedov.py 137-141: `vol` for radii after the radius `prev`. -/
noncomputable def shellsFrom (n : ℕ) : ℝ → List ℝ → List ℝ
  | _, [] => []
  | prev, r :: rs => (r ^ n - prev ^ n) :: shellsFrom n r rs

/-- sedov.py 137-141: `vol`. -/
noncomputable def shells (n : ℕ) : List ℝ → List ℝ
  | [] => []
  | r :: rs => r ^ n :: shellsFrom n r rs

/-- sedov.py 142-149. -/
noncomputable def ballConst : ℕ → Except PyErr ℝ
  | 1 => .ok 2
  | 2 => .ok Real.pi
  | 3 => .ok (4 * Real.pi / 3)
  | _ => .error .valueError

/-- sedov.py 151-156: the sum of kinetic and internal energy over the shells. -/
noncomputable def energySum (g c : ℝ) (n : ℕ) (l : List Sample) : ℝ :=
  (List.zipWith (fun s v => s.d * s.u * s.u / 2 * (v * c)) l (shells n (l.map Sample.r))).sum +
    (List.zipWith (fun s v => s.p / (g - 1) * (v * c)) l (shells n (l.map Sample.r))).sum

/-- sedov.py 5-163 `sedovana`. A scalar division by zero raises; without outer points `r1[0]` does. -/
noncomputable def sedovana (g : ℝ) (n n1 n2 : ℕ) : Except PyErr (List Sample) :=
  if g + 1 = 0 ∨ g = 0 ∨ 2 * (g - 1) + n = 0 ∨ 2 + n * (g - 1) = 0 ∨ 2 - g = 0 ∨ g - 1 = 0 ∨
      (n + 2) * (g + 1) - 2 * (2 + n * (g - 1)) = 0 then .error .zeroDivisionError
  else if n1 = 0 then .error .indexError
  else do
    let l := (regions g n n1 n2).map (rescaled g n)
    let c ← ballConst n
    let chi := energySum g c n l ^ (-1 / (2 + n) : ℝ)
    return l.map fun s => ⟨s.r * chi, s.d, s.u * chi, s.p * chi ^ 2⟩

/-- sedov.py 166-199 `sedov_rduP`. -/
noncomputable def sedovRduP (n : ℕ) (t g e0 rho0 : ℝ) (n1 n2 : ℕ) : Except PyErr (List Sample) := do
  let l ← sedovana g n n1 n2
  if rho0 = 0 ∨ t = 0 then .error .zeroDivisionError
  else return l.map fun s =>
    ⟨s.r * ((e0 / rho0) ^ (1 / (n + 2) : ℝ) * t ^ (2 / (n + 2) : ℝ)), s.d * rho0,
      s.u * ((e0 / rho0) ^ (1 / (n + 2) : ℝ) * t ^ (-n / (n + 2) : ℝ)),
      s.p * ((e0 / rho0) ^ (2 / (n + 2) : ℝ) * t ^ (-2 * n / (n + 2) : ℝ) * rho0)⟩

end SedovAna

end FVHOE
