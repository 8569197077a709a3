import Verif.Model.Riemann

/-!
Model of the reference one-dimensional solver `fvhoe/romain_solver.py`: conversions, Riemann solvers,
interpolation and smooth-extremum marker, pointwise. The constant `gamma = 1.4` is a parameter, `sqrt`
stands for `np.sqrt`, arithmetic is exact. The limiter at the end of `trace` and the driver are in
`RomainRun.lean`.
-/

namespace FVHOE.Romain

variable {K : Type} [Field K] [LinearOrder K]

/-- A column of the reference solver: rows 0, 1, 2. -/
structure Col (K : Type) where
  r0 : K
  r1 : K
  r2 : K

/-- romain_solver.py 6-14 `prim_to_cons`. -/
def primToCons (gamma : K) (w : Col K) : Col K :=
  ⟨w.r0, w.r0 * w.r1, (1 / 2) * w.r0 * w.r1 ^ 2 + w.r2 / (gamma - 1)⟩

/-- romain_solver.py 17-25 `prim_to_flux`. -/
def primToFlux (gamma : K) (w : Col K) : Col K :=
  ⟨w.r0 * w.r1, w.r0 * w.r1 ^ 2 + w.r2,
    ((1 / 2) * w.r0 * w.r1 ^ 2 + gamma * w.r2 / (gamma - 1)) * w.r1⟩

/-- romain_solver.py 28-36 `cons_to_prim`. -/
def consToPrim (gamma : K) (u : Col K) : Col K :=
  let v := u.r1 / u.r0
  ⟨u.r0, v, (gamma - 1) * (u.r2 - (1 / 2) * u.r0 * v ^ 2)⟩

/-- romain_solver.py 259-268 `llf`. -/
def llf (gamma : K) (sqrt : K → K) (wl wr : Col K) : Col K :=
  let ul := primToCons gamma wl
  let ur := primToCons gamma wr
  let fl := primToFlux gamma wl
  let fr := primToFlux gamma wr
  let sl := |wl.r1| + sqrt (gamma * wl.r2 / wl.r0)
  let sr := |wr.r1| + sqrt (gamma * wr.r2 / wr.r0)
  let smax := max sl sr
  ⟨(1 / 2) * (fl.r0 + fr.r0) - (1 / 2) * smax * (ur.r0 - ul.r0),
    (1 / 2) * (fl.r1 + fr.r1) - (1 / 2) * smax * (ur.r1 - ul.r1),
    (1 / 2) * (fl.r2 + fr.r2) - (1 / 2) * smax * (ur.r2 - ul.r2)⟩

/-- romain_solver.py 271-316 `hllc`. -/
def hllc (gamma : K) (sqrt : K → K) (wl wr : Col K) : Col K :=
  let el := (primToCons gamma wl).r2
  let er := (primToCons gamma wr).r2
  let cl := sqrt (gamma * wl.r2 / wl.r0)
  let cr := sqrt (gamma * wr.r2 / wr.r0)
  let sl := min wl.r1 wr.r1 - max cl cr
  let sr := max wl.r1 wr.r1 + max cl cr
  let dcl := wl.r0 * (wl.r1 - sl)
  let dcr := wr.r0 * (sr - wr.r1)
  let vstar := (dcl * wl.r1 + dcr * wr.r1 + wl.r2 - wr.r2) / (dcl + dcr)
  let pstar := (dcl * wr.r2 + dcr * wl.r2 + dcl * dcr * (wl.r1 - wr.r1)) / (dcl + dcr)
  let dstarl := wl.r0 * (sl - wl.r1) / (sl - vstar)
  let dstarr := wr.r0 * (sr - wr.r1) / (sr - vstar)
  let estarl := ((sl - wl.r1) * el - wl.r2 * wl.r1 + pstar * vstar) / (sl - vstar)
  let estarr := ((sr - wr.r1) * er - wr.r2 * wr.r1 + pstar * vstar) / (sr - vstar)
  let dg := if sl > 0 then wl.r0 else if vstar > 0 then dstarl else if sr > 0 then dstarr else wr.r0
  let vg := if sl > 0 then wl.r1 else if vstar > 0 then vstar else if sr > 0 then vstar else wr.r1
  let pg := if sl > 0 then wl.r2 else if vstar > 0 then pstar else if sr > 0 then pstar else wr.r2
  let eg := if sl > 0 then el else if vstar > 0 then estarl else if sr > 0 then estarr else er
  ⟨dg * vg, dg * vg * vg + pg, (eg + pg) * vg⟩

/-- romain_solver.py 177-227: `uleft` for a given `space`, at cell `i` of a row (`u[:, 3:-3]` is cell
`i`). It is the value at the right face, the left state of a Riemann problem. -/
def uleft (space : ℕ) (u : ℤ → K) (i : ℤ) : K :=
  match space with
  | 1 => u i
  | 2 => (-u (i - 1) + 4 * u i + u (i + 1)) / 4
  | 3 => (-u (i - 1) + 5 * u i + 2 * u (i + 1)) / 6
  | 4 => (u (i - 2) - 6 * u (i - 1) + 20 * u i + 10 * u (i + 1) - u (i + 2)) / 24
  | 5 => (2 * u (i - 2) - 13 * u (i - 1) + 47 * u i + 27 * u (i + 1) - 3 * u (i + 2)) / 60
  | _ => 0

/-- romain_solver.py 177-227: `uright`. -/
def uright (space : ℕ) (u : ℤ → K) (i : ℤ) : K :=
  match space with
  | 1 => u i
  | 2 => (u (i - 1) + 4 * u i - u (i + 1)) / 4
  | 3 => (2 * u (i - 1) + 5 * u i - u (i + 1)) / 6
  | 4 => (-u (i - 2) + 10 * u (i - 1) + 20 * u i - 6 * u (i + 1) + u (i + 2)) / 24
  | 5 => (-3 * u (i - 2) + 27 * u (i - 1) + 47 * u i - 13 * u (i + 1) + 2 * u (i + 2)) / 60
  | _ => 0

/-- romain_solver.py 186-227: `umiddle`, for `space` 3, 4, 5. -/
def umiddle (space : ℕ) (u : ℤ → K) (i : ℤ) : K :=
  match space with
  | 3 => (-u (i - 1) + 26 * u i - u (i + 1)) / 24
  | 4 => (-u (i - 1) + 26 * u i - u (i + 1)) / 24
  | 5 => (27 * u (i - 2) - 348 * u (i - 1) + 6402 * u i - 348 * u (i + 1) + 27 * u (i + 2)) / 5760
  | _ => 0

/-- romain_solver.py 150-172: the smooth-extremum marker of a cell from the first derivatives of the
cell and its neighbours. -/
def marker (dl dc dr : K) : K :=
  let dlft := dc - dl
  let drgt := dr - dc
  let dmid := (1 / 2) * (dlft + drgt)
  let side (x : K) : K :=
    let alfp := min 1 (max (2 * x) 0 / dmid)
    let alfm := min 1 (min (2 * x) 0 / dmid)
    if dmid = 0 then 1 else if dmid > 0 then alfp else alfm
  min (side dlft) (side drgt)

end FVHOE.Romain
