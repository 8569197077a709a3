import Verif.Model.FloatFlux
import Verif.Model.Riemann

/-!
The gas dynamics of `fvhoe/hydro.py` and the Riemann solvers of `fvhoe/riemann_solvers.py` with the arithmetic of the
machine: every elementary operation of numpy is followed by a rounding `fl`, in the order in which Python evaluates the
expressions. Comparisons, `np.abs`, `np.minimum`, `np.maximum`, `np.where` and changes of sign do not round.

Numbers are rationals, as in `Verif/Model/FloatTime.lean`; infinities and NaN are left out, `x / 0` is `0`. `np.sqrt` is the
field `sqrt` of the gas, with its own rounding.
-/

namespace FVHOE

variable {np : ℕ} (fl : ℚ → ℚ)

/-- `np.sum(..., axis=0)` over three rows: one row after the other. -/
def roundedSum3 (f : Fin 3 → ℚ) : ℚ := fl (fl (f 0 + f 1) + f 2)

/-- hydro.py 146-170 `compute_primitives`. -/
def roundedPrimitives (gamma : ℚ) (u : State ℚ np) : State ℚ np
  | .rho => u .rho
  | .mom d => fl (u (.mom d) / u .rho)
  | .en => fl (fl (gamma - 1) *
      fl (u .en - fl (1 / 2 * roundedSum3 fl fun d => fl (u (.mom d) * fl (u (.mom d) / u .rho)))))
  | .ps j => fl (u (.ps j) / u .rho)

/-- hydro.py 173-196 `compute_conservatives`. -/
def roundedConservatives (gamma : ℚ) (w : State ℚ np) : State ℚ np
  | .rho => w .rho
  | .mom d => fl (w .rho * w (.mom d))
  | .en => fl (fl (w .en / fl (gamma - 1)) +
      fl (1 / 2 * roundedSum3 fl fun d => fl (fl (w .rho * w (.mom d)) * w (.mom d))))
  | .ps j => fl (w .rho * w (.ps j))

/-- hydro.py 199-210 `compute_sound_speed`. -/
def roundedSoundSpeed (G : Gas ℚ) (w : State ℚ np) : ℚ :=
  let csq := fl (fl (G.gamma * w .en) / w .rho)
  G.sqrt (if csq > G.csqFloor then csq else G.csqFloor)

/-- hydro.py 213-246 `compute_fluxes`. -/
def roundedFluxes (w u : State ℚ np) (dim : Fin 3) (includePressure : Bool) : State ℚ np
  | .rho => fl (w (.mom dim) * w .rho)
  | .mom d => if includePressure ∧ d = dim then fl (fl (w (.mom dim) * u (.mom d)) + w .en) else fl (w (.mom dim) * u (.mom d))
  | .en => if includePressure then fl (fl (w (.mom dim) * u .en) + fl (w (.mom dim) * w .en)) else fl (w (.mom dim) * u .en)
  | .ps j => fl (w (.mom dim) * u (.ps j))

/-- hydro.py 290-292: `np.sum(va, axis=0) + ndim * c`. -/
def roundedSpeed (G : Gas ℚ) (ndim : ℕ) (w : State ℚ np) : ℚ :=
  fl (roundedSum3 fl (fun d => |w (.mom d)|) + fl (ndim * roundedSoundSpeed fl G w))

/-- riemann_solvers.py 13-45 `advection_upwind`. -/
def roundedUpwind (G : Gas ℚ) (dim : Fin 3) (wl wr : State ℚ np) : State ℚ np :=
  let Fl := roundedFluxes fl wl (roundedConservatives fl G.gamma wl) dim false
  let Fr := roundedFluxes fl wr (roundedConservatives fl G.gamma wr) dim false
  let v := wl (.mom dim)
  fun i => if v > 0 then Fl i else if v < 0 then Fr i else 0

/-- riemann_solvers.py 48-88 `llf`. -/
def roundedLlf (G : Gas ℚ) (dim : Fin 3) (wl wr : State ℚ np) : State ℚ np :=
  let ul := roundedConservatives fl G.gamma wl
  let ur := roundedConservatives fl G.gamma wr
  let Fl := roundedFluxes fl wl ul dim true
  let Fr := roundedFluxes fl wr ur dim true
  let sl := fl (|wl (.mom dim)| + roundedSoundSpeed fl G wl)
  let sr := fl (|wr (.mom dim)| + roundedSoundSpeed fl G wr)
  let smax := max sl sr
  fun i => fl (fl (1 / 2 * fl (Fl i + Fr i)) - fl (fl (1 / 2 * smax) * fl (ur i - ul i)))

/-- riemann_solvers.py 109-141: wave speeds and star states of `hllc`. -/
def roundedWaves (G : Gas ℚ) (dim : Fin 3) (wl wr : State ℚ np) : HllcWaves ℚ :=
  let cmax := max (roundedSoundSpeed fl G wl) (roundedSoundSpeed fl G wr)
  let vl := wl (.mom dim)
  let vr := wr (.mom dim)
  let rhol := wl .rho
  let rhor := wr .rho
  let Pl := wl .en
  let Pr := wr .en
  let El := roundedConservatives fl G.gamma wl .en
  let Er := roundedConservatives fl G.gamma wr .en
  let Sl := fl (min vl vr - cmax)
  let Sr := fl (max vl vr + cmax)
  let rcL := fl (rhol * fl (vl - Sl))
  let rcR := fl (rhor * fl (Sr - vr))
  let vStar := fl (fl (fl (fl (fl (rcL * vl) + fl (rcR * vr)) + Pl) - Pr) / fl (rcL + rcR))
  let PStar := fl (fl (fl (fl (rcL * Pr) + fl (rcR * Pl)) + fl (fl (rcL * rcR) * fl (vl - vr))) / fl (rcL + rcR))
  { Sl := Sl
    Sr := Sr
    vStar := vStar
    PStar := PStar
    rStarL := fl (fl (rhol * fl (Sl - vl)) / fl (Sl - vStar))
    EStarL := fl (fl (fl (fl (fl (Sl - vl) * El) - fl (Pl * vl)) + fl (PStar * vStar)) / fl (Sl - vStar))
    rStarR := fl (fl (rhor * fl (Sr - vr)) / fl (Sr - vStar))
    EStarR := fl (fl (fl (fl (fl (Sr - vr) * Er) - fl (Pr * vr)) + fl (PStar * vStar)) / fl (Sr - vStar)) }

/-- riemann_solvers.py 91-197 `hllc`. -/
def roundedHllc (G : Gas ℚ) (dim : Fin 3) (wl wr : State ℚ np) : State ℚ np :=
  let W := roundedWaves fl G dim wl wr
  let El := roundedConservatives fl G.gamma wl .en
  let Er := roundedConservatives fl G.gamma wr .en
  let r := hllcSample W (wl .rho) W.rStarL W.rStarR (wr .rho)
  let v := hllcSample W (wl (.mom dim)) W.vStar W.vStar (wr (.mom dim))
  let P := hllcSample W (wl .en) W.PStar W.PStar (wr .en)
  let E := hllcSample W El W.EStarL W.EStarR Er
  fun
  | .rho => fl (r * v)
  | .mom d =>
    if d = dim then fl (fl (fl (r * v) * v) + P) else fl (fl (r * v) * hllcUpwind v (wl (.mom d)) (wr (.mom d)))
  | .en => fl (v * fl (E + P))
  | .ps j => fl (fl (r * v) * hllcUpwind v (wl (.ps j)) (wr (.ps j)))

/-- The chosen solver, solver.py 185-193. -/
def roundedRiemann (k : RiemannKind) (G : Gas ℚ) (dim : Fin 3) (wl wr : State ℚ np) : State ℚ np :=
  match k with
  | .advectionUpwind => roundedUpwind fl G dim wl wr
  | .llf => roundedLlf fl G dim wl wr
  | .hllc => roundedHllc fl G dim wl wr

/-- The arguments of `EulerSolver` (solver.py 42-107) on a periodic domain without limiting; `h` are the spacings of
solver.py 231-234. -/
structure RoundedConfig where
  gas : Gas ℚ
  riem : RiemannKind
  n : Fin 3 → ℕ
  active : Fin 3 → Bool
  h : Fin 3 → ℚ
  p : Fin 3 → ℕ
  cfl : ℚ
  fixedDt : Option ℚ

/-- solver.py 244-254 `self.ndim`. -/
def RoundedConfig.ndim (c : RoundedConfig) : ℕ := ([0, 1, 2] : List (Fin 3)).countP c.active

/-- The scheme with the gas dynamics of the code (solver.py 185-193, 503-512, 783-787). -/
def RoundedConfig.scheme (c : RoundedConfig) (np : ℕ) : RoundedScheme (Var np) where
  n := c.n
  active := c.active
  h := c.h
  p := c.p
  prim := roundedPrimitives fl c.gas.gamma
  riem := roundedRiemann fl c.riem c.gas
  speed := roundedSpeed fl c.gas c.ndim
  cfl := c.cfl
  fixedDt := c.fixedDt


/-- Rounding to `p` bits, to nearest, ties to even, without bounds on the exponent: `Format.fl` as long as no result is
subnormal. -/
def freeFl (p : ℕ) (x : ℚ) : ℚ := roundEven (x / 2 ^ (binade x + 1 - p)) * 2 ^ (binade x + 1 - p)

/-- The square root rounded to `p` bits, to nearest, ties to even, without bounds on the exponent (numpy's `sqrt` rounds
correctly); `0` instead of NaN for negative numbers. -/
def freeSqrt (p : ℕ) (x : ℚ) : ℚ :=
  let k := binade x / 2
  let q := x / 2 ^ (k + k) * 4 ^ (p - 1)
  let r := Nat.sqrt ⌊q⌋₊
  let m := if q < (r + 1 / 2) ^ 2 then r else if (r + 1 / 2 : ℚ) ^ 2 < q then r + 1 else if r % 2 = 0 then r else r + 1
  if 0 < x then m * 2 ^ (k + 1 - p) else 0

end FVHOE
