import Verif.Model.Hydro

/-!
Model of `fvhoe/riemann_solvers.py`: the three approximate Riemann solvers, pointwise. The code
evaluates both branches of `np.where`; here only the selected one matters.
-/

namespace FVHOE

variable {K : Type} [Field K] [LinearOrder K] {np : ℕ}

/-- riemann_solvers.py 13-45 `advection_upwind`. -/
def advectionUpwind (G : Gas K) (dim : Fin 3) (wl wr : State K np) : State K np :=
  let ul := computeConservatives G.gamma wl
  let ur := computeConservatives G.gamma wr
  let Fl := computeFluxes wl ul dim false
  let Fr := computeFluxes wr ur dim false
  let v := wl (.mom dim)
  fun i => if v > 0 then Fl i else if v < 0 then Fr i else 0

/-- riemann_solvers.py 48-88 `llf`. -/
def llf (G : Gas K) (dim : Fin 3) (wl wr : State K np) : State K np :=
  let ul := computeConservatives G.gamma wl
  let ur := computeConservatives G.gamma wr
  let Fl := computeFluxes wl ul dim true
  let Fr := computeFluxes wr ur dim true
  let sl := |wl (.mom dim)| + soundSpeed G wl
  let sr := |wr (.mom dim)| + soundSpeed G wr
  let smax := max sl sr
  fun i => (1 / 2) * (Fl i + Fr i) - (1 / 2) * smax * (ur i - ul i)

/-- The intermediate quantities of `hllc`, riemann_solvers.py 109-141. -/
structure HllcWaves (K : Type) where
  Sl : K
  Sr : K
  vStar : K
  PStar : K
  rStarL : K
  EStarL : K
  rStarR : K
  EStarR : K

/-- riemann_solvers.py 109-141: wave speeds and star states of `hllc`. -/
def hllcWaves (G : Gas K) (dim : Fin 3) (wl wr : State K np) : HllcWaves K :=
  let ul := computeConservatives G.gamma wl
  let ur := computeConservatives G.gamma wr
  let cl := soundSpeed G wl
  let cr := soundSpeed G wr
  let cmax := max cl cr
  let vl := wl (.mom dim)
  let vr := wr (.mom dim)
  let rhol := wl .rho
  let rhor := wr .rho
  let Pl := wl .en
  let Pr := wr .en
  let El := ul .en
  let Er := ur .en
  let Sl := min vl vr - cmax
  let Sr := max vl vr + cmax
  let rcL := rhol * (vl - Sl)
  let rcR := rhor * (Sr - vr)
  let vStar := (rcL * vl + rcR * vr + Pl - Pr) / (rcL + rcR)
  let PStar := (rcL * Pr + rcR * Pl + rcL * rcR * (vl - vr)) / (rcL + rcR)
  { Sl := Sl
    Sr := Sr
    vStar := vStar
    PStar := PStar
    rStarL := rhol * (Sl - vl) / (Sl - vStar)
    EStarL := ((Sl - vl) * El - Pl * vl + PStar * vStar) / (Sl - vStar)
    rStarR := rhor * (Sr - vr) / (Sr - vStar)
    EStarR := ((Sr - vr) * Er - Pr * vr + PStar * vStar) / (Sr - vStar) }

/-- riemann_solvers.py 143-155: the nested `np.where` sampling at the face. -/
def hllcSample (W : HllcWaves K) (l sl sr r : K) : K :=
  if W.Sl > 0 then l else if W.vStar > 0 then sl else if W.Sr > 0 then sr else r

/-- riemann_solvers.py 162-197: the value carried by the flow across the face. -/
def hllcUpwind (v l r : K) : K := if v > 0 then l else if v < 0 then r else 0

/-- riemann_solvers.py 91-197 `hllc`. -/
def hllc (G : Gas K) (dim : Fin 3) (wl wr : State K np) : State K np :=
  let W := hllcWaves G dim wl wr
  let El := computeConservatives G.gamma wl .en
  let Er := computeConservatives G.gamma wr .en
  let r := hllcSample W (wl .rho) W.rStarL W.rStarR (wr .rho)
  let v := hllcSample W (wl (.mom dim)) W.vStar W.vStar (wr (.mom dim))
  let P := hllcSample W (wl .en) W.PStar W.PStar (wr .en)
  let E := hllcSample W El W.EStarL W.EStarR Er
  fun
  | .rho => r * v
  | .mom d =>
    if d = dim then r * v * v + P else r * v * hllcUpwind v (wl (.mom d)) (wr (.mom d))
  | .en => v * (E + P)
  | .ps j => r * v * hllcUpwind v (wl (.ps j)) (wr (.ps j))

/-- The solvers a user can choose, solver.py 185-193. -/
inductive RiemannKind where
  | advectionUpwind | llf | hllc
  deriving DecidableEq

/-- The chosen solver. -/
def riemann (k : RiemannKind) (G : Gas K) (dim : Fin 3) (wl wr : State K np) : State K np :=
  match k with
  | .advectionUpwind => FVHOE.advectionUpwind G dim wl wr
  | .llf => FVHOE.llf G dim wl wr
  | .hllc => FVHOE.hllc G dim wl wr

end FVHOE
