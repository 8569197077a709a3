import Verif.Proofs.FloatFlux
import Verif.Model.FloatHydro

/-!
Floating-point arithmetic and powers of two: the rounded gas dynamics and Riemann solvers in other units.
-/

set_option linter.unusedSectionVars false

namespace FVHOE

/-- Rounding that does not depend on the exponent: no underflow and no overflow. -/
def Scales (fl : ℚ → ℚ) : Prop := ∀ (k : ℤ) (x : ℚ), fl (2 ^ k * x) = 2 ^ k * fl x

/-- `x'` is `x` in a unit smaller by the factor `2 ^ k`. -/
def InUnit (k : ℤ) (x' x : ℚ) : Prop := x' = 2 ^ k * x

theorem two_zpow_ne (k : ℤ) : (2 : ℚ) ^ k ≠ 0 := by positivity

namespace InUnit

variable {fl : ℚ → ℚ} {k l : ℤ} {x' x y' y : ℚ}

theorem cast (h : InUnit k x' x) (e : k = l) : InUnit l x' x := e ▸ h

theorem self (x : ℚ) : InUnit 0 x x := by simp [InUnit]

theorem zero (k : ℤ) : InUnit k 0 0 := by simp [InUnit]

theorem round (H : Scales fl) (h : InUnit k x' x) : InUnit k (fl x') (fl x) := by
  unfold InUnit at *
  rw [h, H]

theorem add (h : InUnit k x' x) (h' : InUnit k y' y) : InUnit k (x' + y') (x + y) := by
  unfold InUnit at *
  rw [h, h', mul_add]

theorem sub (h : InUnit k x' x) (h' : InUnit k y' y) : InUnit k (x' - y') (x - y) := by
  unfold InUnit at *
  rw [h, h', mul_sub]

theorem neg (h : InUnit k x' x) : InUnit k (-x') (-x) := by
  unfold InUnit at *
  rw [h, mul_neg]

theorem mul (h : InUnit k x' x) (h' : InUnit l y' y) : InUnit (k + l) (x' * y') (x * y) := by
  unfold InUnit at *
  rw [h, h', zpow_add₀ (by norm_num)]
  ring

theorem div (h : InUnit k x' x) (h' : InUnit l y' y) : InUnit (k - l) (x' / y') (x / y) := by
  unfold InUnit at *
  rw [h, h', zpow_sub₀ (by norm_num), mul_div_mul_comm]

theorem abs (h : InUnit k x' x) : InUnit k |x'| |x| := by
  unfold InUnit at *
  rw [h, abs_mul, abs_of_pos (by positivity : (0 : ℚ) < 2 ^ k)]

theorem lt_iff (h : InUnit k x' x) (h' : InUnit k y' y) : x' < y' ↔ x < y := by
  unfold InUnit at *
  rw [h, h']
  exact mul_lt_mul_iff_right₀ (by positivity)

theorem le_iff (h : InUnit k x' x) (h' : InUnit k y' y) : x' ≤ y' ↔ x ≤ y := by
  unfold InUnit at *
  rw [h, h']
  exact mul_le_mul_iff_right₀ (by positivity)

theorem eq_iff (h : InUnit k x' x) (h' : InUnit k y' y) : x' = y' ↔ x = y := by
  unfold InUnit at *
  rw [h, h']
  exact mul_right_inj' (two_zpow_ne k)

theorem max (h : InUnit k x' x) (h' : InUnit k y' y) : InUnit k (Max.max x' y') (Max.max x y) := by
  rcases le_total x y with e | e
  · rwa [max_eq_right e, max_eq_right ((h.le_iff h').2 e)]
  · rwa [max_eq_left e, max_eq_left ((h'.le_iff h).2 e)]

theorem min (h : InUnit k x' x) (h' : InUnit k y' y) : InUnit k (Min.min x' y') (Min.min x y) := by
  rcases le_total x y with e | e
  · rwa [min_eq_left e, min_eq_left ((h.le_iff h').2 e)]
  · rwa [min_eq_right e, min_eq_right ((h'.le_iff h).2 e)]

theorem pos_iff (h : InUnit k x' x) : 0 < x' ↔ 0 < x := (zero k).lt_iff h

theorem neg_iff (h : InUnit k x' x) : x' < 0 ↔ x < 0 := h.lt_iff (zero k)

theorem ite {P Q : Prop} [Decidable P] [Decidable Q] (e : P ↔ Q) (h : InUnit k x' x) (h' : InUnit k y' y) :
    InUnit k (if P then x' else y') (if Q then x else y) := by
  by_cases hq : Q
  · rwa [if_pos hq, if_pos (e.2 hq)]
  · rwa [if_neg hq, if_neg (fun h => hq (e.1 h))]

end InUnit

/-! ### The gas -/

variable {np : ℕ}

/-- The units of the conserved variables, from those of the density, the velocity and the passive concentrations: momenta are
densities times velocities, energies densities times velocities squared. -/
def consUnit (a b : ℤ) (e : Fin np → ℤ) : Var np → ℤ
  | .rho => a
  | .mom _ => a + b
  | .en => a + b + b
  | .ps j => a + e j

/-- The units of the primitive variables. -/
def primUnit (a b : ℤ) (e : Fin np → ℤ) : Var np → ℤ
  | .rho => a
  | .mom _ => b
  | .en => a + b + b
  | .ps j => e j

/-- A column in other units. -/
def ColUnits (c : Var np → ℤ) (w' w : State ℚ np) : Prop := ∀ v, InUnit (c v) (w' v) (w v)

/-- The gas in other units: the floor is a velocity squared. -/
def gasUnits (b : ℤ) (G : Gas ℚ) : Gas ℚ := { G with csqFloor := 2 ^ (b + b) * G.csqFloor }

section
variable {fl : ℚ → ℚ} (H : Scales fl) {a b : ℤ} {e : Fin np → ℤ} {w' w wl' wl wr' wr u' u : State ℚ np}

include H

theorem roundedSum3_units {k : ℤ} {f' f : Fin 3 → ℚ} (h : ∀ d, InUnit k (f' d) (f d)) :
    InUnit k (roundedSum3 fl f') (roundedSum3 fl f) := (((h 0).add (h 1)).round H |>.add (h 2)).round H

theorem roundedPrimitives_units (γ : ℚ) (h : ColUnits (consUnit a b e) u' u) :
    ColUnits (primUnit a b e) (roundedPrimitives fl γ u') (roundedPrimitives fl γ u) := by
  have hr : InUnit a (u' .rho) (u .rho) := h .rho
  have hm (d : Fin 3) : InUnit (a + b) (u' (.mom d)) (u (.mom d)) := h (.mom d)
  have hE : InUnit (a + b + b) (u' .en) (u .en) := h .en
  have hv (d : Fin 3) : InUnit b (fl (u' (.mom d) / u' .rho)) (fl (u (.mom d) / u .rho)) :=
    (((hm d).div hr).cast (by omega)).round H
  intro v
  cases v with
  | rho => exact hr
  | mom d => exact hv d
  | en =>
    have hk := roundedSum3_units H fun d => (((hm d).mul (hv d)).round H)
    have h2 := ((InUnit.self (1 / 2)).mul hk).round H
    have h3 := (hE.sub (h2.cast (by omega))).round H
    exact (((InUnit.self (fl (γ - 1))).mul h3).round H).cast (by simp [primUnit])
  | ps j =>
    have : InUnit (a + e j) (u' (.ps j)) (u (.ps j)) := h (.ps j)
    exact ((this.div hr).round H).cast (by simp [primUnit])

theorem conservatives_units (γ : ℚ) (h : ColUnits (primUnit a b e) w' w) :
    ColUnits (consUnit a b e) (roundedConservatives fl γ w') (roundedConservatives fl γ w) := by
  have hr : InUnit a (w' .rho) (w .rho) := h .rho
  have hv (d : Fin 3) : InUnit b (w' (.mom d)) (w (.mom d)) := h (.mom d)
  have hP : InUnit (a + b + b) (w' .en) (w .en) := h .en
  have hm (d : Fin 3) : InUnit (a + b) (fl (w' .rho * w' (.mom d))) (fl (w .rho * w (.mom d))) := (hr.mul (hv d)).round H
  intro v
  cases v with
  | rho => exact hr
  | mom d => exact hm d
  | en =>
    have hk := roundedSum3_units H fun d => ((hm d).mul (hv d)).round H
    have h2 := ((InUnit.self (1 / 2)).mul hk).round H
    have h3 := (hP.div (InUnit.self (fl (γ - 1)))).round H
    exact (((h3.cast (by omega)).add (h2.cast (by omega))).round H : InUnit (a + b + b) _ _)
  | ps j =>
    have : InUnit (e j) (w' (.ps j)) (w (.ps j)) := h (.ps j)
    exact (hr.mul this).round H

variable {G : Gas ℚ} (hs : ∀ (k : ℤ) (x : ℚ), G.sqrt (2 ^ (k + k) * x) = 2 ^ k * G.sqrt x)
include hs

theorem soundSpeed_inUnits (h : ColUnits (primUnit a b e) w' w) :
    InUnit b (roundedSoundSpeed fl (gasUnits b G) w') (roundedSoundSpeed fl G w) := by
  have hr : InUnit a (w' .rho) (w .rho) := h .rho
  have hP : InUnit (a + b + b) (w' .en) (w .en) := h .en
  have hc : InUnit (b + b) (fl (fl (G.gamma * w' .en) / w' .rho)) (fl (fl (G.gamma * w .en) / w .rho)) :=
    (((((InUnit.self G.gamma).mul hP).round H).div hr).round H).cast (by omega)
  have hf : InUnit (b + b) (2 ^ (b + b) * G.csqFloor) G.csqFloor := rfl
  have := InUnit.ite (hf.lt_iff hc) hc hf
  unfold InUnit at this ⊢
  unfold roundedSoundSpeed
  refine Eq.trans (congrArg G.sqrt this) (hs b _)

theorem speed_units (n : ℕ) (h : ColUnits (primUnit a b e) w' w) :
    InUnit b (roundedSpeed fl (gasUnits b G) n w') (roundedSpeed fl G n w) := by
  have hv (d : Fin 3) : InUnit b (w' (.mom d)) (w (.mom d)) := h (.mom d)
  have h1 := roundedSum3_units H fun d => (hv d).abs
  have h2 := ((InUnit.self (n : ℚ)).mul (soundSpeed_inUnits H hs h)).round H
  exact (h1.add (h2.cast (by omega))).round H

omit hs in
theorem fluxes_inUnits (dim : Fin 3) (pr : Bool) (h : ColUnits (primUnit a b e) w' w) (h' : ColUnits (consUnit a b e) u' u) :
    ColUnits (fun v => consUnit a b e v + b) (roundedFluxes fl w' u' dim pr) (roundedFluxes fl w u dim pr) := by
  have hr : InUnit a (w' .rho) (w .rho) := h .rho
  have hv : InUnit b (w' (.mom dim)) (w (.mom dim)) := h (.mom dim)
  have hP : InUnit (a + b + b) (w' .en) (w .en) := h .en
  have hm (d : Fin 3) : InUnit (a + b) (u' (.mom d)) (u (.mom d)) := h' (.mom d)
  have hE : InUnit (a + b + b) (u' .en) (u .en) := h' .en
  intro v
  cases v with
  | rho => exact ((hv.mul hr).round H).cast (by simp [consUnit]; omega)
  | mom d =>
    have h1 : InUnit (a + b + b) _ _ := (((hv.mul (hm d)).cast (by omega)).round H)
    exact InUnit.ite Iff.rfl ((h1.add hP).round H) h1
  | en =>
    have h1 : InUnit (a + b + b + b) _ _ := ((hv.mul hE).cast (by omega)).round H
    have h2 : InUnit (a + b + b + b) _ _ := ((hv.mul hP).cast (by omega)).round H
    exact InUnit.ite Iff.rfl ((h1.add h2).round H) h1
  | ps j =>
    have : InUnit (a + e j) (u' (.ps j)) (u (.ps j)) := h' (.ps j)
    exact ((hv.mul this).round H).cast (by simp [consUnit]; omega)

theorem upwind_units (dim : Fin 3) (hl : ColUnits (primUnit a b e) wl' wl) (hr : ColUnits (primUnit a b e) wr' wr) :
    ColUnits (fun v => consUnit a b e v + b) (roundedUpwind fl (gasUnits b G) dim wl' wr') (roundedUpwind fl G dim wl wr) := by
  have hv : InUnit b (wl' (.mom dim)) (wl (.mom dim)) := hl (.mom dim)
  intro v
  exact InUnit.ite hv.pos_iff (fluxes_inUnits H dim false hl (conservatives_units H G.gamma hl) v)
    (InUnit.ite hv.neg_iff (fluxes_inUnits H dim false hr (conservatives_units H G.gamma hr) v) (InUnit.zero _))

theorem llf_units (dim : Fin 3) (hl : ColUnits (primUnit a b e) wl' wl) (hr : ColUnits (primUnit a b e) wr' wr) :
    ColUnits (fun v => consUnit a b e v + b) (roundedLlf fl (gasUnits b G) dim wl' wr') (roundedLlf fl G dim wl wr) := by
  have hvl : InUnit b (wl' (.mom dim)) (wl (.mom dim)) := hl (.mom dim)
  have hvr : InUnit b (wr' (.mom dim)) (wr (.mom dim)) := hr (.mom dim)
  have ul := conservatives_units H G.gamma hl
  have ur := conservatives_units H G.gamma hr
  have sl := (hvl.abs.add (soundSpeed_inUnits H hs hl)).round H
  have sr := (hvr.abs.add (soundSpeed_inUnits H hs hr)).round H
  intro v
  have Fl := fluxes_inUnits H dim true hl ul v
  have Fr := fluxes_inUnits H dim true hr ur v
  have h1 := ((InUnit.self (1 / 2)).mul ((Fl.add Fr).round H)).round H
  have h2 := ((((InUnit.self (1 / 2)).mul (sl.max sr)).round H).mul (((ur v).sub (ul v)).round H)).round H
  exact ((h1.cast (by omega)).sub (h2.cast (by dsimp only; omega))).round H

/-- The wave speeds and star states in other units. -/
structure WaveUnits (a b : ℤ) (W' W : HllcWaves ℚ) : Prop where
  Sl : InUnit b W'.Sl W.Sl
  Sr : InUnit b W'.Sr W.Sr
  vStar : InUnit b W'.vStar W.vStar
  PStar : InUnit (a + b + b) W'.PStar W.PStar
  rStarL : InUnit a W'.rStarL W.rStarL
  EStarL : InUnit (a + b + b) W'.EStarL W.EStarL
  rStarR : InUnit a W'.rStarR W.rStarR
  EStarR : InUnit (a + b + b) W'.EStarR W.EStarR

theorem waves_units (dim : Fin 3) (hl : ColUnits (primUnit a b e) wl' wl) (hr : ColUnits (primUnit a b e) wr' wr) :
    WaveUnits a b (roundedWaves fl (gasUnits b G) dim wl' wr') (roundedWaves fl G dim wl wr) := by
  have vl : InUnit b (wl' (.mom dim)) (wl (.mom dim)) := hl (.mom dim)
  have vr : InUnit b (wr' (.mom dim)) (wr (.mom dim)) := hr (.mom dim)
  have rl : InUnit a (wl' .rho) (wl .rho) := hl .rho
  have rr : InUnit a (wr' .rho) (wr .rho) := hr .rho
  have Pl : InUnit (a + b + b) (wl' .en) (wl .en) := hl .en
  have Pr : InUnit (a + b + b) (wr' .en) (wr .en) := hr .en
  have El : InUnit (a + b + b) _ _ := conservatives_units H G.gamma hl .en
  have Er : InUnit (a + b + b) _ _ := conservatives_units H G.gamma hr .en
  have cm := (soundSpeed_inUnits H hs hl).max (soundSpeed_inUnits H hs hr)
  have Sl := ((vl.min vr).sub cm).round H
  have Sr := ((vl.max vr).add cm).round H
  have rcL : InUnit (a + b) _ _ := (rl.mul ((vl.sub Sl).round H)).round H
  have rcR : InUnit (a + b) _ _ := (rr.mul ((Sr.sub vr).round H)).round H
  have den := (rcL.add rcR).round H
  have vS : InUnit b _ _ := (((((((rcL.mul vl).round H).add ((rcR.mul vr).round H)).round H).add Pl).round H |>.sub Pr
    |>.round H).div den |>.round H).cast (by omega)
  have PS : InUnit (a + b + b) _ _ := (((((((rcL.mul Pr).round H).add ((rcR.mul Pl).round H)).round H).add
    ((((rcL.mul rcR).round H).mul ((vl.sub vr).round H)).round H |>.cast (by omega))).round H).div den |>.round H).cast (by omega)
  refine ⟨Sl, Sr, vS, PS, ?_, ?_, ?_, ?_⟩
  · exact ((((rl.mul ((Sl.sub vl).round H)).round H).div ((Sl.sub vS).round H)).round H).cast (by omega)
  · exact ((((((((Sl.sub vl).round H).mul El).round H).sub (((Pl.mul vl).cast (by omega)).round H)).round H).add
      (((PS.mul vS).cast (by omega)).round H)).round H |>.div ((Sl.sub vS).round H) |>.round H).cast (by omega)
  · exact ((((rr.mul ((Sr.sub vr).round H)).round H).div ((Sr.sub vS).round H)).round H).cast (by omega)
  · exact ((((((((Sr.sub vr).round H).mul Er).round H).sub (((Pr.mul vr).cast (by omega)).round H)).round H).add
      (((PS.mul vS).cast (by omega)).round H)).round H |>.div ((Sr.sub vS).round H) |>.round H).cast (by omega)

omit H hs in
theorem WaveUnits.sample {W' W : HllcWaves ℚ} (h : WaveUnits a b W' W) {k : ℤ} {x1' x1 x2' x2 x3' x3 x4' x4 : ℚ}
    (h1 : InUnit k x1' x1) (h2 : InUnit k x2' x2) (h3 : InUnit k x3' x3) (h4 : InUnit k x4' x4) :
    InUnit k (hllcSample W' x1' x2' x3' x4') (hllcSample W x1 x2 x3 x4) :=
  InUnit.ite h.Sl.pos_iff h1 (InUnit.ite h.vStar.pos_iff h2 (InUnit.ite h.Sr.pos_iff h3 h4))

omit H hs in
theorem hllcUpwind_units {k : ℤ} {v' v x' x y' y : ℚ} (hv : InUnit b v' v) (hx : InUnit k x' x) (hy : InUnit k y' y) :
    InUnit k (hllcUpwind v' x' y') (hllcUpwind v x y) :=
  InUnit.ite hv.pos_iff hx (InUnit.ite hv.neg_iff hy (InUnit.zero _))

theorem hllc_units (dim : Fin 3) (hl : ColUnits (primUnit a b e) wl' wl) (hr : ColUnits (primUnit a b e) wr' wr) :
    ColUnits (fun v => consUnit a b e v + b) (roundedHllc fl (gasUnits b G) dim wl' wr') (roundedHllc fl G dim wl wr) := by
  have hW := waves_units H hs dim hl hr
  have r : InUnit a _ _ := hW.sample (hl .rho) hW.rStarL hW.rStarR (hr .rho)
  have v : InUnit b _ _ := hW.sample (hl (.mom dim)) hW.vStar hW.vStar (hr (.mom dim))
  have P : InUnit (a + b + b) _ _ := hW.sample (hl .en) hW.PStar hW.PStar (hr .en)
  have E : InUnit (a + b + b) _ _ := hW.sample (conservatives_units H G.gamma hl .en) hW.EStarL hW.EStarR
    (conservatives_units H G.gamma hr .en)
  have rv := (r.mul v).round H
  intro x
  cases x with
  | rho => exact rv
  | mom d =>
    exact InUnit.ite Iff.rfl (((rv.mul v).round H |>.add P).round H)
      ((rv.mul (hllcUpwind_units v (hl (.mom d)) (hr (.mom d)))).round H)
  | en => exact ((v.mul ((E.add P).round H)).round H).cast (by simp [consUnit]; omega)
  | ps j => exact ((rv.mul (hllcUpwind_units v (hl (.ps j)) (hr (.ps j)))).round H).cast (by simp [consUnit, primUnit]; omega)

theorem riemann_inUnits (k : RiemannKind) (dim : Fin 3) (hl : ColUnits (primUnit a b e) wl' wl)
    (hr : ColUnits (primUnit a b e) wr' wr) : ColUnits (fun v => consUnit a b e v + b)
      (roundedRiemann fl k (gasUnits b G) dim wl' wr') (roundedRiemann fl k G dim wl wr) := by
  cases k with
  | advectionUpwind => exact upwind_units H hs dim hl hr
  | llf => exact llf_units H hs dim hl hr
  | hllc => exact hllc_units H hs dim hl hr

end

/-! ### The scheme -/

variable {W : Type} {fl : ℚ → ℚ}

/-- Arrays in other units. -/
def ArrUnits (c : W → ℤ) (a' a : FState W) : Prop := ∀ w i, InUnit (c w) (a' w i) (a w i)

theorem roundedSum_units (H : Scales fl) {k : ℤ} (ws : List ℚ) : ∀ (o' o : ℚ) (j : ℤ) (a' a : ℤ → ℚ), InUnit k o' o →
    (∀ j, InUnit k (a' j) (a j)) → InUnit k (roundedSum fl o' ws j a') (roundedSum fl o ws j a) := by
  induction ws with
  | nil => intro o' o j a' a h _; exact h
  | cons c cs ih =>
    intro o' o j a' a h ha
    exact ih _ _ _ _ _ ((h.add ((((InUnit.self (fl c)).mul (ha j)).cast (by omega)).round H)).round H) ha

theorem ArrUnits.interp (H : Scales fl) {c : W → ℤ} {a' a : FState W} (h : ArrUnits c a' a) (p : ℕ) (d : Fin 3) (pos : String) :
    ArrUnits c (roundedInterp fl p d pos a') (roundedInterp fl p d pos a) := fun w _ =>
  roundedSum_units H _ _ _ _ _ _ (InUnit.zero _) fun _ => h w _

theorem ArrUnits.trans (H : Scales fl) {c : W → ℤ} {a' a : FState W} (h : ArrUnits c a' a) (p : ℕ) (d : Fin 3) :
    ArrUnits c (roundedTrans fl p d a') (roundedTrans fl p d a) := fun w _ =>
  roundedSum_units H _ _ _ _ _ _ (InUnit.zero _) fun _ => h w _

theorem ArrUnits.wrap {c : W → ℤ} {a' a : FState W} (h : ArrUnits c a' a) (n : Fin 3 → ℕ) :
    ArrUnits c (wrapAround n a') (wrapAround n a) := fun w _ => h w _

theorem ArrUnits.plus (H : Scales fl) {c : W → ℤ} {a' a b' b : FState W} (h : ArrUnits c a' a) (h' : ArrUnits c b' b) :
    ArrUnits c (a'.plus fl b') (a.plus fl b) := fun w i => ((h w i).add (h' w i)).round H

theorem ArrUnits.times (H : Scales fl) {c c' : W → ℤ} {a' a : FState W} (h : ArrUnits c a' a) {k : ℤ} {x' x : ℚ}
    (hx : InUnit k x' x) (hc : ∀ w, k + c w = c' w) : ArrUnits c' (a'.times fl x') (a.times fl x) := fun w i =>
  ((hx.mul (h w i)).round H).cast (hc w)

/-- The set-up in other units: lengths by `2 ^ l`, velocities by `2 ^ b`. -/
def RoundedConfig.units (c : RoundedConfig) (b l : ℤ) : RoundedConfig :=
  { c with gas := gasUnits b c.gas, h := fun d => 2 ^ l * c.h d, fixedDt := c.fixedDt.map (2 ^ (l - b) * ·) }

theorem npMax_units {ι : Type} {k : ℤ} (f' f : ι → ℚ) (h : ∀ i, InUnit k (f' i) (f i)) (L : List ι) {m : ℚ}
    (hm : npMax (L.map f) = .ok m) : npMax (L.map f') = .ok (2 ^ k * m) := by
  cases L with
  | nil => cases hm
  | cons x xs =>
    simp only [List.map_cons, npMax, Except.ok.injEq] at hm ⊢
    rw [← hm]
    have key : ∀ (l : List ι) (y' y : ℚ), InUnit k y' y → InUnit k ((l.map f').foldl max y') ((l.map f).foldl max y) := by
      intro l
      induction l with
      | nil => intro y' y hy; exact hy
      | cons z zs ih => intro y' y hy; exact ih _ _ (hy.max (h z))
    exact key xs _ _ (h x)

section
variable (H : Scales fl) (c : RoundedConfig) (hs : ∀ (k : ℤ) (x : ℚ), c.gas.sqrt (2 ^ (k + k) * x) = 2 ^ k * c.gas.sqrt x)
  {a b : ℤ} (l : ℤ) {e : Fin np → ℤ} {u' u : FState (Var np)}
include H

theorem primAverages_units (h : ArrUnits (consUnit a b e) u' u) : ArrUnits (primUnit a b e)
    (((c.units b l).scheme fl np).primAverages fl u') ((c.scheme fl np).primAverages fl u) := by
  have h1 := ((h.interp H (c.p 0) 0 "c").interp H (c.p 1) 1 "c").interp H (c.p 2) 2 "c"
  have h2 : ArrUnits (primUnit a b e) (fun x i => roundedPrimitives fl c.gas.gamma (fun y => roundedInterp fl (c.p 2) 2 "c"
      (roundedInterp fl (c.p 1) 1 "c" (roundedInterp fl (c.p 0) 0 "c" u')) y i) x) fun x i => roundedPrimitives fl c.gas.gamma
      (fun y => roundedInterp fl (c.p 2) 2 "c" (roundedInterp fl (c.p 1) 1 "c" (roundedInterp fl (c.p 0) 0 "c" u)) y i) x :=
    fun w i => roundedPrimitives_units H c.gas.gamma (fun y => h1 y i) w
  exact ((h2.trans H (c.p 0) 0).trans H (c.p 1) 1).trans H (c.p 2) 2

include hs

theorem flux_units (h : ArrUnits (primUnit a b e) u' u) (d : Fin 3) : ArrUnits (fun v => consUnit a b e v + b)
    (((c.units b l).scheme fl np).flux fl d u') ((c.scheme fl np).flux fl d u) := by
  have h1 := (h.interp H (c.p (centerOrder d).1) (centerOrder d).1 "c").interp H (c.p (centerOrder d).2) (centerOrder d).2 "c"
  have hl := h1.interp H (c.p d) d "l"
  have hr := h1.interp H (c.p d) d "r"
  have hm : ArrUnits (fun v => consUnit a b e v + b) _ _ := fun w i =>
    riemann_inUnits H hs c.riem d (fun y => hr y (i - Pi.single d 1)) (fun y => hl y i) w
  exact (hm.trans H (c.p (transverseOrder d).1) (transverseOrder d).1).trans H (c.p (transverseOrder d).2) (transverseOrder d).2

theorem size_units (h : ArrUnits (primUnit a b e) u' u) {dt : ℚ} (hdt : (c.scheme fl np).size fl u = .ok dt) :
    ((c.units b l).scheme fl np).size fl u' = .ok (2 ^ (l - b) * dt) := by
  unfold RoundedScheme.size at hdt ⊢
  change (match c.fixedDt.map (2 ^ (l - b) * ·) with | some x => _ | none => _) = _
  change (match c.fixedDt with | some x => _ | none => _) = _ at hdt
  cases hf : c.fixedDt with
  | some x =>
    rw [hf] at hdt
    exact congrArg (fun y : ℚ => Except.ok (2 ^ (l - b) * y)) (Except.ok.inj hdt)
  | none =>
    rw [hf] at hdt
    cases hm : npMax ((indexList (c.scheme fl np).n).map fun i => (c.scheme fl np).speed fun y => u y i) with
    | error er => rw [hm] at hdt; cases hdt
    | ok m =>
      rw [hm] at hdt
      have hsp (i : Ix) : InUnit b (((c.units b l).scheme fl np).speed fun y => u' y i) ((c.scheme fl np).speed fun y => u y i) := by
        have hc : ColUnits (primUnit a b e) (fun y => u' y i) fun y => u y i := fun y => h y i
        have := speed_units H hs c.ndim hc
        unfold RoundedConfig.scheme
        exact this
      have h1 := npMax_units _ _ hsp _ hm
      have hdt : fl (fl (c.cfl * min (min (c.h 0) (c.h 1)) (c.h 2)) / m) = dt := Except.ok.inj hdt
      have hh (d : Fin 3) : InUnit l ((c.units b l).h d) (c.h d) := rfl
      have hmu : InUnit b (2 ^ b * m) m := rfl
      have h2 := ((((InUnit.self c.cfl).mul (((hh 0).min (hh 1)).min (hh 2))).round H).div hmu).round H
      have h3 : fl (fl (c.cfl * min (min ((c.units b l).h 0) ((c.units b l).h 1)) ((c.units b l).h 2)) / (2 ^ b * m)) =
          2 ^ (l - b) * dt := by
        rw [← hdt]
        exact h2.cast (by omega)
      change (do let m ← npMax ((indexList (c.scheme fl np).n).map fun i => ((c.units b l).scheme fl np).speed fun y => u' y i); _) = _
      rw [h1]
      exact congrArg Except.ok h3

omit hs in
theorem roundedEquation_units {k : W → ℤ} (act : Fin 3 → Bool) {h' h : Fin 3 → ℚ} (hh : ∀ d, InUnit l (h' d) (h d))
    {F' F : Fin 3 → FState W} (hF : ∀ d, ArrUnits k (F' d) (F d)) :
    ArrUnits (fun w => k w - l) (roundedEulerEquation fl act h' F') (roundedEulerEquation fl act h F) := by
  have hd (d : Fin 3) : ArrUnits (fun w => k w - l) (roundedDiff fl (h' d) d (F' d)) (roundedDiff fl (h d) d (F d)) := fun w i =>
    (((((InUnit.self 1).div (hh d)).round H).neg.mul (((hF d w _).sub (hF d w i)).round H)).round H).cast (by dsimp only; omega)
  have hz : ArrUnits (fun w => k w - l) (fun _ _ => 0) fun _ _ => 0 := fun _ _ => InUnit.zero _
  have hstep (s' s : FState W) (hs : ArrUnits (fun w => k w - l) s' s) (d : Fin 3) : ArrUnits (fun w => k w - l)
      (if act d then s'.plus fl (roundedDiff fl (h' d) d (F' d)) else s')
      (if act d then s.plus fl (roundedDiff fl (h d) d (F d)) else s) := by
    cases act d
    · exact hs
    · exact hs.plus H (hd d)
  exact hstep _ _ (hstep _ _ (hstep _ _ hz 0) 1) 2

omit H hs in
/-- The only exception is that of `np.max` without cells. -/
theorem rhs_error_iff (S : RoundedScheme W) (s t : ℚ) (u : FState W) {er : PyErr} :
    S.rhs fl s t u = .error er ↔ S.fixedDt = none ∧ indexList S.n = [] ∧ er = .valueError := by
  unfold RoundedScheme.rhs RoundedScheme.size
  simp only [Bind.bind, Except.bind, Pure.pure, Except.pure]
  cases S.fixedDt with
  | some x => simp
  | none =>
    cases indexList S.n with
    | nil => simp [npMax, eq_comm]
    | cons x xs => simp [npMax]

/-- The right-hand side in other units. -/
theorem rhs_units (h : ArrUnits (consUnit a b e) u' u) (s' t' s t : ℚ) {dt : ℚ} {k : FState (Var np)}
    (hk : (c.scheme fl np).rhs fl s t u = .ok (dt, k)) :
    ∃ k', ((c.units b l).scheme fl np).rhs fl s' t' u' = .ok (2 ^ (l - b) * dt, k') ∧
      ArrUnits (fun v => consUnit a b e v - (l - b)) k' k := by
  obtain ⟨h1, rfl⟩ := RoundedScheme.rhs_ok fl _ hk
  have hA := primAverages_units H c l (h.wrap c.n)
  have h2 : ((c.units b l).scheme fl np).size fl (((c.units b l).scheme fl np).primAverages fl
      (wrapAround ((c.units b l).scheme fl np).n u')) = .ok (2 ^ (l - b) * dt) := size_units H c hs l hA h1
  refine ⟨roundedEulerEquation fl ((c.units b l).scheme fl np).active ((c.units b l).scheme fl np).h fun d =>
    ((c.units b l).scheme fl np).flux fl d (((c.units b l).scheme fl np).primAverages fl
      (wrapAround ((c.units b l).scheme fl np).n u')), ?_, ?_⟩
  · unfold RoundedScheme.rhs
    simp only [Bind.bind, Except.bind, Pure.pure, Except.pure, h2]
  · have := roundedEquation_units H l (k := fun v => consUnit a b e v + b) c.active (h' := (c.units b l).h) (h := c.h) (fun d => rfl)
      fun d => flux_units H c hs l hA d
    intro w i
    exact (this w i).cast (by dsimp only; omega)

omit H hs in
/-- An exception stays that exception. -/
theorem rhs_units_error (s' t' s t : ℚ) {er : PyErr}
    (hk : (c.scheme fl np).rhs fl s t u = .error er) : ((c.units b l).scheme fl np).rhs fl s' t' u' = .error er := by
  obtain ⟨h1, h2, h3⟩ := (rhs_error_iff _ _ _ _).1 hk
  refine (rhs_error_iff _ _ _ _).2 ⟨?_, h2, h3⟩
  show c.fixedDt.map _ = none
  rw [show c.fixedDt = none from h1]
  rfl

end

end FVHOE
