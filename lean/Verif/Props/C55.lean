import Mathlib.Tactic.FieldSimp
import Mathlib.Tactic.Linarith
import Mathlib.Tactic.Ring
import Verif.Model.Detect
import Verif.Model.Romain
import Verif.Model.Stencils
import Verif.Props.C13_C18

/-!
C55: the solver's building blocks agree with the reference one-dimensional solver.
-/

set_option linter.unusedSectionVars false

namespace FVHOE

variable {K : Type} [Field K] [LinearOrder K] [IsStrictOrderedRing K] {np : ℕ}

/-- A column of the reference solver as a state moving along direction `d`, at rest in the other
directions and without passive scalars. -/
def along (d : Fin 3) (w : Romain.Col K) : State K np
  | .rho => w.r0
  | .mom e => if e = d then w.r1 else 0
  | .en => w.r2
  | .ps _ => 0

/-- The squared sound speed is above the floor. -/
def AboveFloor (G : Gas K) (w : Romain.Col K) : Prop := G.csqFloor < G.gamma * w.r2 / w.r0

theorem sum3_along (d : Fin 3) (f : K → K) (h0 : f 0 = 0) (x : K) :
    (sum3 fun e => f (if e = d then x else 0)) = f x := by
  unfold sum3
  match d with
  | 0 => simp [h0]
  | 1 => simp [h0]
  | 2 => simp [h0]

/-- **C55** The conversions agree. -/
theorem C55_conversions (γ : K) (d : Fin 3) (w : Romain.Col K) :
    computeConservatives γ (along d w : State K np) = along d (Romain.primToCons γ w) ∧
    computePrimitives γ (along d w : State K np) = along d (Romain.consToPrim γ w) := by
  constructor
  · funext i
    cases i with
    | rho => rfl
    | mom e =>
      simp only [computeConservatives, along, Romain.primToCons]
      split_ifs <;> ring
    | en =>
      simp only [computeConservatives, along, Romain.primToCons]
      rw [sum3_along d (fun x => w.r0 * x * x) (by ring)]
      ring
    | ps j => simp [computeConservatives, along]
  · funext i
    cases i with
    | rho => rfl
    | mom e =>
      simp only [computePrimitives, along, Romain.consToPrim]
      split_ifs
      · rfl
      · exact zero_div _
    | en =>
      simp only [computePrimitives, along, Romain.consToPrim]
      rw [sum3_along d (fun x => x * (x / w.r0)) (by ring)]
      by_cases h : w.r0 = 0
      · simp [h]
      · field_simp
    | ps j => simp [computePrimitives, along]

theorem along_flux (γ : K) (hγ : γ ≠ 1) (d : Fin 3) (w : Romain.Col K) :
    computeFluxes (along d w : State K np) (computeConservatives γ (along d w)) d true =
      along d (Romain.primToFlux γ w) := by
  have h1 : γ - 1 ≠ 0 := sub_ne_zero.2 hγ
  funext i
  cases i with
  | rho => simp [computeFluxes, along, Romain.primToFlux, mul_comm]
  | mom e =>
    simp only [computeFluxes, computeConservatives, along, Romain.primToFlux]
    by_cases h : e = d
    · simp [h]; ring
    · simp [h]
  | en =>
    simp only [computeFluxes, computeConservatives, along, Romain.primToFlux]
    rw [sum3_along d (fun x => w.r0 * x * x) (by ring)]
    simp only [if_true]
    field_simp
    ring
  | ps j => simp [computeFluxes, computeConservatives, along]

theorem along_speed (G : Gas K) (d : Fin 3) (w : Romain.Col K) (h : AboveFloor G w) :
    soundSpeed G (along d w : State K np) = G.sqrt (G.gamma * w.r2 / w.r0) := by
  unfold soundSpeed
  exact congrArg G.sqrt (if_pos (show G.gamma * (along d w : State K np) .en /
    (along d w : State K np) .rho > G.csqFloor from h))

/-- **C55** The `llf` fluxes agree, and nothing else is transported. -/
theorem C55_llf (G : Gas K) (hγ : G.gamma ≠ 1) (d : Fin 3) (wl wr : Romain.Col K)
    (hl : AboveFloor G wl) (hr : AboveFloor G wr) :
    riemann .llf G d (along d wl : State K np) (along d wr) =
      along d (Romain.llf G.gamma G.sqrt wl wr) := by
  have e1 := (C55_conversions (np := np) G.gamma d wl).1
  have e2 := (C55_conversions (np := np) G.gamma d wr).1
  have f1 := along_flux (np := np) G.gamma hγ d wl
  have f2 := along_flux (np := np) G.gamma hγ d wr
  simp only [riemann, llf]
  rw [f1, f2, e1, e2, along_speed G d wl hl, along_speed G d wr hr]
  funext i
  cases i with
  | rho => simp [along, Romain.llf]
  | mom e =>
    simp only [along, Romain.llf]
    by_cases h : e = d
    · simp [h]
    · simp [h]
  | en => simp [along, Romain.llf]
  | ps j => simp [along]

/-- **C55** The `hllc` fluxes agree, and nothing else is transported. -/
theorem C55_hllc (G : Gas K) (d : Fin 3) (wl wr : Romain.Col K)
    (hl : AboveFloor G wl) (hr : AboveFloor G wr) :
    riemann .hllc G d (along d wl : State K np) (along d wr) =
      along d (Romain.hllc G.gamma G.sqrt wl wr) := by
  have el : computeConservatives G.gamma (along d wl : State K np) .en =
      (Romain.primToCons G.gamma wl).r2 := congrFun (C55_conversions G.gamma d wl).1 .en
  have er : computeConservatives G.gamma (along d wr : State K np) .en =
      (Romain.primToCons G.gamma wr).r2 := congrFun (C55_conversions G.gamma d wr).1 .en
  funext i
  cases i with
  | rho =>
    simp only [riemann, hllc, hllcWaves, hllcSample, el, er, along_speed G d wl hl,
      along_speed G d wr hr]
    simp [along, Romain.hllc]
  | mom e =>
    simp only [riemann, hllc, hllcWaves, hllcSample, el, er, along_speed G d wl hl,
      along_speed G d wr hr]
    by_cases h : e = d
    · simp [along, Romain.hllc, h]
    · simp [along, h, hllcUpwind]
  | en =>
    simp only [riemann, hllc, hllcWaves, hllcSample, el, er, along_speed G d wl hl,
      along_speed G d wr hr]
    simp only [along, Romain.hllc, if_true]
    exact mul_comm _ _
  | ps j => simp [riemann, hllc, along, hllcUpwind]

/-- The weights applied to the cells around `i`. -/
def applyWeights (ws : List ℚ) (u : ℤ → K) (i : ℤ) : K :=
  (ws.mapIdx fun k w => (w : K) * u (i + k - (ws.length / 2 : ℕ))).sum

/-- **C55** The face and centre values of degree `p` are those of the reference with `space = p + 1`,
before its limiter: its left state is the value at the right face. -/
theorem C55_weights (p : ℕ) (hp : p ≤ 4) :
    ∃ l c r, conservativeWeights p "l" = .ok l ∧ conservativeWeights p "c" = .ok c ∧
      conservativeWeights p "r" = .ok r ∧ ∀ (u : ℤ → K) (i : ℤ),
        applyWeights r u i = Romain.uleft (p + 1) u i ∧
        applyWeights l u i = Romain.uright (p + 1) u i ∧
        (2 ≤ p → applyWeights c u i = Romain.umiddle (p + 1) u i) := by
  have e1 : ∀ i : ℤ, i + 1 - 1 = i := by intro i; ring
  have e2 : ∀ i : ℤ, i + 2 - 1 = i + 1 := by intro i; ring
  have e3 : ∀ i : ℤ, i + 1 - 2 = i - 1 := by intro i; ring
  have e4 : ∀ i : ℤ, i + 2 - 2 = i := by intro i; ring
  have e5 : ∀ i : ℤ, i + 3 - 2 = i + 1 := by intro i; ring
  have e6 : ∀ i : ℤ, i + 4 - 2 = i + 2 := by intro i; ring
  have hcases : p = 0 ∨ p = 1 ∨ p = 2 ∨ p = 3 ∨ p = 4 := by omega
  rcases hcases with rfl | rfl | rfl | rfl | rfl <;>
    refine ⟨_, _, _, rfl, rfl, rfl, fun u i => ⟨?_, ?_, ?_⟩⟩ <;>
    first
    | (intro h; omega)
    | (try intro _
       simp [applyWeights, leftWeights, centerWeights, Romain.uleft, Romain.uright, Romain.umiddle,
         List.mapIdx_cons, e1, e2, e3, e4, e5, e6]
       try ring)

/-- **C55** Away from vanishing curvature the smooth-extremum indicator is the reference's marker. -/
theorem C55_smooth (eps : K) (dl dc dr : K) (he : 0 ≤ eps)
    (h : eps < |(1 / 2) * ((1 / 2) * (dr - dl))|) :
    sedPoint eps ((1 / 2) * (dr - dl)) dl dc dr = Romain.marker dl dc dr := by
  have hm : (1 / 2 : K) * (dc - dl + (dr - dc)) = (1 / 2) * (dr - dl) := by ring
  have h2 : ∀ x y : K, 2 * x / y = x / ((1 / 2) * y) := by
    intro x y
    rw [div_mul_eq_div_div_swap]
    simp [mul_comm]
    ring
  unfold sedPoint Romain.marker
  simp only [hm]
  have hc : sedCurvature eps ((1 / 2) * (dr - dl)) = (1 / 2) * ((1 / 2) * (dr - dl)) := by
    unfold sedCurvature
    rw [if_neg (not_le.2 h)]
  rw [hc]
  generalize (1 / 2 : K) * (dr - dl) = y at h ⊢
  have hy : y ≠ 0 := by
    rintro rfl
    simp at h
    exact absurd h (not_lt.2 he)
  have hL : ∀ x : K, -x = (if (1 / 2) * y < 0 then (if dl - dc > 0 then dl - dc else 0) else
      (if dl - dc < 0 then dl - dc else 0)) → x / ((1 / 2) * y) =
        if y > 0 then max (2 * (dc - dl)) 0 / y else min (2 * (dc - dl)) 0 / y := by
    intro x hx
    have hx' : 2 * x = if y > 0 then max (2 * (dc - dl)) 0 else min (2 * (dc - dl)) 0 := by
      rcases lt_or_gt_of_ne hy with hn | hp
      · rw [if_pos (by linarith)] at hx
        rw [if_neg (by linarith)]
        split_ifs at hx with h1
        · rw [min_eq_left (by linarith)]; linarith
        · rw [min_eq_right (by linarith)]; linarith
      · rw [if_neg (by linarith)] at hx
        rw [if_pos hp]
        split_ifs at hx with h1
        · rw [max_eq_left (by linarith)]; linarith
        · rw [max_eq_right (by linarith)]; linarith
    rw [← h2, hx']
    split_ifs <;> rfl
  have hR : ∀ x : K, x = (if (1 / 2) * y > 0 then (if dr - dc > 0 then dr - dc else 0) else
      (if dr - dc < 0 then dr - dc else 0)) → x / ((1 / 2) * y) =
        if y > 0 then max (2 * (dr - dc)) 0 / y else min (2 * (dr - dc)) 0 / y := by
    intro x hx
    have hx' : 2 * x = if y > 0 then max (2 * (dr - dc)) 0 else min (2 * (dr - dc)) 0 := by
      rcases lt_or_gt_of_ne hy with hn | hp
      · rw [if_neg (by linarith)] at hx
        rw [if_neg (by linarith)]
        split_ifs at hx with h1
        · rw [min_eq_left (by linarith)]; linarith
        · rw [min_eq_right (by linarith)]; linarith
      · rw [if_pos (by linarith)] at hx
        rw [if_pos hp]
        split_ifs at hx with h1
        · rw [max_eq_left (by linarith)]; linarith
        · rw [max_eq_right (by linarith)]; linarith
    rw [← h2, hx']
    split_ifs <;> rfl
  have hside : ∀ x : K, (if y > 0 then min 1 (max (2 * x) 0 / y) else min 1 (min (2 * x) 0 / y)) =
      min 1 (if y > 0 then max (2 * x) 0 / y else min (2 * x) 0 / y) := by
    intro x; split_ifs <;> rfl
  have hmin : ∀ a b : K, (if a < b then a else b) = min b a := by
    intro a b
    split_ifs with hab
    · exact (min_eq_right hab.le).symm
    · exact (min_eq_left (not_lt.1 hab)).symm
  simp only [if_neg hy, sedLeft, sedRight, if_neg (not_le.2 h), hside]
  rw [hL _ (neg_neg _), hR _ rfl]
  simp only [hmin]
  generalize (if y > 0 then max (2 * (dc - dl)) 0 / y else min (2 * (dc - dl)) 0 / y) = a
  generalize (if y > 0 then max (2 * (dr - dc)) 0 / y else min (2 * (dr - dc)) 0 / y) = b
  rw [← min_assoc, min_self, ← min_assoc, min_right_comm 1 a 1, min_self]

/-- **C55**, the exception: where the curvature vanishes the reference's marker is 1 and the
indicator is 0. -/
theorem C55_smooth_zero (eps : K) (he : 0 < eps) (s : K) :
    sedPoint eps ((1 / 2) * (s - s)) s s s = 0 ∧ Romain.marker s s s = 1 := by
  constructor
  · simp [sedPoint, sedCurvature, sedLeft, sedRight, he.le, abs_of_pos he, not_lt.2 (zero_le_one' K)]
  · simp [Romain.marker]

/-- Sod's states meet the hypothesis on the sound speed. -/
example : AboveFloor airGas ⟨1, 0, 1⟩ ∧ AboveFloor airGas ⟨1 / 8, 0, 1 / 10⟩ ∧
    airGas.gamma ≠ 1 := by
  refine ⟨?_, ?_, ?_⟩ <;> norm_num [AboveFloor, airGas]

/-- A moving state on which the indicator and the marker are neither 0 nor 1. -/
example : (1 / 100 : ℚ) < |(1 / 2) * ((1 / 2) * ((3 : ℚ) - 1))| ∧
    Romain.marker (1 : ℚ) (5 / 4) 3 = 1 / 2 := by
  decide +kernel

end FVHOE
