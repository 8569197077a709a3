import Verif.Proofs.Memory
import Verif.Proofs.ODEScaled
import Verif.Proofs.Scaled
import Verif.Proofs.DetectUnits
import Verif.Proofs.Same
import Verif.Props.C06
import Verif.Props.C13_C18

/-!
C64: the choice of units, and superposition of passive scalars.
-/

set_option linter.unusedSectionVars false

namespace FVHOE

variable {K : Type} [Field K] [LinearOrder K] [IsStrictOrderedRing K] {np np' : ℕ}

theorem ps_add (L : (Fin np → K) →ₗ[K] (Fin np' → K)) (q r : Fin np → K) (j : Fin np') :
    L (fun k => q k + r k) j = L q j + L r j := congrFun (map_add L q r) j

theorem ps_mul (L : (Fin np → K) →ₗ[K] (Fin np' → K)) (c : K) (q : Fin np → K) (j : Fin np') :
    L (fun k => c * q k) j = c * L q j := congrFun (map_smul L c q) j

/-- A conserved column in other units: densities multiplied by `a`, velocities by `b`, hence momenta by `a b`, energies
by `a b²`; passive concentrations are replaced by linear combinations. -/
def consUnits (a b : K) (L : (Fin np → K) →ₗ[K] (Fin np' → K)) : State K np →ₗ[K] State K np' where
  toFun u i := match i with
    | .rho => a * u .rho
    | .mom d => a * b * u (.mom d)
    | .en => a * b ^ 2 * u .en
    | .ps j => a * L (fun k => u (.ps k)) j
  map_add' u v := by
    funext i
    cases i with
    | ps j =>
      simp only [Pi.add_apply, ps_add, mul_add]
    | _ => simp only [Pi.add_apply, mul_add]
  map_smul' c u := by
    funext i
    cases i with
    | ps j =>
      simp only [Pi.smul_apply, smul_eq_mul, RingHom.id_apply, ps_mul]
      ring
    | _ => simp only [Pi.smul_apply, smul_eq_mul, RingHom.id_apply]; ring

/-- A primitive column in other units: pressures multiplied by `a b²`. -/
def primUnits (a b : K) (L : (Fin np → K) →ₗ[K] (Fin np' → K)) : State K np →ₗ[K] State K np' where
  toFun u i := match i with
    | .rho => a * u .rho
    | .mom d => b * u (.mom d)
    | .en => a * b ^ 2 * u .en
    | .ps j => L (fun k => u (.ps k)) j
  map_add' u v := by
    funext i
    cases i with
    | ps j =>
      simp only [Pi.add_apply, ps_add]
    | _ => simp only [Pi.add_apply, mul_add]
  map_smul' c u := by
    funext i
    cases i with
    | ps j =>
      simp only [Pi.smul_apply, smul_eq_mul, RingHom.id_apply, ps_mul]
    | _ => simp only [Pi.smul_apply, smul_eq_mul, RingHom.id_apply]; ring

section
variable {a b : K} (L : (Fin np → K) →ₗ[K] (Fin np' → K))

theorem prim_units (ha : a ≠ 0) (γ : K) (u : State K np) :
    computePrimitives γ (consUnits a b L u) = primUnits a b L (computePrimitives γ u) := by
  funext i
  cases i with
  | rho => rfl
  | mom d =>
    change a * b * u (.mom d) / (a * u .rho) = b * (u (.mom d) / u .rho)
    rw [mul_assoc, mul_div_mul_left _ _ ha, mul_div_assoc]
  | en =>
    change (γ - 1) * (a * b ^ 2 * u .en - 1 / 2 * sum3 fun d => a * b * u (.mom d) *
      (a * b * u (.mom d) / (a * u .rho))) = a * b ^ 2 * ((γ - 1) * (u .en - 1 / 2 * sum3 fun d =>
        u (.mom d) * (u (.mom d) / u .rho)))
    have : ∀ d, a * b * u (.mom d) / (a * u .rho) = b * (u (.mom d) / u .rho) := fun d => by
      rw [mul_assoc, mul_div_mul_left _ _ ha, mul_div_assoc]
    simp only [this, sum3]
    ring
  | ps j =>
    change a * L (fun k => u (.ps k)) j / (a * u .rho) = L (fun k => u (.ps k) / u .rho) j
    rw [mul_div_mul_left _ _ ha]
    have : (fun k => u (.ps k) / u .rho) = fun k => (u .rho)⁻¹ * u (.ps k) := by
      funext k; rw [div_eq_inv_mul]
    rw [this, ps_mul, div_eq_inv_mul]

theorem cons_units (γ : K) (w : State K np) :
    computeConservatives γ (primUnits a b L w) = consUnits a b L (computeConservatives γ w) := by
  funext i
  cases i with
  | rho => rfl
  | mom d => change a * w .rho * (b * w (.mom d)) = a * b * (w .rho * w (.mom d)); ring
  | en =>
    change a * b ^ 2 * w .en / (γ - 1) + 1 / 2 * (sum3 fun d => a * w .rho * (b * w (.mom d)) * (b * w (.mom d))) =
      a * b ^ 2 * (w .en / (γ - 1) + 1 / 2 * sum3 fun d => w .rho * w (.mom d) * w (.mom d))
    simp only [sum3]
    ring
  | ps j =>
    change a * w .rho * L (fun k => w (.ps k)) j = a * L (fun k => w .rho * w (.ps k)) j
    rw [ps_mul]; ring

theorem fluxes_units (w u : State K np) (d : Fin 3) (pr : Bool) :
    computeFluxes (primUnits a b L w) (consUnits a b L u) d pr = b • consUnits a b L (computeFluxes w u d pr) := by
  funext i
  cases i with
  | rho => change b * w (.mom d) * (a * w .rho) = b * (a * (w (.mom d) * w .rho)); ring
  | mom e =>
    change (if pr = true ∧ e = d then b * w (.mom d) * (a * b * u (.mom e)) + a * b ^ 2 * w .en
      else b * w (.mom d) * (a * b * u (.mom e))) = b * (a * b * if pr = true ∧ e = d then _ else _)
    split_ifs <;> ring
  | en =>
    change (if pr = true then b * w (.mom d) * (a * b ^ 2 * u .en) + b * w (.mom d) * (a * b ^ 2 * w .en)
      else b * w (.mom d) * (a * b ^ 2 * u .en)) = b * (a * b ^ 2 * if pr = true then _ else _)
    split_ifs <;> ring
  | ps j =>
    change b * w (.mom d) * (a * L (fun k => u (.ps k)) j) = b * (a * L (fun k => w (.mom d) * u (.ps k)) j)
    rw [ps_mul]; ring

/-- The gas in other units. -/
def Gas.units (G : Gas K) (b : K) : Gas K := { G with csqFloor := b ^ 2 * G.csqFloor }

theorem sqrt_units {s : K → K} (hs : IsSqrt s) (hb : 0 ≤ b) {x : K} (hx : 0 ≤ x) : s (b ^ 2 * x) = b * s x := by
  obtain ⟨h1, h2⟩ := hs x hx
  obtain ⟨h3, h4⟩ := hs (b ^ 2 * x) (by positivity)
  rw [← sq_eq_sq₀ h3 (mul_nonneg hb h1)]
  rw [sq, h4, mul_pow, sq (s x), h2]

theorem soundSpeed_units (ha : 0 < a) (hb : 0 < b) (G : Gas K) (hG : IsSqrt G.sqrt) (h0 : 0 ≤ G.csqFloor)
    (w : State K np) : soundSpeed (G.units b) (primUnits a b L w) = b * soundSpeed G w := by
  have e : G.gamma * (a * b ^ 2 * w .en) / (a * w .rho) = b ^ 2 * (G.gamma * w .en / w .rho) := by
    rw [show G.gamma * (a * b ^ 2 * w .en) = a * (b ^ 2 * (G.gamma * w .en)) by ring, mul_div_mul_left _ _ ha.ne',
      mul_div_assoc]
  have hb2 : 0 < b ^ 2 := by positivity
  change G.sqrt (if G.gamma * (a * b ^ 2 * w .en) / (a * w .rho) > b ^ 2 * G.csqFloor then
    G.gamma * (a * b ^ 2 * w .en) / (a * w .rho) else b ^ 2 * G.csqFloor) =
      b * G.sqrt (if G.gamma * w .en / w .rho > G.csqFloor then _ else _)
  rw [e]
  have hi : b ^ 2 * (G.gamma * w .en / w .rho) > b ^ 2 * G.csqFloor ↔ G.gamma * w .en / w .rho > G.csqFloor :=
    mul_lt_mul_iff_right₀ hb2
  by_cases h : G.gamma * w .en / w .rho > G.csqFloor
  · rw [if_pos h, if_pos (hi.2 h)]
    exact sqrt_units hG hb.le (h0.trans h.le)
  · rw [if_neg h, if_neg (fun h' => h (hi.1 h'))]
    exact sqrt_units hG hb.le h0

theorem signalSpeed_units (ha : 0 < a) (hb : 0 < b) (G : Gas K) (hG : IsSqrt G.sqrt) (h0 : 0 ≤ G.csqFloor) (k : ℕ)
    (w : State K np) : signalSpeed (G.units b) k (primUnits a b L w) = b * signalSpeed G k w := by
  unfold signalSpeed
  rw [soundSpeed_units L ha hb G hG h0]
  have : ∀ d, |primUnits a b L w (.mom d)| = b * |w (.mom d)| := fun d => by
    change |b * w (.mom d)| = _
    rw [abs_mul, abs_of_pos hb]
  simp only [this, sum3]
  ring

theorem hllcWaves_units (ha : 0 < a) (hb : 0 < b) (G : Gas K) (hG : IsSqrt G.sqrt) (h0 : 0 ≤ G.csqFloor) (d : Fin 3)
    (x y : State K np) :
    hllcWaves (G.units b) d (primUnits a b L x) (primUnits a b L y) =
      { Sl := b * (hllcWaves G d x y).Sl
        Sr := b * (hllcWaves G d x y).Sr
        vStar := b * (hllcWaves G d x y).vStar
        PStar := a * b ^ 2 * (hllcWaves G d x y).PStar
        rStarL := a * (hllcWaves G d x y).rStarL
        EStarL := a * b ^ 2 * (hllcWaves G d x y).EStarL
        rStarR := a * (hllcWaves G d x y).rStarR
        EStarR := a * b ^ 2 * (hllcWaves G d x y).EStarR } := by
  have ha' := ha.ne'
  have hb' := hb.ne'
  have hab : a * b ≠ 0 := mul_ne_zero ha' hb'
  have e1 : ∀ p q r s : K, min (b * p) (b * q) - max (b * r) (b * s) = b * (min p q - max r s) := fun p q r s => by
    rw [← mul_min_of_nonneg _ _ hb.le, ← mul_max_of_nonneg _ _ hb.le, mul_sub]
  have e2 : ∀ p q r s : K, max (b * p) (b * q) + max (b * r) (b * s) = b * (max p q + max r s) := fun p q r s => by
    rw [← mul_max_of_nonneg _ _ hb.le, ← mul_max_of_nonneg _ _ hb.le, mul_add]
  have er : ∀ w : State K np, primUnits a b L w .rho = a * w .rho := fun _ => rfl
  have em : ∀ w : State K np, primUnits a b L w (.mom d) = b * w (.mom d) := fun _ => rfl
  have ep : ∀ w : State K np, primUnits a b L w .en = a * b ^ 2 * w .en := fun _ => rfl
  have ee : ∀ w : State K np, consUnits a b L w .en = a * b ^ 2 * w .en := fun _ => rfl
  unfold hllcWaves
  simp only [cons_units, soundSpeed_units L ha hb G hG h0, e1, e2, er, em, ep, ee, show (G.units b).gamma = G.gamma from rfl]
  generalize min (x (.mom d)) (y (.mom d)) - max (soundSpeed G x) (soundSpeed G y) = sl
  generalize max (x (.mom d)) (y (.mom d)) + max (soundSpeed G x) (soundSpeed G y) = sr
  generalize x (.mom d) = vl
  generalize y (.mom d) = vr
  generalize x .rho = rl
  generalize y .rho = rr
  generalize x .en = pl
  generalize y .en = pr
  generalize computeConservatives G.gamma x .en = El
  generalize computeConservatives G.gamma y .en = Er
  have c1 : ∀ r s : K, a * r * (b * s) = a * b * (r * s) := fun r s => by ring
  have c2 : ∀ r s : K, b * r - b * s = b * (r - s) := fun r s => by ring
  simp only [c2]
  have v1 : (a * rl * (b * (vl - sl)) * (b * vl) + a * rr * (b * (sr - vr)) * (b * vr) + a * b ^ 2 * pl -
      a * b ^ 2 * pr) / (a * rl * (b * (vl - sl)) + a * rr * (b * (sr - vr))) =
      b * ((rl * (vl - sl) * vl + rr * (sr - vr) * vr + pl - pr) / (rl * (vl - sl) + rr * (sr - vr))) := by
    rw [show a * rl * (b * (vl - sl)) * (b * vl) + a * rr * (b * (sr - vr)) * (b * vr) + a * b ^ 2 * pl -
        a * b ^ 2 * pr = a * b * (b * (rl * (vl - sl) * vl + rr * (sr - vr) * vr + pl - pr)) by ring,
      show a * rl * (b * (vl - sl)) + a * rr * (b * (sr - vr)) = a * b * (rl * (vl - sl) + rr * (sr - vr)) by ring,
      mul_div_mul_left _ _ hab, mul_div_assoc]
  have p1 : (a * rl * (b * (vl - sl)) * (a * b ^ 2 * pr) + a * rr * (b * (sr - vr)) * (a * b ^ 2 * pl) +
      a * rl * (b * (vl - sl)) * (a * rr * (b * (sr - vr))) * (b * (vl - vr))) /
      (a * rl * (b * (vl - sl)) + a * rr * (b * (sr - vr))) =
      a * b ^ 2 * ((rl * (vl - sl) * pr + rr * (sr - vr) * pl + rl * (vl - sl) * (rr * (sr - vr)) * (vl - vr)) /
        (rl * (vl - sl) + rr * (sr - vr))) := by
    rw [show a * rl * (b * (vl - sl)) * (a * b ^ 2 * pr) + a * rr * (b * (sr - vr)) * (a * b ^ 2 * pl) +
        a * rl * (b * (vl - sl)) * (a * rr * (b * (sr - vr))) * (b * (vl - vr)) =
        a * b * (a * b ^ 2 * (rl * (vl - sl) * pr + rr * (sr - vr) * pl +
          rl * (vl - sl) * (rr * (sr - vr)) * (vl - vr))) by ring,
      show a * rl * (b * (vl - sl)) + a * rr * (b * (sr - vr)) = a * b * (rl * (vl - sl) + rr * (sr - vr)) by ring,
      mul_div_mul_left _ _ hab, mul_div_assoc]
  rw [v1, p1]
  generalize (rl * (vl - sl) * vl + rr * (sr - vr) * vr + pl - pr) / (rl * (vl - sl) + rr * (sr - vr)) = vs
  generalize (rl * (vl - sl) * pr + rr * (sr - vr) * pl + rl * (vl - sl) * (rr * (sr - vr)) * (vl - vr)) /
        (rl * (vl - sl) + rr * (sr - vr)) = ps
  simp only [c2]
  have r1 : ∀ r s v : K, a * r * (b * s) / (b * v) = a * (r * s / v) := fun r s v => by
    rw [show a * r * (b * s) = b * (a * (r * s)) by ring, mul_div_mul_left _ _ hb', mul_div_assoc]
  have s1 : ∀ s E p v w : K, (b * s * (a * b ^ 2 * E) - a * b ^ 2 * p * (b * v) + a * b ^ 2 * ps * (b * vs)) / (b * w) =
      a * b ^ 2 * ((s * E - p * v + ps * vs) / w) := fun s E p v w => by
    rw [show b * s * (a * b ^ 2 * E) - a * b ^ 2 * p * (b * v) + a * b ^ 2 * ps * (b * vs) =
        b * (a * b ^ 2 * (s * E - p * v + ps * vs)) by ring, mul_div_mul_left _ _ hb', mul_div_assoc]
  simp only [r1, s1]

theorem ite_mul_pos (hb : 0 < b) (v p q : K) : (if b * v > 0 then p else q) = if v > 0 then p else q := by
  have : b * v > 0 ↔ v > 0 := by simpa using mul_lt_mul_iff_right₀ (b := 0) (c := v) hb
  simp only [this]

theorem ite_mul_neg (hb : 0 < b) (v p q : K) : (if b * v < 0 then p else q) = if v < 0 then p else q := by
  have : b * v < 0 ↔ v < 0 := by simpa using mul_lt_mul_iff_right₀ (b := v) (c := 0) hb
  simp only [this]

theorem riemann_units (ha : 0 < a) (hb : 0 < b) (k : RiemannKind) (G : Gas K) (hG : IsSqrt G.sqrt)
    (h0 : 0 ≤ G.csqFloor) (d : Fin 3) (x y : State K np) :
    riemann k (G.units b) d (primUnits a b L x) (primUnits a b L y) = b • consUnits a b L (riemann k G d x y) := by
  have em : ∀ w : State K np, primUnits a b L w (.mom d) = b * w (.mom d) := fun _ => rfl
  cases k with
  | advectionUpwind =>
    simp only [riemann, advectionUpwind, show (G.units b).gamma = G.gamma from rfl, cons_units, fluxes_units, em]
    have e : ∀ F F' : State K np, (fun i => if b * x (.mom d) > 0 then (b • consUnits a b L F) i
        else if b * x (.mom d) < 0 then (b • consUnits a b L F') i else 0) =
        b • consUnits a b L fun i => if x (.mom d) > 0 then F i else if x (.mom d) < 0 then F' i else 0 := by
      intro F F'
      simp only [ite_mul_pos hb, ite_mul_neg hb]
      by_cases h1 : x (.mom d) > 0
      · simp only [h1, if_true]
      · by_cases h2 : x (.mom d) < 0
        · simp only [h1, h2, if_true, if_false]
        · simp only [h1, h2, if_false]
          have : (fun _ => 0 : State K np) = 0 := rfl
          rw [this, map_zero, smul_zero]
          rfl
    exact e _ _
  | llf =>
    simp only [riemann, llf, show (G.units b).gamma = G.gamma from rfl, cons_units, fluxes_units, em,
      soundSpeed_units L ha hb G hG h0, abs_mul, abs_of_pos hb]
    have hm : max (b * |x (.mom d)| + b * soundSpeed G x) (b * |y (.mom d)| + b * soundSpeed G y) =
        b * max (|x (.mom d)| + soundSpeed G x) (|y (.mom d)| + soundSpeed G y) := by
      rw [← mul_add, ← mul_add, mul_max_of_nonneg _ _ hb.le]
    rw [hm]
    generalize max (|x (.mom d)| + soundSpeed G x) (|y (.mom d)| + soundSpeed G y) = s
    generalize computeConservatives G.gamma x = ul
    generalize computeConservatives G.gamma y = ur
    generalize computeFluxes x ul d true = Fl
    generalize computeFluxes y ur d true = Fr
    have : (fun i => 1 / 2 * (Fl i + Fr i) - 1 / 2 * s * (ur i - ul i)) =
        (1 / 2 : K) • (Fl + Fr) - (1 / 2 * s) • (ur - ul) := rfl
    rw [this]
    simp only [map_sub, map_smul, map_add]
    funext i
    simp only [Pi.sub_apply, Pi.smul_apply, Pi.add_apply, smul_eq_mul]
    ring
  | hllc =>
    have hs : ∀ (p q r s : K) (c : K), hllcSample (hllcWaves (G.units b) d (primUnits a b L x) (primUnits a b L y))
        (c * p) (c * q) (c * r) (c * s) = c * hllcSample (hllcWaves G d x y) p q r s := by
      intro p q r s c
      rw [hllcWaves_units L ha hb G hG h0]
      unfold hllcSample
      simp only [ite_mul_pos hb]
      split_ifs <;> rfl
    have hw := hllcWaves_units L ha hb G hG h0 d x y
    have hu : ∀ v p q : K, hllcUpwind (b * v) p q = hllcUpwind v p q := by
      intro v p q
      unfold hllcUpwind
      rw [ite_mul_pos hb, ite_mul_neg hb]
    have hu2 : ∀ v c p q : K, hllcUpwind v (c * p) (c * q) = c * hllcUpwind v p q := by
      intro v c p q
      unfold hllcUpwind
      split_ifs <;> simp
    have er : ∀ w : State K np, primUnits a b L w .rho = a * w .rho := fun _ => rfl
    have em : ∀ (w : State K np) e, primUnits a b L w (.mom e) = b * w (.mom e) := fun _ _ => rfl
    have ep : ∀ w : State K np, primUnits a b L w .en = a * b ^ 2 * w .en := fun _ => rfl
    have es : ∀ (w : State K np) j, primUnits a b L w (.ps j) = L (fun k => w (.ps k)) j := fun _ _ => rfl
    have ee : ∀ w : State K np, consUnits a b L w .en = a * b ^ 2 * w .en := fun _ => rfl
    funext i
    cases i with
    | rho =>
      change hllc (G.units b) d (primUnits a b L x) (primUnits a b L y) .rho = b * (a * hllc G d x y .rho)
      simp only [hllc, er, em, hw ▸ hs _ _ _ _ a, hw ▸ hs _ _ _ _ b, hw]
      ring
    | mom e =>
      change hllc (G.units b) d (primUnits a b L x) (primUnits a b L y) (.mom e) =
        b * (a * b * hllc G d x y (.mom e))
      simp only [hllc, er, em, ep, hw ▸ hs _ _ _ _ a, hw ▸ hs _ _ _ _ b, hw ▸ hs _ _ _ _ (a * b ^ 2), hw, hu, hu2]
      split_ifs <;> ring
    | en =>
      change hllc (G.units b) d (primUnits a b L x) (primUnits a b L y) .en = b * (a * b ^ 2 * hllc G d x y .en)
      simp only [hllc, em, ep, ee, cons_units, show (G.units b).gamma = G.gamma from rfl, hw ▸ hs _ _ _ _ b,
        hw ▸ hs _ _ _ _ (a * b ^ 2), hw]
      ring
    | ps j =>
      change hllc (G.units b) d (primUnits a b L x) (primUnits a b L y) (.ps j) =
        b * (a * L (fun k => hllc G d x y (.ps k)) j)
      simp only [hllc, er, em, es, hw ▸ hs _ _ _ _ a, hw ▸ hs _ _ _ _ b, hw, hu]
      rw [ps_mul]
      have : ∀ v : K, hllcUpwind v (L (fun k => x (.ps k)) j) (L (fun k => y (.ps k)) j) =
          L (fun k => hllcUpwind v (x (.ps k)) (y (.ps k))) j := by
        intro v
        unfold hllcUpwind
        split_ifs
        · rfl
        · rfl
        · have : (fun _ => 0 : Fin np → K) = 0 := rfl
          rw [this, map_zero]
          rfl
      rw [this]
      ring

end

/-! ## Limiters -/

theorem npSign_mul (c x : K) : npSign (c * x) = npSign c * npSign x := by
  unfold npSign
  rcases lt_trichotomy c 0 with hc | rfl | hc
  · rcases lt_trichotomy x 0 with hx | rfl | hx
    · simp [mul_pos_of_neg_of_neg hc hx, hc, hx, hc.not_gt, hx.not_gt]
    · simp
    · simp [mul_neg_of_neg_of_pos hc hx, hc, hx, hc.not_gt, (mul_neg_of_neg_of_pos hc hx).not_gt]
  · simp
  · rcases lt_trichotomy x 0 with hx | rfl | hx
    · simp [mul_neg_of_pos_of_neg hc hx, hc, hx, hx.not_gt, (mul_neg_of_pos_of_neg hc hx).not_gt]
    · simp
    · simp [mul_pos hc hx, hc, hx]

theorem npSign_mul_abs (c : K) : npSign c * |c| = c := by
  unfold npSign
  rcases lt_trichotomy c 0 with hc | rfl | hc
  · simp [hc, hc.not_gt, abs_of_neg hc]
  · simp
  · simp [hc, abs_of_pos hc]

theorem moncen_mul (c x y : K) : moncen (c * x) (c * y) = c * moncen x y := by
  unfold moncen
  simp only
  rcases eq_or_ne c 0 with rfl | hc
  · simp [npSign]
  have e1 : 1 / 2 * (c * x + c * y) = c * (1 / 2 * (x + y)) := by ring
  have e2 : ∀ z : K, |2 * (c * z)| = |c| * |2 * z| := fun z => by rw [← abs_mul]; congr 1; ring
  have e3 : c * x * (c * y) ≥ 0 ↔ x * y ≥ 0 := by
    rw [show c * x * (c * y) = c ^ 2 * (x * y) by ring]
    have := mul_le_mul_iff_right₀ (b := 0) (c := x * y) (show 0 < c ^ 2 by positivity)
    rwa [mul_zero] at this
  rw [e1, e2, e2, abs_mul c, npSign_mul, ← mul_min_of_nonneg _ _ (abs_nonneg c), ← mul_min_of_nonneg _ _ (abs_nonneg c)]
  by_cases h : x * y ≥ 0
  · rw [if_pos h, if_pos (e3.2 h)]
    rw [show ∀ p q r s : K, p * q * (r * s) = p * r * (q * s) from fun p q r s => by ring, npSign_mul_abs]
  · rw [if_neg h, if_neg (fun h' => h (e3.1 h')), mul_zero]

/-- The factors of the primitive rows. -/
def primFactor (a b : K) : Var 0 → K
  | .rho => a
  | .mom _ => b
  | .en => a * b ^ 2
  | .ps j => j.elim0

/-- The limiter options in other units: only the bounds of the physical admissibility detection carry units. -/
def LimiterOpts.units (o : LimiterOpts K) (a b : K) : LimiterOpts K :=
  { o with pad := rescalePad (primFactor a b) o.pad }

/-- Options without an absolute tolerance in use: no smooth-extremum relaxation (`SED_tolerance`), no minmod fallback
(`tiny`). With moncen every new passive scalar is a multiple of one old scalar. -/
def LimiterOpts.UnitFree (o : LimiterOpts K) (L : (Fin np → K) →ₗ[K] (Fin np' → K)) : Prop :=
  o.sed = false ∧ (o.slope = none ∨ (o.slope = some .moncen ∧
    ∃ (g : Fin np' → Fin np) (s : Fin np' → K), ∀ q j, L q j = s j * q (g j)))

theorem primFactor_pos {a b : K} (ha : 0 < a) (hb : 0 < b) (v : Var 0) : 0 < primFactor a b v := by
  cases v with
  | rho => exact ha
  | mom d => exact hb
  | en => exact mul_pos ha (by positivity)
  | ps j => exact j.elim0

theorem limiting_units {a b : K} (ha : 0 < a) (hb : 0 < b) (L : (Fin np → K) →ₗ[K] (Fin np' → K)) (o : LimiterOpts K)
    (ho : o.UnitFree L) (dims : List (Fin 3)) (periodic : Fin 3 → Bool) :
    LimitingRel (primUnits a b L) (some (o.limiting dims periodic)) (some ((o.units a b).limiting dims periodic)) := by
  refine ⟨fun w w' => ?_, rfl, rfl, ?_⟩
  · have e : ∀ w : Arr (State K np), (w.map (primUnits a b L)).map activePart =
        (w.map activePart).map (rescale (primFactor a b)) := by
      intro w
      unfold Arr.map
      congr 1
      funext j v
      cases v with
      | ps j => exact j.elim0
      | _ => rfl
    simp only [LimiterOpts.limiting, e]
    exact detect_units (primFactor_pos ha hb) o.toDetectOpts ho.1 dims _ _
  · rcases ho.2 with h | ⟨h, g, s, hL⟩
    · simp only [LimiterOpts.limiting, LimiterOpts.units, h]
      trivial
    · simp only [LimiterOpts.limiting, LimiterOpts.units, h]
      intro x y
      funext v
      cases v with
      | rho => exact moncen_mul a (x .rho) (y .rho)
      | mom d => exact moncen_mul b (x (.mom d)) (y (.mom d))
      | en => exact moncen_mul (a * b ^ 2) (x .en) (y .en)
      | ps j =>
        change moncen (L (fun k => x (.ps k)) j) (L (fun k => y (.ps k)) j) = L (fun k => moncen (x (.ps k)) (y (.ps k))) j
        rw [hL, hL, hL]
        exact moncen_mul (s j) (x (.ps (g j))) (y (.ps (g j)))

/-! ## The solver -/

/-- The same problem in other units: densities multiplied by `a`, velocities by `b`, lengths by `l`, hence times by
`l / b`, the squared sound speed's floor by `b²`, coordinates counted from another origin; the passive scalars
replaced by linear combinations of them. -/
structure InUnits (a b l : K) (o : Fin 3 → K) (L : (Fin np → K) →ₗ[K] (Fin np' → K)) (c : EulerConfig K np)
    (c' : EulerConfig K np') : Prop where
  gas : c'.gas = c.gas.units b
  riem : c'.riem = c.riem
  n : c'.n = c.n
  p : c'.p = c.p
  h : ∀ d, c'.h d = l * c.h d
  cfl : c'.cfl = c.cfl
  fixedDt : c'.fixedDt = c.fixedDt.map (l / b * ·)
  bc : c.bc.RelUnits (consUnits a b L) (fun d x => l * x + o d) (l / b) c'.bc

/-- The options of the two runs. -/
def UnitOpts (a b : K) (L : (Fin np → K) →ₗ[K] (Fin np' → K)) : Option (LimiterOpts K) → Option (LimiterOpts K) → Prop
  | none, none => True
  | some q, some q' => q' = q.units a b ∧ q.UnitFree L
  | _, _ => False

theorem npMax_mul {c : K} (hc : 0 ≤ c) (l : List K) : npMax (l.map (c * ·)) = (npMax l).map (c * ·) := by
  cases l with
  | nil => rfl
  | cons x l => exact congrArg Except.ok (foldl_max_mul hc l x)

section
variable {a b l : K} {o : Fin 3 → K} {L : (Fin np → K) →ₗ[K] (Fin np' → K)} {c : EulerConfig K np}
  {c' : EulerConfig K np'}

theorem InUnits.scheme (ha : 0 < a) (hb : 0 < b) (hl : 0 < l) (H : InUnits a b l o L c c') (hG : IsSqrt c.gas.sqrt)
    (h0 : 0 ≤ c.gas.csqFloor) (q q' : Option (LimiterOpts K)) (hq : UnitOpts a b L q q') :
    SchemeUnits (consUnits a b L) (primUnits a b L) (b • consUnits a b L) (fun d x => l * x + o d) (l / b) (b / l)
      (c.limited q).scheme (c'.limited q').scheme := by
  have hn : (c'.limited q').scheme.n = (c.limited q).scheme.n := by
    cases q <;> cases q' <;> exact H.n
  have hp : (c'.limited q').scheme.p = (c.limited q).scheme.p := by
    cases q <;> cases q' <;> exact H.p
  have hh : ∀ d, (c'.limited q').scheme.h d = l * (c.limited q).scheme.h d := by
    cases q <;> cases q' <;> exact H.h
  refine ⟨hn, hp, ?_, fun d hd x => ?_, fun w => ?_, ?_, fun d hd v w => ?_, ?_, ?_, ?_⟩
  · rw [div_mul_div_comm, mul_comm, div_self (mul_ne_zero hb.ne' hl.ne')]
  · rw [hh, LinearMap.smul_apply, smul_smul, map_smul, smul_smul]
    congr 1
    rw [one_div, mul_inv, one_div, mul_comm, div_eq_mul_inv, mul_assoc]
  · have e1 : timeStep (c.limited q).scheme w = match c.fixedDt with
        | none => cflDt (signalSpeed c.gas (c.limited q).scheme.ndim) w (min (min (c.h 0) (c.h 1)) (c.h 2)) c.cfl
        | some dt => .ok dt := by cases q <;> rfl
    have e2 : timeStep (c'.limited q').scheme (w.map (primUnits a b L)) = match c'.fixedDt with
        | none => cflDt (signalSpeed c'.gas (c'.limited q').scheme.ndim) (w.map (primUnits a b L))
          (min (min (c'.h 0) (c'.h 1)) (c'.h 2)) c'.cfl
        | some dt => .ok dt := by cases q' <;> rfl
    have e3 : (c'.limited q').scheme.ndim = (c.limited q).scheme.ndim := by
      unfold Scheme.ndim Scheme.active
      rw [hn, hp]
    rw [e1, e2, e3, H.fixedDt]
    cases c.fixedDt with
    | some dt => rfl
    | none =>
      simp only [Option.map]
      unfold cflDt
      have e4 : (indexList (w.map (primUnits a b L)).shape).map (fun j => signalSpeed c'.gas (c.limited q).scheme.ndim
          ((w.map (primUnits a b L)).get j)) = ((indexList w.shape).map fun j =>
            signalSpeed c.gas (c.limited q).scheme.ndim (w.get j)).map (b * ·) := by
        rw [List.map_map, H.gas]
        refine List.map_congr_left fun j _ => ?_
        exact signalSpeed_units L ha hb c.gas hG h0 _ (w.get j)
      rw [e4, npMax_mul hb.le, bind_map, map_bind]
      congr 1
      funext m
      simp only [Except.map, H.h, H.cfl, ← mul_min_of_nonneg _ _ hl.le]
      congr 1
      rw [div_mul_div_comm]
      congr 1
      ring
  · have : ∀ v, computePrimitives c'.gas.gamma (consUnits a b L v) =
        primUnits a b L (computePrimitives c.gas.gamma v) := by
      intro v
      rw [H.gas]
      exact prim_units L ha.ne' c.gas.gamma v
    cases q <;> cases q' <;> exact this
  · have : riemann c'.riem c'.gas d (primUnits a b L v) (primUnits a b L w) =
        b • consUnits a b L (riemann c.riem c.gas d v w) := by
      rw [H.gas, H.riem]
      exact riemann_units L ha hb c.riem c.gas hG h0 d v w
    cases q <;> cases q' <;> exact this
  · have : ∀ (d : Fin 3) (v : State K np), negateMom d (consUnits a b L v) = consUnits a b L (negateMom d v) := by
      intro d v
      funext i
      cases i with
      | mom e =>
        change (if Var.mom e = Var.mom d then -1 * (a * b * v (.mom e)) else a * b * v (.mom e)) =
          a * b * negateMom d v (.mom e)
        unfold negateMom
        by_cases h : (Var.mom e : Var np) = Var.mom d
        · have h' : (Var.mom e : Var np') = Var.mom d := by injection h with h; rw [h]
          rw [if_pos h, if_pos h']; ring
        · have h' : ¬(Var.mom e : Var np') = Var.mom d := fun h' => h (by injection h' with h'; rw [h'])
          rw [if_neg h, if_neg h']
      | _ => rfl
    cases q <;> cases q' <;> exact this
  · cases q <;> cases q' <;> exact H.bc
  · have hd : c'.dims = c.dims := by
      unfold EulerConfig.dims
      have : c'.scheme.active = c.scheme.active := by
        unfold Scheme.active
        funext d
        have e1 : c'.scheme.n = c.scheme.n := H.n
        have e2 : c'.scheme.p = c.scheme.p := H.p
        rw [e1, e2]
      rw [this]
    have hper : c'.isPeriodic = c.isPeriodic := by
      unfold EulerConfig.isPeriodic
      rw [H.bc.kind]
    cases q with
    | none => cases q' with
      | none => trivial
      | some q' => exact hq.elim
    | some q => cases q' with
      | none => exact hq.elim
      | some q' =>
        obtain ⟨rfl, h⟩ := hq
        have := limiting_units ha hb L q h c.dims c.isPeriodic
        change LimitingRel _ (some (q.limiting c.dims c.isPeriodic)) (some ((q.units a b).limiting c'.dims c'.isPeriodic))
        rw [hd, hper]
        exact this

/-- **C64** (one evaluation) The right-hand side of the problem in other units, at the time and state (and contents of
uninitialised memory) in these units, is the right-hand side in these units: it raises the same exception or returns
the time step multiplied by `l / b` and the derivatives of the converted quantities with respect to the converted
time. With the limiter, for options without absolute tolerances. -/
theorem C64_rhs (ha : 0 < a) (hb : 0 < b) (hl : 0 < l) (H : InUnits a b l o L c c') (hG : IsSqrt c.gas.sqrt)
    (h0 : 0 ≤ c.gas.csqFloor) (q q' : Option (LimiterOpts K)) (hq : UnitOpts a b L q q') (junk : ℕ → Ix → State K np)
    (mem : Fin 3 → Ix → State K np) (t t₁ t₂ : K) (u : Ix → State K np) :
    solverRHS (c'.limited q').scheme (fun k i => consUnits a b L (junk k i)) (fun d i => b • consUnits a b L (mem d i))
        (l / b * t) t₂ (fun i => consUnits a b L (u i)) =
      (solverRHS (c.limited q).scheme junk mem t t₁ u).map
        fun r => (l / b * r.1, fun i => (b / l) • consUnits a b L (r.2 i)) :=
  solverRHS_units (H.scheme ha hb hl hG h0 q q' hq) junk mem t t₁ t₂ u

theorem InUnits.wellPosed (ha : 0 < a) (hb : 0 < b) (hl : 0 < l) (H : InUnits a b l o L c c') (hG : IsSqrt c.gas.sqrt)
    (h0 : 0 ≤ c.gas.csqFloor) (q q' : Option (LimiterOpts K)) (hq : UnitOpts a b L q q')
    (h : WellPosed (c.limited q).scheme) : WellPosed (c'.limited q').scheme := by
  have S := H.scheme ha hb hl hG h0 q q' hq
  have hF : ∀ gw, Fills (c.limited q).scheme gw → Fills (c'.limited q').scheme gw := by
    intro gw hg
    refine ⟨?_, fun t => ?_⟩
    · have := hg.1
      unfold Fillable at this ⊢
      rwa [S.bc.kind, S.n]
    · obtain ⟨v, junk, A, hA⟩ := hg.2 (b / l * t)
      have := apply_units (consUnits a b L) _ (l / b) _ _ S.bc _ _ S.negate ⟨(c.limited q).scheme.n, v⟩ gw (b / l * t)
        junk
      rw [hA, ← mul_assoc, S.time, one_mul] at this
      exact ⟨_, _, _, by rw [S.n]; exact this⟩
  have hact : (c'.limited q').scheme.active = (c.limited q).scheme.active := funext S.active
  refine ⟨by rw [S.p]; exact h.degree, by rw [S.n]; exact h.cells, ?_, fun M hM => ?_⟩
  · have := hF _ h.ghosts
    unfold fluxWidth at this ⊢
    rwa [hact, S.p]
  · cases q' with
    | none => cases hM
    | some q' =>
      cases hM
      cases q with
      | none => exact hq.elim
      | some q =>
        obtain ⟨_, h2, h3⟩ := h.limiter _ rfl
        refine ⟨q'.local _ _, ?_, ?_⟩
        · have := hF _ h2
          unfold fluxWidth at this ⊢
          rwa [hact, S.p]
        · have := hF _ h3
          unfold detectWidth at this ⊢
          rwa [hact, S.p]

end

/-- The second state is the first one in other units, on the cells. -/
def unitsPair (a b : K) (L : (Fin np → K) →ₗ[K] (Fin np' → K)) (n : Fin 3 → ℕ) :
    Submodule K ((Ix → State K np) × (Ix → State K np')) where
  carrier := {x | ∀ i, InCells n i → x.2 i = consUnits a b L (x.1 i)}
  add_mem' := fun ha hb i hi => by simp [map_add, ha i hi, hb i hi]
  zero_mem' := fun i _ => by simp [map_zero]
  smul_mem' := fun c x hx i hi => by simp [map_smul, hx i hi]

/-- **C64** Let two configurations describe the same problem in different units (and with different combinations of
the passive scalars). Started from the same state, each in its own units, they run in step with every integrator,
whatever the uninitialised memory and the stored flux arrays hold: the times of the second run are those of the first
multiplied by `l / b`, it makes the same number of steps, raises the same exceptions, and every stored state and the
last one are those of the first run in the other units. With the limiter, for options without absolute tolerances. -/
theorem C64_units {a b l : K} {o : Fin 3 → K} {L : (Fin np → K) →ₗ[K] (Fin np' → K)} {c : EulerConfig K np}
    {c' : EulerConfig K np'} (ha : 0 < a) (hb : 0 < b) (hl : 0 < l) (H : InUnits a b l o L c c')
    (hG : IsSqrt c.gas.sqrt) (h0 : 0 ≤ c.gas.csqFloor) (q q' : Option (LimiterOpts K)) (hq : UnitOpts a b L q q')
    (hw : WellPosed (c.limited q).scheme) (f : RHS K (Ix → State K np)) (f' : RHS K (Ix → State K np'))
    (hf : IsSolverRHS (c.limited q).scheme f) (hf' : IsSolverRHS (c'.limited q').scheme f') (m : Integrator) (fuel : ℕ)
    (T : Option K) (n : Option ℕ) (exact : Bool) (downbeats : List K) (logEvery : Bool)
    (st : ODEState K (Ix → State K np) (Ix → State K np)) (st' : ODEState K (Ix → State K np') (Ix → State K np'))
    (h : ScaledState (l / b) (InRel (unitsPair a b L c.n)) (InRel (unitsPair a b L c.n)) st st') :
    Option.Rel (ScaledOut (l / b) (InRel (unitsPair a b L c.n)) (InRel (unitsPair a b L c.n)))
      (st.integrate (stepper f m) (·.u) fuel ⟨T, n, exact, downbeats, logEvery, none⟩)
      (st'.integrate (stepper f' m) (·.u) fuel
        ⟨T.map (l / b * ·), n, exact, downbeats.map (l / b * ·), logEvery, none⟩) := by
  refine integrate_scaled (div_pos hl hb) (unitsPair a b L c.n) _ f f' ?_ m _ _ (fun _ _ h => h.u) fuel T n exact
    downbeats logEvery st st' h
  intro s t u u' hu
  obtain ⟨junk, mem, e⟩ := hf s t u
  obtain ⟨junk', mem', e'⟩ := hf' (l / b * s) (l / b * t) u'
  have h1 := C64_rhs ha hb hl H hG h0 q q' hq junk mem s t (l / b * t) u
  have hn : (c'.limited q').scheme.n = c.n := by cases q' <;> exact H.n
  have h2 := rhs_memory _ (H.wellPosed ha hb hl hG h0 q q' hq hw) (l / b * s) (l / b * t) (l / b * t) junk'
    (fun k i => consUnits a b L (junk k i)) mem' (fun d i => b • consUnits a b L (mem d i)) u'
    (fun i => consUnits a b L (u i)) (fun i hi => hu i (by rwa [hn] at hi))
  rw [h1, ← e, ← e'] at h2
  rw [h2]
  cases f s t u with
  | error er => exact rfl
  | ok r =>
    refine ⟨rfl, fun i _ => ?_⟩
    change (l / b) • ((b / l) • consUnits a b L (r.2 i)) = _
    rw [smul_smul, div_mul_div_comm, mul_comm l b, div_self (mul_ne_zero hb.ne' hl.ne'), one_smul]

/-- On the cells: the same flow, and the passive concentrations of the second state are the given combinations of
those of the first. -/
def Combined (L : (Fin np → K) →ₗ[K] (Fin np' → K)) (n : Fin 3 → ℕ) (u : Ix → State K np) (u' : Ix → State K np') :
    Prop :=
  ∀ i, InCells n i → u' i .rho = u i .rho ∧ (∀ d, u' i (.mom d) = u i (.mom d)) ∧ u' i .en = u i .en ∧
    ∀ j, u' i (.ps j) = L (fun k => u i (.ps k)) j

theorem combined_iff (L : (Fin np → K) →ₗ[K] (Fin np' → K)) (n : Fin 3 → ℕ) (u : Ix → State K np)
    (u' : Ix → State K np') : Combined L n u u' ↔ InRel (unitsPair 1 1 L n) u u' := by
  refine forall₂_congr fun i _ => ?_
  constructor
  · rintro ⟨h1, h2, h3, h4⟩
    funext v
    cases v with
    | rho => exact h1.trans (one_mul _).symm
    | mom d => exact (h2 d).trans (by change _ = 1 * 1 * u i (.mom d); ring)
    | en => exact h3.trans (by change _ = 1 * 1 ^ 2 * u i .en; ring)
    | ps j => exact (h4 j).trans (one_mul _).symm
  · intro h
    refine ⟨?_, fun d => ?_, ?_, fun j => ?_⟩
    · exact (congrFun h .rho).trans (one_mul _)
    · exact (congrFun h (.mom d)).trans (by change 1 * 1 * u i (.mom d) = _; ring)
    · exact (congrFun h .en).trans (by change 1 * 1 ^ 2 * u i .en = _; ring)
    · exact (congrFun h (.ps j)).trans (one_mul _)

/-- **C64** (superposition) Two runs of the same flow whose passive scalars are, initially and on prescribed
boundaries, fixed linear combinations of those of the first keep these combinations in every stored state and at the
end, at the same times. -/
theorem C64_superposition {L : (Fin np → K) →ₗ[K] (Fin np' → K)} {c : EulerConfig K np} {c' : EulerConfig K np'}
    (H : InUnits 1 1 1 0 L c c') (hG : IsSqrt c.gas.sqrt) (h0 : 0 ≤ c.gas.csqFloor)
    (hw : WellPosed (c.limited none).scheme) (f : RHS K (Ix → State K np)) (f' : RHS K (Ix → State K np'))
    (hf : IsSolverRHS (c.limited none).scheme f) (hf' : IsSolverRHS (c'.limited none).scheme f') (m : Integrator)
    (fuel : ℕ) (T : Option K) (n : Option ℕ) (exact : Bool) (downbeats : List K) (logEvery : Bool)
    (u₀ : Ix → State K np) (u₀' : Ix → State K np') (h : Combined L c.n u₀ u₀') :
    Option.Rel (fun (x : Outcome K (Ix → State K np) (Ix → State K np))
          (x' : Outcome K (Ix → State K np') (Ix → State K np')) =>
        x'.2 = x.2 ∧ x'.1.timestamps = x.1.timestamps ∧ x'.1.snapshotTimes = x.1.snapshotTimes ∧
          List.Forall₂ (Combined L c.n) x.1.snapshots x'.1.snapshots ∧ Combined L c.n x.1.u x'.1.u)
      ((ODEState.init u₀).integrate (stepper f m) (·.u) fuel ⟨T, n, exact, downbeats, logEvery, none⟩)
      ((ODEState.init u₀').integrate (stepper f' m) (·.u) fuel ⟨T, n, exact, downbeats, logEvery, none⟩) := by
  have e1 : ∀ x : K, (1 : K) / 1 * x = x := fun x => by rw [div_one, one_mul]
  have e2 : (fun x : K => (1 : K) / 1 * x) = id := funext e1
  have key := C64_units one_pos one_pos one_pos H hG h0 none none trivial hw f f' hf hf' m fuel T n exact downbeats
    logEvery (ODEState.init u₀) (ODEState.init u₀')
    ⟨(mul_zero _).symm, by rw [e2]; exact (List.map_id _).symm, rfl, (combined_iff L c.n u₀ u₀').1 h, .nil,
      (List.map_nil).symm⟩
  rw [e2, Option.map_id, List.map_id] at key
  cases hx : (ODEState.init u₀).integrate (stepper f m) (·.u) fuel ⟨T, n, exact, downbeats, logEvery, none⟩ with
  | none =>
    rw [hx] at key
    cases hx' : (ODEState.init u₀').integrate (stepper f' m) (·.u) fuel ⟨T, n, exact, downbeats, logEvery, none⟩ with
    | none => exact .none
    | some x' => simp only [id] at key; rw [hx'] at key; cases key
  | some x =>
    rw [hx] at key
    cases hx' : (ODEState.init u₀').integrate (stepper f' m) (·.u) fuel ⟨T, n, exact, downbeats, logEvery, none⟩ with
    | none => simp only [id] at key; rw [hx'] at key; cases key
    | some x' =>
      simp only [id] at key
      rw [hx'] at key
      cases key with
      | some k =>
        refine .some ⟨k.2.symm, ?_, ?_, ?_, (combined_iff _ _ _ _).2 k.1.u⟩
        · have := k.1.timestamps
          rwa [e2, List.map_id] at this
        · have := k.1.snapshotTimes
          rwa [e2, List.map_id] at this
        · exact k.1.snapshots.imp fun _ _ => (combined_iff _ _ _ _).2

/-- The channel in other units. -/
noncomputable def channelUnits (np : ℕ) (b l : ℝ) : EulerConfig ℝ np :=
  { scalarChannel np with gas := airGas.units b, h := fun d => l * (scalarChannel np).h d }

theorem channel_inUnits (a b l : ℝ) (o : Fin 3 → ℝ) {np np' : ℕ} (L : (Fin np → ℝ) →ₗ[ℝ] (Fin np' → ℝ)) :
    InUnits a b l o L (scalarChannel np) (channelUnits np' b l) :=
  ⟨rfl, rfl, rfl, rfl, fun _ => rfl, rfl, rfl, ⟨rfl, rfl, fun _ _ => trivial⟩⟩

/-- The convex limiter without smooth-extremum relaxation, falling back to moncen slopes. -/
noncomputable def moncenLimiter : LimiterOpts ℝ := { convexLimiter with sed := false, slope := some .moncen }

/-- The sum of two passive scalars. -/
def sumScalars : (Fin 2 → ℝ) →ₗ[ℝ] (Fin 1 → ℝ) where
  toFun q _ := q 0 + q 1
  map_add' q r := by funext _; simp only [Pi.add_apply]; ring
  map_smul' c q := by funext _; simp only [Pi.smul_apply, smul_eq_mul, RingHom.id_apply]; ring

/-- C64 applies to the channel with two passive scalars in CGS units (density 1/1000, velocity and length 100), with a
third scalar replacing the two, their sum; and with the limiter. -/
example : InUnits (1 / 1000) 100 100 ![5, 0, 0] sumScalars (scalarChannel 2) (channelUnits 1 100 100) ∧
    WellPosed ((scalarChannel 2).limited none).scheme ∧ IsSqrt airGas.sqrt ∧ 0 ≤ airGas.csqFloor ∧
    UnitOpts (1 / 1000) 100 (LinearMap.id : (Fin 2 → ℝ) →ₗ[ℝ] _) (some moncenLimiter)
      (some (moncenLimiter.units (1 / 1000) 100)) ∧
    WellPosed ((scalarChannel 2).limited (some moncenLimiter)).scheme :=
  ⟨channel_inUnits _ _ _ _ _, channel_wellPosed 2 _, airGas_sqrt, by norm_num [airGas],
    ⟨rfl, rfl, Or.inr ⟨rfl, id, fun _ => 1, fun _ _ => (one_mul _).symm⟩⟩, channel_wellPosed 2 _⟩

/-- The bounds are converted: a density bound of 1 kg/m³ is 1/1000 g/cm³. -/
example : rescalePad (primFactor (1 / 1000 : ℚ) 100) [(.rho, some 1, none), (.en, some 0, some 2)] =
    [(.rho, some (1 / 1000), none), (.en, some 0, some 20)] := by decide +kernel

/-- Detection with the default tolerance of the smooth-extremum relaxation. -/
def sedOpts : DetectOpts ℚ := ⟨1 / 100, "global", "relative", none, [], true, 1 / 10 ^ 10⟩

/-- A parabola of the given height (in every row), and the candidate above it. -/
def parabola (s shift : ℚ) : Arr (State ℚ 0) := ⟨![7, 1, 1], fun j _ => s * (shift - (j 0 - 3) ^ 2)⟩

/-- **C64** (why the smooth-extremum relaxation is excluded) Its tolerance is absolute: a smooth extremum is
recognised in one system of units and troubled in another. -/
theorem C64_sed_violated :
    (detectTroubledCells sedOpts [0] (parabola 1 (-1)) (parabola 1 0)).map (fun D => D.trouble.get 0) = .ok false ∧
    (detectTroubledCells sedOpts [0] (parabola (1 / 10 ^ 12) (-1)) (parabola (1 / 10 ^ 12) 0)).map
      (fun D => D.trouble.get 0) = .ok true := by
  constructor <;> decide +kernel

/-- **C64** (why minmod is excluded) Its guard against division by zero is absolute: small slopes are not scaled. -/
theorem C64_minmod_violated : ∃ c x y : ℚ, 0 < c ∧
    minmod (1 / 10 ^ 16) (c * x) (c * y) ≠ c * minmod (1 / 10 ^ 16) x y :=
  ⟨1 / 10 ^ 17, 1, 1, by norm_num, by norm_num [minmod]⟩

end FVHOE
