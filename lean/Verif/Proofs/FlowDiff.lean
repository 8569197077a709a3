import Verif.Proofs.FlowChain
import Verif.Proofs.ErrCalc

/-!
The steps of the right-hand side on data of a smooth flow: how the errors change from one cell to the next.
-/

set_option linter.unusedSectionVars false

namespace FVHOE

open MeasureTheory Set

/-! ### Differences on the lattice and in space -/

/-- The difference of a function over the next point in direction `d`. -/
def dif {V : Type} [Sub V] (d : Fin 3) (Φ : Ix → V) : Ix → V := fun j => Φ (j + Pi.single d 1) - Φ j

/-- The difference of a function over one cell width. -/
def difAt (d : Fin 3) (a : ℝ) (f : (Fin 3 → ℝ) → ℝ) : (Fin 3 → ℝ) → ℝ := fun x => f (x + Pi.single d a) - f x

theorem lsweep_dif (d e : Fin 3) (r : ℤ) (ws : List ℚ) (Φ : Ix → ℝ) :
    lsweep ℝ e r ws (dif d Φ) = dif d (lsweep ℝ e r ws Φ) := by
  have h1 : dif d Φ = fun j => 1 * (fun j => Φ (j + Pi.single d 1)) j + (-1) * Φ j := by
    funext j
    unfold dif
    ring
  rw [h1, lsweep_lin, lsweep_shift]
  funext j
  unfold dif
  ring

theorem continuous_difAt {f : (Fin 3 → ℝ) → ℝ} (hf : Continuous f) (d : Fin 3) (a : ℝ) : Continuous (difAt d a f) :=
  (hf.comp (continuous_id.add continuous_const)).sub hf

theorem cellMean_dif (x₀ h : Fin 3 → ℝ) (hh : ∀ d, 0 < h d) {f : (Fin 3 → ℝ) → ℝ} (hf : Continuous f) (d : Fin 3) :
    cellMean x₀ h (difAt d (h d) f) = dif d (cellMean x₀ h f) := by
  funext j
  have hs : Continuous fun x : Fin 3 → ℝ => f (x + Pi.single d (h d)) := hf.comp (continuous_id.add continuous_const)
  unfold dif
  rw [cellMean_next x₀ h hh, cellMean_sub x₀ h hh hs hf]
  rfl

theorem faceMean_dif (x₀ h : Fin 3 → ℝ) (hh : ∀ d, 0 < h d) {f : (Fin 3 → ℝ) → ℝ} (hf : Continuous f) (d : Fin 3) :
    faceMean x₀ h d (difAt d (h d) f) = dif d (faceMean x₀ h d f) := by
  funext j
  have hs : Continuous fun x : Fin 3 → ℝ => f (x + Pi.single d (h d)) := hf.comp (continuous_id.add continuous_const)
  have e1 : faceBox x₀ h d (j + Pi.single d 1) = faceBox x₀ h d j := by
    unfold faceBox
    simp
  have e2 : ∀ y, onFace x₀ h d (j + Pi.single d 1) y = onFace x₀ h d j y + Pi.single d (h d) := by
    intro y
    funext e
    unfold onFace
    rcases eq_or_ne e d with rfl | he
    · simp
      ring
    · obtain ⟨a, rfl⟩ := Fin.exists_succAbove_eq he
      simp
  have hc := continuous_onFace x₀ h d j
  unfold dif
  rw [faceMean_eq x₀ h hh, faceMean_eq x₀ h hh, faceMean_eq x₀ h hh, e1, ← mul_sub]
  simp only [e2]
  have k : ∫ y in faceBox x₀ h d j, (f (onFace x₀ h d j y + Pi.single d (h d)) - f (onFace x₀ h d j y)) =
      (∫ y in faceBox x₀ h d j, f (onFace x₀ h d j y + Pi.single d (h d))) - ∫ y in faceBox x₀ h d j, f (onFace x₀ h d j y) :=
    integral_sub ((hs.comp hc).integrableOn_Icc) ((hf.comp hc).integrableOn_Icc)
  rw [← k]
  rfl

/-! ### The steps for one variable -/

/-- The centre of a cell. -/
noncomputable abbrev centre (x₀ h : Fin 3 → ℝ) (j : Ix) : Fin 3 → ℝ := fun d => x₀ d + ((j d : ℝ) + 1 / 2) * h d

/-- The middle of the left face of a cell. -/
noncomputable abbrev faceCentre (x₀ h : Fin 3 → ℝ) (d : Fin 3) (j : Ix) : Fin 3 → ℝ :=
  fun e => x₀ e + ((j e : ℝ) + if e = d then 0 else 1 / 2) * h e

theorem centre_next (x₀ h : Fin 3 → ℝ) (d : Fin 3) (j : Ix) :
    centre x₀ h (j + Pi.single d 1) = centre x₀ h j + Pi.single d (h d) := by
  funext e
  rcases eq_or_ne e d with rfl | he
  · simp [centre]
    ring
  · simp [centre, he]

theorem faceCentre_next (x₀ h : Fin 3 → ℝ) (d : Fin 3) (j : Ix) :
    faceCentre x₀ h d (j + Pi.single d 1) = faceCentre x₀ h d j + Pi.single d (h d) := by
  funext e
  rcases eq_or_ne e d with rfl | he
  · simp [faceCentre]
    ring
  · simp [faceCentre, he]

section

variable {np : ℕ} {c : EulerConfig ℝ np} (hc : TransportSetup c) {x₀ : Fin 3 → ℝ} {i : Ix} {d : Fin 3}
  (hd : c.scheme.active d = true) {f : (Fin 3 → ℝ) → ℝ} {τ : ℝ} (hτ : 0 ≤ τ) (A : Approx c x₀ i τ f) {Φ : Ix → ℝ}
include hc hd hτ A

/-- From cell averages to the values at the centres. -/
theorem centres_of_means (hf : Continuous f) (hΦ : ∀ j : Ix, (∀ e, |j e - i e| ≤ reach c.scheme e) → Φ j = cellMean x₀ c.h f j)
    {j : Ix} (hj : ∀ e, |j e - i e| ≤ fluxRadius c.p d e + ceilHalf (c.p e)) :
    |latCenters ℝ c.p Φ j - f (centre x₀ c.h j)| ≤ 4 * τ := by
  have hr := fluxRadius_le c d hd
  obtain ⟨R, hR, hε⟩ := A
  have k1 : CloseNear Φ (R.avg x₀ c.h) i (fun e => (fluxRadius c.p d e + ceilHalf (c.p e)) + ceilHalf (c.p e)) τ := by
    intro j hj
    beta_reduce at hj ⊢
    have hj' : ∀ e, |j e - i e| ≤ reach c.scheme e := fun e => by have := hj e; have := hr e; omega
    rw [hΦ j hj', ← cellMean_density R x₀ c.h hc.spacing]
    exact cellMean_sub_le x₀ c.h hc.spacing hf R.continuous_at fun x hx => hε x (cell_in_stencil c hc.spacing x₀ i j hj' hx)
  have k2 := close_centers hc.degree hτ hR (fun d => (hc.spacing d).ne') (m := fun e => fluxRadius c.p d e + ceilHalf (c.p e)) k1 j hj
  rw [stage_mid_at] at k2
  have k3 := hε _ (center_in_stencil hc (x₀ := x₀) (j := j) fun e => by have := hj e; have := hr e; omega)
  rw [abs_le] at k2 k3 ⊢
  constructor <;> linarith [k2.1, k2.2, k3.1, k3.2]

/-- From the values at the centres to the values at both sides of a face. -/
theorem faces_of_centres {ε : ℝ} (hε0 : 0 ≤ ε) (hΦ : ∀ j : Ix, (∀ e, |j e - i e| ≤ fluxRadius c.p d e + ceilHalf (c.p e)) →
      |Φ j - f (centre x₀ c.h j)| ≤ ε) {j : Ix} (hj : ∀ e, |j e - i e| ≤ if e = d then 1 else (ceilHalf (c.p e) : ℤ)) :
    |latL ℝ (c.p d) d (latLine ℝ c.p d (latAvg c.p Φ)) j - f (faceCentre x₀ c.h d j)| ≤ 4 * ε + 5 * τ ∧
      ((∀ e, |(j + Pi.single d 1 : Ix) e - i e| ≤ if e = d then 1 else (ceilHalf (c.p e) : ℤ)) →
      |latR ℝ (c.p d) d (latLine ℝ c.p d (latAvg c.p Φ)) j - f (faceCentre x₀ c.h d (j + Pi.single d 1))| ≤
        4 * ε + 5 * τ) := by
  have hr := fluxRadius_le c d hd
  have hh : ∀ d, c.h d ≠ 0 := fun d => (hc.spacing d).ne'
  obtain ⟨R, hR, hε⟩ := A
  have k1 : CloseNear Φ (R.stage x₀ c.h fun _ => .mid) i (fun e => fluxRadius c.p d e + ceilHalf (c.p e)) (ε + τ) := by
    intro j hj
    beta_reduce at hj ⊢
    have a1 := hΦ j hj
    have a2 := hε _ (center_in_stencil hc (x₀ := x₀) (j := j) fun e => by have := hj e; have := hr e; omega)
    rw [stage_mid_at]
    rw [abs_le] at a1 a2 ⊢
    constructor <;> linarith [a1.1, a1.2, a2.1, a2.2]
  have hA : 0 ≤ ε + τ := by positivity
  have k2 := close_averages hc.degree hA hR hh (m := fluxRadius c.p d) k1
  have k3 := close_line hc.degree (by positivity) d hR hh
    (m := (fun e => if e = d then 1 else (ceilHalf (c.p e) : ℤ)) + Pi.single d (ceilHalf (c.p d) : ℤ)) (k2.mono fun e => by
      unfold fluxRadius
      by_cases he : e = d
      · subst he; simp; omega
      · simp [he]; omega)
  have k4 := close_left hc.degree (by positivity) d hR hh k3 j hj
  have k5 := close_right hc.degree (by positivity) d hR hh k3 j hj
  refine ⟨?_, fun hj' => ?_⟩
  · have a2 := hε _ (face_in_stencil hc (x₀ := x₀) hd hj)
    rw [stage_face_at] at k4
    rw [abs_le] at k4 a2 ⊢
    constructor <;> linarith [k4.1, k4.2, a2.1, a2.2]
  · have a2 := hε _ (face_in_stencil hc (x₀ := x₀) hd hj')
    beta_reduce at k5
    rw [stage_face_at] at k5
    rw [abs_le] at k5 a2 ⊢
    constructor <;> linarith [k5.1, k5.2, a2.1, a2.2]

/-- From the values at the middles of the faces to the mean over a face. -/
theorem faceMean_of_faces (hf : Continuous f) {ε : ℝ} (hε0 : 0 ≤ ε)
    (hΦ : ∀ j : Ix, (∀ e, |j e - i e| ≤ if e = d then 0 else (ceilHalf (c.p e) : ℤ)) →
      |Φ j - f (faceCentre x₀ c.h d j)| ≤ ε) :
    |latT ℝ (c.p (transverseOrder d).2) (transverseOrder d).2 (latT ℝ (c.p (transverseOrder d).1) (transverseOrder d).1 Φ) i -
      faceMean x₀ c.h d f i| ≤ 2 * ε + 3 * τ := by
  have hh : ∀ d, c.h d ≠ 0 := fun d => (hc.spacing d).ne'
  obtain ⟨R, hR, hε⟩ := A
  have s4 : CloseNear Φ (R.stage x₀ c.h (faceMid d)) i (fun e => (0 : Ix) e + if e = d then 0 else (ceilHalf (c.p e) : ℤ))
      (ε + τ) := by
    intro j hj
    have hj1 : ∀ e, |j e - i e| ≤ if e = d then 0 else (ceilHalf (c.p e) : ℤ) := fun e => by simpa using hj e
    have a1 := hΦ j hj1
    have a2 := hε _ (face_in_stencil hc (x₀ := x₀) hd (j := j) fun e => by
      have := hj1 e
      by_cases he : e = d
      · simp only [he, if_true] at this ⊢
        omega
      · simpa only [he, if_false] using this)
    rw [stage_face_at]
    rw [abs_le] at a1 a2 ⊢
    constructor <;> linarith [a1.1, a1.2, a2.1, a2.2]
  have s5 := close_transverse hc.degree (by positivity) d hR hh (m := 0) s4 i (by simp)
  have s6 : |faceMean x₀ c.h d f i - R.stage x₀ c.h (faceAvg d) i| ≤ τ := by
    rw [← faceMean_density x₀ c.h hc.spacing]
    refine faceMean_sub_le x₀ c.h hc.spacing d hf R.continuous_at fun z hz => hε _ ?_
    refine cell_in_stencil c hc.spacing x₀ i i (fun e => by simp) ⟨fun e => ?_, fun e => ?_⟩
    · rcases eq_or_ne e d with rfl | he
      · unfold onFace
        rw [Fin.insertNth_apply_same]
      · obtain ⟨a, rfl⟩ := Fin.exists_succAbove_eq he
        unfold onFace
        rw [Fin.insertNth_apply_succAbove]
        exact hz.1 a
    · have hpos := hc.spacing d
      rcases eq_or_ne e d with rfl | he
      · unfold onFace
        rw [Fin.insertNth_apply_same]
        nlinarith
      · obtain ⟨a, rfl⟩ := Fin.exists_succAbove_eq he
        unfold onFace
        rw [Fin.insertNth_apply_succAbove]
        exact hz.2 a
  rw [abs_le] at s5 s6 ⊢
  constructor <;> linarith [s5.1, s5.2, s6.1, s6.2]

end

/-! ### The error of the conversion to primitive variables -/

section

variable {np : ℕ}

/-- The error of the first of two states. -/
def pairErr (z : State ℝ np × State ℝ np) : State ℝ np := z.1 - z.2

theorem prim_sim (gamma : ℝ) {u : State ℝ np} (hu : u .rho ≠ 0) (v : Var np) :
    Sim pairErr (fun z : State ℝ np × State ℝ np => computePrimitives gamma z.1 v) (fun z => computePrimitives gamma z.2 v) (u, u) :=
  sim_prim gamma (fun v => ⟨lip_fst v _, lip_snd v _, ErrAt.base (fun z => norm_le_pi_norm (z.1 - z.2) v)
    (fun z z' => norm_le_pi_norm (pairErr z' - pairErr z) v)⟩) hu hu v

end

/-! ### The fluxes -/

section

variable {np : ℕ} {c : EulerConfig ℝ np} (hc : TransportSetup c) {x₀ : Fin 3 → ℝ} {i : Ix}
include hc

theorem shift_in_stencil {x : Fin 3 → ℝ} (d : Fin 3) (hx : x ∈ stencilBox c x₀ i) :
    x + Pi.single d (c.h d) ∈ stencilBox c x₀ (i + Pi.single d 1) := by
  intro e
  have := hx e
  rcases eq_or_ne e d with rfl | he
  · simp only [Pi.add_apply, Pi.single_eq_same]
    push_cast
    have e1 : x e + c.h e - (x₀ e + ((i e : ℝ) + 1 + 1 / 2) * c.h e) = x e - (x₀ e + ((i e : ℝ) + 1 / 2) * c.h e) := by ring
    rw [e1]
    exact this
  · simpa [he] using this

/-- The steps of the right-hand side applied to the cell averages of a flow `w` that is close to polynomials together
with its differences: the difference of the fluxes through the two faces of a cell is close to the difference of the
means of the flux `g` over them. -/
theorem flux_diff {w g : (Fin 3 → ℝ) → State ℝ np} {d : Fin 3} (hd : c.scheme.active d = true) {τ τ' κ : ℝ} (hτ : 0 ≤ τ)
    (hτ' : 0 ≤ τ') (hκ : 0 ≤ κ) (hu : ∀ v, Continuous fun x => conserved c.gas.gamma (w x) v) (hg : ∀ v, Continuous fun x => g x v)
    (Au : ∀ y : ℤ, y = 0 ∨ y = 1 → ∀ v, Approx c x₀ (i + Pi.single d y) τ fun x => conserved c.gas.gamma (w x) v)
    (Aw : ∀ y : ℤ, y = 0 ∨ y = 1 → ∀ v, Approx c x₀ (i + Pi.single d y) τ fun x => w x v)
    (Du : ∀ v, Approx c x₀ i τ' (difAt d (c.h d) fun x => conserved c.gas.gamma (w x) v))
    (Dw : ∀ v, Approx c x₀ i τ' (difAt d (c.h d) fun x => w x v))
    (Dg : ∀ v, Approx c x₀ i τ' (difAt d (c.h d) fun x => g x v))
    (ku : ∀ x ∈ stencilBox c x₀ i, dist (conserved c.gas.gamma (w (x + Pi.single d (c.h d)))) (conserved c.gas.gamma (w x)) ≤ κ)
    (kw : ∀ x ∈ stencilBox c x₀ i, dist (w (x + Pi.single d (c.h d))) (w x) ≤ κ) {δ L : ℝ} (hL : 0 ≤ L)
    (hP1 : ∀ y : ℤ, y = 0 ∨ y = 1 → ∀ x ∈ stencilBox c x₀ (i + Pi.single d y), ∀ s, dist s (conserved c.gas.gamma (w x)) ≤ δ →
      dist (computePrimitives c.gas.gamma s) (w x) ≤ L * dist s (conserved c.gas.gamma (w x)))
    (hpc : ∀ y : ℤ, y = 0 ∨ y = 1 → ∀ x ∈ stencilBox c x₀ (i + Pi.single d y),
      computePrimitives c.gas.gamma (conserved c.gas.gamma (w x)) = w x)
    (hP : ∀ x ∈ stencilBox c x₀ i, ∀ z z' : State ℝ np × State ℝ np,
      dist z (conserved c.gas.gamma (w x), conserved c.gas.gamma (w x)) ≤ δ →
      dist z' (conserved c.gas.gamma (w x), conserved c.gas.gamma (w x)) ≤ δ → ∀ v,
      |(computePrimitives c.gas.gamma z'.1 v - computePrimitives c.gas.gamma z'.2 v) -
        (computePrimitives c.gas.gamma z.1 v - computePrimitives c.gas.gamma z.2 v)| ≤
        L * (‖pairErr z' - pairErr z‖ + ‖pairErr z‖ * dist z' z))
    {T : State ℝ np → State ℝ np} (hT : ∀ x, T (w x) = g x)
    (hF : ∀ x ∈ stencilBox c x₀ i, ∀ z z' : Triple np, dist z (w x, w x, w x) ≤ δ → dist z' (w x, w x, w x) ≤ δ → ∀ v,
      |(riemann c.riem c.gas d z'.1 z'.2.1 v - T z'.2.2 v) - (riemann c.riem c.gas d z.1 z.2.1 v - T z.2.2 v)| ≤
        L * (‖tripleErr z' - tripleErr z‖ + ‖tripleErr z‖ * dist z' z))
    (h1 : 4 * τ + κ ≤ δ) (h2 : (16 * L + 5) * τ + κ ≤ δ) (hτ1 : τ ≤ 1) (U : Ix → State ℝ np)
    (hU : ∀ y : ℤ, y = 0 ∨ y = 1 → ∀ j : Ix, (∀ e, |j e - (i + Pi.single d y : Ix) e| ≤ reach c.scheme e) → ∀ v,
      U j v = cellMean x₀ c.h (fun x => conserved c.gas.gamma (w x) v) j) (v : Var np) :
    |(latFlux ℝ (riemann c.riem c.gas d) c.p none d (latPrim ℝ (computePrimitives c.gas.gamma) c.p U) (i + Pi.single d 1) v -
        latFlux ℝ (riemann c.riem c.gas d) c.p none d (latPrim ℝ (computePrimitives c.gas.gamma) c.p U) i v) -
      (faceMean x₀ c.h d (fun x => g x v) (i + Pi.single d 1) - faceMean x₀ c.h d (fun x => g x v) i)| ≤
      (2 * L * ((80 * L + 5) + (16 * L + 5) + (16 * L + 5) * (80 * L + 5)) + 3) * (τ' + τ * κ) := by
  have hr := fluxRadius_le c d hd
  have i0 : i + Pi.single d (0 : ℤ) = i := by rw [Pi.single_zero, add_zero]
  have y0 : (0 : ℤ) = 0 ∨ (0 : ℤ) = 1 := Or.inl rfl
  have y1 : (1 : ℤ) = 0 ∨ (1 : ℤ) = 1 := Or.inr rfl
  -- the conserved variables at the centres
  have s1 : ∀ y : ℤ, y = 0 ∨ y = 1 → ∀ j : Ix, (∀ e, |j e - (i + Pi.single d y : Ix) e| ≤ fluxRadius c.p d e + ceilHalf (c.p e)) →
      dist (latCenters ℝ c.p U j) (conserved c.gas.gamma (w (centre x₀ c.h j))) ≤ 4 * τ := by
    intro y hy j hj
    rw [dist_pi_le_iff (by positivity)]
    intro v
    have := centres_of_means hc hd hτ (Au y hy v) (Φ := fun j => U j v) (hu v) (fun j hj => hU y hy j hj v) hj
    rwa [← latCenters_comp] at this
  have t1 : ∀ j : Ix, (∀ e, |j e - i e| ≤ fluxRadius c.p d e + ceilHalf (c.p e)) →
      ‖(latCenters ℝ c.p U (j + Pi.single d 1) - conserved c.gas.gamma (w (centre x₀ c.h (j + Pi.single d 1)))) -
        (latCenters ℝ c.p U j - conserved c.gas.gamma (w (centre x₀ c.h j)))‖ ≤ 4 * τ' := by
    intro j hj
    rw [pi_norm_le_iff_of_nonneg (by positivity)]
    intro v
    have := centres_of_means hc hd hτ' (Du v) (Φ := dif d fun j => U j v) (continuous_difAt (hu v) _ _) (fun j hj => by
      rw [cellMean_dif x₀ c.h hc.spacing (hu v)]
      unfold dif
      beta_reduce
      rw [hU 0 y0 j (by rwa [i0]) v, hU 1 y1 (j + Pi.single d 1) (fun e => by simpa using hj e) v]) hj
    have e1 : latCenters ℝ c.p (dif d fun j => U j v) = dif d fun j => latCenters ℝ c.p U j v := by
      rw [latCenters_comp]
      unfold latCenters latC
      rw [lsweep_dif, lsweep_dif, lsweep_dif]
    rw [e1] at this
    unfold dif difAt at this
    rw [Real.norm_eq_abs, Pi.sub_apply, Pi.sub_apply, Pi.sub_apply, centre_next]
    refine le_trans (le_of_eq ?_) this
    congr 1
    ring
  -- the primitive variables there
  have hshift : ∀ j : Ix, ∀ m : Ix, (∀ e, |j e - i e| ≤ m e) → ∀ e, |(j + Pi.single d 1 : Ix) e - (i + Pi.single d 1 : Ix) e| ≤ m e :=
    fun j m hj e => by simpa using hj e
  have s2 : ∀ y : ℤ, y = 0 ∨ y = 1 → ∀ j : Ix, (∀ e, |j e - (i + Pi.single d y : Ix) e| ≤ fluxRadius c.p d e + ceilHalf (c.p e)) →
      dist (computePrimitives c.gas.gamma (latCenters ℝ c.p U j)) (w (centre x₀ c.h j)) ≤ 4 * L * τ := by
    intro y hy j hj
    have k1 := s1 y hy j hj
    refine (hP1 y hy _ (center_in_stencil hc fun e => by have := hj e; have := hr e; omega) _ (k1.trans (by linarith))).trans ?_
    nlinarith
  have hσ : ∃ σ, σ = L * (4 * τ' + 4 * τ * (κ + 4 * τ')) := ⟨_, rfl⟩
  obtain ⟨σ, hσ⟩ := hσ
  have hσ0 : 0 ≤ σ := by rw [hσ]; positivity
  have t2 : ∀ v, ∀ j : Ix, (∀ e, |j e - i e| ≤ fluxRadius c.p d e + ceilHalf (c.p e)) →
      |dif d (fun j => computePrimitives c.gas.gamma (latCenters ℝ c.p U j) v) j -
        difAt d (c.h d) (fun x => w x v) (centre x₀ c.h j)| ≤ σ := by
    intro v j hj
    have m0 : centre x₀ c.h j ∈ stencilBox c x₀ i := center_in_stencil hc fun e => by have := hj e; have := hr e; omega
    have a0 := s1 0 y0 j (by rwa [i0])
    have a1 := s1 1 y1 (j + Pi.single d 1) (hshift j _ hj)
    have b1 := t1 j hj
    have ku0 := ku _ m0
    rw [← centre_next] at ku0
    have m1 : centre x₀ c.h (j + Pi.single d 1) ∈ stencilBox c x₀ (i + Pi.single d 1) := by
      rw [centre_next]
      exact shift_in_stencil hc d m0
    have key := hP _ m0 (latCenters ℝ c.p U j, conserved c.gas.gamma (w (centre x₀ c.h j)))
      (latCenters ℝ c.p U (j + Pi.single d 1), conserved c.gas.gamma (w (centre x₀ c.h (j + Pi.single d 1))))
      (by rw [Prod.dist_eq]; exact max_le (a0.trans (by linarith)) (by rw [dist_self]; linarith))
      (by
        rw [Prod.dist_eq]
        exact max_le ((dist_triangle _ _ _).trans (add_le_add a1 ku0) |>.trans h1) (ku0.trans (by linarith))) v
    dsimp only at key
    rw [hpc 1 y1 _ m1, hpc 0 y0 _ (by rwa [i0])] at key
    have e1 : dif d (fun j => computePrimitives c.gas.gamma (latCenters ℝ c.p U j) v) j -
        difAt d (c.h d) (fun x => w x v) (centre x₀ c.h j) =
        (computePrimitives c.gas.gamma (latCenters ℝ c.p U (j + Pi.single d 1)) v - w (centre x₀ c.h (j + Pi.single d 1)) v) -
        (computePrimitives c.gas.gamma (latCenters ℝ c.p U j) v - w (centre x₀ c.h j) v) := by
      unfold dif difAt
      rw [centre_next]
      ring
    rw [e1]
    refine key.trans ?_
    rw [hσ]
    refine mul_le_mul_of_nonneg_left (add_le_add b1 ?_) hL
    have n1 : ‖pairErr (latCenters ℝ c.p U j, conserved c.gas.gamma (w (centre x₀ c.h j)))‖ ≤ 4 * τ := by
      rw [dist_eq_norm] at a0
      exact a0
    refine mul_le_mul n1 ?_ dist_nonneg (by positivity)
    rw [Prod.dist_eq]
    refine max_le ?_ (ku0.trans (by linarith))
    have e2 : latCenters ℝ c.p U (j + Pi.single d 1) - latCenters ℝ c.p U j =
        (conserved c.gas.gamma (w (centre x₀ c.h (j + Pi.single d 1))) - conserved c.gas.gamma (w (centre x₀ c.h j))) +
        ((latCenters ℝ c.p U (j + Pi.single d 1) - conserved c.gas.gamma (w (centre x₀ c.h (j + Pi.single d 1)))) -
        (latCenters ℝ c.p U j - conserved c.gas.gamma (w (centre x₀ c.h j)))) := by abel
    rw [dist_eq_norm] at ku0 ⊢
    dsimp only
    rw [e2]
    exact (norm_add_le _ _).trans (add_le_add ku0 b1)
  -- the values on both sides of the faces
  obtain ⟨PL, hPL⟩ : ∃ PL, PL = latL ℝ (c.p d) d (latLine ℝ c.p d (latPrim ℝ (computePrimitives c.gas.gamma) c.p U)) := ⟨_, rfl⟩
  obtain ⟨PR, hPR⟩ : ∃ PR, PR = latR ℝ (c.p d) d (latLine ℝ c.p d (latPrim ℝ (computePrimitives c.gas.gamma) c.p U)) := ⟨_, rfl⟩
  have eL : ∀ v, (fun j => PL j v) = latL ℝ (c.p d) d (latLine ℝ c.p d (latAvg c.p fun j =>
      computePrimitives c.gas.gamma (latCenters ℝ c.p U j) v)) := by
    intro v
    rw [← latAvg_comp, ← latLine_comp, hPL]
    unfold latL
    rw [← lsweep_comp]
    rfl
  have eR : ∀ v, (fun j => PR j v) = latR ℝ (c.p d) d (latLine ℝ c.p d (latAvg c.p fun j =>
      computePrimitives c.gas.gamma (latCenters ℝ c.p U j) v)) := by
    intro v
    rw [← latAvg_comp, ← latLine_comp, hPR]
    unfold latR
    rw [← lsweep_comp]
    rfl
  have dL : ∀ v, latL ℝ (c.p d) d (latLine ℝ c.p d (latAvg c.p (dif d fun j =>
      computePrimitives c.gas.gamma (latCenters ℝ c.p U j) v))) = dif d fun j => PL j v := by
    intro v
    rw [eL]
    unfold latL latLine latAvg latC latT
    simp only [lsweep_dif]
  have dR : ∀ v, latR ℝ (c.p d) d (latLine ℝ c.p d (latAvg c.p (dif d fun j =>
      computePrimitives c.gas.gamma (latCenters ℝ c.p U j) v))) = dif d fun j => PR j v := by
    intro v
    rw [eR]
    unfold latR latLine latAvg latC latT
    simp only [lsweep_dif]
  have s3 : ∀ y : ℤ, y = 0 ∨ y = 1 → ∀ j : Ix,
      (∀ e, |j e - (i + Pi.single d y : Ix) e| ≤ if e = d then 1 else (ceilHalf (c.p e) : ℤ)) →
      dist (PL j) (w (faceCentre x₀ c.h d j)) ≤ (16 * L + 5) * τ ∧
      ((∀ e, |(j + Pi.single d 1 : Ix) e - (i + Pi.single d y : Ix) e| ≤ if e = d then 1 else (ceilHalf (c.p e) : ℤ)) →
        dist (PR j) (w (faceCentre x₀ c.h d (j + Pi.single d 1))) ≤ (16 * L + 5) * τ) := by
    intro y hy j hj
    have key : ∀ v, _ := fun v => faces_of_centres hc hd hτ (Aw y hy v) (ε := 4 * L * τ) (by positivity)
      (Φ := fun j => computePrimitives c.gas.gamma (latCenters ℝ c.p U j) v)
      (fun j hj => (dist_le_pi_dist _ _ v).trans (s2 y hy j hj)) hj
    refine ⟨?_, fun hj' => ?_⟩
    · rw [dist_pi_le_iff (by positivity)]
      intro v
      have := (key v).1
      rw [← eL] at this
      rw [Real.dist_eq]
      linarith
    · rw [dist_pi_le_iff (by positivity)]
      intro v
      have := (key v).2 hj'
      rw [← eR] at this
      rw [Real.dist_eq]
      linarith
  have t3 : ∀ j : Ix, (∀ e, |j e - i e| ≤ if e = d then 1 else (ceilHalf (c.p e) : ℤ)) →
      ‖(PL (j + Pi.single d 1) - w (faceCentre x₀ c.h d (j + Pi.single d 1))) - (PL j - w (faceCentre x₀ c.h d j))‖ ≤
        4 * σ + 5 * τ' ∧
      ((∀ e, |(j + Pi.single d 1 : Ix) e - i e| ≤ if e = d then 1 else (ceilHalf (c.p e) : ℤ)) →
        ‖(PR (j + Pi.single d 1) - w (faceCentre x₀ c.h d (j + Pi.single d 1 + Pi.single d 1))) -
          (PR j - w (faceCentre x₀ c.h d (j + Pi.single d 1)))‖ ≤ 4 * σ + 5 * τ') := by
    intro j hj
    have key : ∀ v, _ := fun v => faces_of_centres hc hd hτ' (Dw v) hσ0 (t2 v) hj
    refine ⟨?_, fun hj' => ?_⟩
    · rw [pi_norm_le_iff_of_nonneg (by positivity)]
      intro v
      have := (key v).1
      rw [dL] at this
      unfold dif difAt at this
      rw [Real.norm_eq_abs, Pi.sub_apply, Pi.sub_apply, Pi.sub_apply, faceCentre_next]
      refine le_trans (le_of_eq ?_) this
      congr 1
      ring
    · rw [pi_norm_le_iff_of_nonneg (by positivity)]
      intro v
      have := (key v).2 hj'
      rw [dR] at this
      unfold dif difAt at this
      rw [Real.norm_eq_abs, Pi.sub_apply, Pi.sub_apply, Pi.sub_apply, faceCentre_next x₀ c.h d (j + Pi.single d 1)]
      refine le_trans (le_of_eq ?_) this
      congr 1
      ring
  -- the fluxes at the middles of the faces
  obtain ⟨σ₂, hσ₂⟩ : ∃ σ₂, σ₂ = 4 * σ + 5 * τ' := ⟨_, rfl⟩
  have hσ₂0 : 0 ≤ σ₂ := by rw [hσ₂]; positivity
  obtain ⟨σ₃, hσ₃⟩ : ∃ σ₃, σ₃ = L * (σ₂ + (16 * L + 5) * τ * (κ + σ₂)) := ⟨_, rfl⟩
  have hσ₃0 : 0 ≤ σ₃ := by rw [hσ₃]; positivity
  obtain ⟨F, hFd⟩ : ∃ F, F = latMid ℝ (riemann c.riem c.gas d) c.p none d (latPrim ℝ (computePrimitives c.gas.gamma) c.p U) := ⟨_, rfl⟩
  have eF : ∀ j, F j = riemann c.riem c.gas d (PR (j - Pi.single d 1)) (PL j) := by
    intro j
    rw [hFd, hPR, hPL]
    rfl
  have t4 : ∀ j : Ix, (∀ e, |j e - i e| ≤ if e = d then 0 else (ceilHalf (c.p e) : ℤ)) →
      |dif d (fun j => F j v) j - difAt d (c.h d) (fun x => g x v) (faceCentre x₀ c.h d j)| ≤ σ₃ := by
    intro j hj
    have j1 : ∀ e, |j e - i e| ≤ if e = d then 1 else (ceilHalf (c.p e) : ℤ) := by
      intro e
      have := hj e
      by_cases he : e = d
      · simp only [he, if_true] at this ⊢
        omega
      · simpa [he] using this
    have j2 : ∀ e, |(j - Pi.single d 1 : Ix) e - i e| ≤ if e = d then 1 else (ceilHalf (c.p e) : ℤ) := by
      intro e
      have := hj e
      by_cases he : e = d
      · subst he
        simp only [if_true, Pi.sub_apply, Pi.single_eq_same] at this ⊢
        rw [abs_le] at this ⊢
        omega
      · simpa [he] using this
    have m0 := face_in_stencil hc (x₀ := x₀) hd j1
    have a1 := (s3 0 y0 j (by rwa [i0])).1
    have a2 := (s3 0 y0 (j - Pi.single d 1) (by rwa [i0])).2 (by rwa [sub_add_cancel, i0])
    have a3 := (s3 1 y1 (j + Pi.single d 1) (hshift j _ j1)).1
    have a4 := (s3 1 y1 j (fun e => by
      have := j2 e
      rw [Pi.sub_apply] at this
      rw [Pi.add_apply]
      have e1 : j e - (i e + (Pi.single d 1 : Ix) e) = j e - (Pi.single d 1 : Ix) e - i e := by ring
      rw [e1]
      exact this)).2 (hshift j _ j1)
    have b1 := (t3 j j1).1
    have b2 := (t3 (j - Pi.single d 1) j2).2 (by rwa [sub_add_cancel])
    rw [sub_add_cancel] at a2 b2
    rw [← hσ₂] at b1 b2
    have kw0 := kw _ m0
    rw [← faceCentre_next] at kw0
    have key := hF _ m0 (PR (j - Pi.single d 1), PL j, w (faceCentre x₀ c.h d j))
      (PR j, PL (j + Pi.single d 1), w (faceCentre x₀ c.h d (j + Pi.single d 1)))
      (by
        rw [Prod.dist_eq, Prod.dist_eq]
        exact max_le (a2.trans (by linarith)) (max_le (a1.trans (by linarith)) (by rw [dist_self]; linarith)))
      (by
        rw [Prod.dist_eq, Prod.dist_eq]
        exact max_le ((dist_triangle _ _ _).trans (add_le_add a4 kw0) |>.trans h2)
          (max_le ((dist_triangle _ _ _).trans (add_le_add a3 kw0) |>.trans h2) (kw0.trans (by nlinarith)))) v
    dsimp only at key
    rw [hT, hT] at key
    have e1 : dif d (fun j => F j v) j - difAt d (c.h d) (fun x => g x v) (faceCentre x₀ c.h d j) =
        (riemann c.riem c.gas d (PR j) (PL (j + Pi.single d 1)) v - g (faceCentre x₀ c.h d (j + Pi.single d 1)) v) -
        (riemann c.riem c.gas d (PR (j - Pi.single d 1)) (PL j) v - g (faceCentre x₀ c.h d j) v) := by
      unfold dif difAt
      beta_reduce
      rw [faceCentre_next, eF, eF, add_sub_cancel_right]
      ring
    rw [e1]
    refine key.trans ?_
    rw [hσ₃]
    refine mul_le_mul_of_nonneg_left (add_le_add ?_ ?_) hL
    · exact norm_prod_le_iff.2 ⟨b2, b1⟩
    · refine mul_le_mul ?_ ?_ dist_nonneg (by positivity)
      · rw [dist_eq_norm] at a1 a2
        exact norm_prod_le_iff.2 ⟨a2, a1⟩
      · rw [Prod.dist_eq, Prod.dist_eq]
        refine max_le ?_ (max_le ?_ (kw0.trans (by linarith)))
        · have e2 : PR j - PR (j - Pi.single d 1) =
              (w (faceCentre x₀ c.h d (j + Pi.single d 1)) - w (faceCentre x₀ c.h d j)) +
              ((PR j - w (faceCentre x₀ c.h d (j + Pi.single d 1))) - (PR (j - Pi.single d 1) - w (faceCentre x₀ c.h d j))) := by abel
          rw [dist_eq_norm] at kw0 ⊢
          dsimp only
          rw [e2]
          exact (norm_add_le _ _).trans (add_le_add kw0 b2)
        · have e2 : PL (j + Pi.single d 1) - PL j =
              (w (faceCentre x₀ c.h d (j + Pi.single d 1)) - w (faceCentre x₀ c.h d j)) +
              ((PL (j + Pi.single d 1) - w (faceCentre x₀ c.h d (j + Pi.single d 1))) - (PL j - w (faceCentre x₀ c.h d j))) := by abel
          rw [dist_eq_norm] at kw0 ⊢
          dsimp only
          rw [e2]
          exact (norm_add_le _ _).trans (add_le_add kw0 b1)
  have t5 := faceMean_of_faces hc hd hτ' (Dg v) (continuous_difAt (hg v) _ _) hσ₃0 t4
  rw [faceMean_dif x₀ c.h hc.spacing (hg v)] at t5
  have e2 : latT ℝ (c.p (transverseOrder d).2) (transverseOrder d).2 (latT ℝ (c.p (transverseOrder d).1) (transverseOrder d).1
      (dif d fun j => F j v)) = dif d fun j => latFlux ℝ (riemann c.riem c.gas d) c.p none d
        (latPrim ℝ (computePrimitives c.gas.gamma) c.p U) j v := by
    unfold latFlux latT
    rw [← hFd, lsweep_comp, lsweep_comp, lsweep_dif, lsweep_dif]
  rw [e2] at t5
  refine (t5 : |_ - _| ≤ _).trans ?_
  -- the constants
  obtain ⟨θ, hθ⟩ : ∃ θ, θ = τ' + τ * κ := ⟨_, rfl⟩
  have c1 : τ' ≤ θ := by rw [hθ]; nlinarith
  have c2 : τ * κ ≤ θ := by rw [hθ]; linarith
  have hθ0 : 0 ≤ θ := hτ'.trans c1
  have c3 : σ ≤ 20 * L * θ := by
    rw [hσ]
    have : 4 * τ' + 4 * τ * (κ + 4 * τ') ≤ 20 * θ := by
      have : τ * τ' ≤ 1 * τ' := mul_le_mul_of_nonneg_right hτ1 hτ'
      rw [hθ]
      nlinarith
    nlinarith
  have c4 : σ₂ ≤ (80 * L + 5) * θ := by
    rw [hσ₂]
    nlinarith
  have c5 : σ₃ ≤ L * ((80 * L + 5) + (16 * L + 5) + (16 * L + 5) * (80 * L + 5)) * θ := by
    rw [hσ₃]
    have d1 : (16 * L + 5) * (τ * κ) ≤ (16 * L + 5) * θ := mul_le_mul_of_nonneg_left c2 (by positivity)
    have d2 : τ * σ₂ ≤ 1 * ((80 * L + 5) * θ) := mul_le_mul hτ1 c4 hσ₂0 zero_le_one
    have d3 : (16 * L + 5) * (τ * σ₂) ≤ (16 * L + 5) * (1 * ((80 * L + 5) * θ)) := mul_le_mul_of_nonneg_left d2 (by positivity)
    have d4 : σ₂ + (16 * L + 5) * τ * (κ + σ₂) ≤ ((80 * L + 5) + (16 * L + 5) + (16 * L + 5) * (80 * L + 5)) * θ := by linarith
    exact (mul_le_mul_of_nonneg_left d4 hL).trans (le_of_eq (by ring))
  rw [← hθ]
  nlinarith

end

end FVHOE
