import Verif.Proofs.Contact
import Verif.Proofs.Taylor3

/-!
The linear scheme of `Contact` on data close to those of a polynomial density.
-/

set_option linter.unusedSectionVars false

namespace FVHOE

/-- Sum of the absolute values of the weights. -/
def absSum (ws : List ℚ) : ℚ := (ws.map fun w => |w|).sum

theorem wsum_abs_le (ws : List ℚ) (s : ℤ) (f : ℤ → ℝ) (m : ℝ) (hf : ∀ k, s ≤ k → k < s + ws.length → |f k| ≤ m) :
    |wsum ℝ ws s f| ≤ (absSum ws : ℝ) * m := by
  induction ws generalizing s with
  | nil => simp [wsum, absSum]
  | cons w ws ih =>
    have h1 := ih (s + 1) fun k h0 h1 => hf k (by omega) (by rw [List.length_cons]; push_cast at *; omega)
    have h2 := hf s le_rfl (by rw [List.length_cons]; push_cast; omega)
    unfold wsum
    have e : ((absSum (w :: ws) : ℚ) : ℝ) = |(w : ℝ)| + (absSum ws : ℝ) := by
      simp [absSum]
    rw [e, add_mul, smul_eq_mul]
    refine (abs_add_le _ _).trans (add_le_add ?_ h1)
    rw [abs_mul]
    exact mul_le_mul_of_nonneg_left h2 (abs_nonneg _)

theorem wts_absSum {p : ℕ} (hp : p ≤ 8) : absSum (wts (conservativeWeights p "c")) ≤ 4 / 3 ∧
    absSum (wts (transverseWeights p)) ≤ 21 / 20 ∧ absSum (wts (conservativeWeights p "l")) ≤ 11 / 6 ∧
    absSum (wts (conservativeWeights p "r")) ≤ 11 / 6 := by
  interval_cases p <;> decide +kernel

/-- Bounded by `B` on the box of radii `m` around `i`. -/
def BoundedNear (Φ : Ix → ℝ) (i m : Ix) (B : ℝ) : Prop := ∀ j : Ix, (∀ d, |j d - i d| ≤ m d) → |Φ j| ≤ B

theorem BoundedNear.mono {Φ : Ix → ℝ} {i m m' : Ix} {B : ℝ} (h : BoundedNear Φ i m B) (hm : ∀ d, m' d ≤ m d) :
    BoundedNear Φ i m' B := fun j hj => h j fun d => (hj d).trans (hm d)

theorem BoundedNear.sweep {Φ : Ix → ℝ} {i m : Ix} {B : ℝ} (hB : 0 ≤ B) (d : Fin 3) (r : ℕ) (ws : List ℚ) (κ : ℚ)
    (hκ : absSum ws ≤ κ) (hl : ws.length = 2 * r + 1) (h : BoundedNear Φ i (m + Pi.single d (r : ℤ)) B) :
    BoundedNear (lsweep ℝ d r ws Φ) i m ((κ : ℝ) * B) := by
  intro j hj
  refine (wsum_abs_le ws (-(r : ℤ)) _ B fun k h1 h2 => h _ fun e => ?_).trans
    (mul_le_mul_of_nonneg_right (by exact_mod_cast hκ) hB)
  have := hj e
  rw [abs_le] at this ⊢
  by_cases he : e = d
  · subst he; simp; constructor <;> omega
  · simp [he]; constructor <;> omega

section

variable {p : Fin 3 → ℕ} (hp : ∀ d, p d ≤ 8)
include hp

theorem BoundedNear.c {Φ : Ix → ℝ} {i m : Ix} {B : ℝ} (hB : 0 ≤ B) (d : Fin 3)
    (h : BoundedNear Φ i (m + Pi.single d (ceilHalf (p d) : ℤ)) B) : BoundedNear (latC ℝ (p d) d Φ) i m (4 / 3 * B) := by
  have := h.sweep hB d _ _ _ (wts_absSum (hp d)).1 (wts_c_len (hp d) "c" (by simp))
  norm_num at this
  exact this

theorem BoundedNear.t {Φ : Ix → ℝ} {i m : Ix} {B : ℝ} (hB : 0 ≤ B) (d : Fin 3)
    (h : BoundedNear Φ i (m + Pi.single d (ceilHalf (p d) : ℤ)) B) : BoundedNear (latT ℝ (p d) d Φ) i m (21 / 20 * B) := by
  have := h.sweep hB d _ _ _ (wts_absSum (hp d)).2.1 (wts_t_len (hp d))
  norm_num at this
  exact this

theorem BoundedNear.l {Φ : Ix → ℝ} {i m : Ix} {B : ℝ} (hB : 0 ≤ B) (d : Fin 3)
    (h : BoundedNear Φ i (m + Pi.single d (ceilHalf (p d) : ℤ)) B) : BoundedNear (latL ℝ (p d) d Φ) i m (11 / 6 * B) := by
  have := h.sweep hB d _ _ _ (wts_absSum (hp d)).2.2.1 (wts_c_len (hp d) "l" (by simp))
  norm_num at this
  exact this

theorem BoundedNear.r {Φ : Ix → ℝ} {i m : Ix} {B : ℝ} (hB : 0 ≤ B) (d : Fin 3)
    (h : BoundedNear Φ i (m + Pi.single d (ceilHalf (p d) : ℤ)) B) : BoundedNear (latR ℝ (p d) d Φ) i m (11 / 6 * B) := by
  have := h.sweep hB d _ _ _ (wts_absSum (hp d)).2.2.2 (wts_c_len (hp d) "r" (by simp))
  norm_num at this
  exact this

theorem bounded_centers {α : Ix → ℝ} {i m : Ix} {B : ℝ} (hB : 0 ≤ B)
    (h : BoundedNear α i (fun d => m d + ceilHalf (p d)) B) : BoundedNear (latCenters ℝ p α) i m (64 / 27 * B) := by
  have h' : BoundedNear α i (m + Pi.single 2 (ceilHalf (p 2) : ℤ) + Pi.single 1 (ceilHalf (p 1) : ℤ) +
      Pi.single 0 (ceilHalf (p 0) : ℤ)) B := by
    refine h.mono fun d => ?_
    match d with
    | 0 => simp
    | 1 => simp
    | 2 => simp
  have := BoundedNear.c hp (by positivity) 2 (BoundedNear.c hp (by positivity) 1 (BoundedNear.c hp hB 0 h'))
  intro j hj
  refine (this j hj).trans (le_of_eq ?_)
  ring

theorem bounded_smoothed {α : Ix → ℝ} {i m : Ix} {B : ℝ} (hB : 0 ≤ B)
    (h : BoundedNear α i (fun d => m d + 2 * ceilHalf (p d)) B) :
    BoundedNear (smoothed ℝ p α) i m (64 / 27 * (9261 / 8000) * B) := by
  have h' := bounded_centers hp (m := m + Pi.single 2 (ceilHalf (p 2) : ℤ) + Pi.single 1 (ceilHalf (p 1) : ℤ) +
      Pi.single 0 (ceilHalf (p 0) : ℤ)) hB (by
    refine h.mono fun d => ?_
    match d with
    | 0 => simp; omega
    | 1 => simp; omega
    | 2 => simp; omega)
  have := BoundedNear.t hp (by positivity) 2 (BoundedNear.t hp (by positivity) 1 (BoundedNear.t hp (by positivity) 0 h'))
  intro j hj
  refine (this j hj).trans (le_of_eq ?_)
  ring

/-- The reach of the face values. -/
theorem bounded_face {α : Ix → ℝ} {i m : Ix} {B : ℝ} (hB : 0 ≤ B) (d : Fin 3) (b : Bool)
    (h : BoundedNear α i (fun e => m e + 3 * ceilHalf (p e)) B) : BoundedNear (faceVal ℝ p d b α) i m (9 * B) := by
  obtain ⟨o1, o2, q1, q2, eo, eq, h12, h1d, h2d, k12, k1d, k2d⟩ := orders d
  have hcov := cov3 d o1 o2 h12 h1d h2d
  have h1 := bounded_smoothed hp (m := m + Pi.single d (ceilHalf (p d) : ℤ) + Pi.single o2 (ceilHalf (p o2) : ℤ) +
      Pi.single o1 (ceilHalf (p o1) : ℤ)) hB (by
    refine h.mono fun e => ?_
    rcases hcov e with rfl | rfl | rfl
    · simp [h1d.symm, h2d.symm]; omega
    · simp [h12, h1d]; omega
    · simp [h12.symm, h2d]; omega)
  have h2 : BoundedNear (latLine ℝ p d (smoothed ℝ p α)) i (m + Pi.single d (ceilHalf (p d) : ℤ))
      (4 / 3 * (4 / 3 * (64 / 27 * (9261 / 8000) * B))) := by
    unfold latLine
    rw [eo]
    exact BoundedNear.c hp (by positivity) o2 (BoundedNear.c hp (by positivity) o1 h1)
  intro j hj
  unfold faceVal
  cases b with
  | true =>
    refine (BoundedNear.r hp (by positivity) d h2 j hj).trans ?_
    linarith
  | false =>
    refine (BoundedNear.l hp (by positivity) d h2 j hj).trans ?_
    linarith

theorem bounded_transported {α : Ix → ℝ} {i : Ix} {B : ℝ} (hB : 0 ≤ B) (d : Fin 3) (b : Bool)
    (h : BoundedNear α (i - if b = true then Pi.single d 1 else 0)
      (fun e => (if e = d then 3 else 4) * ceilHalf (p e)) B) : |transported ℝ p d b α i| ≤ 10 * B := by
  obtain ⟨o1, o2, q1, q2, eo, eq, h12, h1d, h2d, k12, k1d, k2d⟩ := orders d
  have hcov := cov3 d q1 q2 k12 k1d k2d
  have h1 := bounded_face hp (m := (0 : Ix) + Pi.single q2 (ceilHalf (p q2) : ℤ) + Pi.single q1 (ceilHalf (p q1) : ℤ)) hB d b (by
    refine h.mono fun e => ?_
    rcases hcov e with rfl | rfl | rfl
    · simp [k1d.symm, k2d.symm]
    · simp [k12, k1d]; omega
    · simp [k12.symm, k2d]; omega)
  have h2 : BoundedNear (faceDensity ℝ p d b α) i
      ((0 : Ix) + Pi.single q2 (ceilHalf (p q2) : ℤ) + Pi.single q1 (ceilHalf (p q1) : ℤ)) (9 * B) := by
    intro j hj
    refine h1 _ fun e => ?_
    have := hj e
    simpa using this
  unfold transported
  rw [eq]
  refine (BoundedNear.t hp (by positivity) q2 (BoundedNear.t hp (by positivity) q1 h2) i (by simp)).trans ?_
  linarith

end

/-! ## Linearity -/

section

variable {K : Type} [Field K] [LinearOrder K] [IsStrictOrderedRing K]

theorem lsweep_lin (d : Fin 3) (r : ℤ) (ws : List ℚ) (a b : K) (Φ Ψ : Ix → K) :
    lsweep K d r ws (fun i => a * Φ i + b * Ψ i) = fun i => a * lsweep K d r ws Φ i + b * lsweep K d r ws Ψ i := by
  funext i
  unfold lsweep
  rw [wsum_add]
  have h : ∀ (a : K) (Φ : Ix → K), wsum K ws (-r) (fun k => a * Φ (i + Pi.single d k)) =
      a * wsum K ws (-r) fun k => Φ (i + Pi.single d k) := fun a Φ => wsum_smul ws (-r) a _
  rw [h, h]

variable (p : Fin 3 → ℕ)

theorem latCenters_lin (a b : K) (Φ Ψ : Ix → K) : latCenters K p (fun i => a * Φ i + b * Ψ i) =
    fun i => a * latCenters K p Φ i + b * latCenters K p Ψ i := by
  unfold latCenters latC
  rw [lsweep_lin, lsweep_lin, lsweep_lin]

theorem smoothed_lin (a b : K) (Φ Ψ : Ix → K) : smoothed K p (fun i => a * Φ i + b * Ψ i) =
    fun i => a * smoothed K p Φ i + b * smoothed K p Ψ i := by
  unfold smoothed latT
  rw [latCenters_lin, lsweep_lin, lsweep_lin, lsweep_lin]

theorem faceVal_lin (d : Fin 3) (s : Bool) (a b : K) (Φ Ψ : Ix → K) : faceVal K p d s (fun i => a * Φ i + b * Ψ i) =
    fun i => a * faceVal K p d s Φ i + b * faceVal K p d s Ψ i := by
  unfold faceVal latLine latC
  rw [smoothed_lin, lsweep_lin, lsweep_lin]
  cases s with
  | true =>
    simp only [if_true]
    unfold latR
    rw [lsweep_lin]
  | false =>
    simp only [Bool.false_eq_true, if_false]
    unfold latL
    rw [lsweep_lin]

theorem transported_lin (d : Fin 3) (s : Bool) (a b : K) (Φ Ψ : Ix → K) :
    transported K p d s (fun i => a * Φ i + b * Ψ i) =
    fun i => a * transported K p d s Φ i + b * transported K p d s Ψ i := by
  unfold transported latT
  have : faceDensity K p d s (fun i => a * Φ i + b * Ψ i) =
      fun i => a * faceDensity K p d s Φ i + b * faceDensity K p d s Ψ i := by
    funext i
    unfold faceDensity
    rw [faceVal_lin]
  rw [this, lsweep_lin, lsweep_lin]

theorem transported_shift (d : Fin 3) (s : Bool) (Φ : Ix → K) (w : Ix) :
    transported K p d s (fun i => Φ (i + w)) = fun i => transported K p d s Φ (i + w) := by
  have h1 : smoothed K p (fun i => Φ (i + w)) = fun i => smoothed K p Φ (i + w) := by
    unfold smoothed latCenters latC latT
    simp only [lsweep_shift]
  have h2 : faceVal K p d s (fun i => Φ (i + w)) = fun i => faceVal K p d s Φ (i + w) := by
    unfold faceVal latLine latC latR latL
    rw [h1]
    cases s <;> simp [lsweep_shift]
  have h3 : faceDensity K p d s (fun i => Φ (i + w)) = fun i => faceDensity K p d s Φ (i + w) := by
    funext i
    unfold faceDensity
    rw [h2]
    dsimp only
    congr 1
    abel
  unfold transported latT
  rw [h3]
  simp only [lsweep_shift]

/-! ## Exactness on polynomial densities -/

variable {p}
variable (R : Density K) (x₀ h : Fin 3 → K) (hp : ∀ d, p d ≤ 8) (hR : R.HasDegree p) (hh : ∀ d, h d ≠ 0)
include hp hR hh

theorem centers_exact : latCenters K p (R.avg x₀ h) = R.stage x₀ h (fun _ => .mid) := by
  unfold latCenters
  rw [← stage_avg, stage_c R x₀ h hp hR hh _ 0 rfl, stage_c R x₀ h hp hR hh _ 1 (by simp),
    stage_c R x₀ h hp hR hh _ 2 (by simp)]
  congr 1
  decide

theorem smoothed_exact : smoothed K p (R.avg x₀ h) = R.avg x₀ h := by
  unfold smoothed
  rw [centers_exact R x₀ h hp hR hh, stage_t R x₀ h hp hR hh _ 0 rfl, stage_t R x₀ h hp hR hh _ 1 (by simp),
    stage_t R x₀ h hp hR hh _ 2 (by simp), ← stage_avg]
  congr 1
  decide

theorem face_exact (d : Fin 3) (s : Bool) (i : Ix) :
    faceDensity K p d s (R.avg x₀ h) i = R.stage x₀ h (faceMid d) i := by
  obtain ⟨o1, o2, q1, q2, eo, eq, h12, h1d, h2d, k12, k1d, k2d⟩ := orders d
  have hcov := cov3 d o1 o2 h12 h1d h2d
  have hline : latLine K p d (R.avg x₀ h) = R.stage x₀ h (fun e => if e = d then .avg else .mid) := by
    unfold latLine
    rw [eo]
    dsimp only
    rw [← stage_avg, stage_c R x₀ h hp hR hh _ o1 rfl, stage_c R x₀ h hp hR hh _ o2 (by simp [h12.symm])]
    congr 1
    funext e
    rcases hcov e with rfl | rfl | rfl
    · simp [h1d.symm, h2d.symm]
    · simp [h12, h1d]
    · simp [h2d]
  have hu : Function.update (fun e : Fin 3 => if e = d then Kind.avg else .mid) d .face = faceMid d := by
    funext e
    unfold faceMid
    by_cases he : e = d
    · subst he; simp
    · simp [he]
  unfold faceDensity faceVal
  rw [smoothed_exact R x₀ h hp hR hh, hline]
  cases s with
  | true =>
    simp only [if_true]
    rw [stage_r R x₀ h hp hR hh _ d (by simp), hu, sub_add_cancel]
  | false =>
    simp only [Bool.false_eq_true, if_false, sub_zero]
    rw [stage_l R x₀ h hp hR hh _ d (by simp), hu]

theorem transported_exact (d : Fin 3) (s : Bool) :
    transported K p d s (R.avg x₀ h) = R.stage x₀ h (faceAvg d) := by
  obtain ⟨o1, o2, q1, q2, eo, eq, h12, h1d, h2d, k12, k1d, k2d⟩ := orders d
  have hcov := cov3 d q1 q2 k12 k1d k2d
  unfold transported
  rw [show faceDensity K p d s (R.avg x₀ h) = R.stage x₀ h (faceMid d) from
    funext fun i => face_exact R x₀ h hp hR hh d s i, eq]
  dsimp only
  rw [stage_t R x₀ h hp hR hh _ q1 (by simp [faceMid, k1d]),
    stage_t R x₀ h hp hR hh _ q2 (by simp [faceMid, k2d, k12.symm])]
  congr 1
  funext e
  unfold faceMid faceAvg
  rcases hcov e with rfl | rfl | rfl
  · simp [k1d.symm, k2d.symm]
  · simp [k12, k1d]
  · simp [k2d]

end

/-! ## The means of a function close to a polynomial density -/

variable {np : ℕ}

/-- The points the right-hand side at cell `i` looks at. -/
def stencilBox (c : EulerConfig ℝ np) (x₀ : Fin 3 → ℝ) (i : Ix) : Set (Fin 3 → ℝ) :=
  {x | ∀ d, |x d - (x₀ d + ((i d : ℝ) + 1 / 2) * c.h d)| ≤ (reach c.scheme d + 1 / 2) * c.h d}

theorem cell_in_stencil (c : EulerConfig ℝ np) (hh : ∀ d, 0 < c.h d) (x₀ : Fin 3 → ℝ) (i j : Ix)
    (hj : ∀ d, |j d - i d| ≤ reach c.scheme d) : cellBox x₀ c.h j ⊆ stencilBox c x₀ i := by
  intro x hx d
  have h1 := hx.1 d
  have h2 := hx.2 d
  dsimp only at h1 h2
  have h3 := hj d
  rw [abs_le] at h3 ⊢
  have h4 : -(reach c.scheme d : ℝ) ≤ (j d : ℝ) - i d := by exact_mod_cast h3.1
  have h5 : (j d : ℝ) - i d ≤ reach c.scheme d := by exact_mod_cast h3.2
  have := hh d
  constructor <;> nlinarith

/-- A function close to a polynomial density has cell means close to its averages. -/
theorem means_close (c : EulerConfig ℝ np) (hh : ∀ d, 0 < c.h d) (x₀ : Fin 3 → ℝ) (i : Ix) {f : (Fin 3 → ℝ) → ℝ}
    (hf : Continuous f) (R : Density ℝ) (ε : ℝ) (hε : ∀ x ∈ stencilBox c x₀ i, |f x - R.at x| ≤ ε) :
    BoundedNear (fun j => 1 * cellMean x₀ c.h f j + (-1) * R.avg x₀ c.h j) i (fun d => reach c.scheme d) ε := by
  intro j hj
  have := cellMean_sub_le x₀ c.h hh hf R.continuous_at fun x hx => hε x (cell_in_stencil c hh x₀ i j hj hx)
  rw [cellMean_density R x₀ c.h hh] at this
  beta_reduce
  rw [one_mul, neg_one_mul, ← sub_eq_add_neg]
  exact this

end FVHOE
