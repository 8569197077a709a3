import Mathlib.Analysis.Calculus.MeanValue
import Mathlib.Analysis.Calculus.ContDiff.Basic
import Mathlib.Analysis.Calculus.ContDiff.FTaylorSeries
import Mathlib.Analysis.Calculus.ContDiff.Comp
import Mathlib.MeasureTheory.Integral.IntervalIntegral.Basic
import Mathlib.Topology.MetricSpace.ProperSpace.Real
import Verif.Proofs.BoxShift

/-! Conservative schemes tested with smooth functions: how far a run is from the weak form of a conservation law. -/

set_option linter.unusedSectionVars false

open MeasureTheory Set Filter Topology

namespace FVHOE

/-! ### Difference quotients of a test function -/

/-- Points of the time interval and of the box enlarged to twice its size. -/
def testRegion (ℓ : Fin 3 → ℝ) (T : ℝ) : Set (ℝ × (Fin 3 → ℝ)) := Icc 0 T ×ˢ Icc (fun d => -ℓ d) ℓ

theorem testRegion_convex (ℓ : Fin 3 → ℝ) (T : ℝ) : Convex ℝ (testRegion ℓ T) := (convex_Icc _ _).prod (convex_Icc _ _)

theorem testRegion_compact (ℓ : Fin 3 → ℝ) (T : ℝ) : IsCompact (testRegion ℓ T) := isCompact_Icc.prod isCompact_Icc

theorem test_bound (ℓ : Fin 3 → ℝ) (T : ℝ) {φ : ℝ × (Fin 3 → ℝ) → ℝ} (hφ : ContDiff ℝ 2 φ) :
    ∃ M ≥ 0, (∀ z ∈ testRegion ℓ T, ‖fderiv ℝ φ z‖ ≤ M) ∧
      ∀ z ∈ testRegion ℓ T, ∀ y ∈ testRegion ℓ T, ‖fderiv ℝ φ y - fderiv ℝ φ z‖ ≤ M * ‖y - z‖ := by
  have h1 : ContDiff ℝ 1 (fderiv ℝ φ) := hφ.fderiv_right (by norm_num)
  obtain ⟨M1, hM1⟩ := (testRegion_compact ℓ T).exists_bound_of_continuousOn h1.continuous.continuousOn
  obtain ⟨M2, hM2⟩ := (testRegion_compact ℓ T).exists_bound_of_continuousOn (h1.continuous_fderiv (by norm_num)).continuousOn
  refine ⟨max 0 (max M1 M2), le_max_left _ _, fun z hz => (hM1 z hz).trans ((le_max_left _ _).trans (le_max_right _ _)), ?_⟩
  intro z hz y hy
  refine Convex.norm_image_sub_le_of_norm_fderiv_le (fun w _ => (h1.differentiable (by norm_num)) w) (fun w hw => ?_)
    (testRegion_convex ℓ T) hz hy
  exact (hM2 w hw).trans ((le_max_right _ _).trans (le_max_right _ _))

section

variable {ℓ : Fin 3 → ℝ} {T : ℝ} {φ : ℝ × (Fin 3 → ℝ) → ℝ} {M : ℝ}

/-- A difference quotient along a unit direction is close to the derivative at any point near the segment. -/
theorem quotient_near (hφ : Differentiable ℝ φ) (hM0 : 0 ≤ M) (hM1 : ∀ z ∈ testRegion ℓ T, ‖fderiv ℝ φ z‖ ≤ M)
    (hM : ∀ z ∈ testRegion ℓ T, ∀ y ∈ testRegion ℓ T, ‖fderiv ℝ φ y - fderiv ℝ φ z‖ ≤ M * ‖y - z‖)
    {z w v : ℝ × (Fin 3 → ℝ)} {r ρ : ℝ} (hr : 0 < r) (hv : ‖v‖ ≤ 1) (hz : z ∈ testRegion ℓ T)
    (hz' : z + r • v ∈ testRegion ℓ T) (hw : w ∈ testRegion ℓ T) (h1 : ‖z - w‖ ≤ ρ) (h2 : ‖z + r • v - w‖ ≤ ρ) :
    |(φ (z + r • v) - φ z) / r| ≤ M ∧ |(φ (z + r • v) - φ z) / r - fderiv ℝ φ w v| ≤ M * ρ := by
  have hsub : segment ℝ z (z + r • v) ⊆ testRegion ℓ T := (testRegion_convex ℓ T).segment_subset hz hz'
  have hnorm : ‖z + r • v - z‖ ≤ r := by
    rw [add_sub_cancel_left, norm_smul, Real.norm_of_nonneg hr.le]
    exact mul_le_of_le_one_right hr.le hv
  constructor
  · have := Convex.norm_image_sub_le_of_norm_fderiv_le (f := φ) (𝕜 := ℝ) (fun y _ => hφ y) (fun y hy => hM1 y (hsub hy))
      (convex_segment z (z + r • v)) (left_mem_segment ℝ _ _) (right_mem_segment ℝ _ _)
    rw [abs_div, abs_of_pos hr, div_le_iff₀ hr]
    exact this.trans (mul_le_mul_of_nonneg_left hnorm hM0)
  · have hball : segment ℝ z (z + r • v) ⊆ Metric.closedBall w ρ :=
      (convex_closedBall w ρ).segment_subset (by rwa [mem_closedBall_iff_norm]) (by rwa [mem_closedBall_iff_norm])
    have hρ : 0 ≤ ρ := (norm_nonneg _).trans h1
    have := Convex.norm_image_sub_le_of_norm_fderiv_le' (f := φ) (𝕜 := ℝ) (φ := fderiv ℝ φ w) (C := M * ρ) (fun y _ => hφ y)
      (fun y hy => (hM w hw y (hsub hy)).trans
        (mul_le_mul_of_nonneg_left (by rw [← mem_closedBall_iff_norm]; exact hball hy) hM0))
      (convex_segment z (z + r • v)) (left_mem_segment ℝ _ _) (right_mem_segment ℝ _ _)
    rw [add_sub_cancel_left, map_smul, smul_eq_mul] at this
    have e : (φ (z + r • v) - φ z) / r - fderiv ℝ φ w v = (φ (z + r • v) - φ z - r * fderiv ℝ φ w v) / r := by
      field_simp
    rw [e, abs_div, abs_of_pos hr, div_le_iff₀ hr]
    refine this.trans (mul_le_mul_of_nonneg_left ?_ (mul_nonneg hM0 hρ))
    rw [norm_smul, Real.norm_of_nonneg hr.le]
    exact mul_le_of_le_one_right hr.le hv

/-- The time derivative of a test function. -/
noncomputable def timeD (φ : ℝ × (Fin 3 → ℝ) → ℝ) (z : ℝ × (Fin 3 → ℝ)) : ℝ := fderiv ℝ φ z (1, 0)

/-- The derivative of a test function along direction `d` of space. -/
noncomputable def spaceD (d : Fin 3) (φ : ℝ × (Fin 3 → ℝ) → ℝ) (z : ℝ × (Fin 3 → ℝ)) : ℝ := fderiv ℝ φ z (0, Pi.single d 1)

theorem box_in_region (hℓ : ∀ d, 0 < ℓ d) {x : Fin 3 → ℝ} (hx : x ∈ sideBox ℓ) {d : Fin 3} {a : ℝ} (ha : 0 ≤ a) (ha' : a ≤ ℓ d) :
    x - Pi.single d a ∈ Icc (fun d => -ℓ d) ℓ := by
  constructor
  · intro e
    have := hx e
    have := hℓ e
    by_cases h : e = d
    · subst h
      simp only [Pi.sub_apply, Pi.single_eq_same]
      linarith
    · simp only [Pi.sub_apply, Pi.single_eq_of_ne h]
      linarith
  · intro e
    have := hx e
    by_cases h : e = d
    · subst h
      simp only [Pi.sub_apply, Pi.single_eq_same]
      linarith
    · simp only [Pi.sub_apply, Pi.single_eq_of_ne h]
      linarith

theorem time_quotient (hℓ : ∀ d, 0 < ℓ d) (hφ : Differentiable ℝ φ) (hM0 : 0 ≤ M)
    (hM1 : ∀ z ∈ testRegion ℓ T, ‖fderiv ℝ φ z‖ ≤ M)
    (hM : ∀ z ∈ testRegion ℓ T, ∀ y ∈ testRegion ℓ T, ‖fderiv ℝ φ y - fderiv ℝ φ z‖ ≤ M * ‖y - z‖)
    {t t' s : ℝ} (h0 : 0 ≤ t) (htt : t < t') (hT : t' ≤ T) (hs : s ∈ Icc t t') {x : Fin 3 → ℝ} (hx : x ∈ sideBox ℓ) :
    |(φ (t', x) - φ (t, x)) / (t' - t)| ≤ M ∧
      |(φ (t', x) - φ (t, x)) / (t' - t) - timeD φ (s, x)| ≤ M * (t' - t) := by
  have hx' : x ∈ Icc (fun d => -ℓ d) ℓ := by
    have := box_in_region hℓ hx (d := 0) le_rfl (hℓ 0).le
    simpa using this
  have e : ((t, x) : ℝ × (Fin 3 → ℝ)) + (t' - t) • ((1, 0) : ℝ × (Fin 3 → ℝ)) = (t', x) := by
    ext1
    · simp
    · simp
  have k := quotient_near (z := (t, x)) (w := (s, x)) (v := (1, 0)) (ρ := t' - t) hφ hM0 hM1 hM (sub_pos.2 htt) (by simp [Prod.norm_def])
    ⟨⟨h0, by linarith⟩, hx'⟩ (by rw [e]; exact ⟨⟨by linarith, hT⟩, hx'⟩) ⟨⟨by linarith [hs.1], by linarith [hs.2]⟩, hx'⟩
    (by
      rw [Prod.mk_sub_mk, sub_self, Prod.norm_def, norm_zero, Real.norm_eq_abs]
      exact max_le (abs_le.2 ⟨by linarith [hs.2], by linarith [hs.1]⟩) (by linarith))
    (by
      rw [e, Prod.mk_sub_mk, sub_self, Prod.norm_def, norm_zero, Real.norm_eq_abs]
      exact max_le (abs_le.2 ⟨by linarith [hs.2], by linarith [hs.1]⟩) (by linarith))
  rw [e] at k
  exact k

theorem space_quotient (hℓ : ∀ d, 0 < ℓ d) (hφ : Differentiable ℝ φ) (hM0 : 0 ≤ M)
    (hM1 : ∀ z ∈ testRegion ℓ T, ‖fderiv ℝ φ z‖ ≤ M)
    (hM : ∀ z ∈ testRegion ℓ T, ∀ y ∈ testRegion ℓ T, ‖fderiv ℝ φ y - fderiv ℝ φ z‖ ≤ M * ‖y - z‖)
    {t t' s : ℝ} (h0 : 0 ≤ t) (htt : t < t') (hT : t' ≤ T) (hs : s ∈ Icc t t') {x : Fin 3 → ℝ} (hx : x ∈ sideBox ℓ)
    {d : Fin 3} {a : ℝ} (ha : 0 < a) (ha' : a ≤ ℓ d) :
    |(φ (t', x) - φ (t', x - Pi.single d a)) / a| ≤ M ∧
      |(φ (t', x) - φ (t', x - Pi.single d a)) / a - spaceD d φ (s, x)| ≤ M * (t' - t + a) := by
  have hx' : x ∈ Icc (fun d => -ℓ d) ℓ := by
    have := box_in_region hℓ hx (d := 0) le_rfl (hℓ 0).le
    simpa using this
  have hs1 : Pi.single d a = a • (Pi.single d 1 : Fin 3 → ℝ) := by
    rw [← Pi.single_smul, smul_eq_mul, mul_one]
  have e : ((t', x - Pi.single d a) : ℝ × (Fin 3 → ℝ)) + a • ((0, Pi.single d 1) : ℝ × (Fin 3 → ℝ)) = (t', x) := by
    rw [Prod.smul_mk, ← hs1]
    ext1
    · simp
    · simp
  have ht : |t' - s| ≤ t' - t + a := abs_le.2 ⟨by linarith [hs.2], by linarith [hs.1]⟩
  have k := quotient_near (z := (t', x - Pi.single d a)) (w := (s, x)) (v := (0, Pi.single d 1)) (ρ := t' - t + a) hφ hM0 hM1 hM ha
    (by rw [Prod.norm_def, norm_zero, Pi.norm_single, norm_one]; exact max_le zero_le_one le_rfl)
    ⟨⟨by linarith, hT⟩, box_in_region hℓ hx ha.le ha'⟩ (by rw [e]; exact ⟨⟨by linarith, hT⟩, hx'⟩)
    ⟨⟨by linarith [hs.1], by linarith [hs.2]⟩, hx'⟩
    (by
      rw [Prod.mk_sub_mk, Prod.norm_def, Real.norm_eq_abs]
      refine max_le ht ?_
      rw [sub_right_comm, sub_self, zero_sub, norm_neg, Pi.norm_single, Real.norm_of_nonneg ha.le]
      linarith)
    (by
      rw [e, Prod.mk_sub_mk, sub_self, Prod.norm_def, norm_zero, Real.norm_eq_abs]
      exact max_le ht (by linarith))
  rw [e] at k
  exact k

end

/-! ### One conservative step -/

/-- The vector with `σ d` grid spacings along direction `d`. -/
def latShift (h : Fin 3 → ℝ) (σ : Fin 3 → ℤ) : Fin 3 → ℝ := fun d => σ d * h d

/-- A function on the box that is bounded and measurable is integrable there. -/
theorem integrable_box {ℓ : Fin 3 → ℝ} {F : (Fin 3 → ℝ) → ℝ} (hF : Measurable F) {C : ℝ} (hC : ∀ x ∈ sideBox ℓ, |F x| ≤ C) :
    IntegrableOn F (sideBox ℓ) :=
  Measure.integrableOn_of_bounded (volume_sideBox_lt_top ℓ).ne hF.aestronglyMeasurable
    ((ae_restrict_iff' (measurableSet_sideBox ℓ)).2 (ae_of_all _ hC))

section

variable {ι : Type} [Fintype ι]

/-- One step of a conservative scheme: fields `u`, `u'` before and after, numerical fluxes `g`, fluxes `f` of the
equations, states in `K`. The numerical flux differs from the flux of any state of `K` by no more than `L` times the
distances of the values within the stencil `S` from that state. The update is in conservation form at the points of `Ω`. -/
structure ConsStep (ℓ h : Fin 3 → ℝ) (A : Finset (Fin 3)) (K : Set (ι → ℝ)) (f : Fin 3 → (ι → ℝ) → ι → ℝ)
    (S : Finset (Fin 3 → ℤ)) (Ω : Set (Fin 3 → ℝ)) (L τ : ℝ) (u u' : (Fin 3 → ℝ) → ι → ℝ) (g : Fin 3 → (Fin 3 → ℝ) → ι → ℝ) : Prop where
  meas : Measurable u
  periodic : BoxPeriodic ℓ u
  mem : ∀ x, u x ∈ K
  gmeas : ∀ d ∈ A, Measurable (g d)
  gperiodic : ∀ d ∈ A, BoxPeriodic ℓ (g d)
  step : ∀ x ∈ Ω, u' x = u x + τ • ∑ d ∈ A, (-(1 / h d)) • (g d (x + Pi.single d (h d)) - g d x)
  consistent : ∀ d ∈ A, ∀ x, ∀ k ∈ K, ‖g d x - f d k‖ ≤ L * ∑ σ ∈ S, ‖u (x + latShift h σ) - k‖

variable {ℓ h : Fin 3 → ℝ} {A : Finset (Fin 3)} {K : Set (ι → ℝ)} {f : Fin 3 → (ι → ℝ) → ι → ℝ}
  {S : Finset (Fin 3 → ℤ)} {Ω : Set (Fin 3 → ℝ)} {L B T M : ℝ} {φ : ℝ × (Fin 3 → ℝ) → ℝ} {u u' : (Fin 3 → ℝ) → ι → ℝ}
  {g : Fin 3 → (Fin 3 → ℝ) → ι → ℝ} {t t' : ℝ}

theorem ConsStep.gbound {τ : ℝ} (H : ConsStep ℓ h A K f S Ω L τ u u' g) (hL : 0 ≤ L) (hB : ∀ k ∈ K, ‖k‖ ≤ B ∧ ∀ d, ‖f d k‖ ≤ B) {d : Fin 3}
    (hd : d ∈ A) (x : Fin 3 → ℝ) : ‖g d x‖ ≤ L * (S.card * (2 * B)) + B := by
  have h1 := H.consistent d hd x _ (H.mem x)
  have h2 : ∑ σ ∈ S, ‖u (x + latShift h σ) - u x‖ ≤ S.card * (2 * B) := by
    rw [← nsmul_eq_mul]
    refine Finset.sum_le_card_nsmul _ _ _ fun σ _ => ?_
    have := norm_sub_le (u (x + latShift h σ)) (u x)
    linarith [(hB _ (H.mem (x + latShift h σ))).1, (hB _ (H.mem x)).1]
  have h3 := mul_le_mul_of_nonneg_left h2 hL
  have h4 := (hB _ (H.mem x)).2 d
  have h5 := norm_sub_norm_le (g d x) (f d (u x))
  linarith

/-- What one step does to the pairing with the test function. -/
theorem ConsStep.pairing (H : ConsStep ℓ h A K f S Ω L (t' - t) u u' g) (hL : 0 ≤ L)
    (hB : ∀ k ∈ K, ‖k‖ ≤ B ∧ ∀ d, ‖f d k‖ ≤ B) (hℓ : ∀ d, 0 < ℓ d) (hh : ∀ d ∈ A, 0 < h d) (htt : t < t') (hφ : Continuous φ)
    (hper : BoxPeriodic ℓ fun x => φ (t', x)) (hΩ : ∀ x ∈ sideBox ℓ, x ∉ Ω → φ (t', x) = 0) (v : ι) :
    (∫ x in sideBox ℓ, u' x v * φ (t', x)) - ∫ x in sideBox ℓ, u x v * φ (t, x) =
      (t' - t) * ∫ x in sideBox ℓ, (u x v * ((φ (t', x) - φ (t, x)) / (t' - t)) +
        ∑ d ∈ A, g d x v * ((φ (t', x) - φ (t', x - Pi.single d (h d))) / h d)) := by
  -- continuous functions are bounded on the box
  have cb : ∀ F : (Fin 3 → ℝ) → ℝ, Continuous F → ∃ C, ∀ x ∈ sideBox ℓ, |F x| ≤ C := by
    intro F hF
    obtain ⟨C, hC⟩ := (isCompact_Icc (a := (0 : Fin 3 → ℝ)) (b := ℓ)).exists_bound_of_continuousOn hF.continuousOn
    exact ⟨C, fun x hx => hC x ⟨fun d => (hx d).1, fun d => (hx d).2.le⟩⟩
  have um : ∀ w : (Fin 3 → ℝ) → ι → ℝ, Measurable w → Measurable fun x => w x v := fun w hw => (measurable_pi_apply v).comp hw
  have prodI : ∀ (w : (Fin 3 → ℝ) → ι → ℝ) (C : ℝ), Measurable w → (∀ x, ‖w x‖ ≤ C) → ∀ F : (Fin 3 → ℝ) → ℝ, Continuous F →
      IntegrableOn (fun x => w x v * F x) (sideBox ℓ) := by
    intro w C hw hC F hF
    obtain ⟨D, hD⟩ := cb F hF
    refine integrable_box (C := C * D) ((um w hw).mul hF.measurable) fun x hx => ?_
    rw [abs_mul]
    exact mul_le_mul ((norm_le_pi_norm (w x) v).trans (hC x)) (hD x hx) (abs_nonneg _) ((norm_nonneg _).trans (hC x))
  have hφ' : ∀ s, Continuous fun x : Fin 3 → ℝ => φ (s, x) := fun s => hφ.comp (by fun_prop)
  have hφd : ∀ d, Continuous fun x : Fin 3 → ℝ => φ (t', x - Pi.single d (h d)) := fun d => hφ.comp (by fun_prop)
  have ub : ∀ x, ‖u x‖ ≤ B := fun x => (hB _ (H.mem x)).1
  have gb := fun d (hd : d ∈ A) x => H.gbound hL hB hd x
  have hτ : t' - t ≠ 0 := (sub_pos.2 htt).ne'
  -- the integrals of the parts
  have i1 := prodI u B H.meas ub _ (hφ' t')
  have i2 := prodI u B H.meas ub _ (hφ' t)
  have i3 : ∀ d ∈ A, IntegrableOn (fun x => g d x v * φ (t', x)) (sideBox ℓ) := fun d hd => prodI _ _ (H.gmeas d hd) (gb d hd) _ (hφ' t')
  have i4 : ∀ d ∈ A, IntegrableOn (fun x => g d x v * φ (t', x - Pi.single d (h d))) (sideBox ℓ) := fun d hd =>
    prodI _ _ (H.gmeas d hd) (gb d hd) _ (hφd d)
  have i5 : ∀ d ∈ A, IntegrableOn (fun x => g d (x + Pi.single d (h d)) v * φ (t', x)) (sideBox ℓ) := fun d hd =>
    prodI (fun x => g d (x + Pi.single d (h d))) _ ((H.gmeas d hd).comp (by fun_prop)) (fun x => gb d hd _) _ (hφ' t')
  have sh : ∀ d ∈ A, ∫ x in sideBox ℓ, g d (x + Pi.single d (h d)) v * φ (t', x) =
      ∫ x in sideBox ℓ, g d x v * φ (t', x - Pi.single d (h d)) := by
    intro d hd
    have := box_shift hℓ (P := fun x => g d x v * φ (t', x - Pi.single d (h d))) (fun e x => by
      beta_reduce
      rw [H.gperiodic d hd e x, add_sub_right_comm]
      exact congrArg _ (hper e _)) (Pi.single d (h d))
    simp only [add_sub_cancel_right] at this
    exact this
  have e1 : ∀ x ∈ sideBox ℓ, u' x v * φ (t', x) = u x v * φ (t', x) + ∑ d ∈ A, (t' - t) * (-(1 / h d)) *
      (g d (x + Pi.single d (h d)) v * φ (t', x) - g d x v * φ (t', x)) := by
    intro x hx
    by_cases hxΩ : x ∈ Ω
    swap
    · simp [hΩ x hx hxΩ]
    rw [H.step x hxΩ]
    simp only [Pi.add_apply, Pi.smul_apply, smul_eq_mul, Finset.sum_apply, Pi.sub_apply]
    rw [add_mul, Finset.mul_sum, Finset.sum_mul]
    congr 1
    refine Finset.sum_congr rfl fun d _ => ?_
    ring
  have e2 : ∀ x, u x v * ((φ (t', x) - φ (t, x)) / (t' - t)) +
        ∑ d ∈ A, g d x v * ((φ (t', x) - φ (t', x - Pi.single d (h d))) / h d) =
      (t' - t)⁻¹ * (u x v * φ (t', x) - u x v * φ (t, x)) +
        ∑ d ∈ A, (h d)⁻¹ * (g d x v * φ (t', x) - g d x v * φ (t', x - Pi.single d (h d))) := by
    intro x
    congr 1
    · rw [div_eq_mul_inv]; ring
    · refine Finset.sum_congr rfl fun d _ => ?_
      rw [div_eq_mul_inv]; ring
  have j1 : ∀ d ∈ A, IntegrableOn (fun x => (t' - t) * (-(1 / h d)) *
      (g d (x + Pi.single d (h d)) v * φ (t', x) - g d x v * φ (t', x))) (sideBox ℓ) := fun d hd =>
    ((i5 d hd).sub (i3 d hd)).const_mul _
  have j2 : ∀ d ∈ A, IntegrableOn (fun x => (h d)⁻¹ * (g d x v * φ (t', x) - g d x v * φ (t', x - Pi.single d (h d))))
      (sideBox ℓ) := fun d hd => ((i3 d hd).sub (i4 d hd)).const_mul _
  have j3 : IntegrableOn (fun x => (t' - t)⁻¹ * (u x v * φ (t', x) - u x v * φ (t, x))) (sideBox ℓ) := (i1.sub i2).const_mul _
  rw [setIntegral_congr_fun (measurableSet_sideBox ℓ) e1]
  simp only [e2]
  rw [integral_add i1 (integrable_finsetSum _ j1), integral_finsetSum _ j1, integral_add j3 (integrable_finsetSum _ j2),
    integral_finsetSum _ j2, integral_const_mul, integral_sub i1 i2, mul_add,
    Finset.mul_sum, ← mul_assoc, mul_inv_cancel₀ hτ, one_mul, add_sub_right_comm]
  congr 1
  refine Finset.sum_congr rfl fun d hd => ?_
  rw [integral_const_mul, integral_const_mul, integral_sub (i5 d hd) (i3 d hd), integral_sub (i3 d hd) (i4 d hd), sh d hd]
  have := (hh d hd).ne'
  field_simp
  ring

/-- The integrand of the weak form for a state `k` at the point `z`. -/
noncomputable def weakTerm (A : Finset (Fin 3)) (f : Fin 3 → (ι → ℝ) → ι → ℝ) (φ : ℝ × (Fin 3 → ℝ) → ℝ) (v : ι) (k : ι → ℝ)
    (z : ℝ × (Fin 3 → ℝ)) : ℝ := k v * timeD φ z + ∑ d ∈ A, f d k v * spaceD d φ z

theorem continuous_timeD (hφ : ContDiff ℝ 2 φ) : Continuous (timeD φ) :=
  (hφ.continuous_fderiv (by norm_num)).clm_apply continuous_const

theorem continuous_spaceD (hφ : ContDiff ℝ 2 φ) (d : Fin 3) : Continuous (spaceD d φ) :=
  (hφ.continuous_fderiv (by norm_num)).clm_apply continuous_const

theorem weakTerm_measurable (hφ : ContDiff ℝ 2 φ) (hf : ∀ d, Measurable (f d)) (v : ι) {X : Type*} [MeasurableSpace X] {U : X → ι → ℝ}
    (hU : Measurable U) {z : X → ℝ × (Fin 3 → ℝ)} (hz : Measurable z) :
    Measurable fun x => weakTerm A f φ v (U x) (z x) := by
  unfold weakTerm
  refine (((measurable_pi_apply v).comp hU).mul ((continuous_timeD hφ).measurable.comp hz)).add
    (Finset.measurable_fun_sum _ fun d _ => ?_)
  exact ((measurable_pi_apply v).comp ((hf d).comp hU)).mul ((continuous_spaceD hφ d).measurable.comp hz)

theorem weakTerm_le (hM1 : ∀ z ∈ testRegion ℓ T, ‖fderiv ℝ φ z‖ ≤ M) (hB : ∀ k ∈ K, ‖k‖ ≤ B ∧ ∀ d, ‖f d k‖ ≤ B)
    (v : ι) {k : ι → ℝ} (hk : k ∈ K) {z : ℝ × (Fin 3 → ℝ)} (hz : z ∈ testRegion ℓ T) :
    |weakTerm A f φ v k z| ≤ B * M + A.card * (B * M) := by
  have hM := hM1 z hz
  have hM0 : 0 ≤ M := (norm_nonneg _).trans hM
  have n1 : ∀ w : ℝ × (Fin 3 → ℝ), ‖w‖ ≤ 1 → |fderiv ℝ φ z w| ≤ M := fun w hw =>
    ((fderiv ℝ φ z).le_opNorm w).trans ((mul_le_of_le_one_right (norm_nonneg _) hw).trans hM)
  have hB0 : 0 ≤ B := (norm_nonneg _).trans (hB k hk).1
  have p : ∀ (w : ι → ℝ) (r : ℝ), ‖w‖ ≤ B → |r| ≤ M → |w v * r| ≤ B * M := fun w r hw hr => by
    rw [abs_mul]
    exact mul_le_mul ((norm_le_pi_norm w v).trans hw) hr (abs_nonneg _) hB0
  unfold weakTerm
  refine (abs_add_le _ _).trans (add_le_add (p _ _ (hB k hk).1 (n1 _ (by simp [Prod.norm_def]))) ?_)
  refine (Finset.abs_sum_le_sum_abs _ _).trans ?_
  rw [← nsmul_eq_mul]
  refine Finset.sum_le_card_nsmul _ _ _ fun d _ => p _ _ ((hB k hk).2 d) (n1 _ ?_)
  rw [Prod.norm_def, norm_zero, Pi.norm_single, norm_one]
  exact max_le zero_le_one le_rfl

/-- At any time of the step, the pairing differs from the weak form of a field `V` by the distance of the fields, the
change of `V` over the stencil, and the sizes of the step and of the cells. -/
theorem ConsStep.close (H : ConsStep ℓ h A K f S Ω L (t' - t) u u' g) (hL : 0 ≤ L)
    (hB : ∀ k ∈ K, ‖k‖ ≤ B ∧ ∀ d, ‖f d k‖ ≤ B) (hf : ∀ d, Measurable (f d)) (hℓ : ∀ d, 0 < ℓ d)
    (hh : ∀ d ∈ A, 0 < h d ∧ h d ≤ ℓ d) (h0 : 0 ≤ t) (htt : t < t') (hT : t' ≤ T) (hφ : ContDiff ℝ 2 φ) (hM0 : 0 ≤ M)
    (hM1 : ∀ z ∈ testRegion ℓ T, ‖fderiv ℝ φ z‖ ≤ M)
    (hM : ∀ z ∈ testRegion ℓ T, ∀ y ∈ testRegion ℓ T, ‖fderiv ℝ φ y - fderiv ℝ φ z‖ ≤ M * ‖y - z‖)
    {V : (Fin 3 → ℝ) → ι → ℝ} (hVm : Measurable V) (hVp : BoxPeriodic ℓ V) (hVK : ∀ x, V x ∈ K) {s : ℝ} (hs : s ∈ Icc t t') (v : ι) :
    |(∫ x in sideBox ℓ, (u x v * ((φ (t', x) - φ (t, x)) / (t' - t)) +
        ∑ d ∈ A, g d x v * ((φ (t', x) - φ (t', x - Pi.single d (h d))) / h d))) -
      ∫ x in sideBox ℓ, weakTerm A f φ v (V x) (s, x)| ≤
    (M + M * L * A.card * S.card) * (∫ x in sideBox ℓ, ‖u x - V x‖) +
      M * L * A.card * (∑ σ ∈ S, ∫ x in sideBox ℓ, ‖V (x + latShift h σ) - V x‖) +
      volume.real (sideBox ℓ) * (B * M * ((t' - t) + ∑ d ∈ A, ((t' - t) + h d))) := by
  have hφd := hφ.differentiable (by norm_num)
  have hφc := hφ.continuous
  have hQx : ∀ x ∈ sideBox ℓ, ((s, x) : ℝ × (Fin 3 → ℝ)) ∈ testRegion ℓ T := fun x hx =>
    ⟨⟨h0.trans hs.1, hs.2.trans hT⟩, by simpa using box_in_region hℓ hx (d := 0) le_rfl (hℓ 0).le⟩
  have hB0 : 0 ≤ B := (norm_nonneg _).trans (hB _ (hVK 0)).1
  have ub : ∀ x, ‖u x‖ ≤ B := fun x => (hB _ (H.mem x)).1
  have vb : ∀ x, ‖V x‖ ≤ B := fun x => (hB _ (hVK x)).1
  have gb := fun d (hd : d ∈ A) x => H.gbound hL hB hd x
  have tq := fun x (hx : x ∈ sideBox ℓ) => time_quotient hℓ hφd hM0 hM1 hM h0 htt hT hs hx
  have sq := fun x (hx : x ∈ sideBox ℓ) d (hd : d ∈ A) => space_quotient hℓ hφd hM0 hM1 hM h0 htt hT hs hx (hh d hd).1 (hh d hd).2
  have ev : ∀ w : (Fin 3 → ℝ) → ι → ℝ, Measurable w → Measurable fun x => w x v := fun w hw => (measurable_pi_apply v).comp hw
  have p : ∀ (w : ι → ℝ) (r C D : ℝ), ‖w‖ ≤ C → |r| ≤ D → |w v * r| ≤ C * D := fun w r C D hw hr => by
    rw [abs_mul]
    exact mul_le_mul ((norm_le_pi_norm w v).trans hw) hr (abs_nonneg _) ((norm_nonneg _).trans hw)
  -- integrability
  have I1 : IntegrableOn (fun x => u x v * ((φ (t', x) - φ (t, x)) / (t' - t)) +
      ∑ d ∈ A, g d x v * ((φ (t', x) - φ (t', x - Pi.single d (h d))) / h d)) (sideBox ℓ) := by
    refine integrable_box (C := B * M + A.card * ((L * (S.card * (2 * B)) + B) * M)) ?_ fun x hx => ?_
    · refine ((ev u H.meas).mul (Continuous.measurable (by fun_prop))).add (Finset.measurable_fun_sum _ fun d hd => ?_)
      exact (ev _ (H.gmeas d hd)).mul (Continuous.measurable (by fun_prop))
    · refine (abs_add_le _ _).trans (add_le_add (p _ _ _ _ (ub x) (tq x hx).1) ?_)
      refine (Finset.abs_sum_le_sum_abs _ _).trans ?_
      rw [← nsmul_eq_mul]
      exact Finset.sum_le_card_nsmul _ _ _ fun d hd => p _ _ _ _ (gb d hd x) (sq x hx d hd).1
  have I2 : IntegrableOn (fun x => weakTerm A f φ v (V x) (s, x)) (sideBox ℓ) :=
    integrable_box (weakTerm_measurable hφ hf v hVm (by fun_prop)) fun x hx => weakTerm_le hM1 hB v (hVK x) (hQx x hx)
  have nb : ∀ w w' : ι → ℝ, ‖w‖ ≤ B → ‖w'‖ ≤ B → |‖w - w'‖| ≤ B + B := fun w w' h1 h2 => by
    rw [abs_of_nonneg (norm_nonneg _)]
    exact (norm_sub_le _ _).trans (add_le_add h1 h2)
  have I3 : IntegrableOn (fun x => ‖u x - V x‖) (sideBox ℓ) :=
    integrable_box (H.meas.sub hVm).norm fun x _ => nb _ _ (ub x) (vb x)
  have I4 : ∀ a, IntegrableOn (fun x => ‖u (x + a) - V x‖) (sideBox ℓ) := fun a =>
    integrable_box ((H.meas.comp (by fun_prop)).sub hVm).norm fun x _ => nb _ _ (ub _) (vb x)
  have I5 : ∀ a, IntegrableOn (fun x => ‖V (x + a) - V x‖) (sideBox ℓ) := fun a =>
    integrable_box ((hVm.comp (by fun_prop)).sub hVm).norm fun x _ => nb _ _ (vb _) (vb x)
  have I6 : ∀ a, IntegrableOn (fun x => ‖u (x + a) - V (x + a)‖) (sideBox ℓ) := fun a =>
    integrable_box ((H.meas.comp (by fun_prop)).sub (hVm.comp (by fun_prop))).norm fun x _ => nb _ _ (ub _) (vb _)
  -- pointwise
  have key : ∀ x ∈ sideBox ℓ, |(u x v * ((φ (t', x) - φ (t, x)) / (t' - t)) +
        ∑ d ∈ A, g d x v * ((φ (t', x) - φ (t', x - Pi.single d (h d))) / h d)) - weakTerm A f φ v (V x) (s, x)| ≤
      M * ‖u x - V x‖ + M * L * A.card * (∑ σ ∈ S, ‖u (x + latShift h σ) - V x‖) +
        B * M * ((t' - t) + ∑ d ∈ A, ((t' - t) + h d)) := by
    intro x hx
    obtain ⟨a1, a2⟩ := tq x hx
    have e : (u x v * ((φ (t', x) - φ (t, x)) / (t' - t)) +
        ∑ d ∈ A, g d x v * ((φ (t', x) - φ (t', x - Pi.single d (h d))) / h d)) - weakTerm A f φ v (V x) (s, x) =
      ((u x - V x) v * ((φ (t', x) - φ (t, x)) / (t' - t)) + V x v * ((φ (t', x) - φ (t, x)) / (t' - t) - timeD φ (s, x))) +
        ∑ d ∈ A, ((g d x - f d (V x)) v * ((φ (t', x) - φ (t', x - Pi.single d (h d))) / h d) +
          f d (V x) v * ((φ (t', x) - φ (t', x - Pi.single d (h d))) / h d - spaceD d φ (s, x))) := by
      unfold weakTerm
      rw [add_sub_add_comm, ← Finset.sum_sub_distrib]
      simp only [Pi.sub_apply]
      congr 1
      · ring
      · exact Finset.sum_congr rfl fun d _ => by ring
    rw [e]
    refine (abs_add_le _ _).trans ?_
    have b1 := (abs_add_le _ _).trans (add_le_add (p (u x - V x) _ _ _ le_rfl a1) (p (V x) _ _ _ (vb x) a2))
    have b2 : |∑ d ∈ A, ((g d x - f d (V x)) v * ((φ (t', x) - φ (t', x - Pi.single d (h d))) / h d) +
          f d (V x) v * ((φ (t', x) - φ (t', x - Pi.single d (h d))) / h d - spaceD d φ (s, x)))| ≤
        ∑ d ∈ A, (M * L * (∑ σ ∈ S, ‖u (x + latShift h σ) - V x‖) + B * M * ((t' - t) + h d)) := by
      refine (Finset.abs_sum_le_sum_abs _ _).trans (Finset.sum_le_sum fun d hd => ?_)
      obtain ⟨c1, c2⟩ := sq x hx d hd
      refine (abs_add_le _ _).trans (add_le_add ?_ ?_)
      · refine (p _ _ _ _ (H.consistent d hd x _ (hVK x)) c1).trans (le_of_eq (by ring))
      · exact (p _ _ _ _ ((hB _ (hVK x)).2 d) c2).trans (le_of_eq (by ring))
    have b3 : ∑ d ∈ A, (M * L * (∑ σ ∈ S, ‖u (x + latShift h σ) - V x‖) + B * M * ((t' - t) + h d)) =
        A.card * (M * L * (∑ σ ∈ S, ‖u (x + latShift h σ) - V x‖)) + B * M * ∑ d ∈ A, ((t' - t) + h d) := by
      rw [Finset.sum_add_distrib, Finset.sum_const, nsmul_eq_mul, ← Finset.mul_sum]
    refine (add_le_add b1 (b2.trans (le_of_eq b3))).trans (le_of_eq (by ring))
  -- integrate
  rw [← integral_sub I1 I2]
  refine (abs_integral_le_integral_abs).trans ?_
  have J1 : IntegrableOn (fun x => M * ‖u x - V x‖) (sideBox ℓ) := I3.const_mul _
  have J2 : IntegrableOn (fun x => M * L * A.card * (∑ σ ∈ S, ‖u (x + latShift h σ) - V x‖)) (sideBox ℓ) :=
    (integrable_finsetSum _ fun σ _ => I4 _).const_mul _
  have J12 : IntegrableOn (fun x => M * ‖u x - V x‖ + M * L * A.card * (∑ σ ∈ S, ‖u (x + latShift h σ) - V x‖)) (sideBox ℓ) := J1.add J2
  have J3 : IntegrableOn (fun _ : Fin 3 → ℝ => B * M * ((t' - t) + ∑ d ∈ A, ((t' - t) + h d))) (sideBox ℓ) :=
    integrableOn_const (volume_sideBox_lt_top ℓ).ne
  refine (setIntegral_mono_on (I1.sub I2).abs (J12.add J3) (measurableSet_sideBox ℓ) key).trans ?_
  simp only [Pi.add_apply]
  rw [integral_add J12 J3, integral_add J1 J2, integral_const_mul, integral_const_mul, integral_finsetSum _ fun σ _ => I4 _,
    setIntegral_const, smul_eq_mul]
  have hshift : ∀ σ ∈ S, ∫ x in sideBox ℓ, ‖u (x + latShift h σ) - V x‖ ≤
      (∫ x in sideBox ℓ, ‖u x - V x‖) + ∫ x in sideBox ℓ, ‖V (x + latShift h σ) - V x‖ := by
    intro σ _
    have q := box_shift hℓ (P := fun x => ‖u x - V x‖) (fun d x => by beta_reduce; rw [H.periodic d x, hVp d x]) (latShift h σ)
    rw [← q, ← integral_add (I6 _) (I5 _)]
    refine setIntegral_mono_on (I4 _) ((I6 _).add (I5 _)) (measurableSet_sideBox ℓ) fun x _ => ?_
    have := norm_add_le (u (x + latShift h σ) - V (x + latShift h σ)) (V (x + latShift h σ) - V x)
    rwa [sub_add_sub_cancel] at this
  have hsum := (Finset.sum_le_sum hshift).trans (le_of_eq Finset.sum_add_distrib)
  rw [Finset.sum_const, nsmul_eq_mul] at hsum
  have := mul_le_mul_of_nonneg_left hsum (show 0 ≤ M * L * A.card by positivity)
  have e : (M + M * L * A.card * S.card) * (∫ x in sideBox ℓ, ‖u x - V x‖) = M * (∫ x in sideBox ℓ, ‖u x - V x‖) +
    M * L * A.card * (S.card * ∫ x in sideBox ℓ, ‖u x - V x‖) := by ring
  rw [e]
  linarith

/-! ### Whole runs -/

/-- A bounded measurable function of time is integrable. -/
theorem integrable_time {F : ℝ → ℝ} (hF : Measurable F) {a b C : ℝ} (hab : a ≤ b) (hC : ∀ s ∈ Icc a b, |F s| ≤ C) :
    IntervalIntegrable F volume a b := by
  rw [intervalIntegrable_iff_integrableOn_Ioc_of_le hab]
  refine Measure.integrableOn_of_bounded (by simp) hF.aestronglyMeasurable
    ((ae_restrict_iff' measurableSet_Ioc).2 (ae_of_all _ fun s hs => hC s ⟨hs.1.le, hs.2⟩))

theorem measurable_boxIntegral {F : ℝ × (Fin 3 → ℝ) → ℝ} (hF : Measurable F) : Measurable fun s => ∫ x in sideBox ℓ, F (s, x) :=
  (hF.stronglyMeasurable.integral_prod_right' (ν := volume.restrict (sideBox ℓ))).measurable

theorem boxIntegral_le {F : (Fin 3 → ℝ) → ℝ} {C : ℝ} (hC : ∀ x ∈ sideBox ℓ, |F x| ≤ C) :
    |∫ x in sideBox ℓ, F x| ≤ C * volume.real (sideBox ℓ) :=
  norm_setIntegral_le_of_norm_le_const (f := F) (volume_sideBox_lt_top ℓ) fun x hx => hC x hx

variable {N : ℕ} {tm : ℕ → ℝ} {us : ℕ → (Fin 3 → ℝ) → ι → ℝ} {gs : ℕ → Fin 3 → (Fin 3 → ℝ) → ι → ℝ}
  {U : ℝ × (Fin 3 → ℝ) → ι → ℝ}

/-- The distance of a run from a field: over every step, the distance of the state before the step. -/
noncomputable def runDistance (ℓ : Fin 3 → ℝ) (N : ℕ) (tm : ℕ → ℝ) (us : ℕ → (Fin 3 → ℝ) → ι → ℝ) (U : ℝ × (Fin 3 → ℝ) → ι → ℝ) : ℝ :=
  ∑ m ∈ Finset.range N, ∫ s in tm m..tm (m + 1), ∫ x in sideBox ℓ, ‖us m x - U (s, x)‖

theorem times_mem (h0 : tm 0 = 0) (hN : tm N = T) (hlt : ∀ m < N, tm m < tm (m + 1)) {m : ℕ} (hm : m ≤ N) :
    0 ≤ tm m ∧ tm m ≤ T := by
  constructor
  · induction m with
    | zero => exact h0.ge
    | succ m ih => exact (ih (by omega)).trans (hlt m (by omega)).le
  · have h1 : ∀ j, m ≤ j → j ≤ N → tm m ≤ tm j := by
      intro j hj
      induction j, hj using Nat.le_induction with
      | base => intro _; exact le_rfl
      | succ j hj ih => intro hjn; exact (ih (by omega)).trans (hlt j (by omega)).le
    rw [← hN]
    exact h1 N hm le_rfl

theorem run_estimate (h0 : tm 0 = 0) (hN : tm N = T) (hlt : ∀ m < N, tm m < tm (m + 1))
    (H : ∀ m < N, ConsStep ℓ h A K f S Ω L (tm (m + 1) - tm m) (us m) (us (m + 1)) (gs m)) (hL : 0 ≤ L)
    (hB : ∀ k ∈ K, ‖k‖ ≤ B ∧ ∀ d, ‖f d k‖ ≤ B) (hf : ∀ d, Measurable (f d)) (hℓ : ∀ d, 0 < ℓ d)
    (hh : ∀ d ∈ A, 0 < h d ∧ h d ≤ ℓ d) (hφ : ContDiff ℝ 2 φ) (hper : ∀ s, BoxPeriodic ℓ fun x => φ (s, x))
    (hend : ∀ x, φ (T, x) = 0) (hΩ : ∀ s, ∀ x ∈ sideBox ℓ, x ∉ Ω → φ (s, x) = 0) (hM0 : 0 ≤ M) (hM1 : ∀ z ∈ testRegion ℓ T, ‖fderiv ℝ φ z‖ ≤ M)
    (hM : ∀ z ∈ testRegion ℓ T, ∀ y ∈ testRegion ℓ T, ‖fderiv ℝ φ y - fderiv ℝ φ z‖ ≤ M * ‖y - z‖)
    (hUm : Measurable U) (hUp : ∀ s, BoxPeriodic ℓ fun x => U (s, x)) (hUK : ∀ z, U z ∈ K) {δ : ℝ}
    (hδ : ∀ m < N, tm (m + 1) - tm m ≤ δ) (v : ι) :
    |(∫ x in sideBox ℓ, us 0 x v * φ (0, x)) + ∫ s in (0 : ℝ)..T, ∫ x in sideBox ℓ, weakTerm A f φ v (U (s, x)) (s, x)| ≤
      (M + M * L * A.card * S.card) * runDistance ℓ N tm us U +
        M * L * A.card * (∫ s in (0 : ℝ)..T, ∑ σ ∈ S, ∫ x in sideBox ℓ, ‖U (s, x + latShift h σ) - U (s, x)‖) +
        volume.real (sideBox ℓ) * (B * M * (δ + ∑ d ∈ A, (δ + h d))) * T := by
  have hvol : 0 ≤ volume.real (sideBox ℓ) := measureReal_nonneg
  have hB0 : 0 ≤ B := (norm_nonneg _).trans (hB _ (hUK 0)).1
  have ht : ∀ m ≤ N, 0 ≤ tm m ∧ tm m ≤ T := fun m hm => times_mem h0 hN hlt hm
  have UB : ∀ z, ‖U z‖ ≤ B := fun z => (hB _ (hUK z)).1
  obtain ⟨W, hW⟩ : ∃ W : ℝ → ℝ, W = fun s => ∫ x in sideBox ℓ, weakTerm A f φ v (U (s, x)) (s, x) := ⟨_, rfl⟩
  obtain ⟨ω, hω⟩ : ∃ ω : ℝ → ℝ, ω = fun s => ∑ σ ∈ S, ∫ x in sideBox ℓ, ‖U (s, x + latShift h σ) - U (s, x)‖ := ⟨_, rfl⟩
  obtain ⟨e, he⟩ : ∃ e : ℕ → ℝ → ℝ, e = fun m s => ∫ x in sideBox ℓ, ‖us m x - U (s, x)‖ := ⟨_, rfl⟩
  -- integrability in time
  have Wm : Measurable W := by
    rw [hW]
    exact measurable_boxIntegral (F := fun z => weakTerm A f φ v (U z) z) (weakTerm_measurable hφ hf v hUm measurable_id)
  have ωm : Measurable ω := by
    rw [hω]
    refine Finset.measurable_fun_sum _ fun σ _ => measurable_boxIntegral (F := fun z => ‖U (z.1, z.2 + latShift h σ) - U z‖) ?_
    exact ((hUm.comp (by fun_prop)).sub hUm).norm
  have em : ∀ m < N, Measurable (e m) := fun m hm => by
    rw [he]
    exact measurable_boxIntegral (F := fun z => ‖us m z.2 - U z‖) (((H m hm).meas.comp measurable_snd).sub hUm).norm
  have nb : ∀ w w' : ι → ℝ, ‖w‖ ≤ B → ‖w'‖ ≤ B → |‖w - w'‖| ≤ B + B := fun w w' h1 h2 => by
    rw [abs_of_nonneg (norm_nonneg _)]
    exact (norm_sub_le _ _).trans (add_le_add h1 h2)
  have WI : ∀ a b, 0 ≤ a → a ≤ b → b ≤ T → IntervalIntegrable W volume a b := fun a b ha hab hb =>
    integrable_time Wm hab (C := (B * M + A.card * (B * M)) * volume.real (sideBox ℓ)) fun s hs => by
      rw [hW]
      refine boxIntegral_le fun x hx => weakTerm_le hM1 hB v (hUK _) ?_
      exact ⟨⟨ha.trans hs.1, hs.2.trans hb⟩, by simpa using box_in_region hℓ hx (d := 0) le_rfl (hℓ 0).le⟩
  have ωI : ∀ a b, a ≤ b → IntervalIntegrable ω volume a b := fun a b hab =>
    integrable_time ωm hab (C := S.card * ((B + B) * volume.real (sideBox ℓ))) fun s hs => by
      rw [hω]
      refine (Finset.abs_sum_le_sum_abs _ _).trans ?_
      rw [← nsmul_eq_mul]
      exact Finset.sum_le_card_nsmul _ _ _ fun σ _ => boxIntegral_le fun x _ => nb _ _ (UB _) (UB _)
  have eI : ∀ m < N, ∀ a b, a ≤ b → IntervalIntegrable (e m) volume a b := fun m hm a b hab =>
    integrable_time (em m hm) hab (C := (B + B) * volume.real (sideBox ℓ)) fun s hs => by
      rw [he]
      exact boxIntegral_le fun x _ => nb _ _ (hB _ ((H m hm).mem x)).1 (UB _)
  -- one step
  obtain ⟨Y, hY⟩ : ∃ Y : ℕ → ℝ, Y = fun m => ∫ x in sideBox ℓ, us m x v * φ (tm m, x) := ⟨_, rfl⟩
  obtain ⟨κ, hκ⟩ : ∃ κ, κ = volume.real (sideBox ℓ) * (B * M * (δ + ∑ d ∈ A, (δ + h d))) := ⟨_, rfl⟩
  have step : ∀ m < N, |Y (m + 1) - Y m - ∫ s in tm m..tm (m + 1), W s| ≤
      (M + M * L * A.card * S.card) * (∫ s in tm m..tm (m + 1), e m s) +
        M * L * A.card * (∫ s in tm m..tm (m + 1), ω s) + κ * (tm (m + 1) - tm m) := by
    intro m hm
    have h1 := ht m (by omega)
    have h2 := ht (m + 1) (by omega)
    have hle := (hlt m hm).le
    have P := (H m hm).pairing hL hB hℓ (fun d hd => (hh d hd).1) (hlt m hm) hφ.continuous (hper _) (hΩ _) v
    obtain ⟨q, hq⟩ : ∃ q, q = ∫ x in sideBox ℓ, (us m x v * ((φ (tm (m + 1), x) - φ (tm m, x)) / (tm (m + 1) - tm m)) +
        ∑ d ∈ A, gs m d x v * ((φ (tm (m + 1), x) - φ (tm (m + 1), x - Pi.single d (h d))) / h d)) := ⟨_, rfl⟩
    rw [← hq] at P
    have e1 : Y (m + 1) - Y m - ∫ s in tm m..tm (m + 1), W s = ∫ s in tm m..tm (m + 1), (q - W s) := by
      rw [intervalIntegral.integral_sub (by simp) (WI _ _ h1.1 hle h2.2), intervalIntegral.integral_const, smul_eq_mul, ← P, hY]
    rw [e1]
    have J1 := (eI m hm _ _ hle).const_mul (M + M * L * A.card * S.card)
    have J2 := (ωI _ _ hle).const_mul (M * L * A.card)
    have J3 : IntervalIntegrable (fun _ : ℝ => κ) volume (tm m) (tm (m + 1)) := by simp
    have J4 : IntervalIntegrable (fun s => (M + M * L * A.card * S.card) * e m s + M * L * A.card * ω s) volume (tm m) (tm (m + 1)) :=
      J1.add J2
    have key := intervalIntegral.norm_integral_le_of_norm_le (f := fun s => q - W s)
      (g := fun s => (M + M * L * A.card * S.card) * e m s + M * L * A.card * ω s + κ) hle (ae_of_all _ fun s hs => by
        have k := (H m hm).close hL hB hf hℓ hh h1.1 (hlt m hm) h2.2 hφ hM0 hM1 hM (V := fun x => U (s, x)) (hUm.comp (by fun_prop))
          (hUp s) (fun x => hUK _) (s := s) ⟨hs.1.le, hs.2⟩ v
        rw [← hq] at k
        rw [Real.norm_eq_abs, hW, he, hω]
        refine k.trans (add_le_add le_rfl ?_)
        rw [hκ]
        refine mul_le_mul_of_nonneg_left (mul_le_mul_of_nonneg_left ?_ (mul_nonneg hB0 hM0)) hvol
        exact add_le_add (hδ m hm) (Finset.sum_le_sum fun d _ => by linarith [hδ m hm])) (J4.add J3)
    rw [intervalIntegral.integral_add J4 J3, intervalIntegral.integral_add J1 J2, intervalIntegral.integral_const_mul,
      intervalIntegral.integral_const_mul, intervalIntegral.integral_const, smul_eq_mul] at key
    rw [Real.norm_eq_abs] at key
    linarith
  -- all steps
  have total := (Finset.abs_sum_le_sum_abs (fun m => Y (m + 1) - Y m - ∫ s in tm m..tm (m + 1), W s) (Finset.range N)).trans
    (Finset.sum_le_sum fun m hm => step m (Finset.mem_range.1 hm))
  rw [Finset.sum_sub_distrib, Finset.sum_range_sub,
    intervalIntegral.sum_integral_adjacent_intervals fun m hm => WI _ _ (ht m (by omega)).1 (hlt m hm).le (ht (m + 1) (by omega)).2,
    Finset.sum_add_distrib, Finset.sum_add_distrib, ← Finset.mul_sum, ← Finset.mul_sum, ← Finset.mul_sum, Finset.sum_range_sub,
    intervalIntegral.sum_integral_adjacent_intervals fun m hm => ωI _ _ (hlt m hm).le, h0, hN, sub_zero] at total
  have yN : Y N = 0 := by
    rw [hY]
    beta_reduce
    rw [hN]
    simp [hend]
  have y0 : Y 0 = ∫ x in sideBox ℓ, us 0 x v * φ (0, x) := by
    rw [hY]
    beta_reduce
    rw [h0]
  have hrd : runDistance ℓ N tm us U = ∑ m ∈ Finset.range N, ∫ s in tm m..tm (m + 1), e m s := by
    rw [he]
    rfl
  have hWt : ∫ s in (0 : ℝ)..T, ∫ x in sideBox ℓ, weakTerm A f φ v (U (s, x)) (s, x) = ∫ s in (0 : ℝ)..T, W s := by rw [hW]
  have hωt : (∫ s in (0 : ℝ)..T, ∑ σ ∈ S, ∫ x in sideBox ℓ, ‖U (s, x + latShift h σ) - U (s, x)‖) = ∫ s in (0 : ℝ)..T, ω s := by
    rw [hω]
  rw [hrd, hWt, hωt, ← y0, ← hκ]
  rw [yN, zero_sub, ← neg_add', abs_neg] at total
  exact total

/-- Over a grid that is refined the change of a field over the stencil vanishes in the mean. -/
theorem stencil_mean {hs : ℕ → Fin 3 → ℝ} (hlim : ∀ d ∈ A, Tendsto (fun k => hs k d) atTop (𝓝 0))
    (hS : ∀ σ ∈ S, ∀ d, d ∉ A → σ d = 0) (hUm : Measurable U) (hUB : ∀ z, ‖U z‖ ≤ B) (T : ℝ) :
    Tendsto (fun k => ∫ s in (0 : ℝ)..T, ∑ σ ∈ S, ∫ x in sideBox ℓ, ‖U (s, x + latShift (hs k) σ) - U (s, x)‖) atTop (𝓝 0) := by
  have nb : ∀ w w' : ι → ℝ, ‖w‖ ≤ B → ‖w'‖ ≤ B → |‖w - w'‖| ≤ B + B := fun w w' h1 h2 => by
    rw [abs_of_nonneg (norm_nonneg _)]
    exact (norm_sub_le _ _).trans (add_le_add h1 h2)
  have key := intervalIntegral.tendsto_integral_filter_of_dominated_convergence (a := 0) (b := T) (μ := volume) (l := atTop)
    (F := fun k s => ∑ σ ∈ S, ∫ x in sideBox ℓ, ‖U (s, x + latShift (hs k) σ) - U (s, x)‖) (f := fun _ => (0 : ℝ))
    (fun _ => S.card * ((B + B) * volume.real (sideBox ℓ)))
    (Eventually.of_forall fun k => ?_) (Eventually.of_forall fun k => ae_of_all _ fun s _ => ?_) (by simp) (ae_of_all _ fun s _ => ?_)
  · simpa using key
  · refine Measurable.aestronglyMeasurable (Finset.measurable_fun_sum _ fun σ _ =>
      measurable_boxIntegral (F := fun z => ‖U (z.1, z.2 + latShift (hs k) σ) - U z‖) ?_)
    exact ((hUm.comp (by fun_prop)).sub hUm).norm
  · rw [Real.norm_eq_abs]
    refine (Finset.abs_sum_le_sum_abs _ _).trans ?_
    rw [← nsmul_eq_mul]
    exact Finset.sum_le_card_nsmul _ _ _ fun σ _ => boxIntegral_le fun x _ => nb _ _ (hUB _) (hUB _)
  · rw [show (0 : ℝ) = ∑ σ ∈ S, (0 : ℝ) by simp]
    refine tendsto_finsetSum _ fun σ hσ => ?_
    refine shift_mean (V := fun x => U (s, x)) (hUm.comp (by fun_prop)) (fun x => hUB _) ?_
    rw [tendsto_pi_nhds]
    intro d
    by_cases hd : d ∈ A
    · have := (hlim d hd).const_mul (σ d : ℝ)
      simpa [latShift] using this
    · simp [latShift, hS σ hσ d hd]

/-- **Lax and Wendroff.** If the runs of a scheme on ever finer grids, consistent and conservative where the test function is
not zero, converge in the mean to a field, the field satisfies the weak form of the conservation law with the limit of the initial states. -/
theorem weak_limit {hs : ℕ → Fin 3 → ℝ} {Ns : ℕ → ℕ} {tms : ℕ → ℕ → ℝ} {uss : ℕ → ℕ → (Fin 3 → ℝ) → ι → ℝ}
    {gss : ℕ → ℕ → Fin 3 → (Fin 3 → ℝ) → ι → ℝ} {U₀ : (Fin 3 → ℝ) → ι → ℝ} {δ : ℕ → ℝ}
    {Ωs : ℕ → Set (Fin 3 → ℝ)} (hT : 0 < T)
    (h0 : ∀ k, tms k 0 = 0) (hN : ∀ k, tms k (Ns k) = T) (hlt : ∀ k, ∀ m < Ns k, tms k m < tms k (m + 1))
    (H : ∀ k, ∀ m < Ns k, ConsStep ℓ (hs k) A K f S (Ωs k) L (tms k (m + 1) - tms k m) (uss k m) (uss k (m + 1)) (gss k m)) (hL : 0 ≤ L)
    (hB : ∀ k ∈ K, ‖k‖ ≤ B ∧ ∀ d, ‖f d k‖ ≤ B) (hf : ∀ d, Measurable (f d)) (hℓ : ∀ d, 0 < ℓ d)
    (hh : ∀ k, ∀ d ∈ A, 0 < hs k d ∧ hs k d ≤ ℓ d) (hS : ∀ σ ∈ S, ∀ d, d ∉ A → σ d = 0)
    (hUm : Measurable U) (hUp : ∀ s, BoxPeriodic ℓ fun x => U (s, x)) (hUK : ∀ z, U z ∈ K)
    (hU₀m : Measurable U₀) (hU₀K : ∀ x, U₀ x ∈ K)
    (hδ : ∀ k, ∀ m < Ns k, tms k (m + 1) - tms k m ≤ δ k) (hδ0 : Tendsto δ atTop (𝓝 0))
    (hhlim : ∀ d ∈ A, Tendsto (fun k => hs k d) atTop (𝓝 0))
    (hinit : Tendsto (fun k => ∫ x in sideBox ℓ, ‖uss k 0 x - U₀ x‖) atTop (𝓝 0))
    (hdist : Tendsto (fun k => runDistance ℓ (Ns k) (tms k) (uss k) U) atTop (𝓝 0))
    (hφ : ContDiff ℝ 2 φ) (hper : ∀ s, BoxPeriodic ℓ fun x => φ (s, x)) (hend : ∀ x, φ (T, x) = 0)
    (hΩ : ∀ k s, ∀ x ∈ sideBox ℓ, x ∉ Ωs k → φ (s, x) = 0) (v : ι) :
    (∫ x in sideBox ℓ, U₀ x v * φ (0, x)) + ∫ s in (0 : ℝ)..T, ∫ x in sideBox ℓ, weakTerm A f φ v (U (s, x)) (s, x) = 0 := by
  obtain ⟨M, hM0, hM1, hM⟩ := test_bound ℓ T hφ
  have hNpos : ∀ k, 0 < Ns k := fun k => Nat.pos_of_ne_zero fun e => by
    have := hN k
    rw [e, h0] at this
    exact hT.ne this
  obtain ⟨C, hC⟩ : ∃ C, ∀ x ∈ sideBox ℓ, |φ (0, x)| ≤ C := by
    obtain ⟨C, hC⟩ := (isCompact_Icc (a := (0 : Fin 3 → ℝ)) (b := ℓ)).exists_bound_of_continuousOn
      (hφ.continuous.comp (show Continuous fun x : Fin 3 → ℝ => ((0 : ℝ), x) by fun_prop)).continuousOn
    exact ⟨C, fun x hx => hC x ⟨fun d => (hx d).1, fun d => (hx d).2.le⟩⟩
  have hφ0 : Measurable fun x : Fin 3 → ℝ => φ (0, x) := (hφ.continuous.comp (by fun_prop)).measurable
  -- the initial pairings converge
  have pI : ∀ w : (Fin 3 → ℝ) → ι → ℝ, Measurable w → (∀ x, ‖w x‖ ≤ B) → IntegrableOn (fun x => w x v * φ (0, x)) (sideBox ℓ) :=
    fun w hw hwB => integrable_box (C := B * C) (((measurable_pi_apply v).comp hw).mul hφ0) fun x hx => by
      rw [abs_mul]
      exact mul_le_mul ((norm_le_pi_norm (w x) v).trans (hwB x)) (hC x hx) (abs_nonneg _) ((norm_nonneg _).trans (hwB x))
  have init : Tendsto (fun k => ∫ x in sideBox ℓ, uss k 0 x v * φ (0, x)) atTop (𝓝 (∫ x in sideBox ℓ, U₀ x v * φ (0, x))) := by
    rw [tendsto_iff_dist_tendsto_zero]
    refine squeeze_zero (fun _ => dist_nonneg) (fun k => ?_) (by simpa using hinit.mul_const C)
    have H0 := H k 0 (hNpos k)
    rw [Real.dist_eq, ← integral_sub (pI _ H0.meas fun x => (hB _ (H0.mem x)).1) (pI _ hU₀m fun x => (hB _ (hU₀K x)).1),
      ← integral_mul_const]
    refine abs_integral_le_integral_abs.trans ?_
    refine setIntegral_mono_on ((pI _ H0.meas fun x => (hB _ (H0.mem x)).1).sub (pI _ hU₀m fun x => (hB _ (hU₀K x)).1)).abs
      ((integrable_box (C := B + B) (H0.meas.sub hU₀m).norm fun x _ => ?_).mul_const C) (measurableSet_sideBox ℓ) fun x hx => ?_
    · rw [abs_of_nonneg (norm_nonneg _)]
      exact (norm_sub_le _ _).trans (add_le_add (hB _ (H0.mem x)).1 (hB _ (hU₀K x)).1)
    · rw [← sub_mul, abs_mul]
      exact mul_le_mul (norm_le_pi_norm (uss k 0 x - U₀ x) v) (hC x hx) (abs_nonneg _) (norm_nonneg _)
  have est := fun k => run_estimate (h0 k) (hN k) (hlt k) (H k) hL hB hf hℓ (hh k) hφ hper hend (hΩ k) hM0 hM1 hM hUm hUp hUK (hδ k) v
  have hst := stencil_mean (ℓ := ℓ) hhlim hS hUm (fun z => (hB _ (hUK z)).1) T
  have small : Tendsto (fun k => volume.real (sideBox ℓ) * (B * M * (δ k + ∑ d ∈ A, (δ k + hs k d))) * T) atTop (𝓝 0) := by
    have : Tendsto (fun k => δ k + ∑ d ∈ A, (δ k + hs k d)) atTop (𝓝 (0 + ∑ d ∈ A, ((0 : ℝ) + 0))) :=
      hδ0.add (tendsto_finsetSum _ fun d hd => hδ0.add (hhlim d hd))
    have := ((this.const_mul (B * M)).const_mul (volume.real (sideBox ℓ))).mul_const T
    simpa using this
  have bound := ((hdist.const_mul (M + M * L * A.card * S.card)).add (hst.const_mul (M * L * A.card))).add small
  simp only [mul_zero, add_zero] at bound
  have lim := (init.add_const (∫ s in (0 : ℝ)..T, ∫ x in sideBox ℓ, weakTerm A f φ v (U (s, x)) (s, x))).abs
  have := squeeze_zero (fun k => abs_nonneg _) est bound
  exact abs_eq_zero.1 (tendsto_nhds_unique lim this)

end

end FVHOE
