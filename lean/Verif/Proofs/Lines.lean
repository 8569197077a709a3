import Mathlib.Analysis.ODE.ExistUnique
import Verif.Proofs.LinesLip
import Verif.Proofs.RKRuns

/-!
The semi-discrete equations: the slopes as a vector field on the values in the cells, its solutions, and one step along them.
-/

set_option linter.unusedSectionVars false

namespace FVHOE

open Topology Set NNReal

section Field

variable {E : Type} [NormedAddCommGroup E] [NormedSpace ℝ E]

/-- Near a compact set of points where `f` is locally Lipschitz continuous one constant serves all. -/
theorem exists_steady {f : E → E} {s : Set E} (hs : IsCompact s) (h : ∀ p ∈ s, LipAt f p) :
    ∃ M δ, 1 ≤ M ∧ 0 < δ ∧ Steady f s M δ := by
  refine hs.induction_on (p := fun s => ∃ M δ, 1 ≤ M ∧ 0 < δ ∧ Steady f s M δ) ⟨1, 1, le_rfl, one_pos, fun p hp => hp.elim⟩ ?_ ?_ ?_
  · rintro s t hst ⟨M, δ, hM, hδ, h⟩
    exact ⟨M, δ, hM, hδ, fun p hp => h p (hst hp)⟩
  · rintro s t ⟨M, δ, hM, hδ, h⟩ ⟨M', δ', hM', hδ', h'⟩
    refine ⟨max M M', min δ δ', hM.trans (le_max_left _ _), lt_min hδ hδ', ?_⟩
    rintro p (hp | hp) q q' hq hq'
    · obtain ⟨k1, k2⟩ := h p hp q q' (hq.trans (min_le_left _ _)) (hq'.trans (min_le_left _ _))
      exact ⟨k1.trans (le_max_left _ _), k2.trans (mul_le_mul_of_nonneg_right (le_max_left _ _) (norm_nonneg _))⟩
    · obtain ⟨k1, k2⟩ := h' p hp q q' (hq.trans (min_le_right _ _)) (hq'.trans (min_le_right _ _))
      exact ⟨k1.trans (le_max_right _ _), k2.trans (mul_le_mul_of_nonneg_right (le_max_right _ _) (norm_nonneg _))⟩
  · intro x hx
    have hc := (h x hx).continuousAt
    obtain ⟨L, U, hU, hL⟩ := h x hx
    have hn := Filter.inter_mem hU (hc.norm.eventually_lt continuousAt_const (show ‖f x‖ < ‖f x‖ + 1 by linarith))
    obtain ⟨ε, hε, hb⟩ := Metric.mem_nhds_iff.1 hn
    refine ⟨Metric.ball x (ε / 2), mem_nhdsWithin_of_mem_nhds (Metric.ball_mem_nhds x (by linarith)), max 1 (max (L : ℝ) (‖f x‖ + 1)),
      ε / 4, le_max_left _ _, by linarith, fun p hp q q' hq hq' => ?_⟩
    have near : ∀ q : E, ‖q - p‖ ≤ ε / 4 → q ∈ Metric.ball x ε := by
      intro q hq
      have := dist_triangle q p x
      rw [dist_eq_norm q p] at this
      have hp' : dist p x < ε / 2 := hp
      rw [Metric.mem_ball]
      linarith
    obtain ⟨q1, q2⟩ := hb (near q hq)
    obtain ⟨q1', -⟩ := hb (near q' hq')
    have q2 : ‖f q‖ < ‖f x‖ + 1 := q2
    refine ⟨(q2.le.trans (le_max_right _ _)).trans (le_max_right _ _), ?_⟩
    have := hL.dist_le_mul q q1 q' q1'
    rw [dist_eq_norm, dist_eq_norm] at this
    exact this.trans (mul_le_mul_of_nonneg_right ((le_max_left _ _).trans (le_max_right _ _)) (norm_nonneg _))

/-- One step along a solution of an equation with locally Lipschitz continuous right-hand side. -/
theorem steady_step {f : E → E} {T : ℝ} {y : ℝ → E} {M δ : ℝ} (hM : 1 ≤ M) (hδ : 0 < δ) (steady : Steady f (y '' Icc 0 T) M δ)
    (hs : ∀ t ∈ Icc 0 T, HasDerivWithinAt y (f (y t)) (Icc 0 T) t) (m : Integrator) (t h : ℝ) (t0 : 0 ≤ t) (h0 : 0 ≤ h)
    (hη : h ≤ δ / M) (hT : t + h ≤ T) : ‖advanceBy f m h (y t) - y (t + h)‖ ≤ 2 * M ^ 2 * h ^ (1 + 1) := by
  have hM0 : 0 < M := by linarith
  rw [le_div_iff₀ hM0] at hη
  have ht : t ∈ Icc 0 T := ⟨t0, by linarith⟩
  have h1 := advance_euler hM (fun q hq => steady q (by rw [mem_singleton_iff.1 hq]; exact mem_image_of_mem y ht)) m h0 hη
  have here : ∀ s ∈ Icc 0 T, ‖f (y s)‖ ≤ M := fun s hs =>
    (steady (y s) (mem_image_of_mem y hs) (y s) (y s) (by rw [sub_self, norm_zero]; exact hδ.le)
      (by rw [sub_self, norm_zero]; exact hδ.le)).1
  have hd : ∀ s ∈ Icc t (t + h), ‖y s - y t‖ ≤ M * h := fun s hs' => by
    have hsI : s ∈ Icc 0 T := ⟨t0.trans hs'.1, hs'.2.trans hT⟩
    have := (convex_Icc 0 T).norm_image_sub_le_of_norm_hasDerivWithin_le (f := y) (f' := fun t => f (y t)) (fun x hx => hs x hx)
      (fun x hx => here x hx) ht hsI
    rw [Real.norm_of_nonneg (by linarith [hs'.1])] at this
    exact this.trans (mul_le_mul_of_nonneg_left (by linarith [hs'.2]) hM0.le)
  have h2 : ‖y (t + h) - (y t + h • f (y t))‖ ≤ M ^ 2 * h ^ 2 := by
    have := (convex_Icc t (t + h)).norm_image_sub_le_of_norm_hasDerivWithin_le (f := fun s => y s - s • f (y t))
      (f' := fun s => f (y s) - f (y t)) (C := M * (M * h)) (x := t) (y := t + h)
      (fun s hs' => by
        have hsI : s ∈ Icc 0 T := ⟨t0.trans hs'.1, hs'.2.trans hT⟩
        have e := ((hs s hsI).mono (Icc_subset_Icc t0 hT)).sub
          (((hasDerivAt_id s).smul_const (f (y t))).hasDerivWithinAt (s := Icc t (t + h)))
        rw [one_smul] at e
        exact e)
      (fun s hs' => by
        have hle := hd s hs'
        exact ((steady (y t) (mem_image_of_mem y ht) (y s) (y t) (hle.trans (by linarith)) (by rw [sub_self, norm_zero]; exact hδ.le)).2).trans
          (mul_le_mul_of_nonneg_left hle hM0.le))
      (left_mem_Icc.2 (by linarith)) (right_mem_Icc.2 (by linarith))
    rw [add_sub_cancel_left, Real.norm_of_nonneg h0] at this
    refine (le_of_eq (congrArg norm ?_)).trans (this.trans (le_of_eq (by ring)))
    module
  have h3 := norm_sub_le (advanceBy f m h (y t) - (y t + h • f (y t))) (y (t + h) - (y t + h • f (y t)))
  rw [sub_sub_sub_cancel_right] at h3
  calc _ ≤ _ := h3
    _ ≤ M ^ 2 * h ^ 2 + M ^ 2 * h ^ 2 := add_le_add h1 h2
    _ = _ := by ring

/-- Solutions exist for a while. -/
theorem exists_solution [CompleteSpace E] {f : E → E} {x₀ : E} (h : LipAt f x₀) :
    ∃ τ, 0 < τ ∧ ∃ y : ℝ → E, y 0 = x₀ ∧ ∀ t ∈ Icc 0 τ, HasDerivWithinAt y (f (y t)) (Icc 0 τ) t := by
  have hc := h.continuousAt
  obtain ⟨K, U, hU, hK⟩ := h
  have hn := Filter.inter_mem hU (hc.norm.eventually_lt continuousAt_const (show ‖f x₀‖ < ‖f x₀‖ + 1 by linarith))
  obtain ⟨ε, hε, hb⟩ := Metric.mem_nhds_iff.1 hn
  have hL : 0 < ‖f x₀‖ + 1 := by positivity
  obtain ⟨a, ha⟩ : ∃ a : ℝ≥0, (a : ℝ) = ε / 2 := ⟨⟨ε / 2, by linarith⟩, rfl⟩
  obtain ⟨L, hLe⟩ : ∃ L : ℝ≥0, (L : ℝ) = ‖f x₀‖ + 1 := ⟨⟨_, hL.le⟩, rfl⟩
  have hball : Metric.closedBall x₀ a ⊆ Metric.ball x₀ ε := Metric.closedBall_subset_ball (by rw [ha]; linarith)
  have hτ : 0 < (a : ℝ) / L := by rw [ha, hLe]; positivity
  refine ⟨a / L, hτ, ?_⟩
  have pl : IsPicardLindelof (fun _ => f) (tmin := 0) (tmax := (a : ℝ) / L) ⟨0, left_mem_Icc.2 hτ.le⟩ x₀ a 0 L K :=
    IsPicardLindelof.of_time_independent (fun x hx => by rw [hLe]; exact le_of_lt (hb (hball hx)).2)
      (hK.mono fun x hx => (hb (hball hx)).1) (by
        simp only [sub_zero, sub_self, NNReal.coe_zero]
        rw [max_eq_left hτ.le, mul_div_cancel₀ _ (by rw [hLe]; exact hL.ne')])
  exact pl.exists_eq_forall_mem_Icc_hasDerivWithinAt₀

end Field

end FVHOE
