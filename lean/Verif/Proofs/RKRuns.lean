import Verif.Proofs.RKOrder
import Mathlib.Topology.Compactness.Compact
import Mathlib.Analysis.Complex.Exponential

/-!
A smooth right-hand side along a solution of its equation: uniform bounds near the solution, and how far apart a step leaves two
states.
-/

set_option linter.unusedSectionVars false

namespace FVHOE

open Set Asymptotics Topology

variable {E : Type} [NormedAddCommGroup E] [NormedSpace ℝ E]

/-- Bounds for `f` and its derivative at distance `δ` around the points of `s`. -/
def Tame (f : E → E) (s : Set E) (M δ : ℝ) : Prop :=
  ∀ p ∈ s, ∀ q, ‖q - p‖ ≤ δ → DifferentiableAt ℝ f q ∧ ‖fderiv ℝ f q‖ ≤ M ∧ ‖f q‖ ≤ M ∧
    ‖fderiv ℝ f q - fderiv ℝ f p‖ ≤ M * ‖q - p‖

theorem Tame.mono {f : E → E} {s s' : Set E} {M M' δ δ' : ℝ} (h : Tame f s M δ) (hs : s' ⊆ s) (hM : M ≤ M') (hδ : δ' ≤ δ) :
    Tame f s' M' δ' := fun p hp q hq =>
  have ⟨h1, h2, h3, h4⟩ := h p (hs hp) q (hq.trans hδ)
  ⟨h1, h2.trans hM, h3.trans hM, h4.trans (mul_le_mul_of_nonneg_right hM (norm_nonneg _))⟩

theorem tame_local {f : E → E} {U : Set E} (hU : IsOpen U) (hf : ContDiffOn ℝ 2 f U) {x : E} (hx : x ∈ U) :
    ∃ M δ ε, 0 < δ ∧ 0 < ε ∧ Tame f (Metric.ball x ε) M δ := by
  have hc : ContDiffAt ℝ 2 f x := hf.contDiffAt (hU.mem_nhds hx)
  obtain ⟨K, t, ht, hK⟩ := (hc.fderiv_right (m := 1) (by norm_num)).exists_lipschitzOnWith
  have e1 : ∀ᶠ q in 𝓝 x, DifferentiableAt ℝ f q := by
    filter_upwards [hU.mem_nhds hx] with q hq
    exact (hf.contDiffAt (hU.mem_nhds hq)).differentiableAt (by norm_num)
  have e2 : ∀ᶠ q in 𝓝 x, ‖fderiv ℝ f q‖ < ‖fderiv ℝ f x‖ + 1 :=
    (hc.continuousAt_fderiv (by norm_num)).norm.eventually_lt continuousAt_const (by simp)
  have e3 : ∀ᶠ q in 𝓝 x, ‖f q‖ < ‖f x‖ + 1 := hc.continuousAt.norm.eventually_lt continuousAt_const (by simp)
  obtain ⟨ε, hε, hall⟩ := Metric.eventually_nhds_iff.1 (((e1.and e2).and e3).and (Filter.Eventually.mono ht fun q hq => hq))
  refine ⟨max (K : ℝ) (max (‖fderiv ℝ f x‖ + 1) (‖f x‖ + 1)), ε / 4, ε / 2, by linarith, by linarith, fun p hp q hq => ?_⟩
  have hp' : dist p x < ε / 2 := hp
  have hq' : dist q x < ε := by
    have := dist_triangle q p x
    rw [dist_eq_norm q p] at this
    linarith
  obtain ⟨⟨⟨q1, q2⟩, q3⟩, q4⟩ := hall hq'
  obtain ⟨_, p4⟩ := hall (y := p) (by linarith)
  refine ⟨q1, (q2.le.trans (le_max_left _ _)).trans (le_max_right _ _), (q3.le.trans (le_max_right _ _)).trans (le_max_right _ _), ?_⟩
  have := hK.dist_le_mul q q4 p p4
  rw [dist_eq_norm, dist_eq_norm] at this
  exact this.trans (mul_le_mul_of_nonneg_right (le_max_left _ _) (norm_nonneg _))

theorem exists_tame {f : E → E} {U : Set E} (hU : IsOpen U) (hf : ContDiffOn ℝ 2 f U) {s : Set E} (hs : IsCompact s) (hsU : s ⊆ U) :
    ∃ M δ, 1 ≤ M ∧ 0 < δ ∧ Tame f s M δ := by
  refine hs.induction_on (p := fun s => ∃ M δ, 1 ≤ M ∧ 0 < δ ∧ Tame f s M δ) ⟨1, 1, le_rfl, one_pos, fun p hp => hp.elim⟩ ?_ ?_ ?_
  · rintro s t hst ⟨M, δ, hM, hδ, h⟩
    exact ⟨M, δ, hM, hδ, h.mono hst le_rfl le_rfl⟩
  · rintro s t ⟨M, δ, hM, hδ, h⟩ ⟨M', δ', hM', hδ', h'⟩
    refine ⟨max M M', min δ δ', hM.trans (le_max_left _ _), lt_min hδ hδ', ?_⟩
    rintro p (hp | hp)
    · exact h.mono subset_rfl (le_max_left _ _) (min_le_left _ _) p hp
    · exact h'.mono subset_rfl (le_max_right _ _) (min_le_right _ _) p hp
  · intro x hx
    obtain ⟨M, δ, ε, hδ, hε, h⟩ := tame_local hU hf (hsU hx)
    exact ⟨Metric.ball x ε, mem_nhdsWithin_of_mem_nhds (Metric.ball_mem_nhds x hε), max M 1, δ, le_max_right _ _, hδ,
      h.mono subset_rfl (le_max_left _ _) le_rfl⟩

/-- Solutions of an equation with smooth right-hand side are smooth. -/
theorem solution_smooth {f : E → E} {U : Set E} {T : ℝ} (hT : 0 < T) {y : ℝ → E} (hy : ∀ t ∈ Icc 0 T, y t ∈ U)
    (hs : ∀ t ∈ Icc 0 T, HasDerivWithinAt y (f (y t)) (Icc 0 T) t) :
    ∀ n : ℕ, ContDiffOn ℝ n f U → ContDiffOn ℝ (n + 1 : ℕ) y (Icc 0 T) := by
  have hd : ∀ t ∈ Icc 0 T, derivWithin y (Icc 0 T) t = f (y t) := fun t ht =>
    (hs t ht).derivWithin (uniqueDiffOn_Icc hT t ht)
  have step : ∀ n : ℕ, ContDiffOn ℝ n f U → ContDiffOn ℝ n y (Icc 0 T) → ContDiffOn ℝ (n + 1 : ℕ) y (Icc 0 T) := by
    intro n hf h
    push_cast
    rw [contDiffOn_succ_iff_derivWithin (uniqueDiffOn_Icc hT)]
    refine ⟨fun t ht => (hs t ht).differentiableWithinAt, by simp, ?_⟩
    exact (hf.comp h fun t ht => hy t ht).congr hd
  intro n
  induction n with
  | zero => exact fun hf => step 0 hf (by
      simp only [CharP.cast_eq_zero, contDiffOn_zero]
      exact fun t ht => (hs t ht).continuousWithinAt)
  | succ n ih => exact fun hf => step (n + 1) hf (ih (hf.of_le (by norm_cast; omega)))

/-- A solution in `U` and the derivative of `f` along it. -/
theorem OnSolution.of_smooth {f : E → E} {U : Set E} (hU : IsOpen U) {n : ℕ} (h2 : ContDiffOn ℝ 2 f U) (hf : ContDiffOn ℝ n f U)
    {T : ℝ} (hT : 0 < T) {y : ℝ → E} (hy : ∀ t ∈ Icc 0 T, y t ∈ U)
    (hs : ∀ t ∈ Icc 0 T, HasDerivWithinAt y (f (y t)) (Icc 0 T) t) :
    ∃ Y, Y 0 = y ∧ OnSolution f T n Y fun t => fderiv ℝ f (y t) := by
  have hsm := solution_smooth hT hy hs n hf
  have hud := uniqueDiffOn_Icc hT
  have hcy : ContinuousOn y (Icc 0 T) := fun t ht => (hs t ht).continuousWithinAt
  obtain ⟨M, δ, hM, hδ, tame⟩ := exists_tame hU h2 (isCompact_Icc.image_of_continuousOn hcy) (by rintro _ ⟨t, ht, rfl⟩; exact hy t ht)
  have tame' : ∀ t ∈ Icc 0 T, ∀ q, ‖q - y t‖ ≤ δ → DifferentiableAt ℝ f q ∧ ‖fderiv ℝ f q‖ ≤ M ∧ ‖f q‖ ≤ M ∧
    ‖fderiv ℝ f q - fderiv ℝ f (y t)‖ ≤ M * ‖q - y t‖ := fun t ht => tame (y t) (mem_image_of_mem y ht)
  have here : ∀ t ∈ Icc 0 T, ‖fderiv ℝ f (y t)‖ ≤ M ∧ ‖f (y t)‖ ≤ M := fun t ht =>
    have h := tame' t ht (y t) (by simpa using hδ.le)
    ⟨h.2.1, h.2.2.1⟩
  have h0 : iteratedDerivWithin 0 y (Icc 0 T) = y := iteratedDerivWithin_zero
  refine ⟨fun k => iteratedDerivWithin k y (Icc 0 T), h0, ?_, ?_, ?_, ?_, ?_, ?_⟩
  · intro k hk t ht
    have := (hsm.differentiableOn_iteratedDerivWithin (m := k) (by norm_cast; omega) hud t ht).hasDerivWithinAt
    rwa [← iteratedDerivWithin_succ] at this
  · have hb : ∀ k, ∃ B, k ≤ n + 1 → ∀ t ∈ Icc 0 T, ‖iteratedDerivWithin k y (Icc 0 T) t‖ ≤ B := by
      intro k
      by_cases hk : k ≤ n + 1
      · obtain ⟨B, hB⟩ := isCompact_Icc.exists_bound_of_continuousOn
          (hsm.continuousOn_iteratedDerivWithin (m := k) (by norm_cast) hud)
        exact ⟨B, fun _ => hB⟩
      · exact ⟨0, fun h => absurd h hk⟩
    choose b hb using hb
    refine ⟨∑ k ∈ Finset.range (n + 2), |b k|, fun k hk t ht => ?_⟩
    exact ((hb k hk t ht).trans (le_abs_self _)).trans
      (Finset.single_le_sum (f := fun k => |b k|) (fun _ _ => abs_nonneg _) (Finset.mem_range.2 (by omega)))
  · intro t ht
    simp only [h0, iteratedDerivWithin_one]
    exact ((hs t ht).derivWithin (hud t ht)).symm
  · refine ⟨M, δ, hδ, fun t ht e he => ?_⟩
    simp only [h0]
    have := (convex_closedBall (y t) ‖e‖).norm_image_sub_le_of_norm_fderiv_le' (𝕜 := ℝ) (f := f) (φ := fderiv ℝ f (y t))
      (C := M * ‖e‖) (x := y t) (y := y t - e)
      (fun q hq => (tame' t ht q ((mem_closedBall_iff_norm.1 hq).trans he)).1)
      (fun q hq => ((tame' t ht q ((mem_closedBall_iff_norm.1 hq).trans he)).2.2.2).trans
        (mul_le_mul_of_nonneg_left (mem_closedBall_iff_norm.1 hq) (by linarith)))
      (Metric.mem_closedBall_self (norm_nonneg _)) (by simp)
    simp only [sub_sub_cancel_left, map_neg, sub_neg_eq_add, norm_neg] at this
    refine this.trans (le_of_eq (by ring))
  · exact ⟨M, fun t ht => (here t ht).1⟩
  · refine ⟨(M + 2 * M / δ) * M, fun s hs' t ht => ?_⟩
    have hd : ‖y s - y t‖ ≤ M * |s - t| := (convex_Icc 0 T).norm_image_sub_le_of_norm_hasDerivWithin_le (f := y)
      (f' := fun t => f (y t)) (fun x hx => hs x hx) (fun x hx => (here x hx).2) ht hs'
    have key : ‖fderiv ℝ f (y s) - fderiv ℝ f (y t)‖ ≤ (M + 2 * M / δ) * ‖y s - y t‖ := by
      have hq : 0 ≤ 2 * M / δ := by positivity
      by_cases hc : ‖y s - y t‖ ≤ δ
      · have := (tame' t ht (y s) hc).2.2.2
        nlinarith [norm_nonneg (y s - y t)]
      · have h1 := (norm_sub_le (fderiv ℝ f (y s)) (fderiv ℝ f (y t))).trans (add_le_add (here s hs').1 (here t ht).1)
        have h2 : 2 * M ≤ 2 * M / δ * ‖y s - y t‖ := by
          rw [div_mul_eq_mul_div, le_div_iff₀ hδ]
          exact mul_le_mul_of_nonneg_left (not_le.1 hc).le (by linarith)
        nlinarith [norm_nonneg (y s - y t)]
    refine key.trans ?_
    rw [mul_assoc]
    exact mul_le_mul_of_nonneg_left hd (by positivity)

/-- Bounds and a Lipschitz constant for `f` at distance `δ` around the points of `s`. -/
def Steady (f : E → E) (s : Set E) (M δ : ℝ) : Prop :=
  ∀ p ∈ s, ∀ q q', ‖q - p‖ ≤ δ → ‖q' - p‖ ≤ δ → ‖f q‖ ≤ M ∧ ‖f q - f q'‖ ≤ M * ‖q - q'‖

theorem Tame.steady {f : E → E} {s : Set E} {M δ : ℝ} (h : Tame f s M δ) : Steady f s M δ := fun p hp q _ hq hq' =>
  ⟨(h p hp q hq).2.2.1, (convex_closedBall p δ).norm_image_sub_le_of_norm_fderiv_le (𝕜 := ℝ) (f := f)
    (fun q hq => (h p hp q (mem_closedBall_iff_norm.1 hq)).1) (fun q hq => (h p hp q (mem_closedBall_iff_norm.1 hq)).2.1)
    (mem_closedBall_iff_norm.2 hq') (mem_closedBall_iff_norm.2 hq)⟩

/-- One step keeps nearby states nearby. -/
theorem advance_stable {f : E → E} {p : E} {M δ : ℝ} (hM : 1 ≤ M) (steady : Steady f {p} M δ) (m : Integrator) {h : ℝ} (h0 : 0 ≤ h)
    (h1 : h * M ≤ δ / 2) (h2 : h * M ≤ 1) {v w : E} (hv : ‖v - p‖ ≤ δ / 2) (hw : ‖w - p‖ ≤ δ / 2) :
    ‖advanceBy f m h v - advanceBy f m h w‖ ≤ (1 + 2 * M * h) * ‖v - w‖ := by
  have lip : ∀ {x z : E}, ‖x - p‖ ≤ δ → ‖z - p‖ ≤ δ → ‖f x - f z‖ ≤ M * ‖x - z‖ := by
    intro x z hx hz
    exact (steady p rfl x z hx hz).2
  have shift : ∀ {x e : E}, ‖x - p‖ ≤ δ / 2 → ‖e‖ ≤ δ / 2 → ‖x + e - p‖ ≤ δ := by
    intro x e hx he
    have := norm_add_le (x - p) e
    rw [show x - p + e = x + e - p by abel] at this
    linarith
  -- what one stage does
  have stage : ∀ {a b : E} {B : ℝ}, ‖a‖ ≤ δ / 2 → ‖b‖ ≤ δ / 2 → ‖a - b‖ ≤ B →
      ‖f (v + a)‖ ≤ M ∧ ‖f (w + b)‖ ≤ M ∧ ‖f (v + a) - f (w + b)‖ ≤ M * (‖v - w‖ + B) := by
    intro a b B ha hb hab
    refine ⟨(steady p rfl _ _ (shift hv ha) (shift hv ha)).1, (steady p rfl _ _ (shift hw hb) (shift hw hb)).1, (lip (shift hv ha) (shift hw hb)).trans ?_⟩
    refine mul_le_mul_of_nonneg_left ?_ (by linarith)
    have := norm_add_le (v - w) (a - b)
    rw [show v - w + (a - b) = v + a - (w + b) by abel] at this
    linarith
  have hδ : 0 ≤ δ / 2 := (norm_nonneg _).trans hv
  have sm : ∀ {c : ℝ} {k : E} {B : ℝ}, 0 ≤ c → ‖k‖ ≤ B → ‖c • k‖ ≤ c * B := fun hc hk => by
    rw [norm_smul, Real.norm_of_nonneg hc]
    exact mul_le_mul_of_nonneg_left hk hc
  have smd : ∀ {c : ℝ} {k l : E} {B : ℝ}, 0 ≤ c → ‖k - l‖ ≤ B → ‖c • k - c • l‖ ≤ c * B := fun hc hk => by
    rw [← smul_sub]
    exact sm hc hk
  have d0 := norm_nonneg (v - w)
  have hMd : M * h * ‖v - w‖ ≤ ‖v - w‖ := by nlinarith
  have hhM : 0 ≤ h * M := by positivity
  have hMMd : 0 ≤ M * h * ‖v - w‖ := by positivity
  -- the slopes at the states themselves
  obtain ⟨a1, b1, c1⟩ := stage (a := 0) (b := 0) (B := 0) (by simpa using hδ) (by simpa using hδ) (by simp)
  rw [add_zero, add_zero] at c1
  rw [add_zero] at a1 b1
  rw [add_zero] at c1
  cases m with
  | euler =>
    simp only [advanceBy]
    have := norm_add_le (v - w) (h • f v - h • f w)
    rw [show v - w + (h • f v - h • f w) = v + h • f v - (w + h • f w) by abel] at this
    have := smd h0 c1
    nlinarith
  | ssprk2 =>
    simp only [advanceBy]
    obtain ⟨a2, b2, c2⟩ := stage ((sm h0 a1).trans h1) ((sm h0 b1).trans h1) (smd h0 c1)
    have e1 := smd (c := 1 / 2 * h) (by positivity) c1
    have e2 := smd (c := 1 / 2 * h) (by positivity) c2
    have := norm_add₃_le (a := v - w) (b := (1 / 2 * h) • f v - (1 / 2 * h) • f w)
      (c := (1 / 2 * h) • f (v + h • f v) - (1 / 2 * h) • f (w + h • f w))
    refine (le_of_eq (congrArg norm ?_)).trans (this.trans (b := _) ?_)
    · module
    · have : M * h * (M * h * ‖v - w‖) ≤ 1 * (M * h * ‖v - w‖) := mul_le_mul_of_nonneg_right (by linarith) hMMd
      nlinarith
  | ssprk3 =>
    simp only [advanceBy]
    obtain ⟨a2, b2, c2⟩ := stage ((sm h0 a1).trans h1) ((sm h0 b1).trans h1) (smd h0 c1)
    have q0 : 0 ≤ 1 / 4 * h := by positivity
    obtain ⟨a3, b3, c3⟩ := stage (a := (1 / 4 * h) • f v + (1 / 4 * h) • f (v + h • f v))
      (b := (1 / 4 * h) • f w + (1 / 4 * h) • f (w + h • f w))
      (B := 1 / 4 * h * (M * ‖v - w‖) + 1 / 4 * h * (M * (‖v - w‖ + h * (M * ‖v - w‖))))
      ((norm_add_le _ _).trans ((add_le_add (sm q0 a1) (sm q0 a2)).trans (by linarith)))
      ((norm_add_le _ _).trans ((add_le_add (sm q0 b1) (sm q0 b2)).trans (by linarith)))
      (by
        rw [add_sub_add_comm]
        exact (norm_add_le _ _).trans (add_le_add (smd q0 c1) (smd q0 c2)))
    rw [← add_assoc, ← add_assoc] at c3
    have s0 : 0 ≤ 1 / 6 * h := by positivity
    have e1 := smd s0 c1
    have e2 := smd s0 c2
    have e3 := smd (c := 4 / 6 * h) (by positivity) c3
    have n1 := norm_add₃_le (a := v - w) (b := (1 / 6 * h) • f v - (1 / 6 * h) • f w)
      (c := (1 / 6 * h) • f (v + h • f v) - (1 / 6 * h) • f (w + h • f w))
    refine (le_of_eq (congrArg norm ?_)).trans ((norm_add_le _ _).trans ((add_le_add (n1.trans (add_le_add (add_le_add le_rfl e1) e2)) e3).trans ?_))
    · module
    · set d := ‖v - w‖
      have g1 : M * h * (M * h * d) ≤ 1 * (M * h * d) := mul_le_mul_of_nonneg_right (by linarith) hMMd
      have g2 : M * h * (M * h * (M * h * d)) ≤ 1 * (M * h * d) := by nlinarith
      nlinarith
  | rk4 =>
    simp only [advanceBy]
    have q0 : 0 ≤ 1 / 2 * h := by positivity
    obtain ⟨a2, b2, c2⟩ := stage ((sm q0 a1).trans (by linarith)) ((sm q0 b1).trans (by linarith)) (smd q0 c1)
    obtain ⟨a3, b3, c3⟩ := stage ((sm q0 a2).trans (by linarith)) ((sm q0 b2).trans (by linarith)) (smd q0 c2)
    obtain ⟨a4, b4, c4⟩ := stage ((sm h0 a3).trans h1) ((sm h0 b3).trans h1) (smd h0 c3)
    have s0 : 0 ≤ 1 / 6 * h := by positivity
    have t0 : 0 ≤ 2 / 6 * h := by positivity
    have n1 := norm_add₃_le (a := v - w) (b := (1 / 6 * h) • f v - (1 / 6 * h) • f w)
      (c := (2 / 6 * h) • f (v + (1 / 2 * h) • f v) - (2 / 6 * h) • f (w + (1 / 2 * h) • f w))
    refine (le_of_eq (congrArg norm ?_)).trans ((norm_add₃_le).trans ((add_le_add (add_le_add
      (n1.trans (add_le_add (add_le_add le_rfl (smd s0 c1)) (smd t0 c2))) (smd t0 c3)) (smd s0 c4)).trans ?_))
    · module
    · set d := ‖v - w‖
      have g1 : M * h * (M * h * d) ≤ 1 * (M * h * d) := mul_le_mul_of_nonneg_right (by linarith) hMMd
      have g2 : M * h * (M * h * (M * h * d)) ≤ 1 * (M * h * d) := by nlinarith
      have g3 : M * h * (M * h * (M * h * (M * h * d))) ≤ 1 * (M * h * d) := by
        have : 0 ≤ M * h * (M * h * (M * h * d)) := by positivity
        nlinarith
      linarith

/-- Up to second order a step is an Euler step. -/
theorem advance_euler {f : E → E} {p : E} {M δ : ℝ} (hM : 1 ≤ M) (steady : Steady f {p} M δ) (m : Integrator) {h : ℝ} (h0 : 0 ≤ h)
    (h1 : h * M ≤ δ) : ‖advanceBy f m h p - (p + h • f p)‖ ≤ M ^ 2 * h ^ 2 := by
  have hM0 : 0 ≤ M := by linarith
  have hδ : 0 ≤ δ := (mul_nonneg h0 hM0).trans h1
  have stage : ∀ {a : E}, ‖a‖ ≤ h * M → ‖f (p + a)‖ ≤ M ∧ ‖f (p + a) - f p‖ ≤ M * (h * M) := by
    intro a ha
    have e : ‖p + a - p‖ ≤ δ := by rw [add_sub_cancel_left]; exact ha.trans h1
    obtain ⟨k1, k2⟩ := steady p rfl (p + a) p e (by rw [sub_self, norm_zero]; exact hδ)
    refine ⟨k1, k2.trans (mul_le_mul_of_nonneg_left ?_ hM0)⟩
    rw [add_sub_cancel_left]
    exact ha
  have k0 : ‖f p‖ ≤ M := by simpa using (stage (a := 0) (by simpa using mul_nonneg h0 hM0)).1
  have sm : ∀ {c : ℝ} {k : E} {B : ℝ}, 0 ≤ c → ‖k‖ ≤ B → ‖c • k‖ ≤ c * B := fun hc hk => by
    rw [norm_smul, Real.norm_of_nonneg hc]
    exact mul_le_mul_of_nonneg_left hk hc
  have hhM : 0 ≤ h * M := mul_nonneg h0 hM0
  have hB : 0 ≤ M ^ 2 * h ^ 2 := by positivity
  cases m with
  | euler =>
    simp only [advanceBy, sub_self, norm_zero]
    exact hB
  | ssprk2 =>
    simp only [advanceBy]
    obtain ⟨-, c2⟩ := stage (sm h0 k0)
    refine (le_of_eq (congrArg norm ?_)).trans ((sm (c := 1 / 2 * h) (by positivity) c2).trans ?_)
    · module
    · nlinarith
  | ssprk3 =>
    simp only [advanceBy]
    obtain ⟨a2, c2⟩ := stage (sm h0 k0)
    obtain ⟨a3, c3⟩ := stage (a := (1 / 4 * h) • f p + (1 / 4 * h) • f (p + h • f p))
      ((norm_add_le _ _).trans ((add_le_add (sm (by positivity) k0) (sm (by positivity) a2)).trans (by linarith)))
    rw [← add_assoc] at c3
    refine (le_of_eq (congrArg norm ?_)).trans ((norm_add_le _ _).trans ((add_le_add (sm (c := 1 / 6 * h) (by positivity) c2)
      (sm (c := 4 / 6 * h) (by positivity) c3)).trans ?_))
    · module
    · nlinarith
  | rk4 =>
    simp only [advanceBy]
    obtain ⟨a2, c2⟩ := stage ((sm (c := 1 / 2 * h) (by positivity) k0).trans (by linarith))
    obtain ⟨a3, c3⟩ := stage ((sm (c := 1 / 2 * h) (by positivity) a2).trans (by linarith))
    obtain ⟨a4, c4⟩ := stage (sm h0 a3)
    refine (le_of_eq (congrArg norm ?_)).trans (norm_add₃_le.trans ((add_le_add (add_le_add
      (sm (c := 2 / 6 * h) (by positivity) c2) (sm (c := 2 / 6 * h) (by positivity) c3)) (sm (c := 1 / 6 * h) (by positivity) c4)).trans ?_))
    · module
    · nlinarith

/-- The error a run may have accumulated: a bound that every step carries on. -/
theorem follow {f : E → E} {T T' : ℝ} (hT' : T < T') {y : ℝ → E} {M δ : ℝ} (hM : 1 ≤ M) (hδ : 0 < δ)
    (steady : Steady f (y '' Icc 0 T') M δ) (m : Integrator) {p : ℕ} (hp : 1 ≤ p) {C η : ℝ} (hC : 0 ≤ C) (hη : 0 < η)
    (hstep : ∀ t h, 0 ≤ t → 0 ≤ h → h ≤ η → t + h ≤ T' → ‖advanceBy f m h (y t) - y (t + h)‖ ≤ C * h ^ (p + 1)) :
    ∃ B H₀, 0 ≤ B ∧ 0 < H₀ ∧ ∀ H, 0 < H → H ≤ H₀ → T + H ≤ T' ∧ ∃ G : ℝ → ℝ, (∀ t, 0 ≤ t → t ≤ T' → 0 ≤ G t ∧ G t ≤ B * H ^ p) ∧
      B * H ^ p ≤ δ / 2 ∧ H * M ≤ δ / 2 ∧
      ∀ t h v, 0 ≤ t → t ≤ T → 0 < h → h ≤ H → ‖v - y t‖ ≤ G t → ‖advanceBy f m h v - y (t + h)‖ ≤ G (t + h) := by
  set K : ℝ := C / (2 * M) with hK
  have hM0 : 0 < M := by linarith
  have hK0 : 0 ≤ K := by positivity
  have hKM : K * (2 * M) = C := by rw [hK]; field_simp
  set B : ℝ := K * Real.exp (2 * M * T') with hB
  have hB0 : 0 ≤ B := by positivity
  refine ⟨B, min (min 1 (T' - T)) (min η (min (δ / 2 / (B + 1)) (min (δ / 2 / M) (1 / M)))), hB0, ?_, ?_⟩
  · have : 0 < T' - T := by linarith
    positivity
  intro H hH0 hH
  simp only [le_min_iff] at hH
  obtain ⟨⟨H1, H2⟩, H3, H4, H5, H6⟩ := hH
  rw [le_div_iff₀ (by linarith)] at H4
  rw [le_div_iff₀ hM0] at H5 H6
  have hHp : 0 < H ^ p := pow_pos hH0 _
  have hHp' : H ^ p ≤ H := by
    calc H ^ p ≤ H ^ 1 := pow_le_pow_of_le_one hH0.le H1 hp
      _ = H := pow_one H
  -- the error allowed at the time `t`
  set G : ℝ → ℝ := fun t => H ^ p * (K * (Real.exp (2 * M * t) - 1)) with hG
  have hGB : ∀ t ≤ T', G t ≤ B * H ^ p := by
    intro t ht
    have : Real.exp (2 * M * t) ≤ Real.exp (2 * M * T') := Real.exp_le_exp.2 (by nlinarith)
    have h3 : K * (Real.exp (2 * M * t) - 1) ≤ B := mul_le_mul_of_nonneg_left (by linarith) hK0
    have := mul_le_mul_of_nonneg_left h3 hHp.le
    simp only [hG]
    linarith
  have hG0 : ∀ t, 0 ≤ t → 0 ≤ G t := by
    intro t ht
    have : 1 ≤ Real.exp (2 * M * t) := Real.one_le_exp (by positivity)
    have : 0 ≤ Real.exp (2 * M * t) - 1 := by linarith
    simp only [hG]
    positivity
  have hBδ : B * H ^ p ≤ δ / 2 := by
    have := mul_le_mul_of_nonneg_left hHp' hB0
    nlinarith
  refine ⟨by linarith, G, fun t ht ht' => ⟨hG0 t ht, hGB t ht'⟩, hBδ, H5, fun t h v t0 tT h0 hle s2 => ?_⟩
  have hmem : t ∈ Icc 0 T' := ⟨t0, by linarith⟩
  have hstab := advance_stable hM (fun q hq => steady q (by rw [mem_singleton_iff.1 hq]; exact mem_image_of_mem y hmem)) m h0.le
    ((mul_le_mul_of_nonneg_right hle hM0.le).trans H5) ((mul_le_mul_of_nonneg_right hle hM0.le).trans H6)
    (s2.trans ((hGB _ (by linarith)).trans hBδ)) (w := y t) (by rw [sub_self, norm_zero]; linarith)
  have herr := hstep t h t0 h0.le (hle.trans H3) (by linarith)
  have tri := norm_add_le (advanceBy f m h v - advanceBy f m h (y t)) (advanceBy f m h (y t) - y (t + h))
  rw [sub_add_sub_cancel] at tri
  have hpow : C * h ^ (p + 1) ≤ H ^ p * (K * (2 * M * h)) := by
    have e1 : h ^ p ≤ H ^ p := pow_le_pow_left₀ h0.le hle _
    have e2 := mul_le_mul_of_nonneg_right e1 (mul_nonneg hC h0.le)
    calc C * h ^ (p + 1) = h ^ p * (C * h) := by ring
      _ ≤ H ^ p * (C * h) := e2
      _ = H ^ p * (K * (2 * M * h)) := by rw [← hKM]; ring
  have hgrow : (1 + 2 * M * h) * G t + H ^ p * (K * (2 * M * h)) ≤ G (t + h) := by
    have e1 : 1 + 2 * M * h ≤ Real.exp (2 * M * h) := by linarith [Real.add_one_le_exp (2 * M * h)]
    have e2 : Real.exp (2 * M * (t + h)) = Real.exp (2 * M * h) * Real.exp (2 * M * t) := by
      rw [← Real.exp_add]
      congr 1
      ring
    have e3 := mul_le_mul_of_nonneg_right e1 (Real.exp_pos (2 * M * t)).le
    have e4 := mul_le_mul_of_nonneg_left (mul_le_mul_of_nonneg_left e3 hK0) hHp.le
    simp only [hG]
    rw [e2]
    linarith
  have := mul_le_mul_of_nonneg_left s2 (show 0 ≤ 1 + 2 * M * h by have := mul_pos hM0 h0; linarith)
  linarith

end FVHOE
