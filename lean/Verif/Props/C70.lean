import Mathlib.Analysis.Calculus.ParametricIntegral
import Mathlib.Analysis.SpecialFunctions.Trigonometric.Deriv
import Verif.Props.C08
import Verif.Proofs.Accuracy

/-!
C70 (order of accuracy): for a smooth density carried by a uniform flow the right-hand side differs from the exact
rate of change by a constant times the spacing to the power `q + 1`, where `q` is the smallest degree.
-/

set_option linter.unusedSectionVars false

namespace FVHOE

open Polynomial MeasureTheory Set

variable {np : ℕ}

/-! ## Differences -/

theorem natDegree_shift_sub (P : ℝ[X]) (h : ℝ) : (P.comp (X + C h) - P).natDegree ≤ P.natDegree - 1 := by
  have e : P.comp (X + C h) = taylor h P := rfl
  rw [e, natDegree_le_iff_coeff_eq_zero]
  intro N hN
  rw [coeff_sub]
  by_cases h1 : P.natDegree < N
  · rw [coeff_eq_zero_of_natDegree_lt h1, coeff_eq_zero_of_natDegree_lt (by rwa [natDegree_taylor]), sub_zero]
  · have h2 : N = P.natDegree := by omega
    subst h2
    rw [taylor_coeff, hasseDeriv_natDegree_eq_C, eval_C]
    exact sub_self _

/-- The difference quotient of the function whose derivative in direction `d` is `R`. -/
theorem exists_quotient (R : Density ℝ) (p : Fin 3 → ℕ) (hR : R.HasDegree p) (x₀ h : Fin 3 → ℝ) (d : Fin 3) :
    ∃ G : Density ℝ, G.HasDegree p ∧ (∀ i, G.stage x₀ h (faceAvg d) i = R.avg x₀ h i) ∧
      ∀ x, G.at x = ∑ a ∈ R.s, (∏ e ∈ Finset.univ.erase d, (R.P a e).derivative.eval (x e)) *
        (((R.P a d).eval (x d + h d) - (R.P a d).eval (x d)) / h d) := by
  choose anti hanti hdeg using exists_antiderivative
  have hev : ∀ (a : R.ι) (y : ℝ), (C (1 / h d) * ((R.P a d).comp (X + C (h d)) - R.P a d)).eval y =
      ((R.P a d).eval (y + h d) - (R.P a d).eval y) / h d := by
    intro a y
    simp [div_eq_inv_mul]
  refine ⟨⟨R.ι, R.s, fun a => Function.update (R.P a) d
    (anti (C (1 / h d) * ((R.P a d).comp (X + C (h d)) - R.P a d)))⟩, ?_, ?_, ?_⟩
  · intro a e
    by_cases he : e = d
    · subst he
      dsimp only
      rw [Function.update_self]
      refine (hdeg _).trans (Nat.add_le_add_right ((natDegree_C_mul_le _ _).trans ?_) 1)
      have h1 := natDegree_shift_sub (R.P a e) (h e)
      have h2 := hR a e
      omega
    · dsimp only
      rw [Function.update_of_ne he]
      exact hR a e
  · intro i
    unfold Density.stage Density.avg
    refine Finset.sum_congr rfl fun a _ => ?_
    dsimp only
    rw [← Finset.mul_prod_erase _ _ (Finset.mem_univ d), ← Finset.mul_prod_erase _ _ (Finset.mem_univ d)]
    congr 1
    · unfold faceAvg
      rw [if_pos rfl, Function.update_self]
      unfold Kind.val cellAvg
      rw [hanti, hev, show x₀ d + (i d : ℝ) * h d + h d = x₀ d + ((i d : ℝ) + 1) * h d by ring]
    · refine Finset.prod_congr rfl fun e he => ?_
      have := (Finset.mem_erase.1 he).1
      unfold faceAvg
      rw [if_neg this, Function.update_of_ne this]
      rfl
  · intro x
    unfold Density.at
    refine Finset.sum_congr rfl fun a _ => ?_
    dsimp only
    rw [← Finset.mul_prod_erase _ _ (Finset.mem_univ d), Function.update_self, hanti, hev, mul_comm]
    congr 1
    refine Finset.prod_congr rfl fun e he => ?_
    rw [Function.update_of_ne (Finset.mem_erase.1 he).1]

/-- Partial derivative. -/
noncomputable def partialD (d : Fin 3) (ρ : (Fin 3 → ℝ) → ℝ) (x : Fin 3 → ℝ) : ℝ := fderiv ℝ ρ x (Pi.single d 1)

theorem quotient_close {ρ : (Fin 3 → ℝ) → ℝ} (hρ : Differentiable ℝ ρ) (R : Density ℝ) (h : Fin 3 → ℝ) (d : Fin 3)
    (hd : 0 < h d) (ε : ℝ) (x : Fin 3 → ℝ)
    (hε : ∀ s ∈ Icc 0 (h d), |partialD d ρ (x + Pi.single d s) - R.at (x + Pi.single d s)| ≤ ε) :
    |(ρ (x + Pi.single d (h d)) - ρ x) / h d - ∑ a ∈ R.s, (∏ e ∈ Finset.univ.erase d, (R.P a e).derivative.eval (x e)) *
        (((R.P a d).eval (x d + h d) - (R.P a d).eval (x d)) / h d)| ≤ ε := by
  let Q : ℝ → ℝ := fun s => ∑ a ∈ R.s, (∏ e ∈ Finset.univ.erase d, (R.P a e).derivative.eval (x e)) *
    (R.P a d).eval (x d + s)
  have hQ : ∀ s, HasDerivAt Q (R.at (x + Pi.single d s)) s := by
    intro s
    have : R.at (x + Pi.single d s) = ∑ a ∈ R.s, (∏ e ∈ Finset.univ.erase d, (R.P a e).derivative.eval (x e)) *
        (R.P a d).derivative.eval (x d + s) := by
      unfold Density.at
      refine Finset.sum_congr rfl fun a _ => ?_
      rw [← Finset.mul_prod_erase _ _ (Finset.mem_univ d), mul_comm]
      congr 1
      · refine Finset.prod_congr rfl fun e he => ?_
        simp [(Finset.mem_erase.1 he).1]
      · simp
    rw [this]
    refine HasDerivAt.fun_sum fun a _ => ?_
    have h1 := ((R.P a d).hasDerivAt (x d + s)).comp_const_add (x d) s
    exact h1.const_mul _
  have hl : ∀ s : ℝ, x + Pi.single d s = x + s • (Pi.single d (1 : ℝ) : Fin 3 → ℝ) := by
    intro s
    congr 1
    funext e
    by_cases he : e = d
    · subst he; simp
    · simp [he]
  have hr : ∀ s, HasDerivAt (fun s => ρ (x + Pi.single d s)) (partialD d ρ (x + Pi.single d s)) s := by
    intro s
    have h1 : HasDerivAt (fun s : ℝ => x + Pi.single d s) (Pi.single d (1 : ℝ) : Fin 3 → ℝ) s := by
      have : (fun s : ℝ => x + Pi.single d s) = fun s : ℝ => x + s • (Pi.single d (1 : ℝ) : Fin 3 → ℝ) := funext hl
      rw [this]
      have := ((hasDerivAt_id s).smul_const (Pi.single d (1 : ℝ) : Fin 3 → ℝ)).const_add x
      simpa using this
    exact (hρ _).hasFDerivAt.comp_hasDerivAt s h1
  have h1 := Convex.norm_image_sub_le_of_norm_hasDerivWithin_le (f := fun s => ρ (x + Pi.single d s) - Q s)
    (f' := fun s => partialD d ρ (x + Pi.single d s) - R.at (x + Pi.single d s)) (C := ε) (s := Icc 0 (h d))
    (x := 0) (y := h d) (fun s _ => ((hr s).sub (hQ s)).hasDerivWithinAt) (fun s hs => hε s hs)
    (convex_Icc _ _) (left_mem_Icc.2 hd.le) (right_mem_Icc.2 hd.le)
  rw [Real.norm_eq_abs, Real.norm_eq_abs, sub_zero, abs_of_pos hd] at h1
  have h2 : ∑ a ∈ R.s, (∏ e ∈ Finset.univ.erase d, (R.P a e).derivative.eval (x e)) *
      (((R.P a d).eval (x d + h d) - (R.P a d).eval (x d)) / h d) = (Q (h d) - Q 0) / h d := by
    simp only [Q, ← Finset.sum_sub_distrib, Finset.sum_div, add_zero]
    refine Finset.sum_congr rfl fun a _ => ?_
    ring
  rw [h2, ← sub_div, abs_div, abs_of_pos hd, div_le_iff₀ hd]
  refine le_trans (le_of_eq ?_) h1
  congr 1
  beta_reduce
  rw [Pi.single_zero, add_zero]
  ring

/-- The mean over the next cell is the mean of the shifted function. -/
theorem cellMean_next (x₀ h : Fin 3 → ℝ) (hh : ∀ d, 0 < h d) (f : (Fin 3 → ℝ) → ℝ) (d : Fin 3) (j : Ix) :
    cellMean x₀ h f (j + Pi.single d 1) = cellMean x₀ h (fun x => f (x + Pi.single d (h d))) j := by
  rw [cellMean_eq _ _ hh, cellMean_eq _ _ hh]
  congr 1
  have hm := measurePreserving_add_right (volume : Measure (Fin 3 → ℝ)) (Pi.single d (h d))
  have he : MeasurableEmbedding fun x : Fin 3 → ℝ => x + Pi.single d (h d) :=
    (MeasurableEquiv.addRight (Pi.single d (h d) : Fin 3 → ℝ)).measurableEmbedding
  rw [← hm.setIntegral_preimage_emb he]
  congr 2
  ext x
  unfold cellBox
  simp only [mem_preimage, mem_Icc, Pi.le_def, Pi.add_apply]
  rw [← forall_and, ← forall_and]
  refine forall_congr' fun e => ?_
  by_cases hed : e = d
  · subst hed
    simp only [Pi.single_eq_same]
    push_cast
    constructor <;> rintro ⟨h1, h2⟩ <;> constructor <;> nlinarith
  · simp [hed]

/-! ## Derivatives of functions that do not vary along the inactive directions -/

/-- `ρ` depends on the active coordinates only. -/
def DependsOn (act : Fin 3 → Bool) (ρ : (Fin 3 → ℝ) → ℝ) : Prop :=
  ∀ x y : Fin 3 → ℝ, (∀ d, act d = true → x d = y d) → ρ x = ρ y

theorem DependsOn.partialD {act : Fin 3 → Bool} {ρ : (Fin 3 → ℝ) → ℝ} (h : DependsOn act ρ) (d : Fin 3) :
    DependsOn act (partialD d ρ) := by
  intro x y hxy
  have e : (fun z => ρ (z + (y - x))) = ρ := funext fun z => (h _ _ fun d hd => by simp [hxy d hd])
  have h1 := fderiv_comp_add_right (𝕜 := ℝ) (f := ρ) (x := x) (y - x)
  rw [e, add_sub_cancel] at h1
  unfold FVHOE.partialD
  rw [h1]

theorem DependsOn.partialD_zero {act : Fin 3 → Bool} {ρ : (Fin 3 → ℝ) → ℝ} (h : DependsOn act ρ)
    (hρ : Differentiable ℝ ρ) (d : Fin 3) (hd : act d = false) (x : Fin 3 → ℝ) : FVHOE.partialD d ρ x = 0 := by
  have h1 : HasDerivAt (fun s : ℝ => x + s • (Pi.single d (1 : ℝ) : Fin 3 → ℝ)) (Pi.single d (1 : ℝ) : Fin 3 → ℝ) 0 := by
    have := ((hasDerivAt_id (0 : ℝ)).smul_const (Pi.single d (1 : ℝ) : Fin 3 → ℝ)).const_add x
    simpa using this
  have h2 : HasDerivAt (fun s : ℝ => ρ (x + s • (Pi.single d (1 : ℝ) : Fin 3 → ℝ)))
      (fderiv ℝ ρ (x + (0 : ℝ) • (Pi.single d (1 : ℝ) : Fin 3 → ℝ)) (Pi.single d 1)) 0 :=
    (hρ _).hasFDerivAt.comp_hasDerivAt 0 h1
  have h3 : (fun s : ℝ => ρ (x + s • (Pi.single d (1 : ℝ) : Fin 3 → ℝ))) = fun _ => ρ x := by
    funext s
    refine h _ _ fun e he => ?_
    have : e ≠ d := by rintro rfl; simp [hd] at he
    simp [this]
  rw [h3, zero_smul, add_zero] at h2
  exact h2.unique (hasDerivAt_const (0 : ℝ) (ρ x))

theorem cellMean_directional (x₀ h : Fin 3 → ℝ) (hh : ∀ d, 0 < h d) {act : Fin 3 → Bool} {ρ : (Fin 3 → ℝ) → ℝ}
    (ha : DependsOn act ρ) (hρ : ContDiff ℝ 1 ρ) (v : Fin 3 → ℝ) (i : Ix) :
    cellMean x₀ h (fun x => fderiv ℝ ρ x v) i =
      ∑ d, if act d = true then v d * cellMean x₀ h (partialD d ρ) i else 0 := by
  have hd : Differentiable ℝ ρ := hρ.differentiable (by norm_num)
  have hc : Continuous (fderiv ℝ ρ) := hρ.continuous_fderiv (by norm_num)
  have e : (fun x => fderiv ℝ ρ x v) = fun x => ∑ d, v d * partialD d ρ x := by
    funext x
    have hv : v = ∑ d, v d • (Pi.single d (1 : ℝ) : Fin 3 → ℝ) := by
      funext e
      rw [Finset.sum_apply, Finset.sum_eq_single e]
      · simp
      · intro d _ hd
        simp [hd.symm]
      · simp
    conv_lhs => rw [hv]
    rw [map_sum]
    refine Finset.sum_congr rfl fun d _ => ?_
    rw [map_smul]
    rfl
  rw [e, cellMean_eq _ _ hh, integral_finset_sum, Finset.mul_sum]
  · refine Finset.sum_congr rfl fun d _ => ?_
    by_cases h1 : act d = true
    · rw [if_pos h1, integral_const_mul, cellMean_eq _ _ hh]
      ring
    · rw [if_neg h1]
      have : (fun x => v d * partialD d ρ x) = fun _ => 0 := by
        funext x
        rw [ha.partialD_zero hd d (by simpa using h1), mul_zero]
      rw [this]
      simp
  · intro d _
    refine Continuous.integrableOn_Icc ?_
    unfold partialD
    exact continuous_const.mul (hc.clm_apply continuous_const)

/-! ## C70 -/

/-- What C70 asks of the density near cell `i`: the active degrees are at least `q`, `ρ` has `q + 2` continuous
derivatives and depends on the active coordinates, `r` is at least the radius of the stencil, `M₀` bounds the
derivatives of order `q + 1` and `M` those of the partial derivatives on the stencil, and the mesh resolves `ρ`:
the interpolation error is below the least density `m` there. -/
structure Resolved (c : EulerConfig ℝ np) (x₀ : Fin 3 → ℝ) (ρ : (Fin 3 → ℝ) → ℝ) (q : ℕ) (r m M₀ M : ℝ) (i : Ix) :
    Prop where
  degrees : ∀ d, c.scheme.active d = true → q ≤ c.p d
  smooth : ContDiff ℝ (q + 2 : ℕ) ρ
  depends : DependsOn c.scheme.active ρ
  radius : ∀ d, c.scheme.active d = true → (reach c.scheme d + 1 / 2) * c.h d ≤ r
  radius_nonneg : 0 ≤ r
  least : ∀ x ∈ stencilBox c x₀ i, m ≤ ρ x
  bound₀ : ∀ x ∈ stencilBox c x₀ i, ‖iteratedFDeriv ℝ (q + 1) ρ x‖ ≤ M₀
  bound : ∀ d, ∀ x ∈ stencilBox c x₀ i, ‖iteratedFDeriv ℝ (q + 1) (partialD d ρ) x‖ ≤ M
  resolved : 10 * (M₀ * r ^ (q + 1) / (q + 1).factorial) < m

section

variable {c : EulerConfig ℝ np} (hc : TransportSetup c) {x₀ : Fin 3 → ℝ} {ρ : (Fin 3 → ℝ) → ℝ} {q : ℕ} {r m M₀ M : ℝ}
  {i : Ix} (hρ : Resolved c x₀ ρ q r m M₀ M i)
include hc hρ

theorem box_halfwidth (d : Fin 3) : 0 ≤ (reach c.scheme d + 1 / 2 : ℝ) * c.h d :=
  mul_nonneg (by positivity) (hc.spacing d).le

theorem center_mem : (fun d => x₀ d + ((i d : ℝ) + 1 / 2) * c.h d) ∈ stencilBox c x₀ i := fun d => by
  rw [sub_self, abs_zero]
  exact box_halfwidth hc hρ d

theorem error_nonneg : 0 ≤ M₀ * r ^ (q + 1) / (q + 1).factorial := by
  have h1 : 0 ≤ M₀ := (norm_nonneg _).trans (hρ.bound₀ _ (center_mem hc hρ))
  have := hρ.radius_nonneg
  positivity

theorem rate_error_nonneg : 0 ≤ M * r ^ (q + 1) / (q + 1).factorial := by
  have h1 : 0 ≤ M := (norm_nonneg _).trans (hρ.bound 0 _ (center_mem hc hρ))
  have := hρ.radius_nonneg
  positivity

/-- A polynomial density close to `ρ`. -/
theorem density_close : ∃ R : Density ℝ, R.HasDegree c.p ∧
    ∀ x ∈ stencilBox c x₀ i, |ρ x - R.at x| ≤ M₀ * r ^ (q + 1) / (q + 1).factorial :=
  exists_density (hρ.smooth.of_le (by exact_mod_cast Nat.le_succ _)) c.scheme.active hρ.depends c.p hρ.degrees _ _ M₀ r
    (fun d => box_halfwidth hc hρ d) hρ.radius hρ.radius_nonneg hρ.bound₀

theorem partial_smooth (d : Fin 3) : ContDiff ℝ (q + 1 : ℕ) (partialD d ρ) := by
  unfold partialD
  exact (hρ.smooth.fderiv_right (m := (q + 1 : ℕ)) (by norm_cast)).clm_apply contDiff_const

/-- A polynomial density close to a partial derivative. -/
theorem partial_close (d : Fin 3) : ∃ R : Density ℝ, R.HasDegree c.p ∧
    ∀ x ∈ stencilBox c x₀ i, |partialD d ρ x - R.at x| ≤ M * r ^ (q + 1) / (q + 1).factorial :=
  exists_density (partial_smooth hc hρ d) c.scheme.active (hρ.depends.partialD d) c.p hρ.degrees _ _ M r
    (fun d => box_halfwidth hc hρ d) hρ.radius hρ.radius_nonneg (hρ.bound d)

/-- The interpolated centre densities are positive. -/
theorem centers_positive (j : Ix) (hj : ∀ e, |j e - i e| + ceilHalf (c.p e) ≤ reach c.scheme e) :
    0 < latCenters ℝ c.p (cellMean x₀ c.h ρ) j := by
  obtain ⟨R, hR, hε⟩ := density_close hc hρ
  have hρc : Continuous ρ := hρ.smooth.continuous
  have e0 := error_nonneg hc hρ
  have h1 := means_close c hc.spacing x₀ i hρc R _ hε
  have h2 := bounded_centers hc.degree (i := j) (m := 0) e0 (fun k hk => h1 k fun e => by
    have a1 := hk e
    have a2 := hj e
    simp only [Pi.zero_apply, zero_add] at a1
    calc |k e - i e| = |(k e - j e) + (j e - i e)| := by congr 1; ring
      _ ≤ |k e - j e| + |j e - i e| := abs_add_le _ _
      _ ≤ reach c.scheme e := by omega) j (by simp)
  rw [latCenters_lin] at h2
  have h3 := hε (fun d => x₀ d + ((j d : ℝ) + 1 / 2) * c.h d) (cell_in_stencil c hc.spacing x₀ i j (fun e => by
    have := hj e
    omega) ⟨fun d => by have := hc.spacing d; dsimp only; nlinarith, fun d => by
      have := hc.spacing d; dsimp only; nlinarith⟩)
  have h4 := hρ.least (fun d => x₀ d + ((j d : ℝ) + 1 / 2) * c.h d) (cell_in_stencil c hc.spacing x₀ i j (fun e => by
    have := hj e
    omega) ⟨fun d => by have := hc.spacing d; dsimp only; nlinarith, fun d => by
      have := hc.spacing d; dsimp only; nlinarith⟩)
  rw [centers_exact R x₀ c.h hc.degree hR (fun d => (hc.spacing d).ne')] at h2
  beta_reduce at h2
  rw [stage_mid_at] at h2
  have h5 := hρ.resolved
  rw [abs_le] at h2 h3
  linarith [h2.1, h3.2]

/-- The interpolated face densities are positive. -/
theorem faces_positive (d : Fin 3) (hd : c.scheme.active d = true) (y : ℤ) (hy : y = 0 ∨ y = 1) (s : Bool) (j : Ix)
    (hj : ∀ e, |j e - (i + Pi.single d y : Ix) e| ≤ if e = d then 0 else (ceilHalf (c.p e) : ℤ)) :
    0 < faceDensity ℝ c.p d s (cellMean x₀ c.h ρ) j := by
  obtain ⟨R, hR, hε⟩ := density_close hc hρ
  have hρc : Continuous ρ := hρ.smooth.continuous
  have e0 := error_nonneg hc hρ
  have h1 := means_close c hc.spacing x₀ i hρc R _ hε
  have hfr := fluxRadius_le c d hd
  have hjd : j d = i d + y := by
    have := hj d
    simp at this
    omega
  have hje : ∀ e, e ≠ d → |j e - i e| ≤ ceilHalf (c.p e) := fun e he => by
    have := hj e
    simpa [he] using this
  have h2 := bounded_face hc.degree (i := j - if s = true then Pi.single d 1 else 0) (m := 0) e0 d s
    (fun k hk => h1 k fun e => by
      beta_reduce
      have a1 := hk e
      have a2 := hfr e
      unfold fluxRadius at a2
      simp only [Pi.zero_apply, zero_add, Pi.sub_apply] at a1
      by_cases he : e = d
      · subst he
        rw [if_pos rfl] at a2
        rw [hjd] at a1
        rw [abs_le] at a1 ⊢
        rcases hy with rfl | rfl <;> cases s <;> simp at a1 <;> constructor <;> omega
      · rw [if_neg he] at a2
        have a3 := hje e he
        have a4 : (if s = true then (Pi.single d 1 : Ix) else 0) e = 0 := by cases s <;> simp [he]
        rw [a4, sub_zero] at a1
        rw [abs_le] at a1 a3 ⊢
        constructor <;> omega) (j - if s = true then Pi.single d 1 else 0) (by simp)
  rw [faceVal_lin] at h2
  change |1 * faceDensity ℝ c.p d s (cellMean x₀ c.h ρ) j + -1 * faceDensity ℝ c.p d s (R.avg x₀ c.h) j| ≤ _ at h2
  rw [face_exact R x₀ c.h hc.degree hR (fun d => (hc.spacing d).ne'), stage_face_at] at h2
  have hmem : (fun e => x₀ e + ((j e : ℝ) + if e = d then 0 else 1 / 2) * c.h e) ∈ stencilBox c x₀ i := by
    intro e
    dsimp only
    have a2 := hfr e
    unfold fluxRadius at a2
    have hpos := hc.spacing e
    by_cases he : e = d
    · subst he
      rw [if_pos rfl] at a2 ⊢
      have a3 : (1 : ℝ) ≤ reach c.scheme e := by
        have : (1 : ℤ) ≤ reach c.scheme e := by omega
        exact_mod_cast this
      rw [hjd]
      push_cast
      rw [abs_le]
      rcases hy with rfl | rfl <;> push_cast <;> constructor <;> nlinarith
    · rw [if_neg he] at a2 ⊢
      have a3 := hje e he
      have a4 : |j e - i e| ≤ (reach c.scheme e : ℤ) := by omega
      have a5 : |(j e : ℝ) - i e| ≤ reach c.scheme e := by exact_mod_cast a4
      rw [abs_le] at a5 ⊢
      constructor <;> nlinarith
  have h3 := hε _ hmem
  have h4 := hρ.least _ hmem
  have h5 := hρ.resolved
  rw [abs_le] at h2 h3
  linarith [h2.1, h3.2]

/-- The difference of the transported densities is close to the mean of the derivative. -/
theorem transported_close (d : Fin 3) (hd : c.scheme.active d = true) (s : Bool) :
    |1 / c.h d * (transported ℝ c.p d s (cellMean x₀ c.h ρ) (i + Pi.single d 1) -
      transported ℝ c.p d s (cellMean x₀ c.h ρ) i) - cellMean x₀ c.h (partialD d ρ) i| ≤
      11 * (M * r ^ (q + 1) / (q + 1).factorial) := by
  obtain ⟨R, hR, hε⟩ := partial_close hc hρ d
  obtain ⟨G, hG, hGi, hGx⟩ := exists_quotient R c.p hR x₀ c.h d
  have e0 := rate_error_nonneg hc hρ
  have hh : ∀ d, c.h d ≠ 0 := fun d => (hc.spacing d).ne'
  have hρc : Continuous ρ := hρ.smooth.continuous
  have hρd : Differentiable ℝ ρ := hρ.smooth.differentiable (by simp)
  have hfr := fluxRadius_le c d hd
  -- the difference quotients of the means
  have h1 : BoundedNear (fun j => 1 * (1 / c.h d * cellMean x₀ c.h ρ (j + Pi.single d 1) +
      (-(1 / c.h d)) * cellMean x₀ c.h ρ j) + (-1) * G.avg x₀ c.h j) (i - if s = true then Pi.single d 1 else 0)
      (fun e => (if e = d then 3 else 4) * ceilHalf (c.p e)) (M * r ^ (q + 1) / (q + 1).factorial) := by
    intro j hj
    have hj1 : ∀ e, |j e - i e| ≤ reach c.scheme e ∧ |(j + Pi.single d 1 : Ix) e - i e| ≤ reach c.scheme e := by
      intro e
      have a1 := hj e
      have a2 := hfr e
      unfold fluxRadius at a2
      simp only [Pi.sub_apply] at a1
      by_cases he : e = d
      · subst he
        rw [if_pos rfl] at a1 a2
        rw [abs_le] at a1
        rw [abs_le, abs_le]
        cases s <;> simp at a1 ⊢ <;> omega
      · rw [if_neg he] at a1 a2
        have a4 : (if s = true then (Pi.single d 1 : Ix) else 0) e = 0 := by cases s <;> simp [he]
        rw [a4, sub_zero] at a1
        simp only [Pi.add_apply, Pi.single_eq_of_ne he, add_zero]
        omega
    have key := cellMean_sub_le x₀ c.h hc.spacing (f := fun x => (ρ (x + Pi.single d (c.h d)) - ρ x) / c.h d) (g := G.at)
      (i := j) (ε := M * r ^ (q + 1) / (q + 1).factorial)
      (((hρc.comp (continuous_id.add continuous_const)).sub hρc).div_const _) G.continuous_at (fun x hx => by
        rw [hGx]
        refine quotient_close hρd R c.h d (hc.spacing d) _ x fun τ hτ => hε _ ?_
        have b1 := cell_in_stencil c hc.spacing x₀ i j (fun e => (hj1 e).1) hx
        have b2 := cell_in_stencil c hc.spacing x₀ i (j + Pi.single d 1) (fun e => (hj1 e).2)
          (a := x + Pi.single d (c.h d)) ⟨fun e => by
            have := hx.1 e
            dsimp only at this ⊢
            by_cases he : e = d
            · subst he; simp; linarith
            · simpa [he] using this, fun e => by
            have := hx.2 e
            dsimp only at this ⊢
            by_cases he : e = d
            · subst he; simp; linarith
            · simpa [he] using this⟩
        intro e
        have c1 := b1 e
        have c2 := b2 e
        by_cases he : e = d
        · subst he
          simp only [Pi.add_apply, Pi.single_eq_same] at c2 ⊢
          rw [abs_le] at c1 c2 ⊢
          constructor <;> linarith [hτ.1, hτ.2]
        · simpa [he] using c1)
    rw [cellMean_density G x₀ c.h hc.spacing] at key
    have e1 : cellMean x₀ c.h (fun x => (ρ (x + Pi.single d (c.h d)) - ρ x) / c.h d) j =
        1 / c.h d * cellMean x₀ c.h ρ (j + Pi.single d 1) + (-(1 / c.h d)) * cellMean x₀ c.h ρ j := by
      have : (fun x => (ρ (x + Pi.single d (c.h d)) - ρ x) / c.h d) =
          fun x => 1 / c.h d * (ρ (x + Pi.single d (c.h d)) - ρ x) := by
        funext x
        ring
      have hsh : Continuous fun x : Fin 3 → ℝ => ρ (x + Pi.single d (c.h d)) :=
        hρc.comp (continuous_id.add continuous_const)
      rw [this, cellMean_smul _ _ hc.spacing, ← cellMean_sub _ _ hc.spacing hsh hρc, cellMean_next _ _ hc.spacing]
      ring
    rw [e1] at key
    beta_reduce
    rw [one_mul, neg_one_mul, ← sub_eq_add_neg]
    exact key
  have h2 := bounded_transported hc.degree e0 d s h1
  rw [transported_lin, transported_lin, transported_shift] at h2
  beta_reduce at h2
  rw [congrFun (transported_exact G x₀ c.h hc.degree hG hh d s) i, hGi] at h2
  have h3 := cellMean_sub_le x₀ c.h hc.spacing (i := i) (ε := M * r ^ (q + 1) / (q + 1).factorial)
    (partial_smooth hc hρ d).continuous R.continuous_at (fun x hx =>
      hε x (cell_in_stencil c hc.spacing x₀ i i (by simp) hx))
  rw [cellMean_density R x₀ c.h hc.spacing] at h3
  rw [abs_le] at h2 h3 ⊢
  constructor <;> linarith [h2.1, h2.2, h3.1, h3.2]

end

/-- **C70** Let the state, continued beyond the boundaries, hold within the reach of cell `i` the cell averages of a gas
of uniform velocity `v`, pressure and concentrations and of smooth density `ρ` that the mesh resolves. With the hllc
solver or the upwind solver the right-hand side at `i` succeeds; `dρ/dt` differs from the exact rate, minus the cell
average of `v · ∇ρ`, by at most `11 Σ |v_d| M r^(q+1) / (q+1)!`, which is of order `q + 1` in the spacing; all else
changes as carried by the mass. -/
theorem C70_order (c : EulerConfig ℝ np) (hc : TransportSetup c) (hk : KeepsContacts c.riem) (x₀ : Fin 3 → ℝ)
    (ρ : (Fin 3 → ℝ) → ℝ) (q : ℕ) (r m M₀ M : ℝ) (i : Ix) (hi : InCells c.n i) (hρ : Resolved c x₀ ρ q r m M₀ M i)
    (v : Fin 3 → ℝ) (P : ℝ) (x : Fin np → ℝ) (t t' : ℝ) (gl gr : Fin 3 → Ghost (State ℝ np))
    (hS : Sides c.scheme (fluxWidth c.scheme c.p) t gl gr) (u U : Ix → State ℝ np) (huU : ∀ j, InCells c.n j → u j = U j)
    (hu : ∀ j : Ix, (∀ d, |j d - i d| ≤ reach c.scheme d) →
      extAll c.n gl gr U j = conserved c.gas.gamma (flowing v P x (cellMean x₀ c.h ρ j)))
    (junk : ℕ → Ix → State ℝ np) (mem : Fin 3 → Ix → State ℝ np) :
    ∃ dt D, solverRHS c.scheme junk mem t t' u = .ok (dt, D) ∧ ∃ rate,
      D i = rate • carried v x ∧
      |rate - -cellMean x₀ c.h (fun y => fderiv ℝ ρ y v) i| ≤
        11 * (∑ d, |v d|) * (M * r ^ (q + 1) / (q + 1).factorial) := by
  obtain ⟨dt, D, e, hD⟩ := contact_rhs c hc hk v P x (cellMean x₀ c.h ρ) i hi
    (fun d hd j hj => (centers_positive hc hρ j fun e => by
      have a1 := hj e
      have a2 := fluxRadius_le c d hd e
      omega).ne')
    (fun d hd y hy j hj => (add_pos (faces_positive hc hρ d hd y hy true j hj)
      (faces_positive hc hρ d hd y hy false j hj)).ne') t t' gl gr hS u U huU hu junk mem
  refine ⟨dt, D, e, _, hD, ?_⟩
  have e0 := rate_error_nonneg hc hρ
  rw [cellMean_directional x₀ c.h hc.spacing hρ.depends (hρ.smooth.of_le (by norm_cast; omega)) v i, sub_neg_eq_add,
    neg_add_eq_sub, ← Finset.sum_sub_distrib, Finset.mul_sum, Finset.sum_mul]
  refine (Finset.abs_sum_le_sum_abs _ _).trans (Finset.sum_le_sum fun d _ => ?_)
  by_cases hd : c.scheme.active d = true
  · rw [if_pos hd, if_pos hd]
    have h1 := transported_close hc hρ d hd (decide (0 < v d))
    rw [abs_sub_comm] at h1
    have h2 := mul_le_mul_of_nonneg_left h1 (abs_nonneg (v d))
    rw [← abs_mul] at h2
    refine le_trans (le_of_eq ?_) (h2.trans (le_of_eq ?_))
    · congr 1
      ring
    · ring
  · rw [if_neg hd, if_neg hd, sub_zero, abs_zero]
    positivity

/-! ## A periodic box -/

theorem cellMean_shift (x₀ h : Fin 3 → ℝ) (hh : ∀ d, 0 < h d) (f : (Fin 3 → ℝ) → ℝ) (d : Fin 3) (k : ℕ) (j : Ix) :
    cellMean x₀ h f (j + Pi.single d (k : ℤ)) = cellMean x₀ h (fun x => f (x + Pi.single d ((k : ℝ) * h d))) j := by
  induction k generalizing f with
  | zero => simp
  | succ k ih =>
    have e1 : j + Pi.single d ((k + 1 : ℕ) : ℤ) = (j + Pi.single d (k : ℤ)) + Pi.single d 1 := by
      push_cast
      rw [Pi.single_add, add_assoc]
    rw [e1, cellMean_next x₀ h hh, ih]
    congr 1
    funext x
    rw [add_assoc, ← Pi.single_add]
    congr 3
    push_cast
    ring

/-- All active directions are periodic and wide enough for the ghost layers. -/
structure PeriodicBox (c : EulerConfig ℝ np) : Prop where
  periodic : ∀ d s, c.scheme.active d = true → c.bc.kind d s = .periodic
  wide : ∀ d, c.scheme.active d = true → fluxWidth c.scheme c.p d ≤ c.n d

theorem PeriodicBox.sides {c : EulerConfig ℝ np} (h : PeriodicBox c) (hn : ∀ d, 1 ≤ c.n d) (t : ℝ) :
    Sides c.scheme (fluxWidth c.scheme c.p) t (fun _ => .wrap) (fun _ => .wrap) := by
  have key : ∀ d s, SideSpec c.scheme.bc c.scheme.negate c.scheme.n (fluxWidth c.scheme c.p) t d s .wrap := by
    intro d s
    by_cases ha : c.scheme.active d = true
    · exact .periodic (h.periodic d s ha) (h.periodic d .l ha) (h.wide d ha) (hn d)
    · have : c.p d = 0 := c.scheme.inactive_p d (by simpa using ha)
      refine .inactive ?_ _
      unfold fluxWidth
      rw [if_neg ha, this]
      rfl
  exact fun d => ⟨key d .l, key d .r⟩

/-- The box repeats the density: with the length of the box along the active directions. -/
def PeriodicIn (c : EulerConfig ℝ np) (ρ : (Fin 3 → ℝ) → ℝ) : Prop :=
  ∀ d, c.scheme.active d = true → ∀ x, ρ (x + Pi.single d ((c.n d : ℝ) * c.h d)) = ρ x

theorem periodic_means {c : EulerConfig ℝ np} (hc : TransportSetup c) (x₀ : Fin 3 → ℝ) {ρ : (Fin 3 → ℝ) → ℝ}
    (hd : DependsOn c.scheme.active ρ) (hρ : PeriodicIn c ρ) (d : Fin 3) (j : Ix) :
    cellMean x₀ c.h ρ (j + Pi.single d (c.n d : ℤ)) = cellMean x₀ c.h ρ j := by
  rw [cellMean_shift x₀ c.h hc.spacing]
  congr 1
  funext x
  by_cases ha : c.scheme.active d = true
  · exact hρ d ha x
  · refine hd _ _ fun e he => ?_
    have : e ≠ d := by rintro rfl; exact ha he
    simp [this]

/-- **C70** in a periodic box, for all cells at once. -/
theorem C70_periodic (c : EulerConfig ℝ np) (hc : TransportSetup c) (hk : KeepsContacts c.riem) (hb : PeriodicBox c)
    (x₀ : Fin 3 → ℝ) (ρ : (Fin 3 → ℝ) → ℝ) (hper : PeriodicIn c ρ) (q : ℕ) (r m M₀ M : ℝ)
    (hρ : ∀ i, InCells c.n i → Resolved c x₀ ρ q r m M₀ M i)
    (v : Fin 3 → ℝ) (P : ℝ) (x : Fin np → ℝ) (t t' : ℝ) (u : Ix → State ℝ np)
    (hu : ∀ j : Ix, InCells c.n j → u j = conserved c.gas.gamma (flowing v P x (cellMean x₀ c.h ρ j)))
    (junk : ℕ → Ix → State ℝ np) (mem : Fin 3 → Ix → State ℝ np) :
    ∃ dt D, solverRHS c.scheme junk mem t t' u = .ok (dt, D) ∧ ∀ i, InCells c.n i → ∃ rate,
      D i = rate • carried v x ∧
      |rate - -cellMean x₀ c.h (fun y => fderiv ℝ ρ y v) i| ≤
        11 * (∑ d, |v d|) * (M * r ^ (q + 1) / (q + 1).factorial) := by
  have h0 : InCells c.n 0 := fun d => ⟨le_rfl, by have := hc.cells d; simp; omega⟩
  have hext : extAll c.n (fun _ => .wrap) (fun _ => .wrap)
      (fun j => conserved c.gas.gamma (flowing v P x (cellMean x₀ c.h ρ j))) =
      fun j => conserved c.gas.gamma (flowing v P x (cellMean x₀ c.h ρ j)) := by
    rw [extAll_wrap c.n hc.cells]
    funext j
    rw [periodic_wrap c.n (cellMean x₀ c.h ρ) (fun d j => periodic_means hc x₀ (hρ 0 h0).depends hper d j)]
  have key := fun i hi => C70_order c hc hk x₀ ρ q r m M₀ M i hi (hρ i hi) v P x t t' _ _ (hb.sides hc.cells t) u _ hu
    (fun j _ => by rw [hext]) junk mem
  obtain ⟨dt, D, e, _⟩ := key 0 h0
  refine ⟨dt, D, e, fun i hi => ?_⟩
  obtain ⟨dt', D', e', h⟩ := key i hi
  rw [e] at e'
  cases e'
  exact h

/-- The exact rate of C70 is the rate of change of the cell average when the density moves with velocity `v`. -/
theorem C70_exact_rate (x₀ h : Fin 3 → ℝ) (hh : ∀ d, 0 < h d) (ρ : (Fin 3 → ℝ) → ℝ) (hρ : ContDiff ℝ 1 ρ)
    (v : Fin 3 → ℝ) (i : Ix) :
    HasDerivAt (fun s : ℝ => cellMean x₀ h (fun y => ρ (y - s • v)) i) (-cellMean x₀ h (fun y => fderiv ℝ ρ y v) i) 0 := by
  have hd : Differentiable ℝ ρ := hρ.differentiable (by norm_num)
  have hcf : Continuous (fderiv ℝ ρ) := hρ.continuous_fderiv (by norm_num)
  have hc' : Continuous fun z : ℝ × (Fin 3 → ℝ) => -(fderiv ℝ ρ (z.2 - z.1 • v) v) := by
    refine Continuous.neg (Continuous.clm_apply (hcf.comp ?_) continuous_const)
    fun_prop
  obtain ⟨B, hB⟩ := ((isCompact_Icc (a := (-1 : ℝ)) (b := 1)).prod
    (isCompact_Icc (a := fun d => x₀ d + (i d : ℝ) * h d) (b := fun d => x₀ d + ((i d : ℝ) + 1) * h d))).exists_bound_of_continuousOn
      hc'.continuousOn
  have key := hasDerivAt_integral_of_dominated_loc_of_deriv_le (𝕜 := ℝ) (μ := volume.restrict (cellBox x₀ h i))
    (F := fun s y => ρ (y - s • v)) (F' := fun s y => -(fderiv ℝ ρ (y - s • v) v)) (x₀ := 0) (s := Icc (-1) 1)
    (bound := fun _ => B) (Icc_mem_nhds (by norm_num) (by norm_num))
    (Filter.Eventually.of_forall fun s => by
      have : Continuous fun y : Fin 3 → ℝ => ρ (y - s • v) := hρ.continuous.comp (by fun_prop)
      exact this.aestronglyMeasurable)
    (by
      have : Continuous fun y : Fin 3 → ℝ => ρ (y - (0 : ℝ) • v) := hρ.continuous.comp (by fun_prop)
      exact this.integrableOn_Icc)
    (by
      have : Continuous fun y : Fin 3 → ℝ => -(fderiv ℝ ρ (y - (0 : ℝ) • v) v) :=
        hc'.comp (f := fun y : Fin 3 → ℝ => ((0 : ℝ), y)) (by fun_prop)
      exact this.aestronglyMeasurable)
    ((ae_restrict_iff' measurableSet_Icc).2 (Filter.Eventually.of_forall fun y hy s hs => hB (s, y) ⟨hs, hy⟩))
    (by
      have : IntegrableOn (fun _ : Fin 3 → ℝ => B) (cellBox x₀ h i) := continuous_const.integrableOn_Icc
      exact this)
    (Filter.Eventually.of_forall fun y s _ => by
      have h1 : HasDerivAt (fun s : ℝ => y - s • v) (-v) s := by
        have := ((hasDerivAt_id s).smul_const v).const_sub y
        simpa using this
      have := (hd (y - s • v)).hasFDerivAt.comp_hasDerivAt s h1
      rw [map_neg] at this
      exact this)
  have h2 := key.2.const_mul ((∏ d, h d)⁻¹)
  have e1 : (fun s : ℝ => cellMean x₀ h (fun y => ρ (y - s • v)) i) =
      fun s : ℝ => (∏ d, h d)⁻¹ * ∫ y in cellBox x₀ h i, ρ (y - s • v) := funext fun s => cellMean_eq _ _ hh _ _
  have e2 : -cellMean x₀ h (fun y => fderiv ℝ ρ y v) i =
      (∏ d, h d)⁻¹ * ∫ y in cellBox x₀ h i, -(fderiv ℝ ρ (y - (0 : ℝ) • v) v) := by
    rw [cellMean_eq _ _ hh, integral_neg]
    simp
  rw [e1, e2]
  exact h2

/-! ## The hypotheses can be met -/

/-- Raising the density by a constant makes the mesh resolve it. -/
theorem exists_resolved (c : EulerConfig ℝ np) (hc : TransportSetup c) (x₀ : Fin 3 → ℝ) (f : (Fin 3 → ℝ) → ℝ) (q : ℕ)
    (hq : ∀ d, c.scheme.active d = true → q ≤ c.p d) (hf : ContDiff ℝ (q + 2 : ℕ) f) (hd : DependsOn c.scheme.active f) :
    ∃ r m M₀ M A, ∀ i, InCells c.n i → Resolved c x₀ (fun x => A + f x) q r m M₀ M i := by
  -- a ball that holds all stencils
  obtain ⟨B, hB⟩ : ∃ B, ∀ i, InCells c.n i → ∀ x ∈ stencilBox c x₀ i, x ∈ Metric.closedBall (0 : Fin 3 → ℝ) B := by
    refine ⟨∑ d, (|x₀ d| + ((c.n d : ℝ) + reach c.scheme d + 1) * c.h d), fun i hi x hx => ?_⟩
    have hterm : ∀ d, 0 ≤ |x₀ d| + ((c.n d : ℝ) + reach c.scheme d + 1) * c.h d := fun d => by
      have := (hc.spacing d).le
      positivity
    rw [mem_closedBall_zero_iff, pi_norm_le_iff_of_nonneg (Finset.sum_nonneg fun d _ => hterm d)]
    intro d
    refine le_trans ?_ (Finset.single_le_sum (fun d _ => hterm d) (Finset.mem_univ d))
    have h1 := hx d
    have h2 : (0 : ℝ) ≤ i d := by exact_mod_cast (hi d).1
    have h3 : (i d : ℝ) + 1 ≤ c.n d := by
      have : i d + 1 ≤ (c.n d : ℤ) := (hi d).2
      exact_mod_cast this
    have h4 := hc.spacing d
    rw [Real.norm_eq_abs, abs_le]
    rw [abs_le] at h1
    have h5 := neg_abs_le (x₀ d)
    have h6 := le_abs_self (x₀ d)
    constructor <;> nlinarith [mul_nonneg h2 h4.le, mul_le_mul_of_nonneg_right h3 h4.le]
  have hpd : ∀ d, ContDiff ℝ (q + 1 : ℕ) (partialD d f) := fun d => by
    unfold partialD
    exact (hf.fderiv_right (m := (q + 1 : ℕ)) (by norm_cast)).clm_apply contDiff_const
  have hcomp : IsCompact (Metric.closedBall (0 : Fin 3 → ℝ) B) := isCompact_closedBall 0 B
  obtain ⟨M₀, hM₀⟩ := hcomp.exists_bound_of_continuousOn
    (hf.continuous_iteratedFDeriv (m := q + 1) (by norm_cast; omega)).continuousOn
  have hM' : ∀ d, ∃ M, ∀ x ∈ Metric.closedBall (0 : Fin 3 → ℝ) B, ‖iteratedFDeriv ℝ (q + 1) (partialD d f) x‖ ≤ M :=
    fun d => hcomp.exists_bound_of_continuousOn ((hpd d).continuous_iteratedFDeriv (m := q + 1) le_rfl).continuousOn
  choose M hM using hM'
  obtain ⟨L, hL⟩ := hcomp.exists_bound_of_continuousOn hf.continuous.continuousOn
  obtain ⟨r, hr⟩ : ∃ r, r = ∑ d, (reach c.scheme d + 1 / 2 : ℝ) * c.h d := ⟨_, rfl⟩
  have hterm : ∀ d, 0 ≤ (reach c.scheme d + 1 / 2 : ℝ) * c.h d := fun d => by
    have := (hc.spacing d).le
    positivity
  refine ⟨r, 10 * (M₀ * r ^ (q + 1) / (q + 1).factorial) + 1, M₀, ∑ d, |M d|,
    10 * (M₀ * r ^ (q + 1) / (q + 1).factorial) + 1 + L, fun i hi => ?_⟩
  obtain ⟨A, hA⟩ : ∃ A, A = 10 * (M₀ * r ^ (q + 1) / (q + 1).factorial) + 1 + L := ⟨_, rfl⟩
  rw [← hA]
  have hfd : fderiv ℝ (fun x => A + f x) = fderiv ℝ f := funext fun x => fderiv_const_add _
  have hpe : ∀ d, partialD d (fun x => A + f x) = partialD d f := fun d => by
    unfold partialD
    rw [hfd]
  refine ⟨hq, contDiff_const.add hf, fun x y h => by rw [hd x y h], fun d _ => ?_, ?_, fun x hx => ?_, fun x hx => ?_,
    fun d x hx => ?_, by linarith⟩
  · rw [hr]
    exact Finset.single_le_sum (fun d _ => hterm d) (Finset.mem_univ d)
  · rw [hr]
    exact Finset.sum_nonneg fun d _ => hterm d
  · have := hL x (hB i hi x hx)
    rw [Real.norm_eq_abs, abs_le] at this
    linarith [this.1]
  · rw [← norm_iteratedFDeriv_fderiv, hfd, norm_iteratedFDeriv_fderiv]
    exact hM₀ x (hB i hi x hx)
  · rw [hpe]
    refine (hM d x (hB i hi x hx)).trans ((le_abs_self _).trans ?_)
    exact Finset.single_le_sum (f := fun d => |M d|) (fun d _ => abs_nonneg _) (Finset.mem_univ d)

/-- A two-dimensional periodic box, long `2π` in x, with degrees (3, 2) and the hllc solver. -/
noncomputable def waveConfig : EulerConfig ℝ 1 where
  gas := airGas
  riem := .hllc
  n := ![32, 24, 1]
  p := ![3, 2, 0]
  h := ![Real.pi / 16, 1, 1]
  cfl := 1 / 2
  fixedDt := none
  bc := ⟨fun _ _ => .periodic, fun _ _ => .other, none⟩
  limiting := none

/-- C70 applies to a density `A + sin x` in this box, which is not constant. -/
example : TransportSetup waveConfig ∧ KeepsContacts waveConfig.riem ∧ PeriodicBox waveConfig ∧
    ∃ r m M₀ M A, PeriodicIn waveConfig (fun x => A + Real.sin (x 0)) ∧
      ∀ i, InCells waveConfig.n i → Resolved waveConfig 0 (fun x => A + Real.sin (x 0)) 2 r m M₀ M i := by
  have hpi := Real.pi_pos
  have ha : ∀ d, waveConfig.scheme.active d = (![true, true, false] : Fin 3 → Bool) d := by decide
  have hc : TransportSetup waveConfig := by
    refine ⟨rfl, by decide, by decide, ?_, ?_, fun _ => ⟨airGas_sqrt, ?_⟩⟩
    · intro d
      match d with
      | 0 => exact div_pos hpi (by norm_num)
      | 1 => exact one_pos
      | 2 => exact one_pos
    · norm_num [waveConfig, airGas]
    · norm_num [waveConfig, airGas]
  refine ⟨hc, Or.inl rfl, ⟨fun _ _ _ => rfl, by decide⟩, ?_⟩
  obtain ⟨r, m, M₀, M, A, h⟩ := exists_resolved waveConfig hc 0 (fun x => Real.sin (x 0)) 2 (by decide)
    (Real.contDiff_sin.comp (contDiff_apply ℝ ℝ (0 : Fin 3))) (fun x y hxy => congrArg Real.sin (hxy 0 (by decide)))
  refine ⟨r, m, M₀, M, A, fun d hd x => ?_, h⟩
  match d with
  | 0 =>
    have e : (((waveConfig.n 0 : ℕ) : ℝ) * waveConfig.h 0) = 2 * Real.pi := by
      change ((32 : ℕ) : ℝ) * (Real.pi / 16) = _
      push_cast
      ring
    rw [e]
    simp
  | 1 => simp
  | 2 => exact absurd hd (by rw [ha]; decide)

end FVHOE
