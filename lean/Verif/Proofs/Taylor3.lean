import Mathlib.Analysis.Calculus.TaylorIntegral
import Mathlib.Analysis.SpecialFunctions.Integrals.Basic
import Mathlib.MeasureTheory.Integral.Average
import Mathlib.MeasureTheory.Integral.Pi
import Mathlib.Analysis.Calculus.Deriv.Polynomial
import Mathlib.Topology.Algebra.Polynomial
import Verif.Props.C63

/-!
Smooth functions on space: Taylor polynomials as densities of C63, and means over cells.
-/

set_option linter.unusedSectionVars false

namespace FVHOE

open Polynomial MeasureTheory Set

theorem exists_antiderivative (A : ℝ[X]) : ∃ P : ℝ[X], P.derivative = A ∧ P.natDegree ≤ A.natDegree + 1 := by
  refine ⟨A.sum fun n a => monomial (n + 1) (a / (n + 1)), ?_, ?_⟩
  · conv_rhs => rw [← A.sum_monomial_eq]
    unfold Polynomial.sum
    rw [derivative_sum]
    refine Finset.sum_congr rfl fun n _ => ?_
    rw [derivative_monomial]
    have : (n : ℝ) + 1 ≠ 0 := by positivity
    congr 1
    push_cast
    field_simp
  · unfold Polynomial.sum
    refine natDegree_sum_le_of_forall_le _ _ fun n hn => (natDegree_monomial_le _).trans ?_
    have := le_natDegree_of_mem_supp n hn
    omega

/-- The remainder of Taylor's formula. -/
theorem taylor_remainder {f : (Fin 3 → ℝ) → ℝ} {q : ℕ} (hf : ContDiff ℝ (q + 1 : ℕ) f) (x y : Fin 3 → ℝ) (M r : ℝ)
    (hr : ‖y‖ ≤ r) (hM : ∀ t ∈ Icc (0 : ℝ) 1, ‖iteratedFDeriv ℝ (q + 1) f (x + t • y)‖ ≤ M) :
    |f (x + y) - ∑ k ∈ Finset.range (q + 1), ((k.factorial : ℝ))⁻¹ * iteratedFDeriv ℝ k f x (fun _ => y)| ≤
      M * r ^ (q + 1) / (q + 1).factorial := by
  have h := map_add_eq_sum_add_integral_iteratedFDeriv (f := f) (x := x) (y := y) (n := q)
    fun t _ => hf.contDiffAt
  rw [h]
  simp only [smul_eq_mul, add_sub_cancel_left]
  have hM0 : 0 ≤ M := (norm_nonneg _).trans (hM 0 (by simp))
  have hr0 : 0 ≤ r := (norm_nonneg _).trans hr
  have e : ∫ t in (0 : ℝ)..1, M * r ^ (q + 1) * (1 - t) ^ q = M * r ^ (q + 1) / (q + 1) := by
    rw [intervalIntegral.integral_const_mul]
    have := intervalIntegral.integral_comp_sub_left (a := (0 : ℝ)) (b := 1) (fun t : ℝ => t ^ q) 1
    rw [this, integral_pow]
    simp
    ring
  have hb : |∫ t in (0 : ℝ)..1, (1 - t) ^ q * iteratedFDeriv ℝ (q + 1) f (x + t • y) (fun _ => y)| ≤
      M * r ^ (q + 1) / (q + 1) := by
    rw [← e, ← Real.norm_eq_abs]
    refine intervalIntegral.norm_integral_le_of_norm_le zero_le_one ?_ ?_
    · refine Filter.Eventually.of_forall fun t ht => ?_
      have h1 : 0 ≤ 1 - t := by linarith [ht.2]
      rw [norm_mul, Real.norm_eq_abs, abs_of_nonneg (pow_nonneg h1 q), mul_comm]
      refine mul_le_mul_of_nonneg_right ?_ (pow_nonneg h1 q)
      refine (ContinuousMultilinearMap.le_opNorm _ _).trans ?_
      rw [Finset.prod_const, Finset.card_univ, Fintype.card_fin]
      exact mul_le_mul (hM t ⟨ht.1.le, ht.2⟩) (pow_le_pow_left₀ (norm_nonneg _) hr _) (by positivity) hM0
    · apply Continuous.intervalIntegrable
      fun_prop
  rw [abs_mul, abs_of_nonneg (by positivity : (0 : ℝ) ≤ ((q.factorial : ℝ))⁻¹)]
  refine (mul_le_mul_of_nonneg_left hb (by positivity)).trans (le_of_eq ?_)
  rw [Nat.factorial_succ]
  push_cast
  field_simp

/-- A function that does not vary along the directions outside `act` is close to a polynomial density of degree `q` in
the others. -/
theorem exists_density {f : (Fin 3 → ℝ) → ℝ} {q : ℕ} (hf : ContDiff ℝ (q + 1 : ℕ) f) (act : Fin 3 → Bool)
    (hc : ∀ x y : Fin 3 → ℝ, (∀ d, act d = true → x d = y d) → f x = f y) (p : Fin 3 → ℕ)
    (hp : ∀ d, act d = true → q ≤ p d) (x₀ : Fin 3 → ℝ) (l : Fin 3 → ℝ) (M r : ℝ)
    (hl : ∀ d, 0 ≤ l d) (hlr : ∀ d, act d = true → l d ≤ r) (hr : 0 ≤ r)
    (hM : ∀ x, (∀ d, |x d - x₀ d| ≤ l d) → ‖iteratedFDeriv ℝ (q + 1) f x‖ ≤ M) :
    ∃ R : Density ℝ, R.HasDegree p ∧
      ∀ x, (∀ d, |x d - x₀ d| ≤ l d) → |f x - R.at x| ≤ M * r ^ (q + 1) / (q + 1).factorial := by
  classical
  -- how often a direction occurs
  let cnt : (k : ℕ) → (Fin k → Fin 3) → Fin 3 → ℕ := fun k s d => (Finset.univ.filter fun j => s j = d).card
  let co : (k : ℕ) → (Fin k → Fin 3) → ℝ := fun k s =>
    ((k.factorial : ℝ))⁻¹ * iteratedFDeriv ℝ k f x₀ (fun j => Pi.single (s j) 1)
  let A : (k : ℕ) → (Fin k → Fin 3) → Fin 3 → ℝ[X] := fun k s d =>
    C (if d = 0 then co k s else 1) * if act d = true then (X - C (x₀ d)) ^ cnt k s d else C (0 ^ cnt k s d)
  choose anti hanti hdeg using exists_antiderivative
  let R : Density ℝ := ⟨Σ k : Fin (q + 1), (Fin k → Fin 3), Finset.univ, fun a d => anti (A a.1 a.2 d)⟩
  refine ⟨R, ?_, ?_⟩
  · rintro ⟨⟨k, hk⟩, s⟩ d
    refine (hdeg _).trans (Nat.add_le_add_right ?_ 1)
    refine (natDegree_C_mul_le _ _).trans ?_
    by_cases hd : act d = true
    · rw [if_pos hd]
      refine natDegree_pow_le.trans ?_
      rw [natDegree_X_sub_C, mul_one]
      have h1 : cnt k s d ≤ k := by
        have := Finset.card_filter_le (Finset.univ : Finset (Fin k)) fun j => s j = d
        simpa [cnt] using this
      have := hp d hd
      change cnt k s d ≤ p d
      omega
    · rw [if_neg hd, natDegree_C]
      exact Nat.zero_le _
  · intro x hx
    -- move along the active directions only
    let y : Fin 3 → ℝ := fun d => if act d = true then x d - x₀ d else 0
    have hfx : f x = f (x₀ + y) := hc _ _ fun d hd => by simp [y, hd]
    have hyd : ∀ d, |y d| ≤ l d := fun d => by
      by_cases hd : act d = true
      · simpa [y, hd] using hx d
      · simpa [y, hd] using hl d
    have hyn : ‖y‖ ≤ r := by
      refine (pi_norm_le_iff_of_nonneg hr).2 fun d => ?_
      by_cases hd : act d = true
      · exact (hyd d).trans (hlr d hd)
      · simpa [y, hd] using hr
    have key := taylor_remainder hf x₀ y M r hyn fun t ht => hM _ fun d => by
      have : (x₀ + t • y) d - x₀ d = t * y d := by simp
      rw [this, abs_mul, abs_of_nonneg ht.1]
      exact (mul_le_of_le_one_left (abs_nonneg _) ht.2).trans (hyd d)
    rw [hfx]
    have hR : R.at x = ∑ k ∈ Finset.range (q + 1), ((k.factorial : ℝ))⁻¹ * iteratedFDeriv ℝ k f x₀ (fun _ => y) := by
      have hk : ∀ k : ℕ, ((k.factorial : ℝ))⁻¹ * iteratedFDeriv ℝ k f x₀ (fun _ => y) =
          ∑ s : Fin k → Fin 3, ∏ d, (A k s d).eval (x d) := by
        intro k
        have hy : (fun _ : Fin k => y) = fun _ : Fin k => ∑ d : Fin 3, y d • (Pi.single d (1 : ℝ) : Fin 3 → ℝ) := by
          funext _ e
          rw [Finset.sum_apply, Finset.sum_eq_single e]
          · simp
          · intro d _ hd
            simp [hd.symm]
          · simp
        rw [hy]
        have h1 := (iteratedFDeriv ℝ k f x₀).toMultilinearMap.map_sum
          (fun (_ : Fin k) (d : Fin 3) => y d • (Pi.single d (1 : ℝ) : Fin 3 → ℝ))
        change iteratedFDeriv ℝ k f x₀ (fun _ => ∑ d : Fin 3, y d • (Pi.single d (1 : ℝ) : Fin 3 → ℝ)) = _ at h1
        rw [h1, Finset.mul_sum]
        refine Finset.sum_congr rfl fun s _ => ?_
        have h2 := (iteratedFDeriv ℝ k f x₀).toMultilinearMap.map_smul_univ (fun j => y (s j))
          (fun j => (Pi.single (s j) (1 : ℝ) : Fin 3 → ℝ))
        have h3 : ∏ j, y (s j) = ∏ d, y d ^ cnt k s d := by
          rw [← Finset.prod_fiberwise Finset.univ s]
          refine Finset.prod_congr rfl fun d _ => ?_
          rw [Finset.prod_congr rfl (g := fun _ => y d) (fun j hj => by rw [(Finset.mem_filter.1 hj).2]),
            Finset.prod_const]
        have h4 : ∏ d, (A k s d).eval (x d) = co k s * ∏ d, y d ^ cnt k s d := by
          have : ∀ d, (A k s d).eval (x d) = (if d = 0 then co k s else 1) * y d ^ cnt k s d := by
            intro d
            by_cases hd : act d = true
            · simp [A, y, hd]
            · simp [A, y, hd]
          rw [Finset.prod_congr rfl fun d _ => this d, Finset.prod_mul_distrib]
          congr 1
          simp
        rw [h4, ← h3]
        change _ * (iteratedFDeriv ℝ k f x₀).toMultilinearMap (fun j => y (s j) • (Pi.single (s j) (1 : ℝ) : Fin 3 → ℝ)) = _
        rw [h2]
        change _ * ((∏ j, y (s j)) * iteratedFDeriv ℝ k f x₀ (fun j => Pi.single (s j) 1)) = _
        simp only [co]
        ring
      rw [Finset.sum_congr rfl fun k _ => hk k]
      unfold Density.at
      change ∑ a : Σ k : Fin (q + 1), (Fin k → Fin 3), ∏ d, (anti (A a.1 a.2 d)).derivative.eval (x d) = _
      rw [Fintype.sum_sigma, Finset.sum_range fun k => ∑ s : Fin k → Fin 3, ∏ d, (A k s d).eval (x d)]
      simp only [hanti]
    rw [hR]
    exact key

/-! ## Means over cells -/

/-- Cell `i` of the mesh with origin `x₀` and spacings `h`. -/
def cellBox (x₀ h : Fin 3 → ℝ) (i : Ix) : Set (Fin 3 → ℝ) :=
  Icc (fun d => x₀ d + (i d : ℝ) * h d) (fun d => x₀ d + ((i d : ℝ) + 1) * h d)

/-- The mean of a function over a cell. -/
noncomputable def cellMean (x₀ h : Fin 3 → ℝ) (f : (Fin 3 → ℝ) → ℝ) (i : Ix) : ℝ := ⨍ x in cellBox x₀ h i, f x

theorem cellBox_vol (x₀ h : Fin 3 → ℝ) (hh : ∀ d, 0 < h d) (i : Ix) :
    volume.real (cellBox x₀ h i) = ∏ d, h d := by
  unfold cellBox Measure.real
  rw [Real.volume_Icc_pi_toReal]
  · exact Finset.prod_congr rfl fun d _ => by ring
  · intro d
    have := hh d
    dsimp only
    nlinarith

theorem cellMean_eq (x₀ h : Fin 3 → ℝ) (hh : ∀ d, 0 < h d) (f : (Fin 3 → ℝ) → ℝ) (i : Ix) :
    cellMean x₀ h f i = (∏ d, h d)⁻¹ * ∫ x in cellBox x₀ h i, f x := by
  unfold cellMean
  rw [setAverage_eq, cellBox_vol x₀ h hh]
  rfl

theorem cellMean_sub (x₀ h : Fin 3 → ℝ) (hh : ∀ d, 0 < h d) {f g : (Fin 3 → ℝ) → ℝ} (hf : Continuous f)
    (hg : Continuous g) (i : Ix) : cellMean x₀ h f i - cellMean x₀ h g i = cellMean x₀ h (fun x => f x - g x) i := by
  rw [cellMean_eq _ _ hh, cellMean_eq _ _ hh, cellMean_eq _ _ hh, ← mul_sub]
  congr 1
  exact (integral_sub hf.integrableOn_Icc hg.integrableOn_Icc).symm

theorem cellMean_smul (x₀ h : Fin 3 → ℝ) (hh : ∀ d, 0 < h d) (c : ℝ) (f : (Fin 3 → ℝ) → ℝ) (i : Ix) :
    cellMean x₀ h (fun x => c * f x) i = c * cellMean x₀ h f i := by
  rw [cellMean_eq _ _ hh, cellMean_eq _ _ hh, integral_const_mul]
  ring

theorem cellMean_abs_le (x₀ h : Fin 3 → ℝ) (hh : ∀ d, 0 < h d) {f : (Fin 3 → ℝ) → ℝ} {i : Ix} {ε : ℝ}
    (hf : ∀ x ∈ cellBox x₀ h i, |f x| ≤ ε) : |cellMean x₀ h f i| ≤ ε := by
  have hv : 0 < ∏ d, h d := Finset.prod_pos fun d _ => hh d
  rw [cellMean_eq _ _ hh, abs_mul, abs_of_pos (inv_pos.2 hv)]
  have h1 := norm_setIntegral_le_of_norm_le_const (μ := volume) (s := cellBox x₀ h i) (f := f) (C := ε)
    (by unfold cellBox; exact isCompact_Icc.measure_lt_top) hf
  rw [cellBox_vol x₀ h hh, Real.norm_eq_abs] at h1
  rw [inv_mul_le_iff₀ hv, mul_comm]
  exact h1

theorem cellMean_sub_le (x₀ h : Fin 3 → ℝ) (hh : ∀ d, 0 < h d) {f g : (Fin 3 → ℝ) → ℝ} (hf : Continuous f)
    (hg : Continuous g) {i : Ix} {ε : ℝ} (hfg : ∀ x ∈ cellBox x₀ h i, |f x - g x| ≤ ε) :
    |cellMean x₀ h f i - cellMean x₀ h g i| ≤ ε := by
  rw [cellMean_sub x₀ h hh hf hg]
  exact cellMean_abs_le x₀ h hh hfg

theorem Density.continuous_at (R : Density ℝ) : Continuous R.at := by
  unfold Density.at
  refine continuous_finset_sum _ fun a _ => continuous_finset_prod _ fun d _ => ?_
  exact (Polynomial.continuous _).comp (continuous_apply d)

/-- The mean of a polynomial density is the average C63 speaks of. -/
theorem cellMean_density (R : Density ℝ) (x₀ h : Fin 3 → ℝ) (hh : ∀ d, 0 < h d) (i : Ix) :
    cellMean x₀ h R.at i = R.avg x₀ h i := by
  have hpc : ∀ a d, Continuous fun x : ℝ => (R.P a d).derivative.eval x := fun a d => Polynomial.continuous _
  rw [cellMean_eq _ _ hh]
  unfold Density.at Density.avg
  rw [integral_finset_sum]
  · rw [Finset.mul_sum]
    refine Finset.sum_congr rfl fun a _ => ?_
    have hpi : cellBox x₀ h i = Set.pi univ fun d => Icc (x₀ d + (i d : ℝ) * h d) (x₀ d + ((i d : ℝ) + 1) * h d) := by
      unfold cellBox
      rw [Set.pi_univ_Icc]
    rw [hpi, volume_pi, Measure.restrict_pi_pi,
      integral_fintype_prod_eq_prod (fun d x => (R.P a d).derivative.eval x), ← Finset.prod_inv_distrib,
      ← Finset.prod_mul_distrib]
    refine Finset.prod_congr rfl fun d _ => ?_
    have hle : x₀ d + (i d : ℝ) * h d ≤ x₀ d + ((i d : ℝ) + 1) * h d := by have := hh d; nlinarith
    rw [integral_Icc_eq_integral_Ioc, ← intervalIntegral.integral_of_le hle,
      intervalIntegral.integral_eq_sub_of_hasDerivAt (f := fun x => (R.P a d).eval x)
        (fun x _ => (R.P a d).hasDerivAt x) ((hpc a d).intervalIntegrable _ _)]
    unfold cellAvg
    rw [div_eq_inv_mul]
  · intro a _
    refine Continuous.integrableOn_Icc ?_
    exact continuous_finset_prod _ fun d _ => (hpc a d).comp (continuous_apply d)

end FVHOE
