import Mathlib.MeasureTheory.Integral.DivergenceTheorem
import Verif.Props.C70

/-!
Means over the faces of cells.
-/

set_option linter.unusedSectionVars false

namespace FVHOE

open Polynomial MeasureTheory Set

/-- The points of the face `i` in direction `d`, without the coordinate `d`. -/
def faceBox (x₀ h : Fin 3 → ℝ) (d : Fin 3) (i : Ix) : Set (Fin 2 → ℝ) :=
  Icc (fun e => x₀ (d.succAbove e) + (i (d.succAbove e) : ℝ) * h (d.succAbove e))
    (fun e => x₀ (d.succAbove e) + ((i (d.succAbove e) : ℝ) + 1) * h (d.succAbove e))

/-- A point of the face. -/
def onFace (x₀ h : Fin 3 → ℝ) (d : Fin 3) (i : Ix) (y : Fin 2 → ℝ) : Fin 3 → ℝ :=
  d.insertNth (x₀ d + (i d : ℝ) * h d) y

/-- The mean of a function over the left face of cell `i` in direction `d`. -/
noncomputable def faceMean (x₀ h : Fin 3 → ℝ) (d : Fin 3) (f : (Fin 3 → ℝ) → ℝ) (i : Ix) : ℝ :=
  ⨍ y in faceBox x₀ h d i, f (onFace x₀ h d i y)

variable (x₀ h : Fin 3 → ℝ) (hh : ∀ d, 0 < h d) (d : Fin 3)
include hh

theorem faceBox_vol (i : Ix) : volume.real (faceBox x₀ h d i) = ∏ e, h (d.succAbove e) := by
  unfold faceBox Measure.real
  rw [Real.volume_Icc_pi_toReal]
  · exact Finset.prod_congr rfl fun e _ => by ring
  · intro e
    have := hh (d.succAbove e)
    dsimp only
    nlinarith

theorem faceMean_eq (f : (Fin 3 → ℝ) → ℝ) (i : Ix) :
    faceMean x₀ h d f i = (∏ e, h (d.succAbove e))⁻¹ * ∫ y in faceBox x₀ h d i, f (onFace x₀ h d i y) := by
  unfold faceMean
  rw [setAverage_eq, faceBox_vol x₀ h hh]
  rfl

omit hh in
theorem continuous_onFace (i : Ix) : Continuous (onFace x₀ h d i) := by
  unfold onFace
  fun_prop

theorem faceMean_sub_le {f g : (Fin 3 → ℝ) → ℝ} (hf : Continuous f) (hg : Continuous g) {i : Ix} {ε : ℝ}
    (hfg : ∀ y ∈ faceBox x₀ h d i, |f (onFace x₀ h d i y) - g (onFace x₀ h d i y)| ≤ ε) :
    |faceMean x₀ h d f i - faceMean x₀ h d g i| ≤ ε := by
  have hv : 0 < ∏ e, h (d.succAbove e) := Finset.prod_pos fun e _ => hh _
  have hc := continuous_onFace x₀ h d i
  rw [faceMean_eq x₀ h hh, faceMean_eq x₀ h hh, ← mul_sub]
  have i1 : IntegrableOn (fun y => f (onFace x₀ h d i y)) (faceBox x₀ h d i) := (hf.comp hc).integrableOn_Icc
  have i2 : IntegrableOn (fun y => g (onFace x₀ h d i y)) (faceBox x₀ h d i) := (hg.comp hc).integrableOn_Icc
  rw [← integral_sub i1 i2, abs_mul, abs_of_pos (inv_pos.2 hv)]
  have h1 := norm_setIntegral_le_of_norm_le_const (μ := volume) (s := faceBox x₀ h d i)
    (f := fun y => f (onFace x₀ h d i y) - g (onFace x₀ h d i y)) (C := ε)
    (by unfold faceBox; exact isCompact_Icc.measure_lt_top) hfg
  rw [faceBox_vol x₀ h hh, Real.norm_eq_abs] at h1
  rw [inv_mul_le_iff₀ hv, mul_comm]
  exact h1

/-- The mean of a polynomial density over a face. -/
theorem faceMean_density (R : Density ℝ) (i : Ix) : faceMean x₀ h d R.at i = R.stage x₀ h (faceAvg d) i := by
  have hpc : ∀ a d, Continuous fun x : ℝ => (R.P a d).derivative.eval x := fun a d => Polynomial.continuous _
  rw [faceMean_eq x₀ h hh]
  unfold Density.at Density.stage
  have hpi : faceBox x₀ h d i = Set.pi univ fun e => Icc (x₀ (d.succAbove e) + (i (d.succAbove e) : ℝ) * h (d.succAbove e))
      (x₀ (d.succAbove e) + ((i (d.succAbove e) : ℝ) + 1) * h (d.succAbove e)) := by
    unfold faceBox
    rw [Set.pi_univ_Icc]
  have hs : ∀ (a : R.ι) (y : Fin 2 → ℝ), ∏ e, (R.P a e).derivative.eval (onFace x₀ h d i y e) =
      (R.P a d).derivative.eval (x₀ d + (i d : ℝ) * h d) * ∏ e, (R.P a (d.succAbove e)).derivative.eval (y e) := by
    intro a y
    rw [Fin.prod_univ_succAbove _ d]
    unfold onFace
    simp
  simp only [hs]
  rw [integral_finsetSum]
  · rw [Finset.mul_sum]
    refine Finset.sum_congr rfl fun a _ => ?_
    rw [integral_const_mul, hpi, volume_pi, Measure.restrict_pi_pi,
      integral_fintype_prod_eq_prod (fun e x => (R.P a (d.succAbove e)).derivative.eval x), mul_left_comm,
      ← Finset.prod_inv_distrib, ← Finset.prod_mul_distrib, Fin.prod_univ_succAbove _ d]
    congr 1
    · unfold faceAvg
      rw [if_pos rfl]
      rfl
    · refine Finset.prod_congr rfl fun e _ => ?_
      have hle : x₀ (d.succAbove e) + (i (d.succAbove e) : ℝ) * h (d.succAbove e) ≤
          x₀ (d.succAbove e) + ((i (d.succAbove e) : ℝ) + 1) * h (d.succAbove e) := by have := hh (d.succAbove e); nlinarith
      rw [integral_Icc_eq_integral_Ioc, ← intervalIntegral.integral_of_le hle,
        intervalIntegral.integral_eq_sub_of_hasDerivAt (f := fun x => (R.P a (d.succAbove e)).eval x)
          (fun x _ => (R.P a (d.succAbove e)).hasDerivAt x) ((hpc a (d.succAbove e)).intervalIntegrable _ _)]
      unfold faceAvg
      rw [if_neg (Fin.succAbove_ne d e)]
      unfold Kind.val cellAvg
      rw [div_eq_inv_mul]
  · intro a _
    refine Continuous.integrableOn_Icc ?_
    exact continuous_const.mul (continuous_finsetProd _ fun e _ => (hpc a _).comp (continuous_apply e))

/-- The mean of the derivative over a cell is the difference of the means over its two faces. -/
theorem cellMean_partialD {g : (Fin 3 → ℝ) → ℝ} (hg : ContDiff ℝ 1 g) (i : Ix) :
    cellMean x₀ h (partialD d g) i =
      1 / h d * (faceMean x₀ h d g (i + Pi.single d 1) - faceMean x₀ h d g i) := by
  have hd : Differentiable ℝ g := hg.differentiable (by norm_num)
  have hcf : Continuous (fderiv ℝ g) := hg.continuous_fderiv (by norm_num)
  have key := integral_divergence_of_hasFDerivAt_off_countable' (n := 2)
    (fun d => x₀ d + (i d : ℝ) * h d) (fun d => x₀ d + ((i d : ℝ) + 1) * h d)
    (fun e => by have := hh e; dsimp only; nlinarith) (fun e x => if e = d then g x else 0)
    (fun e x => if e = d then fderiv ℝ g x else 0) ∅ countable_empty
    (fun e => by by_cases he : e = d <;> simp only [he, if_true, if_false] <;> first | exact hg.continuous.continuousOn | exact continuousOn_const)
    (fun x _ e => by
      by_cases he : e = d
      · simp only [he, if_true]
        exact (hd x).hasFDerivAt
      · simp only [he, if_false]
        exact hasFDerivAt_const _ _)
    (Continuous.integrableOn_Icc (by
      refine continuous_finsetSum _ fun e _ => ?_
      by_cases he : e = d
      · simp only [he, if_true]
        exact hcf.clm_apply continuous_const
      · simp only [he, if_false]
        simp
        exact continuous_const))
  rw [Finset.sum_eq_single d (fun e _ he => by simp [he]) (by simp)] at key
  have e1 : (fun x : Fin 3 → ℝ => ∑ e, (if e = d then fderiv ℝ g x else 0) (Pi.single e 1)) = partialD d g := by
    funext x
    rw [Finset.sum_eq_single d (fun e _ he => by simp [he]) (by simp), if_pos rfl]
    rfl
  rw [e1] at key
  simp only [if_true] at key
  have b1 : faceBox x₀ h d (i + Pi.single d 1) = faceBox x₀ h d i := by
    unfold faceBox
    simp [Fin.succAbove_ne]
  have b2 : onFace x₀ h d (i + Pi.single d 1) = fun y => d.insertNth (α := fun _ => ℝ) (x₀ d + ((i d : ℝ) + 1) * h d) y := by
    funext y
    unfold onFace
    simp
  rw [cellMean_eq x₀ h hh, faceMean_eq x₀ h hh, faceMean_eq x₀ h hh, b1, b2, ← mul_sub, ← mul_assoc,
    Fin.prod_univ_succAbove _ d, mul_inv, one_div]
  congr 1

end FVHOE
