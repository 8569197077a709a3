import Mathlib.Algebra.Module.ZLattice.Basic
import Mathlib.MeasureTheory.Function.ContinuousMapDense
import Mathlib.MeasureTheory.Measure.Haar.OfBasis
import Mathlib.MeasureTheory.Group.Integral
import Mathlib.MeasureTheory.Integral.Prod
import Mathlib.MeasureTheory.Integral.DominatedConvergence
import Mathlib.Topology.UniformSpace.HeineCantor

/-! Integrals of periodic functions over a box, and continuity of translations in the mean. -/

set_option linter.unusedSectionVars false

open MeasureTheory Set Filter Topology Pointwise

namespace FVHOE

/-- The box with one corner at the origin and sides `ℓ`. -/
def sideBox (ℓ : Fin 3 → ℝ) : Set (Fin 3 → ℝ) := {x | ∀ d, 0 ≤ x d ∧ x d < ℓ d}

/-- The function repeats itself with the sides of the box. -/
def BoxPeriodic {E : Type*} (ℓ : Fin 3 → ℝ) (P : (Fin 3 → ℝ) → E) : Prop := ∀ d x, P (x + Pi.single d (ℓ d)) = P x

theorem sideBox_pi (ℓ : Fin 3 → ℝ) : sideBox ℓ = Set.univ.pi fun d => Set.Ico 0 (ℓ d) := by
  ext x
  simp [sideBox]

theorem measurableSet_sideBox (ℓ : Fin 3 → ℝ) : MeasurableSet (sideBox ℓ) := by
  rw [sideBox_pi]
  exact MeasurableSet.univ_pi fun _ => measurableSet_Ico

theorem volume_sideBox_lt_top (ℓ : Fin 3 → ℝ) : volume (sideBox ℓ) < ⊤ := by
  rw [sideBox_pi, Real.volume_pi_Ico]
  exact ENNReal.prod_lt_top fun _ _ => ENNReal.ofReal_lt_top

instance (ℓ : Fin 3 → ℝ) : IsFiniteMeasure (volume.restrict (sideBox ℓ)) :=
  ⟨by rw [Measure.restrict_apply_univ]; exact volume_sideBox_lt_top ℓ⟩

/-- Integrals of a periodic function over the box and over the shifted box agree. -/
theorem box_shift {ℓ : Fin 3 → ℝ} (hℓ : ∀ d, 0 < ℓ d) {E : Type*} [NormedAddCommGroup E] [NormedSpace ℝ E]
    {P : (Fin 3 → ℝ) → E} (hP : BoxPeriodic ℓ P) (a : Fin 3 → ℝ) :
    ∫ x in sideBox ℓ, P (x + a) = ∫ x in sideBox ℓ, P x := by
  let b : Module.Basis (Fin 3) ℝ (Fin 3 → ℝ) := (Pi.basisFun ℝ (Fin 3)).isUnitSMul fun d => isUnit_iff_ne_zero.2 (hℓ d).ne'
  have hb : ∀ d, b d = Pi.single d (ℓ d) := fun d => by
    rw [Module.Basis.isUnitSMul_apply]
    funext e
    by_cases h : e = d
    · subst h; simp
    · simp [h]
  have hdom : ZSpan.fundamentalDomain b = sideBox ℓ := by
    ext x
    rw [ZSpan.mem_fundamentalDomain]
    refine forall_congr' fun d => ?_
    have e : b.repr x d = x d / ℓ d := by
      rw [Module.Basis.repr_isUnitSMul, Pi.basisFun_repr, Units.smul_def, smul_eq_mul, Units.val_inv_eq_inv_val, IsUnit.unit_spec, div_eq_inv_mul]
    rw [e, Set.mem_Ico, le_div_iff₀ (hℓ d), div_lt_one (hℓ d), zero_mul]
  have key : ∀ g ∈ Submodule.span ℤ (Set.range b), ∀ x : Fin 3 → ℝ, P (g + x) = P x := by
    intro g hg
    induction hg using Submodule.span_induction with
    | mem y hy =>
      obtain ⟨d, rfl⟩ := hy
      intro x
      rw [hb, add_comm]
      exact hP d x
    | zero => intro x; rw [zero_add]
    | add y z _ _ h1 h2 => intro x; rw [add_assoc, h1, h2]
    | smul r y _ h1 =>
      intro x
      revert x
      induction r using Int.induction_on with
      | zero => intro x; simp
      | succ n ih => intro x; rw [add_smul, one_smul, add_assoc, ih, h1]
      | pred n ih =>
        intro x
        rw [sub_smul, one_smul, sub_add_eq_add_sub, add_sub_assoc, ih, ← h1 (x - y), add_sub_cancel]
  have hinv : ∀ (g : (Submodule.span ℤ (Set.range b)).toAddSubgroup) (x : Fin 3 → ℝ), P (g +ᵥ x) = P x := fun g x => key g.1 g.2 x
  have f1 := ZSpan.isAddFundamentalDomain' b volume
  rw [hdom] at f1
  have f2 : IsAddFundamentalDomain (Submodule.span ℤ (Set.range b)).toAddSubgroup (a +ᵥ sideBox ℓ) volume := f1.vadd_of_comm a
  have : Countable (Submodule.span ℤ (Set.range b)).toAddSubgroup :=
    inferInstanceAs (Countable (Submodule.span ℤ (Set.range b)))
  have h1 := IsAddFundamentalDomain.setIntegral_eq f2 f1 hinv
  rw [← h1]
  have h2 := (measurePreserving_add_right volume a).setIntegral_preimage_emb (measurableEmbedding_addRight a) P (a +ᵥ sideBox ℓ)
  rw [← h2]
  congr 2
  ext x
  rw [Set.mem_preimage, Set.mem_vadd_set_iff_neg_vadd_mem, vadd_eq_add]
  simp [add_comm]

/-- A bounded measurable function moved by a vanishing vector returns to itself in the mean. -/
theorem shift_mean {ℓ : Fin 3 → ℝ} {E : Type*} [NormedAddCommGroup E] [NormedSpace ℝ E] [MeasurableSpace E] [BorelSpace E]
    [SecondCountableTopology E] {V : (Fin 3 → ℝ) → E} (hV : Measurable V) {B : ℝ} (hB : ∀ x, ‖V x‖ ≤ B)
    {a : ℕ → Fin 3 → ℝ} (ha : Tendsto a atTop (𝓝 0)) :
    Tendsto (fun k => ∫ x in sideBox ℓ, ‖V (x + a k) - V x‖) atTop (𝓝 0) := by
  obtain ⟨R, hR⟩ : ∃ R : ℝ, ∀ d, |ℓ d| + 1 ≤ R :=
    ⟨∑ d, |ℓ d| + 1, fun d => by
      have := Finset.single_le_sum (f := fun d => |ℓ d|) (fun d _ => abs_nonneg _) (Finset.mem_univ d)
      linarith⟩
  let Q : Set (Fin 3 → ℝ) := Metric.closedBall 0 R
  let W : (Fin 3 → ℝ) → E := Q.indicator V
  have hQ : volume Q < ⊤ := measure_closedBall_lt_top
  have hWm : Measurable W := hV.indicator Metric.isClosed_closedBall.measurableSet
  have hW : Integrable W := by
    rw [integrable_indicator_iff Metric.isClosed_closedBall.measurableSet]
    exact Measure.integrableOn_of_bounded hQ.ne hV.aestronglyMeasurable (ae_of_all _ hB)
  have hin : ∀ x ∈ sideBox ℓ, ∀ y : Fin 3 → ℝ, ‖y‖ ≤ 1 → x + y ∈ Q := by
    intro x hx y hy
    have hR0 : 0 ≤ R := le_trans (by positivity) (hR 0)
    rw [mem_closedBall_zero_iff, pi_norm_le_iff_of_nonneg hR0]
    intro d
    have h1 := (norm_le_pi_norm y d).trans hy
    have h2 := hx d
    have h3 := hR d
    have h4 := le_abs_self (ℓ d)
    rw [Real.norm_eq_abs, abs_le] at *
    simp only [Pi.add_apply]
    constructor <;> linarith [h1.1, h1.2]
  rw [Metric.tendsto_atTop]
  intro ε hε
  obtain ⟨g, hgc, hg1, hgcont, hgi⟩ := hW.exists_hasCompactSupport_integral_sub_le (show 0 < ε / 4 by linarith)
  have huc := hgc.uniformContinuous_of_continuous hgcont
  have hvol : 0 ≤ (volume (sideBox ℓ)).toReal := ENNReal.toReal_nonneg
  obtain ⟨δ, hδ, hgd⟩ := Metric.uniformContinuous_iff.1 huc (ε / 4 / ((volume (sideBox ℓ)).toReal + 1)) (by positivity)
  obtain ⟨N, hN⟩ := Metric.tendsto_atTop.1 ha (min δ 1) (lt_min hδ one_pos)
  refine ⟨N, fun k hk => ?_⟩
  have hak := hN k hk
  rw [dist_zero_right, lt_min_iff] at hak
  rw [Real.dist_eq, sub_zero, abs_of_nonneg (integral_nonneg fun _ => norm_nonneg _)]
  have e1 : ∫ x in sideBox ℓ, ‖V (x + a k) - V x‖ = ∫ x in sideBox ℓ, ‖W (x + a k) - W x‖ := by
    refine setIntegral_congr_fun (measurableSet_sideBox ℓ) fun x hx => ?_
    have q1 : W (x + a k) = V (x + a k) := indicator_of_mem (hin x hx _ hak.2.le) _
    have q2 : W x = V x := indicator_of_mem (by simpa using hin x hx 0 (by simp)) _
    rw [q1, q2]
  rw [e1]
  have hWg : Integrable fun x => ‖W x - g x‖ := (hW.sub hgi).norm
  have hWg' : Integrable fun x => ‖W (x + a k) - g (x + a k)‖ := hWg.comp_add_right (a k)
  have hWa : Integrable fun x => W (x + a k) := hW.comp_add_right (a k)
  calc ∫ x in sideBox ℓ, ‖W (x + a k) - W x‖
      ≤ ∫ x in sideBox ℓ, (‖W (x + a k) - g (x + a k)‖ + ‖W x - g x‖ + ε / 4 / ((volume (sideBox ℓ)).toReal + 1)) := by
        refine setIntegral_mono_on ((hWa.sub hW).norm.integrableOn)
          ((hWg'.integrableOn.add hWg.integrableOn).add (integrableOn_const (volume_sideBox_lt_top ℓ).ne)) (measurableSet_sideBox ℓ) fun x _ => ?_
        have h1 := (hgd (a := x + a k) (b := x) (by simpa [dist_eq_norm] using hak.1)).le
        rw [dist_eq_norm] at h1
        have h2 : W (x + a k) - W x = (W (x + a k) - g (x + a k)) + (g (x + a k) - g x) - (W x - g x) := by abel
        rw [h2]
        have h3 := norm_sub_le ((W (x + a k) - g (x + a k)) + (g (x + a k) - g x)) (W x - g x)
        have h4 := norm_add_le (W (x + a k) - g (x + a k)) (g (x + a k) - g x)
        linarith
    _ = (∫ x in sideBox ℓ, ‖W (x + a k) - g (x + a k)‖) + (∫ x in sideBox ℓ, ‖W x - g x‖) +
        (volume (sideBox ℓ)).toReal * (ε / 4 / ((volume (sideBox ℓ)).toReal + 1)) := by
        have j1 := integral_add (hWg'.integrableOn (s := sideBox ℓ)) (hWg.integrableOn (s := sideBox ℓ))
        have j2 := integral_add ((hWg'.add hWg).integrableOn (s := sideBox ℓ))
          (integrableOn_const (C := ε / 4 / ((volume (sideBox ℓ)).toReal + 1)) (volume_sideBox_lt_top ℓ).ne)
        simp only [Pi.add_apply] at j2
        rw [j2, j1, setIntegral_const, smul_eq_mul]
        rfl
    _ < ε := by
        have i1 : (∫ x in sideBox ℓ, ‖W (x + a k) - g (x + a k)‖) ≤ ε / 4 := by
          refine (setIntegral_le_integral hWg' (ae_of_all _ fun _ => norm_nonneg _)).trans ?_
          rw [integral_add_right_eq_self (fun x => ‖W x - g x‖) (a k)]
          exact hg1
        have i2 : (∫ x in sideBox ℓ, ‖W x - g x‖) ≤ ε / 4 :=
          (setIntegral_le_integral hWg (ae_of_all _ fun _ => norm_nonneg _)).trans hg1
        have i3 : (volume (sideBox ℓ)).toReal * (ε / 4 / ((volume (sideBox ℓ)).toReal + 1)) ≤ ε / 4 := by
          rw [mul_div_assoc', div_le_iff₀ (by positivity)]
          nlinarith
        linarith

end FVHOE
