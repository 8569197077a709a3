import Mathlib.Analysis.Calculus.BumpFunction.Convolution
import Mathlib.Analysis.Calculus.BumpFunction.FiniteDimension
import Mathlib.Analysis.Calculus.ContDiff.Convolution
import Verif.Proofs.GridField
import Verif.Proofs.Norms

/-!
Smooth periodic functions near a bounded periodic one in the mean, and integrals over a box as sums over its cells.
-/

set_option linter.unusedSectionVars false

namespace FVHOE

open MeasureTheory Filter Topology Set ContinuousLinearMap
open scoped Convolution

theorem BoxPeriodic.lattice {E : Type*} {ℓ : Fin 3 → ℝ} {P : (Fin 3 → ℝ) → E} (hP : BoxPeriodic ℓ P) (σ : Ix) (x : Fin 3 → ℝ) :
    P (x + latShift ℓ σ) = P x := by
  have h1 : ∀ (d : Fin 3) (k : ℤ) (x : Fin 3 → ℝ), P (x + Pi.single d (k * ℓ d)) = P x := by
    intro d k
    induction k using Int.induction_on with
    | zero => intro x; simp
    | succ n ih =>
      intro x
      push_cast at ih ⊢
      rw [add_mul, one_mul, Pi.single_add, ← add_assoc, hP, ih]
    | pred n ih =>
      intro x
      rw [← hP d]
      push_cast at ih ⊢
      rw [sub_mul, one_mul, Pi.single_sub, add_assoc, sub_add_cancel, ih]
  have e : latShift ℓ σ = Pi.single 0 (σ 0 * ℓ 0) + Pi.single 1 (σ 1 * ℓ 1) + Pi.single 2 (σ 2 * ℓ 2) := by
    funext d
    unfold latShift
    match d with
    | 0 => simp
    | 1 => simp
    | 2 => simp
  rw [e, ← add_assoc, ← add_assoc, h1, h1, h1]

/-- A continuous periodic function is bounded. -/
theorem BoxPeriodic.bounded {E : Type*} [NormedAddCommGroup E] {ℓ : Fin 3 → ℝ} (hℓ : ∀ d, 0 < ℓ d)
    {P : (Fin 3 → ℝ) → E} (hP : BoxPeriodic ℓ P) (hc : Continuous P) : ∃ M, ∀ x, ‖P x‖ ≤ M := by
  obtain ⟨M, hM⟩ := (isCompact_Icc (a := (0 : Fin 3 → ℝ)) (b := ℓ)).exists_bound_of_continuousOn hc.continuousOn
  refine ⟨M, fun x => ?_⟩
  rw [← hP.lattice (fun d => -⌊x d / ℓ d⌋) x]
  refine hM _ ⟨fun d => ?_, fun d => ?_⟩
  · have := Int.floor_le (x d / ℓ d)
    rw [le_div_iff₀ (hℓ d)] at this
    show 0 ≤ x d + ((-⌊x d / ℓ d⌋ : ℤ) : ℝ) * ℓ d
    push_cast
    linarith
  · have := Int.lt_floor_add_one (x d / ℓ d)
    rw [div_lt_iff₀ (hℓ d)] at this
    show x d + ((-⌊x d / ℓ d⌋ : ℤ) : ℝ) * ℓ d ≤ ℓ d
    push_cast
    linarith

/-- A bounded measurable periodic function can be replaced by a smooth one at little cost in the mean. -/
theorem exists_smooth_near {ℓ : Fin 3 → ℝ} {act : Fin 3 → Bool} {ρ : (Fin 3 → ℝ) → ℝ}
    (hm : Measurable ρ) {B : ℝ} (hB : ∀ x, |ρ x| ≤ B) (hper : BoxPeriodic ℓ ρ) (hd : DependsOn act ρ) {ε : ℝ} (hε : 0 < ε) :
    ∃ g : (Fin 3 → ℝ) → ℝ, ContDiff ℝ 2 g ∧ BoxPeriodic ℓ g ∧ DependsOn act g ∧ ∫ x in sideBox ℓ, |g x - ρ x| ≤ ε := by
  let φ : ℕ → ContDiffBump (0 : Fin 3 → ℝ) := fun k => ⟨1 / (k + 1), 2 / (k + 1), by positivity,
    div_lt_div_of_pos_right (by norm_num) (by positivity)⟩
  have hloc : LocallyIntegrable ρ volume := by
    refine (locallyIntegrable_const B).mono hm.aestronglyMeasurable (ae_of_all _ fun x => ?_)
    rw [Real.norm_eq_abs, Real.norm_eq_abs]
    exact (hB x).trans (le_abs_self B)
  have hlim : Tendsto (fun k => (φ k).rOut) atTop (𝓝 0) := by
    show Tendsto (fun k : ℕ => 2 / ((k : ℝ) + 1)) atTop (𝓝 0)
    have := (tendsto_one_div_add_atTop_nhds_zero_nat (𝕜 := ℝ)).const_mul 2
    simpa [div_eq_mul_inv] using this
  let g : ℕ → (Fin 3 → ℝ) → ℝ := fun k => (φ k).normed volume ⋆[lsmul ℝ ℝ, volume] ρ
  have hg : ∀ k x, g k x = ∫ y, (φ k).normed volume y * ρ (x - y) := fun k x => rfl
  have hae := ContDiffBump.ae_convolution_tendsto_right_of_locallyIntegrable (K := 2) hlim
    (Eventually.of_forall fun k => by show 2 / ((k : ℝ) + 1) ≤ 2 * (1 / ((k : ℝ) + 1)); rw [mul_one_div]) hloc
  have hsm : ∀ k, ContDiff ℝ 2 (g k) := fun k => by
    have := (φ k).hasCompactSupport_normed (μ := volume) |>.contDiff_convolution_left (L := lsmul ℝ ℝ) (n := 2)
      (φ k).contDiff_normed hloc
    exact_mod_cast this
  have hgB : ∀ k x, |g k x| ≤ B := by
    intro k x
    rw [hg]
    have h1 : ∀ y, ‖(φ k).normed volume y * ρ (x - y)‖ ≤ (φ k).normed volume y * B := fun y => by
      rw [norm_mul, Real.norm_eq_abs, Real.norm_eq_abs, abs_of_nonneg ((φ k).nonneg_normed y)]
      exact mul_le_mul_of_nonneg_left (hB _) ((φ k).nonneg_normed y)
    have h2 := norm_integral_le_of_norm_le (((φ k).integrable_normed (μ := volume)).mul_const B) (ae_of_all _ h1)
    rw [integral_mul_const, (φ k).integral_normed, one_mul] at h2
    exact h2
  have hB0 : 0 ≤ B := (abs_nonneg _).trans (hB 0)
  have key : Tendsto (fun k => ∫ x in sideBox ℓ, |g k x - ρ x|) atTop (𝓝 (∫ x in sideBox ℓ, (0 : ℝ))) := by
    refine tendsto_integral_of_dominated_convergence (fun _ => 2 * B) (fun k => ?_) (integrable_const _) (fun k => ?_) ?_
    · exact (((hsm k).continuous.measurable.sub hm).norm).aestronglyMeasurable
    · refine ae_of_all _ fun x => ?_
      rw [Real.norm_eq_abs, abs_abs]
      have := abs_sub (g k x) (ρ x)
      have := hgB k x
      have := hB x
      linarith
    · refine ae_restrict_of_ae (hae.mono fun x hx => ?_)
      have := (hx.sub_const (ρ x)).abs
      rw [sub_self, abs_zero] at this
      exact this
  rw [integral_zero] at key
  obtain ⟨k, hk⟩ := ((tendsto_order.1 key).2 ε hε).exists
  refine ⟨g k, hsm k, fun d x => ?_, fun x y hxy => ?_, hk.le⟩
  · rw [hg, hg]
    congr 1
    funext y
    rw [add_sub_right_comm, hper]
  · rw [hg, hg]
    congr 1
    funext z
    congr 1
    exact hd _ _ fun d hda => by simp [hxy d hda]

/-! ### Integrals over the box as sums over the cells -/

/-- A cell without its upper faces. -/
def halfCell (h : Fin 3 → ℝ) (i : Ix) : Set (Fin 3 → ℝ) := {x | ∀ d, (i d : ℝ) * h d ≤ x d ∧ x d < ((i d : ℝ) + 1) * h d}

theorem halfCell_pi (h : Fin 3 → ℝ) (i : Ix) :
    halfCell h i = univ.pi fun d => Ico ((i d : ℝ) * h d) (((i d : ℝ) + 1) * h d) := by
  ext x
  simp [halfCell]

theorem mem_halfCell {h : Fin 3 → ℝ} (hh : ∀ d, 0 < h d) (i : Ix) (x : Fin 3 → ℝ) : x ∈ halfCell h i ↔ cellAt h x = i := by
  unfold halfCell cellAt
  rw [funext_iff]
  refine forall_congr' fun d => ?_
  rw [Int.floor_eq_iff, le_div_iff₀ (hh d), div_lt_iff₀ (hh d)]

theorem halfCell_ae (h : Fin 3 → ℝ) (i : Ix) : halfCell h i =ᵐ[volume] cellBox 0 h i := by
  rw [halfCell_pi]
  unfold cellBox
  simp only [Pi.zero_apply, zero_add]
  exact Measure.univ_pi_Ico_ae_eq_Icc

theorem cellAt_inCells {n : Fin 3 → ℕ} {h ℓ : Fin 3 → ℝ} (hh : ∀ d, 0 < h d) (hℓ : ∀ d, (n d : ℝ) * h d = ℓ d) (x : Fin 3 → ℝ) :
    InCells n (cellAt h x) ↔ x ∈ sideBox ℓ := by
  unfold InCells cellAt sideBox
  refine forall_congr' fun d => ?_
  rw [Int.floor_nonneg, le_div_iff₀ (hh d), zero_mul, Int.floor_lt, ← hℓ, div_lt_iff₀ (hh d), Int.cast_natCast]

theorem box_cells {n : Fin 3 → ℕ} {h ℓ : Fin 3 → ℝ} (hh : ∀ d, 0 < h d) (hℓ : ∀ d, (n d : ℝ) * h d = ℓ d)
    {F : (Fin 3 → ℝ) → ℝ} (hF : IntegrableOn F (sideBox ℓ)) :
    ∫ x in sideBox ℓ, F x = cellSum n fun i => ∫ x in cellBox 0 h i, F x := by
  rw [cellSum_triples]
  have hset : sideBox ℓ = ⋃ x ∈ Finset.range (n 0) ×ˢ Finset.range (n 1) ×ˢ Finset.range (n 2),
      halfCell h ![(x.1 : ℤ), (x.2.1 : ℤ), (x.2.2 : ℤ)] := by
    ext x
    rw [← cellAt_inCells hh hℓ]
    simp only [mem_iUnion, mem_halfCell hh, Finset.mem_product, Finset.mem_range, exists_prop, Prod.exists]
    constructor
    · intro hx
      refine ⟨(cellAt h x 0).toNat, (cellAt h x 1).toNat, (cellAt h x 2).toNat, ?_, ?_⟩
      · have h0 := hx 0; have h1 := hx 1; have h2 := hx 2
        omega
      · funext d
        have := hx d
        match d with
        | 0 | 1 | 2 => simp; omega
    · rintro ⟨a, b, c, habc, e⟩ d
      rw [e]
      match d with
      | 0 | 1 | 2 => simp; omega
  have hmeas : ∀ i, MeasurableSet (halfCell h i) := fun i => by
    rw [halfCell_pi]
    exact MeasurableSet.univ_pi fun _ => measurableSet_Ico
  rw [hset] at hF ⊢
  rw [integral_biUnion_finset _ (fun _ _ => hmeas _)]
  · exact Finset.sum_congr rfl fun x _ => setIntegral_congr_set (halfCell_ae h _)
  · intro x _ y _ hxy
    refine Set.disjoint_left.2 fun z hz hz' => hxy ?_
    rw [mem_halfCell hh] at hz hz'
    rw [hz] at hz'
    have e0 := congrFun hz' 0
    have e1 := congrFun hz' 1
    have e2 := congrFun hz' 2
    simp at e0 e1 e2
    exact Prod.ext (by exact_mod_cast e0) (Prod.ext (by exact_mod_cast e1) (by exact_mod_cast e2))
  · intro x hx
    refine hF.mono_set ?_
    exact fun z hz => mem_biUnion (Finset.mem_coe.2 hx) hz

end FVHOE
