import Verif.Proofs.WeakForm
import Mathlib.MeasureTheory.Function.Floor
import Mathlib.MeasureTheory.Constructions.BorelSpace.Order
import Mathlib.Analysis.Calculus.ContDiff.Basic
import Mathlib.Analysis.Calculus.ContDiff.Operations

/-!
Periodic continuation of functions that vanish near the sides of a box.
-/

set_option linter.unusedSectionVars false

namespace FVHOE

open Filter Topology

/-- The point of the box with sides `ℓ` that differs by whole periods. -/
noncomputable def intoBox (ℓ : Fin 3 → ℝ) (x : Fin 3 → ℝ) : Fin 3 → ℝ := fun d => x d - ⌊x d / ℓ d⌋ * ℓ d

theorem intoBox_of_mem {ℓ : Fin 3 → ℝ} (hℓ : ∀ d, 0 < ℓ d) {x : Fin 3 → ℝ} (hx : ∀ d, 0 ≤ x d ∧ x d < ℓ d) : intoBox ℓ x = x := by
  funext d
  unfold intoBox
  have : ⌊x d / ℓ d⌋ = 0 := Int.floor_eq_zero_iff.2 ⟨div_nonneg (hx d).1 (hℓ d).le, (div_lt_one (hℓ d)).2 (hx d).2⟩
  rw [this, Int.cast_zero, zero_mul, sub_zero]

theorem intoBox_periodic {ℓ : Fin 3 → ℝ} (hℓ : ∀ d, 0 < ℓ d) (d : Fin 3) (x : Fin 3 → ℝ) :
    intoBox ℓ (x + Pi.single d (ℓ d)) = intoBox ℓ x := by
  funext e
  unfold intoBox
  by_cases he : e = d
  · subst he
    rw [Pi.add_apply, Pi.single_eq_same, add_div, div_self (hℓ e).ne', Int.floor_add_one]
    push_cast
    ring
  · rw [Pi.add_apply, Pi.single_eq_of_ne he, add_zero]

theorem measurable_intoBox (ℓ : Fin 3 → ℝ) : Measurable (intoBox ℓ) := by
  refine measurable_pi_lambda _ fun d => ?_
  have h : Measurable fun x : Fin 3 → ℝ => ((⌊x d / ℓ d⌋ : ℤ) : ℝ) :=
    (Measurable.of_discrete (f := fun k : ℤ => (k : ℝ))).comp (Measurable.floor ((measurable_pi_apply (X := fun _ : Fin 3 => ℝ) d).div_const (ℓ d)))
  exact (measurable_pi_apply d).sub (h.mul_const _)

section

variable {ℓ : Fin 3 → ℝ} (hℓ : ∀ d, 0 < ℓ d) {φ : ℝ × (Fin 3 → ℝ) → ℝ} {ε : ℝ} (hε : 0 < ε)
  (hz : ∀ s x, (∃ d, x d < ε ∨ ℓ d - ε < x d) → φ (s, x) = 0)
include hℓ hε hz

/-- Near every point the continuation is a translate of the function. -/
theorem periodise_near (s₀ : ℝ) (x₀ : Fin 3 → ℝ) :
    (fun z : ℝ × (Fin 3 → ℝ) => φ (z.1, intoBox ℓ z.2)) =ᶠ[𝓝 (s₀, x₀)]
      fun z => φ (z.1, z.2 - fun d => ⌊x₀ d / ℓ d⌋ * ℓ d) := by
  -- near the point, a coordinate is either in the same period or close to a side in both readings
  have hd : ∀ d, ∀ᶠ z : ℝ × (Fin 3 → ℝ) in 𝓝 (s₀, x₀), ⌊z.2 d / ℓ d⌋ = ⌊x₀ d / ℓ d⌋ ∨
      (z.2 d - ⌊z.2 d / ℓ d⌋ * ℓ d < ε ∨ ℓ d - ε < z.2 d - ⌊z.2 d / ℓ d⌋ * ℓ d) ∧ z.2 d - ⌊x₀ d / ℓ d⌋ * ℓ d < ε := by
    intro d
    have hcont : Tendsto (fun z : ℝ × (Fin 3 → ℝ) => z.2 d) (𝓝 (s₀, x₀)) (𝓝 (x₀ d)) :=
      ((continuous_apply d).comp continuous_snd).continuousAt
    set k := ⌊x₀ d / ℓ d⌋ with hk
    have h1 : (k : ℝ) * ℓ d ≤ x₀ d := (le_div_iff₀ (hℓ d)).1 (Int.floor_le _)
    have h2 : x₀ d < (k + 1) * ℓ d := (div_lt_iff₀ (hℓ d)).1 (Int.lt_floor_add_one _)
    rcases h1.lt_or_eq with h1 | h1
    · filter_upwards [hcont (Ioo_mem_nhds h1 h2)] with z hz'
      left
      exact Int.floor_eq_iff.2 ⟨(le_div_iff₀ (hℓ d)).2 hz'.1.le, (div_lt_iff₀ (hℓ d)).2 hz'.2⟩
    · have hm : x₀ d ∈ Set.Ioo (x₀ d - min ε (ℓ d)) (x₀ d + min ε (ℓ d)) := by
        have := lt_min hε (hℓ d)
        constructor <;> linarith
      filter_upwards [hcont (Ioo_mem_nhds hm.1 hm.2)] with z hz'
      have m1 := min_le_left ε (ℓ d)
      have m2 := min_le_right ε (ℓ d)
      by_cases hge : x₀ d ≤ z.2 d
      · left
        refine Int.floor_eq_iff.2 ⟨(le_div_iff₀ (hℓ d)).2 (by rw [h1]; exact hge), (div_lt_iff₀ (hℓ d)).2 ?_⟩
        have := hz'.2
        rw [add_mul, one_mul, h1]
        linarith
      · right
        have hfl : ⌊z.2 d / ℓ d⌋ = k - 1 := by
          refine Int.floor_eq_iff.2 ⟨(le_div_iff₀ (hℓ d)).2 ?_, (div_lt_iff₀ (hℓ d)).2 ?_⟩
          · push_cast
            have := hz'.1
            rw [sub_mul, one_mul, h1]
            linarith
          · push_cast
            rw [sub_add_cancel, h1]
            linarith
        refine ⟨Or.inr ?_, ?_⟩
        · rw [hfl]
          push_cast
          have := hz'.1
          rw [sub_mul, one_mul, h1]
          linarith
        · rw [h1]
          linarith
  filter_upwards [hd 0, hd 1, hd 2] with z z0 z1 z2
  have hall : ∀ d, ⌊z.2 d / ℓ d⌋ = ⌊x₀ d / ℓ d⌋ ∨
      (z.2 d - ⌊z.2 d / ℓ d⌋ * ℓ d < ε ∨ ℓ d - ε < z.2 d - ⌊z.2 d / ℓ d⌋ * ℓ d) ∧ z.2 d - ⌊x₀ d / ℓ d⌋ * ℓ d < ε := by
    intro d
    match d with
    | 0 => exact z0
    | 1 => exact z1
    | 2 => exact z2
  by_cases hsame : ∀ d, ⌊z.2 d / ℓ d⌋ = ⌊x₀ d / ℓ d⌋
  · have : intoBox ℓ z.2 = z.2 - fun d => ⌊x₀ d / ℓ d⌋ * ℓ d := by
      funext d
      unfold intoBox
      rw [Pi.sub_apply, hsame d]
    rw [this]
  · push Not at hsame
    obtain ⟨d, hne⟩ := hsame
    rcases hall d with h | ⟨h1, h2⟩
    · exact absurd h hne
    · rw [hz _ _ ⟨d, h1⟩, hz _ _ ⟨d, Or.inl h2⟩]

theorem periodise_contDiff (hφ : ContDiff ℝ 2 φ) : ContDiff ℝ 2 fun z : ℝ × (Fin 3 → ℝ) => φ (z.1, intoBox ℓ z.2) := by
  refine contDiff_iff_contDiffAt.2 fun z => ?_
  refine ContDiffAt.congr_of_eventuallyEq ?_ (periodise_near hℓ hε hz z.1 z.2)
  exact (hφ.comp (contDiff_fst.prodMk (contDiff_snd.sub contDiff_const))).contDiffAt

theorem periodise_fderiv (s : ℝ) {x : Fin 3 → ℝ} (hx : ∀ d, 0 ≤ x d ∧ x d < ℓ d) :
    fderiv ℝ (fun z : ℝ × (Fin 3 → ℝ) => φ (z.1, intoBox ℓ z.2)) (s, x) = fderiv ℝ φ (s, x) := by
  refine Filter.EventuallyEq.fderiv_eq ((periodise_near hℓ hε hz s x).trans (Filter.Eventually.of_forall fun z => ?_))
  have : (fun d => (⌊x d / ℓ d⌋ : ℝ) * ℓ d) = 0 := by
    funext d
    have : ⌊x d / ℓ d⌋ = 0 := Int.floor_eq_zero_iff.2 ⟨div_nonneg (hx d).1 (hℓ d).le, (div_lt_one (hℓ d)).2 (hx d).2⟩
    rw [this, Int.cast_zero, zero_mul]
    rfl
  beta_reduce
  rw [this, sub_zero]

end

end FVHOE
