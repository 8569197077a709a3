import Mathlib.Algebra.BigOperators.Field
import Mathlib.Algebra.BigOperators.Fin
import Mathlib.Tactic.Positivity
import Verif.Proofs.Sides
import Verif.Props.C05_C07
import Verif.Props.C13_C18

/-!
C13 for the whole solver: the time step returned by the right-hand side.
-/

set_option linter.unusedSectionVars false

namespace FVHOE

variable {K : Type} [Field K] [LinearOrder K] [IsStrictOrderedRing K] {np : ℕ}

/-- The directions with more than one cell or a positive degree. -/
def EulerConfig.directions (c : EulerConfig K np) : Finset (Fin 3) :=
  Finset.univ.filter fun d => ¬ (c.n d = 1 ∧ c.p d = 0)

theorem EulerConfig.ndim_eq (c : EulerConfig K np) : c.scheme.ndim = c.directions.card := by
  have h : ∀ d, c.scheme.active d = true ↔ ¬ (c.n d = 1 ∧ c.p d = 0) := by
    intro d
    simp [Scheme.active, EulerConfig.scheme]
    tauto
  have h3 : (Finset.univ : Finset (Fin 3)) = {0, 1, 2} := by decide
  unfold Scheme.ndim EulerConfig.directions
  simp only [← h, h3, Finset.filter_insert, Finset.filter_singleton, List.countP_cons,
    List.countP_nil]
  by_cases h0 : c.scheme.active 0 = true <;> by_cases h1 : c.scheme.active 1 = true <;>
    by_cases h2 : c.scheme.active 2 = true <;> simp [h0, h1, h2]

/-- **C13, solver** With automatic time step, positive floor, spacings and CFL number, at least one
active direction and boundary conditions without prescribed values, the right-hand side returns a
positive step. In every cell the sum over the active directions of `dt (|v| + c) / h` is at most the CFL
number, for the averages of the primitive variables in that cell; and the step is not smaller than it
has to be for the smallest spacing: `dt` times the sum of all velocity magnitudes and one `c` per active
direction equals the CFL number times the smallest spacing in some cell or ghost cell. -/
theorem C13_solver (c : EulerConfig K np) (hlim : c.limiting = none) (hfix : c.fixedDt = none)
    (hp : ∀ d, c.p d ≤ 8) (hn : ∀ d, 1 ≤ c.n d) (hG : IsSqrt c.gas.sqrt) (hf : 0 < c.gas.csqFloor)
    (hh : ∀ d, 0 < c.h d) (hC : 0 < c.cfl) (hne : c.directions.Nonempty)
    (hs : PlainSides c.scheme (fluxWidth c.scheme c.p)) (junk : ℕ → Ix → State K np)
    (mem : Fin 3 → Ix → State K np) (t t' : K) (u : Ix → State K np) :
    ∃ dt D, solverRHS c.scheme junk mem t t' u = .ok (dt, D) ∧ 0 < dt ∧
      (∀ i, InCells c.n i → ∀ w a, w = latPrim K c.scheme.prim c.p (padded c.scheme u) i →
        IsSoundSpeed c.gas w a → ∑ d ∈ c.directions, dt * (|w (.mom d)| + a) / c.h d ≤ c.cfl) ∧
      ∃ i w, w = latPrim K c.scheme.prim c.p (padded c.scheme u) i ∧ ∀ a, IsSoundSpeed c.gas w a →
        dt * (|w (.mom 0)| + |w (.mom 1)| + |w (.mom 2)| + c.directions.card * a) =
          c.cfl * min (min (c.h 0) (c.h 1)) (c.h 2) := by
  have hin : ∀ d, c.scheme.active d = false → fluxWidth c.scheme c.p d = 0 := by
    intro d hd
    have hp0 : c.p d = 0 := c.scheme.inactive_p d hd
    simp [fluxWidth, hd, hp0, ceilHalf]
  obtain ⟨dt, hdt, e⟩ := rhs_spec c.scheme hlim hp hn t _ _ (hs.sides hn hin t) junk mem t' u u
    fun _ _ => rfl
  refine ⟨dt, _, e, ?_⟩
  unfold IsDt at hdt
  rw [show c.scheme.fixedDt = none from hfix] at hdt
  obtain ⟨m, ⟨i₀, hi₀, hm⟩, hmax, rfl⟩ := hdt
  have hk : (1 : K) ≤ (c.directions.card : K) := by
    exact_mod_cast Finset.card_pos.2 hne
  have hpos : ∀ v : State K np, 0 < soundSpeed c.gas v := fun v => (soundSpeed_spec c.gas hG hf v).1
  have hmpos : 0 < m := by
    rw [← hm, c.ndim_eq]
    show 0 < signalSpeed c.gas _ _
    unfold signalSpeed sum3
    have := mul_pos (lt_of_lt_of_le one_pos hk)
      (hpos (latPrim K c.scheme.prim c.scheme.p (extAll c.scheme.n (c.scheme.ghost .l)
        (c.scheme.ghost .r) u) i₀))
    positivity
  have hmin : 0 < min (min (c.h 0) (c.h 1)) (c.h 2) := lt_min (lt_min (hh 0) (hh 1)) (hh 2)
  have hle : ∀ d, min (min (c.h 0) (c.h 1)) (c.h 2) ≤ c.h d := by
    intro d
    match d with
    | 0 => exact (min_le_left _ _).trans (min_le_left _ _)
    | 1 => exact (min_le_left _ _).trans (min_le_right _ _)
    | 2 => exact min_le_right _ _
  have hdt : 0 < c.cfl * min (min (c.h 0) (c.h 1)) (c.h 2) / m := by positivity
  refine ⟨hdt, ?_, i₀, _, rfl, ?_⟩
  · rintro i hi w a rfl ha
    have hbox : InDtBox c.scheme c.p i := by
      intro d
      have := hi d
      have hn' : c.scheme.n d = c.n d := rfl
      split <;> constructor <;> omega
    have hi' := hmax i hbox
    rw [c.ndim_eq] at hi'
    change signalSpeed c.gas _ (latPrim K c.scheme.prim c.p (padded c.scheme u) i) ≤ m at hi'
    generalize latPrim K c.scheme.prim c.p (padded c.scheme u) i = w at hi' ha ⊢
    rw [soundSpeed_unique c.gas hG hf _ a ha]
    have hc := hpos w
    unfold signalSpeed at hi'
    generalize soundSpeed c.gas w = s at hi' hc ⊢
    change ∑ d ∈ c.directions, c.cfl * min (min (c.h 0) (c.h 1)) (c.h 2) / m * _ / _ ≤ _
    generalize min (min (c.h 0) (c.h 1)) (c.h 2) = h₀ at hmin hle ⊢
    have hv : ∑ d ∈ c.directions, |w (.mom d)| ≤ sum3 fun d => |w (.mom d)| := by
      rw [show (sum3 fun d => |w (.mom d)|) = ∑ d, |w (.mom d)| by
        rw [Fin.sum_univ_three]; rfl]
      exact Finset.sum_le_sum_of_subset_of_nonneg (Finset.filter_subset _ _) fun d _ _ => abs_nonneg _
    calc ∑ d ∈ c.directions, c.cfl * h₀ / m * (|w (.mom d)| + s) / c.h d
        ≤ ∑ d ∈ c.directions, c.cfl * h₀ / m * (|w (.mom d)| + s) / h₀ :=
          Finset.sum_le_sum fun d _ => div_le_div_of_nonneg_left (by positivity) hmin (hle d)
      _ = c.cfl / m * (∑ d ∈ c.directions, |w (.mom d)| + c.directions.card * s) := by
          rw [← Finset.sum_div, ← Finset.mul_sum, Finset.sum_add_distrib, Finset.sum_const,
            nsmul_eq_mul]
          field_simp
      _ ≤ c.cfl / m * m := mul_le_mul_of_nonneg_left (by linarith) (by positivity)
      _ = c.cfl := div_mul_cancel₀ _ hmpos.ne'
  · intro a ha
    rw [soundSpeed_unique c.gas hG hf _ a ha]
    have : |latPrim K c.scheme.prim c.p (padded c.scheme u) i₀ (.mom 0)| +
        |latPrim K c.scheme.prim c.p (padded c.scheme u) i₀ (.mom 1)| +
        |latPrim K c.scheme.prim c.p (padded c.scheme u) i₀ (.mom 2)| +
        c.directions.card * soundSpeed c.gas (latPrim K c.scheme.prim c.p (padded c.scheme u) i₀) = m := by
      rw [← hm, c.ndim_eq]
      rfl
    rw [this]
    exact div_mul_cancel₀ _ hmpos.ne'

/-- A two-dimensional channel of degrees 3 and 2 meets the hypotheses. -/
example : ∃ c : EulerConfig ℝ 1, c.limiting = none ∧ c.fixedDt = none ∧ (∀ d, c.p d ≤ 8) ∧
    (∀ d, 1 ≤ c.n d) ∧ IsSqrt c.gas.sqrt ∧ 0 < c.gas.csqFloor ∧ (∀ d, 0 < c.h d) ∧ 0 < c.cfl ∧
    c.directions = {0, 1} ∧ PlainSides c.scheme (fluxWidth c.scheme c.p) := by
  refine ⟨{ channelConfig with limiting := none }, rfl, rfl, channel_plain.degree, channel_plain.cells,
    airGas_sqrt, by norm_num [channelConfig, airGas], ?_, by norm_num [channelConfig], ?_,
    channel_plain.sides⟩
  · intro d
    match d with
    | 0 => norm_num [channelConfig]
    | 1 => norm_num [channelConfig]
    | 2 => exact (by norm_num : (0 : ℝ) < 3)
  · unfold EulerConfig.directions
    decide

end FVHOE
