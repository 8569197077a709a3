import Mathlib.Analysis.Calculus.IteratedDeriv.Defs
import Mathlib.Analysis.Calculus.MeanValue
import Mathlib.Analysis.Calculus.ContDiff.Deriv
import Mathlib.Analysis.Calculus.ContDiff.RCLike
import Mathlib.Analysis.Calculus.Deriv.Pow
import Mathlib.Analysis.Asymptotics.Lemmas
import Mathlib.Topology.MetricSpace.Thickening
import Mathlib.Tactic.Module
import Verif.Proofs.Depend
import Verif.Props.C28_C30

/-!
The order of the integrators on nonlinear problems: one step along an exact solution, uniformly in the starting time.
-/

set_option linter.unusedSectionVars false

namespace FVHOE

open Set Asymptotics Topology

variable {E : Type} [NormedAddCommGroup E] [NormedSpace ℝ E]

/-! ### Taylor expansion -/

/-- `Y k` is the `k`-th derivative on `[0, T]`, for `k` up to `n + 1`. -/
def Chain (T : ℝ) (n : ℕ) (Y : ℕ → ℝ → E) : Prop :=
  ∀ k ≤ n, ∀ t ∈ Icc 0 T, HasDerivWithinAt (Y k) (Y (k + 1) t) (Icc 0 T) t

theorem Chain.shift {T : ℝ} {n : ℕ} {Y : ℕ → ℝ → E} (h : Chain T (n + 1) Y) : Chain T n fun k => Y (k + 1) :=
  fun k hk => h (k + 1) (by omega)

theorem Chain.taylor {T B : ℝ} (n : ℕ) : ∀ {Y : ℕ → ℝ → E}, Chain T n Y → (∀ t ∈ Icc 0 T, ‖Y (n + 1) t‖ ≤ B) →
    ∀ t s, 0 ≤ t → 0 ≤ s → t + s ≤ T →
      ‖Y 0 (t + s) - ∑ k ∈ Finset.range (n + 1), (s ^ k / (k.factorial : ℝ)) • Y k t‖ ≤ B * s ^ (n + 1) := by
  induction n with
  | zero =>
    intro Y hY hB t s ht hs hts
    have h1 := (convex_Icc 0 T).norm_image_sub_le_of_norm_hasDerivWithin_le (f := Y 0) (f' := Y 1) (C := B) (x := t) (y := t + s)
      (fun x hx => hY 0 le_rfl x hx) hB ⟨ht, by linarith⟩ ⟨by linarith, hts⟩
    simpa [abs_of_nonneg hs] using h1
  | succ n ih =>
    intro Y hY hB t s ht hs hts
    have hB0 : 0 ≤ B := (norm_nonneg _).trans (hB t ⟨ht, by linarith⟩)
    have hr := fun σ => ih (Y := fun k => Y (k + 1)) hY.shift hB t σ ht
    have hderiv : ∀ σ ∈ Icc 0 s, HasDerivWithinAt
        (fun σ => Y 0 (t + σ) - ∑ k ∈ Finset.range (n + 2), (σ ^ k / (k.factorial : ℝ)) • Y k t)
        (Y 1 (t + σ) - ∑ k ∈ Finset.range (n + 1), (σ ^ k / (k.factorial : ℝ)) • Y (k + 1) t) (Icc 0 s) σ := by
      intro σ hσ
      refine HasDerivWithinAt.sub ?_ ?_
      · have h0 := hY 0 (by omega) (t + σ) ⟨by linarith [hσ.1], by linarith [hσ.2]⟩
        have h1 : HasDerivWithinAt (fun σ => t + σ) 1 (Icc 0 s) σ := (hasDerivWithinAt_id σ _).const_add t
        have := HasDerivWithinAt.scomp σ h0 h1 (fun x hx => ⟨by linarith [hx.1], by linarith [hx.2]⟩)
        rw [one_smul] at this
        exact this
      · have h1 : ∀ k : ℕ, HasDerivAt (fun σ : ℝ => (σ ^ (k + 1) / ((k + 1).factorial : ℝ)) • Y (k + 1) t)
            ((σ ^ k / (k.factorial : ℝ)) • Y (k + 1) t) σ := by
          intro k
          have hp := ((hasDerivAt_pow (k + 1) σ).div_const ((k + 1).factorial : ℝ)).smul_const (Y (k + 1) t)
          convert hp using 2
          rw [Nat.factorial_succ]
          have : (k.factorial : ℝ) ≠ 0 := by exact_mod_cast k.factorial_ne_zero
          have : ((k : ℝ) + 1) ≠ 0 := by positivity
          push_cast
          field_simp
          try rfl
        have h2 : HasDerivAt (fun σ : ℝ => ∑ k ∈ Finset.range (n + 2), (σ ^ k / (k.factorial : ℝ)) • Y k t)
            (∑ k ∈ Finset.range (n + 1), (σ ^ k / (k.factorial : ℝ)) • Y (k + 1) t) σ := by
          have hs := HasDerivAt.fun_sum (u := Finset.range (n + 1)) fun k _ => h1 k
          have hc : HasDerivAt (fun σ : ℝ => (σ ^ 0 / ((0 : ℕ).factorial : ℝ)) • Y 0 t) 0 σ := by
            simpa using hasDerivAt_const σ (Y 0 t)
          have := hs.add hc
          rw [add_zero] at this
          refine this.congr_of_eventuallyEq (Filter.Eventually.of_forall fun x => ?_)
          exact Finset.sum_range_succ' _ _
        exact h2.hasDerivWithinAt
    have h1 := (convex_Icc 0 s).norm_image_sub_le_of_norm_hasDerivWithin_le (C := B * s ^ (n + 1)) (x := 0) (y := s) hderiv
      (fun σ hσ => (hr σ hσ.1 (by linarith [hσ.2])).trans
        (mul_le_mul_of_nonneg_left (pow_le_pow_left₀ hσ.1 hσ.2 _) hB0)) ⟨le_rfl, hs⟩ ⟨hs, le_rfl⟩
    have h0 : Y 0 (t + 0) - ∑ k ∈ Finset.range (n + 2), ((0 : ℝ) ^ k / (k.factorial : ℝ)) • Y k t = 0 := by
      rw [Finset.sum_range_succ']
      simp
    rw [h0, sub_zero, sub_zero, Real.norm_of_nonneg hs] at h1
    refine h1.trans (le_of_eq ?_)
    ring

/-- Starting times and steps inside `[0, T]`, for steps that tend to zero. -/
def stepsIn (T : ℝ) : Filter (ℝ × ℝ) := Filter.comap Prod.snd (𝓝 0) ⊓ Filter.principal {x | 0 ≤ x.1 ∧ 0 ≤ x.2 ∧ x.1 + x.2 ≤ T}

theorem stepsIn_mem (T : ℝ) : ∀ᶠ x in stepsIn T, 0 ≤ x.1 ∧ 0 ≤ x.2 ∧ x.1 + x.2 ≤ T :=
  Filter.Eventually.filter_mono inf_le_right (Filter.eventually_principal.2 fun _ h => h)

theorem stepsIn_small (T : ℝ) : Filter.Tendsto (fun x : ℝ × ℝ => x.2) (stepsIn T) (𝓝 0) :=
  Filter.tendsto_comap.mono_left inf_le_left

theorem pow_bigO {T : ℝ} {a b : ℕ} (h : a ≤ b) : (fun x : ℝ × ℝ => x.2 ^ b) =O[stepsIn T] fun x => x.2 ^ a := by
  have h1 : (fun x : ℝ × ℝ => x.2 ^ (b - a)) =O[stepsIn T] fun _ => (1 : ℝ) :=
    (((stepsIn_small T).pow (b - a)).isBigO_one ℝ)
  have := h1.mul (isBigO_refl (fun x : ℝ × ℝ => x.2 ^ a) (stepsIn T))
  refine this.congr (fun x => ?_) fun x => one_mul _
  rw [← pow_add, Nat.sub_add_cancel h]

/-- The expansion, uniformly in the starting time. -/
theorem Chain.bigO {T B : ℝ} {n : ℕ} {Y : ℕ → ℝ → E} (hY : Chain T n Y) (hB : ∀ t ∈ Icc 0 T, ‖Y (n + 1) t‖ ≤ B) {c : ℝ}
    (h0 : 0 ≤ c) (h1 : c ≤ 1) :
    (fun x : ℝ × ℝ => Y 0 (x.1 + c * x.2) - ∑ k ∈ Finset.range (n + 1), ((c * x.2) ^ k / (k.factorial : ℝ)) • Y k x.1)
      =O[stepsIn T] fun x => x.2 ^ (n + 1) := by
  refine IsBigO.of_bound B ?_
  filter_upwards [stepsIn_mem T] with x ⟨hx1, hx2, hx3⟩
  have hc : 0 ≤ c * x.2 := mul_nonneg h0 hx2
  have hc' : c * x.2 ≤ x.2 := mul_le_of_le_one_left hx2 h1
  have hB0 : 0 ≤ B := (norm_nonneg _).trans (hB x.1 ⟨hx1, by linarith⟩)
  refine (hY.taylor n hB x.1 (c * x.2) hx1 hc (by linarith)).trans ?_
  rw [Real.norm_of_nonneg (pow_nonneg hx2 _)]
  exact mul_le_mul_of_nonneg_left (pow_le_pow_left₀ hc hc' _) hB0

/-! ### One step along a solution -/

/-- The solution `Y 0` of `u' = f u` with bounded derivatives up to the order `n + 1`, and the derivative `J t` of `f` at
`Y 0 t`. -/
structure OnSolution (f : E → E) (T : ℝ) (n : ℕ) (Y : ℕ → ℝ → E) (J : ℝ → E →L[ℝ] E) : Prop where
  chain : Chain T n Y
  bounded : ∃ B, ∀ k ≤ n + 1, ∀ t ∈ Icc 0 T, ‖Y k t‖ ≤ B
  solves : ∀ t ∈ Icc 0 T, f (Y 0 t) = Y 1 t
  quad : ∃ C δ, 0 < δ ∧ ∀ t ∈ Icc 0 T, ∀ e, ‖e‖ ≤ δ → ‖f (Y 0 t - e) - f (Y 0 t) + J t e‖ ≤ C * ‖e‖ ^ 2
  jac : ∃ M, ∀ t ∈ Icc 0 T, ‖J t‖ ≤ M
  lip : ∃ L, ∀ s ∈ Icc 0 T, ∀ t ∈ Icc 0 T, ‖J s - J t‖ ≤ L * |s - t|

section OnSolution

variable {f : E → E} {T : ℝ} {n : ℕ} {Y : ℕ → ℝ → E} {J : ℝ → E →L[ℝ] E} (A : OnSolution f T n Y J)

theorem stage_mem {T c : ℝ} (h0 : 0 ≤ c) (h1 : c ≤ 1) {x : ℝ × ℝ} (hx : 0 ≤ x.1 ∧ 0 ≤ x.2 ∧ x.1 + x.2 ≤ T) :
    x.1 + c * x.2 ∈ Icc 0 T := by
  have := mul_nonneg h0 hx.2.1
  have := mul_le_of_le_one_left hx.2.1 h1
  exact ⟨by linarith [hx.1], by linarith [hx.2.2]⟩

include A

theorem OnSolution.expand {j r : ℕ} (hj : j + r ≤ n) {c : ℝ} (h0 : 0 ≤ c) (h1 : c ≤ 1) :
    (fun x : ℝ × ℝ => Y j (x.1 + c * x.2) - ∑ k ∈ Finset.range (r + 1), ((c * x.2) ^ k / (k.factorial : ℝ)) • Y (j + k) x.1)
      =O[stepsIn T] fun x => x.2 ^ (r + 1) := by
  obtain ⟨B, hB⟩ := A.bounded
  have hc : Chain T r fun k => Y (j + k) := fun k hk => A.chain (j + k) (by omega)
  exact hc.bigO (fun t ht => hB (j + (r + 1)) (by omega) t ht) h0 h1

theorem OnSolution.slope {c : ℝ} (h0 : 0 ≤ c) (h1 : c ≤ 1) {e : ℝ × ℝ → E} {k : ℕ} (hk : 1 ≤ k)
    (he : e =O[stepsIn T] fun x => x.2 ^ k) :
    (fun x => f (Y 0 (x.1 + c * x.2) - e x) - Y 1 (x.1 + c * x.2) + J (x.1 + c * x.2) (e x)) =O[stepsIn T] fun x => x.2 ^ (2 * k) := by
  obtain ⟨C, δ, hδ, hq⟩ := A.quad
  have hz : Filter.Tendsto (fun x : ℝ × ℝ => x.2 ^ k) (stepsIn T) (𝓝 0) := by
    have := (stepsIn_small T).pow k
    rwa [zero_pow (by omega)] at this
  have he0 := he.trans_tendsto hz
  have hsmall : ∀ᶠ x in stepsIn T, ‖e x‖ ≤ δ := by
    have := (he0.norm).eventually (eventually_le_nhds (b := δ) (by rw [norm_zero]; exact hδ))
    exact this
  have h2 : (fun x => f (Y 0 (x.1 + c * x.2) - e x) - Y 1 (x.1 + c * x.2) + J (x.1 + c * x.2) (e x)) =O[stepsIn T]
      fun x => ‖e x‖ ^ 2 := by
    refine IsBigO.of_bound C ?_
    filter_upwards [stepsIn_mem T, hsmall] with x hx hs
    have hm := stage_mem h0 h1 hx
    rw [← A.solves _ hm, Real.norm_of_nonneg (by positivity)]
    exact hq _ hm _ hs
  refine h2.trans ((he.norm_left.pow 2).congr_right fun x => ?_)
  rw [← pow_mul, mul_comm]

theorem OnSolution.apply {c : ℝ} (h0 : 0 ≤ c) (h1 : c ≤ 1) {e : ℝ × ℝ → E} {k : ℕ} (he : e =O[stepsIn T] fun x => x.2 ^ k) :
    (fun x => J (x.1 + c * x.2) (e x)) =O[stepsIn T] fun x => x.2 ^ k := by
  obtain ⟨M, hM⟩ := A.jac
  refine IsBigO.trans (IsBigO.of_bound M ?_) he
  filter_upwards [stepsIn_mem T] with x hx
  exact (J _).le_of_opNorm_le (hM _ (stage_mem h0 h1 hx)) _

theorem OnSolution.move {c c' : ℝ} (h0 : 0 ≤ c) (h1 : c ≤ 1) (h0' : 0 ≤ c') (h1' : c' ≤ 1) {e : ℝ × ℝ → E} {k : ℕ}
    (he : e =O[stepsIn T] fun x => x.2 ^ k) :
    (fun x => J (x.1 + c * x.2) (e x) - J (x.1 + c' * x.2) (e x)) =O[stepsIn T] fun x => x.2 ^ (k + 1) := by
  obtain ⟨L, hL⟩ := A.lip
  have h2 : (fun x => J (x.1 + c * x.2) (e x) - J (x.1 + c' * x.2) (e x)) =O[stepsIn T] fun x => x.2 * ‖e x‖ := by
    refine IsBigO.of_bound (|L| * |c - c'|) ?_
    filter_upwards [stepsIn_mem T] with x hx
    have h3 := hL _ (stage_mem h0 h1 hx) _ (stage_mem h0' h1' hx)
    rw [← sub_apply]
    refine ((J _ - J _).le_of_opNorm_le h3 _).trans ?_
    have e1 : x.1 + c * x.2 - (x.1 + c' * x.2) = (c - c') * x.2 := by ring
    rw [e1, abs_mul, norm_mul, norm_norm, Real.norm_eq_abs, abs_of_nonneg hx.2.1]
    have : L * (|c - c'| * x.2) ≤ |L| * (|c - c'| * x.2) :=
      mul_le_mul_of_nonneg_right (le_abs_self L) (mul_nonneg (abs_nonneg _) hx.2.1)
    calc L * (|c - c'| * x.2) * ‖e x‖ ≤ |L| * (|c - c'| * x.2) * ‖e x‖ := mul_le_mul_of_nonneg_right this (norm_nonneg _)
      _ = |L| * |c - c'| * (x.2 * ‖e x‖) := by ring
  refine h2.trans (((isBigO_refl (fun x : ℝ × ℝ => x.2) _).mul he.norm_left).congr_right fun x => ?_)
  ring

theorem OnSolution.deriv {k j : ℕ} (hk : k ≤ n + 1) (a : ℝ) : (fun x : ℝ × ℝ => (a * x.2 ^ j) • Y k x.1) =O[stepsIn T] fun x => x.2 ^ j := by
  obtain ⟨B, hB⟩ := A.bounded
  have h1 : (fun x : ℝ × ℝ => Y k x.1) =O[stepsIn T] fun _ => (1 : ℝ) := by
    refine IsBigO.of_bound B ?_
    filter_upwards [stepsIn_mem T] with x hx
    rw [norm_one, mul_one]
    exact hB k hk _ ⟨hx.1, by linarith [hx.2.1, hx.2.2]⟩
  have := ((isBigO_refl (fun x : ℝ × ℝ => x.2 ^ j) (stepsIn T)).const_mul_left a).smul h1
  exact this.congr_right fun x => by simp

end OnSolution

theorem bigO_step {T : ℝ} {e : ℝ × ℝ → E} {k : ℕ} (he : e =O[stepsIn T] fun x => x.2 ^ k) (a : ℝ) :
    (fun x => (a * x.2) • e x) =O[stepsIn T] fun x => x.2 ^ (k + 1) := by
  have := ((isBigO_refl (fun x : ℝ × ℝ => x.2) (stepsIn T)).const_mul_left a).smul he
  exact this.congr_right fun x => by rw [smul_eq_mul, pow_succ']

theorem bigO_less {T : ℝ} {e : ℝ × ℝ → E} {j k : ℕ} (he : e =O[stepsIn T] fun x => x.2 ^ k) (h : j ≤ k) :
    e =O[stepsIn T] fun x => x.2 ^ j := he.trans (pow_bigO h)

section Orders

variable {f : E → E} {T : ℝ} {Y : ℕ → ℝ → E} {J : ℝ → E →L[ℝ] E}

theorem euler_error (A : OnSolution f T 1 Y J) :
    (fun x : ℝ × ℝ => Y 0 (x.1 + x.2) - advanceBy f .euler x.2 (Y 0 x.1)) =O[stepsIn T] fun x => x.2 ^ 2 := by
  have h1 := A.expand (j := 0) (r := 1) (c := 1) (by omega) zero_le_one le_rfl
  refine h1.congr' ?_ (Filter.EventuallyEq.refl _ _)
  filter_upwards [stepsIn_mem T] with x hx
  have e := A.solves x.1 ⟨hx.1, by linarith [hx.2.1, hx.2.2]⟩
  simp only [advanceBy, e, Finset.sum_range_succ, Finset.sum_range_zero, Nat.factorial, one_mul]
  norm_num

theorem ssprk2_error (A : OnSolution f T 2 Y J) :
    (fun x : ℝ × ℝ => Y 0 (x.1 + x.2) - advanceBy f .ssprk2 x.2 (Y 0 x.1)) =O[stepsIn T] fun x => x.2 ^ 3 := by
  have h1 := A.expand (j := 0) (r := 2) (c := 1) (by omega) zero_le_one le_rfl
  have h2 := A.expand (j := 1) (r := 1) (c := 1) (by omega) zero_le_one le_rfl
  have h3 := A.expand (j := 0) (r := 1) (c := 1) (by omega) zero_le_one le_rfl
  have hs := A.slope zero_le_one le_rfl (k := 2) (by omega) h3
  have ha := A.apply zero_le_one le_rfl h3
  have key := h1.sub ((bigO_step h2 (1 / 2)).add (bigO_less (bigO_step hs (1 / 2)) (by omega : 3 ≤ 5)) |>.sub (bigO_step ha (1 / 2)))
  refine key.congr' ?_ (Filter.EventuallyEq.refl _ _)
  filter_upwards [stepsIn_mem T] with x hx
  have e := A.solves x.1 ⟨hx.1, by linarith [hx.2.1, hx.2.2]⟩
  have e1 : Y 0 (x.1 + 1 * x.2) - (Y 0 (x.1 + 1 * x.2) - ∑ k ∈ Finset.range (1 + 1), ((1 * x.2) ^ k / (k.factorial : ℝ)) • Y (0 + k) x.1) =
      Y 0 x.1 + x.2 • Y 1 x.1 := by
    rw [sub_sub_cancel]
    simp [Finset.sum_range_succ]
  rw [e1]
  simp only [advanceBy, e, Finset.sum_range_succ, Finset.sum_range_zero, Nat.factorial, one_mul, Nat.cast_one, Nat.cast_mul, zero_add, add_zero]
  module

theorem ssprk3_error (A : OnSolution f T 3 Y J) :
    (fun x : ℝ × ℝ => Y 0 (x.1 + x.2) - advanceBy f .ssprk3 x.2 (Y 0 x.1)) =O[stepsIn T] fun x => x.2 ^ 4 := by
  have ch : (0 : ℝ) ≤ 1 / 2 := by norm_num
  have ch' : (1 / 2 : ℝ) ≤ 1 := by norm_num
  have y1 := A.expand (j := 0) (r := 3) (c := 1) (by omega) zero_le_one le_rfl
  have d1 := A.expand (j := 1) (r := 2) (c := 1) (by omega) zero_le_one le_rfl
  have dh := A.expand (j := 1) (r := 2) (c := 1 / 2) (by omega) ch ch'
  have y1' := A.expand (j := 0) (r := 2) (c := 1) (by omega) zero_le_one le_rfl
  have yh' := A.expand (j := 0) (r := 2) (c := 1 / 2) (by omega) ch ch'
  have d1' := A.expand (j := 1) (r := 1) (c := 1) (by omega) zero_le_one le_rfl
  simp only [Finset.sum_range_succ, Finset.sum_range_zero, Nat.factorial] at y1 d1 dh y1' yh' d1'
  norm_num only at y1 d1 dh y1' yh' d1'
  -- the second stage
  obtain ⟨e2, e2d⟩ : ∃ e2 : ℝ × ℝ → E, ∀ x, e2 x = Y 0 (x.1 + 1 * x.2) - (Y 0 x.1 + x.2 • Y 1 x.1) := ⟨_, fun _ => rfl⟩
  obtain ⟨k2, k2d⟩ : ∃ k2 : ℝ × ℝ → E, ∀ x, k2 x = f (Y 0 x.1 + x.2 • Y 1 x.1) := ⟨_, fun _ => rfl⟩
  have he2 : (fun x => e2 x - (1 / 2 * x.2 ^ 2) • Y 2 x.1) =O[stepsIn T] fun x => x.2 ^ 3 :=
    y1'.congr_left fun x => by simp only [e2d]; module
  have he2' : e2 =O[stepsIn T] fun x => x.2 ^ 2 :=
    ((bigO_less he2 (by omega)).add (A.deriv (k := 2) (j := 2) (by omega) (1 / 2))).congr_left fun x => by simp
  have hr2 : (fun x => k2 x - Y 1 (x.1 + 1 * x.2) + J (x.1 + 1 * x.2) (e2 x)) =O[stepsIn T] fun x => x.2 ^ 4 :=
    (A.slope zero_le_one le_rfl (by omega) he2').congr_left fun x => by rw [k2d, e2d, sub_sub_cancel]
  have hJ2 := A.apply zero_le_one le_rfl he2'
  -- the third stage
  obtain ⟨e3, e3d⟩ : ∃ e3 : ℝ × ℝ → E, ∀ x, e3 x = Y 0 (x.1 + 1 / 2 * x.2) -
    (Y 0 x.1 + (1 / 4 * x.2) • Y 1 x.1 + (1 / 4 * x.2) • k2 x) := ⟨_, fun _ => rfl⟩
  obtain ⟨k3, k3d⟩ : ∃ k3 : ℝ × ℝ → E, ∀ x, k3 x = f (Y 0 x.1 + (1 / 4 * x.2) • Y 1 x.1 + (1 / 4 * x.2) • k2 x) :=
    ⟨_, fun _ => rfl⟩
  have he3 : (fun x => e3 x + (1 / 8 * x.2 ^ 2) • Y 2 x.1) =O[stepsIn T] fun x => x.2 ^ 3 :=
    (((yh'.sub (bigO_step d1' (1 / 4))).sub (bigO_less (bigO_step hr2 (1 / 4)) (by omega : 3 ≤ 5))).add
      (bigO_step hJ2 (1 / 4))).congr_left fun x => by simp only [e3d]; module
  have he3' : e3 =O[stepsIn T] fun x => x.2 ^ 2 :=
    ((bigO_less he3 (by omega)).sub (A.deriv (k := 2) (j := 2) (by omega) (1 / 8))).congr_left fun x => by simp
  have hr3 : (fun x => k3 x - Y 1 (x.1 + 1 / 2 * x.2) + J (x.1 + 1 / 2 * x.2) (e3 x)) =O[stepsIn T] fun x => x.2 ^ 4 :=
    (A.slope ch ch' (by omega) he3').congr_left fun x => by rw [k3d, e3d, sub_sub_cancel]
  -- the result
  have g1 := A.apply zero_le_one le_rfl he2
  have g2 := A.apply ch ch' he3
  have g3 := A.move zero_le_one le_rfl ch ch' (A.deriv (k := 2) (j := 2) (by omega) (1 / 2))
  have key := ((y1.sub (bigO_step d1 (1 / 6))).sub (bigO_step dh (4 / 6))).sub
    (bigO_less (bigO_step (hr2.add (hr3.const_smul_left (4 : ℝ))) (1 / 6)) (by omega : 4 ≤ 5)) |>.add
    (bigO_step ((g1.add (g2.const_smul_left (4 : ℝ))).add g3) (1 / 6))
  refine key.congr' ?_ (Filter.EventuallyEq.refl _ _)
  filter_upwards [stepsIn_mem T] with x hx
  have e := A.solves x.1 ⟨hx.1, by linarith [hx.2.1, hx.2.2]⟩
  have e2' := k2d x
  have e3' := k3d x
  simp only [advanceBy, e, ← e2', ← e3', map_add, map_sub, map_smul, one_mul, Pi.smul_apply]
  module

theorem rk4_error (A : OnSolution f T 4 Y J) :
    (fun x : ℝ × ℝ => Y 0 (x.1 + x.2) - advanceBy f .rk4 x.2 (Y 0 x.1)) =O[stepsIn T] fun x => x.2 ^ 5 := by
  have ch : (0 : ℝ) ≤ 1 / 2 := by norm_num
  have ch' : (1 / 2 : ℝ) ≤ 1 := by norm_num
  have y1 := A.expand (j := 0) (r := 4) (c := 1) (by omega) zero_le_one le_rfl
  have d1 := A.expand (j := 1) (r := 3) (c := 1) (by omega) zero_le_one le_rfl
  have dh := A.expand (j := 1) (r := 3) (c := 1 / 2) (by omega) ch ch'
  have y1' := A.expand (j := 0) (r := 3) (c := 1) (by omega) zero_le_one le_rfl
  have yh' := A.expand (j := 0) (r := 3) (c := 1 / 2) (by omega) ch ch'
  have dh' := A.expand (j := 1) (r := 2) (c := 1 / 2) (by omega) ch ch'
  simp only [Finset.sum_range_succ, Finset.sum_range_zero, Nat.factorial] at y1 d1 dh y1' yh' dh'
  norm_num only at y1 d1 dh y1' yh' dh'
  -- the second stage
  obtain ⟨e2, e2d⟩ : ∃ e2 : ℝ × ℝ → E, ∀ x, e2 x = Y 0 (x.1 + 1 / 2 * x.2) - (Y 0 x.1 + (1 / 2 * x.2) • Y 1 x.1) :=
    ⟨_, fun _ => rfl⟩
  obtain ⟨k2, k2d⟩ : ∃ k2 : ℝ × ℝ → E, ∀ x, k2 x = f (Y 0 x.1 + (1 / 2 * x.2) • Y 1 x.1) := ⟨_, fun _ => rfl⟩
  have he2 : (fun x => e2 x - (1 / 8 * x.2 ^ 2) • Y 2 x.1 - (1 / 48 * x.2 ^ 3) • Y 3 x.1) =O[stepsIn T] fun x => x.2 ^ 4 :=
    yh'.congr_left fun x => by simp only [e2d]; module
  have he2a : (fun x => e2 x - (1 / 8 * x.2 ^ 2) • Y 2 x.1) =O[stepsIn T] fun x => x.2 ^ 3 :=
    ((bigO_less he2 (by omega)).add (A.deriv (k := 3) (j := 3) (by omega) (1 / 48))).congr_left fun x => by simp
  have he2' : e2 =O[stepsIn T] fun x => x.2 ^ 2 :=
    ((bigO_less he2a (by omega)).add (A.deriv (k := 2) (j := 2) (by omega) (1 / 8))).congr_left fun x => by simp
  have hr2 : (fun x => k2 x - Y 1 (x.1 + 1 / 2 * x.2) + J (x.1 + 1 / 2 * x.2) (e2 x)) =O[stepsIn T] fun x => x.2 ^ 4 :=
    (A.slope ch ch' (by omega) he2').congr_left fun x => by rw [k2d, e2d, sub_sub_cancel]
  have m8 := A.move ch ch' le_rfl zero_le_one (A.deriv (k := 2) (j := 2) (by omega) (1 / 8))
  -- the third stage
  obtain ⟨e3, e3d⟩ : ∃ e3 : ℝ × ℝ → E, ∀ x, e3 x = Y 0 (x.1 + 1 / 2 * x.2) - (Y 0 x.1 + (1 / 2 * x.2) • k2 x) :=
    ⟨_, fun _ => rfl⟩
  obtain ⟨k3, k3d⟩ : ∃ k3 : ℝ × ℝ → E, ∀ x, k3 x = f (Y 0 x.1 + (1 / 2 * x.2) • k2 x) := ⟨_, fun _ => rfl⟩
  have he3 : (fun x => e3 x + (1 / 8 * x.2 ^ 2) • Y 2 x.1 + (1 / 24 * x.2 ^ 3) • Y 3 x.1 -
      (1 / 2 * x.2) • J (x.1 + 0 * x.2) ((1 / 8 * x.2 ^ 2) • Y 2 x.1)) =O[stepsIn T] fun x => x.2 ^ 4 :=
    ((((yh'.sub (bigO_step dh' (1 / 2))).sub (bigO_less (bigO_step hr2 (1 / 2)) (by omega : 4 ≤ 5))).add
      (bigO_step (A.apply ch ch' he2a) (1 / 2))).add (bigO_step m8 (1 / 2))).congr_left fun x => by
        simp only [e3d, map_sub]; module
  have hJ8 := bigO_step (A.apply le_rfl zero_le_one (A.deriv (k := 2) (j := 2) (by omega) (1 / 8))) (1 / 2)
  have he3a : (fun x => e3 x + (1 / 8 * x.2 ^ 2) • Y 2 x.1) =O[stepsIn T] fun x => x.2 ^ 3 :=
    (((bigO_less he3 (by omega)).sub (A.deriv (k := 3) (j := 3) (by omega) (1 / 24))).add hJ8).congr_left fun x => by abel
  have he3' : e3 =O[stepsIn T] fun x => x.2 ^ 2 :=
    ((bigO_less he3a (by omega)).sub (A.deriv (k := 2) (j := 2) (by omega) (1 / 8))).congr_left fun x => by simp
  have hr3 : (fun x => k3 x - Y 1 (x.1 + 1 / 2 * x.2) + J (x.1 + 1 / 2 * x.2) (e3 x)) =O[stepsIn T] fun x => x.2 ^ 4 :=
    (A.slope ch ch' (by omega) he3').congr_left fun x => by rw [k3d, e3d, sub_sub_cancel]
  -- the fourth stage
  obtain ⟨e4, e4d⟩ : ∃ e4 : ℝ × ℝ → E, ∀ x, e4 x = Y 0 (x.1 + 1 * x.2) - (Y 0 x.1 + x.2 • k3 x) := ⟨_, fun _ => rfl⟩
  obtain ⟨k4, k4d⟩ : ∃ k4 : ℝ × ℝ → E, ∀ x, k4 x = f (Y 0 x.1 + x.2 • k3 x) := ⟨_, fun _ => rfl⟩
  have he4 : (fun x => e4 x - (1 / 24 * x.2 ^ 3) • Y 3 x.1 + x.2 • J (x.1 + 0 * x.2) ((1 / 8 * x.2 ^ 2) • Y 2 x.1))
      =O[stepsIn T] fun x => x.2 ^ 4 :=
    ((((y1'.sub (bigO_step dh' 1)).sub (bigO_less (bigO_step hr3 1) (by omega : 4 ≤ 5))).add
      (bigO_step (A.apply ch ch' he3a) 1)).sub (bigO_step m8 1)).congr_left fun x => by
        simp only [e4d, map_add]; module
  have he4' : e4 =O[stepsIn T] fun x => x.2 ^ 3 :=
    (((bigO_less he4 (by omega)).add (A.deriv (k := 3) (j := 3) (by omega) (1 / 24))).sub
      (hJ8.const_smul_left (2 : ℝ))).congr_left fun x => by simp only [Pi.smul_apply]; module
  have hr4 : (fun x => k4 x - Y 1 (x.1 + 1 * x.2) + J (x.1 + 1 * x.2) (e4 x)) =O[stepsIn T] fun x => x.2 ^ 4 :=
    (bigO_less (A.slope zero_le_one le_rfl (by omega) he4') (by omega : 4 ≤ 6)).congr_left fun x => by
      rw [k4d, e4d, sub_sub_cancel]
  -- the result
  obtain ⟨z, zd⟩ : ∃ z : ℝ × ℝ → E, ∀ x, z x = (1 / 2 * x.2) • J (x.1 + 0 * x.2) ((1 / 8 * x.2 ^ 2) • Y 2 x.1) -
    (1 / 48 * x.2 ^ 3) • Y 3 x.1 := ⟨_, fun _ => rfl⟩
  have hz : z =O[stepsIn T] fun x => x.2 ^ 3 :=
    (hJ8.sub (A.deriv (k := 3) (j := 3) (by omega) (1 / 48))).congr_left fun x => (zd x).symm
  have g1 : (fun x => e2 x + e3 x - z x) =O[stepsIn T] fun x => x.2 ^ 4 :=
    (he2.add he3).congr_left fun x => by simp only [zd]; module
  have g2 : (fun x => e4 x + (2 : ℝ) • z x) =O[stepsIn T] fun x => x.2 ^ 4 :=
    he4.congr_left fun x => by simp only [zd]; module
  have g3 := A.apply ch ch' g1
  have g4 := A.apply zero_le_one le_rfl g2
  have g5 := A.move ch ch' zero_le_one le_rfl hz
  have key := ((y1.sub (bigO_step d1 (1 / 6))).sub (bigO_step dh (4 / 6))).sub
    (bigO_step (((hr2.const_smul_left (2 : ℝ)).add (hr3.const_smul_left (2 : ℝ))).add hr4) (1 / 6)) |>.add
    (bigO_step (((g3.const_smul_left (2 : ℝ)).add g4).add (g5.const_smul_left (2 : ℝ))) (1 / 6))
  refine key.congr' ?_ (Filter.EventuallyEq.refl _ _)
  filter_upwards [stepsIn_mem T] with x hx
  have e := A.solves x.1 ⟨hx.1, by linarith [hx.2.1, hx.2.2]⟩
  have e2' := k2d x
  have e3' := k3d x
  have e4' := k4d x
  simp only [advanceBy, e, ← e2', ← e3', ← e4', map_add, map_sub, map_smul, one_mul, Pi.smul_apply]
  module

theorem step_error (m : Integrator) (A : OnSolution f T m.order Y J) :
    (fun x : ℝ × ℝ => Y 0 (x.1 + x.2) - advanceBy f m x.2 (Y 0 x.1)) =O[stepsIn T] fun x => x.2 ^ (m.order + 1) := by
  cases m with
  | euler => exact euler_error A
  | ssprk2 => exact ssprk2_error A
  | ssprk3 => exact ssprk3_error A
  | rk4 => exact rk4_error A

end Orders

end FVHOE
