import Mathlib.Analysis.Calculus.ContDiff.Bounds
import Verif.Proofs.Norms

/-!
The error a step of `ssprk3` or `rk4` commits when it starts from the exact cell averages of a smooth density in uniform
flow.
-/

set_option linter.unusedSectionVars false

namespace FVHOE

open MeasureTheory

variable {np : ℕ}

/-! ## Directional derivatives -/

/-- The derivative in direction `w`. -/
noncomputable def directional (w : Fin 3 → ℝ) (f : (Fin 3 → ℝ) → ℝ) (x : Fin 3 → ℝ) : ℝ := fderiv ℝ f x w

theorem DependsOn.directional {act : Fin 3 → Bool} {f : (Fin 3 → ℝ) → ℝ} (h : DependsOn act f) (w : Fin 3 → ℝ) :
    DependsOn act (directional w f) := by
  intro x y hxy
  have e : (fun z => f (z + (y - x))) = f := funext fun z => (h _ _ fun d hd => by simp [hxy d hd])
  have h1 := fderiv_comp_add_right (𝕜 := ℝ) (f := f) (x := x) (y - x)
  rw [e, add_sub_cancel] at h1
  unfold FVHOE.directional
  rw [h1]

theorem PeriodicIn.directional {c : EulerConfig ℝ np} {f : (Fin 3 → ℝ) → ℝ} (h : PeriodicIn c f) (w : Fin 3 → ℝ) :
    PeriodicIn c (directional w f) := by
  intro d hd x
  unfold FVHOE.directional
  rw [← fderiv_comp_add_right, show (fun x => f (x + Pi.single d ((c.n d : ℝ) * c.h d))) = f from funext (h d hd)]

theorem directional_smooth {n : ℕ} {f : (Fin 3 → ℝ) → ℝ} (hf : ContDiff ℝ (n + 1 : ℕ) f) (w : Fin 3 → ℝ) :
    ContDiff ℝ n (directional w f) := by
  unfold directional
  exact (hf.fderiv_right (m := n) (by norm_cast)).clm_apply contDiff_const

theorem directional_eq (w : Fin 3 → ℝ) (f : (Fin 3 → ℝ) → ℝ) : directional w f = ContinuousLinearMap.apply ℝ ℝ w ∘ fderiv ℝ f := rfl

theorem directional_norm {n : ℕ} {f : (Fin 3 → ℝ) → ℝ} (hf : ContDiff ℝ (n + 1 : ℕ) f) (w x : Fin 3 → ℝ) :
    ‖iteratedFDeriv ℝ n (directional w f) x‖ ≤ ‖w‖ * ‖iteratedFDeriv ℝ (n + 1) f x‖ := by
  rw [directional_eq]
  have h1 := ContinuousLinearMap.norm_iteratedFDeriv_comp_left (ContinuousLinearMap.apply ℝ ℝ w) (n := n)
    (hf.fderiv_right (m := n) (by norm_cast)).contDiffAt (x := x) le_rfl
  rw [norm_iteratedFDeriv_fderiv] at h1
  refine h1.trans (mul_le_mul_of_nonneg_right ?_ (norm_nonneg _))
  refine ContinuousLinearMap.opNorm_le_bound _ (norm_nonneg _) fun L => ?_
  rw [ContinuousLinearMap.apply_apply, mul_comm]
  exact L.le_opNorm w

theorem directional_iterate {k : ℕ} {f : (Fin 3 → ℝ) → ℝ} (hf : ContDiff ℝ k f) (w x : Fin 3 → ℝ) :
    iteratedFDeriv ℝ k f x (fun _ => w) = (directional w)^[k] f x := by
  induction k generalizing f with
  | zero => simp
  | succ k ih =>
    rw [iteratedFDeriv_succ_apply_right, Function.iterate_succ_apply, ← ih (directional_smooth (by exact_mod_cast hf) w),
      directional_eq, ContinuousLinearMap.iteratedFDeriv_comp_left _
        (ContDiff.contDiffAt (n := k) (hf.fderiv_right (by norm_cast))) le_rfl]
    rfl

theorem directional_iterate_smooth {k n : ℕ} {f : (Fin 3 → ℝ) → ℝ} (hf : ContDiff ℝ (n + k : ℕ) f) (w : Fin 3 → ℝ) :
    ContDiff ℝ n ((directional w)^[k] f) := by
  induction k generalizing f with
  | zero => exact hf
  | succ k ih =>
    rw [Function.iterate_succ_apply]
    exact ih (directional_smooth (by rw [add_assoc]; exact hf) w)

theorem directional_iterate_norm {k n : ℕ} {f : (Fin 3 → ℝ) → ℝ} (hf : ContDiff ℝ (n + k : ℕ) f) (w x : Fin 3 → ℝ) :
    ‖iteratedFDeriv ℝ n ((directional w)^[k] f) x‖ ≤ ‖w‖ ^ k * ‖iteratedFDeriv ℝ (n + k) f x‖ := by
  induction k generalizing f with
  | zero => simp
  | succ k ih =>
    rw [Function.iterate_succ_apply]
    have hf' : ContDiff ℝ (n + k + 1 : ℕ) f := by rw [add_assoc]; exact hf
    refine (ih (directional_smooth hf' w)).trans ?_
    rw [pow_succ, mul_assoc]
    exact mul_le_mul_of_nonneg_left (directional_norm hf' w x) (by positivity)

theorem directional_iterate_depends {act : Fin 3 → Bool} {f : (Fin 3 → ℝ) → ℝ} (h : DependsOn act f) (w : Fin 3 → ℝ) (k : ℕ) :
    DependsOn act ((directional w)^[k] f) := by
  induction k generalizing f with
  | zero => exact h
  | succ k ih => rw [Function.iterate_succ_apply]; exact ih (h.directional w)

theorem directional_iterate_periodic {c : EulerConfig ℝ np} {f : (Fin 3 → ℝ) → ℝ} (h : PeriodicIn c f) (w : Fin 3 → ℝ) (k : ℕ) :
    PeriodicIn c ((directional w)^[k] f) := by
  induction k generalizing f with
  | zero => exact h
  | succ k ih => rw [Function.iterate_succ_apply]; exact ih (h.directional w)

/-! ## The rate of change of exact cell averages -/

theorem cellMean_add_const (x₀ h : Fin 3 → ℝ) (hh : ∀ d, 0 < h d) {f : (Fin 3 → ℝ) → ℝ} (hf : Continuous f) (A : ℝ) (i : Ix) :
    cellMean x₀ h (fun x => A + f x) i = A + cellMean x₀ h f i := by
  have h1 := cellMean_sub x₀ h hh (f := fun x => A + f x) (g := f) (continuous_const.add hf) hf i
  have h2 : (fun x => A + f x - f x) = fun _ => A := by funext x; ring
  rw [h2] at h1
  have h3 : cellMean x₀ h (fun _ => A) i = A := by
    have hv : 0 < ∏ d, h d := Finset.prod_pos fun d _ => hh d
    rw [cellMean_eq _ _ hh, setIntegral_const, cellBox_vol _ _ hh, smul_eq_mul]
    field_simp
  rw [h3] at h1
  linarith

section

variable {c : EulerConfig ℝ np} (hc : TransportSetup c) (x₀ : Fin 3 → ℝ) {q : ℕ} {r : ℝ}
  (hq : ∀ d, c.scheme.active d = true → q ≤ c.p d)
  (hr : ∀ d, c.scheme.active d = true → (reach c.scheme d + 1 / 2) * c.h d ≤ r) (hr0 : 0 ≤ r)
include hc hq hr hr0

/-- C70 for densities of any sign. -/
theorem rate_close {f : (Fin 3 → ℝ) → ℝ} (hf : ContDiff ℝ (q + 2 : ℕ) f) (hd : DependsOn c.scheme.active f) {M : ℝ}
    (hM : ∀ d x, ‖iteratedFDeriv ℝ (q + 1) (partialD d f) x‖ ≤ M) (i : Ix) (d : Fin 3) (ha : c.scheme.active d = true)
    (s : Bool) :
    |1 / c.h d * (transported ℝ c.p d s (cellMean x₀ c.h f) (i + Pi.single d 1) -
      transported ℝ c.p d s (cellMean x₀ c.h f) i) - cellMean x₀ c.h (partialD d f) i| ≤
      11 * (M * r ^ (q + 1) / (q + 1).factorial) := by
  obtain ⟨B, hB⟩ : ∃ B, ∀ x ∈ stencilBox c x₀ i, x ∈ Metric.closedBall (fun d => x₀ d + ((i d : ℝ) + 1 / 2) * c.h d) B := by
    refine ⟨∑ d, (reach c.scheme d + 1 / 2 : ℝ) * c.h d, fun x hx => ?_⟩
    have hterm : ∀ d, 0 ≤ (reach c.scheme d + 1 / 2 : ℝ) * c.h d := fun d => by
      have := (hc.spacing d).le
      positivity
    rw [mem_closedBall_iff_norm, pi_norm_le_iff_of_nonneg (Finset.sum_nonneg fun d _ => hterm d)]
    intro d
    exact le_trans (hx d) (Finset.single_le_sum (fun d _ => hterm d) (Finset.mem_univ d))
  have hcomp := isCompact_closedBall (fun d => x₀ d + ((i d : ℝ) + 1 / 2) * c.h d) B
  obtain ⟨M₀, hM₀⟩ := hcomp.exists_bound_of_continuousOn
    (hf.continuous_iteratedFDeriv (m := q + 1) (by norm_cast; omega)).continuousOn
  obtain ⟨L, hL⟩ := hcomp.exists_bound_of_continuousOn hf.continuous.continuousOn
  obtain ⟨A, hA⟩ : ∃ A, A = 10 * (M₀ * r ^ (q + 1) / (q + 1).factorial) + 1 + L := ⟨_, rfl⟩
  have hfd : fderiv ℝ (fun x => A + f x) = fderiv ℝ f := funext fun x => fderiv_const_add _
  have hpe : ∀ d, partialD d (fun x => A + f x) = partialD d f := fun d => by
    unfold partialD
    rw [hfd]
  have hres : Resolved c x₀ (fun x => A + f x) q r (10 * (M₀ * r ^ (q + 1) / (q + 1).factorial) + 1) M₀ M i := by
    refine ⟨hq, contDiff_const.add hf, fun x y h => by rw [hd x y h], hr, hr0, fun x hx => ?_, fun x hx => ?_,
      fun d x _ => by rw [hpe]; exact hM d x, by linarith⟩
    · have := hL x (hB x hx)
      rw [Real.norm_eq_abs, abs_le] at this
      linarith [this.1]
    · have e : iteratedFDeriv ℝ (q + 1) (fun x => A + f x) x = iteratedFDeriv ℝ (q + 1) f x := by
        rw [iteratedFDeriv_succ_eq_comp_right, iteratedFDeriv_succ_eq_comp_right, hfd]
      rw [e]
      exact hM₀ x (hB x hx)
  have h1 := transported_close hc hres d ha s
  have e2 : cellMean x₀ c.h (fun x => A + f x) = fun j => 1 * cellMean x₀ c.h f j + A * (fun _ => 1) j := by
    funext j
    rw [cellMean_add_const _ _ hc.spacing hf.continuous]
    ring
  have e3 : transported ℝ c.p d s (fun _ => 1) (i + Pi.single d 1) = transported ℝ c.p d s (fun _ => 1) i :=
    (congrFun (transported_shift (p := c.p) d s (fun _ => (1 : ℝ)) (Pi.single d 1)) i).symm
  rw [hpe, e2, transported_lin] at h1
  beta_reduce at h1
  rw [e3] at h1
  refine le_trans (le_of_eq ?_) h1
  congr 1
  ring

/-- The scheme's rate of change of exact cell averages. -/
theorem rateOp_close (v : Fin 3 → ℝ) {f : (Fin 3 → ℝ) → ℝ} (hf : ContDiff ℝ (q + 2 : ℕ) f) (hd : DependsOn c.scheme.active f)
    {M : ℝ} (hM : ∀ x, ‖iteratedFDeriv ℝ (q + 2) f x‖ ≤ M) (i : Ix) :
    |act (rateOp c v) (cellMean x₀ c.h f) i - cellMean x₀ c.h (directional (-v) f) i| ≤
      11 * (∑ d, |v d|) * (M * r ^ (q + 1) / (q + 1).factorial) := by
  have hM0 : 0 ≤ M := (norm_nonneg _).trans (hM 0)
  have hpart : ∀ d x, ‖iteratedFDeriv ℝ (q + 1) (partialD d f) x‖ ≤ M := by
    intro d x
    refine (directional_norm (n := q + 1) hf (Pi.single d 1) x).trans ?_
    have : ‖(Pi.single d 1 : Fin 3 → ℝ)‖ ≤ 1 := by
      rw [pi_norm_le_iff_of_nonneg zero_le_one]
      intro e
      by_cases he : e = d
      · subst he; simp
      · simp [he]
    calc _ ≤ 1 * ‖iteratedFDeriv ℝ (q + 2) f x‖ := mul_le_mul_of_nonneg_right this (norm_nonneg _)
      _ ≤ M := by rw [one_mul]; exact hM x
  have e : cellMean x₀ c.h (directional (-v) f) i = -cellMean x₀ c.h (fun x => fderiv ℝ f x v) i := by
    have : directional (-v) f = fun x => (-1) * fderiv ℝ f x v := by
      funext x
      unfold directional
      rw [map_neg]
      ring
    rw [this, cellMean_smul _ _ hc.spacing]
    ring
  rw [e, act_rateOp c hc.degree, cellMean_directional x₀ c.h hc.spacing hd (hf.of_le (by norm_cast; omega)) v i, sub_neg_eq_add,
    neg_add_eq_sub, ← Finset.sum_sub_distrib, Finset.mul_sum, Finset.sum_mul]
  refine (Finset.abs_sum_le_sum_abs _ _).trans (Finset.sum_le_sum fun d _ => ?_)
  by_cases ha : c.scheme.active d = true
  · rw [if_pos ha, if_pos ha]
    have h1 := rate_close hc x₀ hq hr hr0 hf hd hpart i d ha (decide (0 < v d))
    rw [abs_sub_comm] at h1
    have h2 := mul_le_mul_of_nonneg_left h1 (abs_nonneg (v d))
    rw [← abs_mul] at h2
    refine le_trans (le_of_eq ?_) (h2.trans (le_of_eq ?_))
    · congr 1
      ring
    · ring
  · rw [if_neg ha, if_neg ha, sub_zero, abs_zero]
    positivity

end

/-! ## One step from exact averages -/

/-- The order of an integrator. -/
def order (k : Integrator) : ℕ := if k = .rk4 then 4 else 3

/-- A smooth periodic density of length scale `ℓ`, resolved by cells of width at most `H` and stencils of half width at most
`r`. -/
structure SmoothFlow (c : EulerConfig ℝ np) (q s : ℕ) (r M ℓ H : ℝ) (ρ : (Fin 3 → ℝ) → ℝ) : Prop where
  degrees : ∀ d, c.scheme.active d = true → q ≤ c.p d
  radius : ∀ d, c.scheme.active d = true → (reach c.scheme d + 1 / 2) * c.h d ≤ r
  radius_nonneg : 0 ≤ r
  smooth : ContDiff ℝ (q + s + 1 : ℕ) ρ
  depends : DependsOn c.scheme.active ρ
  periodic : PeriodicIn c ρ
  scale : 0 < ℓ
  bound : ∀ k, 1 ≤ k → k ≤ q + s + 1 → ∀ x, ‖iteratedFDeriv ℝ k ρ x‖ ≤ M / ℓ ^ k
  width : ∀ d, c.scheme.active d = true → c.h d ≤ H
  fine : H ≤ ℓ

/-- The error committed per unit of time. -/
noncomputable def flowError (v : Fin 3 → ℝ) (q s : ℕ) (r M ℓ H : ℝ) : ℝ :=
  (∑ d, |v d|) * (M / ℓ) * (44 * ((r / ℓ) ^ (q + 1) / (q + 1).factorial) + (H / ℓ) ^ s / (s + 1).factorial)

theorem SmoothFlow.translate {c : EulerConfig ℝ np} {q s : ℕ} {r M ℓ H : ℝ} {ρ : (Fin 3 → ℝ) → ℝ}
    (h : SmoothFlow c q s r M ℓ H ρ) (w : Fin 3 → ℝ) : SmoothFlow c q s r M ℓ H fun x => ρ (x - w) := by
  refine ⟨h.degrees, h.radius, h.radius_nonneg, h.smooth.comp (contDiff_id.sub contDiff_const), fun x y hxy => ?_,
    fun d hd x => ?_, h.scale, fun k k1 k2 x => ?_, h.width, h.fine⟩
  · exact h.depends _ _ fun d hd => by simp [hxy d hd]
  · rw [add_sub_right_comm]
    exact h.periodic d hd _
  · rw [iteratedFDeriv_comp_sub]
    exact h.bound k k1 k2 _

theorem SmoothFlow.M_nonneg {c : EulerConfig ℝ np} {q s : ℕ} {r M ℓ H : ℝ} {ρ : (Fin 3 → ℝ) → ℝ}
    (h : SmoothFlow c q s r M ℓ H ρ) : 0 ≤ M := by
  have := (norm_nonneg _).trans (h.bound 1 le_rfl (by omega) 0)
  rw [pow_one, le_div_iff₀ h.scale, zero_mul] at this
  exact this

theorem act_stepOp (k : Integrator) (A : Ops) (α : Ix → ℝ) : act (stepOp k A) α =
    α + act A α + (1 / 2 : ℝ) • act A (act A α) + (1 / 6 : ℝ) • act A (act A (act A α)) +
      (if k = .rk4 then (1 / 24 : ℝ) else 0) • act A (act A (act A (act A α))) := by
  have e24 : (24 : Ops) = (24 : ℝ) • 1 := by rw [← mul_one (24 : Ops)]; exact natCast_mul_ops 24 1
  have e12 : (12 : Ops) = (12 : ℝ) • 1 := by rw [← mul_one (12 : Ops)]; exact natCast_mul_ops 12 1
  have e4 : (4 : Ops) = (4 : ℝ) • 1 := by rw [← mul_one (4 : Ops)]; exact natCast_mul_ops 4 1
  have e6 : (6 : Ops) = (6 : ℝ) • 1 := by rw [← mul_one (6 : Ops)]; exact natCast_mul_ops 6 1
  have e3 : (3 : Ops) = (3 : ℝ) • 1 := by rw [← mul_one (3 : Ops)]; exact natCast_mul_ops 3 1
  have p2 : A ^ 2 = A * A := pow_two A
  have p3 : A ^ 3 = A * (A * A) := by rw [pow_succ', pow_two]
  have p4 : A ^ 4 = A * (A * (A * A)) := by rw [pow_succ', p3]
  unfold stepOp poly3 poly4
  rw [e24, e12, e4, e6, e3, p2, p3, p4]
  funext j
  split_ifs <;>
  · simp only [act_add, act_smul, act_mul, act_one, smul_mul_assoc, one_mul, smul_add, smul_smul, Pi.add_apply, Pi.smul_apply,
      smul_eq_mul]
    ring

theorem sum_abs_nonneg (v : Fin 3 → ℝ) : 0 ≤ ∑ d, |v d| := Finset.sum_nonneg fun _ _ => abs_nonneg _

theorem norm_le_sum_abs (v : Fin 3 → ℝ) : ‖v‖ ≤ ∑ d, |v d| := by
  rw [pi_norm_le_iff_of_nonneg (sum_abs_nonneg v)]
  exact fun d => Finset.single_le_sum (f := fun d => |v d|) (fun _ _ => abs_nonneg _) (Finset.mem_univ d)

section

variable {c : EulerConfig ℝ np} {v : Fin 3 → ℝ} (h : FlowSetup c v) (x₀ : Fin 3 → ℝ) {q s : ℕ} {r M ℓ H : ℝ} {ρ : (Fin 3 → ℝ) → ℝ}
  (hs : SmoothFlow c q s r M ℓ H ρ) {τ : ℝ} (h0 : 0 ≤ τ)
  (h1 : ∀ d, c.scheme.active d = true → τ * ∑ d, |v d| ≤ 4 / 5 * c.h d)
include h hs h0 h1

theorem step_le : τ * ∑ d, |v d| ≤ 4 / 5 * H := by
  obtain ⟨d, hd⟩ := h.extended
  have := hs.width d hd
  linarith [h1 d hd]

theorem flow_derivative {k : ℕ} (hk : k < s) (i : Ix) :
    |act (τ • rateOp c v) (cellMean x₀ c.h ((directional (-v))^[k] ρ)) i -
      τ * cellMean x₀ c.h ((directional (-v))^[k + 1] ρ) i| * τ ^ k ≤
      (4 / 5) ^ k * (τ * (11 * (∑ d, |v d|) * (M / ℓ) * ((r / ℓ) ^ (q + 1) / (q + 1).factorial))) := by
  have hℓ := hs.scale
  have hM0 := hs.M_nonneg
  have hV := sum_abs_nonneg v
  have hr0 := hs.radius_nonneg
  have hb : ∀ x, ‖iteratedFDeriv ℝ (q + 2) ((directional (-v))^[k] ρ) x‖ ≤ (∑ d, |v d|) ^ k * (M / ℓ ^ (q + 2 + k)) := by
    intro x
    refine (directional_iterate_norm (k := k) (n := q + 2) (hs.smooth.of_le (by norm_cast; omega)) (-v) x).trans ?_
    rw [norm_neg]
    exact mul_le_mul (pow_le_pow_left₀ (norm_nonneg _) (norm_le_sum_abs v) k) (hs.bound _ (by omega) (by omega) x) (norm_nonneg _)
      (by positivity)
  have key := rateOp_close h.transport x₀ hs.degrees hs.radius hs.radius_nonneg v
    (directional_iterate_smooth (n := q + 2) (k := k) (hs.smooth.of_le (by norm_cast; omega)) (-v))
    (directional_iterate_depends hs.depends (-v) k) hb i
  rw [Function.iterate_succ_apply']
  have e : act (τ • rateOp c v) (cellMean x₀ c.h ((directional (-v))^[k] ρ)) i - τ * cellMean x₀ c.h (directional (-v) ((directional (-v))^[k] ρ)) i =
      τ * (act (rateOp c v) (cellMean x₀ c.h ((directional (-v))^[k] ρ)) i - cellMean x₀ c.h (directional (-v) ((directional (-v))^[k] ρ)) i) := by
    rw [act_smul, Pi.smul_apply, smul_eq_mul]
    ring
  rw [e, abs_mul, abs_of_nonneg h0]
  have hpow : (τ * ∑ d, |v d|) ^ k ≤ (4 / 5) ^ k * ℓ ^ k := by
    rw [← mul_pow]
    refine pow_le_pow_left₀ (by positivity) ?_ k
    have := step_le h hs h0 h1
    have := hs.fine
    linarith
  calc _ ≤ τ * (11 * (∑ d, |v d|) * ((∑ d, |v d|) ^ k * (M / ℓ ^ (q + 2 + k)) * r ^ (q + 1) / (q + 1).factorial)) * τ ^ k := by
        gcongr
    _ = (τ * ∑ d, |v d|) ^ k * (τ * (11 * (∑ d, |v d|) * (M / ℓ ^ (q + 2 + k)) * r ^ (q + 1) / (q + 1).factorial)) := by
        rw [mul_pow]
        ring
    _ ≤ (4 / 5) ^ k * ℓ ^ k * (τ * (11 * (∑ d, |v d|) * (M / ℓ ^ (q + 2 + k)) * r ^ (q + 1) / (q + 1).factorial)) := by
        gcongr
    _ = _ := by
        rw [div_pow r ℓ]
        have : ℓ ^ (q + 2 + k) = ℓ ^ (q + 1) * ℓ * ℓ ^ k := by rw [← pow_succ, ← pow_add]
        rw [this]
        field_simp

theorem means_cyclic (k : ℕ) : Cyclic c.n (cellMean x₀ c.h ((directional (-v))^[k] ρ)) := fun d j =>
  periodic_means h.transport x₀ (directional_iterate_depends hs.depends (-v) k) (directional_iterate_periodic hs.periodic (-v) k) d j

/-- Powers of the operator against the derivatives. -/
theorem powers_close {k : ℕ} (hk : k < s) {β : Ix → ℝ} (hβ : Cyclic c.n β) {b D : ℝ}
    (hD : D = √(cellCount c.n) * (τ * (11 * (∑ d, |v d|) * (M / ℓ) * ((r / ℓ) ^ (q + 1) / (q + 1).factorial))))
    (hb : nrm c.n (β - τ ^ k • cellMean x₀ c.h ((directional (-v))^[k] ρ)) ≤ b * D) :
    nrm c.n (act (τ • rateOp c v) β - τ ^ (k + 1) • cellMean x₀ c.h ((directional (-v))^[k + 1] ρ)) ≤ (8 / 5 * b + (4 / 5) ^ k) * D := by
  have hℓ := hs.scale
  have hM0 := hs.M_nonneg
  have hV := sum_abs_nonneg v
  have hr0 := hs.radius_nonneg
  have hG := means_cyclic h x₀ hs h0 h1 k
  have e : act (τ • rateOp c v) β - τ ^ (k + 1) • cellMean x₀ c.h ((directional (-v))^[k + 1] ρ) =
      act (τ • rateOp c v) (β - τ ^ k • cellMean x₀ c.h ((directional (-v))^[k] ρ)) +
        τ ^ k • (act (τ • rateOp c v) (cellMean x₀ c.h ((directional (-v))^[k] ρ)) -
          τ • cellMean x₀ c.h ((directional (-v))^[k + 1] ρ)) := by
    have e1 : β - τ ^ k • cellMean x₀ c.h ((directional (-v))^[k] ρ) = β + (-τ ^ k) • cellMean x₀ c.h ((directional (-v))^[k] ρ) := by
      rw [neg_smul, sub_eq_add_neg]
    rw [e1, act_map_add, act_map_smul]
    funext j
    simp only [Pi.add_apply, Pi.sub_apply, Pi.smul_apply, smul_eq_mul]
    ring
  rw [e]
  refine (nrm_add _ _ _).trans ?_
  have hcy : Cyclic c.n (β - τ ^ k • cellMean x₀ c.h ((directional (-v))^[k] ρ)) := fun d j => by
    simp only [Pi.sub_apply, Pi.smul_apply]
    rw [hβ d j, hG d j]
  have a1 := nrm_rate h h0 h1 hcy
  have a2 : nrm c.n (τ ^ k • (act (τ • rateOp c v) (cellMean x₀ c.h ((directional (-v))^[k] ρ)) -
      τ • cellMean x₀ c.h ((directional (-v))^[k + 1] ρ))) ≤ √(cellCount c.n) *
        ((4 / 5) ^ k * (τ * (11 * (∑ d, |v d|) * (M / ℓ) * ((r / ℓ) ^ (q + 1) / (q + 1).factorial)))) := by
    refine nrm_le_of_sup _ _ _ (by positivity) fun i _ => ?_
    have := flow_derivative h x₀ hs h0 h1 hk i
    simp only [Pi.smul_apply, Pi.sub_apply, smul_eq_mul]
    rw [abs_mul, abs_of_nonneg (pow_nonneg h0 k), mul_comm]
    exact this
  have a3 : √(cellCount c.n) * ((4 / 5) ^ k * (τ * (11 * (∑ d, |v d|) * (M / ℓ) * ((r / ℓ) ^ (q + 1) / (q + 1).factorial)))) =
      (4 / 5) ^ k * D := by
    rw [hD]
    ring
  rw [a3] at a2
  linarith

/-- Taylor's formula in time for the averages. -/
theorem time_taylor (i : Ix) :
    |∑ k ∈ Finset.range (s + 1), ((k.factorial : ℝ))⁻¹ * (τ ^ k * cellMean x₀ c.h ((directional (-v))^[k] ρ) i) -
      cellMean x₀ c.h (fun x => ρ (x - τ • v)) i| ≤ τ * ((∑ d, |v d|) * (M / ℓ) * ((H / ℓ) ^ s / (s + 1).factorial)) := by
  have hℓ := hs.scale
  have hM0 := hs.M_nonneg
  have hV := sum_abs_nonneg v
  have hH : 0 ≤ H := by
    obtain ⟨d, hd⟩ := h.extended
    exact (h.transport.spacing d).le.trans (hs.width d hd)
  have hcont : ∀ k, k ≤ s → Continuous ((directional (-v))^[k] ρ) := fun k hk =>
    (directional_iterate_smooth (n := 0) (k := k) (hs.smooth.of_le (by norm_cast; omega)) (-v)).continuous
  have e : ∑ k ∈ Finset.range (s + 1), ((k.factorial : ℝ))⁻¹ * (τ ^ k * cellMean x₀ c.h ((directional (-v))^[k] ρ) i) =
      cellMean x₀ c.h (fun x => ∑ k ∈ Finset.range (s + 1), ((k.factorial : ℝ))⁻¹ * τ ^ k * (directional (-v))^[k] ρ x) i := by
    rw [cellMean_sum _ x₀ c.h h.transport.spacing (fun k x => ((k.factorial : ℝ))⁻¹ * τ ^ k * (directional (-v))^[k] ρ x)
      (fun k hk => continuous_const.mul (hcont k (Nat.lt_succ_iff.1 (Finset.mem_range.1 hk))))]
    refine Finset.sum_congr rfl fun k _ => ?_
    rw [cellMean_smul _ _ h.transport.spacing]
    ring
  rw [e]
  refine cellMean_sub_le x₀ c.h h.transport.spacing
    (continuous_finsetSum _ fun k hk => continuous_const.mul (hcont k (Nat.lt_succ_iff.1 (Finset.mem_range.1 hk))))
    (hs.smooth.continuous.comp (continuous_id.sub continuous_const)) fun x _ => ?_
  have ht := taylor_remainder (q := s) (hs.smooth.of_le (by norm_cast; omega)) x (τ • -v) (M / ℓ ^ (s + 1)) (τ * ∑ d, |v d|)
    (by
      rw [norm_smul, norm_neg, Real.norm_eq_abs, abs_of_nonneg h0]
      exact mul_le_mul_of_nonneg_left (norm_le_sum_abs v) h0)
    (fun t _ => hs.bound _ (by omega) (by omega) _)
  rw [abs_sub_comm] at ht
  have e2 : ∀ k ∈ Finset.range (s + 1), ((k.factorial : ℝ))⁻¹ * iteratedFDeriv ℝ k ρ x (fun _ => τ • -v) =
      ((k.factorial : ℝ))⁻¹ * τ ^ k * (directional (-v))^[k] ρ x := by
    intro k hk
    have hk' := Nat.lt_succ_iff.1 (Finset.mem_range.1 hk)
    rw [ContinuousMultilinearMap.map_smul_univ, directional_iterate (hs.smooth.of_le (by norm_cast; omega))]
    simp only [Finset.prod_const, Finset.card_univ, Fintype.card_fin, smul_eq_mul]
    ring
  rw [Finset.sum_congr rfl e2, show x + τ • -v = x - τ • v by rw [smul_neg, sub_eq_add_neg]] at ht
  refine ht.trans ?_
  have hst := step_le h hs h0 h1
  have hpow : (τ * ∑ d, |v d|) ^ s ≤ H ^ s := pow_le_pow_left₀ (by positivity) (by linarith) s
  calc _ = (τ * ∑ d, |v d|) ^ s * (τ * (∑ d, |v d|) * (M / ℓ ^ (s + 1) / (s + 1).factorial)) := by
        rw [pow_succ]
        ring
    _ ≤ H ^ s * (τ * (∑ d, |v d|) * (M / ℓ ^ (s + 1) / (s + 1).factorial)) := by gcongr
    _ = _ := by
        rw [div_pow, pow_succ]
        field_simp

end

/-- One step from the exact averages of a density against the averages of the transported density. -/
theorem step_close {c : EulerConfig ℝ np} {v : Fin 3 → ℝ} (h : FlowSetup c v) (x₀ : Fin 3 → ℝ) (k : Integrator) {q : ℕ}
    {r M ℓ H : ℝ} {ρ : (Fin 3 → ℝ) → ℝ} (hs : SmoothFlow c q (order k) r M ℓ H ρ) {τ : ℝ} (h0 : 0 ≤ τ)
    (h1 : ∀ d, c.scheme.active d = true → τ * ∑ d, |v d| ≤ 4 / 5 * c.h d) :
    nrm c.n (act (stepOp k (τ • rateOp c v)) (cellMean x₀ c.h ρ) - cellMean x₀ c.h (fun x => ρ (x - τ • v))) ≤
      √(cellCount c.n) * flowError v q (order k) r M ℓ H * τ := by
  have hℓ := hs.scale
  have hM0 := hs.M_nonneg
  have hV := sum_abs_nonneg v
  have hr0 := hs.radius_nonneg
  have hH : 0 ≤ H := by
    obtain ⟨d, hd⟩ := h.extended
    exact (h.transport.spacing d).le.trans (hs.width d hd)
  obtain ⟨D, hD⟩ : ∃ D, D = √(cellCount c.n) *
      (τ * (11 * (∑ d, |v d|) * (M / ℓ) * ((r / ℓ) ^ (q + 1) / (q + 1).factorial))) := ⟨_, rfl⟩
  have hD0 : 0 ≤ D := by rw [hD]; positivity
  have ho : 3 ≤ order k := by unfold order; split_ifs <;> norm_num
  have c0 := means_cyclic h x₀ hs h0 h1 0
  have z0 : nrm c.n (cellMean x₀ c.h ρ - τ ^ 0 • cellMean x₀ c.h ((directional (-v))^[0] ρ)) ≤ 0 * D := by
    have e : cellMean x₀ c.h ρ - τ ^ 0 • cellMean x₀ c.h ((directional (-v))^[0] ρ) = (0 : ℝ) • cellMean x₀ c.h ρ := by
      funext j
      simp
    rw [e, nrm_smul]
    simp
  have c1 := act_cyclic (τ • rateOp c v) c0
  have c2 := act_cyclic (τ • rateOp c v) c1
  have c3 := act_cyclic (τ • rateOp c v) c2
  have z1 := powers_close h x₀ hs h0 h1 (k := 0) (by omega) c0 hD z0
  have z2 := powers_close h x₀ hs h0 h1 (k := 1) (by omega) c1 hD z1
  have z3 := powers_close h x₀ hs h0 h1 (k := 2) (by omega) c2 hD z2
  have z4 : ∀ a : ℝ, a = (if k = .rk4 then 1 / 24 else 0) → nrm c.n (a • (act (τ • rateOp c v) (act (τ • rateOp c v)
      (act (τ • rateOp c v) (act (τ • rateOp c v) (cellMean x₀ c.h ρ)))) - τ ^ 4 • cellMean x₀ c.h ((directional (-v))^[4] ρ))) ≤
        8 / 24 * D := by
    intro a ha
    rw [nrm_smul]
    by_cases hk : k = .rk4
    · have ho' : 3 < order k := by unfold order; rw [if_pos hk]; norm_num
      have := powers_close h x₀ hs h0 h1 (k := 3) ho' c3 hD z3
      rw [ha, if_pos hk, abs_of_pos (by norm_num)]
      simp only [Function.iterate_zero, id_eq] at this
      linarith
    · rw [ha, if_neg hk]
      simp only [abs_zero, zero_mul]
      positivity
  have zt : nrm c.n (fun i => ∑ k ∈ Finset.range (order k + 1), ((k.factorial : ℝ))⁻¹ *
      (τ ^ k * cellMean x₀ c.h ((directional (-v))^[k] ρ) i) - cellMean x₀ c.h (fun x => ρ (x - τ • v)) i) ≤
        √(cellCount c.n) * (τ * ((∑ d, |v d|) * (M / ℓ) * ((H / ℓ) ^ order k / (order k + 1).factorial))) :=
    nrm_le_of_sup _ _ _ (by positivity) fun i _ => time_taylor h x₀ hs h0 h1 i
  have e : act (stepOp k (τ • rateOp c v)) (cellMean x₀ c.h ρ) - cellMean x₀ c.h (fun x => ρ (x - τ • v)) =
      (act (τ • rateOp c v) (cellMean x₀ c.h ((directional (-v))^[0] ρ)) - τ ^ (0 + 1) • cellMean x₀ c.h ((directional (-v))^[0 + 1] ρ)) +
      ((1 / 2 : ℝ) • (act (τ • rateOp c v) (act (τ • rateOp c v) (cellMean x₀ c.h ((directional (-v))^[0] ρ))) -
        τ ^ (1 + 1) • cellMean x₀ c.h ((directional (-v))^[1 + 1] ρ)) +
      ((1 / 6 : ℝ) • (act (τ • rateOp c v) (act (τ • rateOp c v) (act (τ • rateOp c v) (cellMean x₀ c.h ((directional (-v))^[0] ρ)))) -
        τ ^ (2 + 1) • cellMean x₀ c.h ((directional (-v))^[2 + 1] ρ)) +
      ((if k = .rk4 then (1 / 24 : ℝ) else 0) • (act (τ • rateOp c v) (act (τ • rateOp c v) (act (τ • rateOp c v)
        (act (τ • rateOp c v) (cellMean x₀ c.h ρ)))) - τ ^ 4 • cellMean x₀ c.h ((directional (-v))^[4] ρ)) +
      (fun i => ∑ k ∈ Finset.range (order k + 1), ((k.factorial : ℝ))⁻¹ *
        (τ ^ k * cellMean x₀ c.h ((directional (-v))^[k] ρ) i) - cellMean x₀ c.h (fun x => ρ (x - τ • v)) i)))) := by
    rw [act_stepOp]
    funext j
    by_cases hk : k = .rk4
    · simp only [order, if_pos hk, Finset.sum_range_succ, Finset.sum_range_zero, Nat.factorial, Pi.add_apply, Pi.sub_apply,
        Pi.smul_apply, smul_eq_mul, Function.iterate_zero, id_eq]
      push_cast
      ring
    · simp only [order, if_neg hk, Finset.sum_range_succ, Finset.sum_range_zero, Nat.factorial, Pi.add_apply, Pi.sub_apply,
        Pi.smul_apply, smul_eq_mul, Function.iterate_zero, id_eq]
      push_cast
      ring
  rw [e]
  have n1 := nrm_add c.n (act (τ • rateOp c v) (cellMean x₀ c.h ((directional (-v))^[0] ρ)) - τ ^ (0 + 1) • cellMean x₀ c.h ((directional (-v))^[0 + 1] ρ))
  refine (n1 _).trans ?_
  refine (add_le_add_right (nrm_add _ _ _) _).trans ?_
  refine (add_le_add_right (add_le_add_right (nrm_add _ _ _) _) _).trans ?_
  refine (add_le_add_right (add_le_add_right (add_le_add_right (nrm_add _ _ _) _) _) _).trans ?_
  rw [nrm_smul, nrm_smul, abs_of_pos (by norm_num : (0 : ℝ) < 1 / 2), abs_of_pos (by norm_num : (0 : ℝ) < 1 / 6)]
  have z4' := z4 _ rfl
  have eE : √(cellCount c.n) * flowError v q (order k) r M ℓ H * τ = 4 * D +
      √(cellCount c.n) * (τ * ((∑ d, |v d|) * (M / ℓ) * ((H / ℓ) ^ order k / (order k + 1).factorial))) := by
    rw [hD]
    unfold flowError
    ring
  rw [eE]
  simp only [Function.iterate_zero, id_eq] at z1 z2 z3 ⊢
  linarith

end FVHOE
