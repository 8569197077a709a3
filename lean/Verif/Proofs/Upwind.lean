import Verif.Props.C70

/-!
The upwind step on cell averages: it is an average, and it follows a moving density up to the square of the step.
-/

set_option linter.unusedSectionVars false

namespace FVHOE

open MeasureTheory Set

/-- The cell the flow comes from in direction `d`. -/
noncomputable def upwind (v : Fin 3 → ℝ) (d : Fin 3) (i : Ix) : Ix :=
  if 0 < v d then i - Pi.single d 1 else i + Pi.single d 1

/-- The share that comes from the neighbour in direction `d` during time `τ`. -/
noncomputable def share (act : Fin 3 → Bool) (h v : Fin 3 → ℝ) (τ : ℝ) (d : Fin 3) : ℝ :=
  if act d = true then τ * (|v d| / h d) else 0

/-- One upwind step of length `τ`. -/
noncomputable def upwindStep (act : Fin 3 → Bool) (h v : Fin 3 → ℝ) (τ : ℝ) (α : Ix → ℝ) : Ix → ℝ := fun i =>
  α i - ∑ d, share act h v τ d * (α i - α (upwind v d i))

section

variable {act : Fin 3 → Bool} {h v : Fin 3 → ℝ} {τ : ℝ}

theorem share_nonneg (hh : ∀ d, 0 < h d) (hτ : 0 ≤ τ) (d : Fin 3) : 0 ≤ share act h v τ d := by
  unfold share
  split_ifs
  · have := hh d; positivity
  · exact le_rfl

theorem share_sum (hh : ∀ d, 0 < h d) (H : ℝ) (hH : 0 < H) (hHd : ∀ d, H ≤ h d) (hτ : 0 ≤ τ)
    (hs : τ * ∑ d, |v d| ≤ H) : ∑ d, share act h v τ d ≤ 1 := by
  have h1 : ∀ d, share act h v τ d ≤ τ * |v d| / H := by
    intro d
    unfold share
    split_ifs
    · rw [← mul_div_assoc]
      exact div_le_div_of_nonneg_left (by positivity) hH (hHd d)
    · positivity
  refine (Finset.sum_le_sum fun d _ => h1 d).trans ?_
  rw [← Finset.sum_div, ← Finset.mul_sum, div_le_one hH]
  exact hs

theorem upwindStep_eq (α : Ix → ℝ) (i : Ix) : upwindStep act h v τ α i =
    (1 - ∑ d, share act h v τ d) * α i + ∑ d, share act h v τ d * α (upwind v d i) := by
  unfold upwindStep
  simp only [mul_sub, Finset.sum_sub_distrib, sub_mul, Finset.sum_mul]
  ring

/-- An average stays above a bound. -/
theorem upwindStep_least (hh : ∀ d, 0 < h d) (hτ : 0 ≤ τ) (hs : ∑ d, share act h v τ d ≤ 1) (α : Ix → ℝ) (m : ℝ)
    (hm : ∀ i, m ≤ α i) (i : Ix) : m ≤ upwindStep act h v τ α i := by
  rw [upwindStep_eq]
  have h1 := mul_le_mul_of_nonneg_left (hm i) (sub_nonneg.2 hs)
  have h2 : ∑ d, share act h v τ d * m ≤ ∑ d, share act h v τ d * α (upwind v d i) :=
    Finset.sum_le_sum fun d _ => mul_le_mul_of_nonneg_left (hm _) (share_nonneg hh hτ d)
  rw [← Finset.sum_mul] at h2
  linarith

theorem upwindStep_sub (α β : Ix → ℝ) (i : Ix) : upwindStep act h v τ α i - upwindStep act h v τ β i =
    upwindStep act h v τ (fun j => α j - β j) i := by
  unfold upwindStep
  rw [← sub_eq_zero]
  have : ∀ d, share act h v τ d * (α i - β i - (α (upwind v d i) - β (upwind v d i))) =
      share act h v τ d * (α i - α (upwind v d i)) - share act h v τ d * (β i - β (upwind v d i)) := fun d => by ring
  simp only [this, Finset.sum_sub_distrib]
  ring

/-- A step does not enlarge the largest difference. -/
theorem upwindStep_contract (hh : ∀ d, 0 < h d) (hτ : 0 ≤ τ) (hs : ∑ d, share act h v τ d ≤ 1) (α β : Ix → ℝ) (ε : ℝ)
    (hε : ∀ i, |α i - β i| ≤ ε) (i : Ix) : |upwindStep act h v τ α i - upwindStep act h v τ β i| ≤ ε := by
  rw [upwindStep_sub, abs_le]
  constructor
  · exact upwindStep_least hh hτ hs _ _ (fun i => (abs_le.1 (hε i)).1) i
  · have := upwindStep_least hh hτ hs (fun j => β j - α j) (-ε) (fun i => by
      have := (abs_le.1 (hε i)).2
      linarith) i
    have e : upwindStep act h v τ (fun j => β j - α j) i = -upwindStep act h v τ (fun j => α j - β j) i := by
      rw [← upwindStep_sub, ← upwindStep_sub]
      ring
    rw [e] at this
    linarith

theorem upwindStep_shift (α : Ix → ℝ) (s : Ix) (hα : ∀ i, α (i + s) = α i) (i : Ix) :
    upwindStep act h v τ α (i + s) = upwindStep act h v τ α i := by
  unfold upwindStep
  rw [hα]
  congr 1
  refine Finset.sum_congr rfl fun d _ => ?_
  have : upwind v d (i + s) = upwind v d i + s := by
    unfold upwind
    split_ifs <;> abel
  rw [this, hα]

end

/-! ## Consistency -/

theorem taylor_one {g : (Fin 3 → ℝ) → ℝ} (hg : ContDiff ℝ 2 g) {M : ℝ} (hM : ∀ x, ‖iteratedFDeriv ℝ 2 g x‖ ≤ M)
    (x y : Fin 3 → ℝ) (r : ℝ) (hr : ‖y‖ ≤ r) : |g (x + y) - (g x + fderiv ℝ g x y)| ≤ M * r ^ 2 / 2 := by
  have := taylor_remainder (q := 1) (f := g) (by exact_mod_cast hg) x y M r hr fun t _ => hM _
  simpa [Finset.sum_range_succ, iteratedFDeriv_one_apply] using this

theorem fderiv_directional {act : Fin 3 → Bool} {g : (Fin 3 → ℝ) → ℝ} (ha : DependsOn act g)
    (hd : Differentiable ℝ g) (v x : Fin 3 → ℝ) :
    fderiv ℝ g x v = ∑ d, if act d = true then v d * fderiv ℝ g x (Pi.single d 1) else 0 := by
  have hv : v = ∑ d, v d • (Pi.single d (1 : ℝ) : Fin 3 → ℝ) := by
    funext e
    rw [Finset.sum_apply, Finset.sum_eq_single e]
    · simp
    · intro d _ hd
      simp [hd.symm]
    · simp
  conv_lhs => rw [hv]
  rw [map_sum]
  refine Finset.sum_congr rfl fun d _ => ?_
  rw [map_smul]
  split_ifs with h
  · rfl
  · rw [show fderiv ℝ g x (Pi.single d 1) = 0 from ha.partialD_zero hd d (by simpa using h) x, smul_zero]

/-- The upwind neighbour's position. -/
noncomputable def backwards (h v : Fin 3 → ℝ) (d : Fin 3) : Fin 3 → ℝ :=
  Pi.single d (if 0 < v d then -h d else h d)

theorem upwind_pointwise {act : Fin 3 → Bool} {h v : Fin 3 → ℝ} {τ : ℝ} (hh : ∀ d, 0 < h d) {g : (Fin 3 → ℝ) → ℝ}
    (hg : ContDiff ℝ 2 g) (ha : DependsOn act g) {M : ℝ} (hM : ∀ x, ‖iteratedFDeriv ℝ 2 g x‖ ≤ M) (H : ℝ)
    (hH : ∀ d, act d = true → h d ≤ H) (hτ : 0 ≤ τ) (hs : τ * ∑ d, |v d| ≤ H) (y : Fin 3 → ℝ) :
    |g y - ∑ d, share act h v τ d * (g y - g (y + backwards h v d)) - g (y - τ • v)| ≤ M * (∑ d, |v d|) * H * τ := by
  have hM0 : 0 ≤ M := (norm_nonneg _).trans (hM 0)
  have hd : Differentiable ℝ g := hg.differentiable (by norm_num)
  have hV : 0 ≤ ∑ d, |v d| := Finset.sum_nonneg fun d _ => abs_nonneg _
  obtain ⟨V, hVe⟩ : ∃ V, V = ∑ d, |v d| := ⟨_, rfl⟩
  rw [← hVe] at hs hV ⊢
  have h1 := taylor_one hg hM y (-(τ • v)) (τ * V) (by
    rw [norm_neg, norm_smul, Real.norm_eq_abs, abs_of_nonneg hτ]
    refine mul_le_mul_of_nonneg_left ?_ hτ
    rw [pi_norm_le_iff_of_nonneg hV]
    intro d
    rw [Real.norm_eq_abs, hVe]
    exact Finset.single_le_sum (f := fun d => |v d|) (fun d _ => abs_nonneg _) (Finset.mem_univ d))
  have h2 : ∀ d, |share act h v τ d * (g y - g (y + backwards h v d)) -
      (if act d = true then τ * (v d * fderiv ℝ g y (Pi.single d 1)) else 0)| ≤ τ * |v d| * H * M / 2 := by
    intro d
    have hH0 : act d = true → 0 ≤ H := fun h => (hh d).le.trans (hH d h)
    unfold share
    by_cases had : act d = true
    · rw [if_pos had, if_pos had]
      have k := taylor_one hg hM y (backwards h v d) (h d) (by
        unfold backwards
        rw [pi_norm_le_iff_of_nonneg (hh d).le]
        intro e
        by_cases he : e = d
        · subst he
          rw [Pi.single_eq_same, Real.norm_eq_abs]
          split_ifs
          · rw [abs_neg, abs_of_pos (hh e)]
          · rw [abs_of_pos (hh e)]
        · rw [Pi.single_eq_of_ne he, norm_zero]
          exact (hh d).le)
      have e1 : |v d| / h d * fderiv ℝ g y (backwards h v d) = -(v d * fderiv ℝ g y (Pi.single d 1)) := by
        have : backwards h v d = (if 0 < v d then -h d else h d) • (Pi.single d (1 : ℝ) : Fin 3 → ℝ) := by
          unfold backwards
          rw [← Pi.single_smul]
          simp
        rw [this, map_smul, smul_eq_mul]
        have hd0 := (hh d).ne'
        split_ifs with hv
        · rw [abs_of_pos hv]
          field_simp
        · rw [abs_of_nonpos (not_lt.1 hv)]
          field_simp
      have e2 : τ * (|v d| / h d) * (g y - g (y + backwards h v d)) - τ * (v d * fderiv ℝ g y (Pi.single d 1)) =
          -(τ * (|v d| / h d)) * (g (y + backwards h v d) - (g y + fderiv ℝ g y (backwards h v d))) := by
        linear_combination (-τ) * e1
      have hw : 0 ≤ τ * (|v d| / h d) := by have := hh d; positivity
      rw [e2, abs_mul, abs_neg, abs_of_nonneg hw]
      refine (mul_le_mul_of_nonneg_left k hw).trans ?_
      have e3 : τ * (|v d| / h d) * (M * h d ^ 2 / 2) = τ * |v d| * M / 2 * h d := by
        have hd0 := (hh d).ne'
        field_simp
      rw [e3]
      have := mul_le_mul_of_nonneg_left (hH d had) (show 0 ≤ τ * |v d| * M / 2 by positivity)
      linarith
    · rw [if_neg had, if_neg had, zero_mul, sub_zero, abs_zero]
      have : 0 ≤ H := (mul_nonneg hτ hV).trans hs
      positivity
  have h3 : |∑ d, (share act h v τ d * (g y - g (y + backwards h v d)) -
      (if act d = true then τ * (v d * fderiv ℝ g y (Pi.single d 1)) else 0))| ≤ τ * V * H * M / 2 := by
    refine (Finset.abs_sum_le_sum_abs _ _).trans ((Finset.sum_le_sum fun d _ => h2 d).trans (le_of_eq ?_))
    rw [hVe, ← Finset.sum_div, ← Finset.sum_mul, ← Finset.sum_mul, ← Finset.mul_sum]
  have e4 : ∑ d, (if act d = true then τ * (v d * fderiv ℝ g y (Pi.single d 1)) else 0) = τ * fderiv ℝ g y v := by
    rw [fderiv_directional ha hd, Finset.mul_sum]
    refine Finset.sum_congr rfl fun d _ => ?_
    split_ifs <;> simp
  rw [Finset.sum_sub_distrib, e4] at h3
  rw [← sub_eq_add_neg, map_neg, map_smul, smul_eq_mul] at h1
  have h5 : M * (τ * V) ^ 2 / 2 ≤ M * (τ * V) * H / 2 := by
    have := mul_le_mul_of_nonneg_left hs (show 0 ≤ M * (τ * V) / 2 by positivity)
    calc M * (τ * V) ^ 2 / 2 = M * (τ * V) / 2 * (τ * V) := by ring
      _ ≤ M * (τ * V) / 2 * H := this
      _ = _ := by ring
  rw [abs_le] at h1 h3 ⊢
  constructor <;> nlinarith [h1.1, h1.2, h3.1, h3.2, h5]

theorem cellMean_sum {ι : Type} (s : Finset ι) (x₀ h : Fin 3 → ℝ) (hh : ∀ d, 0 < h d) (f : ι → (Fin 3 → ℝ) → ℝ)
    (hf : ∀ a ∈ s, Continuous (f a)) (i : Ix) :
    cellMean x₀ h (fun x => ∑ a ∈ s, f a x) i = ∑ a ∈ s, cellMean x₀ h (f a) i := by
  have hi : ∀ a ∈ s, IntegrableOn (f a) (cellBox x₀ h i) := fun a ha => (hf a ha).integrableOn_Icc
  rw [cellMean_eq _ _ hh, integral_finset_sum _ hi, Finset.mul_sum]
  exact Finset.sum_congr rfl fun a _ => (cellMean_eq _ _ hh _ _).symm

theorem cellMean_upwind (x₀ h v : Fin 3 → ℝ) (hh : ∀ d, 0 < h d) (f : (Fin 3 → ℝ) → ℝ) (d : Fin 3) (i : Ix) :
    cellMean x₀ h f (upwind v d i) = cellMean x₀ h (fun x => f (x + backwards h v d)) i := by
  unfold upwind backwards
  split_ifs
  · have := cellMean_next x₀ h hh (fun x => f (x + Pi.single d (-h d))) d (i - Pi.single d 1)
    rw [sub_add_cancel] at this
    rw [this]
    congr 1
    funext x
    rw [add_assoc, ← Pi.single_add]
    simp
  · exact cellMean_next x₀ h hh f d i

/-- The upwind step follows the moving density. -/
theorem upwind_consistent {act : Fin 3 → Bool} {x₀ h v : Fin 3 → ℝ} {τ : ℝ} (hh : ∀ d, 0 < h d) {g : (Fin 3 → ℝ) → ℝ}
    (hg : ContDiff ℝ 2 g) (ha : DependsOn act g) {M : ℝ} (hM : ∀ x, ‖iteratedFDeriv ℝ 2 g x‖ ≤ M) (H : ℝ)
    (hH : ∀ d, act d = true → h d ≤ H) (hτ : 0 ≤ τ) (hs : τ * ∑ d, |v d| ≤ H) (i : Ix) :
    |upwindStep act h v τ (cellMean x₀ h g) i - cellMean x₀ h (fun y => g (y - τ • v)) i| ≤
      M * (∑ d, |v d|) * H * τ := by
  have hc := hg.continuous
  have hb : ∀ d, Continuous fun y => g (y + backwards h v d) := fun d => hc.comp (by fun_prop)
  have hm : Continuous fun y => g (y - τ • v) := hc.comp (by fun_prop)
  have ht : ∀ d ∈ Finset.univ, Continuous fun y => share act h v τ d * (g y - g (y + backwards h v d)) :=
    fun d _ => continuous_const.mul (hc.sub (hb d))
  have hS : Continuous fun y => ∑ d, share act h v τ d * (g y - g (y + backwards h v d)) := continuous_finset_sum _ ht
  have e : upwindStep act h v τ (cellMean x₀ h g) i =
      cellMean x₀ h (fun y => g y - ∑ d, share act h v τ d * (g y - g (y + backwards h v d))) i := by
    unfold upwindStep
    rw [← cellMean_sub _ _ hh hc hS, cellMean_sum _ _ _ hh _ ht]
    congr 1
    refine Finset.sum_congr rfl fun d _ => ?_
    rw [cellMean_smul _ _ hh, ← cellMean_sub _ _ hh hc (hb d), cellMean_upwind _ _ _ hh]
  rw [e]
  exact cellMean_sub_le _ _ hh (hc.sub hS) hm fun y _ => upwind_pointwise hh hg ha hM H hH hτ hs y

end FVHOE
