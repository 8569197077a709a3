import Verif.Proofs.Mollify
import Verif.Props.C89
import Verif.Props.C93

/-!
C101: first-order runs in a uniform flow converge in the mean for every bounded density, with jumps or without.
-/

set_option linter.unusedSectionVars false

namespace FVHOE

open MeasureTheory Filter Topology Set

variable {np : ℕ}

/-! ## The upwind step contracts in the mean -/

theorem upwindStep_sum {n : Fin 3 → ℕ} {act : Fin 3 → Bool} {h v : Fin 3 → ℝ} {τ : ℝ} (hh : ∀ d, 0 < h d) (hτ : 0 ≤ τ)
    (hs : ∑ d, share act h v τ d ≤ 1) {γ : Ix → ℝ} (hγ : Cyclic n γ) :
    cellSum n (fun i => |upwindStep act h v τ γ i|) ≤ cellSum n fun i => |γ i| := by
  have hγc : ∀ d i, |γ (i + Pi.single d (n d : ℤ))| = |γ i| := fun d i => by rw [hγ]
  have h1 : ∀ i, |upwindStep act h v τ γ i| ≤
      (1 - ∑ d, share act h v τ d) * |γ i| + ∑ d, share act h v τ d * |γ (upwind v d i)| := by
    intro i
    rw [upwindStep_eq]
    refine (abs_add_le _ _).trans (add_le_add ?_ ?_)
    · rw [abs_mul, abs_of_nonneg (sub_nonneg.2 hs)]
    · refine (Finset.abs_sum_le_sum_abs _ _).trans (le_of_eq (Finset.sum_congr rfl fun d _ => ?_))
      rw [abs_mul, abs_of_nonneg (share_nonneg hh hτ d)]
  have h2 : ∀ d, cellSum n (fun i => |γ (upwind v d i)|) = cellSum n fun i => |γ i| := by
    intro d
    unfold upwind
    split_ifs
    · have := cellSum_shift n d (fun i => |γ i|) (hγc d) (-1)
      rw [← this]
      congr 1
      funext i
      rw [Pi.single_neg, sub_eq_add_neg]
    · exact cellSum_shift n d (fun i => |γ i|) (hγc d) 1
  refine (cellSum_le n fun i _ => h1 i).trans (le_of_eq ?_)
  rw [cellSum_add, cellSum_finset]
  have e1 := cellSum_smul (K := ℝ) n (1 - ∑ d, share act h v τ d) fun i => |γ i|
  have e2 : ∀ d, cellSum n (fun i => share act h v τ d * |γ (upwind v d i)|) = share act h v τ d * cellSum n fun i => |γ i| := by
    intro d
    rw [← h2 d]
    exact cellSum_smul (K := ℝ) n (share act h v τ d) fun i => |γ (upwind v d i)|
  simp only [smul_eq_mul] at e1
  rw [e1, Finset.sum_congr rfl fun d _ => e2 d, ← Finset.sum_mul]
  ring

theorem cellSum_const (n : Fin 3 → ℕ) (a : ℝ) : cellSum n (fun _ => a) = (∏ d, (n d : ℝ)) * a := by
  unfold cellSum
  simp only [Finset.sum_const, Finset.card_range, nsmul_eq_mul, Fin.prod_univ_three]
  ring

theorem cellSum_const_mul (n : Fin 3 → ℕ) (a : ℝ) (f : Ix → ℝ) : cellSum n (fun i => a * f i) = a * cellSum n f :=
  cellSum_smul (K := ℝ) n a f

/-! ## Means of bounded functions -/

theorem integrableOn_cell {ρ : (Fin 3 → ℝ) → ℝ} (hm : Measurable ρ) {B : ℝ} (hB : ∀ x, |ρ x| ≤ B) (x₀ h : Fin 3 → ℝ) (i : Ix) :
    IntegrableOn ρ (cellBox x₀ h i) :=
  Measure.integrableOn_of_bounded (M := B) (by unfold cellBox; exact isCompact_Icc.measure_lt_top.ne) hm.aestronglyMeasurable
    (ae_of_all _ hB)

theorem cellMean_above {ρ : (Fin 3 → ℝ) → ℝ} (x₀ h : Fin 3 → ℝ) (hh : ∀ d, 0 < h d) {i : Ix} (hi : IntegrableOn ρ (cellBox x₀ h i))
    (m : ℝ) (hm : ∀ x, m ≤ ρ x) : m ≤ cellMean x₀ h ρ i := by
  have hv : 0 < ∏ d, h d := Finset.prod_pos fun d _ => hh d
  have h1 := MeasureTheory.setIntegral_ge_of_const_le_real (μ := MeasureTheory.volume) (s := cellBox x₀ h i) (f := ρ) (c := m)
    measurableSet_Icc (by unfold cellBox; exact isCompact_Icc.measure_lt_top.ne) (fun x _ => hm x) hi
  rw [cellBox_vol x₀ h hh] at h1
  rw [cellMean_eq _ _ hh, inv_mul_eq_div, le_div_iff₀ hv]
  exact h1

theorem cellMean_dist {f g : (Fin 3 → ℝ) → ℝ} (x₀ h : Fin 3 → ℝ) (hh : ∀ d, 0 < h d) {i : Ix}
    (hf : IntegrableOn f (cellBox x₀ h i)) (hg : IntegrableOn g (cellBox x₀ h i)) :
    (∏ d, h d) * |cellMean x₀ h f i - cellMean x₀ h g i| ≤ ∫ x in cellBox x₀ h i, |g x - f x| := by
  have hv : 0 < ∏ d, h d := Finset.prod_pos fun d _ => hh d
  rw [cellMean_eq _ _ hh, cellMean_eq _ _ hh, ← mul_sub, ← integral_sub hf hg, abs_mul, abs_of_pos (inv_pos.2 hv),
    mul_inv_cancel_left₀ hv.ne']
  refine abs_integral_le_integral_abs.trans (le_of_eq ?_)
  congr 1
  funext x
  exact abs_sub_comm _ _

/-! ## Runs -/

/-- The state is, in every cell, a gas of velocity `v`, pressure `P` and concentrations `x` of positive density, and the
density, seen as a function that is constant in every cell, is in the mean within `ε` of the density `ρ` moved by `v` for
the time `t`: the integral of the difference over the box is at most `ε`. -/
def NearInMean (c : EulerConfig ℝ np) (ℓ : Fin 3 → ℝ) (ρ : (Fin 3 → ℝ) → ℝ) (v : Fin 3 → ℝ) (P : ℝ) (x : Fin np → ℝ)
    (ε t : ℝ) (u : Ix → State ℝ np) : Prop :=
  (∀ i, InCells c.n i → ∃ r, 0 < r ∧ u i = conserved c.gas.gamma (flowing v P x r)) ∧
    ∫ y in sideBox ℓ, |onGrid c.n c.h u y .rho - ρ (y - t • v)| ≤ ε

theorem periodicIn_of_box {c : EulerConfig ℝ np} {ℓ : Fin 3 → ℝ} (hℓ : FillsBox c ℓ) {ρ : (Fin 3 → ℝ) → ℝ}
    (h : BoxPeriodic ℓ ρ) : PeriodicIn c ρ := fun d _ x => by rw [hℓ d]; exact h d x

/-- From the sum over the cells to the integral over the box. -/
theorem near_of_sum (c : EulerConfig ℝ np) (h : UpwindSetup c) {ℓ : Fin 3 → ℝ} (hℓ : FillsBox c ℓ) {ρ g : (Fin 3 → ℝ) → ℝ}
    (hm : Measurable ρ) {B : ℝ} (hB : ∀ x, |ρ x| ≤ B) (hper : BoxPeriodic ℓ ρ)
    (hg : ContDiff ℝ 2 g) (hgp : BoxPeriodic ℓ g) (hgd : DependsOn c.scheme.active g) {L H : ℝ} (hL : ∀ y, ‖fderiv ℝ g y‖ ≤ L)
    (hH : ∀ d, c.scheme.active d = true → c.h d ≤ H) (hH0 : 0 ≤ H) (v : Fin 3 → ℝ) (P : ℝ) (x : Fin np → ℝ) (t : ℝ)
    {u : Ix → State ℝ np} {α : Ix → ℝ} (hu : ∀ j, InCells c.n j → u j = conserved c.gas.gamma (flowing v P x (α j)))
    {S : ℝ} (hS : (∏ d, c.h d) * cellSum c.n (fun i => |α i - cellMean 0 c.h (fun y => g (y - t • v)) i|) ≤ S) :
    ∫ y in sideBox ℓ, |onGrid c.n c.h u y .rho - ρ (y - t • v)| ≤
      S + (∏ d, ℓ d) * (L * H) + ∫ y in sideBox ℓ, |g y - ρ y| := by
  have hc := h.transport
  have hh := hc.spacing
  have hv : 0 < ∏ d, c.h d := Finset.prod_pos fun d _ => hh d
  have hℓ0 : ∀ d, 0 < ℓ d := fun d => by
    rw [← hℓ d]
    exact mul_pos (by exact_mod_cast hc.cells d) (hh d)
  have hL0 : 0 ≤ L := (norm_nonneg _).trans (hL 0)
  obtain ⟨Bg, hBg⟩ := hgp.bounded hℓ0 hg.continuous
  have hmt : Measurable fun y => ρ (y - t • v) := hm.comp (measurable_id.sub_const _)
  have hgt : Continuous fun y => g (y - t • v) := hg.continuous.comp (continuous_id.sub continuous_const)
  have hU : Measurable fun y => onGrid c.n c.h u y .rho := by
    have := measurable_grid c.h fun i => u fun d => i d % c.n d
    exact (measurable_pi_apply _).comp this
  -- the values are those of the cells
  have hval : ∀ i, InCells c.n i → ∀ y ∈ halfCell c.h i, onGrid c.n c.h u y .rho = α i := by
    intro i hi y hy
    rw [mem_halfCell hh] at hy
    have : (fun d => cellAt c.h y d % c.n d) = i := by
      funext d
      rw [hy]
      exact Int.emod_eq_of_lt (hi d).1 (hi d).2
    unfold onGrid
    rw [this, hu i hi]
    rfl
  have hUB : ∀ y ∈ sideBox ℓ, |onGrid c.n c.h u y .rho| ≤ cellSum c.n fun i => |α i| := by
    intro y hy
    have hi := (cellAt_inCells hh hℓ y).2 hy
    rw [hval _ hi y ((mem_halfCell hh _ _).2 rfl)]
    have h1 := cellSum_triples c.n fun i => |α i|
    rw [h1]
    have h0 := hi 0; have h1 := hi 1; have h2 := hi 2
    have e : cellAt c.h y = ![((cellAt c.h y 0).toNat : ℤ), ((cellAt c.h y 1).toNat : ℤ), ((cellAt c.h y 2).toNat : ℤ)] := by
      funext d
      match d with
      | 0 | 1 | 2 => simp; omega
    have hmem : ((cellAt c.h y 0).toNat, (cellAt c.h y 1).toNat, (cellAt c.h y 2).toNat) ∈
        Finset.range (c.n 0) ×ˢ Finset.range (c.n 1) ×ˢ Finset.range (c.n 2) := by
      simp only [Finset.mem_product, Finset.mem_range]
      omega
    have := Finset.single_le_sum (f := fun z : ℕ × ℕ × ℕ => |α ![(z.1 : ℤ), (z.2.1 : ℤ), (z.2.2 : ℤ)]|)
      (fun _ _ => abs_nonneg _) hmem
    rw [e]
    exact this
  have hint1 : IntegrableOn (fun y => |onGrid c.n c.h u y .rho - g (y - t • v)|) (sideBox ℓ) := by
    refine integrable_box (C := (cellSum c.n fun i => |α i|) + Bg) ((hU.sub hgt.measurable).norm) fun y hy => ?_
    rw [abs_abs]
    have h1 := abs_sub (onGrid c.n c.h u y .rho) (g (y - t • v))
    have h2 := hBg (y - t • v)
    rw [Real.norm_eq_abs] at h2
    linarith [hUB y hy]
  have hint2 : IntegrableOn (fun y => |g (y - t • v) - ρ (y - t • v)|) (sideBox ℓ) := by
    refine integrable_box (C := Bg + B) ((hgt.measurable.sub hmt).norm) fun y hy => ?_
    rw [abs_abs]
    have h1 := abs_sub (g (y - t • v)) (ρ (y - t • v))
    have h2 := hBg (y - t • v)
    rw [Real.norm_eq_abs] at h2
    linarith [hB (y - t • v)]
  have hint0 : IntegrableOn (fun y => |onGrid c.n c.h u y .rho - ρ (y - t • v)|) (sideBox ℓ) := by
    refine integrable_box (C := (cellSum c.n fun i => |α i|) + B) ((hU.sub hmt).norm) fun y hy => ?_
    rw [abs_abs]
    have h1 := abs_sub (onGrid c.n c.h u y .rho) (ρ (y - t • v))
    linarith [hUB y hy, hB (y - t • v)]
  have e2 : ∫ y in sideBox ℓ, |g (y - t • v) - ρ (y - t • v)| = ∫ y in sideBox ℓ, |g y - ρ y| := by
    have := box_shift hℓ0 (P := fun y => |g y - ρ y|) (fun d y => by beta_reduce; rw [hgp d y, hper d y]) (-(t • v))
    simpa only [← sub_eq_add_neg] using this
  -- within a cell the smooth density hardly varies
  have hvary : ∀ i, ∀ y ∈ cellBox 0 c.h i, |cellMean 0 c.h (fun y => g (y - t • v)) i - g (y - t • v)| ≤ L * H := by
    intro i y hy
    have hc0 : cellMean 0 c.h (fun _ => g (y - t • v)) i = g (y - t • v) := by
      rw [cellMean_eq _ _ hh, setIntegral_const, cellBox_vol _ _ hh, smul_eq_mul, inv_mul_cancel_left₀ hv.ne']
    rw [← hc0, cellMean_sub _ _ hh hgt continuous_const]
    refine cellMean_abs_le _ _ hh fun z hz => ?_
    let z' : Fin 3 → ℝ := fun d => if c.scheme.active d = true then z d else y d
    have e1 : g (z - t • v) = g (z' - t • v) := hgd _ _ fun d hd => by simp [z', hd]
    rw [e1]
    have h1 := Convex.norm_image_sub_le_of_norm_fderiv_le (𝕜 := ℝ) (f := g) (s := univ) (C := L)
      (fun w _ => hg.differentiable (by norm_num) w) (fun w _ => hL w) convex_univ (mem_univ (y - t • v)) (mem_univ (z' - t • v))
    refine (Real.norm_eq_abs _ ▸ h1).trans (mul_le_mul_of_nonneg_left ?_ hL0)
    rw [sub_sub_sub_cancel_right, pi_norm_le_iff_of_nonneg hH0]
    intro d
    rw [Pi.sub_apply, Real.norm_eq_abs]
    by_cases hd : c.scheme.active d = true
    · have hz1 := hz.1 d; have hz2 := hz.2 d; have hy1 := hy.1 d; have hy2 := hy.2 d
      have := hH d hd
      simp only [z', hd, if_true]
      rw [abs_le]
      constructor <;> nlinarith
    · simp only [z', hd]
      simpa using hH0
  -- the sum over the cells
  have hsum : ∫ y in sideBox ℓ, |onGrid c.n c.h u y .rho - g (y - t • v)| ≤ S + (∏ d, ℓ d) * (L * H) := by
    rw [box_cells hh hℓ hint1]
    have hcell : ∀ i, InCells c.n i → ∫ y in cellBox 0 c.h i, |onGrid c.n c.h u y .rho - g (y - t • v)| ≤
        (∏ d, c.h d) * (|α i - cellMean 0 c.h (fun y => g (y - t • v)) i| + L * H) := by
      intro i hi
      rw [← setIntegral_congr_set (halfCell_ae c.h i)]
      have e1 : ∫ y in halfCell c.h i, |onGrid c.n c.h u y .rho - g (y - t • v)| =
          ∫ y in halfCell c.h i, |α i - g (y - t • v)| := by
        refine setIntegral_congr_fun ?_ fun y hy => ?_
        · rw [halfCell_pi]
          exact MeasurableSet.univ_pi fun _ => measurableSet_Ico
        · rw [hval i hi y hy]
      rw [e1, setIntegral_congr_set (halfCell_ae c.h i)]
      have h2 := norm_setIntegral_le_of_norm_le_const (μ := volume) (s := cellBox 0 c.h i) (f := fun y => |α i - g (y - t • v)|)
        (C := |α i - cellMean 0 c.h (fun y => g (y - t • v)) i| + L * H)
        (by unfold cellBox; exact isCompact_Icc.measure_lt_top) (fun y hy => by
          rw [Real.norm_eq_abs, abs_abs]
          have := abs_sub_le (α i) (cellMean 0 c.h (fun y => g (y - t • v)) i) (g (y - t • v))
          linarith [hvary i y hy])
      rw [cellBox_vol _ _ hh, mul_comm] at h2
      exact (le_abs_self _).trans h2
    refine (cellSum_le c.n hcell).trans ?_
    rw [cellSum_const_mul, cellSum_add, cellSum_const, mul_add]
    have e3 : (∏ d, c.h d) * ((∏ d, (c.n d : ℝ)) * (L * H)) = (∏ d, ℓ d) * (L * H) := by
      rw [← mul_assoc, ← Finset.prod_mul_distrib]
      congr 1
      exact Finset.prod_congr rfl fun d _ => by rw [← hℓ d]; ring
    rw [e3]
    linarith
  calc ∫ y in sideBox ℓ, |onGrid c.n c.h u y .rho - ρ (y - t • v)|
      ≤ ∫ y in sideBox ℓ, (|onGrid c.n c.h u y .rho - g (y - t • v)| + |g (y - t • v) - ρ (y - t • v)|) :=
        integral_mono hint0 (hint1.add hint2) fun y => abs_sub_le _ _ _
    _ = (∫ y in sideBox ℓ, |onGrid c.n c.h u y .rho - g (y - t • v)|) + ∫ y in sideBox ℓ, |g y - ρ y| := by
        rw [integral_add hint1 hint2, e2]
    _ ≤ _ := by linarith

/-- **C101, estimate** Start a run at degree zero in a periodic box with the cell averages of a gas of uniform velocity,
pressure and concentrations and of bounded measurable density `ρ ≥ m > 0`. The run does not raise. For every smooth periodic
`g`, with first derivative at most `L` and second at most `M`, at the end of the run and at every snapshot it takes, the
density is in the mean as near to the exact solution as twice the distance of `g` from `ρ` plus `(M Σ |v_d| t + L) H` times the
volume of the box. -/
theorem C101_estimate (c : EulerConfig ℝ np) (h : UpwindSetup c) {ℓ : Fin 3 → ℝ} (hℓ : FillsBox c ℓ) {ρ : (Fin 3 → ℝ) → ℝ}
    (hm : Measurable ρ) {m B : ℝ} (hm0 : 0 < m) (hmρ : ∀ y, m ≤ ρ y) (hB : ∀ y, ρ y ≤ B) (hper : BoxPeriodic ℓ ρ)
    (hd : DependsOn c.scheme.active ρ) {H : ℝ} (hH : ∀ d, c.scheme.active d = true → c.h d ≤ H)
    {g : (Fin 3 → ℝ) → ℝ} (hg : ContDiff ℝ 2 g) (hgp : BoxPeriodic ℓ g) (hgd : DependsOn c.scheme.active g) {L M : ℝ}
    (hL : ∀ y, ‖fderiv ℝ g y‖ ≤ L) (hM : ∀ y, ‖iteratedFDeriv ℝ 2 g y‖ ≤ M)
    (v : Fin 3 → ℝ) (P : ℝ) (x : Fin np → ℝ) (f : RHS ℝ (Ix → State ℝ np)) (hf : IsSolverRHS c.scheme f) {Sn : Type}
    (mk : ODEState ℝ (Ix → State ℝ np) Sn → Sn) (fuel : ℕ) (a : IntegrateArgs ℝ Sn) (ha : Computes a)
    (st : ODEState ℝ (Ix → State ℝ np) Sn) (h0 : st.t = 0) (hT : Ahead a 0)
    (hu : ∀ j, InCells c.n j → st.u j = conserved c.gas.gamma (flowing v P x (cellMean 0 c.h ρ j)))
    (out : Outcome ℝ (Ix → State ℝ np) Sn) (hrun : st.integrate (stepper f .euler) mk fuel a = some out) :
    let E : ℝ → ℝ := fun t => 2 * (∫ y in sideBox ℓ, |g y - ρ y|) + (∏ d, ℓ d) * ((M * (∑ d, |v d|) * t + L) * H)
    out.2 = none ∧ NearInMean c ℓ ρ v P x (E out.1.t) out.1.t out.1.u ∧
      ∀ s ∈ out.1.snapshots, s ∈ st.snapshots ∨ ∃ st', s = mk st' ∧ NearInMean c ℓ ρ v P x (E st'.t) st'.t st'.u := by
  intro E
  have hc := h.transport
  have hh := hc.spacing
  have hv : 0 < ∏ d, c.h d := Finset.prod_pos fun d _ => hh d
  have hBa : ∀ y, |ρ y| ≤ B := fun y => by rw [abs_of_pos (hm0.trans_le (hmρ y))]; exact hB y
  have hℓ0 : ∀ d, 0 < ℓ d := fun d => by
    rw [← hℓ d]
    exact mul_pos (by exact_mod_cast hc.cells d) (hh d)
  obtain ⟨Bg, hBg⟩ := hgp.bounded hℓ0 hg.continuous
  have hpos : PosDt f := by
    intro s t u dt k hk
    obtain ⟨junk, mem, e⟩ := hf s t u
    obtain ⟨dt', D, e', hd, _⟩ := h.first.rhs (fun _ => True) (fun _ _ _ => trivial) junk mem s t u fun _ _ => trivial
    rw [← e, hk] at e'
    cases e'
    exact hd
  obtain ⟨d₀, hd₀⟩ := h.first.extended
  have had₀ := (h.first.active d₀).2 hd₀
  have hH0 : 0 ≤ H := (hh d₀).le.trans (hH d₀ had₀)
  have hgt : ∀ t : ℝ, Cyclic c.n (cellMean 0 c.h fun y => g (y - t • v)) := fun t d j =>
    periodic_means hc 0 (ρ := fun y => g (y - t • v)) (fun y z hyz => hgd _ _ fun d hda => by
      rw [Pi.sub_apply, Pi.sub_apply, hyz d hda])
      (fun d _ y => by beta_reduce; rw [hℓ d, add_sub_right_comm, hgp]) d j
  -- the invariant
  let D₀ : ℝ := ∫ y in sideBox ℓ, |g y - ρ y|
  let I : ℝ → (Ix → State ℝ np) → Prop := fun t u => ∃ α : Ix → ℝ, Cyclic c.n α ∧ (∀ j, m ≤ α j) ∧
    (∀ j, InCells c.n j → u j = conserved c.gas.gamma (flowing v P x (α j))) ∧
    (∏ d, c.h d) * cellSum c.n (fun i => |α i - cellMean 0 c.h (fun y => g (y - t • v)) i|) ≤
      D₀ + (∏ d, ℓ d) * (M * (∑ d, |v d|) * H * t)
  have hI : ∀ t u, I t u → NearInMean c ℓ ρ v P x (E t) t u := by
    rintro t u ⟨α, -, h1, h2, h3⟩
    refine ⟨fun i hi => ⟨α i, hm0.trans_le (h1 i), h2 i hi⟩, ?_⟩
    refine (near_of_sum c h hℓ hm hBa hper hg hgp hgd hL hH hH0 v P x t h2 h3).trans (le_of_eq ?_)
    show D₀ + _ + _ + D₀ = 2 * D₀ + _
    ring
  have hstep : ∀ (st : ODEState ℝ (Ix → State ℝ np) Sn) target, (∀ g, target = some g → st.t < g) → I st.t st.u →
      I (st.takeStep (stepper f .euler) target).1.t (st.takeStep (stepper f .euler) target).1.u ∧
        (st.takeStep (stepper f .euler) target).2 = none := by
    rintro st target hgo ⟨α, hα, h1, h2, h3⟩
    obtain ⟨junk, mem, e⟩ := hf st.t st.t st.u
    obtain ⟨dt, D, e', hdt, hsmall, hnew⟩ := upwind_rhs h v P x α hα (fun j => hm0.trans_le (h1 j)) st.t st.t st.u h2
      junk mem
    rw [e'] at e
    obtain ⟨τ, hτ⟩ : ∃ τ, τ = hitTarget st.t dt target := ⟨_, rfl⟩
    have hτ0 : 0 ≤ τ ∧ τ ≤ dt := by
      rw [hτ]
      cases target with
      | none => exact ⟨hdt.le, le_rfl⟩
      | some g =>
        refine ⟨(hitTarget_pos hdt (hgo g rfl)).le, ?_⟩
        simp only [hitTarget]
        split
        · rename_i hlt; exact hlt.le
        · exact le_rfl
    have hts : st.takeStep (stepper f .euler) target =
        (⟨st.t + τ, st.timestamps ++ [st.t + τ], st.stepCount + 1, st.u + τ • D, st.snapshots, st.snapshotTimes⟩, none) := by
      simp only [ODEState.takeStep, stepper, eulerStepper, Bind.bind, Except.bind, pure, Except.pure, e, ← hτ]
    have hV : 0 ≤ ∑ d, |v d| := Finset.sum_nonneg fun d _ => abs_nonneg _
    have hτV : ∀ d, τ * ∑ d, |v d| ≤ c.h d := fun d => (mul_le_mul_of_nonneg_right hτ0.2 hV).trans (hsmall d)
    have hshare : ∑ d, share c.scheme.active c.h v τ d ≤ 1 := by
      refine share_sum hc.spacing (min (min (c.h 0) (c.h 1)) (c.h 2))
        (lt_min (lt_min (hc.spacing 0) (hc.spacing 1)) (hc.spacing 2)) (fun d => ?_) hτ0.1
        (le_min (le_min (hτV 0) (hτV 1)) (hτV 2))
      match d with
      | 0 => exact (min_le_left _ _).trans (min_le_left _ _)
      | 1 => exact (min_le_left _ _).trans (min_le_right _ _)
      | 2 => exact min_le_right _ _
    rw [hts]
    refine ⟨⟨upwindStep c.scheme.active c.h v τ α, fun d j => upwindStep_shift α _ (hα d) j, ?_, hnew τ, ?_⟩, rfl⟩
    · exact upwindStep_least hc.spacing hτ0.1 hshare α m h1
    · obtain ⟨β, hβ⟩ : ∃ β, β = cellMean 0 c.h fun y => g (y - st.t • v) := ⟨_, rfl⟩
      have hγ : Cyclic c.n fun j => α j - β j := fun d j => by
        beta_reduce
        rw [hα d j, hβ, hgt st.t d j]
      have k1 := upwindStep_sum hc.spacing hτ0.1 hshare hγ
      have k2 : ∀ j, |upwindStep c.scheme.active c.h v τ β j - cellMean 0 c.h (fun y => g (y - (st.t + τ) • v)) j| ≤
          M * (∑ d, |v d|) * H * τ := fun j => by
        have := upwind_consistent (x₀ := 0) (v := v) hc.spacing (g := fun y => g (y - st.t • v))
          (hg.comp (contDiff_id.sub contDiff_const)) (fun y z hyz => hgd _ _ fun d hda => by simp [hyz d hda])
          (fun y => by rw [iteratedFDeriv_comp_sub]; exact hM _) H hH hτ0.1 ((hτV d₀).trans (hH d₀ had₀)) j
        have e1 : (fun y => g (y - τ • v - st.t • v)) = fun y => g (y - (st.t + τ) • v) := by
          funext y
          congr 1
          module
        rw [e1] at this
        rw [hβ]
        exact this
      have k3 : cellSum c.n (fun i => |upwindStep c.scheme.active c.h v τ α i - cellMean 0 c.h (fun y => g (y - (st.t + τ) • v)) i|) ≤
          cellSum c.n (fun i => |α i - β i|) + (∏ d, (c.n d : ℝ)) * (M * (∑ d, |v d|) * H * τ) := by
        rw [← cellSum_const]
        refine (cellSum_le c.n fun i _ => ?_).trans ((cellSum_add c.n _ _).le.trans (add_le_add_left k1 _))
        have := abs_sub_le (upwindStep c.scheme.active c.h v τ α i) (upwindStep c.scheme.active c.h v τ β i)
          (cellMean 0 c.h (fun y => g (y - (st.t + τ) • v)) i)
        rw [upwindStep_sub] at this
        exact this.trans (add_le_add_right (k2 i) _)
      rw [← hβ] at h3
      have e3 : (∏ d, c.h d) * ((∏ d, (c.n d : ℝ)) * (M * (∑ d, |v d|) * H * τ)) = (∏ d, ℓ d) * (M * (∑ d, |v d|) * H * τ) := by
        rw [← mul_assoc, ← Finset.prod_mul_distrib]
        congr 1
        exact Finset.prod_congr rfl fun d _ => by rw [← hℓ d]; ring
      have k4 := mul_le_mul_of_nonneg_left k3 hv.le
      rw [mul_add, e3] at k4
      show (∏ d, c.h d) * cellSum c.n (fun i => |upwindStep c.scheme.active c.h v τ α i -
        cellMean 0 c.h (fun y => g (y - (st.t + τ) • v)) i|) ≤ D₀ + (∏ d, ℓ d) * (M * (∑ d, |v d|) * H * (st.t + τ))
      linarith
  have key := integrate_outcome_fwd (posStepper_of_posDt hpos .euler)
    (fun st' : ODEState ℝ (Ix → State ℝ np) Sn => I st'.t st'.u ∧ ∀ s ∈ st'.snapshots, s ∈ st.snapshots ∨ ∃ st', s = mk st' ∧
      NearInMean c ℓ ρ v P x (E st'.t) st'.t st'.u)
    (fun st' target hg hst => ⟨⟨(hstep st' target hg hst.1).1, by
      have : (st'.takeStep (stepper f .euler) target).1.snapshots = st'.snapshots := by
        unfold ODEState.takeStep
        split <;> rfl
      rw [this]
      exact hst.2⟩, (hstep st' target hg hst.1).2⟩)
    (fun st' hst => ⟨hst.1, fun s hs => by
      rcases List.mem_append.1 hs with hs | hs
      · exact hst.2 s hs
      · rw [List.mem_singleton] at hs
        exact Or.inr ⟨st', hs, hI _ _ hst.1⟩⟩) fuel a ha st h0.ge (by rw [h0]; exact hT) out
    ⟨⟨cellMean 0 c.h ρ, fun d j => periodic_means hc 0 hd (periodicIn_of_box hℓ hper) d j, fun j => ?_, hu, ?_⟩,
      fun s hs => Or.inl hs⟩ hrun
  · exact ⟨key.2, hI _ _ key.1.1, key.1.2⟩
  · exact cellMean_above 0 c.h hh (integrableOn_cell hm hBa _ _ _) m hmρ
  · rw [h0]
    have hint : IntegrableOn (fun y => |g y - ρ y|) (sideBox ℓ) := by
      refine integrable_box (C := Bg + B) ((hg.continuous.measurable.sub hm).norm) fun y _ => ?_
      rw [abs_abs]
      have h1 := abs_sub (g y) (ρ y)
      have h2 := hBg y
      rw [Real.norm_eq_abs] at h2
      linarith [hBa y]
    have h1 : (∏ d, c.h d) * cellSum c.n (fun i => |cellMean 0 c.h ρ i - cellMean 0 c.h (fun y => g (y - (0 : ℝ) • v)) i|) ≤ D₀ := by
      show _ ≤ ∫ y in sideBox ℓ, |g y - ρ y|
      rw [box_cells hh hℓ hint, ← cellSum_const_mul]
      refine cellSum_le _ fun i _ => ?_
      simp only [zero_smul, sub_zero]
      exact cellMean_dist 0 c.h hh (integrableOn_cell hm hBa _ _ _) hg.continuous.integrableOn_Icc
    linarith

/-- **C101** Take a bounded measurable density `ρ ≥ m > 0`, with or without jumps, that repeats itself with the sides `ℓ` of a
box, a velocity, a pressure, concentrations, a time `T` and a tolerance `ε`. On every grid of the box that is fine enough along the
directions along which it has more than one cell, a run at degree zero from the cell averages does not raise; at its end and at
every snapshot it takes, if not later than `T`, velocity, pressure and concentrations are unchanged and the density is in the mean
within `ε` of `ρ` moved by the velocity. -/
theorem C101_converges {ℓ : Fin 3 → ℝ} (hℓ0 : ∀ d, 0 < ℓ d) {act : Fin 3 → Bool} {ρ : (Fin 3 → ℝ) → ℝ} (hm : Measurable ρ)
    {m B : ℝ} (hm0 : 0 < m) (hmρ : ∀ y, m ≤ ρ y) (hB : ∀ y, ρ y ≤ B) (hper : BoxPeriodic ℓ ρ) (hd : DependsOn act ρ)
    (v : Fin 3 → ℝ) (P : ℝ) (x : Fin np → ℝ) (T : ℝ) {ε : ℝ} (hε : 0 < ε) :
    ∃ H > 0, ∀ c : EulerConfig ℝ np, UpwindSetup c → FillsBox c ℓ → (∀ d, c.scheme.active d = act d) →
      (∀ d, act d = true → c.h d ≤ H) → ∀ f, IsSolverRHS c.scheme f → ∀ {Sn : Type} (mk : ODEState ℝ (Ix → State ℝ np) Sn → Sn)
      (fuel : ℕ) (a : IntegrateArgs ℝ Sn), Computes a → Ahead a 0 → ∀ st : ODEState ℝ (Ix → State ℝ np) Sn, st.t = 0 →
      (∀ j, InCells c.n j → st.u j = conserved c.gas.gamma (flowing v P x (cellMean 0 c.h ρ j))) →
      ∀ out, st.integrate (stepper f .euler) mk fuel a = some out →
      out.2 = none ∧ (out.1.t ≤ T → NearInMean c ℓ ρ v P x ε out.1.t out.1.u) ∧
        ∀ s ∈ out.1.snapshots, s ∈ st.snapshots ∨ ∃ st', s = mk st' ∧
          (st'.t ≤ T → NearInMean c ℓ ρ v P x ε st'.t st'.u) := by
  have hBa : ∀ y, |ρ y| ≤ B := fun y => by rw [abs_of_pos (hm0.trans_le (hmρ y))]; exact hB y
  obtain ⟨g, hg, hgp, hgd, hgε⟩ := exists_smooth_near hm hBa hper hd (show 0 < ε / 4 by linarith)
  have hfd : BoxPeriodic ℓ (fderiv ℝ g) := fun d y => by
    have := fderiv_comp_add_right (𝕜 := ℝ) (f := g) (x := y) (Pi.single d (ℓ d))
    rw [← this]
    congr 1
    funext z
    exact hgp d z
  have hfd2 : BoxPeriodic ℓ (iteratedFDeriv ℝ 2 g) := fun d y => by
    rw [← iteratedFDeriv_comp_add_right]
    congr 1
    funext z
    exact hgp d z
  obtain ⟨L, hL⟩ := hfd.bounded hℓ0 (hg.continuous_fderiv (by norm_num))
  obtain ⟨M, hM⟩ := hfd2.bounded hℓ0 (hg.continuous_iteratedFDeriv le_rfl)
  have hL0 : 0 ≤ L := (norm_nonneg _).trans (hL 0)
  have hM0 : 0 ≤ M := (norm_nonneg _).trans (hM 0)
  have hV : 0 ≤ ∑ d, |v d| := Finset.sum_nonneg fun d _ => abs_nonneg _
  have hW : 0 < ∏ d, ℓ d := Finset.prod_pos fun d _ => hℓ0 d
  obtain ⟨Z, hZ⟩ : ∃ Z, Z = (∏ d, ℓ d) * (M * (∑ d, |v d|) * |T| + L) := ⟨_, rfl⟩
  have hZ0 : 0 ≤ Z := by rw [hZ]; positivity
  refine ⟨ε / 2 / (Z + 1), by positivity, fun c h hℓ hact hH f hf Sn mk fuel a ha hT st h0 hu out hrun => ?_⟩
  have hact' : c.scheme.active = act := funext hact
  obtain ⟨k1, k2, k3⟩ := C101_estimate c h hℓ hm hm0 hmρ hB hper (by rw [hact']; exact hd)
    (H := ε / 2 / (Z + 1)) (fun d hda => hH d (by rw [← hact d]; exact hda)) hg hgp (by rw [hact']; exact hgd) hL hM v P x f hf mk fuel a ha
    st h0 hT hu out hrun
  have hle : ∀ t ≤ T, 2 * (∫ y in sideBox ℓ, |g y - ρ y|) +
      (∏ d, ℓ d) * ((M * (∑ d, |v d|) * t + L) * (ε / 2 / (Z + 1))) ≤ ε := by
    intro t ht
    have h1 : (∏ d, ℓ d) * ((M * (∑ d, |v d|) * t + L) * (ε / 2 / (Z + 1))) ≤ Z * (ε / 2 / (Z + 1)) := by
      rw [← mul_assoc]
      refine mul_le_mul_of_nonneg_right ?_ (by positivity)
      rw [hZ]
      refine mul_le_mul_of_nonneg_left ?_ hW.le
      have := mul_le_mul_of_nonneg_left (ht.trans (le_abs_self T)) (mul_nonneg hM0 hV)
      linarith
    have h2 : Z * (ε / 2 / (Z + 1)) ≤ ε / 2 := by
      rw [mul_div_assoc', div_le_iff₀ (by positivity)]
      nlinarith
    linarith
  exact ⟨k1, fun ht => ⟨k2.1, k2.2.trans (hle _ ht)⟩, fun s hs => (k3 s hs).imp_right fun ⟨st', e, k⟩ =>
    ⟨st', e, fun ht => ⟨k.1, k.2.trans (hle _ ht)⟩⟩⟩

/-! ## A square wave -/

/-- Density 2 on one half of every period, 1 on the other. -/
noncomputable def squareWave (y : Fin 3 → ℝ) : ℝ := if ⌊y 0 / Real.pi⌋ % 2 = 0 then 2 else 1

/-- C101 for the square wave carried along the periodic tube of C71 with velocity `w`: on all fine enough grids the density at
time `T` is in the mean as near to the square wave displaced by `T w` as one likes. -/
theorem C101_square (w T : ℝ) (hT : 0 < T) {ε : ℝ} (hε : 0 < ε) :
    ∃ N₀ : ℕ, ∀ N, N₀ ≤ N → ∀ f, IsSolverRHS (sineTube N).scheme f → ∀ (fuel : ℕ) (u : Ix → State ℝ 1),
      (∀ j, InCells (sineTube N).n j → u j = conserved (7 / 5)
        (flowing ![w, 0, 0] 1 (fun _ => 1 / 2) (cellMean 0 (sineTube N).h squareWave j))) →
      ∀ out, (ODEState.init u).integrate (stepper f .euler) (fun _ => ()) fuel ⟨some T, none, true, [], false, none⟩ = some out →
        out.2 = none ∧ ∫ y in sideBox ![2 * Real.pi, 1, 1],
          |onGrid (sineTube N).n (sineTube N).h out.1.u y .rho - squareWave (y - T • ![w, 0, 0])| ≤ ε := by
  have hpi := Real.pi_pos
  have hmeas : Measurable squareWave := by
    have h1 : Measurable fun x : Fin 3 → ℝ => ⌊x 0 / Real.pi⌋ := ((measurable_pi_apply 0).div_const _).floor
    exact (Measurable.of_discrete (f := fun a : ℤ => if a % 2 = 0 then (2 : ℝ) else 1)).comp h1
  have hper : BoxPeriodic ![2 * Real.pi, 1, 1] squareWave := by
    intro d x
    unfold squareWave
    match d with
    | 0 =>
      have : (x + Pi.single 0 ((![2 * Real.pi, 1, 1] : Fin 3 → ℝ) 0) : Fin 3 → ℝ) 0 / Real.pi = x 0 / Real.pi + (2 : ℤ) := by
        simp [Pi.add_apply]
        field_simp
      rw [this, Int.floor_add_intCast, Int.add_emod_right]
    | 1 => simp
    | 2 => simp
  obtain ⟨H, hH, key⟩ := C101_converges (np := 1) (ℓ := ![2 * Real.pi, 1, 1]) (act := ![true, false, false])
    (fun d => by match d with | 0 => exact mul_pos two_pos hpi | 1 | 2 => exact one_pos) hmeas one_pos (B := 2)
    (fun y => by unfold squareWave; split_ifs <;> norm_num) (fun y => by unfold squareWave; split_ifs <;> norm_num) hper
    (fun y z hyz => by unfold squareWave; rw [hyz 0 rfl]) ![w, 0, 0] 1 (fun _ => 1 / 2) T hε
  obtain ⟨N₁, hN₁⟩ := exists_nat_gt (2 * Real.pi / H)
  refine ⟨max N₁ 2, fun N hN f hf fuel u hu out hrun => ?_⟩
  have hN2 : 2 ≤ N := (le_max_right _ _).trans hN
  have hNpos : (0 : ℝ) < N := by exact_mod_cast (by omega : 0 < N)
  have hset := sineTube_setup N hN2
  have hA : Ahead (⟨some T, none, true, [], false, none⟩ : IntegrateArgs ℝ Unit) 0 := by
    intro T' hT'
    cases hT'
    exact ⟨hT, fun d hd => by cases hd⟩
  obtain ⟨k1, k2, -⟩ := key (sineTube N) hset
    (fun d => by
      match d with
      | 0 => show (N : ℝ) * (2 * Real.pi / N) = 2 * Real.pi; field_simp
      | 1 => show ((1 : ℕ) : ℝ) * 1 = 1; norm_num
      | 2 => show ((1 : ℕ) : ℝ) * 1 = 1; norm_num)
    (fun d => by
      have := sineTube_active N hN2 d
      match d with
      | 0 => exact this.2 rfl
      | 1 => exact Bool.eq_false_iff.2 fun h => absurd (this.1 h) (by decide)
      | 2 => exact Bool.eq_false_iff.2 fun h => absurd (this.1 h) (by decide))
    (fun d hd => by
      match d with
      | 0 =>
        show 2 * Real.pi / N ≤ H
        have : (N₁ : ℝ) ≤ N := by exact_mod_cast (le_max_left _ _).trans hN
        rw [div_le_iff₀ hNpos]
        rw [div_lt_iff₀ hH] at hN₁
        nlinarith
      | 1 => cases hd
      | 2 => cases hd) f hf (fun _ => ()) fuel
    ⟨some T, none, true, [], false, none⟩ (by unfold Computes; rw [if_neg (by simp)]) hA (ODEState.init u) rfl hu out hrun
  have hpos : PosDt f := by
    intro s t u dt k hk
    obtain ⟨junk, mem, e⟩ := hf s t u
    obtain ⟨dt', D, e', hd, _⟩ := hset.first.rhs (fun _ => True) (fun _ _ _ => trivial) junk mem s t u fun _ _ => trivial
    rw [← e, hk] at e'
    cases e'
    exact hd
  have ht : out.1.t = T := by
    have hrun' : (ODEState.init u).integrateT (stepper f .euler) (fun _ => ()) T true [] false fuel = some (out.1, none) := by
      rw [← k1]
      exact hrun
    exact (C24_exact_output_times f .euler _ hpos T [] false fuel _ _ le_rfl hT (fun d hd => by cases hd) hrun').1
  rw [ht] at k2
  exact ⟨k1, (k2 le_rfl).2⟩

end FVHOE
