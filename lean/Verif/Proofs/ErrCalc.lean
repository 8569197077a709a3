import Verif.Proofs.LipAt

/-!
Discrepancies that vary slowly: a function `E` of a point `z` that vanishes with an error `e z` and whose change between
two points is bounded by the change of the error plus the error times the distance of the points. The flux of a Riemann
solver minus the exact flux is of this kind.
-/

set_option linter.unusedSectionVars false

namespace FVHOE

open Filter Topology

section

variable {Z V : Type} [PseudoMetricSpace Z] [SeminormedAddCommGroup V] {e : Z → V} {z₀ : Z}

/-- `E` is of the size of `e`, and changes with `e`. -/
def ErrAt (e : Z → V) (E : Z → ℝ) (z₀ : Z) : Prop :=
  ∃ L ≥ 0, ∃ U ∈ 𝓝 z₀, ∀ z ∈ U, |E z| ≤ L * ‖e z‖ ∧ ∀ z' ∈ U, |E z' - E z| ≤ L * (‖e z' - e z‖ + ‖e z‖ * dist z' z)

theorem ErrAt.congr {E F : Z → ℝ} (h : ErrAt e E z₀) (hEF : E =ᶠ[𝓝 z₀] F) : ErrAt e F z₀ := by
  obtain ⟨L, hL, U, hU, H⟩ := h
  refine ⟨L, hL, U ∩ {z | E z = F z}, inter_mem hU hEF, fun z hz => ⟨?_, fun z' hz' => ?_⟩⟩
  · rw [← hz.2]
    exact (H z hz.1).1
  · rw [← hz.2, ← hz'.2]
    exact (H z hz.1).2 z' hz'.1

theorem ErrAt.zero : ErrAt e (fun _ => 0) z₀ :=
  ⟨0, le_rfl, Set.univ, univ_mem, fun z _ => ⟨by simp, fun z' _ => by simp⟩⟩

theorem ErrAt.base {E : Z → ℝ} (h1 : ∀ z, |E z| ≤ ‖e z‖) (h2 : ∀ z z', |E z' - E z| ≤ ‖e z' - e z‖) : ErrAt e E z₀ :=
  ⟨1, zero_le_one, Set.univ, univ_mem, fun z _ => ⟨by rw [one_mul]; exact h1 z, fun z' _ => by
    have := h2 z z'
    have : 0 ≤ ‖e z‖ * dist z' z := by positivity
    linarith⟩⟩

theorem ErrAt.add {E F : Z → ℝ} (hE : ErrAt e E z₀) (hF : ErrAt e F z₀) : ErrAt e (fun z => E z + F z) z₀ := by
  obtain ⟨L, hL, U, hU, H⟩ := hE
  obtain ⟨M, hM, W, hW, K⟩ := hF
  refine ⟨L + M, by positivity, U ∩ W, inter_mem hU hW, fun z hz => ⟨?_, fun z' hz' => ?_⟩⟩
  · rw [add_mul]
    exact (abs_add_le _ _).trans (add_le_add (H z hz.1).1 (K z hz.2).1)
  · rw [add_mul]
    have e1 : E z' + F z' - (E z + F z) = (E z' - E z) + (F z' - F z) := by ring
    rw [e1]
    exact (abs_add_le _ _).trans (add_le_add ((H z hz.1).2 z' hz'.1) ((K z hz.2).2 z' hz'.2))

/-- Multiplication by a Lipschitz function. -/
theorem ErrAt.mul {g E : Z → ℝ} (hg : LipAt g z₀) (hE : ErrAt e E z₀) : ErrAt e (fun z => g z * E z) z₀ := by
  have hc := hg.continuousAt
  obtain ⟨M, W, hW, K⟩ := hg
  obtain ⟨L, hL, U, hU, H⟩ := hE
  have hb : {z | |g z| ≤ |g z₀| + 1} ∈ 𝓝 z₀ := by
    have := hc.abs
    filter_upwards [this.eventually (gt_mem_nhds (lt_add_one |g z₀|))] with z hz using hz.le
  refine ⟨(|g z₀| + 1) * L + M * L, by positivity, (U ∩ W) ∩ {z | |g z| ≤ |g z₀| + 1}, inter_mem (inter_mem hU hW) hb,
    fun z hz => ⟨?_, fun z' hz' => ?_⟩⟩
  · rw [abs_mul]
    have h1 := (H z hz.1.1).1
    have h2 : |g z| ≤ |g z₀| + 1 := hz.2
    have h3 : |g z| * |E z| ≤ (|g z₀| + 1) * (L * ‖e z‖) := mul_le_mul h2 h1 (abs_nonneg _) (by positivity)
    have h4 : 0 ≤ (M : ℝ) * L * ‖e z‖ := by positivity
    nlinarith
  · have e1 : g z' * E z' - g z * E z = g z' * (E z' - E z) + (g z' - g z) * E z := by ring
    rw [e1]
    refine (abs_add_le _ _).trans ?_
    rw [abs_mul, abs_mul]
    have h1 := (H z hz.1.1).1
    have h2 : |g z'| ≤ |g z₀| + 1 := hz'.2
    have h3 := (H z hz.1.1).2 z' hz'.1.1
    have h4 : |g z' - g z| ≤ M * dist z' z := by
      rw [← Real.dist_eq]
      exact K.dist_le_mul z' hz'.1.2 z hz.1.2
    have h5 := mul_le_mul h2 h3 (abs_nonneg _) (by positivity)
    have h6 := mul_le_mul h4 h1 (abs_nonneg _) (by positivity)
    have h7 : 0 ≤ (M : ℝ) * L * ‖e z' - e z‖ := by positivity
    nlinarith

theorem ErrAt.sub {E F : Z → ℝ} (hE : ErrAt e E z₀) (hF : ErrAt e F z₀) : ErrAt e (fun z => E z - F z) z₀ :=
  (hE.add (ErrAt.mul (LipAt.const (-1) z₀) hF)).congr (Eventually.of_forall fun z => by ring)

/-- Two functions whose difference is small with `e`. -/
structure Sim (e : Z → V) (f f₀ : Z → ℝ) (z₀ : Z) : Prop where
  lip : LipAt f z₀
  lip₀ : LipAt f₀ z₀
  err : ErrAt e (fun z => f z - f₀ z) z₀

variable {f g f₀ g₀ : Z → ℝ}

theorem Sim.refl (hf : LipAt f z₀) : Sim e f f z₀ :=
  ⟨hf, hf, ErrAt.zero.congr (Eventually.of_forall fun _ => (sub_self _).symm)⟩

theorem Sim.const (c : ℝ) : Sim e (fun _ => c) (fun _ => c) z₀ := Sim.refl (LipAt.const c z₀)

theorem Sim.add (hf : Sim e f f₀ z₀) (hg : Sim e g g₀ z₀) : Sim e (fun z => f z + g z) (fun z => f₀ z + g₀ z) z₀ :=
  ⟨hf.lip.add hg.lip, hf.lip₀.add hg.lip₀, (hf.err.add hg.err).congr (Eventually.of_forall fun z => by ring)⟩

theorem Sim.sub (hf : Sim e f f₀ z₀) (hg : Sim e g g₀ z₀) : Sim e (fun z => f z - g z) (fun z => f₀ z - g₀ z) z₀ :=
  ⟨hf.lip.sub hg.lip, hf.lip₀.sub hg.lip₀, (hf.err.sub hg.err).congr (Eventually.of_forall fun z => by ring)⟩

theorem Sim.mul (hf : Sim e f f₀ z₀) (hg : Sim e g g₀ z₀) : Sim e (fun z => f z * g z) (fun z => f₀ z * g₀ z) z₀ :=
  ⟨hf.lip.mul hg.lip, hf.lip₀.mul hg.lip₀,
    ((ErrAt.mul hf.lip hg.err).add (ErrAt.mul hg.lip₀ hf.err)).congr (Eventually.of_forall fun z => by ring)⟩

theorem Sim.div (hf : Sim e f f₀ z₀) (hg : Sim e g g₀ z₀) (h : g z₀ ≠ 0) (h₀ : g₀ z₀ ≠ 0) :
    Sim e (fun z => f z / g z) (fun z => f₀ z / g₀ z) z₀ := by
  have q := hf.lip₀.div hg.lip₀ h₀
  refine ⟨hf.lip.div hg.lip h, q, ?_⟩
  refine (ErrAt.mul ((LipAt.const 1 z₀).div hg.lip h) (hf.err.sub (ErrAt.mul q hg.err))).congr ?_
  filter_upwards [hg.lip.continuousAt.eventually_ne h, hg.lip₀.continuousAt.eventually_ne h₀] with z hz hz₀
  field_simp
  ring

theorem Sim.to {f₁ : Z → ℝ} (hf : Sim e f f₀ z₀) (h : f₀ =ᶠ[𝓝 z₀] f₁) : Sim e f f₁ z₀ :=
  ⟨hf.lip, hf.lip₀.congr h, hf.err.congr (by filter_upwards [h] with z hz; rw [hz])⟩

theorem Sim.of {f₁ : Z → ℝ} (hf : Sim e f f₀ z₀) (h : f =ᶠ[𝓝 z₀] f₁) : Sim e f₁ f₀ z₀ :=
  ⟨hf.lip.congr h, hf.lip₀, hf.err.congr (by filter_upwards [h] with z hz; rw [hz])⟩

/-- Two branches that differ by a multiple of the function whose sign decides between them. -/
theorem Sim.glue {B₀ B₁ D : Z → ℝ} (hg : LipAt g z₀) (h₁ : Sim e B₁ f₀ z₀) (hD : ErrAt e D z₀) (hDl : LipAt D z₀)
    (h : ∀ᶠ z in 𝓝 z₀, B₀ z - B₁ z = g z * D z) : Sim e (fun z => if g z > 0 then B₀ z else B₁ z) f₀ z₀ := by
  have hm : LipAt (fun z => max (g z) 0) z₀ := hg.max (LipAt.const 0 z₀)
  have key : (fun z => B₁ z + max (g z) 0 * D z) =ᶠ[𝓝 z₀] fun z => if g z > 0 then B₀ z else B₁ z := by
    filter_upwards [h] with z hz
    split_ifs with hp
    · rw [max_eq_left hp.le]
      linarith
    · rw [max_eq_right (not_lt.1 hp), zero_mul, add_zero]
  refine Sim.of ⟨h₁.lip.add (hm.mul hDl), h₁.lip₀, ?_⟩ key
  exact (h₁.err.add (ErrAt.mul hm hD)).congr (Eventually.of_forall fun z => by ring)

/-- On a compact set the constants can be chosen once. -/
theorem err_uniform {J : Type} [Fintype J] {E : J → Z → ℝ} {D : Set Z} (hD : IsCompact D)
    (h : ∀ z₀ ∈ D, ∀ j, ErrAt e (E j) z₀) :
    ∃ δ > 0, ∃ L ≥ 0, ∀ z₀ ∈ D, ∀ z z', dist z z₀ ≤ δ → dist z' z₀ ≤ δ → ∀ j,
      |E j z' - E j z| ≤ L * (‖e z' - e z‖ + ‖e z‖ * dist z' z) := by
  refine hD.induction_on (p := fun s => ∃ δ > 0, ∃ L ≥ 0, ∀ z₀ ∈ s, ∀ z z', dist z z₀ ≤ δ → dist z' z₀ ≤ δ → ∀ j,
      |E j z' - E j z| ≤ L * (‖e z' - e z‖ + ‖e z‖ * dist z' z))
    ⟨1, one_pos, 0, le_rfl, fun k hk => hk.elim⟩ ?_ ?_ ?_
  · rintro s t hst ⟨δ, hδ, L, hL, H⟩
    exact ⟨δ, hδ, L, hL, fun k hk => H k (hst hk)⟩
  · rintro s t ⟨δ, hδ, L, hL, H⟩ ⟨δ', hδ', L', hL', H'⟩
    refine ⟨min δ δ', lt_min hδ hδ', max L L', le_max_of_le_left hL, ?_⟩
    rintro k (hk | hk) z z' hz hz' j
    · exact (H k hk z z' (hz.trans (min_le_left _ _)) (hz'.trans (min_le_left _ _)) j).trans
        (mul_le_mul_of_nonneg_right (le_max_left _ _) (by positivity))
    · exact (H' k hk z z' (hz.trans (min_le_right _ _)) (hz'.trans (min_le_right _ _)) j).trans
        (mul_le_mul_of_nonneg_right (le_max_right _ _) (by positivity))
  · intro z₀ hz₀
    choose L hL U hU H using h z₀ hz₀
    obtain ⟨ε, hε, hb⟩ := Metric.mem_nhds_iff.1 ((iInter_mem (s := U)).2 hU)
    refine ⟨Metric.ball z₀ (ε / 2), mem_nhdsWithin_of_mem_nhds (Metric.ball_mem_nhds _ (by linarith)), ε / 3, by linarith,
      ∑ j, L j, Finset.sum_nonneg fun j _ => hL j, ?_⟩
    intro k hk z z' hz hz' j
    rw [Metric.mem_ball] at hk
    have m1 : z ∈ Metric.ball z₀ ε := by
      rw [Metric.mem_ball]
      have := dist_triangle z k z₀
      linarith
    have m2 : z' ∈ Metric.ball z₀ ε := by
      rw [Metric.mem_ball]
      have := dist_triangle z' k z₀
      linarith
    refine ((H j z (Set.mem_iInter.1 (hb m1) j)).2 z' (Set.mem_iInter.1 (hb m2) j)).trans ?_
    exact mul_le_mul_of_nonneg_right (Finset.single_le_sum (fun j _ => hL j) (Finset.mem_univ j)) (by positivity)

end

/-! ### Gas dynamics -/

section

variable {np : ℕ} {Z V : Type} [PseudoMetricSpace Z] [SeminormedAddCommGroup V] {e : Z → V} {z₀ : Z}
  {W W₀ : Z → State ℝ np}

theorem sim_conserved (gamma : ℝ) (h : ∀ v, Sim e (fun z => W z v) (fun z => W₀ z v) z₀) (v : Var np) :
    Sim e (fun z => computeConservatives gamma (W z) v) (fun z => computeConservatives gamma (W₀ z) v) z₀ := by
  cases v with
  | rho => exact h .rho
  | mom d => exact (h .rho).mul (h _)
  | en =>
    simp only [computeConservatives, sum3]
    have q : ∀ d, Sim e (fun y => W y .rho * W y (.mom d) * W y (.mom d)) (fun y => W₀ y .rho * W₀ y (.mom d) * W₀ y (.mom d)) z₀ :=
      fun d => ((h .rho).mul (h _)).mul (h _)
    have r : Sim e (fun y => W y .en / (gamma - 1)) (fun y => W₀ y .en / (gamma - 1)) z₀ := by
      simp only [div_eq_mul_inv]
      exact (h .en).mul (.const _)
    exact r.add ((Sim.const _).mul (((q 0).add (q 1)).add (q 2)))
  | ps j => exact (h .rho).mul (h _)

theorem sim_flux (gamma : ℝ) (d : Fin 3) (b : Bool) (h : ∀ v, Sim e (fun z => W z v) (fun z => W₀ z v) z₀) (v : Var np) :
    Sim e (fun y => computeFluxes (W y) (computeConservatives gamma (W y)) d b v)
      (fun y => computeFluxes (W₀ y) (computeConservatives gamma (W₀ y)) d b v) z₀ := by
  have hu := sim_conserved gamma h
  cases v with
  | rho => exact (h _).mul (h _)
  | mom e =>
    by_cases hb : b = true ∧ e = d
    · simp only [computeFluxes, if_pos hb]
      exact ((h _).mul (hu (.mom e))).add (h .en)
    · simp only [computeFluxes, if_neg hb]
      exact (h _).mul (hu (.mom e))
  | en =>
    cases b
    · simp only [computeFluxes, Bool.false_eq_true, if_false]
      exact (h _).mul (hu .en)
    · simp only [computeFluxes, if_true]
      exact ((h _).mul (hu .en)).add ((h _).mul (h .en))
  | ps j => exact (h _).mul (hu (.ps j))

theorem sim_prim (gamma : ℝ) (h : ∀ v, Sim e (fun z => W z v) (fun z => W₀ z v) z₀) (h1 : W z₀ .rho ≠ 0) (h2 : W₀ z₀ .rho ≠ 0)
    (v : Var np) : Sim e (fun z => computePrimitives gamma (W z) v) (fun z => computePrimitives gamma (W₀ z) v) z₀ := by
  cases v with
  | rho => exact h .rho
  | mom d => exact (h _).div (h .rho) h1 h2
  | en =>
    simp only [computePrimitives, sum3]
    have q : ∀ d, Sim e (fun y => W y (.mom d) * (W y (.mom d) / W y .rho)) (fun y => W₀ y (.mom d) * (W₀ y (.mom d) / W₀ y .rho)) z₀ :=
      fun d => (h _).mul ((h _).div (h .rho) h1 h2)
    exact (Sim.const _).mul ((h .en).sub ((Sim.const _).mul (((q 0).add (q 1)).add (q 2))))
  | ps j => exact (h _).div (h .rho) h1 h2

theorem sim_pick (s : Fin 4) {f1 f2 f3 f4 f₀ : Z → ℝ} (h1 : Sim e f1 f₀ z₀) (h2 : Sim e f2 f₀ z₀) (h3 : Sim e f3 f₀ z₀)
    (h4 : Sim e f4 f₀ z₀) : Sim e (fun y => hllcPick s (f1 y) (f2 y) (f3 y) (f4 y)) f₀ z₀ := by
  match s with
  | 0 => exact h1
  | 1 => exact h2
  | 2 => exact h3
  | 3 => exact h4

end

/-! ### Riemann solvers -/

section

variable {np : ℕ}

/-- Left state, right state, exact state. -/
abbrev Triple (np : ℕ) : Type := State ℝ np × State ℝ np × State ℝ np

/-- The errors of the left and of the right state. -/
def tripleErr (z : Triple np) : State ℝ np × State ℝ np := (z.1 - z.2.2, z.2.1 - z.2.2)

theorem lip_triple (v : Var np) (z₀ : Triple np) : LipAt (fun z : Triple np => z.1 v) z₀ ∧
    LipAt (fun z : Triple np => z.2.1 v) z₀ ∧ LipAt (fun z : Triple np => z.2.2 v) z₀ :=
  ⟨.of_lipschitzWith ((LipschitzWith.eval v).comp LipschitzWith.prod_fst) _,
    .of_lipschitzWith ((LipschitzWith.eval v).comp (LipschitzWith.prod_fst.comp LipschitzWith.prod_snd)) _,
    .of_lipschitzWith ((LipschitzWith.eval v).comp (LipschitzWith.prod_snd.comp LipschitzWith.prod_snd)) _⟩

theorem sim_left (z₀ : Triple np) (v : Var np) :
    Sim tripleErr (fun z : Triple np => z.1 v) (fun z : Triple np => z.2.2 v) z₀ :=
  ⟨(lip_triple v z₀).1, (lip_triple v z₀).2.2, ErrAt.base
    (fun z => by
      have h1 := norm_le_pi_norm (z.1 - z.2.2) v
      have h2 := norm_fst_le (tripleErr z)
      exact h1.trans h2)
    (fun z z' => by
      have h1 := norm_le_pi_norm ((tripleErr z' - tripleErr z).1) v
      have h2 := norm_fst_le (tripleErr z' - tripleErr z)
      exact h1.trans h2)⟩

theorem sim_right (z₀ : Triple np) (v : Var np) :
    Sim tripleErr (fun z : Triple np => z.2.1 v) (fun z : Triple np => z.2.2 v) z₀ :=
  ⟨(lip_triple v z₀).2.1, (lip_triple v z₀).2.2, ErrAt.base
    (fun z => by
      have h1 := norm_le_pi_norm (z.2.1 - z.2.2) v
      have h2 := norm_snd_le (tripleErr z)
      exact h1.trans h2)
    (fun z z' => by
      have h1 := norm_le_pi_norm ((tripleErr z' - tripleErr z).2) v
      have h2 := norm_snd_le (tripleErr z' - tripleErr z)
      exact h1.trans h2)⟩

/-- Where the Riemann solver is as accurate in differences as in values: everywhere for llf and hllc; the upwind solver
needs a nonzero velocity. -/
def Regular (r : RiemannKind) (d : Fin 3) (k : State ℝ np) : Prop := r = .advectionUpwind → k (.mom d) ≠ 0

theorem upwind_sim (G : Gas ℝ) (d : Fin 3) {k : State ℝ np} (hk : k (.mom d) ≠ 0) (v : Var np) :
    Sim tripleErr (fun z : Triple np => FVHOE.advectionUpwind G d z.1 z.2.1 v) (fun z => carriedFlux G.gamma d z.2.2 v) (k, k, k) := by
  have hl := sim_left (k, k, k)
  have hr := sim_right (k, k, k)
  have fl := (sim_flux G.gamma d false hl v).to (f₁ := fun z => carriedFlux G.gamma d z.2.2 v)
    (Eventually.of_forall fun z => congrFun (fluxes_carried G.gamma d z.2.2) v)
  have fr := (sim_flux G.gamma d false hr v).to (f₁ := fun z => carriedFlux G.gamma d z.2.2 v)
    (Eventually.of_forall fun z => congrFun (fluxes_carried G.gamma d z.2.2) v)
  have hc := (hl (.mom d)).lip.continuousAt
  rcases lt_or_gt_of_ne hk with h | h
  · refine fr.of ?_
    filter_upwards [hc.eventually (gt_mem_nhds h)] with z hz
    unfold FVHOE.advectionUpwind
    rw [if_neg (not_lt.2 hz.le), if_pos hz]
  · refine fl.of ?_
    filter_upwards [hc.eventually (lt_mem_nhds h)] with z hz
    unfold FVHOE.advectionUpwind
    rw [if_pos hz]

theorem llf_sim (G : Gas ℝ) (hs : IsSqrt G.sqrt) (hg : 0 < G.gamma) (d : Fin 3) {k : State ℝ np} (hk : PosGas k) (v : Var np) :
    Sim tripleErr (fun z : Triple np => FVHOE.llf G d z.1 z.2.1 v) (fun z => eulerFlux G.gamma d z.2.2 v) (k, k, k) := by
  have hl := sim_left (k, k, k)
  have hr := sim_right (k, k, k)
  have f1 := sim_flux G.gamma d true hl v
  have f2 := sim_flux G.gamma d true hr v
  have u1 := sim_conserved G.gamma hl v
  have u2 := sim_conserved G.gamma hr v
  have c1 := lip_sound G hs hg (fun v => (hl v).lip) hk
  have c2 := lip_sound G hs hg (fun v => (hr v).lip) hk
  have s := ((hl (.mom d)).lip.abs.add c1).max ((hr (.mom d)).lip.abs.add c2)
  have key := ((Sim.const (1 / 2)).mul (f1.add f2)).sub (((Sim.const (1 / 2)).mul (Sim.refl s)).mul (u2.sub u1))
  refine Sim.to key ?_
  refine Eventually.of_forall fun z => ?_
  beta_reduce
  rw [fluxes_euler]
  ring

/-- The conserved variables behind the flux `hllcBranch`. -/
noncomputable def hllcCons (G : Gas ℝ) (dim : Fin 3) (j : Fin 4 × Bool) (wl wr : State ℝ np) : State ℝ np :=
  let W := hllcWaves G dim wl wr
  let r := hllcPick j.1 (wl .rho) W.rStarL W.rStarR (wr .rho)
  let v := hllcPick j.1 (wl (.mom dim)) W.vStar W.vStar (wr (.mom dim))
  let E := hllcPick j.1 (computeConservatives G.gamma wl .en) W.EStarL W.EStarR (computeConservatives G.gamma wr .en)
  fun
  | .rho => r
  | .mom d => if d = dim then r * v else r * (if j.2 = true then wl (.mom d) else wr (.mom d))
  | .en => E
  | .ps i => r * (if j.2 = true then wl (.ps i) else wr (.ps i))

/-- The jumps across the three waves. -/
theorem hllc_jumps (G : Gas ℝ) (d : Fin 3) (a b : State ℝ np)
    (h0 : a .rho * (a (.mom d) - (hllcWaves G d a b).Sl) + b .rho * ((hllcWaves G d a b).Sr - b (.mom d)) ≠ 0)
    (h1 : (hllcWaves G d a b).Sl - (hllcWaves G d a b).vStar ≠ 0) (h2 : (hllcWaves G d a b).Sr - (hllcWaves G d a b).vStar ≠ 0)
    (v : Var np) :
    hllcBranch G d (0, true) a b v - hllcBranch G d (1, true) a b v =
      (hllcWaves G d a b).Sl * (hllcCons G d (0, true) a b v - hllcCons G d (1, true) a b v) ∧
    hllcBranch G d (1, true) a b v - hllcBranch G d (2, false) a b v =
      (hllcWaves G d a b).vStar * (hllcCons G d (1, true) a b v - hllcCons G d (2, false) a b v) ∧
    hllcBranch G d (2, false) a b v - hllcBranch G d (3, false) a b v =
      (hllcWaves G d a b).Sr * (hllcCons G d (2, false) a b v - hllcCons G d (3, false) a b v) := by
  obtain ⟨W, hW⟩ : ∃ W, W = hllcWaves G d a b := ⟨_, rfl⟩
  have rl : W.rStarL * (W.Sl - W.vStar) = a .rho * (W.Sl - a (.mom d)) := by
    rw [hW]
    exact div_mul_cancel₀ _ h1
  have rr : W.rStarR * (W.Sr - W.vStar) = b .rho * (W.Sr - b (.mom d)) := by
    rw [hW]
    exact div_mul_cancel₀ _ h2
  have el : W.EStarL * (W.Sl - W.vStar) = (W.Sl - a (.mom d)) * computeConservatives G.gamma a .en - a .en * a (.mom d) +
      W.PStar * W.vStar := by
    rw [hW]
    exact div_mul_cancel₀ _ h1
  have er : W.EStarR * (W.Sr - W.vStar) = (W.Sr - b (.mom d)) * computeConservatives G.gamma b .en - b .en * b (.mom d) +
      W.PStar * W.vStar := by
    rw [hW]
    exact div_mul_cancel₀ _ h2
  rw [← hW] at h0
  have ev : W.vStar * (a .rho * (a (.mom d) - W.Sl) + b .rho * (W.Sr - b (.mom d))) =
      a .rho * (a (.mom d) - W.Sl) * a (.mom d) + b .rho * (W.Sr - b (.mom d)) * b (.mom d) + a .en - b .en := by
    rw [hW] at h0 ⊢
    exact div_mul_cancel₀ _ h0
  have eP : W.PStar * (a .rho * (a (.mom d) - W.Sl) + b .rho * (W.Sr - b (.mom d))) =
      a .rho * (a (.mom d) - W.Sl) * b .en + b .rho * (W.Sr - b (.mom d)) * a .en +
        a .rho * (a (.mom d) - W.Sl) * (b .rho * (W.Sr - b (.mom d))) * (a (.mom d) - b (.mom d)) := by
    rw [hW] at h0 ⊢
    exact div_mul_cancel₀ _ h0
  have pl : W.PStar = a .en + a .rho * (W.Sl - a (.mom d)) * (W.vStar - a (.mom d)) := by
    apply mul_right_cancel₀ h0
    linear_combination eP + a .rho * (a (.mom d) - W.Sl) * ev
  have pr : W.PStar = b .en + b .rho * (W.Sr - b (.mom d)) * (W.vStar - b (.mom d)) := by
    apply mul_right_cancel₀ h0
    linear_combination eP - b .rho * (W.Sr - b (.mom d)) * ev
  refine ⟨?_, ?_, ?_⟩
  · cases v with
    | rho =>
      simp only [hllcBranch, hllcCons, hllcPick, ← hW]
      simp
      linear_combination rl
    | mom e =>
      simp only [hllcBranch, hllcCons, hllcPick, ← hW]
      by_cases he : e = d
      · simp [he]
        linear_combination W.vStar * rl - pl
      · simp [he]
        linear_combination a (.mom e) * rl
    | en =>
      simp only [hllcBranch, hllcCons, hllcPick, ← hW]
      simp
      linear_combination el
    | ps j =>
      simp only [hllcBranch, hllcCons, hllcPick, ← hW]
      simp
      linear_combination a (.ps j) * rl
  · cases v with
    | rho =>
      simp only [hllcBranch, hllcCons, hllcPick, ← hW]
      simp
      ring
    | mom e =>
      simp only [hllcBranch, hllcCons, hllcPick, ← hW]
      by_cases he : e = d
      · simp [he]
        ring
      · simp [he]
        ring
    | en =>
      simp only [hllcBranch, hllcCons, hllcPick, ← hW]
      simp
      ring
    | ps j =>
      simp only [hllcBranch, hllcCons, hllcPick, ← hW]
      simp
      ring
  · cases v with
    | rho =>
      simp only [hllcBranch, hllcCons, hllcPick, ← hW]
      simp
      linear_combination -rr
    | mom e =>
      simp only [hllcBranch, hllcCons, hllcPick, ← hW]
      by_cases he : e = d
      · simp [he]
        linear_combination -W.vStar * rr + pr
      · simp [he]
        linear_combination -b (.mom e) * rr
    | en =>
      simp only [hllcBranch, hllcCons, hllcPick, ← hW]
      simp
      linear_combination -er
    | ps j =>
      simp only [hllcBranch, hllcCons, hllcPick, ← hW]
      simp
      linear_combination -b (.ps j) * rr

/-- For gases with positive density and pressure the solver chooses between four of the branches. -/
theorem hllc_nested (G : Gas ℝ) (d : Fin 3) (a b : State ℝ np) (ha : 0 < soundSpeed G a) (hb : 0 < soundSpeed G b) (v : Var np) :
    FVHOE.hllc G d a b v = if (hllcWaves G d a b).Sl > 0 then hllcBranch G d (0, true) a b v else
      if (hllcWaves G d a b).vStar > 0 then hllcBranch G d (1, true) a b v else
      if (hllcWaves G d a b).Sr > 0 then hllcBranch G d (2, false) a b v else hllcBranch G d (3, false) a b v := by
  have k1 : (hllcWaves G d a b).Sl > 0 → 0 < a (.mom d) := by
    intro h
    have h' : 0 < min (a (.mom d)) (b (.mom d)) - max (soundSpeed G a) (soundSpeed G b) := h
    have := min_le_left (a (.mom d)) (b (.mom d))
    have := le_max_left (soundSpeed G a) (soundSpeed G b)
    linarith
  have k2 : ¬ (hllcWaves G d a b).Sr > 0 → b (.mom d) < 0 := by
    intro h
    have h' : ¬ max (a (.mom d)) (b (.mom d)) + max (soundSpeed G a) (soundSpeed G b) > 0 := h
    have := le_max_right (a (.mom d)) (b (.mom d))
    have := le_max_right (soundSpeed G a) (soundSpeed G b)
    linarith
  unfold FVHOE.hllc hllcSample
  by_cases h1 : (hllcWaves G d a b).Sl > 0
  · have := k1 h1
    simp only [if_pos h1]
    cases v <;> simp [hllcBranch, hllcPick, hllcUpwind, this]
  · simp only [if_neg h1]
    by_cases h2 : (hllcWaves G d a b).vStar > 0
    · simp only [if_pos h2]
      cases v <;> simp [hllcBranch, hllcPick, hllcUpwind, h2]
    · simp only [if_neg h2]
      by_cases h3 : (hllcWaves G d a b).Sr > 0
      · simp only [if_pos h3]
        have e : ∀ x l r : ℝ, x * (hllcWaves G d a b).vStar * hllcUpwind (hllcWaves G d a b).vStar l r =
            x * (hllcWaves G d a b).vStar * r := by
          intro x l r
          unfold hllcUpwind
          rw [if_neg h2]
          split_ifs with h4
          · rfl
          · rw [le_antisymm (not_lt.1 h2) (not_lt.1 h4)]
            ring
        cases v <;> simp [hllcBranch, hllcPick, e]
      · have := k2 h3
        simp only [if_neg h3]
        cases v <;> simp [hllcBranch, hllcPick, hllcUpwind, this, this.not_gt]

theorem hllc_sim (G : Gas ℝ) (hs : IsSqrt G.sqrt) (hg : 0 < G.gamma) (d : Fin 3) {k : State ℝ np} (hk : PosGas k) (v : Var np) :
    Sim tripleErr (fun z : Triple np => FVHOE.hllc G d z.1 z.2.1 v) (fun z => eulerFlux G.gamma d z.2.2 v) (k, k, k) := by
  have L := sim_left (k, k, k)
  have R := sim_right (k, k, k)
  have K : ∀ v, Sim tripleErr (fun z : Triple np => z.2.2 v) (fun z => z.2.2 v) (k, k, k) := fun v => Sim.refl (L v).lip₀
  have hc := sound_pos G hs hg hk
  have hr0 := hk.1
  have u1 := sim_conserved G.gamma L .en
  have u2 := sim_conserved G.gamma R .en
  have c1 := lip_sound G hs hg (fun v => (L v).lip) hk
  have c2 := lip_sound G hs hg (fun v => (R v).lip) hk
  have cm := c1.max c2
  have sl : LipAt (fun z : Triple np => (hllcWaves G d z.1 z.2.1).Sl) (k, k, k) :=
    ((L (.mom d)).lip.min (R (.mom d)).lip).sub cm
  have sr : LipAt (fun z : Triple np => (hllcWaves G d z.1 z.2.1).Sr) (k, k, k) :=
    ((L (.mom d)).lip.max (R (.mom d)).lip).add cm
  have eSl : (hllcWaves G d k k).Sl = k (.mom d) - soundSpeed G k := by
    simp only [hllcWaves, min_self, max_self]
  have eSr : (hllcWaves G d k k).Sr = k (.mom d) + soundSpeed G k := by
    simp only [hllcWaves, max_self]
  obtain ⟨ev, eP, _⟩ := waves_same G hs hg d hk
  have rl : LipAt (fun z : Triple np => z.1 .rho * (z.1 (.mom d) - (hllcWaves G d z.1 z.2.1).Sl)) (k, k, k) :=
    (L .rho).lip.mul ((L (.mom d)).lip.sub sl)
  have rr : LipAt (fun z : Triple np => z.2.1 .rho * ((hllcWaves G d z.1 z.2.1).Sr - z.2.1 (.mom d))) (k, k, k) :=
    (R .rho).lip.mul (sr.sub (R (.mom d)).lip)
  have hden : k .rho * (k (.mom d) - (hllcWaves G d k k).Sl) + k .rho * ((hllcWaves G d k k).Sr - k (.mom d)) ≠ 0 := by
    rw [eSl, eSr]
    nlinarith
  have hd1 : (hllcWaves G d k k).Sl - (hllcWaves G d k k).vStar ≠ 0 := by
    rw [eSl, ev]
    linarith
  have hd2 : (hllcWaves G d k k).Sr - (hllcWaves G d k k).vStar ≠ 0 := by
    rw [eSr, ev]
    linarith
  have den := (rl.add rr).continuousAt.eventually_ne hden
  have vs : Sim tripleErr (fun z : Triple np => (hllcWaves G d z.1 z.2.1).vStar) (fun z => z.2.2 (.mom d)) (k, k, k) := by
    have := (((((Sim.refl rl).mul (L (.mom d))).add ((Sim.refl rr).mul (R (.mom d)))).add (L .en)).sub (R .en)).div
      (Sim.refl (rl.add rr)) hden hden
    refine this.to ?_
    filter_upwards [den] with z hz
    rw [div_eq_iff hz]
    ring
  have ps : Sim tripleErr (fun z : Triple np => (hllcWaves G d z.1 z.2.1).PStar) (fun z => z.2.2 .en) (k, k, k) := by
    have := ((((Sim.refl rl).mul (R .en)).add ((Sim.refl rr).mul (L .en))).add (((Sim.refl rl).mul (Sim.refl rr)).mul
      ((L (.mom d)).sub (R (.mom d))))).div (Sim.refl (rl.add rr)) hden hden
    refine this.to ?_
    filter_upwards [den] with z hz
    rw [div_eq_iff hz]
    ring
  have n1 := (sl.sub vs.lip).continuousAt.eventually_ne hd1
  have n2 := (sr.sub vs.lip).continuousAt.eventually_ne hd2
  have hk1 : (hllcWaves G d k k).Sl - k (.mom d) ≠ 0 := by
    rw [eSl]
    linarith
  have hk2 : (hllcWaves G d k k).Sr - k (.mom d) ≠ 0 := by
    rw [eSr]
    linarith
  have n3 := (sl.sub vs.lip₀).continuousAt.eventually_ne hk1
  have n4 := (sr.sub vs.lip₀).continuousAt.eventually_ne hk2
  have rsl : Sim tripleErr (fun z : Triple np => (hllcWaves G d z.1 z.2.1).rStarL) (fun z => z.2.2 .rho) (k, k, k) := by
    have := ((L .rho).mul ((Sim.refl sl).sub (L (.mom d)))).div ((Sim.refl sl).sub vs) hd1 hk1
    refine this.to ?_
    filter_upwards [n3] with z hz
    rw [div_eq_iff hz]
  have rsr : Sim tripleErr (fun z : Triple np => (hllcWaves G d z.1 z.2.1).rStarR) (fun z => z.2.2 .rho) (k, k, k) := by
    have := ((R .rho).mul ((Sim.refl sr).sub (R (.mom d)))).div ((Sim.refl sr).sub vs) hd2 hk2
    refine this.to ?_
    filter_upwards [n4] with z hz
    rw [div_eq_iff hz]
  have esl : Sim tripleErr (fun z : Triple np => (hllcWaves G d z.1 z.2.1).EStarL)
      (fun z => computeConservatives G.gamma z.2.2 .en) (k, k, k) := by
    have := (((((Sim.refl sl).sub (L (.mom d))).mul u1).sub ((L .en).mul (L (.mom d)))).add (ps.mul vs)).div
      ((Sim.refl sl).sub vs) hd1 hk1
    refine this.to ?_
    filter_upwards [n3] with z hz
    rw [div_eq_iff hz]
    ring
  have esr : Sim tripleErr (fun z : Triple np => (hllcWaves G d z.1 z.2.1).EStarR)
      (fun z => computeConservatives G.gamma z.2.2 .en) (k, k, k) := by
    have := (((((Sim.refl sr).sub (R (.mom d))).mul u2).sub ((R .en).mul (R (.mom d)))).add (ps.mul vs)).div
      ((Sim.refl sr).sub vs) hd2 hk2
    refine this.to ?_
    filter_upwards [n4] with z hz
    rw [div_eq_iff hz]
    ring
  have side : ∀ (t : Bool) v, Sim tripleErr (fun z : Triple np => if t = true then z.1 v else z.2.1 v) (fun z => z.2.2 v) (k, k, k) := by
    intro t v
    cases t
    · exact R v
    · exact L v
  -- the branches and their conserved variables
  have branch : ∀ j, Sim tripleErr (fun z : Triple np => hllcBranch G d j z.1 z.2.1 v) (fun z => eulerFlux G.gamma d z.2.2 v) (k, k, k) := by
    intro j
    have r := sim_pick j.1 (L .rho) rsl rsr (R .rho)
    have v' := sim_pick j.1 (L (.mom d)) vs vs (R (.mom d))
    have P := sim_pick j.1 (L .en) ps ps (R .en)
    have E := sim_pick j.1 u1 esl esr u2
    cases v with
    | rho => exact r.mul v'
    | mom e =>
      simp only [hllcBranch, eulerFlux]
      by_cases he : e = d
      · simp only [if_pos he]
        subst he
        exact ((r.mul v').mul v').add P
      · simp only [if_neg he, add_zero]
        exact (r.mul v').mul (side j.2 (.mom e))
    | en =>
      have := v'.mul (E.add P)
      refine this.to (Eventually.of_forall fun z => ?_)
      simp only [eulerFlux, computeConservatives, totalEnergy, sum3]
      ring
    | ps i => exact (r.mul v').mul (side j.2 (.ps i))
  have cons : ∀ j, Sim tripleErr (fun z : Triple np => hllcCons G d j z.1 z.2.1 v)
      (fun z => computeConservatives G.gamma z.2.2 v) (k, k, k) := by
    intro j
    have r := sim_pick j.1 (L .rho) rsl rsr (R .rho)
    have v' := sim_pick j.1 (L (.mom d)) vs vs (R (.mom d))
    have E := sim_pick j.1 u1 esl esr u2
    cases v with
    | rho => exact r
    | mom e =>
      simp only [hllcCons, computeConservatives]
      by_cases he : e = d
      · simp only [if_pos he]
        subst he
        exact r.mul v'
      · simp only [if_neg he]
        exact r.mul (side j.2 (.mom e))
    | en => exact E
    | ps i => exact r.mul (side j.2 (.ps i))
  have jump : ∀ j j', ErrAt tripleErr (fun z : Triple np => hllcCons G d j z.1 z.2.1 v - hllcCons G d j' z.1 z.2.1 v) (k, k, k) ∧
      LipAt (fun z : Triple np => hllcCons G d j z.1 z.2.1 v - hllcCons G d j' z.1 z.2.1 v) (k, k, k) := by
    intro j j'
    have := (cons j).sub (cons j')
    exact ⟨this.err.congr (Eventually.of_forall fun z => by ring), this.lip⟩
  have jumps := (den.and (n1.and n2)).mono fun z h => hllc_jumps G d z.1 z.2.1 h.1 h.2.1 h.2.2 v
  -- the solver near the state
  have nested := ((c1.continuousAt.eventually (lt_mem_nhds hc)).and (c2.continuousAt.eventually (lt_mem_nhds hc))).mono
    fun z h => hllc_nested G d z.1 z.2.1 h.1 h.2 v
  have cSl := sl.continuousAt
  have cSr := sr.continuousAt
  have cv := vs.lip.continuousAt
  by_cases hR : 0 < (hllcWaves G d k k).Sr
  · -- the right state is not used
    have m3 := cSr.eventually (lt_mem_nhds hR)
    have I2 : Sim tripleErr (fun z : Triple np => if (hllcWaves G d z.1 z.2.1).vStar > 0 then hllcBranch G d (1, true) z.1 z.2.1 v
        else hllcBranch G d (2, false) z.1 z.2.1 v) (fun z => eulerFlux G.gamma d z.2.2 v) (k, k, k) :=
      Sim.glue vs.lip (branch _) (jump (1, true) (2, false)).1 (jump (1, true) (2, false)).2 (jumps.mono fun z hz => hz.2.1)
    by_cases hL : (hllcWaves G d k k).Sl < 0
    · refine I2.of ?_
      filter_upwards [m3, cSl.eventually (gt_mem_nhds hL), nested] with z h3 h1 h
      rw [h, if_neg (not_lt.2 h1.le), if_pos h3]
    · have hv : 0 < (hllcWaves G d k k).vStar := by
        rw [ev]
        rw [eSl] at hL
        linarith
      have I1 := Sim.glue (g := fun z : Triple np => (hllcWaves G d z.1 z.2.1).Sl) sl (branch (1, true)) (jump (0, true) (1, true)).1
        (jump (0, true) (1, true)).2 (B₀ := fun z : Triple np => hllcBranch G d (0, true) z.1 z.2.1 v) (jumps.mono fun z hz => hz.1)
      refine I1.of ?_
      filter_upwards [cv.eventually (lt_mem_nhds hv), nested] with z h2 h
      rw [h, if_pos h2]
  · have hv : (hllcWaves G d k k).vStar < 0 := by
      rw [ev]
      rw [eSr] at hR
      linarith
    have hL : (hllcWaves G d k k).Sl < 0 := by
      rw [eSl]
      rw [eSr] at hR
      linarith
    have I3 := Sim.glue (g := fun z : Triple np => (hllcWaves G d z.1 z.2.1).Sr) sr (branch (3, false)) (jump (2, false) (3, false)).1
      (jump (2, false) (3, false)).2 (B₀ := fun z : Triple np => hllcBranch G d (2, false) z.1 z.2.1 v) (jumps.mono fun z hz => hz.2.2)
    refine I3.of ?_
    filter_upwards [cv.eventually (gt_mem_nhds hv), cSl.eventually (gt_mem_nhds hL), nested] with z h2 h1 h
    rw [h, if_neg (not_lt.2 h1.le), if_neg (not_lt.2 h2.le)]

theorem riemann_sim (r : RiemannKind) (G : Gas ℝ) (hs : IsSqrt G.sqrt) (hg : 0 < G.gamma) (d : Fin 3) {k : State ℝ np}
    (hk : PosGas k) (hreg : Regular r d k) (v : Var np) :
    Sim tripleErr (fun z : Triple np => riemann r G d z.1 z.2.1 v) (fun z => targetFlux r G.gamma d z.2.2 v) (k, k, k) := by
  cases r with
  | advectionUpwind => exact upwind_sim G d (hreg rfl) v
  | llf => exact llf_sim G hs hg d hk v
  | hllc => exact hllc_sim G hs hg d hk v

end

end FVHOE
