import Verif.Proofs.FlowChain

/-!
C93 (order of accuracy for the full equations): for a smooth flow of varying density, velocity and pressure the
right-hand side differs from the exact rate of change of the cell averages by a constant times `r ^ (q + 1) / h`, where
`r` is the radius of the stencil and `q` the smallest degree.
-/

set_option linter.unusedSectionVars false

namespace FVHOE

open MeasureTheory Set

variable {np : ℕ}

/-- The primitive variables of the flow have `n` continuous derivatives. -/
def SmoothState (n : ℕ) (w : (Fin 3 → ℝ) → State ℝ np) : Prop := ∀ v, ContDiff ℝ n fun x => w x v

/-- The divergence of the flux of variable `v`. -/
noncomputable def fluxDiv (k : RiemannKind) (gamma : ℝ) (w : (Fin 3 → ℝ) → State ℝ np) (v : Var np) (x : Fin 3 → ℝ) : ℝ :=
  ∑ d, partialD d (fun x => targetFlux k gamma d (w x) v) x

/-! ### Smoothness -/

section

variable {E : Type*} [NormedAddCommGroup E] [NormedSpace ℝ E] {W : E → State ℝ np} {n : WithTop ℕ∞}

theorem smooth_conserved (gamma : ℝ) (h : ∀ v, ContDiff ℝ n fun x => W x v) (v : Var np) :
    ContDiff ℝ n fun x => conserved gamma (W x) v := by
  cases v with
  | rho => exact h .rho
  | mom d => exact (h .rho).mul (h (.mom d))
  | en =>
    simp only [conserved, totalEnergy]
    exact ((h .en).div_const _).add
      (((h .rho).mul ((((h (.mom 0)).pow 2).add ((h (.mom 1)).pow 2)).add ((h (.mom 2)).pow 2))).div_const _)
  | ps j => exact (h .rho).mul (h (.ps j))

theorem smooth_target (k : RiemannKind) (gamma : ℝ) (d : Fin 3) (h : ∀ v, ContDiff ℝ n fun x => W x v) (v : Var np) :
    ContDiff ℝ n fun x => targetFlux k gamma d (W x) v := by
  have hu := smooth_conserved gamma h
  have he : ContDiff ℝ n fun x => eulerFlux gamma d (W x) v := by
    cases v with
    | rho => exact (h .rho).mul (h _)
    | mom e =>
      simp only [eulerFlux]
      by_cases hed : e = d
      · simp only [if_pos hed]
        exact (((h .rho).mul (h _)).mul (h _)).add (h .en)
      · simp only [if_neg hed]
        exact (((h .rho).mul (h _)).mul (h _)).add contDiff_const
    | en => exact (h _).mul ((hu .en).add (h .en))
    | ps j => exact ((h .rho).mul (h _)).mul (h _)
  cases k with
  | advectionUpwind => exact (h _).mul (hu v)
  | llf => exact he
  | hllc => exact he

end

theorem prim_conserved (gamma : ℝ) (hg : gamma ≠ 1) (w : State ℝ np) (hw : w .rho ≠ 0) :
    computePrimitives gamma (conserved gamma w) = w := by
  have hg : gamma - 1 ≠ 0 := sub_ne_zero.2 hg
  funext i
  cases i <;> simp [computePrimitives, conserved, totalEnergy, sum3] <;> field_simp
  ring

/-! ### C93 -/

/-- What the mesh has to do with the flow: the settings, the degrees, the directions along which the flow varies. -/
structure Suits (c : EulerConfig ℝ np) (G : Gas ℝ) (k : RiemannKind) (q : ℕ) (w : (Fin 3 → ℝ) → State ℝ np) : Prop where
  setup : TransportSetup c
  gas : c.gas = G
  riem : c.riem = k
  degrees : ∀ d, c.scheme.active d = true → q ≤ c.p d
  depends : ∀ v, DependsOn c.scheme.active fun x => w x v

/-- **C93** Let `w` be a flow with `q + 1` continuous derivatives and with positive density and pressure on the compact
region `Ω`. There are constants `C` and `r₀` such that, on every mesh whose active degrees are at least `q` and at every
cell whose stencil lies in `Ω` and has a radius `r ≤ r₀`: if the state, continued beyond the boundaries, holds the cell
averages of the conserved variables within reach, then the right-hand side succeeds and in every variable differs from
minus the cell average of the divergence of the flux by at most `C Σ_d r ^ (q + 1) / h_d` over the active directions. -/
theorem C93_order (G : Gas ℝ) (hs : IsSqrt G.sqrt) (hg : 0 < G.gamma) (k : RiemannKind) (q : ℕ)
    (w : (Fin 3 → ℝ) → State ℝ np) (hw : SmoothState (q + 1) w) (Ω : Set (Fin 3 → ℝ)) (hΩ : IsCompact Ω)
    (hpos : ∀ x ∈ Ω, 0 < w x .rho ∧ 0 < w x .en) :
    ∃ C ≥ 0, ∃ r₀ > 0, ∀ c : EulerConfig ℝ np, Suits c G k q w → ∀ (x₀ : Fin 3 → ℝ) (i : Ix), InCells c.n i →
      stencilBox c x₀ i ⊆ Ω → ∀ r, 0 ≤ r → r ≤ r₀ →
      (∀ d, c.scheme.active d = true → (reach c.scheme d + 1 / 2) * c.h d ≤ r) →
      ∀ (t t' : ℝ) (gl gr : Fin 3 → Ghost (State ℝ np)), Sides c.scheme (fluxWidth c.scheme c.p) t gl gr →
      ∀ u U : Ix → State ℝ np, (∀ j, InCells c.n j → u j = U j) →
      (∀ j : Ix, (∀ d, |j d - i d| ≤ reach c.scheme d) → ∀ v,
        extAll c.n gl gr U j v = cellMean x₀ c.h (fun x => conserved G.gamma (w x) v) j) →
      ∀ (junk : ℕ → Ix → State ℝ np) (mem : Fin 3 → Ix → State ℝ np),
      ∃ dt D, solverRHS c.scheme junk mem t t' u = .ok (dt, D) ∧ ∀ v,
        |D i v - -cellMean x₀ c.h (fluxDiv k G.gamma w v) i| ≤
          C * ∑ d, if c.scheme.active d = true then r ^ (q + 1) / c.h d else 0 := by
  -- bounds of the derivatives
  have bound : ∀ f : (Fin 3 → ℝ) → ℝ, ContDiff ℝ (q + 1 : ℕ) f → ∃ M, ∀ x ∈ Ω, ‖iteratedFDeriv ℝ (q + 1) f x‖ ≤ M :=
    fun f hf => hΩ.exists_bound_of_continuousOn (hf.continuous_iteratedFDeriv (m := q + 1) le_rfl).continuousOn
  have hu := smooth_conserved G.gamma hw
  have hF := fun d => smooth_target k G.gamma d hw
  choose M₁ hM₁ using fun v => bound _ (hu v)
  choose M₂ hM₂ using fun v => bound _ (hw v)
  choose M₃ hM₃ using fun (z : Fin 3 × Var np) => bound _ (hF z.1 z.2)
  obtain ⟨M, hM⟩ : ∃ M, M = ∑ v, |M₁ v| + ∑ v, |M₂ v| + ∑ z, |M₃ z| := ⟨_, rfl⟩
  have p1 : 0 ≤ ∑ v, |M₁ v| := Finset.sum_nonneg fun _ _ => abs_nonneg _
  have p2 : 0 ≤ ∑ v, |M₂ v| := Finset.sum_nonneg fun _ _ => abs_nonneg _
  have p3 : 0 ≤ ∑ z, |M₃ z| := Finset.sum_nonneg fun _ _ => abs_nonneg _
  have hM0 : 0 ≤ M := by rw [hM]; positivity
  have m1 : ∀ v, M₁ v ≤ M := fun v => by
    have := Finset.single_le_sum (f := fun v => |M₁ v|) (fun _ _ => abs_nonneg _) (Finset.mem_univ v)
    have := le_abs_self (M₁ v)
    rw [hM]
    linarith
  have m2 : ∀ v, M₂ v ≤ M := fun v => by
    have := Finset.single_le_sum (f := fun v => |M₂ v|) (fun _ _ => abs_nonneg _) (Finset.mem_univ v)
    have := le_abs_self (M₂ v)
    rw [hM]
    linarith
  have m3 : ∀ z, M₃ z ≤ M := fun z => by
    have := Finset.single_le_sum (f := fun v => |M₃ v|) (fun _ _ => abs_nonneg _) (Finset.mem_univ z)
    have := le_abs_self (M₃ z)
    rw [hM]
    linarith
  -- the gas dynamics on the states that occur
  have cw : Continuous w := continuous_pi fun v => (hw v).continuous
  have cu : Continuous fun x => conserved G.gamma (w x) := continuous_pi fun v => (hu v).continuous
  obtain ⟨δ, hδ, L, hL, HP⟩ := lipAt_uniform (hΩ.image cu) (Φ := computePrimitives G.gamma) (by
    rintro _ ⟨x, hx, rfl⟩
    exact lip_prim G.gamma (hpos x hx).1.ne')
  have HR := fun d => riemann_consistent_lip k G hs hg d (hΩ.image cw) (by
    rintro _ ⟨x, hx, rfl⟩
    exact hpos x hx)
  choose δ' hδ' L' hL' HR using HR
  obtain ⟨δ₁, hδ₁, hle⟩ : ∃ δ₁ > 0, ∀ d, δ₁ ≤ δ' d := by
    refine ⟨min (δ' 0) (min (δ' 1) (δ' 2)), lt_min (hδ' 0) (lt_min (hδ' 1) (hδ' 2)), fun d => ?_⟩
    match d with
    | 0 => exact min_le_left _ _
    | 1 => exact (min_le_right _ _).trans (min_le_left _ _)
    | 2 => exact (min_le_right _ _).trans (min_le_right _ _)
  have hL1 : ∀ d, L' d ≤ ∑ d, L' d := fun d => Finset.single_le_sum (fun d _ => hL' d) (Finset.mem_univ d)
  obtain ⟨L₁, hL₁⟩ : ∃ L₁, L₁ = ∑ d, L' d := ⟨_, rfl⟩
  have hL₁0 : 0 ≤ L₁ := by rw [hL₁]; exact Finset.sum_nonneg fun d _ => hL' d
  rw [← hL₁] at hL1
  -- the constants
  obtain ⟨B, hB⟩ : ∃ B, B = M / (q + 1).factorial := ⟨_, rfl⟩
  have hB0 : 0 ≤ B := by rw [hB]; positivity
  refine ⟨2 * (2 * (L₁ * (16 * L + 5) + 1) + 1) * B, by positivity,
    min 1 (min (δ / (4 * B + 1)) (δ₁ / ((16 * L + 5) * B + 1))), by positivity, ?_⟩
  intro c hS x₀ i hi hsub r hr0 hr hrad t t' gl gr hSd u U huU hext junk mem
  have hc := hS.setup
  have hr1 : r ^ (q + 1) ≤ r := by
    have := pow_le_pow_of_le_one hr0 (hr.trans (min_le_left _ _)) (show 1 ≤ q + 1 by omega)
    simpa using this
  obtain ⟨τ, hτ⟩ : ∃ τ, τ = B * r ^ (q + 1) := ⟨_, rfl⟩
  have hτ0 : 0 ≤ τ := by rw [hτ]; positivity
  have hτr : τ ≤ B * r := by rw [hτ]; exact mul_le_mul_of_nonneg_left hr1 hB0
  have t1 : 4 * τ ≤ δ := by
    have h1 : r ≤ δ / (4 * B + 1) := hr.trans ((min_le_right _ _).trans (min_le_left _ _))
    rw [le_div_iff₀ (by positivity)] at h1
    nlinarith
  have t2 : (16 * L + 5) * τ ≤ δ₁ := by
    have h1 : r ≤ δ₁ / ((16 * L + 5) * B + 1) := hr.trans ((min_le_right _ _).trans (min_le_right _ _))
    rw [le_div_iff₀ (by positivity)] at h1
    have : (16 * L + 5) * τ ≤ (16 * L + 5) * (B * r) := mul_le_mul_of_nonneg_left hτr (by positivity)
    nlinarith
  -- polynomials
  have approx : ∀ f : (Fin 3 → ℝ) → ℝ, ContDiff ℝ (q + 1 : ℕ) f → (∀ x ∈ Ω, ‖iteratedFDeriv ℝ (q + 1) f x‖ ≤ M) →
      DependsOn c.scheme.active f → Approx c x₀ i τ f := by
    intro f hf hMf hdf
    have := exists_density hf c.scheme.active hdf c.p hS.degrees (fun d => x₀ d + ((i d : ℝ) + 1 / 2) * c.h d)
      (fun d => (reach c.scheme d + 1 / 2) * c.h d) M r (fun d => mul_nonneg (by positivity) (hc.spacing d).le) hrad hr0
      (fun x hx => hMf x (hsub hx))
    obtain ⟨R, hR, hε⟩ := this
    refine ⟨R, hR, fun x hx => (hε x hx).trans (le_of_eq ?_)⟩
    rw [hτ, hB]
    ring
  have hwe : ∀ x y : Fin 3 → ℝ, (∀ d, c.scheme.active d = true → x d = y d) → w x = w y :=
    fun x y hxy => funext fun v => hS.depends v x y hxy
  have du : ∀ v, DependsOn c.scheme.active fun x => conserved G.gamma (w x) v := fun v x y hxy => by
    beta_reduce
    rw [hwe x y hxy]
  have dF : ∀ d v, DependsOn c.scheme.active fun x => targetFlux k G.gamma d (w x) v := fun d v x y hxy => by
    beta_reduce
    rw [hwe x y hxy]
  -- the fluxes
  have eG := hS.gas
  have eK := hS.riem
  have flux : ∀ d, c.scheme.active d = true → ∀ y : ℤ, y = 0 ∨ y = 1 → ∀ v,
      |latFlux ℝ (riemann c.riem c.gas d) c.p none d (latPrim ℝ (computePrimitives c.gas.gamma) c.p (extAll c.n gl gr U))
        (i + Pi.single d y) v - faceMean x₀ c.h d (fun x => targetFlux k G.gamma d (w x) v) (i + Pi.single d y)| ≤
        (2 * (L₁ * (16 * L + 5) + 1) + 1) * τ := by
    intro d hd y hy v
    refine flux_close hc (w := w) (g := fun x => targetFlux k G.gamma d (w x)) hd hτ0 ?_ ?_ ?_ ?_ ?_ hL hL₁0 (δ := δ)
      (δ' := δ₁) ?_ ?_ t1 t2 _ ?_ y hy v
    · rw [eG]
      exact fun v => (hu v).continuous
    · exact fun v => (hF d v).continuous
    · rw [eG]
      exact fun v => approx _ (hu v) (fun x hx => (hM₁ v x hx).trans (m1 v)) (du v)
    · exact fun v => approx _ (hw v) (fun x hx => (hM₂ v x hx).trans (m2 v)) (hS.depends v)
    · exact fun v => approx _ (hF d v) (fun x hx => (hM₃ (d, v) x hx).trans (m3 (d, v))) (dF d v)
    · rw [eG]
      intro x hx s hsd
      have := HP _ ⟨x, hsub hx, rfl⟩ s hsd
      rwa [prim_conserved G.gamma (by rw [← eG]; exact hc.gamma) (w x) (hpos x (hsub hx)).1.ne'] at this
    · rw [eG, eK]
      intro x hx a b ha hb
      refine (HR d _ ⟨x, hsub hx, rfl⟩ a b (ha.trans (hle d)) (hb.trans (hle d))).trans ?_
      exact mul_le_mul_of_nonneg_right (hL1 d) (le_max_of_le_left dist_nonneg)
    · rw [eG]
      exact hext
  -- the right-hand side
  obtain ⟨dt, _, e⟩ := rhs_spec c.scheme hc.unlimited hc.degree hc.cells t gl gr hSd junk mem t' u U huU
  refine ⟨dt, _, e, fun v => ?_⟩
  have hcd : ∀ d, ContDiff ℝ 1 fun x => targetFlux k G.gamma d (w x) v := fun d =>
    (hF d v).of_le (by norm_cast; omega)
  have exact_rate : cellMean x₀ c.h (fluxDiv k G.gamma w v) i = ∑ d, if c.scheme.active d = true then
      1 / c.h d * (faceMean x₀ c.h d (fun x => targetFlux k G.gamma d (w x) v) (i + Pi.single d 1) -
        faceMean x₀ c.h d (fun x => targetFlux k G.gamma d (w x) v) i) else 0 := by
    have e1 : cellMean x₀ c.h (fluxDiv k G.gamma w v) i =
        ∑ d, cellMean x₀ c.h (partialD d fun x => targetFlux k G.gamma d (w x) v) i := by
      unfold fluxDiv
      simp only [cellMean_eq _ _ hc.spacing]
      rw [integral_finsetSum, Finset.mul_sum]
      intro d _
      refine Continuous.integrableOn_Icc ?_
      unfold partialD
      exact ((hcd d).continuous_fderiv (by norm_num)).clm_apply continuous_const
    rw [e1]
    refine Finset.sum_congr rfl fun d _ => ?_
    by_cases hd : c.scheme.active d = true
    · rw [if_pos hd, cellMean_partialD x₀ c.h hc.spacing d (hcd d)]
    · rw [if_neg hd]
      have : partialD d (fun x => targetFlux k G.gamma d (w x) v) = fun _ => 0 := funext fun x =>
        (dF d v).partialD_zero ((hcd d).differentiable (by norm_num)) d (by simpa using hd) x
      rw [this, cellMean_eq _ _ hc.spacing]
      simp
  rw [exact_rate]
  rw [if_pos (show InCells c.scheme.n i from hi)]
  unfold latDiv
  rw [Finset.sum_apply, sub_neg_eq_add, ← Finset.sum_add_distrib, Finset.mul_sum]
  refine (Finset.abs_sum_le_sum_abs _ _).trans (Finset.sum_le_sum fun d _ => ?_)
  by_cases hd : c.scheme.active d = true
  · rw [if_pos hd, if_pos hd, if_pos hd]
    have f1 := flux d hd 1 (Or.inr rfl) v
    have f0 := flux d hd 0 (Or.inl rfl) v
    rw [Pi.single_zero, add_zero] at f0
    change |((-(1 / c.h d)) • (latFlux ℝ (riemann c.riem c.gas d) c.p none d (latPrim ℝ (computePrimitives c.gas.gamma) c.p
      (extAll c.n gl gr U)) (i + Pi.single d 1) - latFlux ℝ (riemann c.riem c.gas d) c.p none d
      (latPrim ℝ (computePrimitives c.gas.gamma) c.p (extAll c.n gl gr U)) i)) v + _| ≤ _
    rw [Pi.smul_apply, Pi.sub_apply, smul_eq_mul]
    have hp := hc.spacing d
    generalize latFlux ℝ (riemann c.riem c.gas d) c.p none d (latPrim ℝ (computePrimitives c.gas.gamma) c.p
      (extAll c.n gl gr U)) (i + Pi.single d 1) v = a1 at f1 ⊢
    generalize latFlux ℝ (riemann c.riem c.gas d) c.p none d (latPrim ℝ (computePrimitives c.gas.gamma) c.p
      (extAll c.n gl gr U)) i v = a0 at f0 ⊢
    generalize faceMean x₀ c.h d (fun x => targetFlux k G.gamma d (w x) v) (i + Pi.single d 1) = b1 at f1 ⊢
    generalize faceMean x₀ c.h d (fun x => targetFlux k G.gamma d (w x) v) i = b0 at f0 ⊢
    have e3 : -(1 / c.h d) * (a1 - a0) + 1 / c.h d * (b1 - b0) = ((a0 - b0) - (a1 - b1)) / c.h d := by
      field_simp
      ring
    rw [e3, abs_div, abs_of_pos hp, hτ] at *
    rw [← mul_div_assoc]
    refine div_le_div_of_nonneg_right ((abs_sub _ _).trans ?_) hp.le
    linarith
  · rw [if_neg hd, if_neg hd, if_neg hd]
    simp

/-! ### A periodic box -/

/-- The box of lengths `ℓ` is filled by the cells. -/
def FillsBox (c : EulerConfig ℝ np) (ℓ : Fin 3 → ℝ) : Prop := ∀ d, (c.n d : ℝ) * c.h d = ℓ d

theorem stencil_in_box (c : EulerConfig ℝ np) (hc : TransportSetup c) (x₀ ℓ : Fin 3 → ℝ) (hf : FillsBox c ℓ) {i : Ix}
    (hi : InCells c.n i) {r : ℝ} (hr : r ≤ 1) (hrad : ∀ d, c.scheme.active d = true → (reach c.scheme d + 1 / 2) * c.h d ≤ r) :
    stencilBox c x₀ i ⊆ Icc (fun d => x₀ d - 1) (fun d => x₀ d + ℓ d + 1) := by
  have key : ∀ x ∈ stencilBox c x₀ i, ∀ d, x₀ d - 1 ≤ x d ∧ x d ≤ x₀ d + ℓ d + 1 := by
    intro x hx d
    have h1 := hx d
    have h2 : (0 : ℝ) ≤ i d := by exact_mod_cast (hi d).1
    have h3 : (i d : ℝ) + 1 ≤ c.n d := by
      have : i d + 1 ≤ (c.n d : ℤ) := (hi d).2
      exact_mod_cast this
    have h4 := hc.spacing d
    have h5 : (reach c.scheme d : ℝ) * c.h d ≤ 1 := by
      by_cases hd : c.scheme.active d = true
      · have := hrad d hd
        nlinarith
      · have : reach c.scheme d = 0 := by
          unfold reach
          rw [if_neg hd]
        rw [this]
        simp
    rw [← hf d]
    rw [abs_le] at h1
    constructor <;> nlinarith [mul_nonneg h2 h4.le, mul_le_mul_of_nonneg_right h3 h4.le]
  exact fun x hx => ⟨fun d => (key x hx d).1, fun d => (key x hx d).2⟩

/-- **C93** in a periodic box, for all cells at once: the constants depend on the flow and on the box, not on the mesh. -/
theorem C93_periodic (G : Gas ℝ) (hs : IsSqrt G.sqrt) (hg : 0 < G.gamma) (k : RiemannKind) (q : ℕ)
    (w : (Fin 3 → ℝ) → State ℝ np) (hw : SmoothState (q + 1) w) (hpos : ∀ x, 0 < w x .rho ∧ 0 < w x .en) (x₀ ℓ : Fin 3 → ℝ) :
    ∃ C ≥ 0, ∃ r₀ > 0, ∀ c : EulerConfig ℝ np, Suits c G k q w → FillsBox c ℓ → PeriodicBox c →
      (∀ v, PeriodicIn c fun x => w x v) → ∀ r, 0 ≤ r → r ≤ r₀ →
      (∀ d, c.scheme.active d = true → (reach c.scheme d + 1 / 2) * c.h d ≤ r) →
      ∀ (t t' : ℝ) (u : Ix → State ℝ np),
      (∀ j, InCells c.n j → ∀ v, u j v = cellMean x₀ c.h (fun x => conserved G.gamma (w x) v) j) →
      ∀ (junk : ℕ → Ix → State ℝ np) (mem : Fin 3 → Ix → State ℝ np),
      ∃ dt D, solverRHS c.scheme junk mem t t' u = .ok (dt, D) ∧ ∀ i, InCells c.n i → ∀ v,
        |D i v - -cellMean x₀ c.h (fluxDiv k G.gamma w v) i| ≤
          C * ∑ d, if c.scheme.active d = true then r ^ (q + 1) / c.h d else 0 := by
  obtain ⟨C, hC, r₀, hr₀, H⟩ := C93_order G hs hg k q w hw (Icc (fun d => x₀ d - 1) (fun d => x₀ d + ℓ d + 1)) isCompact_Icc
    (fun x _ => hpos x)
  refine ⟨C, hC, min 1 r₀, lt_min one_pos hr₀, ?_⟩
  intro c hS hf hb hper r hr0 hr hrad t t' u hu junk mem
  have hc := hS.setup
  have h0 : InCells c.n 0 := fun d => ⟨le_rfl, by have := hc.cells d; simp; omega⟩
  have hwe : ∀ x y, (∀ v, w x v = w y v) → w x = w y := fun x y h => funext h
  have hmean : ∀ v d (j : Ix), cellMean x₀ c.h (fun x => conserved G.gamma (w x) v) (j + Pi.single d (c.n d : ℤ)) =
      cellMean x₀ c.h (fun x => conserved G.gamma (w x) v) j := fun v d j =>
    periodic_means hc x₀ (fun x y hxy => by
      rw [hwe x y fun v => hS.depends v x y hxy]) (fun d hd x => by
      rw [hwe _ x fun v => hper v d hd x]) d j
  have hext : extAll c.n (fun _ => .wrap) (fun _ => .wrap)
      (fun j v => cellMean x₀ c.h (fun x => conserved G.gamma (w x) v) j) =
      fun j v => cellMean x₀ c.h (fun x => conserved G.gamma (w x) v) j := by
    rw [extAll_wrap c.n hc.cells]
    funext j v
    exact periodic_wrap c.n (cellMean x₀ c.h fun x => conserved G.gamma (w x) v) (hmean v) j
  have key := fun i hi => H c hS x₀ i hi (stencil_in_box c hc x₀ ℓ hf hi (hr.trans (min_le_left _ _)) hrad) r hr0
    (hr.trans (min_le_right _ _)) hrad t t' _ _ (hb.sides hc.cells t) u
    (fun j v => cellMean x₀ c.h (fun x => conserved G.gamma (w x) v) j) (fun j hj => funext fun v => hu j hj v)
    (fun j _ v => by rw [hext]) junk mem
  obtain ⟨dt, D, e, _⟩ := key 0 h0
  refine ⟨dt, D, e, fun i hi => ?_⟩
  obtain ⟨dt', D', e', h⟩ := key i hi
  rw [e] at e'
  cases e'
  exact h

/-! ### The exact rate -/

/-- A continuously differentiable solution of the equations: the conserved variables change by minus the divergence of
their fluxes. -/
structure FlowSolution (k : RiemannKind) (gamma : ℝ) (w : ℝ → (Fin 3 → ℝ) → State ℝ np) : Prop where
  smooth : ∀ v, ContDiff ℝ 1 fun z : ℝ × (Fin 3 → ℝ) => w z.1 z.2 v
  equation : ∀ s x v, deriv (fun s => conserved gamma (w s x) v) s = -fluxDiv k gamma (w s) v x

theorem partialD_slice {F : ℝ × (Fin 3 → ℝ) → ℝ} (hF : ContDiff ℝ 1 F) (d : Fin 3) (s : ℝ) (x : Fin 3 → ℝ) :
    partialD d (fun x => F (s, x)) x = fderiv ℝ F (s, x) (0, Pi.single d 1) := by
  have hd : HasFDerivAt F (fderiv ℝ F (s, x)) (s, x) := (hF.differentiable (by norm_num) _).hasFDerivAt
  have h1 : HasFDerivAt (fun x : Fin 3 → ℝ => (s, x)) (ContinuousLinearMap.inr ℝ ℝ (Fin 3 → ℝ)) x :=
    hasFDerivAt_prodMk_right s x
  have h2 := hd.comp x h1
  have e : (fun x => F (s, x)) = F ∘ fun x : Fin 3 → ℝ => (s, x) := rfl
  unfold partialD
  rw [e, h2.fderiv]
  rfl

/-- What C93 compares with is the rate at which the cell averages change when the gas moves by the equations. -/
theorem C93_exact_rate (k : RiemannKind) (gamma : ℝ) (w : ℝ → (Fin 3 → ℝ) → State ℝ np) (hw : FlowSolution k gamma w)
    (x₀ h : Fin 3 → ℝ) (hh : ∀ d, 0 < h d) (i : Ix) (v : Var np) (t : ℝ) :
    HasDerivAt (fun s => cellMean x₀ h (fun x => conserved gamma (w s x) v) i)
      (-cellMean x₀ h (fluxDiv k gamma (w t) v) i) t := by
  have hU : ContDiff ℝ 1 fun z : ℝ × (Fin 3 → ℝ) => conserved gamma (w z.1 z.2) v :=
    smooth_conserved (W := fun z : ℝ × (Fin 3 → ℝ) => w z.1 z.2) gamma hw.smooth v
  have hF : ∀ d, ContDiff ℝ 1 fun z : ℝ × (Fin 3 → ℝ) => targetFlux k gamma d (w z.1 z.2) v := fun d =>
    smooth_target (W := fun z : ℝ × (Fin 3 → ℝ) => w z.1 z.2) k gamma d hw.smooth v
  have hc' : Continuous fun z : ℝ × (Fin 3 → ℝ) => -fluxDiv k gamma (w z.1) v z.2 := by
    refine Continuous.neg ?_
    unfold fluxDiv
    refine continuous_finsetSum _ fun d _ => ?_
    have e : (fun z : ℝ × (Fin 3 → ℝ) => partialD d (fun x => targetFlux k gamma d (w z.1 x) v) z.2) =
        fun z => fderiv ℝ (fun z : ℝ × (Fin 3 → ℝ) => targetFlux k gamma d (w z.1 z.2) v) z (0, Pi.single d 1) :=
      funext fun z => partialD_slice (hF d) d z.1 z.2
    rw [e]
    exact ((hF d).continuous_fderiv (by norm_num)).clm_apply continuous_const
  obtain ⟨B, hB⟩ := ((isCompact_Icc (a := t - 1) (b := t + 1)).prod
    (isCompact_Icc (a := fun d => x₀ d + (i d : ℝ) * h d) (b := fun d => x₀ d + ((i d : ℝ) + 1) * h d))).exists_bound_of_continuousOn
      hc'.continuousOn
  have key := hasDerivAt_integral_of_dominated_loc_of_deriv_le (𝕜 := ℝ) (μ := volume.restrict (cellBox x₀ h i))
    (F := fun s y => conserved gamma (w s y) v) (F' := fun s y => -fluxDiv k gamma (w s) v y) (x₀ := t)
    (s := Icc (t - 1) (t + 1)) (bound := fun _ => B) (Icc_mem_nhds (by linarith) (by linarith))
    (Filter.Eventually.of_forall fun s => by
      have : Continuous fun y : Fin 3 → ℝ => conserved gamma (w s y) v :=
        hU.continuous.comp (f := fun y : Fin 3 → ℝ => (s, y)) (by fun_prop)
      exact this.aestronglyMeasurable)
    (by
      have : Continuous fun y : Fin 3 → ℝ => conserved gamma (w t y) v :=
        hU.continuous.comp (f := fun y : Fin 3 → ℝ => (t, y)) (by fun_prop)
      exact this.integrableOn_Icc)
    (by
      have : Continuous fun y : Fin 3 → ℝ => -fluxDiv k gamma (w t) v y :=
        hc'.comp (f := fun y : Fin 3 → ℝ => (t, y)) (by fun_prop)
      exact this.aestronglyMeasurable)
    ((ae_restrict_iff' measurableSet_Icc).2 (Filter.Eventually.of_forall fun y hy s hs => hB (s, y) ⟨hs, hy⟩))
    (by
      have : IntegrableOn (fun _ : Fin 3 → ℝ => B) (cellBox x₀ h i) := continuous_const.integrableOn_Icc
      exact this)
    (Filter.Eventually.of_forall fun y s _ => by
      have h1 : Differentiable ℝ fun s => conserved gamma (w s y) v :=
        (hU.differentiable (by norm_num)).comp (f := fun s : ℝ => (s, y)) (by fun_prop)
      have h2 := (h1 s).hasDerivAt
      rwa [hw.equation] at h2)
  have h2 := key.2.const_mul ((∏ d, h d)⁻¹)
  have e1 : (fun s : ℝ => cellMean x₀ h (fun y => conserved gamma (w s y) v) i) =
      fun s : ℝ => (∏ d, h d)⁻¹ * ∫ y in cellBox x₀ h i, conserved gamma (w s y) v := funext fun s => cellMean_eq _ _ hh _ _
  have e2 : -cellMean x₀ h (fluxDiv k gamma (w t) v) i =
      (∏ d, h d)⁻¹ * ∫ y in cellBox x₀ h i, -fluxDiv k gamma (w t) v y := by
    rw [cellMean_eq _ _ hh, integral_neg]
    ring
  rw [e1, e2]
  exact h2

/-! ### The hypotheses can be met -/

/-- A flow in which density, velocity, pressure and concentration vary. -/
noncomputable def wavyFlow (x : Fin 3 → ℝ) : State ℝ 1
  | .rho => 2 + Real.sin (x 0)
  | .mom _ => Real.sin (x 0)
  | .en => 2 + Real.cos (x 0)
  | .ps _ => Real.cos (x 0)

theorem wavyFlow_smooth (n : ℕ) : SmoothState n wavyFlow := by
  have h0 : ContDiff ℝ n fun x : Fin 3 → ℝ => x 0 := contDiff_apply ℝ ℝ (0 : Fin 3)
  intro v
  cases v with
  | rho => exact contDiff_const.add (Real.contDiff_sin.comp h0)
  | mom d => exact Real.contDiff_sin.comp h0
  | en => exact contDiff_const.add (Real.contDiff_cos.comp h0)
  | ps j => exact Real.contDiff_cos.comp h0

theorem wavyFlow_pos (x : Fin 3 → ℝ) : 0 < wavyFlow x .rho ∧ 0 < wavyFlow x .en := by
  have h1 := Real.neg_one_le_sin (x 0)
  have h2 := Real.neg_one_le_cos (x 0)
  constructor
  · change 0 < 2 + Real.sin (x 0)
    linarith
  · change 0 < 2 + Real.cos (x 0)
    linarith

/-- A periodic box of length `2π` with `N` cells along x, of degree 2, with a given solver. -/
noncomputable def wavyConfig (k : RiemannKind) (N : ℕ) : EulerConfig ℝ 1 where
  gas := airGas
  riem := k
  n := ![N, 1, 1]
  p := ![2, 0, 0]
  h := ![2 * Real.pi / N, 1, 1]
  cfl := 1 / 2
  fixedDt := none
  bc := ⟨fun _ _ => .periodic, fun _ _ => .other, none⟩
  limiting := none

/-- C93 applies to this flow on all fine enough meshes. -/
theorem wavy_suits (k : RiemannKind) (r₀ : ℝ) (hr₀ : 0 < r₀) : ∃ N : ℕ, Suits (wavyConfig k N) airGas k 2 wavyFlow ∧
    FillsBox (wavyConfig k N) ![2 * Real.pi, 1, 1] ∧ PeriodicBox (wavyConfig k N) ∧
    (∀ v, PeriodicIn (wavyConfig k N) fun x => wavyFlow x v) ∧ ∀ d, (wavyConfig k N).scheme.active d = true →
      (reach (wavyConfig k N).scheme d + 1 / 2) * (wavyConfig k N).h d ≤ r₀ := by
  have hpi := Real.pi_pos
  obtain ⟨N, hN⟩ := exists_nat_gt (9 * Real.pi / r₀ + 20)
  have hN20 : (20 : ℝ) ≤ N := by
    have : 0 < 9 * Real.pi / r₀ := by positivity
    linarith
  have hN20' : 20 ≤ N := by exact_mod_cast hN20
  have hN0 : (0 : ℝ) < N := by linarith
  have ha : ∀ d, (wavyConfig k N).scheme.active d = (![true, false, false] : Fin 3 → Bool) d := by
    intro d
    match d with
    | 0 =>
      change (!(N == 1 && (2 : ℕ) == 0)) = true
      simp
    | 1 => rfl
    | 2 => rfl
  have hp8 : ∀ d, (wavyConfig k N).p d ≤ 8 := by
    change ∀ d, (![2, 0, 0] : Fin 3 → ℕ) d ≤ 8
    decide
  have hdep : ∀ v, DependsOn (wavyConfig k N).scheme.active fun x => wavyFlow x v := by
    intro v x y hxy
    have h0 := hxy 0 (by rw [ha]; rfl)
    cases v <;> simp only [wavyFlow, h0]
  refine ⟨N, ⟨⟨rfl, hp8, ?_, ?_, ?_, fun _ => ⟨airGas_sqrt, ?_⟩⟩, rfl, rfl, ?_, hdep⟩, ?_, ⟨fun _ _ _ => rfl, ?_⟩, ?_, ?_⟩
  · intro d
    match d with
    | 0 => exact (by omega : 1 ≤ N)
    | 1 => exact le_rfl
    | 2 => exact le_rfl
  · intro d
    match d with
    | 0 => exact div_pos (by positivity) hN0
    | 1 => exact one_pos
    | 2 => exact one_pos
  · norm_num [wavyConfig, airGas]
  · norm_num [wavyConfig, airGas]
  · intro d hd
    match d with
    | 0 => exact le_rfl
    | 1 => rw [ha] at hd; exact absurd hd (by decide)
    | 2 => rw [ha] at hd; exact absurd hd (by decide)
  · intro d
    match d with
    | 0 =>
      change (N : ℝ) * (2 * Real.pi / N) = 2 * Real.pi
      field_simp
    | 1 =>
      change ((1 : ℕ) : ℝ) * 1 = 1
      norm_num
    | 2 =>
      change ((1 : ℕ) : ℝ) * 1 = 1
      norm_num
  · intro d hd
    match d with
    | 0 =>
      have : fluxWidth (wavyConfig k N).scheme (wavyConfig k N).p 0 ≤ 20 := by
        unfold fluxWidth
        rw [if_pos hd]
        change fluxGw ![2, 0, 0] + 2 * ceilHalf ((![2, 0, 0] : Fin 3 → ℕ) 0) ≤ 20
        decide
      exact this.trans hN20'
    | 1 => rw [ha] at hd; exact absurd hd (by decide)
    | 2 => rw [ha] at hd; exact absurd hd (by decide)
  · intro v d hd x
    match d with
    | 0 =>
      have e : (((wavyConfig k N).n 0 : ℕ) : ℝ) * (wavyConfig k N).h 0 = 2 * Real.pi := by
        change (N : ℝ) * (2 * Real.pi / N) = 2 * Real.pi
        field_simp
      rw [e]
      cases v <;> simp [wavyFlow]
    | 1 => rw [ha] at hd; exact absurd hd (by decide)
    | 2 => rw [ha] at hd; exact absurd hd (by decide)
  · intro d hd
    match d with
    | 0 =>
      have e : reach (wavyConfig k N).scheme 0 = 4 := by
        unfold reach
        rw [if_pos hd]
        change max (3 * ceilHalf ((![2, 0, 0] : Fin 3 → ℕ) 0) + 1) (4 * ceilHalf ((![2, 0, 0] : Fin 3 → ℕ) 0)) = 4
        decide
      rw [e]
      change ((4 : ℕ) + 1 / 2 : ℝ) * (2 * Real.pi / N) ≤ r₀
      have h1 : 9 * Real.pi / r₀ < N := by linarith
      rw [div_lt_iff₀ hr₀] at h1
      rw [mul_div_assoc', div_le_iff₀ hN0]
      push_cast
      linarith
    | 1 => rw [ha] at hd; exact absurd hd (by decide)
    | 2 => rw [ha] at hd; exact absurd hd (by decide)

/-- A gas moving along x at unit speed and pressure, of density `y`. -/
def contactState (y : ℝ) : State ℝ 1
  | .rho => y
  | .mom d => if d = 0 then 1 else 0
  | .en => 1
  | .ps _ => 1

/-- A wave of the density carried along x solves the equations. -/
example : FlowSolution .hllc (7 / 5) fun s (x : Fin 3 → ℝ) => contactState (2 + Real.sin (x 0 - s)) := by
  have hs : ContDiff ℝ 1 fun z : ℝ × (Fin 3 → ℝ) => 2 + Real.sin (z.2 0 - z.1) := by
    refine contDiff_const.add (Real.contDiff_sin.comp ?_)
    exact ((contDiff_apply ℝ ℝ (0 : Fin 3)).comp contDiff_snd).sub contDiff_fst
  refine ⟨fun v => ?_, fun s x v => ?_⟩
  · cases v with
    | rho => exact hs
    | mom d => exact contDiff_const
    | en => exact contDiff_const
    | ps j => exact contDiff_const
  · -- every flux is an affine function of the density
    have hx : ∀ (a b : ℝ) (d : Fin 3), partialD d (fun x : Fin 3 → ℝ => a * (2 + Real.sin (x 0 - s)) + b) x =
        if d = 0 then a * Real.cos (x 0 - s) else 0 := by
      intro a b d
      have h1 : HasFDerivAt (fun x : Fin 3 → ℝ => x 0 - s) (ContinuousLinearMap.proj (R := ℝ) (φ := fun _ : Fin 3 => ℝ) 0) x :=
        (hasFDerivAt_apply (𝕜 := ℝ) (F' := fun _ : Fin 3 => ℝ) (0 : Fin 3) x).sub_const s
      have h2 := ((h1.sin.const_add 2).const_mul a).add_const b
      unfold partialD
      rw [h2.fderiv]
      by_cases hd : d = 0
      · subst hd; simp
      · simp [hd]
    have ht : ∀ a b : ℝ, deriv (fun s : ℝ => a * (2 + Real.sin (x 0 - s)) + b) s = -(a * Real.cos (x 0 - s)) := by
      intro a b
      have h1 : HasDerivAt (fun s : ℝ => x 0 - s) (-1) s := (hasDerivAt_id s).const_sub (x 0)
      have h2 := ((h1.sin.const_add 2).const_mul a).add_const b
      rw [h2.deriv]
      ring
    obtain ⟨a, b, a', b', ha, hab, hab'⟩ : ∃ (a b : ℝ) (a' b' : Fin 3 → ℝ), a' 0 = a ∧
        (∀ y : ℝ, conserved (7 / 5) (contactState y) v = a * y + b) ∧
        ∀ d (y : ℝ), targetFlux .hllc (7 / 5) d (contactState y) v = a' d * y + b' d := by
      cases v with
      | rho =>
        refine ⟨1, 0, fun d => if d = 0 then 1 else 0, 0, rfl, fun y => ?_, fun d y => ?_⟩
        · simp [conserved, contactState]
        · simp [targetFlux, eulerFlux, contactState]
      | mom e =>
        refine ⟨if e = 0 then 1 else 0, 0, fun d => if d = 0 then if e = 0 then 1 else 0 else 0,
          fun d => if e = d then 1 else 0, rfl, fun y => ?_, fun d y => ?_⟩
        · simp [conserved, contactState]
        · simp only [targetFlux, eulerFlux, contactState]
          split_ifs <;> ring
      | en =>
        refine ⟨1 / 2, 5 / 2, fun d => if d = 0 then 1 / 2 else 0, fun d => if d = 0 then 7 / 2 else 0, rfl, fun y => ?_,
          fun d y => ?_⟩
        · simp [conserved, totalEnergy, contactState]
          ring
        · simp [targetFlux, eulerFlux, totalEnergy, contactState]
          split_ifs <;> ring
      | ps j =>
        refine ⟨1, 0, fun d => if d = 0 then 1 else 0, 0, rfl, fun y => ?_, fun d y => ?_⟩
        · simp [conserved, contactState]
        · simp [targetFlux, eulerFlux, contactState]
    simp only [hab, ht]
    unfold fluxDiv
    simp only [hab', hx]
    simp [ha]

end FVHOE
