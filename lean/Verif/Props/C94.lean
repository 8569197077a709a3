import Verif.Props.C93
import Verif.Proofs.FlowDiff

/-!
C94 (full order of accuracy for the full equations): for a smooth flow of varying density, velocity and pressure the
right-hand side differs from the exact rate of change of the cell averages by a constant times `r ^ (q + 1)`, where `r` is
the radius of the stencil and `q` the smallest degree. With upwind fluxes the velocity must not vanish.
-/

set_option linter.unusedSectionVars false

namespace FVHOE

open MeasureTheory Set

variable {np : ℕ}

/-- The stencil of a cell with the next cell in every active direction. -/
def wideBox (c : EulerConfig ℝ np) (x₀ : Fin 3 → ℝ) (i : Ix) : Set (Fin 3 → ℝ) :=
  {x | ∀ d, |x d - (x₀ d + ((i d : ℝ) + 1 / 2) * c.h d)| ≤
    (reach c.scheme d + if c.scheme.active d = true then 3 / 2 else 1 / 2) * c.h d}

/-! ### Lemmas -/

theorem wideBox_convex (c : EulerConfig ℝ np) (x₀ : Fin 3 → ℝ) (i : Ix) : Convex ℝ (wideBox c x₀ i) := by
  intro x hx y hy a b ha hb hab d
  have h1 := hx d
  have h2 := hy d
  rw [abs_le] at h1 h2 ⊢
  simp only [Pi.add_apply, Pi.smul_apply, smul_eq_mul]
  have e : a * x d + b * y d - (x₀ d + ((i d : ℝ) + 1 / 2) * c.h d) =
      a * (x d - (x₀ d + ((i d : ℝ) + 1 / 2) * c.h d)) + b * (y d - (x₀ d + ((i d : ℝ) + 1 / 2) * c.h d)) := by
    have : b = 1 - a := by linarith
    rw [this]
    ring
  rw [e]
  obtain ⟨A, hA⟩ : ∃ A, A = (reach c.scheme d + if c.scheme.active d = true then (3 : ℝ) / 2 else 1 / 2) * c.h d := ⟨_, rfl⟩
  rw [← hA] at h1 h2 ⊢
  have hb' : b = 1 - a := by linarith
  subst hb'
  constructor <;> nlinarith

theorem stencil_in_wide (c : EulerConfig ℝ np) (hh : ∀ d, 0 < c.h d) (x₀ : Fin 3 → ℝ) (i : Ix) {d : Fin 3}
    (hd : c.scheme.active d = true) {y : ℤ} (hy : y = 0 ∨ y = 1) : stencilBox c x₀ (i + Pi.single d y) ⊆ wideBox c x₀ i := by
  intro x hx e
  have h1 := hx e
  have hp := hh e
  have h3 : (1 : ℝ) / 2 ≤ if c.scheme.active e = true then (3 : ℝ) / 2 else 1 / 2 := by split_ifs <;> norm_num
  rcases eq_or_ne e d with rfl | he
  · rw [if_pos hd]
    rw [Pi.add_apply, Pi.single_eq_same] at h1
    push_cast at h1
    rw [abs_le] at h1 ⊢
    rcases hy with rfl | rfl
    · push_cast at h1
      constructor <;> nlinarith
    · push_cast at h1
      constructor <;> nlinarith
  · rw [Pi.add_apply, Pi.single_eq_of_ne he, add_zero] at h1
    refine h1.trans ?_
    nlinarith

theorem dif_le_of_fderiv {E : Type*} [NormedAddCommGroup E] [NormedSpace ℝ E] {F : (Fin 3 → ℝ) → E} (hF : Differentiable ℝ F)
    (c : EulerConfig ℝ np) (hh : ∀ d, 0 < c.h d) (x₀ : Fin 3 → ℝ) (i : Ix) {d : Fin 3} (hd : c.scheme.active d = true) {M : ℝ}
    (hM : ∀ x ∈ wideBox c x₀ i, ‖fderiv ℝ F x‖ ≤ M) {x : Fin 3 → ℝ} (hx : x ∈ stencilBox c x₀ i) :
    ‖F (x + Pi.single d (c.h d)) - F x‖ ≤ M * c.h d := by
  have m0 : x ∈ wideBox c x₀ i := by
    have := stencil_in_wide c hh x₀ i hd (y := 0) (Or.inl rfl)
    rw [Pi.single_zero, add_zero] at this
    exact this hx
  have m1 : x + Pi.single d (c.h d) ∈ wideBox c x₀ i := by
    refine stencil_in_wide c hh x₀ i hd (y := 1) (Or.inr rfl) ?_
    intro e
    have := hx e
    rcases eq_or_ne e d with rfl | he
    · simp only [Pi.add_apply, Pi.single_eq_same]
      push_cast
      have e1 : x e + c.h e - (x₀ e + ((i e : ℝ) + 1 + 1 / 2) * c.h e) = x e - (x₀ e + ((i e : ℝ) + 1 / 2) * c.h e) := by ring
      rw [e1]
      exact this
    · simpa [he] using this
  have := Convex.norm_image_sub_le_of_norm_fderiv_le (𝕜 := ℝ) (fun z _ => hF z) hM (wideBox_convex c x₀ i) m0 m1
  rw [add_sub_cancel_left, Pi.norm_single, Real.norm_eq_abs, abs_of_pos (hh d)] at this
  exact this

theorem approx_dif {c : EulerConfig ℝ np} (hc : TransportSetup c) {x₀ : Fin 3 → ℝ} {i : Ix} {q : ℕ} {f : (Fin 3 → ℝ) → ℝ}
    (hf : ContDiff ℝ (q + 2 : ℕ) f) (hdep : DependsOn c.scheme.active f) (hq : ∀ d, c.scheme.active d = true → q ≤ c.p d)
    {d : Fin 3} (hd : c.scheme.active d = true) {M r : ℝ} (hr0 : 0 ≤ r)
    (hrad : ∀ d, c.scheme.active d = true → (reach c.scheme d + 1 / 2) * c.h d ≤ r)
    (hM : ∀ x ∈ wideBox c x₀ i, ‖iteratedFDeriv ℝ (q + 2) f x‖ ≤ M) :
    Approx c x₀ i (M / (q + 1).factorial * r ^ (q + 1) * c.h d) (difAt d (c.h d) f) := by
  have hf1 : ContDiff ℝ (q + 1 : ℕ) f := hf.of_le (by norm_cast; omega)
  have hs1 : ContDiff ℝ (q + 1 : ℕ) fun x : Fin 3 → ℝ => f (x + Pi.single d (c.h d)) := hf1.comp (contDiff_id.add contDiff_const)
  have hdf : ContDiff ℝ (q + 1 : ℕ) (difAt d (c.h d) f) := hs1.sub hf1
  have hdep' : ∀ x y : Fin 3 → ℝ, (∀ e, c.scheme.active e = true → x e = y e) → difAt d (c.h d) f x = difAt d (c.h d) f y := by
    intro x y hxy
    unfold difAt
    have h1 : f (x + Pi.single d (c.h d)) = f (y + Pi.single d (c.h d)) := hdep _ _ fun e he => by
      rw [Pi.add_apply, Pi.add_apply, hxy e he]
    rw [hdep x y hxy, h1]
  have hder : ∀ x ∈ stencilBox c x₀ i, ‖iteratedFDeriv ℝ (q + 1) (difAt d (c.h d) f) x‖ ≤ M * c.h d := by
    intro x hx
    have e1 : difAt d (c.h d) f = (fun x : Fin 3 → ℝ => f (x + Pi.single d (c.h d))) - f := rfl
    rw [e1, iteratedFDeriv_sub_apply hs1.contDiffAt hf1.contDiffAt, iteratedFDeriv_comp_add_right]
    refine dif_le_of_fderiv (F := iteratedFDeriv ℝ (q + 1) f) ?_ c hc.spacing x₀ i hd (fun x hx => ?_) hx
    · exact hf.differentiable_iteratedFDeriv (by norm_cast; omega)
    · rw [norm_fderiv_iteratedFDeriv]
      exact hM x hx
  obtain ⟨R, hR, hε⟩ := exists_density hdf c.scheme.active hdep' c.p hq (fun d => x₀ d + ((i d : ℝ) + 1 / 2) * c.h d)
    (fun d => (reach c.scheme d + 1 / 2) * c.h d) (M * c.h d) r (fun d => mul_nonneg (by positivity) (hc.spacing d).le) hrad hr0
    hder
  exact ⟨R, hR, fun x hx => (hε x hx).trans (le_of_eq (by ring))⟩

theorem approx_of {c : EulerConfig ℝ np} (hc : TransportSetup c) {x₀ : Fin 3 → ℝ} {i : Ix} {q : ℕ} {f : (Fin 3 → ℝ) → ℝ}
    (hf : ContDiff ℝ (q + 1 : ℕ) f) (hdep : DependsOn c.scheme.active f) (hq : ∀ d, c.scheme.active d = true → q ≤ c.p d)
    {M r : ℝ} (hr0 : 0 ≤ r) (hrad : ∀ d, c.scheme.active d = true → (reach c.scheme d + 1 / 2) * c.h d ≤ r)
    (hM : ∀ x ∈ stencilBox c x₀ i, ‖iteratedFDeriv ℝ (q + 1) f x‖ ≤ M) :
    Approx c x₀ i (M / (q + 1).factorial * r ^ (q + 1)) f := by
  obtain ⟨R, hR, hε⟩ := exists_density hf c.scheme.active hdep c.p hq (fun d => x₀ d + ((i d : ℝ) + 1 / 2) * c.h d)
    (fun d => (reach c.scheme d + 1 / 2) * c.h d) M r (fun d => mul_nonneg (by positivity) (hc.spacing d).le) hrad hr0 hM
  exact ⟨R, hR, fun x hx => (hε x hx).trans (le_of_eq (by ring))⟩

theorem uniform_bound {J : Type*} [Fintype J] {E : J → Type*} [∀ j, NormedAddCommGroup (E j)] (g : ∀ j, (Fin 3 → ℝ) → E j)
    (hg : ∀ j, Continuous (g j)) {Ω : Set (Fin 3 → ℝ)} (hΩ : IsCompact Ω) : ∃ M ≥ 0, ∀ j, ∀ x ∈ Ω, ‖g j x‖ ≤ M := by
  choose M hM using fun j => hΩ.exists_bound_of_continuousOn (hg j).continuousOn
  refine ⟨∑ j, |M j|, Finset.sum_nonneg fun _ _ => abs_nonneg _, fun j x hx => ?_⟩
  exact ((hM j x hx).trans (le_abs_self _)).trans
    (Finset.single_le_sum (f := fun j => |M j|) (fun _ _ => abs_nonneg _) (Finset.mem_univ j))

/-- The mean of the divergence of the flux is the difference of its means over the faces. -/
theorem fluxDiv_mean {c : EulerConfig ℝ np} (hc : TransportSetup c) (x₀ : Fin 3 → ℝ) (k : RiemannKind) (gamma : ℝ)
    {w : (Fin 3 → ℝ) → State ℝ np} (hw : SmoothState 1 w) (hdep : ∀ v, DependsOn c.scheme.active fun x => w x v) (i : Ix)
    (v : Var np) :
    cellMean x₀ c.h (fluxDiv k gamma w v) i = ∑ d, if c.scheme.active d = true then
      1 / c.h d * (faceMean x₀ c.h d (fun x => targetFlux k gamma d (w x) v) (i + Pi.single d 1) -
        faceMean x₀ c.h d (fun x => targetFlux k gamma d (w x) v) i) else 0 := by
  have hcd : ∀ d, ContDiff ℝ 1 fun x => targetFlux k gamma d (w x) v := fun d => smooth_target k gamma d hw v
  have hwe : ∀ x y : Fin 3 → ℝ, (∀ d, c.scheme.active d = true → x d = y d) → w x = w y :=
    fun x y hxy => funext fun v => hdep v x y hxy
  have dF : ∀ d v, DependsOn c.scheme.active fun x => targetFlux k gamma d (w x) v := fun d v x y hxy => by
    beta_reduce
    rw [hwe x y hxy]
  have e1 : cellMean x₀ c.h (fluxDiv k gamma w v) i =
      ∑ d, cellMean x₀ c.h (partialD d fun x => targetFlux k gamma d (w x) v) i := by
    unfold fluxDiv
    simp only [cellMean_eq _ _ hc.spacing]
    rw [integral_finsetSum, Finset.mul_sum]
    intro d _
    refine Continuous.integrableOn_Icc ?_
    unfold partialD
    exact ((hcd d).continuous_fderiv (by norm_num)).clm_apply continuous_const
  rw [e1]
  refine Finset.sum_congr rfl fun d _ => ?_
  by_cases hd : c.scheme.active d = true
  · rw [if_pos hd, cellMean_partialD x₀ c.h hc.spacing d (hcd d)]
  · rw [if_neg hd]
    have : partialD d (fun x => targetFlux k gamma d (w x) v) = fun _ => 0 := funext fun x =>
      (dF d v).partialD_zero ((hcd d).differentiable (by norm_num)) d (by simpa using hd) x
    rw [this, cellMean_eq _ _ hc.spacing]
    simp

/-! ### C94 -/

/-- **C94** Let `w` be a flow with `q + 2` continuous derivatives and with positive density and pressure on the compact
region `Ω`; with upwind fluxes let its velocity along the directions `A` nowhere vanish there. There are constants `C` and
`r₀` such that, on every mesh whose active directions are among `A` and have degrees at least `q`, and at every cell whose
stencil, together with those of the next cells, lies in `Ω` and has a radius `r ≤ r₀`: if the state, continued beyond the
boundaries, holds the cell averages of the conserved variables within reach of the two faces in each active direction, then the
right-hand side succeeds and in every variable differs from minus the cell average of the divergence of the flux by at most
`C r ^ (q + 1)`. -/
theorem C94_order (G : Gas ℝ) (hs : IsSqrt G.sqrt) (hg : 0 < G.gamma) (k : RiemannKind) (q : ℕ)
    (w : (Fin 3 → ℝ) → State ℝ np) (hw : SmoothState (q + 2) w) (Ω : Set (Fin 3 → ℝ)) (hΩ : IsCompact Ω)
    (hpos : ∀ x ∈ Ω, 0 < w x .rho ∧ 0 < w x .en) (A : Fin 3 → Bool)
    (hmov : k = .advectionUpwind → ∀ x ∈ Ω, ∀ d, A d = true → w x (.mom d) ≠ 0) :
    ∃ C ≥ 0, ∃ r₀ > 0, ∀ c : EulerConfig ℝ np, Suits c G k q w → (∀ d, c.scheme.active d = true → A d = true) →
      ∀ (x₀ : Fin 3 → ℝ) (i : Ix), InCells c.n i → wideBox c x₀ i ⊆ Ω → ∀ r, 0 ≤ r → r ≤ r₀ →
      (∀ d, c.scheme.active d = true → (reach c.scheme d + 1 / 2) * c.h d ≤ r) →
      ∀ (t t' : ℝ) (gl gr : Fin 3 → Ghost (State ℝ np)), Sides c.scheme (fluxWidth c.scheme c.p) t gl gr →
      ∀ u U : Ix → State ℝ np, (∀ j, InCells c.n j → u j = U j) →
      (∀ d, c.scheme.active d = true → ∀ y : ℤ, y = 0 ∨ y = 1 → ∀ j : Ix,
        (∀ e, |j e - (i + Pi.single d y : Ix) e| ≤ reach c.scheme e) → ∀ v,
        extAll c.n gl gr U j v = cellMean x₀ c.h (fun x => conserved G.gamma (w x) v) j) →
      ∀ (junk : ℕ → Ix → State ℝ np) (mem : Fin 3 → Ix → State ℝ np),
      ∃ dt D, solverRHS c.scheme junk mem t t' u = .ok (dt, D) ∧ ∀ v,
        |D i v - -cellMean x₀ c.h (fluxDiv k G.gamma w v) i| ≤ C * r ^ (q + 1) := by
  have hu := smooth_conserved G.gamma hw
  have hF := fun d => smooth_target k G.gamma d hw
  -- bounds of the derivatives
  obtain ⟨J, hJ⟩ : ∃ fam : (Var np ⊕ Var np) ⊕ (Fin 3 × Var np) → (Fin 3 → ℝ) → ℝ, fam = Sum.elim
    (Sum.elim (fun v x => conserved G.gamma (w x) v) (fun v x => w x v)) (fun z x => targetFlux k G.gamma z.1 (w x) z.2) := ⟨_, rfl⟩
  have hJc : ∀ j, ContDiff ℝ (q + 2 : ℕ) (J j) := by
    rw [hJ]
    rintro ((v | v) | z)
    · exact hu v
    · exact hw v
    · exact hF z.1 z.2
  obtain ⟨M₁, hM₁, HM₁⟩ := uniform_bound (fun j => iteratedFDeriv ℝ (q + 1) (J j))
    (fun j => (hJc j).continuous_iteratedFDeriv (by norm_cast; omega)) hΩ
  obtain ⟨M₂, hM₂, HM₂⟩ := uniform_bound (fun j => iteratedFDeriv ℝ (q + 2) (J j))
    (fun j => (hJc j).continuous_iteratedFDeriv (by norm_cast)) hΩ
  obtain ⟨M₃, hM₃, HM₃⟩ := uniform_bound (fun j => fderiv ℝ (J j))
    (fun j => (hJc j).continuous_fderiv (by norm_cast)) hΩ
  obtain ⟨M, hM⟩ : ∃ M, M = M₁ + M₂ + M₃ := ⟨_, rfl⟩
  have hM0 : 0 ≤ M := by rw [hM]; positivity
  have b1 : ∀ j, ∀ x ∈ Ω, ‖iteratedFDeriv ℝ (q + 1) (J j) x‖ ≤ M := fun j x hx => (HM₁ j x hx).trans (by rw [hM]; linarith)
  have b2 : ∀ j, ∀ x ∈ Ω, ‖iteratedFDeriv ℝ (q + 2) (J j) x‖ ≤ M := fun j x hx => (HM₂ j x hx).trans (by rw [hM]; linarith)
  have b3 : ∀ j, ∀ x ∈ Ω, ‖fderiv ℝ (J j) x‖ ≤ M := fun j x hx => (HM₃ j x hx).trans (by rw [hM]; linarith)
  -- the gas dynamics on the states that occur
  have cw : Continuous w := continuous_pi fun v => (hw v).continuous
  have cu : Continuous fun x => conserved G.gamma (w x) := continuous_pi fun v => (hu v).continuous
  obtain ⟨δ₁, hδ₁, L₁, hL₁, HP1⟩ := lipAt_uniform (hΩ.image cu) (Φ := computePrimitives G.gamma) (by
    rintro _ ⟨x, hx, rfl⟩
    exact lip_prim G.gamma (hpos x hx).1.ne')
  obtain ⟨δ₂, hδ₂, L₂, hL₂, HP2⟩ := err_uniform (e := pairErr) (J := Var np)
    (E := fun v z => computePrimitives G.gamma z.1 v - computePrimitives G.gamma z.2 v) (hΩ.image (cu.prodMk cu)) (by
    rintro _ ⟨x, hx, rfl⟩ v
    exact (prim_sim G.gamma (u := conserved G.gamma (w x)) (hpos x hx).1.ne' v).err)
  obtain ⟨δ₃, hδ₃, L₃, hL₃, HP3⟩ := err_uniform (e := tripleErr) (J := {d // A d = true} × Var np)
    (E := fun j z => riemann k G j.1 z.1 z.2.1 j.2 - targetFlux k G.gamma j.1 z.2.2 j.2) (hΩ.image (cw.prodMk (cw.prodMk cw))) (by
    rintro _ ⟨x, hx, rfl⟩ j
    exact (riemann_sim k G hs hg j.1 (hpos x hx) (fun hk => hmov hk x hx j.1 j.1.2) j.2).err)
  obtain ⟨δ, hδ⟩ : ∃ δ, δ = min δ₁ (min δ₂ δ₃) := ⟨_, rfl⟩
  have hδ0 : 0 < δ := by rw [hδ]; positivity
  have d1 : δ ≤ δ₁ := by rw [hδ]; exact min_le_left _ _
  have d2 : δ ≤ δ₂ := by rw [hδ]; exact (min_le_right _ _).trans (min_le_left _ _)
  have d3 : δ ≤ δ₃ := by rw [hδ]; exact (min_le_right _ _).trans (min_le_right _ _)
  obtain ⟨L, hL⟩ : ∃ L, L = L₁ + L₂ + L₃ := ⟨_, rfl⟩
  have hL0 : 0 ≤ L := by rw [hL]; positivity
  have l1 : L₁ ≤ L := by rw [hL]; linarith
  have l2 : L₂ ≤ L := by rw [hL]; linarith
  have l3 : L₃ ≤ L := by rw [hL]; linarith
  -- the constants
  obtain ⟨B, hB⟩ : ∃ B, B = M / (q + 1).factorial := ⟨_, rfl⟩
  have hB0 : 0 ≤ B := by rw [hB]; positivity
  obtain ⟨Λ, hΛ⟩ : ∃ Λ, Λ = 2 * L * ((80 * L + 5) + (16 * L + 5) + (16 * L + 5) * (80 * L + 5)) + 3 := ⟨_, rfl⟩
  have hΛ0 : 0 ≤ Λ := by rw [hΛ]; positivity
  refine ⟨3 * (Λ * (B * (1 + M))), by positivity,
    min 1 (min (1 / (B + 1)) (δ / ((16 * L + 5) * B + 4 * B + 2 * M + 1))), by positivity, ?_⟩
  intro c hS hcA x₀ i hi hsub r hr0 hr hrad t t' gl gr hSd u U huU hext junk mem
  have hc := hS.setup
  have hr1 : r ^ (q + 1) ≤ r := by
    have := pow_le_pow_of_le_one hr0 (hr.trans (min_le_left _ _)) (show 1 ≤ q + 1 by omega)
    simpa using this
  obtain ⟨τ, hτ⟩ : ∃ τ, τ = B * r ^ (q + 1) := ⟨_, rfl⟩
  have hτ0 : 0 ≤ τ := by rw [hτ]; positivity
  have hτr : τ ≤ B * r := by rw [hτ]; exact mul_le_mul_of_nonneg_left hr1 hB0
  have hτ1 : τ ≤ 1 := by
    have h1 : r ≤ 1 / (B + 1) := hr.trans ((min_le_right _ _).trans (min_le_left _ _))
    rw [le_div_iff₀ (by positivity)] at h1
    nlinarith
  have hrδ : r * ((16 * L + 5) * B + 4 * B + 2 * M + 1) ≤ δ := by
    have h1 : r ≤ δ / ((16 * L + 5) * B + 4 * B + 2 * M + 1) := hr.trans ((min_le_right _ _).trans (min_le_right _ _))
    rwa [le_div_iff₀ (by positivity)] at h1
  have hh2 : ∀ d, c.scheme.active d = true → c.h d ≤ 2 * r := fun d hd => by
    have h1 := hrad d hd
    have h2 := hc.spacing d
    have h3 : (0 : ℝ) ≤ reach c.scheme d := by positivity
    nlinarith
  have hLB : 0 ≤ (16 * L + 5) * B := by positivity
  have hwe : ∀ x y : Fin 3 → ℝ, (∀ d, c.scheme.active d = true → x d = y d) → w x = w y :=
    fun x y hxy => funext fun v => hS.depends v x y hxy
  have hJd : ∀ j, DependsOn c.scheme.active (J j) := by
    rw [hJ]
    rintro ((v | v) | z) x y hxy <;> simp only [Sum.elim_inl, Sum.elim_inr] <;> rw [hwe x y hxy]
  have eG := hS.gas
  have eK := hS.riem
  -- the difference of the fluxes
  have flux : ∀ d, c.scheme.active d = true → ∀ v,
      |(latFlux ℝ (riemann c.riem c.gas d) c.p none d (latPrim ℝ (computePrimitives c.gas.gamma) c.p (extAll c.n gl gr U))
          (i + Pi.single d 1) v -
        latFlux ℝ (riemann c.riem c.gas d) c.p none d (latPrim ℝ (computePrimitives c.gas.gamma) c.p (extAll c.n gl gr U)) i v) -
      (faceMean x₀ c.h d (fun x => targetFlux k G.gamma d (w x) v) (i + Pi.single d 1) -
        faceMean x₀ c.h d (fun x => targetFlux k G.gamma d (w x) v) i)| ≤
        Λ * (B * r ^ (q + 1) * c.h d + τ * (M * c.h d)) := by
    intro d hd v
    have hp := hc.spacing d
    have wide : ∀ y : ℤ, y = 0 ∨ y = 1 → stencilBox c x₀ (i + Pi.single d y) ⊆ Ω :=
      fun y hy => (stencil_in_wide c hc.spacing x₀ i hd hy).trans hsub
    have wide0 : stencilBox c x₀ i ⊆ Ω := by
      have := wide 0 (Or.inl rfl)
      rwa [Pi.single_zero, add_zero] at this
    have approx : ∀ j, ∀ y : ℤ, y = 0 ∨ y = 1 → Approx c x₀ (i + Pi.single d y) τ (J j) := by
      intro j y hy
      have h1 : ContDiff ℝ (q + 1 : ℕ) (J j) := (hJc j).of_le (by norm_cast; omega)
      have h2 : ∀ x ∈ stencilBox c x₀ (i + Pi.single d y), ‖iteratedFDeriv ℝ (q + 1) (J j) x‖ ≤ M :=
        fun x hx => b1 j x (wide y hy hx)
      rw [hτ, hB]
      exact approx_of hc h1 (hJd j) hS.degrees hr0 hrad h2
    have adif : ∀ j, Approx c x₀ i (B * r ^ (q + 1) * c.h d) (difAt d (c.h d) (J j)) := by
      intro j
      rw [hB]
      exact approx_dif hc (hJc j) (hJd j) hS.degrees hd hr0 hrad fun x hx => b2 j x (hsub hx)
    have change : ∀ j, ∀ x ∈ stencilBox c x₀ i, |J j (x + Pi.single d (c.h d)) - J j x| ≤ M * c.h d := by
      intro j x hx
      have h1 : Differentiable ℝ (J j) := (hJc j).differentiable (by norm_cast)
      have h2 : ∀ x ∈ wideBox c x₀ i, ‖fderiv ℝ (J j) x‖ ≤ M := fun x hx => b3 j x (hsub hx)
      have h3 := dif_le_of_fderiv h1 c hc.spacing x₀ i hd h2 hx
      rwa [Real.norm_eq_abs] at h3
    have hκ : M * c.h d ≤ 2 * M * r := by have := hh2 d hd; nlinarith
    rw [hJ] at approx adif change
    rw [hΛ]
    refine flux_diff hc (w := w) (g := fun x => targetFlux k G.gamma d (w x)) hd hτ0 (by positivity) (by positivity)
      ?_ (fun v => (hF d v).continuous) ?_ (fun y hy v => approx (.inl (.inr v)) y hy) ?_ (fun v => adif (.inl (.inr v)))
      (fun v => adif (.inr (d, v))) ?_ ?_ (δ := δ) hL0 ?_ ?_ ?_ (T := targetFlux k G.gamma d) (fun _ => rfl) ?_ ?_ ?_ hτ1 _ ?_ v
    · rw [eG]
      exact fun v => (hu v).continuous
    · rw [eG]
      exact fun y hy v => approx (.inl (.inl v)) y hy
    · rw [eG]
      exact fun v => adif (.inl (.inl v))
    · rw [eG]
      intro x hx
      rw [dist_pi_le_iff (by positivity)]
      exact fun v => change (.inl (.inl v)) x hx
    · intro x hx
      rw [dist_pi_le_iff (by positivity)]
      exact fun v => change (.inl (.inr v)) x hx
    · rw [eG]
      intro y hy x hx s hsd
      have h1 := HP1 _ ⟨x, wide y hy hx, rfl⟩ s (hsd.trans d1)
      rw [prim_conserved G.gamma (by rw [← eG]; exact hc.gamma) (w x) (hpos x (wide y hy hx)).1.ne'] at h1
      exact h1.trans (mul_le_mul_of_nonneg_right l1 dist_nonneg)
    · rw [eG]
      intro y hy x hx
      exact prim_conserved G.gamma (by rw [← eG]; exact hc.gamma) (w x) (hpos x (wide y hy hx)).1.ne'
    · rw [eG]
      intro x hx z z' hz hz' v
      exact (HP2 _ ⟨x, wide0 hx, rfl⟩ z z' (hz.trans d2) (hz'.trans d2) v).trans (mul_le_mul_of_nonneg_right l2 (by positivity))
    · rw [eG, eK]
      intro x hx z z' hz hz' v
      exact (HP3 _ ⟨x, wide0 hx, rfl⟩ z z' (hz.trans d3) (hz'.trans d3) (⟨d, hcA d hd⟩, v)).trans
        (mul_le_mul_of_nonneg_right l3 (by positivity))
    · nlinarith
    · have : (16 * L + 5) * τ ≤ (16 * L + 5) * (B * r) := mul_le_mul_of_nonneg_left hτr (by positivity)
      nlinarith
    · rw [eG]
      exact hext d hd
  -- the right-hand side
  obtain ⟨dt, _, e⟩ := rhs_spec c.scheme hc.unlimited hc.degree hc.cells t gl gr hSd junk mem t' u U huU
  refine ⟨dt, _, e, fun v => ?_⟩
  rw [fluxDiv_mean hc x₀ k G.gamma (fun v => (hw v).of_le (by norm_cast; omega)) hS.depends i v]
  rw [if_pos (show InCells c.scheme.n i from hi)]
  unfold latDiv
  rw [Finset.sum_apply, sub_neg_eq_add, ← Finset.sum_add_distrib]
  have e3 : 3 * (Λ * (B * (1 + M))) * r ^ (q + 1) = ∑ _d : Fin 3, Λ * (B * (1 + M)) * r ^ (q + 1) := by
    simp
    ring
  rw [e3]
  refine (Finset.abs_sum_le_sum_abs _ _).trans (Finset.sum_le_sum fun d _ => ?_)
  by_cases hd : c.scheme.active d = true
  · rw [if_pos hd, if_pos hd]
    have f1 := flux d hd v
    change |((-(1 / c.h d)) • (latFlux ℝ (riemann c.riem c.gas d) c.p none d (latPrim ℝ (computePrimitives c.gas.gamma) c.p
      (extAll c.n gl gr U)) (i + Pi.single d 1) - latFlux ℝ (riemann c.riem c.gas d) c.p none d
      (latPrim ℝ (computePrimitives c.gas.gamma) c.p (extAll c.n gl gr U)) i)) v + _| ≤ _
    rw [Pi.smul_apply, Pi.sub_apply, smul_eq_mul]
    have hp := hc.spacing d
    generalize latFlux ℝ (riemann c.riem c.gas d) c.p none d (latPrim ℝ (computePrimitives c.gas.gamma) c.p
      (extAll c.n gl gr U)) (i + Pi.single d 1) v = a1 at f1 ⊢
    generalize latFlux ℝ (riemann c.riem c.gas d) c.p none d (latPrim ℝ (computePrimitives c.gas.gamma) c.p
      (extAll c.n gl gr U)) i v = a0 at f1 ⊢
    generalize faceMean x₀ c.h d (fun x => targetFlux k G.gamma d (w x) v) (i + Pi.single d 1) = b1 at f1 ⊢
    generalize faceMean x₀ c.h d (fun x => targetFlux k G.gamma d (w x) v) i = b0 at f1 ⊢
    have e4 : -(1 / c.h d) * (a1 - a0) + 1 / c.h d * (b1 - b0) = -((a1 - a0) - (b1 - b0)) / c.h d := by
      field_simp
      ring
    rw [e4, abs_div, abs_neg, abs_of_pos hp, div_le_iff₀ hp]
    refine f1.trans (le_of_eq ?_)
    rw [hτ]
    ring
  · rw [if_neg hd, if_neg hd]
    simp only [Pi.zero_apply, add_zero, abs_zero]
    positivity

/-- **C94** in a periodic box, for all cells at once: the constants depend on the flow and on the box, not on the mesh. -/
theorem C94_periodic (G : Gas ℝ) (hs : IsSqrt G.sqrt) (hg : 0 < G.gamma) (k : RiemannKind) (q : ℕ)
    (w : (Fin 3 → ℝ) → State ℝ np) (hw : SmoothState (q + 2) w) (hpos : ∀ x, 0 < w x .rho ∧ 0 < w x .en) (A : Fin 3 → Bool)
    (hmov : k = .advectionUpwind → ∀ x d, A d = true → w x (.mom d) ≠ 0) (x₀ ℓ : Fin 3 → ℝ) :
    ∃ C ≥ 0, ∃ r₀ > 0, ∀ c : EulerConfig ℝ np, Suits c G k q w → (∀ d, c.scheme.active d = true → A d = true) →
      FillsBox c ℓ → PeriodicBox c → (∀ v, PeriodicIn c fun x => w x v) → ∀ r, 0 ≤ r → r ≤ r₀ →
      (∀ d, c.scheme.active d = true → (reach c.scheme d + 1 / 2) * c.h d ≤ r) →
      ∀ (t t' : ℝ) (u : Ix → State ℝ np),
      (∀ j, InCells c.n j → ∀ v, u j v = cellMean x₀ c.h (fun x => conserved G.gamma (w x) v) j) →
      ∀ (junk : ℕ → Ix → State ℝ np) (mem : Fin 3 → Ix → State ℝ np),
      ∃ dt D, solverRHS c.scheme junk mem t t' u = .ok (dt, D) ∧ ∀ i, InCells c.n i → ∀ v,
        |D i v - -cellMean x₀ c.h (fluxDiv k G.gamma w v) i| ≤ C * r ^ (q + 1) := by
  obtain ⟨C, hC, r₀, hr₀, H⟩ := C94_order G hs hg k q w hw (Icc (fun d => x₀ d - 1) (fun d => x₀ d + ℓ d + 1)) isCompact_Icc
    (fun x _ => hpos x) A (fun hk x _ => hmov hk x)
  refine ⟨C, hC, min (1 / 3) r₀, lt_min (by norm_num) hr₀, ?_⟩
  intro c hS hA hf hb hper r hr0 hr hrad t t' u hu junk mem
  have hc := hS.setup
  have h0 : InCells c.n 0 := fun d => ⟨le_rfl, by have := hc.cells d; simp; omega⟩
  have hwe : ∀ x y, (∀ v, w x v = w y v) → w x = w y := fun x y h => funext h
  have hmean : ∀ v d (j : Ix), cellMean x₀ c.h (fun x => conserved G.gamma (w x) v) (j + Pi.single d (c.n d : ℤ)) =
      cellMean x₀ c.h (fun x => conserved G.gamma (w x) v) j := fun v d j =>
    periodic_means hc x₀ (fun x y hxy => by
      rw [hwe x y fun v => hS.depends v x y hxy]) (fun d hd x => by
      rw [hwe _ x fun v => hper v d hd x]) d j
  have hext : extAll c.n (fun _ => .wrap) (fun _ => .wrap)
      (fun j v => cellMean x₀ c.h (fun x => conserved G.gamma (w x) v) j) =
      fun j v => cellMean x₀ c.h (fun x => conserved G.gamma (w x) v) j := by
    rw [extAll_wrap c.n hc.cells]
    funext j v
    exact periodic_wrap c.n (cellMean x₀ c.h fun x => conserved G.gamma (w x) v) (hmean v) j
  have hbox : ∀ i, InCells c.n i → wideBox c x₀ i ⊆ Icc (fun d => x₀ d - 1) (fun d => x₀ d + ℓ d + 1) := by
    intro i hi x hx
    have key : ∀ d, x₀ d - 1 ≤ x d ∧ x d ≤ x₀ d + ℓ d + 1 := by
      intro d
      have h1 := hx d
      have h2 : (0 : ℝ) ≤ i d := by exact_mod_cast (hi d).1
      have h3 : (i d : ℝ) + 1 ≤ c.n d := by
        have : i d + 1 ≤ (c.n d : ℤ) := (hi d).2
        exact_mod_cast this
      have h4 := hc.spacing d
      have h6 : (0 : ℝ) ≤ reach c.scheme d := by positivity
      have h5 : (reach c.scheme d + if c.scheme.active d = true then (3 : ℝ) / 2 else 1 / 2) * c.h d ≤ 1 + 1 / 2 * c.h d := by
        by_cases hd : c.scheme.active d = true
        · have := hrad d hd
          have := hr.trans (min_le_left _ _)
          rw [if_pos hd]
          nlinarith
        · have : reach c.scheme d = 0 := by
            unfold reach
            rw [if_neg hd]
          rw [this, if_neg hd]
          simp
      rw [← hf d]
      rw [abs_le] at h1
      constructor <;> nlinarith [mul_nonneg h2 h4.le, mul_le_mul_of_nonneg_right h3 h4.le]
    exact ⟨fun d => (key d).1, fun d => (key d).2⟩
  have key := fun i hi => H c hS hA x₀ i hi (hbox i hi) r hr0
    (hr.trans (min_le_right _ _)) hrad t t' _ _ (hb.sides hc.cells t) u
    (fun j v => cellMean x₀ c.h (fun x => conserved G.gamma (w x) v) j) (fun j hj => funext fun v => hu j hj v)
    (fun _ _ _ _ j _ v => by rw [hext]) junk mem
  obtain ⟨dt, D, e, _⟩ := key 0 h0
  refine ⟨dt, D, e, fun i hi => ?_⟩
  obtain ⟨dt', D', e', h⟩ := key i hi
  rw [e] at e'
  cases e'
  exact h

/-! ### The hypotheses can be met -/

/-- C94 applies to the flow of C93 with either of the two solvers for gas dynamics. -/
example (k : RiemannKind) (hk : k ≠ .advectionUpwind) : ∃ C ≥ 0, ∃ r₀ > 0, ∀ c : EulerConfig ℝ 1, Suits c airGas k 2 wavyFlow →
    FillsBox c ![2 * Real.pi, 1, 1] → PeriodicBox c → (∀ v, PeriodicIn c fun x => wavyFlow x v) → ∀ r, 0 ≤ r → r ≤ r₀ →
    (∀ d, c.scheme.active d = true → (reach c.scheme d + 1 / 2) * c.h d ≤ r) →
    ∀ u : Ix → State ℝ 1,
    (∀ j, InCells c.n j → ∀ v, u j v = cellMean 0 c.h (fun x => conserved airGas.gamma (wavyFlow x) v) j) →
    ∃ dt D, solverRHS c.scheme (fun _ _ => 0) (fun _ _ => 0) 0 0 u = .ok (dt, D) ∧ ∀ i, InCells c.n i → ∀ v,
      |D i v - -cellMean 0 c.h (fluxDiv k airGas.gamma wavyFlow v) i| ≤ C * r ^ 3 := by
  obtain ⟨C, hC, r₀, hr₀, H⟩ := C94_periodic airGas airGas_sqrt (by norm_num [airGas]) k 2 wavyFlow (wavyFlow_smooth 4)
    wavyFlow_pos (fun _ => true) (fun h => absurd h hk) 0 ![2 * Real.pi, 1, 1]
  exact ⟨C, hC, r₀, hr₀, fun c hS hf hb hp r h0 h1 h2 u hu => H c hS (fun _ _ => rfl) hf hb hp r h0 h1 h2 0 0 u hu _ _⟩

/-- Meshes as fine as wanted meet them. -/
example (r₀ : ℝ) (hr₀ : 0 < r₀) : ∃ N : ℕ, Suits (wavyConfig .hllc N) airGas .hllc 2 wavyFlow ∧
    FillsBox (wavyConfig .hllc N) ![2 * Real.pi, 1, 1] ∧ PeriodicBox (wavyConfig .hllc N) ∧
    (∀ v, PeriodicIn (wavyConfig .hllc N) fun x => wavyFlow x v) ∧ ∀ d, (wavyConfig .hllc N).scheme.active d = true →
      (reach (wavyConfig .hllc N).scheme d + 1 / 2) * (wavyConfig .hllc N).h d ≤ r₀ := wavy_suits .hllc r₀ hr₀

end FVHOE
