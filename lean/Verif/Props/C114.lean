import Verif.Proofs.QuietNear
import Verif.Props.C80

/-!
C114: on fine grids the limiter in its default form stays out of every continuous flow whose density, pressure and velocity vary,
so that limiting does not reduce the order of accuracy of the right-hand side.
-/

set_option linter.unusedSectionVars false

namespace FVHOE

open MeasureTheory Set

variable {np : ℕ}

/-- A periodic box of lengths `ℓ` on which the flow `w` repeats, with computed steps; `A` are the directions in which there is more
than one cell, and in the others `w` does not vary. -/
structure QuietSetup (c : EulerConfig ℝ np) (G : Gas ℝ) (k : RiemannKind) (A : Fin 3 → Bool) (cfl : ℝ) (ℓ : Fin 3 → ℝ)
    (w : (Fin 3 → ℝ) → State ℝ np) : Prop where
  setup : TransportSetup c
  gas : c.gas = G
  riem : c.riem = k
  active : ∀ d, c.scheme.active d = A d
  computed : c.fixedDt = none
  cfl_pos : 0 < c.cfl
  cfl_le : c.cfl ≤ cfl
  fills : FillsBox c ℓ
  box : PeriodicBox c
  wide : WideBox c
  depends : ∀ v, DependsOn c.scheme.active fun x => w x v
  periodic : ∀ v, PeriodicIn c fun x => w x v

theorem QuietSetup.mean_periodic {c : EulerConfig ℝ np} {G : Gas ℝ} {k : RiemannKind} {A : Fin 3 → Bool} {cfl : ℝ} {ℓ : Fin 3 → ℝ}
    {w : (Fin 3 → ℝ) → State ℝ np} (h : QuietSetup c G k A cfl ℓ w) (x₀ : Fin 3 → ℝ) (v : Var np) (j : Ix) :
    cellMean x₀ c.h (fun x => conserved G.gamma (w x) v) (fun d => j d % c.n d) =
      cellMean x₀ c.h (fun x => conserved G.gamma (w x) v) j := by
  have hwe : ∀ x y, (∀ v, w x v = w y v) → w x = w y := fun x y h => funext h
  exact periodic_wrap c.n (cellMean x₀ c.h fun x => conserved G.gamma (w x) v) (fun d j =>
    periodic_means h.setup x₀ (fun x y hxy => by
      rw [hwe x y fun v => h.depends v x y hxy]) (fun d hd x => by
      rw [hwe _ x fun v => h.periodic v d hd x]) d j) j

theorem QuietSetup.dt_le {c : EulerConfig ℝ np} {G : Gas ℝ} {k : RiemannKind} {A : Fin 3 → Bool} {cfl : ℝ} {ℓ : Fin 3 → ℝ}
    {w : (Fin 3 → ℝ) → State ℝ np} (h : QuietSetup c G k A cfl ℓ w) (hs : IsSqrt G.sqrt) (hfl : 0 < G.csqFloor)
    (hA : ∃ d, A d = true) {W : Ix → State ℝ np} {dt : ℝ} (hdt : IsDt c.scheme c.p W dt) :
    0 < dt ∧ ∀ d, dt ≤ cfl / Real.sqrt G.csqFloor * c.h d := by
  obtain ⟨d, hd⟩ := hA
  have hC : InClass c G k c.p (Finset.univ.filter fun d => A d = true) c.cfl :=
    ⟨h.gas, h.riem, rfl, rfl, h.computed, fun d => by simp [h.active], h.setup.cells, h.setup.spacing⟩
  obtain ⟨h1, h2⟩ := hC.dt_bounds hs hfl h.cfl_pos ⟨d, by simpa using hd⟩ hdt
  refine ⟨h1, fun d => (h2 d).trans (mul_le_mul_of_nonneg_right ?_ (h.setup.spacing d).le)⟩
  exact div_le_div_of_nonneg_right h.cfl_le (Real.sqrt_nonneg _)

set_option maxHeartbeats 1000000 in
/-- **C114** Let `w` be a continuous flow of positive density and pressure, and `V` a set of its variables (density, velocities,
pressure) that vary somewhere; a velocity across the grid (along a direction with one cell) may instead be constant. For every
tolerance `ε > 0` and CFL number there are a spacing `H` and a deviation `B` such that on every periodic grid with spacings at most
`H`, for all data within `B` of the cell averages of the flow (with the constant components kept), the right-hand side with
a-posteriori limiting in its default form (NAD of tolerance at least `ε` relative to the range over the box, considering only
variables of `V`, default PAD bounds or none) returns exactly what the one without limiting returns. -/
theorem C114_quiet (G : Gas ℝ) (hs : IsSqrt G.sqrt) (hg : 0 < G.gamma) (hfl : 0 < G.csqFloor) (k : RiemannKind)
    (A : Fin 3 → Bool) (hA : ∃ d, A d = true) (cfl : ℝ) (hcfl : 0 < cfl) (ε : ℝ) (hε : 0 < ε)
    (w : (Fin 3 → ℝ) → State ℝ np) (hw : ∀ v, Continuous fun x => w x v) (hpos : ∀ x, 0 < w x .rho ∧ 0 < w x .en)
    (V : Var 0 → Prop) (κ : Fin 3 → ℝ) (hv : ∀ v, V v → (∃ x y, activePart (w x) v < activePart (w y) v) ∨
      ∃ d, v = .mom d ∧ A d = false ∧ ∀ x, w x (.mom d) = κ d) (x₀ ℓ : Fin 3 → ℝ) :
    ∃ H > 0, ∃ B > 0, ∀ c : EulerConfig ℝ np, QuietSetup c G k A cfl ℓ w → (∀ d, A d = true → c.h d ≤ H) →
      ∀ o : LimiterOpts ℝ, GlobalTest o → ε ≤ o.eps → (∀ v, o.toDetectOpts.considers v = true → V v) → ∀ u : Ix → State ℝ np,
      (∀ j, InCells c.n j → ∀ v, |u j v - cellMean x₀ c.h (fun x => conserved G.gamma (w x) v) j| ≤ B) →
      (∀ d, A d = false → (∀ x, w x (.mom d) = κ d) → ∀ j, InCells c.n j → u j (.mom d) = κ d * u j .rho) →
      ∀ (junk : ℕ → Ix → State ℝ np) (mem : Fin 3 → Ix → State ℝ np) (t t' : ℝ),
      solverRHS (c.limited (some o)).scheme junk mem t t' u = solverRHS c.scheme junk mem t t' u := by
  -- where the variables vary
  have hvar : ∀ v : Var 0, ∃ a > 0, ∃ x y, V v → a ≤ activePart (w y) v - activePart (w x) v ∨
      ∃ d, v = .mom d ∧ A d = false ∧ ∀ x, w x (.mom d) = κ d := by
    intro v
    by_cases hV : V v
    · rcases hv v hV with ⟨x, y, h⟩ | h
      · exact ⟨_, sub_pos.2 h, x, y, fun _ => Or.inl le_rfl⟩
      · exact ⟨1, one_pos, 0, 0, fun _ => Or.inr h⟩
    · exact ⟨1, one_pos, 0, 0, fun h => absurd h hV⟩
  choose a ha px py hamp using hvar
  obtain ⟨a₀, ha₀, hale⟩ : ∃ a₀ > 0, ∀ v, a₀ ≤ a v :=
    ⟨Finset.univ.inf' ⟨.rho, Finset.mem_univ _⟩ a, (Finset.lt_inf'_iff _).2 fun v _ => ha v,
      fun v => Finset.inf'_le _ (Finset.mem_univ v)⟩
  -- the region
  obtain ⟨R, hR⟩ : ∃ R, R = ‖x₀‖ + ‖ℓ‖ + ∑ v, (‖px v‖ + ‖py v‖) := ⟨_, rfl⟩
  have hRs : ∀ v, ‖px v‖ + ‖py v‖ ≤ ∑ v, (‖px v‖ + ‖py v‖) := fun v =>
    Finset.single_le_sum (f := fun v => ‖px v‖ + ‖py v‖) (fun _ _ => by positivity) (Finset.mem_univ v)
  have hRx : ∀ v, ‖px v‖ ≤ R ∧ ‖py v‖ ≤ R := fun v => by
    have := hRs v
    have := norm_nonneg (px v)
    have := norm_nonneg (py v)
    have := norm_nonneg x₀
    have := norm_nonneg ℓ
    constructor <;> linarith
  have hRb : ‖x₀‖ + ‖ℓ‖ ≤ R := by
    have : 0 ≤ ∑ v, (‖px v‖ + ‖py v‖) := Finset.sum_nonneg fun _ _ => by positivity
    linarith
  obtain ⟨Ω, hΩd⟩ : ∃ Ω : Set (Fin 3 → ℝ), Ω = Metric.closedBall 0 (R + 1) := ⟨_, rfl⟩
  have hΩ : IsCompact Ω := hΩd ▸ isCompact_closedBall _ _
  have hin : ∀ y z : Fin 3 → ℝ, ‖y‖ ≤ R → dist z y ≤ 1 → z ∈ Ω := fun y z hy hz => by
    rw [hΩd, mem_closedBall_zero_iff]
    have := norm_le_norm_add_norm_sub' z y
    rw [dist_eq_norm] at hz
    linarith
  -- the gas dynamics there
  have cw : Continuous w := continuous_pi hw
  have hu : ∀ v, Continuous fun x => conserved G.gamma (w x) v := fun v => by
    cases v with
    | rho => exact hw .rho
    | mom d => exact (hw .rho).mul (hw (.mom d))
    | en =>
      simp only [conserved, totalEnergy]
      exact ((hw .en).div_const _).add
        (((hw .rho).mul ((((hw (.mom 0)).pow 2).add ((hw (.mom 1)).pow 2)).add ((hw (.mom 2)).pow 2))).div_const _)
    | ps j => exact (hw .rho).mul (hw (.ps j))
  have cu : Continuous fun x => conserved G.gamma (w x) := continuous_pi hu
  obtain ⟨δ, hδ, L, hL, HP⟩ := lipAt_uniform (hΩ.image cu) (Φ := computePrimitives G.gamma) (by
    rintro _ ⟨x, hx, rfl⟩
    exact lip_prim G.gamma (hpos x).1.ne')
  have HR := fun d => riemann_consistent_lip k G hs hg d (hΩ.image cw) (by
    rintro _ ⟨x, hx, rfl⟩
    exact hpos x)
  choose δ' hδ' L' hL' HR using HR
  obtain ⟨δ₁, hδ₁, hle⟩ : ∃ δ₁ > 0, ∀ d, δ₁ ≤ δ' d :=
    ⟨Finset.univ.inf' ⟨0, Finset.mem_univ _⟩ δ', (Finset.lt_inf'_iff _).2 fun v _ => hδ' v,
      fun v => Finset.inf'_le _ (Finset.mem_univ v)⟩
  obtain ⟨L₁, hL₁0, hL1⟩ : ∃ L₁ ≥ 0, ∀ d, L' d ≤ L₁ :=
    ⟨∑ d, L' d, Finset.sum_nonneg fun d _ => hL' d, fun d => Finset.single_le_sum (fun d _ => hL' d) (Finset.mem_univ d)⟩
  obtain ⟨m₁, hm₁, low₁⟩ := exists_lower hΩ (hw .rho) fun x => (hpos x).1
  obtain ⟨m₂, hm₂, low₂⟩ := exists_lower hΩ (hw .en) fun x => (hpos x).2
  -- the constants
  obtain ⟨C, hCd⟩ : ∃ C, C = cfl / Real.sqrt G.csqFloor := ⟨_, rfl⟩
  have hC : 0 ≤ C := by rw [hCd]; positivity
  obtain ⟨Γ, hΓ⟩ : ∃ Γ, Γ = 2 + 3 * (C * (2 * (32 * L₁ * (64 * L * 2)))) := ⟨_, rfl⟩
  have hΓ2 : 2 ≤ Γ := by rw [hΓ]; have : 0 ≤ 3 * (C * (2 * (32 * L₁ * (64 * L * 2)))) := by positivity
                         linarith
  obtain ⟨b, hb, Hb⟩ := exists_small [(8 * Γ, δ), (8 * (64 * L * 2), δ₁), (16 * Γ, m₁), (64 * L * Γ, m₂),
    (2 * (64 * L * Γ) * (1 + ε), ε * a₀)] (by
      intro z hz
      have : 0 ≤ Γ := by linarith
      simp only [List.mem_cons, List.not_mem_nil, or_false] at hz
      rcases hz with rfl | rfl | rfl | rfl | rfl <;> constructor <;> dsimp only <;> positivity)
  simp only [List.mem_cons, List.not_mem_nil, or_false, forall_eq_or_imp, forall_eq] at Hb
  obtain ⟨b1, b2, b3, b4, b5⟩ := Hb
  have huc := hΩ.uniformContinuousOn_of_continuous cu.continuousOn
  rw [Metric.uniformContinuousOn_iff_le] at huc
  obtain ⟨H₀, hH₀, huc⟩ := huc b hb
  refine ⟨min 1 H₀ / 49, by positivity, b, hb, ?_⟩
  intro c hS hH o ho hεo hoV u hu' hfroz junk mem t t'
  have hc := hS.setup
  have hp := hc.degree
  have eG := hS.gas
  have eK := hS.riem
  have hH0 : 0 ≤ min 1 H₀ / 49 := by positivity
  have h49 : 49 * (min 1 H₀ / 49) = min 1 H₀ := by ring
  have hSc : ∀ d, c.scheme.active d = true → c.h d ≤ min 1 H₀ / 49 := fun d hd => hH d (by rw [← hS.active]; exact hd)
  -- data near the averages are near the flow
  have near : ∀ (s : Ix → State ℝ np) (β : ℝ), (∀ j, InCells c.n j → ∀ v,
      |s j v - cellMean x₀ c.h (fun x => conserved G.gamma (w x) v) j| ≤ β) → ∀ (i : Ix) (y : Fin 3 → ℝ), ‖y‖ ≤ R →
      (∀ d, c.scheme.active d = true → x₀ d + i d * c.h d ≤ y d ∧ y d ≤ x₀ d + (i d + 1) * c.h d) → ∀ i' : Ix,
      (∀ d, (c.n d : ℤ) ∣ i' d - i d) →
      NearAt (extAll c.n (fun _ => .wrap) (fun _ => .wrap) s) i' 48 (conserved G.gamma (w y)) (b + β) := by
    intro s β hsβ i y hy hyi i' hi' j hj
    have hβ : 0 ≤ b + β := by
      have := (abs_nonneg _).trans (hsβ 0 (fun d => ⟨le_rfl, by have := hc.cells d; simp; omega⟩) .rho)
      linarith
    rw [extAll_wrap c.n hc.cells, dist_pi_le_iff hβ]
    intro v
    have hjc : InCells c.n (fun d => j d % c.n d) := fun d => by
      have : (0 : ℤ) < c.n d := by exact_mod_cast hc.cells d
      exact ⟨Int.emod_nonneg _ this.ne', Int.emod_lt_of_pos _ this⟩
    have h1 := hsβ _ hjc v
    have e : (fun d => j d % (c.n d : ℤ)) = fun d => (j d - (i' d - i d)) % (c.n d : ℤ) := funext fun d => by
      obtain ⟨q, hq⟩ := hi' d
      rw [hq, Int.sub_mul_emod_self_left]
    have e2 : cellMean x₀ c.h (fun x => conserved G.gamma (w x) v) (fun d => j d % c.n d) =
        cellMean x₀ c.h (fun x => conserved G.gamma (w x) v) (fun d => j d - (i' d - i d)) := by
      rw [e]
      exact hS.mean_periodic x₀ v fun d => j d - (i' d - i d)
    have hwe : ∀ x y, (∀ v, w x v = w y v) → w x = w y := fun x y h => funext h
    have h2 := mean_at hc x₀ (hu v) (fun x x' hx => by
      beta_reduce
      rw [hwe x x' fun v => hS.depends v x x' hx]) (i := i) (j := fun d => j d - (i' d - i d)) (y := y) hyi (fun d => by
        have := hj d
        rw [show j d - (i' d - i d) - i d = j d - i' d by ring]
        exact this) hH0 hSc (ω := b) (fun z hz => by
        rw [h49] at hz
        have := huc z (hin y z hy (hz.trans (min_le_left _ _))) y (hin y y hy (by simp)) (hz.trans (min_le_right _ _))
        have := (dist_le_pi_dist _ _ v).trans this
        rwa [Real.dist_eq] at this)
    rw [e2] at h1
    rw [Real.dist_eq]
    rw [abs_le] at h1 h2 ⊢
    constructor <;> linarith [h1.1, h1.2, h2.1, h2.2]
  -- the centre of a cell
  have centre : ∀ i, InCells c.n i → ∃ y : Fin 3 → ℝ, ‖y‖ ≤ R ∧
      ∀ d, c.scheme.active d = true → x₀ d + i d * c.h d ≤ y d ∧ y d ≤ x₀ d + (i d + 1) * c.h d := by
    intro i hi
    refine ⟨fun d => x₀ d + i d * c.h d, ?_, fun d _ => ⟨le_rfl, ?_⟩⟩
    · refine le_trans ((pi_norm_le_iff_of_nonneg (by positivity)).2 fun d => ?_) hRb
      rw [Real.norm_eq_abs]
      have h1 := norm_le_pi_norm x₀ d
      have h2 := norm_le_pi_norm ℓ d
      rw [Real.norm_eq_abs] at h1 h2
      have h3 : (0 : ℝ) ≤ i d := by exact_mod_cast (hi d).1
      have h4 : (i d : ℝ) ≤ c.n d := by
        have := (hi d).2.le
        exact_mod_cast this
      have h5 := hc.spacing d
      have h6 := hS.fills d
      have h7 := mul_le_mul_of_nonneg_right h4 h5.le
      have h8 := mul_nonneg h3 h5.le
      have h9 := le_abs_self (ℓ d)
      rw [h6] at h7
      refine (abs_add_le _ _).trans (add_le_add h1 ?_)
      rw [abs_of_nonneg h8]
      linarith
    · have := hc.spacing d
      nlinarith
  have wrapc : ∀ j : Ix, InCells c.n (fun d => j d % c.n d) := fun j d => by
    have : (0 : ℤ) < c.n d := by exact_mod_cast hc.cells d
    exact ⟨Int.emod_nonneg _ this.ne', Int.emod_lt_of_pos _ this⟩
  have wrapd : ∀ (j : Ix) (d : Fin 3), (c.n d : ℤ) ∣ j d - j d % c.n d := fun j d => Int.dvd_self_sub_emod
  -- the primitive averages
  have hprim : ∀ y, ‖y‖ ≤ R → ∀ s, dist s (conserved G.gamma (w y)) ≤ δ →
      dist (computePrimitives G.gamma s) (w y) ≤ L * dist s (conserved G.gamma (w y)) := by
    intro y hy s hsd
    have := HP _ ⟨y, hin y y hy (by simp), rfl⟩ s hsd
    rwa [prim_conserved G.gamma (by rw [← eG]; exact hc.gamma) (w y) (hpos y).1.ne'] at this
  have nonzero : ∀ (s : Ix → State ℝ np) (β : ℝ), 8 * (b + β) < m₁ → (∀ j, InCells c.n j → ∀ v,
      |s j v - cellMean x₀ c.h (fun x => conserved G.gamma (w x) v) j| ≤ β) →
      ∀ j, latCenters ℝ c.p (extAll c.n (fun _ => .wrap) (fun _ => .wrap) s) j .rho ≠ 0 := by
    intro s β hβ hsβ j h0
    obtain ⟨y, hy, hyi⟩ := centre _ (wrapc j)
    have h1 := near s β hsβ _ y hy hyi j (wrapd j)
    have h2 := (dist_le_pi_dist _ _ .rho).trans (NearAt.centers hp (m := 0) (h1.mono (by norm_num) le_rfl) j (by simp))
    rw [h0, Real.dist_eq, zero_sub, abs_neg] at h2
    have h3 := low₁ y (hin y y hy (by simp))
    have h4 := le_abs_self (conserved G.gamma (w y) .rho)
    change w y .rho ≤ _ at h4
    linarith
  -- the ghost cells
  have hinp : ∀ d, c.scheme.active d = false → c.p d = 0 := fun d hd => c.scheme.inactive_p d hd
  have hd : c.dims ≠ [] := by
    obtain ⟨d, hd⟩ := hA
    exact List.ne_nil_of_mem ((mem_dims c d).2 (by rw [hS.active]; exact hd))
  have hs0 := hS.box.sides hc.cells t
  have hs' := wrap_sides hS.box hc.cells (fluxWidth c.scheme (fallbackP c.p)) (fun d hd => by
    unfold fluxWidth fallbackP
    rw [hd, hinp d hd]
    rfl) (fun d hd => (hS.wide d hd).1) t
  have hsd := wrap_sides hS.box hc.cells (detectWidth c.scheme) (fun d hd => by
    unfold detectWidth
    rw [hd, show c.scheme.p d = 0 from hinp d hd]
    rfl) (fun d hd => (hS.wide d hd).2) t
  obtain ⟨dt, tr, k1, k2, k3, k4⟩ := limited_rhs c o ho.known hd hp hc.cells t _ _ _ _ _ _ hs0 hs' hsd junk mem t' u
  obtain ⟨dt₀, g1, g2⟩ := rhs_spec c.scheme hc.unlimited hp hc.cells t _ _ hs0 junk mem t' u u fun _ _ => rfl
  obtain rfl : dt₀ = dt := IsDt.unique (S := c.scheme) g1 k1
  obtain ⟨hdt0, hdt⟩ := hS.dt_le hs hfl hA k1
  rw [← hCd] at hdt
  have hΓb : 2 * b ≤ Γ * b := mul_le_mul_of_nonneg_right hΓ2 hb.le
  -- the fluxes of a cell are near each other
  obtain ⟨X, hX⟩ : ∃ X, X = extAll c.n (fun _ => .wrap) (fun _ => .wrap) u := ⟨_, rfl⟩
  have hflux : ∀ i, InCells c.n i → ∀ d v, |schemeFlux c.scheme c.p none X d (i + Pi.single d 1) v -
      schemeFlux c.scheme c.p none X d i v| ≤ 2 * (32 * L₁ * (64 * L * (2 * b))) := by
    intro i hi d v
    obtain ⟨y, hy, hyi⟩ := centre i hi
    have h1 := near u b hu' i y hy hyi i (fun d => by simp)
    rw [← hX] at h1
    have h2 : NearAt (latPrim ℝ (computePrimitives G.gamma) c.p X) i 22 (w y) (64 * L * (2 * b)) :=
      (NearAt.prim hp (m := 22) hL (hprim y hy) (by linarith) (h1.mono (by norm_num) le_rfl)).mono le_rfl
        (le_of_eq (by ring))
    have h3 := NearAt.flux hp (m := 1) hL₁0 d (R := riemann k G d) (F := targetFlux k G.gamma d (w y)) (δ := δ₁)
      (fun a' b' ha' hb' => (HR d _ ⟨y, hin y y hy (by simp), rfl⟩ a' b' (ha'.trans (hle d)) (hb'.trans (hle d))).trans
        (mul_le_mul_of_nonneg_right (hL1 d) (le_max_of_le_left dist_nonneg))) (by linarith) (h2.mono (by norm_num) le_rfl)
    have h4 := (dist_le_pi_dist _ _ v).trans (h3 (i + Pi.single d 1) fun e => by
      by_cases he : e = d
      · subst he; simp
      · simp [he])
    have h5 := (dist_le_pi_dist _ _ v).trans (h3 i fun e => by simp)
    have eF : schemeFlux c.scheme c.p none X d = latFlux ℝ (riemann k G d) c.p none d
        (latPrim ℝ (computePrimitives G.gamma) c.p X) := by
      rw [← eG, ← eK]
      rfl
    rw [eF]
    rw [Real.dist_eq] at h4 h5
    rw [abs_le] at h4 h5 ⊢
    constructor <;> linarith [h4.1, h4.2, h5.1, h5.2]
  -- the candidate
  obtain ⟨u', hu'd⟩ : ∃ u' : Ix → State ℝ np, u' = fun i => u i + dt₀ • latDiv c.scheme.active c.h
      (schemeFlux c.scheme c.p none X) i := ⟨_, rfl⟩
  have hcand : ∀ j, InCells c.n j → ∀ v, |u' j v - cellMean x₀ c.h (fun x => conserved G.gamma (w x) v) j| ≤ (Γ - 1) * b := by
    intro j hj v
    have h1 := hu' j hj v
    have h2 : |dt₀ * latDiv c.scheme.active c.h (schemeFlux c.scheme c.p none X) j v| ≤
        ∑ _d : Fin 3, C * (2 * (32 * L₁ * (64 * L * (2 * b)))) := by
      unfold latDiv
      rw [Finset.sum_apply, Finset.mul_sum]
      refine (Finset.abs_sum_le_sum_abs _ _).trans (Finset.sum_le_sum fun d _ => ?_)
      split_ifs with hd
      · have hf := hflux j hj d v
        change |dt₀ * (-(1 / c.h d) * (schemeFlux c.scheme c.p none X d (j + Pi.single d 1) v -
          schemeFlux c.scheme c.p none X d j v))| ≤ _
        generalize schemeFlux c.scheme c.p none X d (j + Pi.single d 1) v - schemeFlux c.scheme c.p none X d j v = z at hf ⊢
        have hp := hc.spacing d
        rw [abs_mul, abs_mul, abs_neg, abs_of_pos hdt0, abs_of_pos (by positivity : 0 < 1 / c.h d), ← mul_assoc,
          mul_one_div]
        refine mul_le_mul ?_ hf (abs_nonneg _) hC
        rw [div_le_iff₀ hp]
        exact hdt d
      · simp only [Pi.zero_apply, mul_zero, abs_zero]
        positivity
    have e : (Γ - 1) * b = b + ∑ _d : Fin 3, C * (2 * (32 * L₁ * (64 * L * (2 * b)))) := by
      simp only [Finset.sum_const, Finset.card_univ, Fintype.card_fin, nsmul_eq_mul]
      rw [hΓ]
      push_cast
      ring
    rw [e, hu'd]
    change |u j v + dt₀ * latDiv c.scheme.active c.h (schemeFlux c.scheme c.p none X) j v - _| ≤ _
    rw [abs_le] at h1 h2 ⊢
    constructor <;> linarith [h1.1, h1.2, h2.1, h2.2]
  -- what the detector sees
  have hsp : c.scheme.prim = computePrimitives G.gamma := by rw [← eG]; rfl
  have seen : ∀ (s : Ix → State ℝ np) (β : ℝ), b + β ≤ Γ * b → (∀ j, InCells c.n j → ∀ v,
      |s j v - cellMean x₀ c.h (fun x => conserved G.gamma (w x) v) j| ≤ β) → ∀ (i : Ix) (y : Fin 3 → ℝ), ‖y‖ ≤ R →
      (∀ d, c.scheme.active d = true → x₀ d + i d * c.h d ≤ y d ∧ y d ≤ x₀ d + (i d + 1) * c.h d) → ∀ i' : Ix,
      (∀ d, (c.n d : ℤ) ∣ i' d - i d) → ∀ v,
      |seenPrim c (fun _ => .wrap) (fun _ => .wrap) s i' v - activePart (w y) v| ≤ 64 * L * (Γ * b) := by
    intro s β hβ hsβ i y hy hyi i' hi' v
    have h1 := near s β hsβ i y hy hyi i' hi'
    have h2 := NearAt.prim hp (m := 0) hL (hprim y hy) (by linarith) (h1.mono (by norm_num) hβ) i' (by simp)
    unfold seenPrim
    rw [hsp]
    match v with
    | .rho =>
      have h3 := (dist_le_pi_dist _ _ (Var.rho : Var np)).trans h2
      rw [Real.dist_eq] at h3
      exact h3
    | .en =>
      have h3 := (dist_le_pi_dist _ _ (Var.en : Var np)).trans h2
      rw [Real.dist_eq] at h3
      exact h3
    | .mom d =>
      have h3 := (dist_le_pi_dist _ _ (Var.mom d : Var np)).trans h2
      rw [Real.dist_eq] at h3
      exact h3
  have w1 : b + b ≤ Γ * b := by linarith
  have w2 : b + (Γ - 1) * b ≤ Γ * b := le_of_eq (by ring)
  -- the range
  have hrange : ∀ v, V v → (∀ d, v = .mom d → A d = false → ¬ ∀ x, w x (.mom d) = κ d) →
      a₀ - 2 * (64 * L * (Γ * b)) ≤ gHi c.dims c.n (seenPrim c (fun _ => .wrap) (fun _ => .wrap) u) v -
      gLo c.dims c.n (seenPrim c (fun _ => .wrap) (fun _ => .wrap) u) v := by
    intro v hV hnf
    have ham : a v ≤ activePart (w (py v)) v - activePart (w (px v)) v := by
      rcases hamp v hV with h | ⟨d, e, h1, h2⟩
      · exact h
      · exact absurd h2 (hnf d e h1)
    have hcell : ∀ y : Fin 3 → ℝ, ∀ d, c.scheme.active d = true →
        x₀ d + (⌊(y d - x₀ d) / c.h d⌋ : ℤ) * c.h d ≤ y d ∧ y d ≤ x₀ d + ((⌊(y d - x₀ d) / c.h d⌋ : ℤ) + 1) * c.h d := by
      intro y d _
      have hp := hc.spacing d
      have b1 := Int.floor_le ((y d - x₀ d) / c.h d)
      have b2 := (Int.lt_floor_add_one ((y d - x₀ d) / c.h d)).le
      rw [le_div_iff₀ hp] at b1
      rw [div_le_iff₀ hp] at b2
      constructor <;> linarith
    have hwr : ∀ i : Ix, InPadded c.dims c.n (fun d => i d % c.n d) := fun i d => by
      have hn : (0 : ℤ) < c.n d := by exact_mod_cast hc.cells d
      have := Int.emod_nonneg (i d) hn.ne'
      have := Int.emod_lt_of_pos (i d) hn
      beta_reduce
      constructor <;> omega
    have hdv : ∀ (i : Ix) (d : Fin 3), (c.n d : ℤ) ∣ i d % c.n d - i d := fun i d => by
      have := wrapd i d
      rw [← neg_sub]
      exact this.neg_right
    have c1 := seen u b w1 hu' _ (py v) (hRx v).2 (hcell (py v)) _ (hdv fun d => ⌊(py v d - x₀ d) / c.h d⌋) v
    have c2 := seen u b w1 hu' _ (px v) (hRx v).1 (hcell (px v)) _ (hdv fun d => ⌊(px v d - x₀ d) / c.h d⌋) v
    have d1 := (gHi_greatest c.dims c.n hc.cells (seenPrim c (fun _ => .wrap) (fun _ => .wrap) u) v).2
      ⟨_, hwr fun d => ⌊(py v d - x₀ d) / c.h d⌋, rfl⟩
    have d2 := (gLo_least c.dims c.n hc.cells (seenPrim c (fun _ => .wrap) (fun _ => .wrap) u) v).2
      ⟨_, hwr fun d => ⌊(px v d - x₀ d) / c.h d⌋, rfl⟩
    beta_reduce at d1 d2
    have := hale v
    linarith [(abs_le.1 c1).1, (abs_le.1 c2).2]
  -- the constant components stay as they are
  have hmod : ∀ (s : Ix → State ℝ np) (d : Fin 3), (∀ j, InCells c.n j → s j (.mom d) = κ d * s j .rho) →
      ∀ j, drift d (κ d) (extAll c.n (fun _ => .wrap) (fun _ => .wrap) s j) = 0 := by
    intro s d h j
    rw [extAll_wrap c.n hc.cells, drift_apply, sub_eq_zero]
    exact h _ (wrapc j)
  have hΓm : 8 * (Γ * b) < m₁ := by
    have : 0 < Γ * b := by nlinarith
    nlinarith
  have hfz : ∀ d, A d = false → (∀ x, w x (.mom d) = κ d) → ∀ i,
      seenPrim c (fun _ => .wrap) (fun _ => .wrap) u i (.mom d) = κ d ∧
      seenPrim c (fun _ => .wrap) (fun _ => .wrap) u' i (.mom d) = κ d := by
    intro d hAd hconst i
    have hX0 := hmod u d (hfroz d hAd hconst)
    have hn0 := nonzero u b (by linarith) hu'
    have f1 : ∀ j, InCells c.n j → u' j (.mom d) = κ d * u' j .rho := by
      intro j hj
      have h1 : drift d (κ d) (u' j) = 0 := by
        rw [hu'd]
        beta_reduce
        rw [map_add, map_smul]
        have h2 : drift d (κ d) (u j) = 0 := by
          rw [drift_apply, sub_eq_zero]
          exact hfroz d hAd hconst j hj
        have h3 : drift d (κ d) (latDiv c.scheme.active c.h (schemeFlux c.scheme c.p none X) j) = 0 := by
          unfold latDiv
          rw [map_sum]
          refine Finset.sum_eq_zero fun e _ => ?_
          split_ifs with he
          · have hed : d ≠ e := by
              rintro rfl
              rw [hS.active, hAd] at he
              exact absurd he (by simp)
            have eF : schemeFlux c.scheme c.p none X e = latFlux ℝ (riemann k G e) c.p none e
                (latPrim ℝ (computePrimitives G.gamma) c.p X) := by
              rw [← eG, ← eK]
              rfl
            rw [map_smul, map_sub, eF, hX, drift_flux hp hX0 hn0 k G e hed, drift_flux hp hX0 hn0 k G e hed]
            simp
          · exact map_zero _
        rw [h2, h3]
        simp
      rwa [drift_apply, sub_eq_zero] at h1
    have hX1 := hmod u' d f1
    have hn1 := nonzero u' ((Γ - 1) * b) (by linarith) hcand
    unfold seenPrim
    rw [hsp]
    exact ⟨drift_prim hp hX0 hn0 i, drift_prim hp hX1 hn1 i⟩
  -- nothing is reported
  have hquiet : anyTrue (used o tr) = false := by
    have hut : used o tr = tr := by unfold used; rw [ho.free]; rfl
    rw [hut, Bool.eq_false_iff]
    intro hany
    obtain ⟨i, hi, htr⟩ := (anyTrue_iff tr).1 hany
    rw [k2] at hi
    have hrep := (k3 i hi).1 htr
    rw [← hX, ← hu'd] at hrep
    obtain ⟨y, hy, hyi⟩ := centre i hi
    have s1 := seen u b w1 hu' i y hy hyi i (fun d => by simp)
    have s2 := seen u' _ w2 hcand i y hy hyi i (fun d => by simp)
    refine considered_quiet ho c.dims c.n _ _ i (fun v hcv => ?_) ?_ hrep
    · by_cases hfv : ∃ d, v = .mom d ∧ A d = false ∧ ∀ x, w x (.mom d) = κ d
      · obtain ⟨d, rfl, h1, h2⟩ := hfv
        rw [(hfz d h1 h2 i).1, (hfz d h1 h2 i).2, sub_self, abs_zero]
        refine mul_nonneg ho.tolerance (sub_nonneg.2 ?_)
        obtain ⟨y, hy, e⟩ := (gLo_least c.dims c.n hc.cells (seenPrim c (fun _ => .wrap) (fun _ => .wrap) u) (.mom d)).1
        rw [← e]
        exact (gHi_greatest c.dims c.n hc.cells (seenPrim c (fun _ => .wrap) (fun _ => .wrap) u) (.mom d)).2 ⟨y, hy, rfl⟩
      · have hr := hrange v (hoV v hcv) fun d e h1 h2 => hfv ⟨d, e, h1, h2⟩
        have q2 : 2 * (64 * L * (Γ * b)) ≤ ε * (a₀ - 2 * (64 * L * (Γ * b))) := by
          have e : ε * (a₀ - 2 * (64 * L * (Γ * b))) - 2 * (64 * L * (Γ * b)) = ε * a₀ - 2 * (64 * L * Γ) * (1 + ε) * b := by ring
          linarith
        have q0 : 0 ≤ a₀ - 2 * (64 * L * (Γ * b)) := by
          have : 0 ≤ Γ * b := by linarith
          exact (mul_nonneg_iff_of_pos_left hε).1 (le_trans (by positivity) q2)
        have q1 : ε * (a₀ - 2 * (64 * L * (Γ * b))) ≤ o.eps * (gHi c.dims c.n (seenPrim c (fun _ => .wrap) (fun _ => .wrap) u) v -
            gLo c.dims c.n (seenPrim c (fun _ => .wrap) (fun _ => .wrap) u) v) :=
          mul_le_mul hεo hr q0 ho.tolerance
        refine le_trans ?_ q1
        have e1 := abs_le.1 (s1 v)
        have e2 := abs_le.1 (s2 v)
        rw [abs_le]
        constructor <;> linarith [e1.1, e1.2, e2.1, e2.2]
    · have e2 := abs_le.1 (s2 .en)
      have := low₂ y (hin y y hy (by simp))
      change -_ ≤ _ - w y .en ∧ _ at e2
      have : 64 * L * Γ * b = 64 * L * (Γ * b) := by ring
      linarith [e2.1]
  rw [k4, limitedResult_quiet c o _ _ _ _ hquiet, g2]
  rfl

/-- **C114, order of accuracy** For a smooth flow the limited right-hand side keeps the order of C94: with `q + 2` continuous
derivatives and active degrees at least `q` its error is at most a constant times `r ^ (q + 1)`, `r` being the radius of the
stencil, on all grids with `r ≤ r₀`. -/
theorem C114_order (G : Gas ℝ) (hs : IsSqrt G.sqrt) (hg : 0 < G.gamma) (hfl : 0 < G.csqFloor) (k : RiemannKind) (q : ℕ)
    (A : Fin 3 → Bool) (hA : ∃ d, A d = true) (cfl : ℝ) (hcfl : 0 < cfl) (ε : ℝ) (hε : 0 < ε)
    (w : (Fin 3 → ℝ) → State ℝ np) (hw : SmoothState (q + 2) w) (hpos : ∀ x, 0 < w x .rho ∧ 0 < w x .en)
    (hmov : k = .advectionUpwind → ∀ x d, A d = true → w x (.mom d) ≠ 0) (V : Var 0 → Prop) (κ : Fin 3 → ℝ)
    (hv : ∀ v, V v → (∃ x y, activePart (w x) v < activePart (w y) v) ∨
      ∃ d, v = .mom d ∧ A d = false ∧ ∀ x, w x (.mom d) = κ d) (x₀ ℓ : Fin 3 → ℝ) :
    ∃ C ≥ 0, ∃ r₀ > 0, ∀ c : EulerConfig ℝ np, QuietSetup c G k A cfl ℓ w → (∀ d, A d = true → q ≤ c.p d) →
      ∀ r ≤ r₀, (∀ d, A d = true → (reach c.scheme d + 1 / 2) * c.h d ≤ r) →
      ∀ o : LimiterOpts ℝ, GlobalTest o → ε ≤ o.eps → (∀ v, o.toDetectOpts.considers v = true → V v) → ∀ u : Ix → State ℝ np,
      (∀ j, InCells c.n j → ∀ v, u j v = cellMean x₀ c.h (fun x => conserved G.gamma (w x) v) j) →
      ∀ (junk : ℕ → Ix → State ℝ np) (mem : Fin 3 → Ix → State ℝ np) (t t' : ℝ),
      ∃ dt D, solverRHS (c.limited (some o)).scheme junk mem t t' u = .ok (dt, D) ∧ ∀ i, InCells c.n i → ∀ v,
        |D i v - -cellMean x₀ c.h (fluxDiv k G.gamma w v) i| ≤ C * r ^ (q + 1) := by
  obtain ⟨C, hC, r₁, hr₁, H1⟩ := C94_periodic G hs hg k q w hw hpos A hmov x₀ ℓ
  obtain ⟨H, hH, B, hB, H2⟩ := C114_quiet G hs hg hfl k A hA cfl hcfl ε hε w (fun v => (hw v).continuous) hpos V κ hv x₀ ℓ
  refine ⟨C, hC, min r₁ H, lt_min hr₁ hH, ?_⟩
  intro c hS hq r hr hrad o ho hεo hoV u hu junk mem t t'
  have hc := hS.setup
  have hr' : ∀ d, c.scheme.active d = true → (reach c.scheme d + 1 / 2) * c.h d ≤ r := fun d hd =>
    hrad d (by rw [← hS.active]; exact hd)
  have hspace : ∀ d, A d = true → c.h d ≤ r := by
    intro d hd
    refine le_trans ?_ (hrad d hd)
    have h1 : (1 : ℝ) ≤ reach c.scheme d := by
      have : 1 ≤ reach c.scheme d := by
        unfold reach
        rw [if_pos (by rw [hS.active]; exact hd)]
        exact le_max_of_le_left (by omega)
      exact_mod_cast this
    have := hc.spacing d
    nlinarith
  have hr0 : 0 ≤ r := by
    obtain ⟨d, hd⟩ := hA
    exact (hc.spacing d).le.trans (hspace d hd)
  obtain ⟨dt, D, e, hD⟩ := H1 c ⟨hc, hS.gas, hS.riem, fun d hd => hq d (by rw [← hS.active]; exact hd), hS.depends⟩
    (fun d hd => by rw [← hS.active]; exact hd) hS.fills hS.box hS.periodic r hr0 (hr.trans (min_le_left _ _)) hr' t t' u hu junk mem
  refine ⟨dt, D, ?_, hD⟩
  rw [← e]
  refine H2 c hS (fun d hd => (hspace d hd).trans (hr.trans (min_le_right _ _))) o ho hεo hoV u (fun j hj v => by
    rw [hu j hj v, sub_self, abs_zero]
    exact hB.le) (fun d _ hκ j hj => ?_) junk mem t t'
  rw [hu j hj, hu j hj]
  simp only [conserved, hκ]
  rw [cellMean_eq _ _ hc.spacing, cellMean_eq _ _ hc.spacing, integral_mul_const]
  ring

/-! ### The hypotheses can be met -/

/-- The flow of C93 on grids as fine as wanted. -/
theorem wavy_quiet (k : RiemannKind) (r₀ : ℝ) (hr₀ : 0 < r₀) : ∃ N : ℕ,
    QuietSetup (wavyConfig k N) airGas k ![true, false, false] (1 / 2) ![2 * Real.pi, 1, 1] wavyFlow ∧
    ∀ d, (![true, false, false] : Fin 3 → Bool) d = true → 2 ≤ (wavyConfig k N).p d ∧
      (reach (wavyConfig k N).scheme d + 1 / 2) * (wavyConfig k N).h d ≤ r₀ := by
  obtain ⟨N, hS, hf, hb, hper, hr'⟩ := wavy_suits k (min r₀ (1 / 4)) (lt_min hr₀ (by norm_num))
  have hr := fun d hd => (hr' d hd).trans (min_le_left r₀ (1 / 4))
  have ha : ∀ d, (wavyConfig k N).scheme.active d = (![true, false, false] : Fin 3 → Bool) d := by
    intro d
    match d with
    | 0 =>
      change (!(N == 1 && (2 : ℕ) == 0)) = true
      simp
    | 1 => rfl
    | 2 => rfl
  refine ⟨N, ⟨hS.setup, rfl, rfl, ha, rfl, by norm_num [wavyConfig], by norm_num [wavyConfig], hf, hb, ?_, hS.depends, hper⟩,
    fun d hd => ⟨hS.degrees d (by rw [ha]; exact hd), hr d (by rw [ha]; exact hd)⟩⟩
  intro d hd
  have hw := hb.wide d hd
  match d with
  | 0 =>
    unfold fluxWidth at hw
    rw [if_pos hd] at hw
    change fluxGw ![2, 0, 0] + 2 * ceilHalf ((![2, 0, 0] : Fin 3 → ℕ) 0) ≤ N at hw
    constructor
    · refine le_trans ?_ hw
      unfold fluxWidth
      rw [if_pos hd]
      have e : fallbackP (wavyConfig k N).p = ![1, 0, 0] := by
        funext d
        match d with
        | 0 | 1 | 2 => rfl
      change fluxGw (fallbackP (wavyConfig k N).p) + 2 * ceilHalf (fallbackP (wavyConfig k N).p 0) ≤ _
      rw [e]
      decide
    · unfold detectWidth
      rw [if_pos hd]
      change 3 + 2 * ceilHalf ((![2, 0, 0] : Fin 3 → ℕ) 0) ≤ N
      have h1 : (reach (wavyConfig k N).scheme 0 + 1 / 2) * (2 * Real.pi / N) ≤ 1 / 4 := (hr' 0 hd).trans (min_le_right _ _)
      have h2 : (0 : ℝ) ≤ reach (wavyConfig k N).scheme 0 := by positivity
      have h3 := Real.two_le_pi
      have hN : (0 : ℝ) < N := by exact_mod_cast hS.setup.cells 0
      have h4 : (1 / 2) * (2 * Real.pi / N) ≤ 1 / 4 :=
        le_trans (mul_le_mul_of_nonneg_right (by linarith) (by positivity)) h1
      have h5 : 2 * Real.pi / N ≤ 1 / 2 := by linarith
      rw [div_le_iff₀ hN] at h5
      have h6 : (5 : ℝ) ≤ N := by linarith
      exact_mod_cast h6
  | 1 => rw [ha] at hd; exact absurd hd (by decide)
  | 2 => rw [ha] at hd; exact absurd hd (by decide)

theorem wavy_varies (v : Var 0) : ∃ x y, activePart (wavyFlow x) v < activePart (wavyFlow y) v := by
  have hp := Real.pi_pos
  match v with
  | .rho =>
    refine ⟨fun _ => 0, fun _ => Real.pi / 2, ?_⟩
    change 2 + Real.sin 0 < 2 + Real.sin (Real.pi / 2)
    norm_num
  | .mom d =>
    refine ⟨fun _ => 0, fun _ => Real.pi / 2, ?_⟩
    change Real.sin 0 < Real.sin (Real.pi / 2)
    norm_num
  | .en =>
    refine ⟨fun _ => Real.pi, fun _ => 0, ?_⟩
    change 2 + Real.cos Real.pi < 2 + Real.cos 0
    norm_num

/-- With the default limiter of the solver and hllc the error of the limited right-hand side of this flow is of third order at
degree 2, and there are grids as fine as wanted to which this applies. -/
example : (∃ C ≥ 0, ∃ r₀ > 0, ∀ c : EulerConfig ℝ 1,
    QuietSetup c airGas .hllc ![true, false, false] (1 / 2) ![2 * Real.pi, 1, 1] wavyFlow → (∀ d,
      (![true, false, false] : Fin 3 → Bool) d = true → 2 ≤ c.p d) → ∀ r ≤ r₀, (∀ d, (![true, false, false] : Fin 3 → Bool) d = true →
      (reach c.scheme d + 1 / 2) * c.h d ≤ r) → ∀ u : Ix → State ℝ 1,
    (∀ j, InCells c.n j → ∀ v, u j v = cellMean 0 c.h (fun x => conserved airGas.gamma (wavyFlow x) v) j) →
    ∃ dt D, solverRHS (c.limited (some defaultLimiter)).scheme (fun _ _ => 0) (fun _ _ => 0) 0 0 u = .ok (dt, D) ∧
      ∀ i, InCells c.n i → ∀ v, |D i v - -cellMean 0 c.h (fluxDiv .hllc airGas.gamma wavyFlow v) i| ≤ C * r ^ 3) ∧
    ∀ r₀ > 0, ∃ N, QuietSetup (wavyConfig .hllc N) airGas .hllc ![true, false, false] (1 / 2) ![2 * Real.pi, 1, 1] wavyFlow ∧
      ∀ d, (![true, false, false] : Fin 3 → Bool) d = true → 2 ≤ (wavyConfig .hllc N).p d ∧
        (reach (wavyConfig .hllc N).scheme d + 1 / 2) * (wavyConfig .hllc N).h d ≤ r₀ := by
  obtain ⟨C, hC, r₀, hr₀, H⟩ := C114_order airGas airGas_sqrt (by norm_num [airGas]) (by norm_num [airGas]) .hllc 2
    ![true, false, false] ⟨0, rfl⟩ (1 / 2) (by norm_num) (1 / 100) (by norm_num) wavyFlow (wavyFlow_smooth 4) wavyFlow_pos
    (fun h => by cases h) (fun _ => True) 0 (fun v _ => Or.inl (wavy_varies v)) 0 ![2 * Real.pi, 1, 1]
  exact ⟨⟨C, hC, r₀, hr₀, fun c hS hq r hr hrad u hu => H c hS hq r hr hrad defaultLimiter
    ⟨rfl, rfl, rfl, by norm_num [defaultLimiter], Or.inr rfl⟩ le_rfl (fun _ _ => trivial) u hu _ _ _ _⟩,
    fun r₀ hr₀ => wavy_quiet .hllc r₀ hr₀⟩

end FVHOE
