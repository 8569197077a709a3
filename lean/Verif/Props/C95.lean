import Verif.Proofs.GridField
import Verif.Proofs.ForwardT
import Verif.Proofs.Refine
import Verif.Props.C71
import Verif.Props.C93

/-!
C95: limits of runs on finer and finer grids are weak solutions of the equations (Lax and Wendroff).
-/

set_option linter.unusedSectionVars false

namespace FVHOE

open MeasureTheory Filter Topology

variable {np : ℕ}

/-- `U` is a weak solution, in the periodic box with sides `ℓ` and up to time `T`, of the conservation laws with the fluxes
`F` along the directions `A`, with initial values `U₀`. -/
def IsWeakSolution (ℓ : Fin 3 → ℝ) (T : ℝ) (A : Finset (Fin 3)) (F : Fin 3 → State ℝ np → State ℝ np)
    (U₀ : (Fin 3 → ℝ) → State ℝ np) (U : ℝ × (Fin 3 → ℝ) → State ℝ np) : Prop :=
  ∀ φ : ℝ × (Fin 3 → ℝ) → ℝ, ContDiff ℝ 2 φ → (∀ s d x, φ (s, x + Pi.single d (ℓ d)) = φ (s, x)) → (∀ x, φ (T, x) = 0) →
    ∀ v, (∫ x in {x | ∀ d, 0 ≤ x d ∧ x d < ℓ d}, U₀ x v * φ (0, x)) +
      ∫ s in (0 : ℝ)..T, ∫ x in {x | ∀ d, 0 ≤ x d ∧ x d < ℓ d}, (U (s, x) v * fderiv ℝ φ (s, x) (1, 0) +
        ∑ d ∈ A, F d (U (s, x)) v * fderiv ℝ φ (s, x) (0, Pi.single d 1)) = 0

/-- The flux of the conserved variables that a Riemann solver approximates: that of the Euler equations, or, for
`advection_upwind`, that of passive transport. -/
noncomputable def lawFlux (r : RiemannKind) (gamma : ℝ) (d : Fin 3) (u : State ℝ np) : State ℝ np :=
  match r with
  | .advectionUpwind => carriedFlux gamma d (computePrimitives gamma u)
  | .llf => eulerFlux gamma d (computePrimitives gamma u)
  | .hllc => eulerFlux gamma d (computePrimitives gamma u)

/-- The times and states of a sequence of `N` steps starting at time zero, each started before its target. -/
structure Trajectory (stp : ℝ → (Ix → State ℝ np) → Option ℝ → Except PyErr (ℝ × (Ix → State ℝ np))) (N : ℕ) (t : ℕ → ℝ)
    (u : ℕ → Ix → State ℝ np) : Prop where
  start : t 0 = 0
  step : ∀ m < N, ∃ target τ, (∀ g, target = some g → t m < g) ∧ stp (t m) (u m) target = .ok (τ, u (m + 1)) ∧
    t (m + 1) = t m + τ

/-- The right-hand side of configuration `c`, refusing states at which the gas laws are evaluated outside `K`. -/
noncomputable def keptIn (K : Set (State ℝ np)) (A : Finset (Fin 3)) (c : EulerConfig ℝ np) (f : RHS ℝ (Ix → State ℝ np)) :
    RHS ℝ (Ix → State ℝ np) :=
  restrictTo (fun u => StaysIn c.gas.gamma c.p A K fun i => u fun d => i d % c.n d) f

theorem lawFlux_target (r : RiemannKind) (gamma : ℝ) (d : Fin 3) (u : State ℝ np) :
    lawFlux r gamma d u = targetFlux r gamma d (computePrimitives gamma u) := by
  cases r <;> rfl

theorem measurable_law (r : RiemannKind) (gamma : ℝ) (d : Fin 3) : Measurable (lawFlux (np := np) r gamma d) := by
  have ev : ∀ v : Var np, Measurable fun u : State ℝ np => u v := fun v => measurable_pi_apply v
  have pr : Measurable (computePrimitives (np := np) gamma) := by
    refine measurable_pi_lambda _ fun v => ?_
    cases v with
    | rho => exact ev .rho
    | mom e => exact (ev _).div (ev .rho)
    | en =>
      simp only [computePrimitives, sum3]
      have q : ∀ d, Measurable fun y : State ℝ np => y (.mom d) * (y (.mom d) / y .rho) := fun d =>
        (ev _).mul ((ev _).div (ev .rho))
      exact measurable_const.mul ((ev .en).sub (measurable_const.mul (((q 0).add (q 1)).add (q 2))))
    | ps j => exact (ev _).div (ev .rho)
  have tc : Measurable (targetFlux (np := np) r gamma d) :=
    (continuous_iff_continuousAt.2 fun w => (lip_target r gamma d w).continuousAt).measurable
  have : lawFlux (np := np) r gamma d = fun u => targetFlux r gamma d (computePrimitives gamma u) :=
    funext (lawFlux_target r gamma d)
  rw [this]
  exact tc.comp pr

/-- **C95** Let runs on a sequence of grids of a periodic box, with any degree up to eight, any Riemann solver, any time
stepper and no limiting, evaluate the gas laws only in a compact set `K` of states of positive density and pressure, and let
the spacings of the active directions go to zero. If the initial states converge in the mean to `U₀` and the runs converge in
the mean to `U`, then `U` is a weak solution of the conservation laws with initial values `U₀`. -/
theorem C95_weak {G : Gas ℝ} (hG : G.OK) {r : RiemannKind} {p : Fin 3 → ℕ} (hp : ∀ d, p d ≤ 8) {A : Finset (Fin 3)}
    (hA : A.Nonempty) {cfl : ℝ} (hcfl : 0 < cfl) (m : Integrator) {ℓ : Fin 3 → ℝ} {T : ℝ} (hT : 0 < T)
    {K : Set (State ℝ np)} (hK : IsCompact K)
    (hpos : ∀ k ∈ K, 0 < k .rho ∧ 0 < computePrimitives G.gamma k .en)
    (c : ℕ → EulerConfig ℝ np) (hc : ∀ k, InFamily (c k) G r p A cfl) (hbox : ∀ k, FillsBox (c k) ℓ)
    (hh : ∀ d ∈ A, Tendsto (fun k => (c k).h d) atTop (𝓝 0))
    (f : ℕ → RHS ℝ (Ix → State ℝ np)) (hf : ∀ k, IsSolverRHS (c k).scheme (f k))
    (N : ℕ → ℕ) (t : ℕ → ℕ → ℝ) (u : ℕ → ℕ → Ix → State ℝ np)
    (htr : ∀ k, Trajectory (stepper (keptIn K A (c k) (f k)) m) (N k) (t k) (u k)) (hend : ∀ k, t k (N k) = T)
    {U₀ : (Fin 3 → ℝ) → State ℝ np} {U : ℝ × (Fin 3 → ℝ) → State ℝ np} (hU₀ : Measurable U₀) (hU₀K : ∀ x, U₀ x ∈ K)
    (hU : Measurable U) (hUper : ∀ s d x, U (s, x + Pi.single d (ℓ d)) = U (s, x)) (hUK : ∀ z, U z ∈ K)
    (hinit : Tendsto (fun k => ∫ x in {x | ∀ d, 0 ≤ x d ∧ x d < ℓ d}, ‖onGrid (c k).n (c k).h (u k 0) x - U₀ x‖) atTop (𝓝 0))
    (hconv : Tendsto (fun k => ∑ j ∈ Finset.range (N k), ∫ s in t k j..t k (j + 1), ∫ x in {x | ∀ d, 0 ≤ x d ∧ x d < ℓ d},
      ‖onGrid (c k).n (c k).h (u k j) x - U (s, x)‖) atTop (𝓝 0)) :
    IsWeakSolution ℓ T A (fun d => lawFlux r G.gamma d) U₀ U := by
  intro φ hφ hper hφT v
  have hgas : ∀ k ∈ K, PosGas (computePrimitives G.gamma k) := fun k hk => hpos k hk
  have hAp : ∀ d, d ∉ A → p d = 0 := (hc 0).toInClass.inactive
  -- the steps of all runs as one family
  let I := {q : ℕ × ℕ // q.2 < N q.1}
  let w : ℕ → Ix → Ix := fun k i d => i d % (c k).n d
  let us : I → Ix → State ℝ np := fun a i => u a.1.1 a.1.2 (w a.1.1 i)
  let us' : I → Ix → State ℝ np := fun a i => u a.1.1 (a.1.2 + 1) (w a.1.1 i)
  let τ : I → ℝ := fun a => t a.1.1 (a.1.2 + 1) - t a.1.1 a.1.2
  let Ev : I → (Ix → State ℝ np) → (Fin 3 → Ix → State ℝ np) → Prop := fun a v F =>
    StaysIn G.gamma p A K v ∧ (∀ d i, v (i + Pi.single d ((c a.1.1).n d : ℤ)) = v i) ∧
      F = fun d => latFlux ℝ (riemann r G d) p none d (latPrim ℝ (computePrimitives G.gamma) p v)
  have hkept : ∀ k s t u dt D, keptIn K A (c k) (f k) s t u = .ok (dt, D) →
      StaysIn G.gamma p A K (fun i => u (w k i)) ∧ f k s t u = .ok (dt, D) := by
    intro k s t u dt D h
    have := restrictTo_ok h
    rw [(hc k).gas, (hc k).degrees] at this
    exact this
  -- one step
  have hone : ∀ k, ∀ j < N k, RKStep m (fun v F => StaysIn G.gamma p A K v ∧ (∀ d i, v (i + Pi.single d ((c k).n d : ℤ)) = v i) ∧
        F = fun d => latFlux ℝ (riemann r G d) p none d (latPrim ℝ (computePrimitives G.gamma) p v)) (c k).scheme.active (c k).h
        (t k (j + 1) - t k j) (fun i => u k j (w k i)) (fun i => u k (j + 1) (w k i)) ∧
      StaysIn G.gamma p A K (fun i => u k j (w k i)) ∧ t k j < t k (j + 1) ∧
      ∀ d, t k (j + 1) - t k j ≤ cfl / Real.sqrt G.csqFloor * (c k).h d := by
    intro k j hj
    obtain ⟨target, τ, hg, hs, ht⟩ := (htr k).step j hj
    have eτ : t k (j + 1) - t k j = τ := by rw [ht]; ring
    obtain ⟨dt, D, h0, hτ⟩ := stepper_dt _ _ _ _ _ _ _ hs
    obtain ⟨hin, h0⟩ := hkept _ _ _ _ _ _ h0
    obtain ⟨hdt0, hdt1⟩ := (hc k).toInClass.dt_bounds hG.sqrt hG.floor hcfl hA ((hc k).eval hp (hf k) h0).2
    have hτ0 : 0 < τ ∧ τ ≤ dt := by
      rw [hτ]
      cases target with
      | none => exact ⟨hdt0, le_rfl⟩
      | some g =>
        refine ⟨hitTarget_pos hdt0 (hg g rfl), ?_⟩
        simp only [hitTarget]
        split
        · rename_i hlt; exact hlt.le
        · exact le_rfl
    rw [eτ]
    refine ⟨rkStep_of_stepper (w k) (fun s t u dt D h => ?_) m _ _ _ _ _ hs, hin, by rw [ht]; linarith,
      fun d => hτ0.2.trans (hdt1 d)⟩
    obtain ⟨hin, h⟩ := hkept _ _ _ _ _ _ h
    exact ⟨_, ⟨hin, fun d i => wrap_periodic (c k).n u d i, rfl⟩, ((hc k).eval hp (hf k) h).1⟩
  obtain ⟨g, hg1, hg2, hg3⟩ := step_tracks (A := A) (K := K) (u := us) (u' := us') m (Ev := Ev) (f := fun d => lawFlux r G.gamma d)
    (fun v F hF hv d hd => (flux_tracks r G hG.sqrt hG.gamma.le hp hAp hK hgas (fun a => (hF a).1) hv hd).congr
      (fun a i => by rw [(hF a).2.2]) fun k _ => lawFlux_target r G.gamma d k)
    (act := fun a => (c a.1.1).scheme.active) (fun a d => (hc a.1.1).active d) (h := fun a => (c a.1.1).h) (τ := τ)
    (R := cfl / Real.sqrt G.csqFloor) (fun a => (sub_pos.2 (hone _ _ a.2).2.2.1).le) (fun a => (hc a.1.1).spacing)
    (fun a d _ => (hone _ _ a.2).2.2.2 d) (fun a => (hone _ _ a.2).1)
  -- one stencil and constant for all directions
  have hLS : ∃ S : Finset Ix, ∃ L : ℝ, 0 ≤ L ∧ (∀ σ ∈ S, ∀ d, d ∉ A → σ d = 0) ∧ ∀ d ∈ A, ∀ a, ∀ k ∈ K, ∀ i,
      ‖g a d i - lawFlux r G.gamma d k‖ ≤ L * ∑ σ ∈ S, ‖us a (i + σ) - k‖ := by
    classical
    choose! S L hL hS H using hg2
    refine ⟨A.biUnion S, ∑ d ∈ A, L d, Finset.sum_nonneg hL, fun σ hσ => ?_, fun d hd a k hk i => ?_⟩
    · obtain ⟨d, hd, hσ⟩ := Finset.mem_biUnion.1 hσ
      exact hS d hd σ hσ
    · refine (H d hd a k hk i).trans (mul_le_mul (Finset.single_le_sum hL hd) ?_ (Finset.sum_nonneg fun _ _ => norm_nonneg _)
        (Finset.sum_nonneg hL))
      exact Finset.sum_le_sum_of_subset_of_nonneg (Finset.subset_biUnion_of_mem S hd) fun _ _ _ => norm_nonneg _
  obtain ⟨S, L, hL, hS, HS⟩ := hLS
  have hgper : ∀ a e d i, g a d (i + Pi.single e ((c a.1.1).n e : ℤ)) = g a d i := by
    intro a e
    refine hg3 a _ ?_
    rintro v F ⟨-, hv, rfl⟩ d i
    have := flux_periodic (c a.1.1).scheme p none (hv e) d i
    have e' : schemeFlux (c a.1.1).scheme p none v d = latFlux ℝ (riemann r G d) p none d (latPrim ℝ (computePrimitives G.gamma) p v) := by
      unfold schemeFlux
      rw [show (c a.1.1).scheme.prim = computePrimitives (c a.1.1).gas.gamma from rfl,
        show (c a.1.1).scheme.riem d = riemann (c a.1.1).riem (c a.1.1).gas d from rfl, (hc _).gas, (hc _).riem]
    rwa [e'] at this
  -- the fields
  obtain ⟨B, hB⟩ : ∃ B, ∀ k ∈ K, ‖k‖ ≤ B ∧ ∀ d, ‖lawFlux r G.gamma d k‖ ≤ B := by
    obtain ⟨B, hB⟩ := hK.isBounded.exists_norm_le
    have hb : ∀ d, ∃ B, ∀ k ∈ K, ‖lawFlux r G.gamma d k‖ ≤ B := by
      intro d
      have hcont : ContinuousOn (lawFlux (np := np) r G.gamma d) K := by
        rw [show lawFlux (np := np) r G.gamma d = fun u => targetFlux r G.gamma d (computePrimitives G.gamma u) from
          funext (lawFlux_target r G.gamma d)]
        exact fun k hk => ((lip_target r G.gamma d _).continuousAt.comp
          (lip_prim G.gamma (hpos k hk).1.ne').continuousAt).continuousWithinAt
      obtain ⟨B, hB⟩ := (hK.image_of_continuousOn hcont).isBounded.exists_norm_le
      exact ⟨B, fun k hk => hB _ ⟨k, hk, rfl⟩⟩
    choose B' hB' using hb
    refine ⟨|B| + ∑ d, |B' d|, fun k hk => ⟨?_, fun d => ?_⟩⟩
    · exact (hB k hk).trans ((le_abs_self B).trans (le_add_of_nonneg_right (Finset.sum_nonneg fun _ _ => abs_nonneg _)))
    · refine (hB' d k hk).trans ((le_abs_self _).trans ?_)
      exact (Finset.single_le_sum (f := fun d => |B' d|) (fun _ _ => abs_nonneg _) (Finset.mem_univ d)).trans
        (le_add_of_nonneg_left (abs_nonneg B))
  let gs : ℕ → ℕ → Fin 3 → (Fin 3 → ℝ) → State ℝ np := fun k j d x =>
    if hj : j < N k then g ⟨(k, j), hj⟩ d (cellAt (c k).h x) else 0
  have hcons : ∀ k, ∀ j < N k, ConsStep ℓ (c k).h A K (fun d => lawFlux r G.gamma d) S Set.univ L (t k (j + 1) - t k j)
      (onGrid (c k).n (c k).h (u k j)) (onGrid (c k).n (c k).h (u k (j + 1))) (gs k j) := by
    intro k j hj
    have egs : ∀ d, gs k j d = fun x => g ⟨(k, j), hj⟩ d (cellAt (c k).h x) := fun d => funext fun x => dif_pos hj
    have hone' := hone k j hj
    refine ⟨measurable_grid (c k).h fun i => u k j (w k i), grid_periodic (U := fun i => u k j (w k i)) (hc k).spacing (hbox k) fun d i =>
      wrap_periodic (c k).n (u k j) d i, fun x => (hone'.2.1 _).1, fun d _ => ?_, fun d _ => ?_, fun x _ => ?_, fun d hd x k' hk' => ?_⟩
    · rw [egs]
      exact measurable_grid _ _
    · rw [egs]
      exact grid_periodic (hc k).spacing (hbox k) fun e i => hgper ⟨(k, j), hj⟩ e d i
    · have h1 := congrFun (hg1 ⟨(k, j), hj⟩) (cellAt (c k).h x)
      refine h1.trans ?_
      rw [Pi.add_apply, Pi.smul_apply]
      congr 2
      unfold latDiv
      refine (Finset.sum_subset (Finset.subset_univ A) fun d _ hd => ?_).symm.trans (Finset.sum_congr rfl fun d hd => ?_)
      · exact if_neg fun h => hd (((hc k).active d).1 h)
      · refine (if_pos (((hc k).active d).2 hd)).trans ?_
        have es : Pi.single d ((c k).h d) = latShift (c k).h (Pi.single d 1) := by
          rw [latShift_single, Int.cast_one, one_mul]
        rw [egs, es]
        simp only [cellAt_shift (hc k).spacing]
    · rw [egs]
      refine (HS d hd ⟨(k, j), hj⟩ k' hk' _).trans (le_of_eq ?_)
      congr 1
      refine Finset.sum_congr rfl fun σ _ => ?_
      unfold onGrid
      rw [cellAt_shift (hc k).spacing]
  obtain ⟨d₀, hd₀⟩ := hA
  have hℓ : ∀ d, 0 < ℓ d := fun d => by
    rw [← hbox 0 d]
    have : 0 < (c 0).n d := (hc 0).cells d
    have := (hc 0).spacing d
    positivity
  exact weak_limit (ℓ := ℓ) (hs := fun k => (c k).h) (Ns := N) (tms := t) (uss := fun k j => onGrid (c k).n (c k).h (u k j))
    (gss := gs) (δ := fun k => cfl / Real.sqrt G.csqFloor * (c k).h d₀) (A := A) (B := B) (L := L) (S := S) (K := K) (T := T)
    hT (fun k => (htr k).start) hend (fun k j hj => (hone k j hj).2.2.1) hcons hL hB (fun d => measurable_law r G.gamma d) hℓ
    (fun k d _ => ⟨(hc k).spacing d, by
      rw [← hbox k d]
      have h1 : (1 : ℝ) ≤ (c k).n d := by exact_mod_cast (hc k).cells d
      have := (hc k).spacing d
      nlinarith⟩) hS hU (fun s d x => hUper s d x) hUK hU₀ hU₀K (fun k j hj => (hone k j hj).2.2.2 d₀)
    (by simpa using (hh d₀ hd₀).const_mul (cfl / Real.sqrt G.csqFloor)) hh hinit hconv hφ (fun s d x => hper s d x) hφT (fun k s x _ hx => absurd (Set.mem_univ x) hx) v

/-! ### First-order runs -/

theorem staysIn_zero {p : Fin 3 → ℕ} (hp : ∀ d, p d = 0) (gamma : ℝ) (A : Finset (Fin 3)) {K : Set (State ℝ np)}
    {U : Ix → State ℝ np} (hU : ∀ i, U i ∈ K) : StaysIn gamma p A K U := by
  have hp1 : ∀ d, p d ≤ 1 := fun d => by rw [hp]; omega
  intro i
  have hc : latCenters ℝ p U = U := by
    unfold latCenters
    rw [latC_low (hp1 _), latC_low (hp1 _), latC_low (hp1 _)]
  refine ⟨hU i, by rw [hc]; exact hU i, fun d _ => ?_⟩
  have hl : latLine ℝ p d (latPrim ℝ (computePrimitives gamma) p U) = fun i => computePrimitives gamma (U i) := by
    unfold latLine
    rw [latC_low (hp1 _), latC_low (hp1 _), latPrim_low _ hp1]
  rw [hl, hp, latR_zero, latL_zero]
  exact ⟨⟨_, hU i, rfl⟩, ⟨_, hU i, rfl⟩⟩

theorem restrictTo_euler {Q : (Ix → State ℝ np) → Prop} {f : RHS ℝ (Ix → State ℝ np)} {t : ℝ} {u : Ix → State ℝ np} (hQ : Q u)
    (target : Option ℝ) : stepper (restrictTo Q f) .euler t u target = stepper f .euler t u target := by
  simp only [stepper, eulerStepper, restrictTo, if_pos hQ]

/-- **C95** for the first-order scheme: it is enough that the cell averages stay in `K`. -/
theorem C95_first_order {G : Gas ℝ} (hG : G.OK) {r : RiemannKind} {A : Finset (Fin 3)}
    (hA : A.Nonempty) {cfl : ℝ} (hcfl : 0 < cfl) {ℓ : Fin 3 → ℝ} {T : ℝ} (hT : 0 < T)
    {K : Set (State ℝ np)} (hK : IsCompact K)
    (hpos : ∀ k ∈ K, 0 < k .rho ∧ 0 < computePrimitives G.gamma k .en)
    (c : ℕ → EulerConfig ℝ np) (hc : ∀ k, InFamily (c k) G r (fun _ => 0) A cfl) (hbox : ∀ k, FillsBox (c k) ℓ)
    (hh : ∀ d ∈ A, Tendsto (fun k => (c k).h d) atTop (𝓝 0))
    (f : ℕ → RHS ℝ (Ix → State ℝ np)) (hf : ∀ k, IsSolverRHS (c k).scheme (f k))
    (N : ℕ → ℕ) (t : ℕ → ℕ → ℝ) (u : ℕ → ℕ → Ix → State ℝ np)
    (htr : ∀ k, Trajectory (stepper (f k) .euler) (N k) (t k) (u k)) (hend : ∀ k, t k (N k) = T)
    (hin : ∀ k, ∀ j < N k, ∀ i, InCells (c k).n i → u k j i ∈ K)
    {U₀ : (Fin 3 → ℝ) → State ℝ np} {U : ℝ × (Fin 3 → ℝ) → State ℝ np} (hU₀ : Measurable U₀) (hU₀K : ∀ x, U₀ x ∈ K)
    (hU : Measurable U) (hUper : ∀ s d x, U (s, x + Pi.single d (ℓ d)) = U (s, x)) (hUK : ∀ z, U z ∈ K)
    (hinit : Tendsto (fun k => ∫ x in {x | ∀ d, 0 ≤ x d ∧ x d < ℓ d}, ‖onGrid (c k).n (c k).h (u k 0) x - U₀ x‖) atTop (𝓝 0))
    (hconv : Tendsto (fun k => ∑ j ∈ Finset.range (N k), ∫ s in t k j..t k (j + 1), ∫ x in {x | ∀ d, 0 ≤ x d ∧ x d < ℓ d},
      ‖onGrid (c k).n (c k).h (u k j) x - U (s, x)‖) atTop (𝓝 0)) :
    IsWeakSolution ℓ T A (fun d => lawFlux r G.gamma d) U₀ U := by
  refine C95_weak hG (fun _ => by omega) hA hcfl .euler hT hK hpos c hc hbox hh f hf N t u (fun k => ?_) hend hU₀ hU₀K hU hUper
    hUK hinit hconv
  refine ⟨(htr k).start, fun j hj => ?_⟩
  obtain ⟨target, τ, h1, h2, h3⟩ := (htr k).step j hj
  refine ⟨target, τ, h1, ?_, h3⟩
  rw [← h2]
  refine restrictTo_euler ?_ _
  refine staysIn_zero (fun d => by rw [(hc k).degrees]) _ _ fun i => ?_
  refine hin k j hj _ fun d => ?_
  have : (0 : ℤ) < (c k).n d := by exact_mod_cast (hc k).cells d
  exact ⟨Int.emod_nonneg _ this.ne', Int.emod_lt_of_pos _ this⟩

/-! ### Runs of `integrate` -/

/-- A completed run is a trajectory that ends at the requested time. -/
theorem run_trajectory {S : Type} (f : RHS ℝ (Ix → State ℝ np)) (hposdt : PosDt f) (m : Integrator) {T : ℝ} (hT : 0 < T)
    (mk : ODEState ℝ (Ix → State ℝ np) S → S) (fuel : ℕ) (downbeats : List ℝ) (hd : ∀ d ∈ downbeats, d = 0 ∨ 0 < d)
    (logEvery : Bool) (u₀ : Ix → State ℝ np) (out : ODEState ℝ (Ix → State ℝ np) S)
    (hrun : (ODEState.init u₀).integrate (stepper f m) mk fuel ⟨some T, none, true, downbeats, logEvery, none⟩ = some (out, none)) :
    ∃ N t u, Trajectory (stepper f m) N t u ∧ t N = T ∧ u 0 = u₀ ∧ u N = out.u ∧ out.timestamps = (List.range (N + 1)).map t := by
  have hrun' : (ODEState.init u₀).integrateT (stepper f m) mk T true downbeats logEvery fuel = some (out, none) :=
    hrun
  have hT' := (C24_exact_output_times _ m mk hposdt T downbeats logEvery fuel _ _ le_rfl hT hd hrun').1
  let P : ODEState ℝ (Ix → State ℝ np) S → Prop := fun st : ODEState ℝ (Ix → State ℝ np) S => ∃ N t u, Trajectory (stepper f m) N t u ∧ t N = st.t ∧ u 0 = u₀ ∧
    u N = st.u ∧ st.timestamps = (List.range (N + 1)).map t
  have hstep : ∀ st target, (∀ g, target = some g → st.t < g) → st.t < T → P st →
      P (st.takeStep (stepper f m) target).1 := by
    rintro st target hg - ⟨N, t, u, h1, h2, h3, h4, h5⟩
    unfold ODEState.takeStep
    cases hs : stepper f m st.t st.u target with
    | error e => exact ⟨N, t, u, h1, h2, h3, h4, h5⟩
    | ok q =>
      obtain ⟨τ, u'⟩ := q
      refine ⟨N + 1, fun j => if j ≤ N then t j else st.t + τ, fun j => if j ≤ N then u j else u', ⟨?_, fun j hj => ?_⟩, ?_, ?_, ?_,
        ?_⟩
      · exact (if_pos (Nat.zero_le _)).trans h1.start
      · rcases Nat.lt_succ_iff_lt_or_eq.1 hj with hj | rfl
        · obtain ⟨tg, τ', k1, k2, k3⟩ := h1.step j hj
          refine ⟨tg, τ', ?_, ?_, ?_⟩
          · rw [if_pos hj.le]; exact k1
          · rw [if_pos hj.le, if_pos hj.le, if_pos (Nat.succ_le_of_lt hj)]; exact k2
          · rw [if_pos hj.le, if_pos (Nat.succ_le_of_lt hj)]; exact k3
        · refine ⟨target, τ, ?_, ?_, ?_⟩
          · rw [if_pos le_rfl, h2]; exact hg
          · rw [if_pos le_rfl, if_pos le_rfl, if_neg (by omega), h2, h4]; exact hs
          · rw [if_pos le_rfl, if_neg (by omega), h2]
      · exact if_neg (by omega)
      · exact (if_pos (Nat.zero_le _)).trans h3
      · exact if_neg (by omega)
      · show st.timestamps ++ [st.t + τ] = _
        rw [List.range_succ, List.map_append, h5]
        congr 1
        · refine List.map_congr_left fun j hj => ?_
          exact (if_pos (Nat.lt_succ_iff.1 (List.mem_range.1 hj))).symm
        · simp
  obtain ⟨⟨N, t, u, h1, h2, h3, h4, h5⟩, -⟩ := integrateT_outcome_before (posStepper_of_posDt hposdt m) P T (mk := mk) hstep
    (fun st h => h) true downbeats logEvery fuel (ODEState.init u₀) le_rfl hT hd _
    ⟨0, fun _ => 0, fun _ => u₀, ⟨rfl, fun j hj => by omega⟩, rfl, rfl, rfl, rfl⟩ hrun'
  exact ⟨N, t, u, h1, h2.trans hT', h3, h4, h5⟩

/-- A run of `integrate` up to time `T` from the initial state, during which the gas laws are only evaluated in `K`, is a
run of the code, and its steps form a trajectory of the kind C95 speaks of, with the recorded time stamps. -/
theorem C95_run {S : Type} {G : Gas ℝ} (hG : G.OK) {r : RiemannKind} {p : Fin 3 → ℕ} (hp : ∀ d, p d ≤ 8) {A : Finset (Fin 3)}
    (hA : A.Nonempty) {cfl : ℝ} (hcfl : 0 < cfl) (m : Integrator) (K : Set (State ℝ np)) {T : ℝ} (hT : 0 < T)
    {c : EulerConfig ℝ np} (hc : InFamily c G r p A cfl) {f : RHS ℝ (Ix → State ℝ np)} (hf : IsSolverRHS c.scheme f)
    (mk : ODEState ℝ (Ix → State ℝ np) S → S) (fuel : ℕ) (downbeats : List ℝ) (hd : ∀ d ∈ downbeats, d = 0 ∨ 0 < d)
    (logEvery : Bool) (u₀ : Ix → State ℝ np) (out : ODEState ℝ (Ix → State ℝ np) S)
    (hrun : (ODEState.init u₀).integrate (stepper (keptIn K A c f) m) mk fuel ⟨some T, none, true, downbeats, logEvery, none⟩ =
      some (out, none)) :
    (ODEState.init u₀).integrate (stepper f m) mk fuel ⟨some T, none, true, downbeats, logEvery, none⟩ = some (out, none) ∧
    ∃ N t u, Trajectory (stepper (keptIn K A c f) m) N t u ∧ t N = T ∧ u 0 = u₀ ∧ u N = out.u ∧
      out.timestamps = (List.range (N + 1)).map t := by
  have hsub : ∀ s t u, Sub (keptIn K A c f s t u) (f s t u) := fun s t u r hr => (restrictTo_ok hr).2
  refine ⟨integrate_refine _ _ hsub m mk fuel _ _ _ hrun, ?_⟩
  exact run_trajectory _ (fun s t u dt D h =>
    (hc.toInClass.dt_bounds hG.sqrt hG.floor hcfl hA (hc.eval hp hf (restrictTo_ok h).2).2).1) m hT mk fuel downbeats hd logEvery u₀ out hrun

/-! ### A concrete case: two gases of different density at rest -/

/-- Gas at rest with pressure one and density one or two. -/
noncomputable def restState (b : Prop) [Decidable b] : State ℝ 1 :=
  conserved (7 / 5) (flowing 0 1 (fun _ => 1 / 2) (if b then 1 else 2))

theorem restState_mem (b : Prop) [Decidable b] : restState b ∈ ({restState True, restState False} : Set (State ℝ 1)) := by
  by_cases h : b
  · left
    simp only [restState, if_pos h, if_true]
  · right
    simp only [restState, if_neg h, if_false, Set.mem_singleton_iff]

/-- Density one where `x` lies in an even multiple of half the box, two elsewhere. -/
noncomputable def restField (x : Fin 3 → ℝ) : State ℝ 1 := restState (⌊x 0 / Real.pi⌋ % 2 = 0)

theorem restTube_family (M : ℕ) (hM : 1 ≤ M) : InFamily (sineTube (2 * M)) airGas .hllc (fun _ => 0) {0} (4 / 5) := by
  have h := sineTube_setup (2 * M) (by omega)
  exact ⟨⟨rfl, rfl, funext h.first.degree, rfl, rfl, fun d => by rw [sineTube_active _ (by omega)]; simp, h.first.cells,
    h.first.spacing⟩, rfl, h.box⟩

theorem restTube_box (M : ℕ) (hM : 1 ≤ M) : FillsBox (sineTube (2 * M)) ![2 * Real.pi, 1, 1] := by
  intro d
  match d with
  | 0 =>
    show ((2 * M : ℕ) : ℝ) * (2 * Real.pi / (2 * M : ℕ)) = 2 * Real.pi
    have : ((2 * M : ℕ) : ℝ) ≠ 0 := by exact_mod_cast (by omega : 2 * M ≠ 0)
    field_simp
  | 1 | 2 => show ((1 : ℕ) : ℝ) * 1 = 1; norm_num

theorem restTube_grid (M : ℕ) (hM : 1 ≤ M) (u : Ix → State ℝ 1)
    (hu : ∀ i, InCells (sineTube (2 * M)).n i → u i = restState (i 0 < M)) (x : Fin 3 → ℝ) :
    onGrid (sineTube (2 * M)).n (sineTube (2 * M)).h u x = restField x := by
  have hf := restTube_family M hM
  unfold onGrid
  rw [hu]
  · unfold restField
    have hM0 : (M : ℝ) ≠ 0 := by exact_mod_cast (by omega : M ≠ 0)
    have h1 : cellAt (sineTube (2 * M)).h x 0 = ⌊x 0 / Real.pi * M⌋ := by
      show ⌊x 0 / (2 * Real.pi / (2 * M : ℕ))⌋ = _
      congr 1
      push_cast
      have := Real.pi_pos.ne'
      field_simp
    have h2 : ⌊x 0 / Real.pi⌋ = ⌊x 0 / Real.pi * M⌋ / (M : ℤ) := by
      rw [← Int.floor_div_natCast, mul_div_assoc, div_self hM0, mul_one]
    have h3 : (cellAt (sineTube (2 * M)).h x 0 % ((sineTube (2 * M)).n 0 : ℤ) < M) ↔ ⌊x 0 / Real.pi⌋ % 2 = 0 := by
      rw [h1, h2, show ((sineTube (2 * M)).n 0 : ℤ) = (M : ℤ) * 2 by
        show ((2 * M : ℕ) : ℤ) = _; push_cast; ring]
      have hMz : (0 : ℤ) < M := by exact_mod_cast hM
      generalize ⌊x 0 / Real.pi * M⌋ = a
      have e1 := Int.emod_nonneg a hMz.ne'
      have e2 := Int.emod_lt_of_pos a hMz
      have e3 : a % ((M : ℤ) * 2) = a % M + M * (a / M % 2) := by
        have k1 := Int.emod_add_mul_ediv a M
        have k2 := Int.emod_add_mul_ediv (a / M) 2
        have k3 : a = (a % M + M * (a / M % 2)) + M * 2 * (a / M / 2) := by
          calc a = a % M + M * (a / M) := k1.symm
            _ = a % M + M * (a / M % 2 + 2 * (a / M / 2)) := by rw [k2]
            _ = _ := by ring
        have k4 : 0 ≤ a % M + M * (a / M % 2) ∧ a % M + M * (a / M % 2) < M * 2 := by
          rcases Int.emod_two_eq_zero_or_one (a / M) with h | h <;> rw [h] <;> constructor <;> linarith
        calc a % ((M : ℤ) * 2) = ((a % M + M * (a / M % 2)) + M * 2 * (a / M / 2)) % (M * 2) := by rw [← k3]
          _ = _ := by rw [Int.add_mul_emod_self_left, Int.emod_eq_of_lt k4.1 k4.2]
      rw [e3]
      rcases Int.emod_two_eq_zero_or_one (a / M) with h | h
      · rw [h]; constructor
        · intro _; rfl
        · intro _; linarith
      · rw [h]; constructor
        · intro h'; linarith
        · intro h'; omega
    unfold restState
    simp only [h3]
  · intro d
    have : (0 : ℤ) < (sineTube (2 * M)).n d := by exact_mod_cast hf.cells d
    exact ⟨Int.emod_nonneg _ this.ne', Int.emod_lt_of_pos _ this⟩

/-- On every grid there is a step size such that the first-order scheme leaves the two gases alone in steps of at most that
size. -/
theorem restTube_step (M : ℕ) (hM : 1 ≤ M) : ∃ δ > 0, ∀ t τ, 0 < τ → τ ≤ δ → ∀ u : Ix → State ℝ 1,
    (∀ i, InCells (sineTube (2 * M)).n i → u i = restState (i 0 < M)) →
    ∃ u', stepper (solverRHS (sineTube (2 * M)).scheme (fun _ _ => 0) (fun _ _ => 0)) .euler t u (some (t + τ)) = .ok (τ, u') ∧
      ∀ i, InCells (sineTube (2 * M)).n i → u' i = restState (i 0 < M) := by
  have hset := sineTube_setup (2 * M) (by omega)
  have hf := restTube_family M hM
  let α : Ix → ℝ := fun i => if i 0 % ((2 * M : ℕ) : ℤ) < M then 1 else 2
  have hα : ∀ d j, α (j + Pi.single d ((sineTube (2 * M)).n d : ℤ)) = α j := by
    intro d j
    match d with
    | 0 =>
      show (if (j 0 + (Pi.single 0 ((2 * M : ℕ) : ℤ) : Ix) 0) % ((2 * M : ℕ) : ℤ) < M then (1 : ℝ) else 2) = _
      rw [Pi.single_eq_same, Int.add_emod_right]
    | 1 | 2 => simp [α]
  have hα0 : ∀ j, 0 < α j := fun j => by simp only [α]; split <;> norm_num
  let s : ℝ → ℝ := fun ρ => signalSpeed airGas (sineTube (2 * M)).scheme.ndim (flowing 0 1 (fun _ => 1 / 2) ρ : State ℝ 1)
  have hs0 : ∀ ρ, 0 ≤ s ρ := fun ρ => by
    have := (soundSpeed_spec airGas airGas_sqrt (by norm_num [airGas]) (flowing 0 1 (fun _ => 1 / 2) ρ : State ℝ 1)).1.le
    simp only [s, signalSpeed, sum3]
    positivity
  have hmin : 0 < min (min ((sineTube (2 * M)).h 0) ((sineTube (2 * M)).h 1)) ((sineTube (2 * M)).h 2) :=
    lt_min (lt_min (hf.spacing 0) (hf.spacing 1)) (hf.spacing 2)
  set H := min (min ((sineTube (2 * M)).h 0) ((sineTube (2 * M)).h 1)) ((sineTube (2 * M)).h 2) with hH
  have hV : 0 < s 1 + s 2 + 1 := by linarith [hs0 1, hs0 2]
  refine ⟨4 / 5 * H / (s 1 + s 2 + 1), by positivity, fun t τ hτ hτδ u hu => ?_⟩
  have hu' : ∀ j, InCells (sineTube (2 * M)).n j → u j = conserved (sineTube (2 * M)).gas.gamma (flowing 0 1 (fun _ => 1 / 2) (α j)) := by
    intro j hj
    rw [hu j hj]
    have : j 0 % ((2 * M : ℕ) : ℤ) = j 0 := Int.emod_eq_of_lt (hj 0).1 (hj 0).2
    show conserved (7 / 5) _ = conserved (7 / 5) _
    simp only [α, this]
  obtain ⟨dt, D, e, hdt0, -, hD⟩ := upwind_rhs hset 0 1 (fun _ => 1 / 2) α hα hα0 t t u hu' (fun _ _ => 0) (fun _ _ => 0)
  have hdt := (hf.eval (fun _ => by omega) (f := solverRHS (sineTube (2 * M)).scheme (fun _ _ => 0) (fun _ _ => 0))
    (fun s t u => ⟨_, _, rfl⟩) e).2
  have hle : τ ≤ dt := by
    refine hτδ.trans ?_
    unfold IsDt at hdt
    rw [show (sineTube (2 * M)).scheme.fixedDt = none from rfl] at hdt
    obtain ⟨m, ⟨i, hi, hm⟩, -, hdt⟩ := hdt
    have hdt' : dt = 4 / 5 * H / m := hdt
    rw [latPrim_low _ (fun _ => by omega)] at hm
    have hi' : InCells (sineTube (2 * M)).n (fun d => i d % (sineTube (2 * M)).n d) := fun d => by
      have : (0 : ℤ) < (sineTube (2 * M)).n d := by exact_mod_cast hf.cells d
      exact ⟨Int.emod_nonneg _ this.ne', Int.emod_lt_of_pos _ this⟩
    have hm' : m = s (α fun d => i d % (sineTube (2 * M)).n d) := by
      rw [← hm]
      beta_reduce
      rw [hu' _ hi']
      show signalSpeed _ _ (computePrimitives (7 / 5) (conserved (7 / 5) _)) = _
      rw [prim_conserved _ (by norm_num) _ (hα0 fun d => i d % (sineTube (2 * M)).n d).ne']
      rfl
    have hm1 : m ≤ s 1 + s 2 + 1 := by
      rw [hm']
      simp only [α]
      split
      · linarith [hs0 2]
      · linarith [hs0 1]
    have hm0 : 0 < m := by
      rcases (hs0 (α fun d => i d % (sineTube (2 * M)).n d)).lt_or_eq with h | h
      · rw [hm']; exact h
      · rw [hdt', hm', ← h, div_zero] at hdt0
        exact absurd hdt0 (lt_irrefl _)
    rw [hdt']
    exact div_le_div_of_nonneg_left (by positivity) hm0 hm1
  refine ⟨u + τ • D, ?_, fun i hi => ?_⟩
  · simp only [stepper, eulerStepper, e, Bind.bind, Except.bind, Pure.pure, Except.pure]
    have : hitTarget t dt (some (t + τ)) = τ := by
      simp only [hitTarget, add_sub_cancel_left]
      split
      · rfl
      · linarith
    rw [this]
  · rw [hD τ i hi, ← hu i hi, hu' i hi]
    congr 2
    unfold upwindStep share
    simp

/-- C95 for the two gases at rest: their density, with its jumps, is a weak solution of the Euler equations. -/
theorem C95_rest (T : ℝ) (hT : 0 < T) :
    IsWeakSolution ![2 * Real.pi, 1, 1] T {0} (fun d => lawFlux .hllc (7 / 5) d) restField fun z => restField z.2 := by
  have hrun : ∀ k : ℕ, ∃ N : ℕ, ∃ t : ℕ → ℝ, ∃ u : ℕ → Ix → State ℝ 1,
      Trajectory (stepper (solverRHS (sineTube (2 * (k + 1))).scheme (fun _ _ => 0) (fun _ _ => 0)) .euler) N t u ∧ t N = T ∧
      ∀ j i, InCells (sineTube (2 * (k + 1))).n i → u j i = restState (i 0 < ((k + 1 : ℕ) : ℤ)) := by
    intro k
    obtain ⟨δ, hδ, H⟩ := restTube_step (k + 1) (by omega)
    obtain ⟨N, hN⟩ := exists_nat_gt (T / δ)
    have hN0 : (0 : ℝ) < N := (div_pos hT hδ).trans hN
    have hτ : T / N ≤ δ := by
      rw [div_le_iff₀ hN0]
      rw [div_lt_iff₀ hδ] at hN
      linarith
    have hτ0 : 0 < T / N := div_pos hT hN0
    let P : (Ix → State ℝ 1) → Prop := fun u =>
      ∀ i, InCells (sineTube (2 * (k + 1))).n i → u i = restState (i 0 < ((k + 1 : ℕ) : ℤ))
    let next : ℕ → {u // P u} → {u // P u} := fun j u =>
      ⟨(H (j * (T / N)) (T / N) hτ0 hτ u.1 u.2).choose, (H (j * (T / N)) (T / N) hτ0 hτ u.1 u.2).choose_spec.2⟩
    let us : ℕ → {u // P u} := fun j => Nat.rec ⟨fun i => restState (i 0 < ((k + 1 : ℕ) : ℤ)), fun _ _ => rfl⟩ next j
    refine ⟨N, fun j => j * (T / N), fun j => (us j).1, ⟨by simp, fun j hj => ?_⟩, by field_simp, fun j => (us j).2⟩
    refine ⟨some (j * (T / N) + T / N), T / N, fun g hg => by cases hg; linarith, ?_, by push_cast; ring⟩
    exact (H (j * (T / N)) (T / N) hτ0 hτ (us j).1 (us j).2).choose_spec.1
  choose N t u htr hend hin using hrun
  have hmeas : Measurable restField := by
    have h1 : Measurable fun x : Fin 3 → ℝ => ⌊x 0 / Real.pi⌋ := ((measurable_pi_apply 0).div_const _).floor
    exact (Measurable.of_discrete (f := fun a : ℤ => restState (a % 2 = 0))).comp h1
  have hper : ∀ (d : Fin 3) x, restField (x + Pi.single d ((![2 * Real.pi, 1, 1] : Fin 3 → ℝ) d)) = restField x := by
    intro d x
    match d with
    | 0 =>
      have : (x + Pi.single 0 (2 * Real.pi) : Fin 3 → ℝ) 0 / Real.pi = x 0 / Real.pi + (2 : ℤ) := by
        have := Real.pi_pos.ne'
        simp [Pi.add_apply]
        field_simp
      show restState _ = restState _
      simp only [restState]
      rw [show ((![2 * Real.pi, 1, 1] : Fin 3 → ℝ) 0) = 2 * Real.pi from rfl, this, Int.floor_add_intCast, Int.add_emod_right]
    | 1 =>
      have : (x + Pi.single 1 ((![2 * Real.pi, 1, 1] : Fin 3 → ℝ) 1) : Fin 3 → ℝ) 0 = x 0 := by
        rw [Pi.add_apply, Pi.single_eq_of_ne (by decide), add_zero]
      exact congrArg (fun y : ℝ => restState (⌊y / Real.pi⌋ % 2 = 0)) this
    | 2 =>
      have : (x + Pi.single 2 ((![2 * Real.pi, 1, 1] : Fin 3 → ℝ) 2) : Fin 3 → ℝ) 0 = x 0 := by
        rw [Pi.add_apply, Pi.single_eq_of_ne (by decide), add_zero]
      exact congrArg (fun y : ℝ => restState (⌊y / Real.pi⌋ % 2 = 0)) this
  have hK : ∀ x, restField x ∈ ({restState True, restState False} : Set (State ℝ 1)) := by
    exact fun x => restState_mem _
  refine C95_first_order (G := airGas) ⟨airGas_sqrt, by norm_num [airGas], by norm_num [airGas]⟩ (Finset.singleton_nonempty 0)
    (by norm_num : (0 : ℝ) < 4 / 5) hT (K := {restState True, restState False}) (Set.toFinite _).isCompact ?_
    (fun k => sineTube (2 * (k + 1))) (fun k => restTube_family (k + 1) (by omega)) (fun k => restTube_box (k + 1) (by omega)) ?_
    (fun k => solverRHS (sineTube (2 * (k + 1))).scheme (fun _ _ => 0) (fun _ _ => 0)) (fun k s t u => ⟨_, _, rfl⟩) N t u htr hend
    (fun k j _ i hi => ?_) hmeas hK (hmeas.comp measurable_snd) (fun s d x => hper d x) (fun z => hK z.2) ?_ ?_
  · have key : ∀ ρ : ℝ, 0 < ρ → 0 < conserved (7 / 5) (flowing 0 1 (fun _ => 1 / 2) ρ : State ℝ 1) .rho ∧
        0 < computePrimitives (7 / 5) (conserved (7 / 5) (flowing 0 1 (fun _ => 1 / 2) ρ : State ℝ 1)) .en := by
      intro ρ hρ
      refine ⟨hρ, ?_⟩
      rw [prim_conserved _ (by norm_num) _ hρ.ne']
      exact one_pos
    rintro k (rfl | rfl)
    · exact key _ (by norm_num)
    · exact key _ (by norm_num)
  · intro d hd
    rw [Finset.mem_singleton.1 hd]
    have h1 : ∀ k : ℕ, (sineTube (2 * (k + 1))).h 0 = Real.pi * (1 / ((k : ℝ) + 1)) := by
      intro k
      show 2 * Real.pi / ((2 * (k + 1) : ℕ) : ℝ) = _
      push_cast
      field_simp
    simp only [h1]
    simpa using tendsto_one_div_add_atTop_nhds_zero_nat.const_mul Real.pi
  · rw [hin k j i hi]
    exact restState_mem _
  · refine tendsto_const_nhds.congr fun k => ?_
    simp only [restTube_grid (k + 1) (by omega) (u k 0) (hin k 0), sub_self, norm_zero, integral_zero]
  · refine tendsto_const_nhds.congr fun k => ?_
    symm
    refine Finset.sum_eq_zero fun j _ => ?_
    simp only [restTube_grid (k + 1) (by omega) (u k j) (hin k j), sub_self, norm_zero, integral_zero, intervalIntegral.integral_zero]

/-- The hypothesis of C95_run is met by the two gases at rest on four cells, up to a small enough time. -/
example : ∃ T > 0, ∃ out, (ODEState.init fun i => restState (i 0 < ((2 : ℕ) : ℤ))).integrate
    (stepper (keptIn {restState True, restState False} {0} (sineTube (2 * 2)) (solverRHS (sineTube (2 * 2)).scheme (fun _ _ => 0)
      (fun _ _ => 0))) .euler) (fun _ => ()) 2 ⟨some T, none, true, [], false, none⟩ = some (out, none) := by
  obtain ⟨δ, hδ, H⟩ := restTube_step 2 (by omega)
  obtain ⟨u', h1, h2⟩ := H 0 δ hδ le_rfl _ fun i _ => rfl
  have hk : keyTimes [] δ = [δ] := by
    unfold keyTimes
    have : (0 : ℝ) ∉ [δ] := by simp [hδ.ne]
    simp [List.dedup_cons_of_notMem this, hδ.le]
  rw [zero_add] at h1
  have h3 : stepper (keptIn {restState True, restState False} {0} (sineTube (2 * 2)) (solverRHS (sineTube (2 * 2)).scheme
      (fun _ _ => 0) (fun _ _ => 0))) .euler 0 (fun i => restState (i 0 < ((2 : ℕ) : ℤ))) (some δ) = .ok (δ, u') := by
    rw [← h1]
    refine restrictTo_euler ?_ _
    exact staysIn_zero (fun d => (sineTube_setup (2 * 2) (by omega)).first.degree d) _ _ fun i => restState_mem _
  refine ⟨δ, hδ, ?_⟩
  simp only [ODEState.integrate, ODEState.integrateT, if_true, hk, ODEState.loop, ODEState.snapshot, ODEState.init, hδ,
    ODEState.takeStep, h3, zero_add, true_or, lt_irrefl, if_false]
  exact ⟨_, rfl⟩

end FVHOE
