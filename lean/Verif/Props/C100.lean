import Verif.Proofs.DeepTracks
import Verif.Proofs.Periodise
import Verif.Props.C95
import Verif.Props.C86

/-!
C100: limits of runs with limiting and with any boundary conditions are weak solutions inside the domain.
-/

set_option linter.unusedSectionVars false

namespace FVHOE

open MeasureTheory Filter Topology

variable {np : ℕ}

/-- `U` is a weak solution, inside the box with sides `ℓ` and up to time `T`, of the conservation laws with the fluxes `F`
along the directions `A`, with initial values `U₀`: the test functions vanish near the sides of the box. -/
def IsWeakInside (ℓ : Fin 3 → ℝ) (T : ℝ) (A : Finset (Fin 3)) (F : Fin 3 → State ℝ np → State ℝ np)
    (U₀ : (Fin 3 → ℝ) → State ℝ np) (U : ℝ × (Fin 3 → ℝ) → State ℝ np) : Prop :=
  ∀ φ : ℝ × (Fin 3 → ℝ) → ℝ, ContDiff ℝ 2 φ → (∃ ε > 0, ∀ s x, (∃ d, x d < ε ∨ ℓ d - ε < x d) → φ (s, x) = 0) →
    (∀ x, φ (T, x) = 0) →
    ∀ v, (∫ x in {x | ∀ d, 0 ≤ x d ∧ x d < ℓ d}, U₀ x v * φ (0, x)) +
      ∫ s in (0 : ℝ)..T, ∫ x in {x | ∀ d, 0 ≤ x d ∧ x d < ℓ d}, (U (s, x) v * fderiv ℝ φ (s, x) (1, 0) +
        ∑ d ∈ A, F d (U (s, x)) v * fderiv ℝ φ (s, x) (0, Pi.single d 1)) = 0

/-- Whatever stands in the ghost cells, the scheme and (when limiting is on) its fallback evaluate the gas laws only in `K` at
the cells that are `R` cells away from the sides. -/
def GasInside (K : Set (State ℝ np)) (A : Finset (Fin 3)) (R : ℕ) (c : EulerConfig ℝ np) (o : Option (LimiterOpts ℝ))
    (u : Ix → State ℝ np) : Prop :=
  ∀ U : Ix → State ℝ np, (∀ i, InCells c.n i → U i = u i) → StaysInside c.gas.gamma c.n c.p none A R K U ∧
    ∀ o', o = some o' → StaysInside c.gas.gamma c.n (fallbackP c.p) (o'.slope.map (SlopeKind.fn o'.tiny)) A R K U

/-- The right-hand side, refusing states for which the gas laws would be evaluated outside `K`. -/
noncomputable def keptInside (K : Set (State ℝ np)) (A : Finset (Fin 3)) (R : ℕ) (c : EulerConfig ℝ np)
    (o : Option (LimiterOpts ℝ)) (f : RHS ℝ (Ix → State ℝ np)) : RHS ℝ (Ix → State ℝ np) :=
  restrictTo (GasInside K A R c o) f

theorem slope_bound (tiny : ℝ) (s : SlopeKind) (x y : State ℝ np) : ‖s.fn tiny x y‖ ≤ ‖x‖ + ‖y‖ := by
  refine (pi_norm_le_iff_of_nonneg (by positivity)).2 fun v => ?_
  have hx := norm_le_pi_norm x v
  have hy := norm_le_pi_norm y v
  rw [Real.norm_eq_abs] at hx hy ⊢
  cases s with
  | minmod =>
    refine le_trans ?_ (hx.trans (le_add_of_nonneg_right (norm_nonneg _)))
    show |minmod tiny (x v) (y v)| ≤ _
    unfold minmod
    dsimp only
    generalize y v / _ = q
    rw [abs_mul]
    refine mul_le_of_le_one_left (abs_nonneg _) ?_
    rw [abs_le]
    split_ifs <;> constructor <;> linarith
  | moncen =>
    refine le_trans ?_ (add_le_add hx hy)
    show |moncen (x v) (y v)| ≤ _
    have hc : |(1 / 2 : ℝ) * (x v + y v)| ≤ |x v| + |y v| := by
      rw [abs_mul, abs_of_pos (by norm_num : (0 : ℝ) < 1 / 2)]
      have := abs_add_le (x v) (y v)
      have := abs_nonneg (x v + y v)
      linarith
    have hs : ∀ c : ℝ, |npSign c| ≤ 1 := by
      intro c
      unfold npSign
      split_ifs <;> norm_num
    unfold moncen
    dsimp only
    split_ifs
    · rw [abs_mul]
      refine (mul_le_of_le_one_left (abs_nonneg _) (hs _)).trans ?_
      rw [abs_of_nonneg (le_min (le_min (abs_nonneg _) (abs_nonneg _)) (abs_nonneg _))]
      exact (min_le_right _ _).trans hc
    · rw [abs_zero]
      positivity

theorem extAll_within {V : Type} (n : Fin 3 → ℕ) (gl gr : Fin 3 → Ghost V) (u : Ix → V) {i : Ix} (hi : InCells n i) :
    extAll n gl gr u i = u i := by
  have h : ∀ d (Φ : Ix → V), extAxis (n d) d (gl d) (gr d) Φ i = Φ i := by
    intro d Φ
    unfold extAxis
    rw [if_neg (by have := hi d; omega), if_neg (by have := hi d; omega)]
  unfold extAll
  rw [h, h, h]

/-- What an evaluation of the right-hand side gives, with or without limiting: on the cells the divergence of fluxes that are
convex combinations of those of the scheme and of its fallback. -/
theorem inside_eval {c : EulerConfig ℝ np} {G : Gas ℝ} {r : RiemannKind} {p : Fin 3 → ℕ} {A : Finset (Fin 3)} {cfl : ℝ}
    (hc : InClass c G r p A cfl) (hA : A.Nonempty) {o : Option (LimiterOpts ℝ)} (hw : WellPosed (c.limited o).scheme)
    (ho : ∀ o', o = some o' → o'.toDetectOpts.Known) {f : RHS ℝ (Ix → State ℝ np)}
    (hf : IsSolverRHS (c.limited o).scheme f) {s t dt : ℝ} {u D : Ix → State ℝ np} (h : f s t u = .ok (dt, D)) :
    (∃ W, IsDt c.scheme c.p W dt) ∧ ∃ U U' : Ix → State ℝ np, ∃ θ : Fin 3 → Ix → ℝ, (∀ i, InCells c.n i → U i = u i) ∧
      (∀ i, InCells c.n i → U' i = u i) ∧ (∀ d i, 0 ≤ θ d i ∧ θ d i ≤ 1) ∧ (o = none → ∀ d i, θ d i = 0) ∧
      ∀ i, InCells c.n i → D i = latDiv c.scheme.active c.h (fun d j =>
        (1 - θ d j) • latFlux ℝ (riemann r G d) p none d (latPrim ℝ (computePrimitives G.gamma) p U) j +
        θ d j • latFlux ℝ (riemann r G d) (fallbackP p) (o.bind fun o' => o'.slope.map (SlopeKind.fn o'.tiny)) d
          (latPrim ℝ (computePrimitives G.gamma) (fallbackP p) U') j) i := by
  obtain ⟨junk, mem, e⟩ := hf s t u
  rw [h] at e
  obtain ⟨gl, gr, hs⟩ := hw.ghosts.sides s
  have hpr : c.scheme.prim = computePrimitives G.gamma := by rw [← hc.gas]; rfl
  have hrm : ∀ d, c.scheme.riem d = riemann r G d := fun d => by rw [← hc.gas, ← hc.riem]; rfl
  have hflux : ∀ (q : Fin 3 → ℕ) sl (U : Ix → State ℝ np) d, schemeFlux c.scheme q sl U d =
      latFlux ℝ (riemann r G d) q sl d (latPrim ℝ (computePrimitives G.gamma) q U) := by
    intro q sl U d
    unfold schemeFlux
    rw [hpr, hrm]
  cases o with
  | none =>
    obtain ⟨dt', hdt', e'⟩ := rhs_spec (c.limited none).scheme rfl hw.degree hw.cells s gl gr hs junk mem t u u fun _ _ => rfl
    rw [← e] at e'
    injection e' with e'
    obtain ⟨rfl, rfl⟩ := Prod.mk.inj e'
    refine ⟨⟨_, hdt'⟩, extAll c.n gl gr u, u, fun _ _ => 0, fun i hi => extAll_within _ _ _ _ hi, fun i _ => rfl,
      fun _ _ => ⟨le_rfl, zero_le_one⟩, fun _ _ _ => rfl, fun i hi => (if_pos hi).trans ?_⟩
    refine congrArg (fun F => latDiv c.scheme.active c.h F i) ?_
    funext d j
    rw [sub_zero, one_smul, zero_smul, add_zero, ← hc.degrees]
    exact congrFun (hflux c.p none _ d) j
  | some o =>
    obtain ⟨_, w1, w2⟩ := hw.limiter _ rfl
    obtain ⟨gl', gr', hs'⟩ := w1.sides s
    obtain ⟨gld, grd, hsd⟩ := w2.sides s
    have hd : c.dims ≠ [] := by
      obtain ⟨d, hd⟩ := hA
      exact List.ne_nil_of_mem (List.mem_filter.2 ⟨by match d with | 0 | 1 | 2 => simp, (hc.active d).2 hd⟩)
    obtain ⟨⟨k₀, h₀⟩, θ, hθ, hk⟩ := C38_convex c o (ho o rfl) hd hw.degree hw.cells s gl gr gl' gr' gld grd hs hs' hsd junk mem t u dt D
      e.symm
    obtain ⟨dt', hdt', e'⟩ := rhs_spec (c.limited none).scheme rfl hw.degree hw.cells s gl gr hs junk mem t u u fun _ _ => rfl
    rw [h₀] at e'
    injection e' with e'
    obtain ⟨rfl, rfl⟩ := Prod.mk.inj e'
    refine ⟨⟨_, hdt'⟩, extAll c.n gl gr u, extAll c.n gl' gr' u, θ, fun i hi => extAll_within _ _ _ _ hi,
      fun i hi => extAll_within _ _ _ _ hi, hθ, fun h' => absurd h' (Option.some_ne_none _), fun i hi => (hk i hi).trans ?_⟩
    refine congrArg (fun F => latDiv c.scheme.active c.h F i) ?_
    funext d j v
    rw [← hc.degrees]
    unfold highFlux fallbackFlux
    rw [hflux, hflux]
    rfl

theorem lawFlux_lip (r : RiemannKind) (G : Gas ℝ) (hs : IsSqrt G.sqrt) (hg : 1 ≤ G.gamma) {K : Set (State ℝ np)} (hK : IsCompact K)
    (hpos : ∀ k ∈ K, PosGas (computePrimitives G.gamma k)) (d : Fin 3) :
    ∃ M ≥ 0, ∀ x ∈ K, ∀ y ∈ K, ‖lawFlux r G.gamma d x - lawFlux r G.gamma d y‖ ≤ M * ‖x - y‖ := by
  have hr : ∀ k ∈ K, k .rho ≠ 0 := fun k hk => (hpos k hk).1.ne'
  obtain ⟨M, hM, hP⟩ := prim_lip_on G.gamma hK hr
  have hC : IsCompact (computePrimitives (K := ℝ) (np := np) G.gamma '' K) :=
    hK.image_of_continuousOn fun k hk => (lip_prim G.gamma (hr k hk)).continuousAt.continuousWithinAt
  obtain ⟨M', hM', hF⟩ := riemann_consistent_on r G hs hg d hC (by rintro _ ⟨k, hk, rfl⟩; exact hpos k hk)
  refine ⟨M' * (2 * M), by positivity, fun x hx y hy => ?_⟩
  have h0 := hF _ ⟨x, hx, rfl⟩ _ ⟨x, hx, rfl⟩ _ ⟨x, hx, rfl⟩
  rw [sub_self, norm_zero, add_zero, mul_zero] at h0
  have h1 := hF _ ⟨x, hx, rfl⟩ _ ⟨x, hx, rfl⟩ _ ⟨y, hy, rfl⟩
  rw [lawFlux_target, lawFlux_target, ← sub_eq_zero.1 (norm_le_zero_iff.1 h0)]
  refine h1.trans ?_
  rw [mul_assoc]
  refine mul_le_mul_of_nonneg_left ?_ hM'
  have := hP x hx y hy
  linarith

/-- **C100** Let runs on a sequence of grids of a box, with any degree up to eight, any Riemann solver, any time stepper, with
or without limiting and with any boundary conditions that can be applied, keep the cell averages in a compact set `K` of states
of positive density and pressure, and at some distance from the sides (a number `R` of cells) evaluate the gas laws only in `K`;
let the spacings of the active directions go to zero. If the initial states converge in the mean to `U₀` and the runs converge
in the mean to `U`, then `U` is a weak solution of the conservation laws inside the box, with initial values `U₀`. -/
theorem C100_inside {G : Gas ℝ} (hG : G.OK) {r : RiemannKind} {p : Fin 3 → ℕ} {A : Finset (Fin 3)}
    (hA : A.Nonempty) {cfl : ℝ} (hcfl : 0 < cfl) (m : Integrator) {ℓ : Fin 3 → ℝ} {T : ℝ} (hT : 0 < T)
    {K : Set (State ℝ np)} (hK : IsCompact K)
    (hpos : ∀ k ∈ K, 0 < k .rho ∧ 0 < computePrimitives G.gamma k .en) (R : ℕ)
    (c : ℕ → EulerConfig ℝ np) (o : ℕ → Option (LimiterOpts ℝ)) (hc : ∀ k, InClass (c k) G r p A cfl)
    (hw : ∀ k, WellPosed ((c k).limited (o k)).scheme) (ho : ∀ k o', o k = some o' → o'.toDetectOpts.Known)
    (hbox : ∀ k, FillsBox (c k) ℓ) (hh : ∀ d ∈ A, Tendsto (fun k => (c k).h d) atTop (𝓝 0))
    (f : ℕ → RHS ℝ (Ix → State ℝ np)) (hf : ∀ k, IsSolverRHS ((c k).limited (o k)).scheme (f k))
    (N : ℕ → ℕ) (t : ℕ → ℕ → ℝ) (u : ℕ → ℕ → Ix → State ℝ np)
    (htr : ∀ k, Trajectory (stepper (keptInside K A R (c k) (o k) (f k)) m) (N k) (t k) (u k)) (hend : ∀ k, t k (N k) = T)
    (hin : ∀ k, ∀ j < N k, ∀ i, InCells (c k).n i → u k j i ∈ K)
    {U₀ : (Fin 3 → ℝ) → State ℝ np} {U : ℝ × (Fin 3 → ℝ) → State ℝ np} (hU₀ : Measurable U₀) (hU₀K : ∀ x, U₀ x ∈ K)
    (hU : Measurable U) (hUK : ∀ z, U z ∈ K)
    (hinit : Tendsto (fun k => ∫ x in {x | ∀ d, 0 ≤ x d ∧ x d < ℓ d}, ‖onGrid (c k).n (c k).h (u k 0) x - U₀ x‖) atTop (𝓝 0))
    (hconv : Tendsto (fun k => ∑ j ∈ Finset.range (N k), ∫ s in t k j..t k (j + 1), ∫ x in {x | ∀ d, 0 ≤ x d ∧ x d < ℓ d},
      ‖onGrid (c k).n (c k).h (u k j) x - U (s, x)‖) atTop (𝓝 0)) :
    IsWeakInside ℓ T A (fun d => lawFlux r G.gamma d) U₀ U := by
  classical
  rintro φ hφ ⟨ε, hε, hz⟩ hφT v
  have hgas : ∀ k ∈ K, PosGas (computePrimitives G.gamma k) := fun k hk => hpos k hk
  have hp : ∀ d, p d ≤ 8 := fun d => by
    have h := (hw 0).degree d
    rw [show ((c 0).limited (o 0)).scheme.p = p from by rw [← (hc 0).degrees]; cases o 0 <;> rfl] at h
    exact h
  have hAp : ∀ d, d ∉ A → p d = 0 := (hc 0).inactive
  have hq : ∀ d, fallbackP p d ≤ 8 := fun d => by unfold fallbackP; split_ifs <;> omega
  have hAq : ∀ d, d ∉ A → fallbackP p d = 0 := fun d hd => by unfold fallbackP; rw [hAp d hd]; rfl
  have hn0 : ∀ k d, (0 : ℤ) < (c k).n d := fun k d => by exact_mod_cast (hc k).cells d
  have hℓ : ∀ d, 0 < ℓ d := fun d => by
    rw [← hbox 0 d]
    have : 0 < (c 0).n d := (hc 0).cells d
    have := (hc 0).spacing d
    positivity
  -- the steps of all runs as one family
  let I := {q : ℕ × ℕ // q.2 < N q.1}
  let w : ℕ → Ix → Ix := fun k i d => i d % (c k).n d
  have hwin : ∀ k i, InCells (c k).n (w k i) := fun k i d =>
    ⟨Int.emod_nonneg _ (hn0 k d).ne', Int.emod_lt_of_pos _ (hn0 k d)⟩
  have hwid : ∀ k i, InCells (c k).n i → w k i = i := fun k i hi => funext fun d => Int.emod_eq_of_lt (hi d).1 (hi d).2
  have hwadd : ∀ k i σ, w k (w k i + σ) = w k (i + σ) := fun k i σ => funext fun d => Int.emod_add_emod (i d) _ (σ d)
  let n : I → Fin 3 → ℕ := fun a => (c a.1.1).n
  let b : I → Ix → State ℝ np := fun a i => u a.1.1 a.1.2 (w a.1.1 i)
  let us : I → Ix → State ℝ np := fun a => u a.1.1 a.1.2
  let us' : I → Ix → State ℝ np := fun a => u a.1.1 (a.1.2 + 1)
  let τ : I → ℝ := fun a => t a.1.1 (a.1.2 + 1) - t a.1.1 a.1.2
  let sl : ℕ → Option (State ℝ np → State ℝ np → State ℝ np) := fun k => (o k).bind fun o' => o'.slope.map (SlopeKind.fn o'.tiny)
  have hsl : ∀ k g, sl k = some g → ∀ x y, ‖g x y‖ ≤ ‖x‖ + ‖y‖ := by
    intro k g hg x y
    obtain ⟨o', -, hg⟩ := Option.bind_eq_some_iff.1 hg
    obtain ⟨s, -, rfl⟩ := Option.map_eq_some_iff.1 hg
    exact slope_bound _ s x y
  let EvK : ℕ → (Ix → State ℝ np) → (Fin 3 → Ix → State ℝ np) → Prop := fun k v F =>
    ∃ U U' : Ix → State ℝ np, ∃ θ : Fin 3 → Ix → ℝ, (∀ i, InCells (c k).n i → U i = v i) ∧ (∀ i, InCells (c k).n i → U' i = v i) ∧
      (∀ d i, 0 ≤ θ d i ∧ θ d i ≤ 1) ∧ (o k = none → ∀ d i, θ d i = 0) ∧ StaysInside G.gamma (c k).n p none A R K U ∧
      (o k ≠ none → StaysInside G.gamma (c k).n (fallbackP p) (sl k) A R K U') ∧
      F = fun d j =>
        (1 - θ d j) • latFlux ℝ (riemann r G d) p none d (latPrim ℝ (computePrimitives G.gamma) p U) j +
        θ d j • latFlux ℝ (riemann r G d) (fallbackP p) (sl k) d (latPrim ℝ (computePrimitives G.gamma) (fallbackP p) U') j
  have hkept : ∀ k s t u dt D, keptInside K A R (c k) (o k) (f k) s t u = .ok (dt, D) →
      (∃ W, IsDt (c k).scheme (c k).p W dt) ∧
      ∃ F, EvK k u F ∧ ∀ i, InCells (c k).n i → D i = latDiv (c k).scheme.active (c k).h F i := by
    intro k s t u dt D h
    obtain ⟨hQ, h⟩ := restrictTo_ok h
    obtain ⟨hdt, U, U', θ, h1, h2, h3, h4, h5⟩ := inside_eval (hc k) hA (hw k) (ho k) (hf k) h
    refine ⟨hdt, _, ⟨U, U', θ, h1, h2, h3, h4, ?_, fun hne => ?_, rfl⟩, h5⟩
    · have := (hQ U h1).1
      rwa [(hc k).gas, (hc k).degrees] at this
    · obtain ⟨o', ho'⟩ := Option.ne_none_iff_exists'.1 hne
      have := (hQ U' h2).2 o' ho'
      rw [(hc k).gas, (hc k).degrees] at this
      simp only [sl, ho', Option.bind_some]
      exact this
  -- one step
  have hone : ∀ k, ∀ j < N k, RKStepIn m (EvK k) (c k).n (c k).scheme.active (c k).h (t k (j + 1) - t k j) (u k j) (u k (j + 1)) ∧
      t k j < t k (j + 1) ∧ ∀ d, t k (j + 1) - t k j ≤ cfl / Real.sqrt G.csqFloor * (c k).h d := by
    intro k j hj
    obtain ⟨target, τ, hg, hs, ht⟩ := (htr k).step j hj
    have eτ : t k (j + 1) - t k j = τ := by rw [ht]; ring
    obtain ⟨dt, D, h0, hτ⟩ := stepper_dt _ _ _ _ _ _ _ hs
    obtain ⟨⟨W, hW⟩, -⟩ := hkept _ _ _ _ _ _ h0
    obtain ⟨hdt0, hdt1⟩ := (hc k).dt_bounds hG.sqrt hG.floor hcfl hA hW
    have hτ0 : 0 < τ ∧ τ ≤ dt := by
      rw [hτ]
      cases target with
      | none => exact ⟨hdt0, le_rfl⟩
      | some g =>
        refine ⟨hitTarget_pos hdt0 (hg g rfl), ?_⟩
        simp only [hitTarget]
        split
        · rename_i hlt; exact hlt.le
        · exact le_rfl
    rw [eτ]
    refine ⟨rkStepIn_of_stepper (Ev := EvK k) ?_ (fun s t u dt D h => (hkept k s t u dt D h).2) m _ _ _ _ _ hs, by rw [ht]; linarith,
      fun d => hτ0.2.trans (hdt1 d)⟩
    rintro v v' F hv ⟨U, U', θ, h1, h2, h3⟩
    exact ⟨U, U', θ, fun i hi => (h1 i hi).trans (hv i hi), fun i hi => (h2 i hi).trans (hv i hi), h3⟩
  -- the fluxes of an evaluation
  have hev : ∀ (v : I → Ix → State ℝ np) (F : I → Fin 3 → Ix → State ℝ np), (∀ a, EvK a.1.1 (v a) (F a)) →
      TracksIn n A K b v (fun k => k) → ∀ d ∈ A, TracksIn n A K b (fun a => F a d) fun k => lawFlux r G.gamma d k := by
    intro v F hF hv d hd
    choose Uh Ul θ h1 h2 h3 h4 h5 h6 h7 using hF
    have tU : TracksIn n A K b Uh fun k => k := hv.congr (fun a i hi => h1 a i hi) fun _ _ => rfl
    have tU' : TracksIn n A K b Ul fun k => k := hv.congr (fun a i hi => h2 a i hi) fun _ _ => rfl
    have fh := flux_tracksIn (n := n) r G hG.sqrt hG.gamma.le hp hAp hK hgas (s := fun _ => none) (fun a g hg => by cases hg)
      (fun a => h5 a) tU hd
    -- the runs with limiting
    let I' := {a : I // o a.1.1 ≠ none}
    have fl := flux_tracksIn (I := I') (n := fun a => n a.1) (u := fun a => b a.1) (v := fun a => Ul a.1) r G hG.sqrt hG.gamma.le hq
      hAq hK hgas (R := R) (s := fun a => sl a.1.1.1) (fun a => hsl _) (fun a => h6 a.1 a.2)
      (by
        obtain ⟨r, S, L, e1, e2, e3⟩ := tU'
        exact ⟨r, S, L, e1, e2, fun a => e3 a.1⟩) hd
    have fl' : TracksIn n A K b (fun a => if o a.1.1 = none then
        latFlux ℝ (riemann r G d) p none d (latPrim ℝ (computePrimitives G.gamma) p (Uh a))
      else latFlux ℝ (riemann r G d) (fallbackP p) (sl a.1.1) d (latPrim ℝ (computePrimitives G.gamma) (fallbackP p) (Ul a)))
        fun k => targetFlux r G.gamma d (computePrimitives G.gamma k) := by
      obtain ⟨r1, S1, L1, a1, a2, a3⟩ := fh
      obtain ⟨r2, S2, L2, b1, b2, b3⟩ := fl
      refine ⟨max r1 r2, S1 ∪ S2, L1 + L2, add_nonneg a1 b1, fun σ hσ => ?_, fun a k hk i hi => ?_⟩
      · rcases Finset.mem_union.1 hσ with h | h
        · exact a2 σ h
        · exact b2 σ h
      · have m1 : L1 * ∑ σ ∈ S1, ‖b a (i + σ) - k‖ ≤ (L1 + L2) * ∑ σ ∈ S1 ∪ S2, ‖b a (i + σ) - k‖ :=
          mul_le_mul (by linarith) (Finset.sum_le_sum_of_subset_of_nonneg Finset.subset_union_left fun _ _ _ => norm_nonneg _)
            (Finset.sum_nonneg fun _ _ => norm_nonneg _) (by linarith)
        have m2 : L2 * ∑ σ ∈ S2, ‖b a (i + σ) - k‖ ≤ (L1 + L2) * ∑ σ ∈ S1 ∪ S2, ‖b a (i + σ) - k‖ :=
          mul_le_mul (by linarith) (Finset.sum_le_sum_of_subset_of_nonneg Finset.subset_union_right fun _ _ _ => norm_nonneg _)
            (Finset.sum_nonneg fun _ _ => norm_nonneg _) (by linarith)
        by_cases hno : o a.1.1 = none
        · beta_reduce
          rw [if_pos hno]
          exact (a3 a k hk i (hi.mono (le_max_left _ _))).trans m1
        · beta_reduce
          rw [if_neg hno]
          exact (b3 ⟨a, hno⟩ k hk i (hi.mono (le_max_right _ _))).trans m2
    refine (TracksIn.blend (θ := fun a i => θ a d i) (fun a i => h3 a d i) fh fl').congr (fun a i _ => ?_)
      fun k _ => lawFlux_target r G.gamma d k
    rw [h7 a]
    by_cases hno : o a.1.1 = none
    · beta_reduce
      rw [h4 a hno d i, zero_smul, zero_smul]
    · beta_reduce
      rw [if_neg hno]
  have tb : TracksIn n A K b us fun k => k := TracksIn.refl.congr (fun a i hi => by
    show u _ _ i = u _ _ (w _ i)
    rw [hwid _ i hi]) fun _ _ => rfl
  obtain ⟨g, hg1, hg2⟩ := step_tracksIn (n := n) (A := A) (K := K) (b := b) (u := us) (u' := us') m (Ev := fun a => EvK a.1.1)
    (f := fun d => lawFlux r G.gamma d) hev (act := fun a => (c a.1.1).scheme.active) (fun a d => (hc a.1.1).active d)
    (h := fun a => (c a.1.1).h) (τ := τ) (R := cfl / Real.sqrt G.csqFloor) (fun a => (sub_pos.2 (hone _ _ a.2).2.1).le)
    (fun a => (hc a.1.1).spacing) (fun a d _ => (hone _ _ a.2).2.2 d) (fun a => (hone _ _ a.2).1) tb
  -- one margin, stencil and constant for all directions
  have hLS : ∃ ρ : ℕ, ∃ S : Finset Ix, ∃ L : ℝ, 0 ≤ L ∧ (∀ σ ∈ S, ∀ d, d ∉ A → σ d = 0) ∧ ∀ d ∈ A, ∀ a, ∀ k ∈ K, ∀ i,
      Deep (n a) A ρ i → ‖g a d i - lawFlux r G.gamma d k‖ ≤ L * ∑ σ ∈ S, ‖b a (i + σ) - k‖ := by
    choose! ρ S L hL hS H using hg2
    refine ⟨∑ d ∈ A, ρ d, A.biUnion S, ∑ d ∈ A, L d, Finset.sum_nonneg hL, fun σ hσ => ?_, fun d hd a k hk i hi => ?_⟩
    · obtain ⟨d, hd, hσ⟩ := Finset.mem_biUnion.1 hσ
      exact hS d hd σ hσ
    · refine (H d hd a k hk i (hi.mono (Finset.single_le_sum (fun _ _ => Nat.zero_le _) hd))).trans
        (mul_le_mul (Finset.single_le_sum hL hd) ?_ (Finset.sum_nonneg fun _ _ => norm_nonneg _) (Finset.sum_nonneg hL))
      exact Finset.sum_le_sum_of_subset_of_nonneg (Finset.subset_biUnion_of_mem S hd) fun _ _ _ => norm_nonneg _
  obtain ⟨ρ, S, L, hL, hS, HS⟩ := hLS
  have hlip : ∃ M ≥ 0, ∀ d, ∀ x ∈ K, ∀ y ∈ K, ‖lawFlux r G.gamma d x - lawFlux r G.gamma d y‖ ≤ M * ‖x - y‖ := by
    choose M hM h using lawFlux_lip r G hG.sqrt hG.gamma.le hK hgas
    refine ⟨∑ d, M d, Finset.sum_nonneg fun d _ => hM d, fun d x hx y hy => (h d x hx y hy).trans ?_⟩
    exact mul_le_mul_of_nonneg_right (Finset.single_le_sum (fun d _ => hM d) (Finset.mem_univ d)) (norm_nonneg _)
  obtain ⟨M, hM, hlip⟩ := hlip
  -- the flux on the whole lattice: that of the step away from the sides, and any consistent one near them
  let gl : I → Fin 3 → Ix → State ℝ np := fun a d i =>
    if Deep (n a) A ρ (w a.1.1 i) then g a d (w a.1.1 i) else lawFlux r G.gamma d (b a i)
  have hbmem : ∀ a i, b a i ∈ K := fun a i => hin _ _ a.2 _ (hwin _ i)
  have hglper : ∀ a e d i, gl a d (i + Pi.single e (n a e : ℤ)) = gl a d i := by
    intro a e d i
    have : w a.1.1 (i + Pi.single e (n a e : ℤ)) = w a.1.1 i := by
      have := wrap_periodic (V := Ix) (n a) id e i
      exact this
    simp only [gl, b, this]
  have HG : ∀ d ∈ A, ∀ a, ∀ k ∈ K, ∀ i, ‖gl a d i - lawFlux r G.gamma d k‖ ≤ (L + M) * ∑ σ ∈ insert 0 S, ‖b a (i + σ) - k‖ := by
    intro d hd a k hk i
    have hbw : ∀ σ, b a (w a.1.1 i + σ) = b a (i + σ) := fun σ => by simp only [b, hwadd]
    simp only [gl]
    split_ifs with hdeep
    · refine (HS d hd a k hk _ hdeep).trans ?_
      simp only [hbw]
      exact mul_le_mul (by linarith) (Finset.sum_le_sum_of_subset_of_nonneg (Finset.subset_insert _ _) fun _ _ _ => norm_nonneg _)
        (Finset.sum_nonneg fun _ _ => norm_nonneg _) (by linarith)
    · refine (hlip d _ (hbmem a i) _ hk).trans ?_
      have h1 : ‖b a i - k‖ ≤ ∑ σ ∈ insert 0 S, ‖b a (i + σ) - k‖ := by
        have := Finset.single_le_sum (f := fun σ => ‖b a (i + σ) - k‖) (fun _ _ => norm_nonneg _) (Finset.mem_insert_self 0 S)
        simpa only [add_zero] using this
      exact mul_le_mul (by linarith) h1 (norm_nonneg _) (by linarith)
  have hS' : ∀ σ ∈ insert 0 S, ∀ d, d ∉ A → σ d = 0 := by
    intro σ hσ d hd
    rcases Finset.mem_insert.1 hσ with rfl | h
    · rfl
    · exact hS σ h d hd
  -- bounds
  obtain ⟨B, hB⟩ : ∃ B, ∀ k ∈ K, ‖k‖ ≤ B ∧ ∀ d, ‖lawFlux r G.gamma d k‖ ≤ B := by
    obtain ⟨B, hB⟩ := hK.isBounded.exists_norm_le
    rcases K.eq_empty_or_nonempty with rfl | ⟨k₀, hk₀⟩
    · exact ⟨0, fun k hk => absurd hk (Set.notMem_empty k)⟩
    have hB0 : 0 ≤ B := (norm_nonneg _).trans (hB k₀ hk₀)
    refine ⟨B + (M * (2 * B) + ∑ d, ‖lawFlux r G.gamma d k₀‖), fun k hk => ⟨?_, fun d => ?_⟩⟩
    · have := hB k hk
      have : 0 ≤ M * (2 * B) + ∑ d, ‖lawFlux r G.gamma d k₀‖ :=
        add_nonneg (by positivity) (Finset.sum_nonneg fun _ _ => norm_nonneg _)
      linarith
    · have h1 := hlip d k hk k₀ hk₀
      have h2 := norm_sub_le k k₀
      have h3 := mul_le_mul_of_nonneg_left (h2.trans (add_le_add (hB k hk) (hB k₀ hk₀))) hM
      have h4 := norm_sub_norm_le (lawFlux r G.gamma d k) (lawFlux r G.gamma d k₀)
      have h5 := Finset.single_le_sum (f := fun d => ‖lawFlux r G.gamma d k₀‖) (fun _ _ => norm_nonneg _) (Finset.mem_univ d)
      beta_reduce at h5
      linarith
  let gs : ℕ → ℕ → Fin 3 → (Fin 3 → ℝ) → State ℝ np := fun k j d x =>
    if hj : j < N k then gl ⟨(k, j), hj⟩ d (cellAt (c k).h x) else 0
  let Ω : ℕ → Set (Fin 3 → ℝ) := fun k => {x | Deep (c k).n A (ρ + 1) (cellAt (c k).h x)}
  have hcons : ∀ k, ∀ j < N k, ConsStep ℓ (c k).h A K (fun d => lawFlux r G.gamma d) (insert 0 S) (Ω k) (L + M) (t k (j + 1) - t k j)
      (onGrid (c k).n (c k).h (u k j)) (onGrid (c k).n (c k).h (u k (j + 1))) (gs k j) := by
    intro k j hj
    have egs : ∀ d, gs k j d = fun x => gl ⟨(k, j), hj⟩ d (cellAt (c k).h x) := fun d => funext fun x => dif_pos hj
    refine ⟨measurable_grid (c k).h fun i => u k j (w k i), grid_periodic (U := fun i => u k j (w k i)) (hc k).spacing (hbox k) fun d i =>
      wrap_periodic (c k).n (u k j) d i, fun x => hin k j hj _ (hwin k _), fun d _ => ?_, fun d _ => ?_, fun x hx => ?_,
      fun d hd x k' hk' => ?_⟩
    · rw [egs]
      exact measurable_grid _ _
    · rw [egs]
      exact grid_periodic (hc k).spacing (hbox k) fun e i => hglper ⟨(k, j), hj⟩ e d i
    · have hx' : Deep (c k).n A (ρ + 1) (cellAt (c k).h x) := hx
      have h1 := hg1 ⟨(k, j), hj⟩ _ hx'.1
      have hself : ∀ y : Ix → State ℝ np, onGrid (c k).n (c k).h y x = y (cellAt (c k).h x) := fun y =>
        congrArg y (hwid k _ hx'.1)
      rw [hself, hself]
      refine h1.trans ?_
      congr 2
      unfold latDiv
      refine (Finset.sum_subset (Finset.subset_univ A) fun d _ hd => ?_).symm.trans (Finset.sum_congr rfl fun d hd => ?_)
      · exact if_neg fun h => hd (((hc k).active d).1 h)
      · refine (if_pos (((hc k).active d).2 hd)).trans ?_
        have es : Pi.single d ((c k).h d) = latShift (c k).h (Pi.single d 1) := by
          rw [latShift_single, Int.cast_one, one_mul]
        rw [egs, es]
        simp only [cellAt_shift (hc k).spacing]
        have hd1 : Deep (c k).n A ρ (cellAt (c k).h x + Pi.single d 1) := by
          refine Deep.shift (fun e he => Pi.single_eq_of_ne (show e ≠ d from fun h => he (h ▸ hd)) _) (hx'.mono (le_of_eq ?_))
          rw [Finset.sum_eq_single d (fun e _ he => by rw [Pi.single_eq_of_ne he]; rfl) fun h => absurd (Finset.mem_univ d) h,
            Pi.single_eq_same]
          rfl
        have hd0 : Deep (c k).n A ρ (cellAt (c k).h x) := hx'.mono (Nat.le_succ ρ)
        have e1 : gl ⟨(k, j), hj⟩ d (cellAt (c k).h x) = g ⟨(k, j), hj⟩ d (cellAt (c k).h x) := by
          simp only [gl]
          rw [hwid k _ hd0.1, if_pos hd0]
        have e2 : gl ⟨(k, j), hj⟩ d (cellAt (c k).h x + Pi.single d 1) = g ⟨(k, j), hj⟩ d (cellAt (c k).h x + Pi.single d 1) := by
          simp only [gl]
          rw [hwid k _ hd1.1, if_pos hd1]
        rw [e1, e2]
    · rw [egs]
      refine (HG d hd ⟨(k, j), hj⟩ k' hk' _).trans (le_of_eq ?_)
      congr 1
      refine Finset.sum_congr rfl fun σ _ => ?_
      unfold onGrid
      rw [cellAt_shift (hc k).spacing]
  -- on fine grids the test function vanishes where the cells are not deep
  obtain ⟨k₀, hk₀⟩ : ∃ k₀, ∀ k ≥ k₀, ∀ d ∈ A, ((ρ : ℝ) + 1) * (c k).h d < ε := by
    have : ∀ᶠ k in atTop, ∀ d ∈ A, ((ρ : ℝ) + 1) * (c k).h d < ε := by
      refine (Filter.eventually_all_finset A).2 fun d hd => ?_
      have h1 := (hh d hd).const_mul ((ρ : ℝ) + 1)
      rw [mul_zero] at h1
      exact h1.eventually (gt_mem_nhds hε)
    exact eventually_atTop.1 this
  let ψ : ℝ × (Fin 3 → ℝ) → ℝ := fun z => φ (z.1, intoBox ℓ z.2)
  have hψbox : ∀ s x, (∀ d, 0 ≤ x d ∧ x d < ℓ d) → ψ (s, x) = φ (s, x) := fun s x hx => by
    show φ (s, intoBox ℓ x) = _
    rw [intoBox_of_mem hℓ hx]
  have hΩ : ∀ k ≥ k₀, ∀ s, ∀ x ∈ sideBox ℓ, x ∉ Ω k → ψ (s, x) = 0 := by
    intro k hk s x hx hnot
    have hx' : ∀ d, 0 ≤ x d ∧ x d < ℓ d := hx
    rw [hψbox s x hx']
    by_contra hne
    have hfar : ∀ d, ε ≤ x d ∧ x d ≤ ℓ d - ε := fun d => by
      constructor
      · exact not_lt.1 fun h => hne (hz s x ⟨d, Or.inl h⟩)
      · exact not_lt.1 fun h => hne (hz s x ⟨d, Or.inr h⟩)
    refine hnot ⟨fun d => ?_, fun d hd => ?_⟩
    · have h0 := (hc k).spacing d
      refine ⟨Int.floor_nonneg.2 (div_nonneg (hx' d).1 h0.le), Int.floor_lt.2 ?_⟩
      rw [div_lt_iff₀ h0, Int.cast_natCast, hbox k d]
      exact (hx' d).2
    · have h0 := (hc k).spacing d
      have h1 := hk₀ k hk d hd
      have h2 := hfar d
      have h3 := hbox k d
      constructor
      · refine Int.le_floor.2 ((le_div_iff₀ h0).2 ?_)
        push_cast
        linarith
      · have h4 : cellAt (c k).h x d < (c k).n d - ((ρ : ℤ) + 1) := by
          refine Int.floor_lt.2 ((div_lt_iff₀ h0).2 ?_)
          push_cast
          rw [sub_mul, h3]
          linarith
        push_cast
        linarith
  obtain ⟨d₀, hd₀⟩ := hA
  let Up : ℝ × (Fin 3 → ℝ) → State ℝ np := fun z => U (z.1, intoBox ℓ z.2)
  have hUpbox : ∀ s x, (∀ d, 0 ≤ x d ∧ x d < ℓ d) → Up (s, x) = U (s, x) := fun s x hx => by
    show U (s, intoBox ℓ x) = _
    rw [intoBox_of_mem hℓ hx]
  have hmbox : MeasurableSet {x : Fin 3 → ℝ | ∀ d, 0 ≤ x d ∧ x d < ℓ d} := by
    rw [Set.ofPred_forall]
    exact MeasurableSet.iInter fun d => (measurableSet_le measurable_const (measurable_pi_apply d)).inter
      (measurableSet_lt (measurable_pi_apply d) measurable_const)
  have hsh : Tendsto (fun k => k + k₀) atTop atTop := tendsto_add_atTop_nat k₀
  have key := weak_limit (ℓ := ℓ) (hs := fun k => (c (k + k₀)).h) (Ns := fun k => N (k + k₀)) (tms := fun k => t (k + k₀))
    (uss := fun k j => onGrid (c (k + k₀)).n (c (k + k₀)).h (u (k + k₀) j)) (φ := ψ) (U := Up)
    (gss := fun k => gs (k + k₀)) (δ := fun k => cfl / Real.sqrt G.csqFloor * (c (k + k₀)).h d₀) (A := A) (B := B) (L := L + M)
    (S := insert 0 S) (K := K) (T := T) (Ωs := fun k => Ω (k + k₀)) (U₀ := U₀)
    hT (fun k => (htr _).start) (fun k => hend _) (fun k j hj => (hone _ j hj).2.1) (fun k => hcons _) (by linarith) hB
    (fun d => measurable_law r G.gamma d) hℓ
    (fun k d _ => ⟨(hc _).spacing d, by
      rw [← hbox (k + k₀) d]
      have h1 : (1 : ℝ) ≤ (c (k + k₀)).n d := by exact_mod_cast (hc (k + k₀)).cells d
      have := (hc (k + k₀)).spacing d
      nlinarith⟩) hS' (hU.comp (measurable_fst.prodMk ((measurable_intoBox ℓ).comp measurable_snd)))
    (fun s d x => congrArg (fun y => U (s, y)) (intoBox_periodic hℓ d x)) (fun z => hUK _) hU₀ hU₀K
    (fun k j hj => (hone _ j hj).2.2 d₀)
    (by simpa using ((hh d₀ hd₀).comp hsh).const_mul (cfl / Real.sqrt G.csqFloor)) (fun d hd => (hh d hd).comp hsh)
    (hinit.comp hsh)
    (by
      refine (hconv.comp hsh).congr fun k => ?_
      refine Finset.sum_congr rfl fun j _ => ?_
      refine intervalIntegral.integral_congr fun s _ => ?_
      refine setIntegral_congr_fun hmbox fun x hx => ?_
      beta_reduce
      rw [hUpbox s x hx])
    (periodise_contDiff hℓ hε hz hφ) (fun s d x => congrArg (fun y => φ (s, y)) (intoBox_periodic hℓ d x)) (fun x => hφT _)
    (fun k => hΩ (k + k₀) (Nat.le_add_left _ _)) v
  refine Eq.trans ?_ key
  refine congrArg₂ (· + ·) (setIntegral_congr_fun hmbox fun x hx => ?_) ?_
  · rw [hψbox 0 x hx]
  · refine intervalIntegral.integral_congr fun s _ => ?_
    refine setIntegral_congr_fun hmbox fun x hx => ?_
    have e : fderiv ℝ ψ (s, x) = fderiv ℝ φ (s, x) := periodise_fderiv hℓ hε hz s hx
    beta_reduce
    unfold weakTerm timeD spaceD
    rw [hUpbox s x hx, e]

/-- **C100, runs of `integrate`** A run of `integrate` up to time `T` during which the gas laws are only evaluated in `K` away
from the sides is a run of the code, and its steps form a trajectory of the kind C100_inside speaks of, with the recorded time
stamps. -/
theorem C100_run {S : Type} {G : Gas ℝ} (hG : G.OK) {r : RiemannKind} {p : Fin 3 → ℕ} {A : Finset (Fin 3)}
    (hA : A.Nonempty) {cfl : ℝ} (hcfl : 0 < cfl) (m : Integrator) (K : Set (State ℝ np)) (R : ℕ) {T : ℝ} (hT : 0 < T)
    {c : EulerConfig ℝ np} {o : Option (LimiterOpts ℝ)} (hc : InClass c G r p A cfl) (hw : WellPosed (c.limited o).scheme)
    (ho : ∀ o', o = some o' → o'.toDetectOpts.Known) {f : RHS ℝ (Ix → State ℝ np)} (hf : IsSolverRHS (c.limited o).scheme f)
    (mk : ODEState ℝ (Ix → State ℝ np) S → S) (fuel : ℕ) (downbeats : List ℝ) (hd : ∀ d ∈ downbeats, d = 0 ∨ 0 < d)
    (logEvery : Bool) (u₀ : Ix → State ℝ np) (out : ODEState ℝ (Ix → State ℝ np) S)
    (hrun : (ODEState.init u₀).integrate (stepper (keptInside K A R c o f) m) mk fuel
      ⟨some T, none, true, downbeats, logEvery, none⟩ = some (out, none)) :
    (ODEState.init u₀).integrate (stepper f m) mk fuel ⟨some T, none, true, downbeats, logEvery, none⟩ = some (out, none) ∧
    ∃ N t u, Trajectory (stepper (keptInside K A R c o f) m) N t u ∧ t N = T ∧ u 0 = u₀ ∧ u N = out.u ∧
      out.timestamps = (List.range (N + 1)).map t := by
  have hsub : ∀ s t u, Sub (keptInside K A R c o f s t u) (f s t u) := fun s t u r hr => (restrictTo_ok hr).2
  refine ⟨integrate_refine _ _ hsub m mk fuel _ _ _ hrun, ?_⟩
  refine run_trajectory _ (fun s t u dt D h => ?_) m hT mk fuel downbeats hd logEvery u₀ out hrun
  obtain ⟨⟨W, hW⟩, -⟩ := inside_eval hc hA hw ho hf (restrictTo_ok h).2
  exact (hc.dt_bounds hG.sqrt hG.floor hcfl hA hW).1

/-! ### Two gases at rest in a tube with open ends, limited everywhere -/

/-- An open tube of length two and `2 M` cells at degree one. -/
noncomputable def openTube (M : ℕ) : EulerConfig ℝ 1 where
  gas := airGas
  riem := .hllc
  n := ![2 * M, 1, 1]
  p := ![1, 0, 0]
  h := ![1 / M, 1, 1]
  cfl := 4 / 5
  fixedDt := none
  bc := ⟨fun _ _ => .free, fun _ _ => .other, none⟩
  limiting := none

theorem openTube_active (M : ℕ) (d : Fin 3) : (openTube M).scheme.active d = true ↔ d = 0 := by
  match d with
  | 0 | 1 | 2 => simp [Scheme.active, EulerConfig.scheme, openTube]

theorem openTube_class (M : ℕ) (hM : 1 ≤ M) : InClass (openTube M) airGas .hllc ![1, 0, 0] {0} (4 / 5) where
  gas := rfl
  riem := rfl
  degrees := rfl
  cfl_eq := rfl
  computed := rfl
  active := fun d => by rw [openTube_active, Finset.mem_singleton]
  cells := fun d => by
    match d with
    | 0 => show 1 ≤ 2 * M; omega
    | 1 | 2 => exact le_rfl
  spacing := fun d => by
    match d with
    | 0 =>
      have : (0 : ℝ) < M := by exact_mod_cast hM
      show (0 : ℝ) < 1 / M
      positivity
    | 1 | 2 => exact one_pos

theorem openTube_setup (M : ℕ) (hM : 1 ≤ M) (s : SlopeKind) : FallbackSetup (openTube M) (forcedLimiter s) s where
  known := by
    refine ⟨?_, ?_⟩ <;> simp [forcedLimiter]
  forced := rfl
  simple := rfl
  slope := rfl
  tiny := by norm_num [forcedLimiter]
  dims := by
    intro h
    have : (0 : Fin 3) ∈ (openTube M).dims := (mem_dims _ _).2 ((openTube_active M 0).2 rfl)
    rw [h] at this
    exact absurd this (List.not_mem_nil)
  degree := fun d => by match d with | 0 | 1 | 2 => simp [openTube]
  cells := (openTube_class M hM).cells
  spacing := (openTube_class M hM).spacing
  gamma := by norm_num [openTube, airGas]
  sqrt := airGas_sqrt
  floor := by norm_num [openTube, airGas]
  keeps := .inl rfl
  sides := fun d hd => ⟨fun s => .inl rfl, fun h => by cases h⟩
  sidesLow := fun d hd => ⟨fun s => .inl rfl, fun h => by cases h⟩
  sidesDetect := fun d hd => ⟨fun s => .inl rfl, fun h => by cases h⟩
  noWall := fun _ _ _ h => by simp [openTube] at h

theorem openTube_box (M : ℕ) (hM : 1 ≤ M) : FillsBox (openTube M) ![2, 1, 1] := by
  intro d
  match d with
  | 0 =>
    show ((2 * M : ℕ) : ℝ) * (1 / M) = 2
    have : (M : ℝ) ≠ 0 := by exact_mod_cast (by omega : M ≠ 0)
    push_cast
    field_simp
  | 1 | 2 => show ((1 : ℕ) : ℝ) * 1 = 1; norm_num

/-- Density one in the left half of the tube, two in the right half. -/
noncomputable def openField (x : Fin 3 → ℝ) : State ℝ 1 := restState (x 0 < 1)

theorem openTube_grid (M : ℕ) (hM : 1 ≤ M) (u : Ix → State ℝ 1)
    (hu : ∀ i, InCells (openTube M).n i → u i = restState (i 0 < M)) (x : Fin 3 → ℝ)
    (hx : ∀ d, 0 ≤ x d ∧ x d < (![2, 1, 1] : Fin 3 → ℝ) d) :
    onGrid (openTube M).n (openTube M).h u x = openField x := by
  have hM0 : (0 : ℝ) < M := by exact_mod_cast hM
  have hin : InCells (openTube M).n (cellAt (openTube M).h x) := by
    intro d
    have h0 := (openTube_class M hM).spacing d
    refine ⟨Int.floor_nonneg.2 (div_nonneg (hx d).1 h0.le), Int.floor_lt.2 ?_⟩
    rw [div_lt_iff₀ h0, Int.cast_natCast, openTube_box M hM d]
    exact (hx d).2
  have hmod : (fun d => cellAt (openTube M).h x d % ((openTube M).n d : ℤ)) = cellAt (openTube M).h x :=
    funext fun d => Int.emod_eq_of_lt (hin d).1 (hin d).2
  show u (fun d => cellAt (openTube M).h x d % ((openTube M).n d : ℤ)) = _
  rw [hmod, hu _ hin]
  have h1 : cellAt (openTube M).h x 0 < (M : ℤ) ↔ x 0 < 1 := by
    show ⌊x 0 / (1 / M)⌋ < (M : ℤ) ↔ _
    rw [Int.floor_lt, Int.cast_natCast, div_div_eq_mul_div, div_one]
    constructor <;> intro h <;> nlinarith
  unfold openField restState
  simp only [h1]

/-- Gas at rest at pressure one, of densities from one half to three. -/
noncomputable def restSet : Set (State ℝ 1) :=
  (fun ρ : ℝ => conserved (7 / 5) (flowing 0 1 (fun _ => 1 / 2) ρ)) '' Set.Icc (1 / 2) 3

theorem restSet_compact : IsCompact restSet := by
  refine isCompact_Icc.image (continuous_pi fun v => ?_)
  cases v <;> simp only [conserved, flowing, totalEnergy] <;> fun_prop

theorem restState_in (b : Prop) [Decidable b] : restState b ∈ restSet := by
  refine ⟨if b then 1 else 2, ?_, rfl⟩
  split <;> constructor <;> norm_num

theorem flowing_in {ρ : ℝ} (h1 : 1 / 2 ≤ ρ) (h2 : ρ ≤ 3) :
    (flowing 0 1 (fun _ => 1 / 2) ρ : State ℝ 1) ∈ computePrimitives (7 / 5) '' restSet :=
  ⟨_, ⟨ρ, ⟨h1, h2⟩, rfl⟩, prim_flowing _ (by norm_num) _ _ _ _ (by linarith)⟩

theorem openTube_inside (M : ℕ) (s : SlopeKind) (u : Ix → State ℝ 1)
    (hu : ∀ i, InCells (openTube M).n i → u i = restState (i 0 < M)) :
    GasInside restSet {0} 1 (openTube M) (some (forcedLimiter s)) u := by
  intro U hU
  let α : Ix → ℝ := fun i => if i 0 < M then 1 else 2
  have hα : ∀ i, 1 ≤ α i ∧ α i ≤ 2 := fun i => by simp only [α]; split <;> constructor <;> norm_num
  have hp : ∀ d, (openTube M).p d ≤ 1 := fun d => by match d with | 0 | 1 | 2 => simp [openTube]
  have hfb : fallbackP (openTube M).p = (openTube M).p := by
    funext d
    match d with | 0 | 1 | 2 => simp [fallbackP, openTube]
  have hval : ∀ i, InCells (openTube M).n i → computePrimitives (7 / 5) (U i) = flowing 0 1 (fun _ => 1 / 2) (α i) := by
    intro i hi
    rw [hU i hi, hu i hi]
    exact prim_flowing _ (by norm_num) _ _ _ _ (by linarith [hα i] : (0 : ℝ) < _).ne'
  have key : ∀ sl : Option (State ℝ 1 → State ℝ 1 → State ℝ 1), sl = none ∨ sl = some (s.fn (forcedLimiter s).tiny) →
      StaysInside (7 / 5) (openTube M).n (openTube M).p sl {0} 1 restSet U := by
    intro sl hsl i hi
    have hcen : latCenters ℝ (openTube M).p U = U := by
      unfold latCenters
      rw [latC_low (hp _), latC_low (hp _), latC_low (hp _)]
    have hline : ∀ d, latLine ℝ (openTube M).p d (latPrim ℝ (computePrimitives (7 / 5)) (openTube M).p U) =
        fun j => computePrimitives (7 / 5) (U j) := by
      intro d
      rw [latPrim_low _ hp]
      unfold latLine
      simp only [latC_low (hp _)]
    refine ⟨?_, fun d hd => ?_⟩
    · rw [hcen, hU i hi.1, hu i hi.1]
      exact restState_in _
    · have hd0 : d = 0 := Finset.mem_singleton.1 hd
      subst hd0
      have hd1 := hi.2 0 hd
      have hnb : InCells (openTube M).n (i - Pi.single 0 1) ∧ InCells (openTube M).n (i + Pi.single 0 1) := by
        constructor <;> intro d <;> have := hi.1 d
        · match d with
          | 0 => show 0 ≤ i 0 - (Pi.single 0 1 : Ix) 0 ∧ i 0 - (Pi.single 0 1 : Ix) 0 < _; rw [Pi.single_eq_same]; omega
          | 1 => show 0 ≤ i 1 - (Pi.single 0 1 : Ix) 1 ∧ i 1 - (Pi.single 0 1 : Ix) 1 < _; rw [Pi.single_eq_of_ne (by decide)]; omega
          | 2 => show 0 ≤ i 2 - (Pi.single 0 1 : Ix) 2 ∧ i 2 - (Pi.single 0 1 : Ix) 2 < _; rw [Pi.single_eq_of_ne (by decide)]; omega
        · match d with
          | 0 => show 0 ≤ i 0 + (Pi.single 0 1 : Ix) 0 ∧ i 0 + (Pi.single 0 1 : Ix) 0 < _; rw [Pi.single_eq_same]; omega
          | 1 => show 0 ≤ i 1 + (Pi.single 0 1 : Ix) 1 ∧ i 1 + (Pi.single 0 1 : Ix) 1 < _; rw [Pi.single_eq_of_ne (by decide)]; omega
          | 2 => show 0 ≤ i 2 + (Pi.single 0 1 : Ix) 2 ∧ i 2 + (Pi.single 0 1 : Ix) 2 < _; rw [Pi.single_eq_of_ne (by decide)]; omega
      have v0 := hval i hi.1
      have v1 := hval _ hnb.1
      have v2 := hval _ hnb.2
      have b0 := hα i
      have b1 := hα (i - Pi.single 0 1)
      have b2 := hα (i + Pi.single 0 1)
      rw [hline]
      show latFaceR ℝ 1 0 sl _ i ∈ _ ∧ latFaceL ℝ 1 0 sl _ i ∈ _
      rcases hsl with rfl | rfl
      · have e1 : latFaceR ℝ 1 0 none (fun j => computePrimitives (7 / 5) (U j)) i =
            flowing 0 1 (fun _ => 1 / 2) (α i + 1 / 4 * (α (i + Pi.single 0 1) - α (i - Pi.single 0 1))) := by
          show latR ℝ 1 0 _ i = _
          rw [latR_one, v0, v1, v2]
          funext v
          cases v <;> simp [flowing]
          ring
        have e2 : latFaceL ℝ 1 0 none (fun j => computePrimitives (7 / 5) (U j)) i =
            flowing 0 1 (fun _ => 1 / 2) (α i - 1 / 4 * (α (i + Pi.single 0 1) - α (i - Pi.single 0 1))) := by
          show latL ℝ 1 0 _ i = _
          rw [latL_one, v0, v1, v2]
          funext v
          cases v <;> simp [flowing]
          ring
        rw [e1, e2]
        exact ⟨flowing_in (by linarith) (by linarith), flowing_in (by linarith) (by linarith)⟩
      · obtain ⟨f1, f2⟩ := face_flowing (np := 1) (forcedLimiter s).tiny s 1 le_rfl 0 (0 : Fin 3 → ℝ) 1 (fun _ => 1 / 2) α
        have e1 : latFaceR ℝ 1 0 (some (s.fn (forcedLimiter s).tiny)) (fun j => computePrimitives (7 / 5) (U j)) i =
            flowing 0 1 (fun _ => 1 / 2) (α i + 1 / 2 * slopeAt (forcedLimiter s).tiny s 1 0 α i) := by
          rw [← congrFun f1 i]
          unfold latFaceR latSlope
          simp only [if_true, v0, v1, v2]
        have e2 : latFaceL ℝ 1 0 (some (s.fn (forcedLimiter s).tiny)) (fun j => computePrimitives (7 / 5) (U j)) i =
            flowing 0 1 (fun _ => 1 / 2) (α i - 1 / 2 * slopeAt (forcedLimiter s).tiny s 1 0 α i) := by
          rw [← congrFun f2 i]
          unfold latFaceL latSlope
          simp only [if_true, v0, v1, v2]
        have g := face_between (forcedLimiter s).tiny (by norm_num [forcedLimiter]) s 1 0 α hα i
        rw [e1, e2]
        exact ⟨flowing_in (by linarith [g.1]) (by linarith [g.2]), flowing_in (by linarith [g.2]) (by linarith [g.1])⟩
  refine ⟨key _ (.inl rfl), fun o' ho' => ?_⟩
  cases ho'
  rw [hfb]
  exact key _ (.inr rfl)

/-- On every grid there is a step size such that the limited scheme leaves the two gases alone in steps of at most that size. -/
theorem openTube_step (M : ℕ) (hM : 1 ≤ M) (s : SlopeKind) : ∃ δ > 0, ∀ t τ, 0 < τ → τ ≤ δ → ∀ u : Ix → State ℝ 1,
    (∀ i, InCells (openTube M).n i → u i = restState (i 0 < M)) →
    ∃ u', stepper (keptInside restSet {0} 1 (openTube M) (some (forcedLimiter s))
        (solverRHS ((openTube M).limited (some (forcedLimiter s))).scheme (fun _ _ => 0) (fun _ _ => 0))) .euler t u (some (t + τ)) =
        .ok (τ, u') ∧
      ∀ i, InCells (openTube M).n i → u' i = restState (i 0 < M) := by
  have hset := openTube_setup M hM s
  have hmin : 0 < min (min ((openTube M).h 0) ((openTube M).h 1)) ((openTube M).h 2) :=
    lt_min (lt_min (hset.spacing 0) (hset.spacing 1)) (hset.spacing 2)
  set H := min (min ((openTube M).h 0) ((openTube M).h 1)) ((openTube M).h 2) with hH
  refine ⟨4 / 5 * H / (((openTube M).scheme.ndim : ℝ) * 2 + 1), by positivity, fun t τ hτ hτδ u hu => ?_⟩
  have hflow : UniformFlow (openTube M) 0 1 (fun _ => 1 / 2) 1 2 u := by
    intro i hi
    refine ⟨if i 0 < M then 1 else 2, ?_, ?_, hu i hi⟩ <;> split <;> norm_num
  obtain ⟨dt, D, β, e, hdt, hβ, -, hD⟩ := fallback_rate hset 0 1 (fun _ => 1 / 2) 1 2 one_pos u hflow (fun _ _ => 0) (fun _ _ => 0) t t
  have hD0 : ∀ i, InCells (openTube M).n i → D i = 0 := by
    intro i hi
    rw [hD i hi]
    simp
  have hdt0 := ((openTube_class M hM).dt_bounds airGas_sqrt (by norm_num [airGas]) (by norm_num) (Finset.singleton_nonempty 0) hdt).1
  have hle : τ ≤ dt := by
    refine hτδ.trans ?_
    unfold IsDt at hdt
    rw [show (openTube M).scheme.fixedDt = none from rfl] at hdt
    obtain ⟨m, ⟨i, hi, hm⟩, -, hdt⟩ := hdt
    have hdt' : dt = 4 / 5 * H / m := hdt
    rw [latPrim_low _ (fun d => by match d with | 0 | 1 | 2 => simp [openTube])] at hm
    have hm' : m = signalSpeed airGas (openTube M).scheme.ndim (flowing 0 1 (fun _ => 1 / 2) (β i) : State ℝ 1) := by
      rw [← hm]
      show signalSpeed _ _ (computePrimitives (7 / 5) (conserved (7 / 5) _)) = _
      rw [prim_flowing _ (by norm_num) _ _ _ _ (by linarith [hβ i] : (0 : ℝ) < _).ne']
      rfl
    obtain ⟨c0, c1⟩ := soundSpeed_spec airGas airGas_sqrt (by norm_num [airGas]) (flowing 0 1 (fun _ => 1 / 2) (β i) : State ℝ 1)
    have c2 : soundSpeed airGas (flowing 0 1 (fun _ => 1 / 2) (β i) : State ℝ 1) ≤ 2 := by
      have : max (airGas.gamma * (flowing 0 1 (fun _ => 1 / 2) (β i) : State ℝ 1) .en / (flowing 0 1 (fun _ => 1 / 2) (β i) : State ℝ 1) .rho)
          airGas.csqFloor ≤ 4 := by
        refine max_le ?_ (by norm_num [airGas])
        show 7 / 5 * 1 / β i ≤ 4
        rw [div_le_iff₀ (by linarith [hβ i])]
        linarith [hβ i]
      nlinarith
    have hm1 : m ≤ ((openTube M).scheme.ndim : ℝ) * 2 + 1 := by
      rw [hm']
      have : signalSpeed airGas (openTube M).scheme.ndim (flowing 0 1 (fun _ => 1 / 2) (β i) : State ℝ 1) =
          (openTube M).scheme.ndim * soundSpeed airGas (flowing 0 1 (fun _ => 1 / 2) (β i) : State ℝ 1) := by
        simp [signalSpeed, sum3, flowing]
      rw [this]
      have := mul_le_mul_of_nonneg_left c2 (Nat.cast_nonneg (α := ℝ) (openTube M).scheme.ndim)
      linarith
    have hm0 : 0 < m := by
      rw [hdt'] at hdt0
      by_contra hneg
      exact absurd hdt0 (not_lt.2 (div_nonpos_of_nonneg_of_nonpos (by positivity) (not_lt.1 hneg)))
    rw [hdt']
    exact div_le_div_of_nonneg_left (by positivity) hm0 hm1
  refine ⟨u + τ • D, ?_, fun i hi => ?_⟩
  · refine (restrictTo_euler (openTube_inside M s u hu) _).trans ?_
    simp only [stepper, eulerStepper, e, Bind.bind, Except.bind, Pure.pure, Except.pure]
    have : hitTarget t dt (some (t + τ)) = τ := by
      simp only [hitTarget, add_sub_cancel_left]
      split
      · rfl
      · linarith
    rw [this]
  · show u i + τ • D i = _
    rw [hD0 i hi, smul_zero, add_zero, hu i hi]

/-- C100 for the two gases at rest in the open tube, limited everywhere with minmod or moncen: their density, with its jump, is a
weak solution of the Euler equations. -/
theorem C100_open (s : SlopeKind) (T : ℝ) (hT : 0 < T) :
    IsWeakInside ![2, 1, 1] T {0} (fun d => lawFlux .hllc (7 / 5) d) openField fun z => openField z.2 := by
  let f : ∀ k : ℕ, RHS ℝ (Ix → State ℝ 1) := fun k =>
    solverRHS ((openTube (k + 1)).limited (some (forcedLimiter s))).scheme (fun _ _ => 0) (fun _ _ => 0)
  have hrun : ∀ k : ℕ, ∃ N : ℕ, ∃ t : ℕ → ℝ, ∃ u : ℕ → Ix → State ℝ 1,
      Trajectory (stepper (keptInside restSet {0} 1 (openTube (k + 1)) (some (forcedLimiter s)) (f k)) .euler) N t u ∧ t N = T ∧
      ∀ j i, InCells (openTube (k + 1)).n i → u j i = restState (i 0 < ((k + 1 : ℕ) : ℤ)) := by
    intro k
    obtain ⟨δ, hδ, H⟩ := openTube_step (k + 1) (by omega) s
    obtain ⟨N, hN⟩ := exists_nat_gt (T / δ)
    have hN0 : (0 : ℝ) < N := (div_pos hT hδ).trans hN
    have hτ : T / N ≤ δ := by
      rw [div_le_iff₀ hN0]
      rw [div_lt_iff₀ hδ] at hN
      linarith
    have hτ0 : 0 < T / N := div_pos hT hN0
    let P : (Ix → State ℝ 1) → Prop := fun u =>
      ∀ i, InCells (openTube (k + 1)).n i → u i = restState (i 0 < ((k + 1 : ℕ) : ℤ))
    let next : ℕ → {u // P u} → {u // P u} := fun j u =>
      ⟨(H (j * (T / N)) (T / N) hτ0 hτ u.1 u.2).choose, (H (j * (T / N)) (T / N) hτ0 hτ u.1 u.2).choose_spec.2⟩
    let us : ℕ → {u // P u} := fun j => Nat.rec ⟨fun i => restState (i 0 < ((k + 1 : ℕ) : ℤ)), fun _ _ => rfl⟩ next j
    refine ⟨N, fun j => j * (T / N), fun j => (us j).1, ⟨by simp, fun j hj => ?_⟩, by field_simp, fun j => (us j).2⟩
    refine ⟨some (j * (T / N) + T / N), T / N, fun g hg => by cases hg; linarith, ?_, by push_cast; ring⟩
    exact (H (j * (T / N)) (T / N) hτ0 hτ (us j).1 (us j).2).choose_spec.1
  choose N t u htr hend hin using hrun
  have hmeas : Measurable openField := by
    have h1 : MeasurableSet {x : Fin 3 → ℝ | x 0 < 1} := measurableSet_lt (measurable_pi_apply 0) measurable_const
    have : openField = fun x => if x 0 < 1 then restState True else restState False := by
      funext x
      unfold openField
      by_cases h : x 0 < 1 <;> simp [restState, h]
    rw [this]
    exact Measurable.ite h1 measurable_const measurable_const
  have hmbox : MeasurableSet {x : Fin 3 → ℝ | ∀ d, 0 ≤ x d ∧ x d < (![2, 1, 1] : Fin 3 → ℝ) d} := by
    rw [Set.ofPred_forall]
    exact MeasurableSet.iInter fun d => (measurableSet_le measurable_const (measurable_pi_apply d)).inter
      (measurableSet_lt (measurable_pi_apply d) measurable_const)
  have hzero : ∀ k j, (∫ x in {x : Fin 3 → ℝ | ∀ d, 0 ≤ x d ∧ x d < (![2, 1, 1] : Fin 3 → ℝ) d},
      ‖onGrid (openTube (k + 1)).n (openTube (k + 1)).h (u k j) x - openField x‖) = 0 := by
    intro k j
    rw [setIntegral_congr_fun hmbox (g := fun _ => (0 : ℝ)) fun x hx => by
      beta_reduce
      rw [openTube_grid (k + 1) (by omega) (u k j) (hin k j) x hx, sub_self, norm_zero]]
    simp
  refine C100_inside (G := airGas) ⟨airGas_sqrt, by norm_num [airGas], by norm_num [airGas]⟩ (Finset.singleton_nonempty 0)
    (by norm_num : (0 : ℝ) < 4 / 5) .euler hT restSet_compact ?_ 1 (fun k => openTube (k + 1)) (fun _ => some (forcedLimiter s))
    (fun k => openTube_class (k + 1) (by omega)) (fun k => (openTube_setup (k + 1) (by omega) s).wellPosed)
    (fun k o' ho' => by cases ho'; exact (openTube_setup 1 le_rfl s).known) (fun k => openTube_box (k + 1) (by omega)) ?_
    f (fun k s t u => ⟨_, _, rfl⟩) N t u htr hend (fun k j _ i hi => by rw [hin k j i hi]; exact restState_in _) hmeas
    (fun x => restState_in _) (hmeas.comp measurable_snd) (fun z => restState_in _) ?_ ?_
  · rintro _ ⟨ρ, hρ, rfl⟩
    have h0 : 0 < ρ := by linarith [hρ.1]
    refine ⟨h0, ?_⟩
    show 0 < computePrimitives (7 / 5) (conserved (7 / 5) _) .en
    rw [prim_flowing _ (by norm_num) _ _ _ _ h0.ne']
    exact one_pos
  · intro d hd
    rw [Finset.mem_singleton.1 hd]
    have h1 : ∀ k : ℕ, (openTube (k + 1)).h 0 = 1 / ((k : ℝ) + 1) := by
      intro k
      show 1 / ((k + 1 : ℕ) : ℝ) = _
      push_cast
      rfl
    simp only [h1]
    exact tendsto_one_div_add_atTop_nhds_zero_nat
  · refine tendsto_const_nhds.congr fun k => ?_
    rw [hzero]
  · refine tendsto_const_nhds.congr fun k => ?_
    symm
    refine Finset.sum_eq_zero fun j _ => ?_
    simp only [hzero, intervalIntegral.integral_zero]

end FVHOE
