import Verif.Proofs.LinesSmooth
import Verif.Props.C117

/-!
C118: runs of the solver have the order of accuracy in time of their integrator wherever the numerical fluxes are smooth along the
solution: in supersonic flow with hllc, and away from the ties of llf.
-/

set_option linter.unusedSectionVars false

namespace FVHOE

open Topology Set

variable {np : ℕ} {c : EulerConfig ℝ np}

/-- `R` holds of the states on the two sides of every face the fluxes are evaluated at. -/
def AtFaces (R : Fin 3 → State ℝ np → State ℝ np → Prop) (c : EulerConfig ℝ np) (u : Ix → State ℝ np) : Prop :=
  ∀ d, c.scheme.active d = true → ∀ i, InMid c.n c.p d i →
    let x := faceStates ℝ c.p none d (latPrim ℝ (computePrimitives c.gas.gamma) c.p (padded c.scheme u)) i
    R d x.1 x.2

/-- One step from the solution where the numerical flux is smooth. -/
theorem SemiDiscrete.order_step (h : SmoothSetup c) {T' : ℝ} (hT' : 0 < T') {y : ℝ → Ix → State ℝ np} (hy : SemiDiscrete c T' y)
    (m : Integrator) (hs : ∀ t ∈ Icc 0 T', AtFaces (fun d wl wr => ContDiffAt ℝ (max 2 m.order : ℕ)
      (fun z : State ℝ np × State ℝ np => riemann c.riem c.gas d z.1 z.2) (wl, wr)) c (y t)) :
    ∃ A η, 0 ≤ A ∧ 0 < η ∧ ∀ t h, 0 ≤ t → 0 ≤ h → h ≤ η → t + h ≤ T' →
      ‖advanceBy (cellSlopes c (y 0)) m h (inCells c.n (y t)) - inCells c.n (y (t + h))‖ ≤ A * h ^ (m.order + 1) := by
  have sol : SmoothSolution m (cellSlopes c (y 0)) {x | ContDiffAt ℝ (max 2 m.order : ℕ) (cellSlopes c (y 0)) x} T'
      fun s => inCells c.n (y s) := by
    refine ⟨isOpen_iff_mem_nhds.2 fun x hx => ?_, fun x hx => ContDiffAt.contDiffWithinAt (id hx : ContDiffAt ℝ (max 2 m.order : ℕ) (cellSlopes c (y 0)) x), fun t ht => ?_, fun t ht => (hy.cells h t ht).1⟩
    · exact ContDiffAt.eventually hx (by simp)
    · have e := glue_inCells c.n (y 0) (y t) fun i hi => hy.outside h t ht i hi
      exact h.slopes_smooth (hy.cells h t ht).2 (by rw [e]; exact hs t ht)
  obtain ⟨A, η, hA, hη, hstep⟩ := C116_step m hT' sol
  refine ⟨A, η, hA, hη, fun t h t0 h0 hle hT => ?_⟩
  obtain ⟨v, hv, herr⟩ := hstep (fun _ _ u => .ok (h, cellSlopes c (y 0) u)) (fun _ => h) (fun _ _ _ => rfl) t h none t0 h0 hle hT rfl
  rw [stepper_advanceBy (fun _ _ _ => rfl) (D := fun _ => h)] at hv
  simp only [hitTarget, Except.ok.injEq, Prod.mk.injEq, true_and] at hv
  rwa [← hv] at herr

/-- C118. If the numerical flux is smooth near all states met at the faces along a solution of the semi-discrete equations, then as
the fixed step or the CFL number goes to zero the runs follow the solution with the order of the integrator. -/
theorem C118_order (h : SmoothSetup c) {T T' : ℝ} (hT : 0 < T) (hT' : T < T') {y : ℝ → Ix → State ℝ np} (hy : SemiDiscrete c T' y)
    (m : Integrator) (hs : ∀ t ∈ Icc 0 T', AtFaces (fun d wl wr => ContDiffAt ℝ (max 2 m.order : ℕ)
      (fun z : State ℝ np × State ℝ np => riemann c.riem c.gas d z.1 z.2) (wl, wr)) c (y t)) : RunsFollow c T y m m.order := by
  obtain ⟨A, η, hA, hη, hstep⟩ := hy.order_step h (hT.trans hT') m hs
  exact hy.runs h hT' m (by cases m <;> simp [Integrator.order]) hA hη hstep

/-- C118 (hllc). In flow that is supersonic in every extended direction. -/
theorem C118_supersonic (h : SmoothSetup c) (hr : c.riem = .hllc) {T T' : ℝ} (hT : 0 < T) (hT' : T < T') {y : ℝ → Ix → State ℝ np}
    (hy : SemiDiscrete c T' y) (m : Integrator) (hs : ∀ t ∈ Icc 0 T', AtFaces (Supersonic c.gas) c (y t)) :
    RunsFollow c T y m m.order := by
  refine C118_order h hT hT' hy m fun t ht d hd i hi => ?_
  obtain ⟨g1, g2⟩ := (hy.sturdy t ht).faces d hd i hi
  rw [hr]
  exact smooth_hllc _ c.gas h.gas d _ _ g1 g2 (hs t ht d hd i hi)

/-- C118 (llf). Where no velocity vanishes, no sound speed is at its floor and the speeds on the two sides of the faces differ. -/
theorem C118_untied (h : SmoothSetup c) (hr : c.riem = .llf) {T T' : ℝ} (hT : 0 < T) (hT' : T < T') {y : ℝ → Ix → State ℝ np}
    (hy : SemiDiscrete c T' y) (m : Integrator) (hs : ∀ t ∈ Icc 0 T', AtFaces (Untied c.gas) c (y t)) :
    RunsFollow c T y m m.order := by
  refine C118_order h hT hT' hy m fun t ht d hd i hi => ?_
  obtain ⟨g1, g2⟩ := (hy.sturdy t ht).faces d hd i hi
  rw [hr]
  exact smooth_llf _ c.gas h.gas d _ _ g1 g2 (hs t ht d hd i hi)

/-- C118 (exact runs). In supersonic flow with hllc, a fixed step `κ` or a CFL number `κ`, and `exact`, the run returns exactly at
`T` with an error of at most a constant times `κ ^ order`. -/
theorem C118_exact (h : SmoothSetup c) (hr : c.riem = .hllc) {T T' : ℝ} (hT : 0 < T) (hT' : T < T')
    {y : ℝ → Ix → State ℝ np} (hy : SemiDiscrete c T' y) (m : Integrator)
    (hs : ∀ t ∈ Icc 0 T', AtFaces (Supersonic c.gas) c (y t)) :
    ∃ C κ₀, 0 < κ₀ ∧ ∀ κ, 0 < κ → κ ≤ κ₀ → ∀ fixed f, IsSolverRHS (c.stepping fixed κ).scheme f →
      ∀ {Sn : Type} (mk : ODEState ℝ (Ix → State ℝ np) Sn → Sn) (n : Option ℕ) (downbeats : List ℝ) (logEvery : Bool),
      (∀ d ∈ downbeats, 0 ≤ d) → ∃ N, ∀ fuel, N ≤ fuel → ∃ st',
        (ODEState.init (y 0)).integrate (stepper f m) mk fuel ⟨some T, n, true, downbeats, logEvery, none⟩ = some (st', none) ∧
        st'.t = T ∧ ∀ i v, |st'.u i v - y T i v| ≤ C * κ ^ m.order :=
  (C118_supersonic h hr hT hT' hy m hs).exact_runs h hT

theorem supersonic_near {X : Type} [PseudoMetricSpace X] (G : Gas ℝ) (hG : G.OK) (d : Fin 3) {A B : X → State ℝ np} {x : X}
    (hA : LipAt A x) (hB : LipAt B x) (ha : PosGas (A x)) (hb : PosGas (B x)) (h : Supersonic G d (A x) (B x)) :
    ∀ᶠ y in 𝓝 x, Supersonic G d (A y) (B y) := by
  have hg : 0 < G.gamma := one_pos.trans hG.gamma
  have cA := (lip_sound G hG.sqrt hg (fun v => hA.row v) ha).continuousAt
  have cB := (lip_sound G hG.sqrt hg (fun v => hB.row v) hb).continuousAt
  have mA := (hA.row (.mom d)).continuousAt
  have mB := (hB.row (.mom d)).continuousAt
  simp only [Supersonic, List.forall_mem_cons, List.not_mem_nil, false_imp_iff, implies_true, and_true] at h ⊢
  rcases h with ⟨⟨s1, s2⟩, s3, s4⟩ | ⟨⟨s1, s2⟩, s3, s4⟩
  · filter_upwards [cA.eventually_lt mA s1, cB.eventually_lt mA s2, cA.eventually_lt mB s3, cB.eventually_lt mB s4] with y y1 y2 y3 y4
    exact .inl ⟨⟨y1, y2⟩, y3, y4⟩
  · filter_upwards [mA.eventually_lt cA.neg s1, mA.eventually_lt cB.neg s2, mB.eventually_lt cA.neg s3, mB.eventually_lt cB.neg s4]
      with y y1 y2 y3 y4
    exact .inr ⟨⟨y1, y2⟩, y3, y4⟩

theorem SmoothSetup.supersonic_near (h : SmoothSetup c) {u₀ : Ix → State ℝ np} {x : Cell c.n → State ℝ np}
    (hu : Sturdy c (glue c.n u₀ x)) (hs : AtFaces (Supersonic c.gas) c (glue c.n u₀ x)) :
    ∀ᶠ y in 𝓝 x, AtFaces (Supersonic c.gas) c (glue c.n u₀ y) := by
  refine Filter.eventually_all.2 fun d => ?_
  by_cases hd : c.scheme.active d = true
  swap
  · exact Filter.Eventually.of_forall fun y h => absurd h hd
  have fin : {i | InMid c.n c.p d i}.Finite := by
    refine (box_finite ((fun d => (c.n d : ℤ)) + Pi.single d 1) (midMargin c.p d)).subset fun i hi e => ?_
    have := hi e
    simpa using this
  have := (Filter.eventually_all_finite (l := 𝓝 x) fin (p := fun i y => Supersonic c.gas d
    (faceStates ℝ c.p none d (latPrim ℝ (computePrimitives c.gas.gamma) c.p (padded c.scheme (glue c.n u₀ y))) i).1
    (faceStates ℝ c.p none d (latPrim ℝ (computePrimitives c.gas.gamma) c.p (padded c.scheme (glue c.n u₀ y))) i).2)).2
    fun i hi => by
      have hl := OnBox.states (affClosed_lipAt x) c.p h.degree d (margins c).1 ((margins c).2 d hd) (h.prim_lip hu) i (fun e => by
        have := hi e
        simpa using this)
      have e2 : ∀ i y, latPrim ℝ (fun v y => computePrimitives c.gas.gamma (v y)) c.p (fun i y => padded c.scheme (glue c.n u₀ y) i) i y =
          latPrim ℝ (computePrimitives c.gas.gamma) c.p (padded c.scheme (glue c.n u₀ y)) i := fun i y =>
        congrFun (prim_at (computePrimitives c.gas.gamma) c.p (fun i y => padded c.scheme (glue c.n u₀ y) i) y) i
      have e3 := faces_at c.p d
        (latPrim ℝ (fun v y => computePrimitives c.gas.gamma (v y)) c.p fun i y => padded c.scheme (glue c.n u₀ y) i) i
      simp only [e2] at e3
      obtain ⟨g1, g2⟩ := hu.faces d hd i hi
      have g3 := hs d hd i hi
      obtain ⟨A, hA⟩ : ∃ A, A = (faceStates ℝ c.p none d (latPrim ℝ (fun v y => computePrimitives c.gas.gamma (v y)) c.p
        fun i y => padded c.scheme (glue c.n u₀ y) i) i).1 := ⟨_, rfl⟩
      obtain ⟨B, hB⟩ : ∃ B, B = (faceStates ℝ c.p none d (latPrim ℝ (fun v y => computePrimitives c.gas.gamma (v y)) c.p
        fun i y => padded c.scheme (glue c.n u₀ y) i) i).2 := ⟨_, rfl⟩
      rw [← hA, ← hB] at hl e3
      have k1 : ∀ y, (faceStates ℝ c.p none d (latPrim ℝ (computePrimitives c.gas.gamma) c.p (padded c.scheme (glue c.n u₀ y))) i).1 =
        A y := fun y => (e3 y).1.symm
      have k2 : ∀ y, (faceStates ℝ c.p none d (latPrim ℝ (computePrimitives c.gas.gamma) c.p (padded c.scheme (glue c.n u₀ y))) i).2 =
        B y := fun y => (e3 y).2.symm
      dsimp only at g3
      rw [k1] at g1
      rw [k2] at g2
      rw [k1, k2] at g3
      simp only [k1, k2]
      exact FVHOE.supersonic_near c.gas h.gas d hl.1 hl.2 g1 g2 g3
  filter_upwards [this] with y hy _ i hi
  exact hy i hi

/-- C118 (existence). Supersonic data start a solution of the semi-discrete equations that stays supersonic for a while. -/
theorem C118_exists (h : SmoothSetup c) (u₀ : Ix → State ℝ np) (hu : Sturdy c u₀) (hs : AtFaces (Supersonic c.gas) c u₀) :
    ∃ T, 0 < T ∧ ∃ y, y 0 = u₀ ∧ SemiDiscrete c T y ∧ ∀ t ∈ Icc 0 T, AtFaces (Supersonic c.gas) c (y t) := by
  obtain ⟨T, hT, y, y0, hy⟩ := C117_exists c h u₀ hu
  have h0 : (0 : ℝ) ∈ Icc 0 T := left_mem_Icc.2 hT.le
  obtain ⟨hd, hst⟩ := hy.cells h 0 h0
  have e : ∀ t ∈ Icc 0 T, glue c.n (y 0) (inCells c.n (y t)) = y t := fun t ht =>
    glue_inCells c.n (y 0) (y t) fun i hi => hy.outside h t ht i hi
  have hn := h.supersonic_near hst (by rw [e 0 h0, y0]; exact hs)
  obtain ⟨ε, hε, hb⟩ := Metric.mem_nhdsWithin_iff.1 (hd.continuousWithinAt.eventually hn)
  have hsub : Icc 0 (min T (ε / 2)) ⊆ Icc 0 T := Icc_subset_Icc le_rfl (min_le_left _ _)
  refine ⟨min T (ε / 2), lt_min hT (by linarith), y, y0, ⟨fun t ht => hy.sturdy t (hsub ht), fun t ht f hf s s' => ?_⟩, fun t ht => ?_⟩
  · obtain ⟨dt, k, e1, e2⟩ := hy.solves t (hsub ht) f hf s s'
    exact ⟨dt, k, e1, fun i v => (e2 i v).mono hsub⟩
  · have : t ∈ Metric.ball 0 ε ∩ Icc 0 T := by
      refine ⟨?_, hsub ht⟩
      rw [Metric.mem_ball, Real.dist_eq, sub_zero, abs_of_nonneg ht.1]
      have := ht.2.trans (min_le_right _ _)
      linarith
    have := hb this
    beta_reduce at this
    rw [← e t (hsub ht)]
    exact this

/-- Air of density and pressure one at velocity ten. -/
noncomputable def fastAir : State ℝ 0
  | .rho => 1
  | .mom d => if d = 0 then 10 else 0
  | .en => 105 / 2
  | .ps j => j.elim0

theorem fastAir_sturdy : Sturdy cubicTube fun _ => fastAir :=
  sturdy_uniform (by decide) (fun _ _ => .inr (.inr rfl)) fastAir ⟨by norm_num [fastAir], by
    norm_num [fastAir, pressureOf, cubicTube, airGas, show (2 : Fin 3) ≠ 0 by decide]⟩

theorem fastAir_supersonic : AtFaces (Supersonic cubicTube.gas) cubicTube fun _ => fastAir := by
  have hp : ∀ d, cubicTube.p d ≤ 8 := cubicTube_smooth.degree
  have hpad : padded cubicTube.scheme (fun _ => fastAir) = fun _ => fastAir := by
    funext i
    refine extAll_keeps cubicTube.n _ _ (fun x => x = fastAir) (fun e => cubicTube.scheme.ghost_keeps _ .l (fun d _ hr => ?_) e)
      (fun e => cubicTube.scheme.ghost_keeps _ .r (fun d _ hr => ?_) e) _ (fun _ => rfl) i
    · exact absurd ((show cubicTube.bc.kind d .l = .periodic from rfl).symm.trans hr) (by decide)
    · exact absurd ((show cubicTube.bc.kind d .r = .periodic from rfl).symm.trans hr) (by decide)
  have hc : latCenters ℝ cubicTube.p (fun _ => fastAir) = fun _ => fastAir := by
    unfold latCenters latC
    rw [lsweep_const 0 _ _ (wts_sum (hp _)).2.1, lsweep_const 1 _ _ (wts_sum (hp _)).2.1,
      lsweep_const 2 _ _ (wts_sum (hp _)).2.1]
  have hW : latPrim ℝ (computePrimitives cubicTube.gas.gamma) cubicTube.p (fun _ => fastAir) =
      fun _ => computePrimitives cubicTube.gas.gamma fastAir := by
    unfold latPrim latT
    rw [hc, lsweep_const 0 _ _ (wts_sum (hp _)).2.2.2, lsweep_const 1 _ _ (wts_sum (hp _)).2.2.2,
      lsweep_const 2 _ _ (wts_sum (hp _)).2.2.2]
  have fast : soundSpeed cubicTube.gas (computePrimitives cubicTube.gas.gamma fastAir) <
      computePrimitives cubicTube.gas.gamma fastAir (.mom 0) := by
    rw [sound_eq_sqrt _ cubicTube_smooth.gas, Real.sqrt_lt' (by norm_num [computePrimitives, fastAir])]
    refine max_lt ?_ ?_ <;> norm_num [computePrimitives, fastAir, sum3, cubicTube, airGas, show (2 : Fin 3) ≠ 0 by decide]
  intro d hd i _
  have hd0 : d = 0 := by
    revert hd
    match d with
    | 0 => exact fun _ => rfl
    | 1 => exact fun h => absurd h (by decide)
    | 2 => exact fun h => absurd h (by decide)
  subst hd0
  rw [hpad, hW]
  unfold faceStates latFaceR latFaceL latLine latC latR latL
  dsimp only
  rw [lsweep_const _ _ _ (wts_sum (hp _)).2.1, lsweep_const _ _ _ (wts_sum (hp _)).2.1, lsweep_const _ _ _ (wts_sum (hp _)).1,
    lsweep_const _ _ _ (wts_sum (hp _)).2.2.1]
  refine .inl ?_
  simp only [List.forall_mem_cons, List.not_mem_nil, false_imp_iff, implies_true, and_true]
  exact ⟨⟨fast, fast⟩, fast, fast⟩

/-- A supersonic tube of air that is not uniform, advanced with rk4: the error in time is of fourth order. -/
example : ∃ u₀ : Ix → State ℝ 0, (∃ i j, InCells cubicTube.n i ∧ InCells cubicTube.n j ∧ u₀ i .rho ≠ u₀ j .rho) ∧
    ∃ T, 0 < T ∧ ∃ y, y 0 = u₀ ∧ SemiDiscrete cubicTube (2 * T) y ∧ RunsFollow cubicTube T y .rk4 4 := by
  have h0 : InCells cubicTube.n 0 := by decide
  have h1 : InCells cubicTube.n (Pi.single 0 1) := by decide
  have hg : glue cubicTube.n (fun _ => fastAir) (inCells cubicTube.n fun _ => fastAir) = fun _ => fastAir :=
    glue_inCells _ _ _ fun _ _ => rfl
  have hu : Sturdy cubicTube (glue cubicTube.n (fun _ => fastAir) (inCells cubicTube.n fun _ => fastAir)) := by
    rw [hg]
    exact fastAir_sturdy
  have hn := (cubicTube_smooth.sturdy_near hu).and (cubicTube_smooth.supersonic_near hu (by rw [hg]; exact fastAir_supersonic))
  obtain ⟨ε, hε, hb⟩ := Metric.mem_nhds_iff.1 hn
  set x : Cell cubicTube.n → State ℝ 0 := Function.update (inCells cubicTube.n fun _ => fastAir) ⟨0, h0⟩
    (Function.update fastAir .rho (1 + ε / 2)) with hx
  have hin : x ∈ Metric.ball (inCells cubicTube.n fun _ => fastAir) ε := by
    rw [Metric.mem_ball, dist_pi_lt_iff hε]
    intro i
    rw [dist_pi_lt_iff hε]
    intro v
    by_cases hi : i = ⟨0, h0⟩
    · subst hi
      simp only [hx, Function.update_self, inCells]
      by_cases hv : v = .rho
      · subst hv
        rw [Function.update_self, Real.dist_eq]
        simp only [fastAir]
        rw [add_sub_cancel_left, abs_of_pos (by linarith)]
        linarith
      · rw [Function.update_of_ne hv, dist_self]
        exact hε
    · rw [hx, Function.update_of_ne hi, dist_self]
      exact hε
  obtain ⟨b1, b2⟩ := hb hin
  refine ⟨glue cubicTube.n (fun _ => fastAir) x, ⟨0, Pi.single 0 1, h0, h1, ?_⟩, ?_⟩
  · have hne : (⟨Pi.single 0 1, h1⟩ : Cell cubicTube.n) ≠ ⟨0, h0⟩ := by
      intro e
      have := congrFun (congrArg Subtype.val e) 0
      simp at this
    simp only [glue, dif_pos h0, dif_pos h1, hx, Function.update_self, Function.update_of_ne hne]
    simp only [inCells, fastAir]
    linarith
  · obtain ⟨T, hT, y, y0, hy, hs⟩ := C118_exists cubicTube_smooth _ b1 b2
    refine ⟨T / 2, by linarith, y, y0, ?_, C118_supersonic cubicTube_smooth rfl (by linarith) (by linarith) hy .rk4 hs⟩
    rw [mul_div_cancel₀ _ (by norm_num)]
    exact hy

end FVHOE
