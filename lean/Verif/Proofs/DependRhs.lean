import Mathlib.Topology.Order.Lattice
import Mathlib.Data.Fintype.Pi
import Mathlib.Data.Int.Interval
import Verif.Proofs.Depend
import Verif.Proofs.LipAt
import Verif.Proofs.FirstOrder

/-! The right-hand side without limiting is continuous in the state, for llf and hllc. -/

set_option linter.unusedSectionVars false

namespace FVHOE

open Topology

variable {np : ℕ}

/-! ### Riemann solvers -/

theorem continuousAt_llf (G : Gas ℝ) (hG : G.OK) (d : Fin 3) (wl wr : State ℝ np) (hl : PosGas wl) (hr : PosGas wr) :
    ContinuousAt (fun z : State ℝ np × State ℝ np => llf G d z.1 z.2) (wl, wr) := by
  refine continuousAt_pi.2 fun v => LipAt.continuousAt ?_
  have L : ∀ v, LipAt (fun z : State ℝ np × State ℝ np => z.1 v) (wl, wr) := fun v => lip_fst v _
  have R : ∀ v, LipAt (fun z : State ℝ np × State ℝ np => z.2 v) (wl, wr) := fun v => lip_snd v _
  have hg : 0 < G.gamma := one_pos.trans hG.gamma
  have f1 := lip_flux G.gamma d true L v
  have f2 := lip_flux G.gamma d true R v
  have u1 := lip_conserved G.gamma L v
  have u2 := lip_conserved G.gamma R v
  have c1 := lip_sound G hG.sqrt hg L hl
  have c2 := lip_sound G hG.sqrt hg R hr
  have s := ((L (.mom d)).abs.add c1).max ((R (.mom d)).abs.add c2)
  exact ((LipAt.const _ _).mul (f1.add f2)).sub (((LipAt.const _ _).mul s).mul (u2.sub u1))

/-- A function that on each of finitely many sets agrees with a function continuous at the point is continuous there, if the
values at the point agree. -/
theorem continuousAt_glue {X Y : Type*} [TopologicalSpace X] [TopologicalSpace Y] {f g : X → Y} {x : X} {A : Set X}
    (hA : x ∉ closure A ∨ (ContinuousAt g x ∧ g x = f x ∧ ∀ᶠ y in 𝓝 x, y ∈ A → f y = g y)) :
    Filter.Tendsto f (𝓝[A] x) (𝓝 (f x)) := by
  rcases hA with h | ⟨h1, h2, h3⟩
  · rw [mem_closure_iff_nhdsWithin_neBot, Filter.not_neBot] at h
    rw [h]
    exact Filter.tendsto_bot
  · have : Filter.Tendsto g (𝓝[A] x) (𝓝 (f x)) := h2 ▸ h1.tendsto.mono_left nhdsWithin_le_nhds
    refine this.congr' ?_
    filter_upwards [mem_nhdsWithin_of_mem_nhds h3, self_mem_nhdsWithin] with y h4 h5
    exact (h4 h5).symm

theorem continuousAt_hllc (G : Gas ℝ) (hG : G.OK) (d : Fin 3) (wl wr : State ℝ np) (hl : PosGas wl) (hr : PosGas wr) :
    ContinuousAt (fun z : State ℝ np × State ℝ np => hllc G d z.1 z.2) (wl, wr) := by
  have L : ∀ v, LipAt (fun z : State ℝ np × State ℝ np => z.1 v) (wl, wr) := fun v => lip_fst v _
  have R : ∀ v, LipAt (fun z : State ℝ np × State ℝ np => z.2 v) (wl, wr) := fun v => lip_snd v _
  have hg : 0 < G.gamma := one_pos.trans hG.gamma
  have cs : ∀ w : State ℝ np, IsSoundSpeed G w (soundSpeed G w) := fun w =>
    ⟨(soundSpeed_spec G hG.sqrt hG.floor w).1.le, (soundSpeed_spec G hG.sqrt hG.floor w).2⟩
  have phys : ∀ w : State ℝ np, PosGas w → Physical w := fun w h => ⟨h.1, h.2.le⟩
  -- the wave speeds
  obtain ⟨SL, hSL⟩ : ∃ SL : State ℝ np × State ℝ np → ℝ, SL = fun z => davisL d z.1 z.2 (soundSpeed G z.1) (soundSpeed G z.2) :=
    ⟨_, rfl⟩
  obtain ⟨SR, hSR⟩ : ∃ SR : State ℝ np × State ℝ np → ℝ, SR = fun z => davisR d z.1 z.2 (soundSpeed G z.1) (soundSpeed G z.2) :=
    ⟨_, rfl⟩
  obtain ⟨s, hs⟩ : ∃ s : State ℝ np × State ℝ np → ℝ, s = fun z => contactSpeed d z.1 z.2 (SL z) (SR z) := ⟨_, rfl⟩
  have c1 := lip_sound G hG.sqrt hg L hl
  have c2 := lip_sound G hG.sqrt hg R hr
  have lSL : LipAt SL (wl, wr) := by
    rw [hSL]
    exact ((L (.mom d)).min (R (.mom d))).sub (c1.max c2)
  have lSR : LipAt SR (wl, wr) := by
    rw [hSR]
    exact ((L (.mom d)).max (R (.mom d))).add (c1.max c2)
  obtain ⟨-, -, -, b1, b2, b3, b4, -, -, b5⟩ := C17_wellposed G hG d wl wr (phys _ hl) (phys _ hr) _ _ (cs wl) (cs wr)
  have e1 : SL (wl, wr) = davisL d wl wr (soundSpeed G wl) (soundSpeed G wr) := by rw [hSL]
  have e2 : SR (wl, wr) = davisR d wl wr (soundSpeed G wl) (soundSpeed G wr) := by rw [hSR]
  have e3 : s (wl, wr) = contactSpeed d wl wr (SL (wl, wr)) (SR (wl, wr)) := by rw [hs]
  rw [← e1, ← e2] at b1 b2 b5
  rw [← e3] at b1 b2
  rw [← e1] at b3
  rw [← e2] at b4
  have ls : LipAt s (wl, wr) := by
    rw [hs]
    unfold contactSpeed
    refine LipAt.div ?_ ?_ (by show wl .rho * (SL (wl, wr) - wl (.mom d)) - wr .rho * (SR (wl, wr) - wr (.mom d)) ≠ 0; linarith)
    · exact (((R .en).sub (L .en)).add (((L .rho).mul (L _)).mul (lSL.sub (L _)))).sub
        (((R .rho).mul (R _)).mul (lSR.sub (R _)))
    · exact ((L .rho).mul (lSL.sub (L _))).sub ((R .rho).mul (lSR.sub (R _)))
  -- the fluxes
  have hE : ∀ {W : State ℝ np × State ℝ np → State ℝ np}, (∀ v, LipAt (fun z => W z v) (wl, wr)) →
      LipAt (fun z => totalEnergy G.gamma (W z)) (wl, wr) := by
    intro W hW
    have q : ∀ e : Fin 3, LipAt (fun z => W z (.mom e) ^ 2) (wl, wr) := fun e => by
      simp only [pow_two]; exact (hW _).mul (hW _)
    unfold totalEnergy
    simp only [div_eq_mul_inv]
    exact ((hW .en).mul (.const _ _)).add (((hW .rho).mul (((q 0).add (q 1)).add (q 2))).mul (.const _ _))
  have hF : ∀ {W : State ℝ np × State ℝ np → State ℝ np}, (∀ v, LipAt (fun z => W z v) (wl, wr)) →
      ∀ v, LipAt (fun z => eulerFlux G.gamma d (W z) v) (wl, wr) := by
    intro W hW v
    have hEW := hE hW
    cases v with
    | rho => exact (hW _).mul (hW _)
    | mom e =>
      simp only [eulerFlux]
      split_ifs
      · exact (((hW _).mul (hW _)).mul (hW _)).add (hW _)
      · exact (((hW _).mul (hW _)).mul (hW _)).add (.const _ _)
    | en => exact (hW _).mul (hEW.add (hW _))
    | ps j => exact ((hW _).mul (hW _)).mul (hW _)
  have hJ : ∀ {W : State ℝ np × State ℝ np → State ℝ np} {S : State ℝ np × State ℝ np → ℝ}, (∀ v, LipAt (fun z => W z v) (wl, wr)) →
      LipAt S (wl, wr) → W (wl, wr) .rho ≠ 0 → S (wl, wr) - W (wl, wr) (.mom d) ≠ 0 → S (wl, wr) - s (wl, wr) ≠ 0 →
      ∀ v, LipAt (fun z => jumpFlux G.gamma d (W z) (S z) (s z) v) (wl, wr) := by
    intro W S hW hS h1 h2 h3 v
    have hr : LipAt (fun z => W z .rho * (S z - W z (.mom d)) / (S z - s z)) (wl, wr) :=
      ((hW _).mul (hS.sub (hW _))).div (hS.sub ls) h3
    have hEW := hE hW
    refine (hF hW v).add (hS.mul (LipAt.sub ?_ ?_))
    · cases v with
      | rho => exact hr
      | mom e =>
        simp only [starState]
        split_ifs
        · exact hr.mul ls
        · exact hr.mul (hW _)
      | en =>
        exact hr.mul ((hEW.div (hW _) h1).add ((ls.sub (hW _)).mul (ls.add ((hW _).div ((hW _).mul (hS.sub (hW _)))
          (mul_ne_zero h1 h2)))))
      | ps j => exact hr.mul (hW _)
    · cases v with
      | rho => exact hW _
      | mom e => exact (hW _).mul (hW _)
      | en => exact hEW
      | ps j => exact (hW _).mul (hW _)
  have g1 := continuousAt_pi.2 fun v => (hF L v).continuousAt
  have g4 := continuousAt_pi.2 fun v => (hF R v).continuousAt
  have g2 := continuousAt_pi.2 fun v => (hJ L lSL hl.1.ne' (by linarith) (by linarith) v).continuousAt
  have g3 := continuousAt_pi.2 fun v => (hJ R lSR hr.1.ne' (by linarith) (by linarith) v).continuousAt
  -- the four cases, near the point
  have near : ∀ᶠ z in 𝓝 (wl, wr), PosGas z.1 ∧ PosGas z.2 := by
    have p : ∀ {W : State ℝ np × State ℝ np → State ℝ np} (v : Var np), LipAt (fun z => W z v) (wl, wr) → 0 < W (wl, wr) v →
        ∀ᶠ z in 𝓝 (wl, wr), 0 < W z v := fun v h h0 => h.continuousAt.eventually (lt_mem_nhds h0)
    filter_upwards [p .rho (L _) hl.1, p .en (L _) hl.2, p .rho (R _) hr.1, p .en (R _) hr.2] with z h1 h2 h3 h4
    exact ⟨⟨h1, h2⟩, h3, h4⟩
  have cases4 : ∀ z : State ℝ np × State ℝ np, PosGas z.1 → PosGas z.2 →
      (0 ≤ SL z → hllc G d z.1 z.2 = eulerFlux G.gamma d z.1) ∧
      (SL z ≤ 0 ∧ 0 ≤ s z → hllc G d z.1 z.2 = jumpFlux G.gamma d z.1 (SL z) (s z)) ∧
      (s z ≤ 0 ∧ 0 ≤ SR z → hllc G d z.1 z.2 = jumpFlux G.gamma d z.2 (SR z) (s z)) ∧
      (SR z ≤ 0 → hllc G d z.1 z.2 = eulerFlux G.gamma d z.2) := by
    intro z h1 h2
    obtain ⟨f1, f2, f3, f4⟩ := C17_flux G hG d z.1 z.2 (phys _ h1) (phys _ h2) _ _ (cs _) (cs _)
    rw [hs, hSL, hSR]
    exact ⟨f1, fun h => f2 h.1 h.2, fun h => f3 h.1 h.2, f4⟩
  have cSL := lSL.continuousAt
  have cSR := lSR.continuousAt
  have csc := ls.continuousAt
  -- a non-strict inequality that holds on points close by holds at the point
  have pos : ∀ {φ : State ℝ np × State ℝ np → ℝ} {A : Set (State ℝ np × State ℝ np)}, ContinuousAt φ (wl, wr) →
      (∀ z ∈ A, 0 ≤ φ z) → (wl, wr) ∈ closure A → 0 ≤ φ (wl, wr) := by
    intro φ A hφ hA hcl
    by_contra hlt
    have := hφ.eventually (gt_mem_nhds (not_le.1 hlt))
    obtain ⟨z, hz1, hz2⟩ := mem_closure_iff_nhds.1 hcl _ this
    exact absurd (hA z hz2) (not_le.2 hz1)
  have key : ∀ (A : Set (State ℝ np × State ℝ np)) (g : State ℝ np × State ℝ np → State ℝ np), ContinuousAt g (wl, wr) →
      (∀ z ∈ A, PosGas z.1 → PosGas z.2 → hllc G d z.1 z.2 = g z) → ((wl, wr) ∈ closure A → hllc G d wl wr = g (wl, wr)) →
      Filter.Tendsto (fun z : State ℝ np × State ℝ np => hllc G d z.1 z.2) (𝓝[A] (wl, wr)) (𝓝 (hllc G d wl wr)) := by
    intro A g hg h1 h2
    refine continuousAt_glue (f := fun z : State ℝ np × State ℝ np => hllc G d z.1 z.2) (g := g) ?_
    by_cases hcl : (wl, wr) ∈ closure A
    · exact Or.inr ⟨hg, (h2 hcl).symm, near.mono fun z hz hzA => h1 z hzA hz.1 hz.2⟩
    · exact Or.inl hcl
  obtain ⟨k1, k2, k3, k4⟩ := cases4 (wl, wr) hl hr
  have t1 := key {z | 0 ≤ SL z} _ g1 (fun z hz p1 p2 => (cases4 z p1 p2).1 hz) fun h => k1 (pos cSL (fun z hz => hz) h)
  have t2 := key {z | SL z ≤ 0 ∧ 0 ≤ s z} _ g2 (fun z hz p1 p2 => (cases4 z p1 p2).2.1 hz) fun h => k2
    ⟨by have := pos cSL.neg (fun z hz => by have := hz.1; show 0 ≤ -SL z; linarith) h
        change 0 ≤ -SL (wl, wr) at this; linarith,
      pos csc (fun z hz => hz.2) h⟩
  have t3 := key {z | s z ≤ 0 ∧ 0 ≤ SR z} _ g3 (fun z hz p1 p2 => (cases4 z p1 p2).2.2.1 hz) fun h => k3
    ⟨by have := pos csc.neg (fun z hz => by have := hz.1; show 0 ≤ -s z; linarith) h
        change 0 ≤ -s (wl, wr) at this; linarith,
      pos cSR (fun z hz => hz.2) h⟩
  have t4 := key {z | SR z ≤ 0} _ g4 (fun z hz p1 p2 => (cases4 z p1 p2).2.2.2 hz) fun h => k4
    (by have := pos cSR.neg (fun z hz => by have : SR z ≤ 0 := hz; show 0 ≤ -SR z; linarith) h
        change 0 ≤ -SR (wl, wr) at this; linarith)
  have hu : {z | 0 ≤ SL z} ∪ ({z | SL z ≤ 0 ∧ 0 ≤ s z} ∪ ({z | s z ≤ 0 ∧ 0 ≤ SR z} ∪ {z | SR z ≤ 0})) = Set.univ := by
    ext z
    simp only [Set.mem_union, Set.mem_ofPred_eq, Set.mem_univ, iff_true]
    rcases le_total 0 (SL z) with h1 | h1
    · exact Or.inl h1
    · rcases le_total 0 (s z) with h2 | h2
      · exact Or.inr (Or.inl ⟨h1, h2⟩)
      · rcases le_total 0 (SR z) with h3 | h3
        · exact Or.inr (Or.inr (Or.inl ⟨h2, h3⟩))
        · exact Or.inr (Or.inr (Or.inr h3))
  have := t1.sup (t2.sup (t3.sup t4))
  rw [← nhdsWithin_union, ← nhdsWithin_union, ← nhdsWithin_union, hu, nhdsWithin_univ] at this
  exact this

theorem continuousAt_riemann (k : RiemannKind) (hk : k ≠ .advectionUpwind) (G : Gas ℝ) (hG : G.OK) (d : Fin 3)
    (wl wr : State ℝ np) (hl : PosGas wl) (hr : PosGas wr) :
    ContinuousAt (fun z : State ℝ np × State ℝ np => riemann k G d z.1 z.2) (wl, wr) := by
  cases k with
  | advectionUpwind => exact absurd rfl hk
  | llf => exact continuousAt_llf G hG d wl wr hl hr
  | hllc => exact continuousAt_hllc G hG d wl wr hl hr

/-! ### Lattice operators on families of states -/

section Family

variable {X : Type} {V : Type} [AddCommGroup V] [Module ℝ V]

theorem sweep_at (d : Fin 3) (r : ℤ) (ws : List ℚ) (Φ : Ix → X → V) (i : Ix) (x : X) :
    lsweep ℝ d r ws Φ i x = lsweep ℝ d r ws (fun j => Φ j x) i :=
  lsweep_map (LinearMap.proj x : (X → V) →ₗ[ℝ] V) d r ws Φ i

theorem centers_at (p : Fin 3 → ℕ) (Φ : Ix → X → V) (x : X) :
    (fun i => latCenters ℝ p Φ i x) = latCenters ℝ p fun j => Φ j x := by
  funext i
  unfold latCenters latC
  simp only [sweep_at]

theorem prim_at (prim : V → V) (p : Fin 3 → ℕ) (Φ : Ix → X → V) (x : X) :
    (fun i => latPrim ℝ (fun v y => prim (v y)) p Φ i x) = latPrim ℝ prim p fun j => Φ j x := by
  have hc := centers_at p Φ x
  funext i
  unfold latPrim latT
  simp only [sweep_at]
  rw [← hc]

theorem line_at (p : Fin 3 → ℕ) (d : Fin 3) (W : Ix → X → V) (x : X) :
    (fun i => latLine ℝ p d W i x) = latLine ℝ p d fun j => W j x := by
  funext i
  unfold latLine latC
  simp only [sweep_at]

theorem faces_at (p : Fin 3 → ℕ) (d : Fin 3) (W : Ix → X → V) (i : Ix) (x : X) :
    (faceStates ℝ p none d W i).1 x = (faceStates ℝ p none d (fun j => W j x) i).1 ∧
      (faceStates ℝ p none d W i).2 x = (faceStates ℝ p none d (fun j => W j x) i).2 := by
  have hl := line_at p d W x
  unfold faceStates latFaceL latFaceR latL latR
  simp only [sweep_at]
  rw [hl]
  exact ⟨rfl, rfl⟩

theorem mid_at (riem : V → V → V) (p : Fin 3 → ℕ) (d : Fin 3) (W : Ix → X → V) (x : X) :
    (fun i => latMid ℝ (fun a b y => riem (a y) (b y)) p none d W i x) = latMid ℝ riem p none d fun j => W j x := by
  funext i
  obtain ⟨h1, h2⟩ := faces_at p d W i x
  exact congrArg₂ riem h1 h2

theorem flux_at (riem : V → V → V) (p : Fin 3 → ℕ) (d : Fin 3) (W : Ix → X → V) (x : X) :
    (fun i => latFlux ℝ (fun a b y => riem (a y) (b y)) p none d W i x) = latFlux ℝ riem p none d fun j => W j x := by
  have hm := mid_at riem p d W x
  funext i
  unfold latFlux latT
  simp only [sweep_at]
  rw [← hm]

variable [TopologicalSpace X] [TopologicalSpace V] [IsTopologicalAddGroup V] [ContinuousSMul ℝ V]

theorem affClosed_continuousAt (x : X) : AffClosed ℝ fun v : X → V => ContinuousAt v x :=
  fun _ _ _ s ha hb hc => ha.add ((hb.sub hc).const_smul s)

/-- A continuation with continuous maps of the values. -/
def Ghost.Tame : Ghost V → Prop
  | .mirror σ => Continuous σ
  | _ => True

theorem continuous_ext (n : Fin 3 → ℕ) (gl gr : Fin 3 → Ghost V) (hl : ∀ d, (gl d).Tame) (hr : ∀ d, (gr d).Tame) (i : Ix) :
    Continuous fun u : Ix → V => extAll n gl gr u i := by
  have key : ∀ (m : ℤ) (d : Fin 3) (a b : Ghost V) (Φ : (Ix → V) → Ix → V), a.Tame → b.Tame → (∀ i, Continuous fun u => Φ u i) →
      ∀ i, Continuous fun u => extAxis m d a b (Φ u) i := by
    intro m d a b Φ ha hb hΦ i
    unfold extAxis
    split_ifs
    · cases a with
      | clamp => exact hΦ _
      | mirror σ => exact Continuous.comp ha (hΦ _)
      | wrap => exact hΦ _
      | fixed g => exact continuous_const
    · cases b with
      | clamp => exact hΦ _
      | mirror σ => exact Continuous.comp hb (hΦ _)
      | wrap => exact hΦ _
      | fixed g => exact continuous_const
    · exact hΦ i
  exact key _ 2 _ _ _ (hl 2) (hr 2) (key _ 1 _ _ _ (hl 1) (hr 1) (key _ 0 _ _ _ (hl 0) (hr 0) fun i => continuous_apply i)) i

end Family

/-! ### The right-hand side -/

/-- All densities and pressures a flux evaluation meets are positive: the densities at the cell centres, the densities of the
primitive averages, the densities and pressures on the two sides of the faces. -/
structure Sturdy (c : EulerConfig ℝ np) (u : Ix → State ℝ np) : Prop where
  centers : OnBox (fun d => c.n d) (fun d => gwMargin c.scheme c.p d + ceilHalf (c.p d)) (fun v => 0 < v .rho)
    (latCenters ℝ c.p (padded c.scheme u))
  averages : OnBox (fun d => c.n d) (gwMargin c.scheme c.p) (fun w => 0 < w .rho)
    (latPrim ℝ (computePrimitives c.gas.gamma) c.p (padded c.scheme u))
  faces : ∀ d, c.scheme.active d = true → ∀ i, InMid c.n c.p d i →
    let x := faceStates ℝ c.p none d (latPrim ℝ (computePrimitives c.gas.gamma) c.p (padded c.scheme u)) i
    PosGas x.1 ∧ PosGas x.2

/-- A setup without limiting, without prescribed boundary values, with llf or hllc. -/
structure SmoothSetup (c : EulerConfig ℝ np) : Prop where
  limiting : c.limiting = none
  step : (∃ x, c.fixedDt = some x ∧ 0 < x) ∨ (c.fixedDt = none ∧ 0 < c.cfl)
  degree : ∀ d, c.p d ≤ 8
  cells : ∀ d, 1 ≤ c.n d
  spacing : ∀ d, 0 < c.h d
  gas : c.gas.OK
  riem : c.riem ≠ .advectionUpwind
  sides : PlainSides c.scheme (fluxWidth c.scheme c.p)
  extended : 1 ≤ c.scheme.ndim

variable {c : EulerConfig ℝ np}

theorem continuous_padded (c : EulerConfig ℝ np) (i : Ix) : Continuous fun u => padded c.scheme u i := by
  have ht : ∀ s d, (c.scheme.ghost s d).Tame := by
    intro s d
    have hneg : Continuous (negateMom d : State ℝ np → State ℝ np) := by
      refine continuous_pi fun v => ?_
      unfold negateMom
      split_ifs
      · exact continuous_const.mul (continuous_apply (A := fun _ : Var np => ℝ) v)
      · exact continuous_apply (A := fun _ : Var np => ℝ) v
    unfold Scheme.ghost
    split_ifs
    · cases c.scheme.bc.kind d s <;> first | trivial | exact hneg | exact continuous_id
    · trivial
  exact continuous_ext c.n _ _ (ht .l) (ht .r) i

theorem SmoothSetup.prim_cont (h : SmoothSetup c) {u : Ix → State ℝ np} (hu : Sturdy c u) :
    OnBox (fun d => c.n d) (gwMargin c.scheme c.p) (fun v : (Ix → State ℝ np) → State ℝ np => ContinuousAt v u)
      (latPrim ℝ (fun v y => computePrimitives c.gas.gamma (v y)) c.p fun i x => padded c.scheme x i) := by
  refine OnBox.prim (affClosed_continuousAt u) (affClosed_continuousAt u) _ c.p h.degree
    (fun i _ => (continuous_padded c i).continuousAt) fun i hi hc => ?_
  have hpos := hu.centers i hi
  have e := congrFun (centers_at c.p (fun i x => padded c.scheme x i) u) i
  refine ContinuousAt.comp (g := computePrimitives c.gas.gamma) ?_ hc
  beta_reduce at e
  rw [e]
  exact (lip_prim c.gas.gamma hpos.ne').continuousAt

theorem SmoothSetup.flux_cont (h : SmoothSetup c) {u : Ix → State ℝ np} (hu : Sturdy c u) (d : Fin 3)
    (hd : c.scheme.active d = true) (i : Ix) (hi : InFaces c.n d i) :
    ContinuousAt (fun x => schemeFlux c.scheme c.p none (padded c.scheme x) d i) u := by
  have hb := fluxGw_bound c.p
  have hin := c.scheme.inactive_p
  have := OnBox.flux (affClosed_continuousAt u) (affClosed_continuousAt u) (fun a b y => riemann c.riem c.gas d (a y) (b y)) c.p
    h.degree none (fun s hs => by cases hs) d (m := gwMargin c.scheme c.p) ?_ ?_ (h.prim_cont hu) (fun i hi h1 h2 => ?_) i ?_
  · have e : (fun x => schemeFlux c.scheme c.p none (padded c.scheme x) d i) = latFlux ℝ
        (fun a b y => riemann c.riem c.gas d (a y) (b y)) c.p none d
        (latPrim ℝ (fun v y => computePrimitives c.gas.gamma (v y)) c.p fun i x => padded c.scheme x i) i := by
      funext x
      have e1 := congrFun (flux_at (riemann c.riem c.gas d) c.p d
        (latPrim ℝ (fun v y => computePrimitives c.gas.gamma (v y)) c.p fun i x => padded c.scheme x i) x) i
      beta_reduce at e1
      rw [e1, prim_at]
      rfl
    rw [e]
    exact this
  · intro e
    unfold gwMargin
    split
    · have := (hb e).2; omega
    · rename_i h'
      have : c.p e = 0 := hin e (by simpa using h')
      rw [this]
      simp [ceilHalf]
  · unfold gwMargin
    rw [if_pos hd]
    have := (hb d).1
    omega
  · obtain ⟨e1, e2⟩ := faces_at c.p d (latPrim ℝ (fun v y => computePrimitives c.gas.gamma (v y)) c.p fun i x => padded c.scheme x i)
      i u
    rw [prim_at] at e1 e2
    obtain ⟨g1, g2⟩ := hu.faces d hd i hi
    rw [← e1] at g1
    rw [← e2] at g2
    have hr := continuousAt_riemann c.riem h.riem c.gas h.gas d _ _ g1 g2
    exact hr.comp_of_eq (h1.prodMk h2) rfl
  · intro e
    have := hi e
    simp only [Pi.zero_apply, Pi.add_apply]
    omega

/-- The slopes. -/
noncomputable def slopes (c : EulerConfig ℝ np) (u : Ix → State ℝ np) : Ix → State ℝ np := fun i =>
  if InCells c.n i then latDiv c.scheme.active c.h (schemeFlux c.scheme c.p none (padded c.scheme u)) i else 0

theorem SmoothSetup.slopes_cont (h : SmoothSetup c) {u : Ix → State ℝ np} (hu : Sturdy c u) : ContinuousAt (slopes c) u := by
  refine continuousAt_pi.2 fun i => ?_
  unfold slopes
  split_ifs with hi
  · unfold latDiv
    refine tendsto_finsetSum _ fun d _ => ?_
    split_ifs with hd
    · refine Filter.Tendsto.const_smul (Filter.Tendsto.sub ?_ ?_) _
      · refine h.flux_cont hu d hd _ fun e => ?_
        have := hi e
        by_cases he : e = d <;> simp [he] <;> first | (subst he; omega) | omega
      · refine h.flux_cont hu d hd _ fun e => ?_
        have := hi e
        by_cases he : e = d <;> simp [he] <;> first | (subst he; omega) | omega
    · exact tendsto_const_nhds
  · exact continuousAt_const

/-- The cells and ghost cells that bound the step. -/
noncomputable def dtBox (c : EulerConfig ℝ np) : Finset Ix :=
  Fintype.piFinset fun d => Finset.Ico (-(gwMargin c.scheme c.p d)) (c.n d + gwMargin c.scheme c.p d)

theorem mem_dtBox (c : EulerConfig ℝ np) (i : Ix) : i ∈ dtBox c ↔ InDtBox c.scheme c.p i := by
  unfold dtBox InDtBox
  simp only [Fintype.mem_piFinset, Finset.mem_Ico]
  exact forall_congr' fun d => by unfold gwMargin; exact Iff.rfl

theorem gwMargin_nonneg (c : EulerConfig ℝ np) (d : Fin 3) : 0 ≤ gwMargin c.scheme c.p d := by
  unfold gwMargin
  split <;> omega

theorem SmoothSetup.dtBox_nonempty (h : SmoothSetup c) : (dtBox c).Nonempty := by
  refine ⟨0, (mem_dtBox c 0).2 fun d => ?_⟩
  have h1 := gwMargin_nonneg c d
  have h2 := h.cells d
  unfold gwMargin at h1
  change -(if c.scheme.active d then (fluxGw c.p : ℤ) else 0) ≤ 0 ∧ 0 < (c.n d : ℤ) + (if c.scheme.active d then (fluxGw c.p : ℤ) else 0)
  constructor <;> omega

theorem SmoothSetup.rhs (h : SmoothSetup c) : ∃ D : (Ix → State ℝ np) → ℝ,
    (∀ junk mem t t' u, solverRHS c.scheme junk mem t t' u = .ok (D u, slopes c u)) ∧
    ∀ u, Sturdy c u → ContinuousAt D u ∧ 0 < D u := by
  have hin : ∀ d, c.scheme.active d = false → fluxWidth c.scheme c.p d = 0 := fun d hd => by
    have : c.p d = 0 := c.scheme.inactive_p d hd
    unfold fluxWidth
    simp [hd, this, ceilHalf]
  have spec : ∀ junk mem t t' u, ∃ dt, IsDt c.scheme c.p (latPrim ℝ (computePrimitives c.gas.gamma) c.p (padded c.scheme u)) dt ∧
      solverRHS c.scheme junk mem t t' u = .ok (dt, slopes c u) := fun junk mem t t' u =>
    rhs_spec c.scheme h.limiting h.degree h.cells t _ _ (h.sides.sides h.cells hin t) junk mem t' u u fun _ _ => rfl
  have hmin : 0 < min (min (c.h 0) (c.h 1)) (c.h 2) := lt_min (lt_min (h.spacing 0) (h.spacing 1)) (h.spacing 2)
  rcases h.step with ⟨x, hx, hx0⟩ | ⟨hx, hcfl⟩
  · refine ⟨fun _ => x, fun junk mem t t' u => ?_, fun u _ => ⟨continuousAt_const, hx0⟩⟩
    obtain ⟨dt, h1, h2⟩ := spec junk mem t t' u
    unfold IsDt at h1
    rw [show c.scheme.fixedDt = some x from hx] at h1
    rw [h2, h1]
  · have hne := h.dtBox_nonempty
    refine ⟨fun u => c.cfl * min (min (c.h 0) (c.h 1)) (c.h 2) / (dtBox c).sup' hne fun i => signalSpeed c.gas c.scheme.ndim
      (latPrim ℝ (computePrimitives c.gas.gamma) c.p (padded c.scheme u) i), fun junk mem t t' u => ?_, fun u hu => ?_⟩
    · obtain ⟨dt, h1, h2⟩ := spec junk mem t t' u
      rw [h2]
      refine congrArg (fun z => Except.ok (z, slopes c u)) (h1.unique ?_)
      unfold IsDt
      rw [show c.scheme.fixedDt = none from hx]
      obtain ⟨i, hi, e⟩ := Finset.exists_mem_eq_sup' hne fun i => signalSpeed c.gas c.scheme.ndim
        (latPrim ℝ (computePrimitives c.gas.gamma) c.p (padded c.scheme u) i)
      exact ⟨_, ⟨i, (mem_dtBox c i).1 hi, e.symm⟩, fun j hj => Finset.le_sup'
        (f := fun i => signalSpeed c.gas c.scheme.ndim (latPrim ℝ (computePrimitives c.gas.gamma) c.p (padded c.scheme u) i))
        ((mem_dtBox c j).2 hj), rfl⟩
    · have hsp : ∀ w : State ℝ np, 0 < signalSpeed c.gas c.scheme.ndim w := fun w => by
        have h1 := (soundSpeed_spec c.gas h.gas.sqrt h.gas.floor w).1
        have h2 : (1 : ℝ) ≤ c.scheme.ndim := by exact_mod_cast h.extended
        unfold signalSpeed sum3
        positivity
      have hsup : 0 < (dtBox c).sup' hne fun i => signalSpeed c.gas c.scheme.ndim
          (latPrim ℝ (computePrimitives c.gas.gamma) c.p (padded c.scheme u) i) := by
        obtain ⟨i, hi⟩ := hne
        exact (Finset.lt_sup'_iff _).2 ⟨i, hi, hsp _⟩
      refine ⟨continuousAt_const.div (ContinuousAt.finset_sup'_apply hne fun i hi => ?_) hsup.ne', by positivity⟩
      have hi' : ∀ d, -(gwMargin c.scheme c.p d) ≤ i d ∧ i d < c.n d + gwMargin c.scheme c.p d := by
        unfold dtBox at hi
        simpa only [Fintype.mem_piFinset, Finset.mem_Ico] using hi
      have hc := h.prim_cont hu i hi'
      have hpos := hu.averages i hi'
      have e : (fun x => latPrim ℝ (computePrimitives c.gas.gamma) c.p (padded c.scheme x) i) =
          latPrim ℝ (fun v y => computePrimitives c.gas.gamma (v y)) c.p (fun i x => padded c.scheme x i) i := by
        funext x
        exact (congrFun (prim_at (computePrimitives c.gas.gamma) c.p (fun i x => padded c.scheme x i) x) i).symm
      rw [← e] at hc
      have hv : ∀ v, ContinuousAt (fun x => latPrim ℝ (computePrimitives c.gas.gamma) c.p (padded c.scheme x) i v) u :=
        continuousAt_pi.1 hc
      have es : ∀ w : State ℝ np, soundSpeed c.gas w = Real.sqrt (max (c.gas.gamma * w .en / w .rho) c.gas.csqFloor) := by
        intro w
        obtain ⟨h1, h2⟩ := soundSpeed_spec c.gas h.gas.sqrt h.gas.floor w
        rw [← h2, Real.sqrt_sq h1.le]
      unfold signalSpeed sum3
      simp only [es]
      refine ContinuousAt.add (((hv _).abs.add (hv _).abs).add (hv _).abs) (continuousAt_const.mul ?_)
      exact (((continuousAt_const.mul (hv .en)).div (hv .rho) hpos.ne').max continuousAt_const).sqrt

end FVHOE
