import Mathlib.Analysis.Calculus.ContDiff.Operations
import Mathlib.Analysis.SpecialFunctions.Sqrt
import Verif.Proofs.LinesRun

/-! Where the numerical fluxes are smooth, so is the right-hand side. -/

set_option linter.unusedSectionVars false

namespace FVHOE

open Topology Set

variable {np : ℕ} {k : ℕ}

section Pieces

variable {X : Type} [NormedAddCommGroup X] [NormedSpace ℝ X] {W : X → State ℝ np} {x : X}

theorem smooth_prim (gamma : ℝ) (h : ContDiffAt ℝ k W x) (h0 : W x .rho ≠ 0) : ContDiffAt ℝ k (fun y => computePrimitives gamma (W y)) x := by
  have e := fun v => contDiffAt_pi.1 h v
  refine contDiffAt_pi.2 fun v => ?_
  cases v with
  | rho => exact e .rho
  | mom d => exact (e _).div (e .rho) h0
  | en =>
    simp only [computePrimitives, sum3]
    have q : ∀ d, ContDiffAt ℝ k (fun y => W y (.mom d) * (W y (.mom d) / W y .rho)) x := fun d => (e _).mul ((e _).div (e .rho) h0)
    exact contDiffAt_const.mul ((e .en).sub (contDiffAt_const.mul (((q 0).add (q 1)).add (q 2))))
  | ps j => exact (e _).div (e .rho) h0

theorem conserved_contDiffAt (gamma : ℝ) (h : ContDiffAt ℝ k W x) : ContDiffAt ℝ k (fun y => computeConservatives gamma (W y)) x := by
  have e := fun v => contDiffAt_pi.1 h v
  refine contDiffAt_pi.2 fun v => ?_
  cases v with
  | rho => exact e .rho
  | mom d => exact (e .rho).mul (e _)
  | en =>
    simp only [computeConservatives, sum3]
    have q : ∀ d, ContDiffAt ℝ k (fun y => W y .rho * W y (.mom d) * W y (.mom d)) x := fun d => ((e .rho).mul (e _)).mul (e _)
    simp only [div_eq_mul_inv]
    exact ((e .en).mul contDiffAt_const).add (contDiffAt_const.mul (((q 0).add (q 1)).add (q 2)))
  | ps j => exact (e .rho).mul (e _)

theorem smooth_flux (gamma : ℝ) (d : Fin 3) (b : Bool) (h : ContDiffAt ℝ k W x) :
    ContDiffAt ℝ k (fun y => computeFluxes (W y) (computeConservatives gamma (W y)) d b) x := by
  have e := fun v => contDiffAt_pi.1 h v
  have hu := fun v => contDiffAt_pi.1 (conserved_contDiffAt gamma h) v
  refine contDiffAt_pi.2 fun v => ?_
  cases v with
  | rho => exact (e _).mul (e _)
  | mom f =>
    by_cases hb : b = true ∧ f = d
    · simp only [computeFluxes, if_pos hb]
      exact ((e _).mul (hu (.mom f))).add (e .en)
    · simp only [computeFluxes, if_neg hb]
      exact (e _).mul (hu (.mom f))
  | en =>
    cases b
    · simp only [computeFluxes, Bool.false_eq_true, if_false]
      exact (e _).mul (hu .en)
    · simp only [computeFluxes, if_true]
      exact ((e _).mul (hu .en)).add ((e _).mul (e .en))
  | ps j => exact (e _).mul (hu (.ps j))

theorem smooth_eulerFlux (gamma : ℝ) (d : Fin 3) (h : ContDiffAt ℝ k W x) : ContDiffAt ℝ k (fun y => eulerFlux gamma d (W y)) x := by
  have e := fun v => contDiffAt_pi.1 h v
  have hE : ContDiffAt ℝ k (fun y => totalEnergy gamma (W y)) x := by
    unfold totalEnergy
    simp only [div_eq_mul_inv]
    have q : ∀ d, ContDiffAt ℝ k (fun y => W y (.mom d) ^ 2) x := fun d => (e _).pow 2
    exact ((e .en).mul contDiffAt_const).add (((e .rho).mul (((q 0).add (q 1)).add (q 2))).mul contDiffAt_const)
  refine contDiffAt_pi.2 fun v => ?_
  cases v with
  | rho => exact (e _).mul (e _)
  | mom f =>
    simp only [eulerFlux]
    split_ifs
    · exact (((e _).mul (e _)).mul (e _)).add (e _)
    · exact (((e _).mul (e _)).mul (e _)).add contDiffAt_const
  | en => exact (e _).mul (hE.add (e _))
  | ps j => exact ((e _).mul (e _)).mul (e _)

theorem sound_eq_sqrt (G : Gas ℝ) (hG : G.OK) (w : State ℝ np) :
    soundSpeed G w = Real.sqrt (max (G.gamma * w .en / w .rho) G.csqFloor) := by
  obtain ⟨h1, h2⟩ := soundSpeed_spec G hG.sqrt hG.floor w
  rw [← h2, Real.sqrt_sq h1.le]

/-- The maximum of two smooth functions that differ. -/
theorem smooth_max {a b : X → ℝ} (ha : ContDiffAt ℝ k a x) (hb : ContDiffAt ℝ k b x) (h : a x ≠ b x) :
    ContDiffAt ℝ k (fun y => max (a y) (b y)) x := by
  rcases lt_or_gt_of_ne h with h | h
  · refine hb.congr_of_eventuallyEq ?_
    filter_upwards [ha.continuousAt.eventually_lt hb.continuousAt h] with y hy
    exact max_eq_right hy.le
  · refine ha.congr_of_eventuallyEq ?_
    filter_upwards [hb.continuousAt.eventually_lt ha.continuousAt h] with y hy
    exact max_eq_left hy.le

theorem smooth_abs {a : X → ℝ} (ha : ContDiffAt ℝ k a x) (h : a x ≠ 0) : ContDiffAt ℝ k (fun y => |a y|) x := by
  have e : ∀ y, |a y| = max (a y) (-a y) := fun y => rfl
  simp only [e]
  exact smooth_max ha ha.neg fun h' => h (by linarith)

theorem smooth_sound (G : Gas ℝ) (hG : G.OK) (h : ContDiffAt ℝ k W x) (h0 : W x .rho ≠ 0)
    (hf : G.gamma * W x .en / W x .rho ≠ G.csqFloor) : ContDiffAt ℝ k (fun y => soundSpeed G (W y)) x := by
  have e := fun v => contDiffAt_pi.1 h v
  simp only [sound_eq_sqrt G hG]
  refine ContDiffAt.sqrt (smooth_max ((contDiffAt_const.mul (e .en)).div (e .rho) h0) contDiffAt_const hf) ?_
  exact (lt_of_lt_of_le hG.floor (le_max_right _ _)).ne'

theorem affClosed_contDiffAt (k : ℕ) (x : X) : AffClosed ℝ fun v : X → State ℝ np => ContDiffAt ℝ k v x := by
  intro a b c s ha hb hc
  exact ha.add ((hb.sub hc).const_smul s)

end Pieces

/-! ### The numerical fluxes -/

/-- Both states move in direction `d` faster than both their sound speeds. -/
def Supersonic (G : Gas ℝ) (d : Fin 3) (wl wr : State ℝ np) : Prop :=
  (∀ w ∈ [wl, wr], ∀ w' ∈ [wl, wr], soundSpeed G w' < w (.mom d)) ∨ ∀ w ∈ [wl, wr], ∀ w' ∈ [wl, wr], w (.mom d) < -soundSpeed G w'

/-- No case distinction of llf is on its edge: neither velocity vanishes, neither sound speed is at the floor, the speeds of the two
sides differ. -/
def Untied (G : Gas ℝ) (d : Fin 3) (wl wr : State ℝ np) : Prop :=
  (∀ w ∈ [wl, wr], w (.mom d) ≠ 0 ∧ G.gamma * w .en / w .rho ≠ G.csqFloor) ∧
    |wl (.mom d)| + soundSpeed G wl ≠ |wr (.mom d)| + soundSpeed G wr

theorem smooth_hllc (k : ℕ) (G : Gas ℝ) (hG : G.OK) (d : Fin 3) (wl wr : State ℝ np) (hl : PosGas wl) (hr : PosGas wr)
    (hs : Supersonic G d wl wr) : ContDiffAt ℝ k (fun z : State ℝ np × State ℝ np => hllc G d z.1 z.2) (wl, wr) := by
  have L : ∀ v, LipAt (fun z : State ℝ np × State ℝ np => z.1 v) (wl, wr) := fun v => lip_fst v _
  have R : ∀ v, LipAt (fun z : State ℝ np × State ℝ np => z.2 v) (wl, wr) := fun v => lip_snd v _
  have hg : 0 < G.gamma := one_pos.trans hG.gamma
  have cs : ∀ w : State ℝ np, IsSoundSpeed G w (soundSpeed G w) := fun w =>
    ⟨(soundSpeed_spec G hG.sqrt hG.floor w).1.le, (soundSpeed_spec G hG.sqrt hG.floor w).2⟩
  have phys : ∀ w : State ℝ np, PosGas w → Physical w := fun w h => ⟨h.1, h.2.le⟩
  have c1 := lip_sound G hG.sqrt hg L hl
  have c2 := lip_sound G hG.sqrt hg R hr
  have near := posGas_near hl hr
  simp only [Supersonic, List.forall_mem_cons, List.not_mem_nil, false_imp_iff, implies_true, and_true] at hs
  rcases hs with ⟨⟨s1, s2⟩, s3, s4⟩ | ⟨⟨s1, s2⟩, s3, s4⟩
  · refine (smooth_eulerFlux G.gamma d contDiffAt_fst).congr_of_eventuallyEq ?_
    have hc := (((L (.mom d)).min (R (.mom d))).sub (c1.max c2)).continuousAt
    filter_upwards [near, hc.eventually (lt_mem_nhds (show 0 < _ from sub_pos.2 (max_lt (lt_min s1 s3) (lt_min s2 s4))))] with z hz hpos
    exact (C17_flux G hG d z.1 z.2 (phys _ hz.1) (phys _ hz.2) _ _ (cs _) (cs _)).1 (le_of_lt hpos)
  · refine (smooth_eulerFlux G.gamma d contDiffAt_snd).congr_of_eventuallyEq ?_
    have hc := (((L (.mom d)).max (R (.mom d))).add (c1.max c2)).continuousAt
    have hneg : max (wl (.mom d)) (wr (.mom d)) + max (soundSpeed G wl) (soundSpeed G wr) < 0 := by
      rcases max_cases (wl (.mom d)) (wr (.mom d)) with ⟨e1, -⟩ | ⟨e1, -⟩ <;>
        rcases max_cases (soundSpeed G wl) (soundSpeed G wr) with ⟨e2, -⟩ | ⟨e2, -⟩ <;> rw [e1, e2] <;> linarith
    filter_upwards [near, hc.eventually (gt_mem_nhds hneg)] with z hz hpos
    exact (C17_flux G hG d z.1 z.2 (phys _ hz.1) (phys _ hz.2) _ _ (cs _) (cs _)).2.2.2 (le_of_lt hpos)

theorem smooth_llf (k : ℕ) (G : Gas ℝ) (hG : G.OK) (d : Fin 3) (wl wr : State ℝ np) (hl : PosGas wl) (hr : PosGas wr)
    (hs : Untied G d wl wr) : ContDiffAt ℝ k (fun z : State ℝ np × State ℝ np => llf G d z.1 z.2) (wl, wr) := by
  simp only [Untied, List.forall_mem_cons, List.not_mem_nil, false_imp_iff, implies_true, and_true] at hs
  obtain ⟨⟨⟨l1, l2⟩, r1, r2⟩, hne⟩ := hs
  have hL : ContDiffAt ℝ k (fun z : State ℝ np × State ℝ np => z.1) (wl, wr) := contDiffAt_fst
  have hR : ContDiffAt ℝ k (fun z : State ℝ np × State ℝ np => z.2) (wl, wr) := contDiffAt_snd
  have s := smooth_max ((smooth_abs (contDiffAt_pi.1 hL (.mom d)) l1).add (smooth_sound G hG hL hl.1.ne' l2))
    ((smooth_abs (contDiffAt_pi.1 hR (.mom d)) r1).add (smooth_sound G hG hR hr.1.ne' r2)) hne
  refine contDiffAt_pi.2 fun v => ?_
  have f1 := contDiffAt_pi.1 (smooth_flux G.gamma d true hL) v
  have f2 := contDiffAt_pi.1 (smooth_flux G.gamma d true hR) v
  have u1 := contDiffAt_pi.1 (conserved_contDiffAt G.gamma hL) v
  have u2 := contDiffAt_pi.1 (conserved_contDiffAt G.gamma hR) v
  exact (contDiffAt_const.mul (f1.add f2)).sub ((contDiffAt_const.mul s).mul (u2.sub u1))

/-! ### The right-hand side -/

variable {c : EulerConfig ℝ np}

theorem smooth_padded (k : ℕ) (c : EulerConfig ℝ np) (u₀ : Ix → State ℝ np) (x : Cell c.n → State ℝ np) (i : Ix) :
    ContDiffAt ℝ k (fun y => padded c.scheme (glue c.n u₀ y) i) x := by
  let Nice : Ghost (State ℝ np) → Prop
    | .mirror σ => ∀ w, ContDiffAt ℝ k σ w
    | _ => True
  have ht : ∀ s d, Nice (c.scheme.ghost s d) := by
    intro s d
    have ev : ∀ (v : Var np) (w : State ℝ np), ContDiffAt ℝ k (fun w : State ℝ np => w v) w := fun v w =>
      contDiffAt_pi.1 contDiffAt_id v
    have hneg : ∀ w, ContDiffAt ℝ k (negateMom d : State ℝ np → State ℝ np) w := by
      intro w
      refine contDiffAt_pi.2 fun v => ?_
      unfold negateMom
      split_ifs
      · exact contDiffAt_const.mul (ev v w)
      · exact ev v w
    unfold Scheme.ghost
    split_ifs
    · cases c.scheme.bc.kind d s <;> first | trivial | exact hneg | exact fun w => contDiffAt_id
    · trivial
  have key : ∀ (m : ℤ) (d : Fin 3) (a b : Ghost (State ℝ np)) (Φ : (Cell c.n → State ℝ np) → Ix → State ℝ np), Nice a → Nice b →
      (∀ i, ContDiffAt ℝ k (fun u => Φ u i) x) → ∀ i, ContDiffAt ℝ k (fun u => extAxis m d a b (Φ u) i) x := by
    intro m d a b Φ ha hb hΦ i
    unfold extAxis
    split_ifs
    · cases a with
      | clamp => exact hΦ _
      | mirror σ => exact ContDiffAt.comp (g := σ) x (ha _) (hΦ _)
      | wrap => exact hΦ _
      | fixed g => exact contDiffAt_const
    · cases b with
      | clamp => exact hΦ _
      | mirror σ => exact ContDiffAt.comp (g := σ) x (hb _) (hΦ _)
      | wrap => exact hΦ _
      | fixed g => exact contDiffAt_const
    · exact hΦ i
  refine key _ 2 _ _ _ (ht .l 2) (ht .r 2) (key _ 1 _ _ _ (ht .l 1) (ht .r 1) (key _ 0 _ _ _ (ht .l 0) (ht .r 0) fun i => ?_)) i
  unfold glue
  split_ifs with hi
  · exact contDiffAt_pi.1 contDiffAt_id (⟨i, hi⟩ : Cell c.n)
  · exact contDiffAt_const

/-- The numerical flux is smooth near the states met at the faces. -/
def SmoothFaces (k : ℕ) (c : EulerConfig ℝ np) (u : Ix → State ℝ np) : Prop :=
  ∀ d, c.scheme.active d = true → ∀ i, InMid c.n c.p d i →
    ContDiffAt ℝ k (fun z : State ℝ np × State ℝ np => riemann c.riem c.gas d z.1 z.2)
      (faceStates ℝ c.p none d (latPrim ℝ (computePrimitives c.gas.gamma) c.p (padded c.scheme u)) i)

theorem SmoothSetup.prim_smooth (h : SmoothSetup c) {u₀ : Ix → State ℝ np} {x : Cell c.n → State ℝ np} (hu : Sturdy c (glue c.n u₀ x)) :
    OnBox (fun d => c.n d) (gwMargin c.scheme c.p) (fun v : (Cell c.n → State ℝ np) → State ℝ np => ContDiffAt ℝ k v x)
      (latPrim ℝ (fun v y => computePrimitives c.gas.gamma (v y)) c.p fun i y => padded c.scheme (glue c.n u₀ y) i) := by
  refine OnBox.prim (affClosed_contDiffAt k x) (affClosed_contDiffAt k x) _ c.p h.degree
    (fun i _ => smooth_padded k c u₀ x i) fun i hi hc => ?_
  have hpos := hu.centers i hi
  have e := congrFun (centers_at c.p (fun i y => padded c.scheme (glue c.n u₀ y) i) x) i
  refine smooth_prim c.gas.gamma hc ?_
  beta_reduce at e
  rw [e]
  exact hpos.ne'

theorem SmoothSetup.flux_smooth (h : SmoothSetup c) {u₀ : Ix → State ℝ np} {x : Cell c.n → State ℝ np} (hu : Sturdy c (glue c.n u₀ x))
    (hf : SmoothFaces k c (glue c.n u₀ x)) (d : Fin 3) (hd : c.scheme.active d = true) (i : Ix) (hi : InFaces c.n d i) :
    ContDiffAt ℝ k (fun y => schemeFlux c.scheme c.p none (padded c.scheme (glue c.n u₀ y)) d i) x := by
  have := OnBox.flux (affClosed_contDiffAt k x) (affClosed_contDiffAt k x) (fun a b y => riemann c.riem c.gas d (a y) (b y)) c.p
    h.degree none (fun s hs => by cases hs) d (m := gwMargin c.scheme c.p) (margins c).1 ((margins c).2 d hd) (h.prim_smooth hu)
    (fun i hi h1 h2 => ?_) i ?_
  · have e : (fun y => schemeFlux c.scheme c.p none (padded c.scheme (glue c.n u₀ y)) d i) = latFlux ℝ
        (fun a b y => riemann c.riem c.gas d (a y) (b y)) c.p none d
        (latPrim ℝ (fun v y => computePrimitives c.gas.gamma (v y)) c.p fun i y => padded c.scheme (glue c.n u₀ y) i) i := by
      funext y
      have e1 := congrFun (flux_at (riemann c.riem c.gas d) c.p d
        (latPrim ℝ (fun v y => computePrimitives c.gas.gamma (v y)) c.p fun i y => padded c.scheme (glue c.n u₀ y) i) y) i
      beta_reduce at e1
      rw [e1, prim_at]
      rfl
    rw [e]
    exact this
  · obtain ⟨e1, e2⟩ := faces_at c.p d
      (latPrim ℝ (fun v y => computePrimitives c.gas.gamma (v y)) c.p fun i y => padded c.scheme (glue c.n u₀ y) i) i x
    rw [prim_at] at e1 e2
    have hr := hf d hd i hi
    rw [← Prod.mk.eta (p := faceStates ℝ c.p none d (latPrim ℝ (computePrimitives c.gas.gamma) c.p
      (padded c.scheme (glue c.n u₀ x))) i)] at hr
    rw [← e1, ← e2] at hr
    have hp := h1.prodMk h2
    obtain ⟨A, hA⟩ : ∃ A, A = (faceStates ℝ c.p none d (latPrim ℝ (fun v y => computePrimitives c.gas.gamma (v y)) c.p
      fun i y => padded c.scheme (glue c.n u₀ y) i) i).1 := ⟨_, rfl⟩
    obtain ⟨B, hB⟩ : ∃ B, B = (faceStates ℝ c.p none d (latPrim ℝ (fun v y => computePrimitives c.gas.gamma (v y)) c.p
      fun i y => padded c.scheme (glue c.n u₀ y) i) i).2 := ⟨_, rfl⟩
    rw [← hA, ← hB] at hr hp ⊢
    exact ContDiffAt.comp (g := fun z : State ℝ np × State ℝ np => riemann c.riem c.gas d z.1 z.2) (f := fun y => (A y, B y)) x hr hp
  · intro e
    have := hi e
    simp only [Pi.zero_apply, Pi.add_apply]
    omega

theorem SmoothSetup.slopes_smooth (h : SmoothSetup c) {u₀ : Ix → State ℝ np} {x : Cell c.n → State ℝ np}
    (hu : Sturdy c (glue c.n u₀ x)) (hf : SmoothFaces k c (glue c.n u₀ x)) : ContDiffAt ℝ k (cellSlopes c u₀) x := by
  refine contDiffAt_pi.2 fun i => ?_
  unfold cellSlopes inCells slopes
  simp only [if_pos i.2]
  unfold latDiv
  simp only [Fin.sum_univ_three]
  have hi := i.2
  have one : ∀ d, ContDiffAt ℝ k (fun y => (if c.scheme.active d = true then (-(1 / c.h d)) •
      (schemeFlux c.scheme c.p none (padded c.scheme (glue c.n u₀ y)) d (i.1 + Pi.single d 1) -
        schemeFlux c.scheme c.p none (padded c.scheme (glue c.n u₀ y)) d i.1) else 0 : State ℝ np)) x := by
    intro d
    split_ifs with hd
    · refine ContDiffAt.const_smul _ (ContDiffAt.sub ?_ ?_)
      · refine h.flux_smooth hu hf d hd _ fun e => ?_
        have := hi e
        by_cases he : e = d <;> simp [he] <;> first | (subst he; omega) | omega
      · refine h.flux_smooth hu hf d hd _ fun e => ?_
        have := hi e
        by_cases he : e = d <;> simp [he] <;> first | (subst he; omega) | omega
    · exact contDiffAt_const
  exact ((one 0).add (one 1)).add (one 2)

end FVHOE
