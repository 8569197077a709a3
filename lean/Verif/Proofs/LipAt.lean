import Mathlib.Analysis.Calculus.ContDiff.RCLike
import Mathlib.Analysis.Calculus.ContDiff.Operations
import Mathlib.Analysis.SpecialFunctions.Sqrt
import Mathlib.Topology.MetricSpace.Lipschitz
import Mathlib.Topology.Compactness.Compact
import Verif.Spec.Gas
import Verif.Model.Riemann

/-!
Functions that are Lipschitz continuous near a point, and the gas dynamics among them.
-/

set_option linter.unusedSectionVars false

namespace FVHOE

open Filter Topology NNReal

/-- The rows of a state as a finite type. -/
def varEquiv (np : ℕ) : Var np ≃ (Unit ⊕ Fin 3) ⊕ (Unit ⊕ Fin np) where
  toFun
    | .rho => .inl (.inl ())
    | .mom d => .inl (.inr d)
    | .en => .inr (.inl ())
    | .ps j => .inr (.inr j)
  invFun
    | .inl (.inl ()) => .rho
    | .inl (.inr d) => .mom d
    | .inr (.inl ()) => .en
    | .inr (.inr j) => .ps j
  left_inv v := by cases v <;> rfl
  right_inv v := by rcases v with (⟨⟩ | _) | (⟨⟩ | _) <;> rfl

instance (np : ℕ) : Fintype (Var np) := Fintype.ofEquiv _ (varEquiv np).symm

/-- Lipschitz continuous near `x`. -/
def LipAt {X Y : Type*} [PseudoMetricSpace X] [PseudoMetricSpace Y] (f : X → Y) (x : X) : Prop :=
  ∃ L : ℝ≥0, ∃ U ∈ 𝓝 x, LipschitzOnWith L f U

section

variable {X Y Z : Type*} [PseudoMetricSpace X] [PseudoMetricSpace Y] [PseudoMetricSpace Z]

theorem LipAt.continuousAt {f : X → Y} {x : X} (h : LipAt f x) : ContinuousAt f x := by
  obtain ⟨L, U, hU, hf⟩ := h
  exact hf.continuousOn.continuousAt hU

theorem LipAt.comp {g : Y → Z} {f : X → Y} {x : X} (hg : LipAt g (f x)) (hf : LipAt f x) : LipAt (fun y => g (f y)) x := by
  have hc := hf.continuousAt
  obtain ⟨L, U, hU, hf⟩ := hf
  obtain ⟨M, V, hV, hg⟩ := hg
  refine ⟨M * L, U ∩ f ⁻¹' V, inter_mem hU (hc hV), ?_⟩
  intro a ha b hb
  have h1 := hg ha.2 hb.2
  have h2 := hf ha.1 hb.1
  refine h1.trans ?_
  rw [ENNReal.coe_mul, mul_assoc]
  exact mul_le_mul_right h2 _

theorem LipAt.prodMk {f : X → Y} {g : X → Z} {x : X} (hf : LipAt f x) (hg : LipAt g x) : LipAt (fun y => (f y, g y)) x := by
  obtain ⟨L, U, hU, hf⟩ := hf
  obtain ⟨M, V, hV, hg⟩ := hg
  exact ⟨max L M, U ∩ V, inter_mem hU hV, (hf.mono Set.inter_subset_left).prodMk (hg.mono Set.inter_subset_right)⟩

theorem LipAt.of_lipschitzWith {f : X → Y} {L : ℝ≥0} (h : LipschitzWith L f) (x : X) : LipAt f x :=
  ⟨L, Set.univ, univ_mem, h.lipschitzOnWith⟩

theorem LipAt.congr {f g : X → Y} {x : X} (hf : LipAt f x) (h : f =ᶠ[𝓝 x] g) : LipAt g x := by
  obtain ⟨L, U, hU, hf⟩ := hf
  refine ⟨L, U ∩ {y | f y = g y}, inter_mem hU h, ?_⟩
  intro a ha b hb
  rw [← ha.2, ← hb.2]
  exact hf ha.1 hb.1

theorem LipAt.const (c : Y) (x : X) : LipAt (fun _ => c) x := .of_lipschitzWith (LipschitzWith.const c) x

theorem LipAt.id (x : X) : LipAt (fun y : X => y) x := .of_lipschitzWith LipschitzWith.id x

theorem LipAt.pi {ι : Type*} [Fintype ι] {f : X → ι → ℝ} {x : X} (h : ∀ v, LipAt (fun y => f y v) x) : LipAt f x := by
  choose L U hU hf using h
  refine ⟨∑ v, L v, ⋂ v, U v, (iInter_mem).2 hU, ?_⟩
  intro a ha b hb
  rw [edist_pi_le_iff]
  intro v
  rw [Set.mem_iInter] at ha hb
  refine (hf v (ha v) (hb v)).trans (mul_le_mul_left ?_ _)
  exact_mod_cast Finset.single_le_sum (f := L) (fun _ _ => zero_le) (Finset.mem_univ v)

end

section

variable {X : Type*} [PseudoMetricSpace X] {f g : X → ℝ} {x : X}

theorem LipAt.real_comp {φ : ℝ × ℝ → ℝ} (hφ : ContDiffAt ℝ 1 φ (f x, g x)) (hf : LipAt f x) (hg : LipAt g x) :
    LipAt (fun y => φ (f y, g y)) x := by
  obtain ⟨L, U, hU, h⟩ := hφ.exists_lipschitzOnWith
  exact LipAt.comp (g := φ) (f := fun y => (f y, g y)) ⟨L, U, hU, h⟩ (hf.prodMk hg)

theorem LipAt.add (hf : LipAt f x) (hg : LipAt g x) : LipAt (fun y => f y + g y) x :=
  LipAt.real_comp (φ := fun p => p.1 + p.2) (by fun_prop) hf hg

theorem LipAt.sub (hf : LipAt f x) (hg : LipAt g x) : LipAt (fun y => f y - g y) x :=
  LipAt.real_comp (φ := fun p => p.1 - p.2) (by fun_prop) hf hg

theorem LipAt.mul (hf : LipAt f x) (hg : LipAt g x) : LipAt (fun y => f y * g y) x :=
  LipAt.real_comp (φ := fun p => p.1 * p.2) (by fun_prop) hf hg

theorem LipAt.div (hf : LipAt f x) (hg : LipAt g x) (h0 : g x ≠ 0) : LipAt (fun y => f y / g y) x :=
  LipAt.real_comp (φ := fun p => p.1 / p.2) (contDiffAt_fst.div contDiffAt_snd h0) hf hg

theorem LipAt.max (hf : LipAt f x) (hg : LipAt g x) : LipAt (fun y => Max.max (f y) (g y)) x :=
  LipAt.comp (g := fun p : ℝ × ℝ => Max.max p.1 p.2) (.of_lipschitzWith lipschitzWith_max _) (hf.prodMk hg)

theorem LipAt.min (hf : LipAt f x) (hg : LipAt g x) : LipAt (fun y => Min.min (f y) (g y)) x :=
  LipAt.comp (g := fun p : ℝ × ℝ => Min.min p.1 p.2) (.of_lipschitzWith lipschitzWith_min _) (hf.prodMk hg)

theorem LipAt.abs (hf : LipAt f x) : LipAt (fun y => |f y|) x :=
  LipAt.comp (g := fun p : ℝ => |p|) (.of_lipschitzWith (lipschitzWith_one_norm (E := ℝ)) _) hf

/-- A square-root function is the square root on nonnegative numbers. -/
theorem IsSqrt.eq {s : ℝ → ℝ} (hs : IsSqrt s) {a : ℝ} (ha : 0 ≤ a) : s a = Real.sqrt a := by
  obtain ⟨h1, h2⟩ := hs a ha
  conv_rhs => rw [← h2]
  rw [Real.sqrt_mul_self h1]

theorem LipAt.sqrt {s : ℝ → ℝ} (hs : IsSqrt s) (hf : LipAt f x) (h0 : 0 < f x) : LipAt (fun y => s (f y)) x := by
  have h1 : LipAt Real.sqrt (f x) := by
    obtain ⟨L, U, hU, h⟩ := (Real.contDiffAt_sqrt (n := 1) h0.ne').exists_lipschitzOnWith
    exact ⟨L, U, hU, h⟩
  have h2 : LipAt s (f x) := h1.congr (by
    filter_upwards [lt_mem_nhds h0] with a ha
    rw [hs.eq ha.le])
  exact h2.comp hf

end

/-- On a compact set the constants can be chosen once. -/
theorem lipAt_uniform {X Y : Type*} [PseudoMetricSpace X] [PseudoMetricSpace Y] {Φ : X → Y} {C : Set X} (hC : IsCompact C)
    (h : ∀ k ∈ C, LipAt Φ k) :
    ∃ δ > 0, ∃ L ≥ 0, ∀ k ∈ C, ∀ x, dist x k ≤ δ → dist (Φ x) (Φ k) ≤ L * dist x k := by
  refine hC.induction_on (p := fun s => ∃ δ > 0, ∃ L ≥ 0, ∀ k ∈ s, ∀ x, dist x k ≤ δ → dist (Φ x) (Φ k) ≤ L * dist x k)
    ⟨1, one_pos, 0, le_rfl, fun k hk => hk.elim⟩ ?_ ?_ ?_
  · rintro s t hst ⟨δ, hδ, L, hL, H⟩
    exact ⟨δ, hδ, L, hL, fun k hk => H k (hst hk)⟩
  · rintro s t ⟨δ, hδ, L, hL, H⟩ ⟨δ', hδ', L', hL', H'⟩
    refine ⟨min δ δ', lt_min hδ hδ', max L L', le_max_of_le_left hL, ?_⟩
    rintro k (hk | hk) x hx
    · exact (H k hk x (hx.trans (min_le_left _ _))).trans (mul_le_mul_of_nonneg_right (le_max_left _ _) dist_nonneg)
    · exact (H' k hk x (hx.trans (min_le_right _ _))).trans (mul_le_mul_of_nonneg_right (le_max_right _ _) dist_nonneg)
  · intro k hk
    obtain ⟨L, U, hU, hf⟩ := h k hk
    obtain ⟨ε, hε, hb⟩ := Metric.mem_nhds_iff.1 hU
    refine ⟨Metric.ball k (ε / 2), mem_nhdsWithin_of_mem_nhds (Metric.ball_mem_nhds k (by linarith)), ε / 3, by linarith, L,
      L.2, ?_⟩
    intro k' hk' x hx
    rw [Metric.mem_ball] at hk'
    refine hf.dist_le_mul x (hb ?_) k' (hb ?_)
    · rw [Metric.mem_ball]
      have := dist_triangle x k' k
      linarith
    · rw [Metric.mem_ball]
      linarith

/-! ### Gas dynamics -/

section

variable {np : ℕ}

/-- A gas with positive density and pressure. -/
def PosGas (w : State ℝ np) : Prop := 0 < w .rho ∧ 0 < w .en

theorem lip_fst (v : Var np) (x : State ℝ np × State ℝ np) : LipAt (fun a : State ℝ np × State ℝ np => a.1 v) x :=
  .of_lipschitzWith (((LipschitzWith.eval v).comp LipschitzWith.prod_fst)) x

theorem lip_snd (v : Var np) (x : State ℝ np × State ℝ np) : LipAt (fun a : State ℝ np × State ℝ np => a.2 v) x :=
  .of_lipschitzWith (((LipschitzWith.eval v).comp LipschitzWith.prod_snd)) x

theorem lip_eval (v : Var np) (x : State ℝ np) : LipAt (fun a : State ℝ np => a v) x :=
  .of_lipschitzWith (LipschitzWith.eval v) x

theorem lip_prim (gamma : ℝ) {u : State ℝ np} (hu : u .rho ≠ 0) : LipAt (computePrimitives gamma) u := by
  have e := fun v => lip_eval v u
  refine LipAt.pi fun v => ?_
  cases v with
  | rho => exact e .rho
  | mom d => exact (e _).div (e .rho) hu
  | en =>
    simp only [computePrimitives, sum3]
    have q : ∀ d, LipAt (fun y : State ℝ np => y (.mom d) * (y (.mom d) / y .rho)) u := fun d =>
      (e _).mul ((e _).div (e .rho) hu)
    exact (LipAt.const _ _).mul ((e .en).sub ((LipAt.const _ _).mul (((q 0).add (q 1)).add (q 2))))
  | ps j => exact (e _).div (e .rho) hu

variable {X : Type} [PseudoMetricSpace X] {W : X → State ℝ np} {x : X}

theorem lip_conserved (gamma : ℝ) (h : ∀ v, LipAt (fun y => W y v) x) (v : Var np) :
    LipAt (fun y => computeConservatives gamma (W y) v) x := by
  cases v with
  | rho => exact h .rho
  | mom d => exact (h .rho).mul (h _)
  | en =>
    simp only [computeConservatives, sum3]
    have q : ∀ d, LipAt (fun y => W y .rho * W y (.mom d) * W y (.mom d)) x := fun d => ((h .rho).mul (h _)).mul (h _)
    have r : LipAt (fun y => W y .en / (gamma - 1)) x := by
      simp only [div_eq_mul_inv]
      exact (h .en).mul (.const _ _)
    exact r.add ((LipAt.const _ _).mul (((q 0).add (q 1)).add (q 2)))
  | ps j => exact (h .rho).mul (h _)

theorem lip_flux (gamma : ℝ) (d : Fin 3) (b : Bool) (h : ∀ v, LipAt (fun y => W y v) x) (v : Var np) :
    LipAt (fun y => computeFluxes (W y) (computeConservatives gamma (W y)) d b v) x := by
  have hu := lip_conserved gamma h
  cases v with
  | rho => exact (h _).mul (h _)
  | mom e =>
    by_cases hb : b = true ∧ e = d
    · simp only [computeFluxes, if_pos hb]
      exact ((h _).mul (hu (.mom e))).add (h .en)
    · simp only [computeFluxes, if_neg hb]
      exact (h _).mul (hu (.mom e))
  | en =>
    cases b
    · simp only [computeFluxes, Bool.false_eq_true, if_false]
      exact (h _).mul (hu .en)
    · simp only [computeFluxes, if_true]
      exact ((h _).mul (hu .en)).add ((h _).mul (h .en))
  | ps j => exact (h _).mul (hu (.ps j))

theorem lip_sound (G : Gas ℝ) (hs : IsSqrt G.sqrt) (hg : 0 < G.gamma) (h : ∀ v, LipAt (fun y => W y v) x)
    (hw : PosGas (W x)) : LipAt (fun y => soundSpeed G (W y)) x := by
  have e : ∀ w : State ℝ np, soundSpeed G w = G.sqrt (max (G.gamma * w .en / w .rho) G.csqFloor) := by
    intro w
    unfold soundSpeed
    dsimp only
    congr 1
    split_ifs with h
    · exact (max_eq_left h.le).symm
    · exact (max_eq_right (not_lt.1 h)).symm
  simp only [e]
  refine LipAt.sqrt hs (((LipAt.const G.gamma x).mul (h .en) |>.div (h .rho) hw.1.ne').max (.const _ _)) ?_
  exact lt_max_of_lt_left (div_pos (mul_pos hg hw.2) hw.1)

theorem sound_pos (G : Gas ℝ) (hs : IsSqrt G.sqrt) (hg : 0 < G.gamma) {w : State ℝ np} (hw : PosGas w) :
    0 < soundSpeed G w := by
  unfold soundSpeed
  dsimp only
  have h0 : 0 < G.gamma * w .en / w .rho := div_pos (mul_pos hg hw.2) hw.1
  rw [hs.eq (by split_ifs <;> linarith)]
  apply Real.sqrt_pos.2
  split_ifs <;> linarith

/-! ### Riemann solvers -/

/-- The Riemann solver `R` differs from the flux `f` of a state by no more than a multiple of the distances of its
arguments from that state. -/
def Consistent (R : State ℝ np → State ℝ np → State ℝ np) (f : State ℝ np → State ℝ np) (C : Set (State ℝ np)) : Prop :=
  ∃ δ > 0, ∃ L ≥ 0, ∀ k ∈ C, ∀ a b, dist a k ≤ δ → dist b k ≤ δ → dist (R a b) (f k) ≤ L * max (dist a k) (dist b k)

theorem consistent_of_branches {R : State ℝ np → State ℝ np → State ℝ np} {f : State ℝ np → State ℝ np}
    {C : Set (State ℝ np)} (hC : IsCompact C) {J : Type} [Fintype J] (B : J → State ℝ np → State ℝ np → State ℝ np)
    (h1 : ∀ a b v, ∃ j, R a b v = B j a b v)
    (h2 : ∀ k ∈ C, ∀ j v, LipAt (fun z : State ℝ np × State ℝ np => B j z.1 z.2 v) (k, k))
    (h3 : ∀ k ∈ C, ∀ j v, B j k k v = f k v) : Consistent R f C := by
  have hD : IsCompact ((fun k => (k, k)) '' C) := hC.image (by fun_prop)
  obtain ⟨δ, hδ, L, hL, H⟩ := lipAt_uniform (Φ := fun (z : State ℝ np × State ℝ np) (q : J × Var np) => B q.1 z.1 z.2 q.2) hD (by
    rintro _ ⟨k, hk, rfl⟩
    exact LipAt.pi fun q => h2 k hk q.1 q.2)
  refine ⟨δ, hδ, L, hL, fun k hk a b ha hb => ?_⟩
  have h := H (k, k) ⟨k, hk, rfl⟩ (a, b) (by rw [Prod.dist_eq]; exact max_le ha hb)
  rw [Prod.dist_eq] at h
  have h0 : 0 ≤ L * max (dist a k) (dist b k) := mul_nonneg hL (le_max_of_le_left dist_nonneg)
  rw [dist_pi_le_iff h0] at h ⊢
  intro v
  obtain ⟨j, hj⟩ := h1 a b v
  rw [hj, ← h3 k hk j v]
  exact h (j, v)

theorem fluxes_euler (gamma : ℝ) (d : Fin 3) (w : State ℝ np) :
    computeFluxes w (computeConservatives gamma w) d true = eulerFlux gamma d w := by
  funext v
  cases v with
  | rho => simp only [computeFluxes, eulerFlux]; ring
  | mom e =>
    by_cases he : e = d
    · simp only [computeFluxes, eulerFlux, computeConservatives, he]; simp; ring
    · simp only [computeFluxes, eulerFlux, computeConservatives, he]; simp; ring
  | en => simp only [computeFluxes, eulerFlux, computeConservatives, totalEnergy, sum3, if_true]; ring
  | ps j => simp only [computeFluxes, eulerFlux, computeConservatives]; ring

theorem fluxes_carried (gamma : ℝ) (d : Fin 3) (w : State ℝ np) :
    computeFluxes w (computeConservatives gamma w) d false = carriedFlux gamma d w := by
  funext v
  cases v with
  | rho => simp only [computeFluxes, carriedFlux, conserved]
  | mom e => simp [computeFluxes, carriedFlux, conserved, computeConservatives]
  | en => simp only [computeFluxes, carriedFlux, conserved, computeConservatives, totalEnergy, sum3, Bool.false_eq_true, if_false]; ring
  | ps j => simp only [computeFluxes, carriedFlux, conserved, computeConservatives]

theorem lip_pair_fst (k : State ℝ np) : ∀ v, LipAt (fun z : State ℝ np × State ℝ np => z.1 v) (k, k) := fun v => lip_fst v _
theorem lip_pair_snd (k : State ℝ np) : ∀ v, LipAt (fun z : State ℝ np × State ℝ np => z.2 v) (k, k) := fun v => lip_snd v _

theorem upwind_consistent_lip (G : Gas ℝ) (d : Fin 3) {C : Set (State ℝ np)} (hC : IsCompact C) :
    Consistent (FVHOE.advectionUpwind G d) (carriedFlux G.gamma d) C := by
  refine consistent_of_branches hC (J := Bool) (fun j a b => if j = true then
    computeFluxes a (computeConservatives G.gamma a) d false else computeFluxes b (computeConservatives G.gamma b) d false) ?_ ?_ ?_
  · intro a b v
    unfold FVHOE.advectionUpwind
    by_cases h1 : a (.mom d) > 0
    · exact ⟨true, by rw [if_pos h1]; rfl⟩
    · rw [if_neg h1]
      by_cases h2 : a (.mom d) < 0
      · exact ⟨false, by rw [if_pos h2]; rfl⟩
      · have h0 : a (.mom d) = 0 := le_antisymm (not_lt.1 h1) (not_lt.1 h2)
        refine ⟨true, ?_⟩
        rw [if_neg h2]
        rw [if_pos rfl, fluxes_carried]
        unfold carriedFlux
        rw [h0, zero_mul]
  · intro k _ j v
    cases j
    · exact lip_flux G.gamma d false (lip_pair_snd k) v
    · exact lip_flux G.gamma d false (lip_pair_fst k) v
  · intro k _ j v
    cases j <;> exact congrFun (fluxes_carried G.gamma d k) v

theorem llf_consistent_lip (G : Gas ℝ) (hs : IsSqrt G.sqrt) (hg : 0 < G.gamma) (d : Fin 3) {C : Set (State ℝ np)}
    (hC : IsCompact C) (hphys : ∀ k ∈ C, PosGas k) : Consistent (FVHOE.llf G d) (eulerFlux G.gamma d) C := by
  refine consistent_of_branches hC (J := Unit) (fun _ => FVHOE.llf G d) (fun a b v => ⟨(), rfl⟩) ?_ ?_
  · intro k hk _ v
    have f1 := lip_flux G.gamma d true (lip_pair_fst k) v
    have f2 := lip_flux G.gamma d true (lip_pair_snd k) v
    have u1 := lip_conserved G.gamma (lip_pair_fst k) v
    have u2 := lip_conserved G.gamma (lip_pair_snd k) v
    have c1 := lip_sound G hs hg (lip_pair_fst k) (hphys k hk)
    have c2 := lip_sound G hs hg (lip_pair_snd k) (hphys k hk)
    have s := ((lip_pair_fst k (.mom d)).abs.add c1).max ((lip_pair_snd k (.mom d)).abs.add c2)
    exact ((LipAt.const _ _).mul (f1.add f2)).sub (((LipAt.const _ _).mul s).mul (u2.sub u1))
  · intro k _ _ v
    unfold FVHOE.llf
    rw [fluxes_euler]
    ring

/-- Left state, left star state, right star state, right state. -/
def hllcPick (s : Fin 4) (l sl sr r : ℝ) : ℝ := ![l, sl, sr, r] s

/-- The flux of `hllc` for a given sample and a given side of the tangential variables. -/
noncomputable def hllcBranch (G : Gas ℝ) (dim : Fin 3) (j : Fin 4 × Bool) (wl wr : State ℝ np) : State ℝ np :=
  let W := hllcWaves G dim wl wr
  let r := hllcPick j.1 (wl .rho) W.rStarL W.rStarR (wr .rho)
  let v := hllcPick j.1 (wl (.mom dim)) W.vStar W.vStar (wr (.mom dim))
  let P := hllcPick j.1 (wl .en) W.PStar W.PStar (wr .en)
  let E := hllcPick j.1 (computeConservatives G.gamma wl .en) W.EStarL W.EStarR (computeConservatives G.gamma wr .en)
  fun
  | .rho => r * v
  | .mom d => if d = dim then r * v * v + P else r * v * (if j.2 = true then wl (.mom d) else wr (.mom d))
  | .en => v * (E + P)
  | .ps i => r * v * (if j.2 = true then wl (.ps i) else wr (.ps i))

theorem hllcSample_pick (W : HllcWaves ℝ) : ∃ s : Fin 4, ∀ l sl sr r, hllcSample W l sl sr r = hllcPick s l sl sr r := by
  unfold hllcSample
  by_cases h1 : W.Sl > 0
  · exact ⟨0, fun l sl sr r => by rw [if_pos h1]; rfl⟩
  · by_cases h2 : W.vStar > 0
    · exact ⟨1, fun l sl sr r => by rw [if_neg h1, if_pos h2]; rfl⟩
    · by_cases h3 : W.Sr > 0
      · exact ⟨2, fun l sl sr r => by rw [if_neg h1, if_neg h2, if_pos h3]; rfl⟩
      · exact ⟨3, fun l sl sr r => by rw [if_neg h1, if_neg h2, if_neg h3]; rfl⟩

theorem hllcUpwind_pick (a v : ℝ) : ∃ t : Bool, ∀ l r, a * v * hllcUpwind v l r = a * v * (if t = true then l else r) := by
  unfold hllcUpwind
  by_cases h1 : v > 0
  · exact ⟨true, fun l r => by rw [if_pos h1]; rfl⟩
  · by_cases h2 : v < 0
    · exact ⟨false, fun l r => by rw [if_neg h1, if_pos h2]; rfl⟩
    · have h0 : v = 0 := le_antisymm (not_lt.1 h1) (not_lt.1 h2)
      exact ⟨true, fun l r => by rw [h0]; simp⟩

theorem hllc_branch (G : Gas ℝ) (dim : Fin 3) (wl wr : State ℝ np) : ∃ j, FVHOE.hllc G dim wl wr = hllcBranch G dim j wl wr := by
  obtain ⟨s, hs⟩ := hllcSample_pick (hllcWaves G dim wl wr)
  unfold FVHOE.hllc
  dsimp only
  simp only [hs]
  obtain ⟨t, ht⟩ := hllcUpwind_pick
    (hllcPick s (wl .rho) (hllcWaves G dim wl wr).rStarL (hllcWaves G dim wl wr).rStarR (wr .rho))
    (hllcPick s (wl (.mom dim)) (hllcWaves G dim wl wr).vStar (hllcWaves G dim wl wr).vStar (wr (.mom dim)))
  refine ⟨(s, t), ?_⟩
  funext v
  cases v with
  | rho => rfl
  | mom d =>
    simp only [hllcBranch]
    by_cases hd : d = dim
    · rw [if_pos hd, if_pos hd]
    · rw [if_neg hd, if_neg hd, ht]
  | en => rfl
  | ps i =>
    simp only [hllcBranch]
    rw [ht]

theorem lip_pick (s : Fin 4) {f1 f2 f3 f4 : X → ℝ} (h1 : LipAt f1 x) (h2 : LipAt f2 x) (h3 : LipAt f3 x) (h4 : LipAt f4 x) :
    LipAt (fun y => hllcPick s (f1 y) (f2 y) (f3 y) (f4 y)) x := by
  match s with
  | 0 => exact h1
  | 1 => exact h2
  | 2 => exact h3
  | 3 => exact h4

/-- The waves between equal states. -/
theorem waves_same (G : Gas ℝ) (hs : IsSqrt G.sqrt) (hg : 0 < G.gamma) (d : Fin 3) {k : State ℝ np} (hk : PosGas k) :
    let W := hllcWaves G d k k
    W.vStar = k (.mom d) ∧ W.PStar = k .en ∧ W.rStarL = k .rho ∧ W.rStarR = k .rho ∧
      W.EStarL = computeConservatives G.gamma k .en ∧ W.EStarR = computeConservatives G.gamma k .en := by
  have hc := sound_pos G hs hg hk
  have hr := hk.1
  set c := soundSpeed G k with hcd
  set v := k (.mom d) with hv
  set E := computeConservatives G.gamma k .en with hE
  have e1 : (hllcWaves G d k k).vStar = v := by
    unfold hllcWaves
    simp only [max_self, min_self, ← hcd, ← hv]
    rw [div_eq_iff (by nlinarith)]
    ring
  have e2 : (hllcWaves G d k k).PStar = k .en := by
    unfold hllcWaves
    simp only [max_self, min_self, ← hcd, ← hv]
    rw [div_eq_iff (by nlinarith)]
    ring
  have d1 : v - c - v ≠ 0 := by linarith
  have d2 : v + c - v ≠ 0 := by linarith
  refine ⟨e1, e2, ?_, ?_, ?_, ?_⟩
  · have : (hllcWaves G d k k).rStarL = k .rho * (v - c - v) / (v - c - (hllcWaves G d k k).vStar) := by
      simp only [hllcWaves, max_self, min_self, ← hcd, ← hv]
    rw [this, e1]
    field_simp
  · have : (hllcWaves G d k k).rStarR = k .rho * (v + c - v) / (v + c - (hllcWaves G d k k).vStar) := by
      simp only [hllcWaves, max_self, min_self, ← hcd, ← hv]
    rw [this, e1]
    field_simp
  · have : (hllcWaves G d k k).EStarL = ((v - c - v) * E - k .en * v +
        (hllcWaves G d k k).PStar * (hllcWaves G d k k).vStar) / (v - c - (hllcWaves G d k k).vStar) := by
      simp only [hllcWaves, max_self, min_self, ← hcd, ← hv, ← hE]
    rw [this, e1, e2]
    field_simp
    ring
  · have : (hllcWaves G d k k).EStarR = ((v + c - v) * E - k .en * v +
        (hllcWaves G d k k).PStar * (hllcWaves G d k k).vStar) / (v + c - (hllcWaves G d k k).vStar) := by
      simp only [hllcWaves, max_self, min_self, ← hcd, ← hv, ← hE]
    rw [this, e1, e2]
    field_simp
    ring

theorem hllc_consistent_lip (G : Gas ℝ) (hs : IsSqrt G.sqrt) (hg : 0 < G.gamma) (d : Fin 3) {C : Set (State ℝ np)}
    (hC : IsCompact C) (hphys : ∀ k ∈ C, PosGas k) : Consistent (FVHOE.hllc G d) (eulerFlux G.gamma d) C := by
  refine consistent_of_branches hC (J := Fin 4 × Bool) (hllcBranch G d)
    (fun a b v => (hllc_branch G d a b).imp fun j hj => congrFun hj v) ?_ ?_
  · intro k hk j v
    have hp := hphys k hk
    have hc := sound_pos G hs hg hp
    have L := lip_pair_fst k
    have R := lip_pair_snd k
    have u1 := lip_conserved G.gamma L .en
    have u2 := lip_conserved G.gamma R .en
    have c1 := lip_sound G hs hg L hp
    have c2 := lip_sound G hs hg R hp
    have cm := c1.max c2
    have sl := ((L (.mom d)).min (R (.mom d))).sub cm
    have sr := ((L (.mom d)).max (R (.mom d))).add cm
    have rl := (L .rho).mul ((L (.mom d)).sub sl)
    have rr := (R .rho).mul (sr.sub (R (.mom d)))
    have hden : k .rho * (k (.mom d) - (min (k (.mom d)) (k (.mom d)) - max (soundSpeed G k) (soundSpeed G k))) +
        k .rho * (max (k (.mom d)) (k (.mom d)) + max (soundSpeed G k) (soundSpeed G k) - k (.mom d)) ≠ 0 := by
      rw [min_self, max_self, max_self]
      have := hp.1
      nlinarith
    have vs : LipAt (fun z : State ℝ np × State ℝ np => (hllcWaves G d z.1 z.2).vStar) (k, k) :=
      ((((rl.mul (L (.mom d))).add (rr.mul (R (.mom d)))).add (L .en)).sub (R .en)).div (rl.add rr) hden
    have ps : LipAt (fun z : State ℝ np × State ℝ np => (hllcWaves G d z.1 z.2).PStar) (k, k) :=
      (((rl.mul (R .en)).add (rr.mul (L .en))).add ((rl.mul rr).mul ((L (.mom d)).sub (R (.mom d))))).div (rl.add rr) hden
    obtain ⟨ev, eP, _⟩ := waves_same G hs hg d hp
    have dl : min (k (.mom d)) (k (.mom d)) - max (soundSpeed G k) (soundSpeed G k) - (hllcWaves G d k k).vStar ≠ 0 := by
      rw [ev, min_self, max_self]
      linarith
    have dr : max (k (.mom d)) (k (.mom d)) + max (soundSpeed G k) (soundSpeed G k) - (hllcWaves G d k k).vStar ≠ 0 := by
      rw [ev, max_self, max_self]
      linarith
    have rsl : LipAt (fun z : State ℝ np × State ℝ np => (hllcWaves G d z.1 z.2).rStarL) (k, k) :=
      ((L .rho).mul (sl.sub (L (.mom d)))).div (sl.sub vs) dl
    have rsr : LipAt (fun z : State ℝ np × State ℝ np => (hllcWaves G d z.1 z.2).rStarR) (k, k) :=
      ((R .rho).mul (sr.sub (R (.mom d)))).div (sr.sub vs) dr
    have esl : LipAt (fun z : State ℝ np × State ℝ np => (hllcWaves G d z.1 z.2).EStarL) (k, k) :=
      ((((sl.sub (L (.mom d))).mul u1).sub ((L .en).mul (L (.mom d)))).add (ps.mul vs)).div (sl.sub vs) dl
    have esr : LipAt (fun z : State ℝ np × State ℝ np => (hllcWaves G d z.1 z.2).EStarR) (k, k) :=
      ((((sr.sub (R (.mom d))).mul u2).sub ((R .en).mul (R (.mom d)))).add (ps.mul vs)).div (sr.sub vs) dr
    have r := lip_pick j.1 (L .rho) rsl rsr (R .rho)
    have v' := lip_pick j.1 (L (.mom d)) vs vs (R (.mom d))
    have P := lip_pick j.1 (L .en) ps ps (R .en)
    have E := lip_pick j.1 u1 esl esr u2
    have side : ∀ v, LipAt (fun z : State ℝ np × State ℝ np => if j.2 = true then z.1 v else z.2 v) (k, k) := by
      intro v
      cases j.2
      · exact R v
      · exact L v
    cases v with
    | rho => exact r.mul v'
    | mom e =>
      simp only [hllcBranch]
      by_cases he : e = d
      · simp only [if_pos he]
        exact ((r.mul v').mul v').add P
      · simp only [if_neg he]
        exact (r.mul v').mul (side (.mom e))
    | en => exact v'.mul (E.add P)
    | ps i => exact (r.mul v').mul (side (.ps i))
  · intro k hk j v
    obtain ⟨e1, e2, e3, e4, e5, e6⟩ := waves_same G hs hg d (hphys k hk)
    have hp : ∀ s x, hllcPick s x x x x = x := by
      intro s x
      fin_cases s <;> rfl
    have hside : ∀ y : ℝ, (if j.2 = true then y else y) = y := fun y => ite_self y
    cases v with
    | rho => simp only [hllcBranch, e1, e3, e4, hp, eulerFlux]
    | mom e =>
      simp only [hllcBranch, e1, e2, e3, e4, hp, eulerFlux, hside]
      by_cases he : e = d
      · rw [if_pos he, if_pos he, he]
      · rw [if_neg he, if_neg he, add_zero]
    | en =>
      simp only [hllcBranch, e1, e2, e5, e6, hp, eulerFlux]
      simp only [computeConservatives, totalEnergy, sum3]
      ring
    | ps i => simp only [hllcBranch, e1, e3, e4, hp, eulerFlux, hside]

/-- The flux each solver approximates. -/
noncomputable def targetFlux (k : RiemannKind) (gamma : ℝ) (d : Fin 3) (w : State ℝ np) : State ℝ np :=
  match k with
  | .advectionUpwind => carriedFlux gamma d w
  | _ => eulerFlux gamma d w

theorem riemann_consistent_lip (r : RiemannKind) (G : Gas ℝ) (hs : IsSqrt G.sqrt) (hg : 0 < G.gamma) (d : Fin 3)
    {C : Set (State ℝ np)} (hC : IsCompact C) (hphys : ∀ k ∈ C, PosGas k) :
    Consistent (riemann r G d) (targetFlux r G.gamma d) C := by
  cases r with
  | advectionUpwind => exact upwind_consistent_lip G d hC
  | llf => exact llf_consistent_lip G hs hg d hC hphys
  | hllc => exact hllc_consistent_lip G hs hg d hC hphys

end

end FVHOE
