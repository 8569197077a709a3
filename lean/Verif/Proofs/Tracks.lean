import Verif.Proofs.RiemannBound
import Verif.Proofs.LowOrder
import Verif.Proofs.Lattice

/-!
Grid functions that depend locally and Lipschitz continuously on other grid functions, with constants that hold for a whole
family of grids.
-/

set_option linter.unusedSectionVars false

namespace FVHOE

open Finset

variable {I : Type} {V W X : Type} [NormedAddCommGroup V] [NormedSpace ℝ V] [NormedAddCommGroup W] [NormedSpace ℝ W]
  [NormedAddCommGroup X] [NormedSpace ℝ X]

/-- Where the grid function `u` is near a value `k`, the grid function `w` is near `φ k`: the distance is at most a constant
times the sum of the distances of `u` over a stencil along the directions `A`. Constant and stencil serve the whole family. -/
def Tracks (A : Finset (Fin 3)) (K : Set V) (u : I → Ix → V) (w : I → Ix → W) (φ : V → W) : Prop :=
  ∃ S : Finset Ix, ∃ L : ℝ, 0 ≤ L ∧ (∀ σ ∈ S, ∀ d, d ∉ A → σ d = 0) ∧
    ∀ a, ∀ k ∈ K, ∀ i, ‖w a i - φ k‖ ≤ L * ∑ σ ∈ S, ‖u a (i + σ) - k‖

variable {A : Finset (Fin 3)} {K : Set V} {u : I → Ix → V} {w w' : I → Ix → W} {φ φ' : V → W}

theorem Tracks.refl : Tracks A K u u fun k => k := by
  refine ⟨{0}, 1, zero_le_one, fun σ hσ d _ => ?_, fun a k _ i => ?_⟩
  · rw [mem_singleton.1 hσ]; rfl
  · rw [sum_singleton, add_zero, one_mul]

theorem Tracks.zero : Tracks A K u (fun _ _ => (0 : W)) fun _ => 0 :=
  ⟨∅, 0, le_rfl, fun σ hσ => absurd hσ (notMem_empty σ), fun a k _ i => by simp⟩

theorem Tracks.add (h : Tracks A K u w φ) (h' : Tracks A K u w' φ') :
    Tracks A K u (fun a i => w a i + w' a i) fun k => φ k + φ' k := by
  obtain ⟨S, L, hL, hS, H⟩ := h
  obtain ⟨S', L', hL', hS', H'⟩ := h'
  refine ⟨S ∪ S', L + L', add_nonneg hL hL', fun σ hσ => ?_, fun a k hk i => ?_⟩
  · rcases mem_union.1 hσ with h | h
    · exact hS σ h
    · exact hS' σ h
  · have e : w a i + w' a i - (φ k + φ' k) = (w a i - φ k) + (w' a i - φ' k) := by abel
    rw [e, add_mul]
    refine (norm_add_le _ _).trans (add_le_add ((H a k hk i).trans ?_) ((H' a k hk i).trans ?_))
    · exact mul_le_mul_of_nonneg_left (sum_le_sum_of_subset_of_nonneg subset_union_left fun _ _ _ => norm_nonneg _) hL
    · exact mul_le_mul_of_nonneg_left (sum_le_sum_of_subset_of_nonneg subset_union_right fun _ _ _ => norm_nonneg _) hL'

theorem Tracks.smul (c : ℝ) (h : Tracks A K u w φ) : Tracks A K u (fun a i => c • w a i) fun k => c • φ k := by
  obtain ⟨S, L, hL, hS, H⟩ := h
  refine ⟨S, |c| * L, by positivity, hS, fun a k hk i => ?_⟩
  rw [← smul_sub, norm_smul, Real.norm_eq_abs, mul_assoc]
  exact mul_le_mul_of_nonneg_left (H a k hk i) (abs_nonneg c)

/-- Coefficients that are bounded over the family. -/
theorem Tracks.scale {c : I → ℝ} {M : ℝ} (hc : ∀ a, |c a| ≤ M) (h : Tracks A K u w fun _ => 0) :
    Tracks A K u (fun a i => c a • w a i) fun _ => 0 := by
  obtain ⟨S, L, hL, hS, H⟩ := h
  refine ⟨S, |M| * L, by positivity, hS, fun a k hk i => ?_⟩
  have := H a k hk i
  rw [sub_zero] at this ⊢
  rw [norm_smul, Real.norm_eq_abs, mul_assoc]
  exact mul_le_mul ((hc a).trans (le_abs_self M)) this (norm_nonneg _) (abs_nonneg M)

theorem Tracks.congr {ψ : V → W} (h : Tracks A K u w φ) (hw : ∀ a i, w' a i = w a i) (hφ : ∀ k ∈ K, ψ k = φ k) :
    Tracks A K u w' ψ := by
  obtain ⟨S, L, hL, hS, H⟩ := h
  exact ⟨S, L, hL, hS, fun a k hk i => by rw [hw, hφ k hk]; exact H a k hk i⟩

theorem Tracks.sub (h : Tracks A K u w φ) (h' : Tracks A K u w' φ') :
    Tracks A K u (fun a i => w a i - w' a i) fun k => φ k - φ' k :=
  (h.add (h'.smul (-1))).congr (fun a i => by rw [neg_one_smul, sub_eq_add_neg]) fun k _ => by
    rw [neg_one_smul, sub_eq_add_neg]

theorem Tracks.shift (s : Ix) (hs : ∀ d, d ∉ A → s d = 0) (h : Tracks A K u w φ) : Tracks A K u (fun a i => w a (i + s)) φ := by
  classical
  obtain ⟨S, L, hL, hS, H⟩ := h
  refine ⟨S.image fun σ => s + σ, L, hL, fun σ hσ d hd => ?_, fun a k hk i => ?_⟩
  · obtain ⟨σ', hσ', rfl⟩ := mem_image.1 hσ
    rw [Pi.add_apply, hs d hd, hS σ' hσ' d hd, add_zero]
  · rw [sum_image fun x _ y _ h => add_left_cancel h]
    have := H a k hk (i + s)
    simpa only [add_assoc] using this

theorem Tracks.sum {J : Type} (s : Finset J) {w : J → I → Ix → W} {φ : J → V → W} (h : ∀ j ∈ s, Tracks A K u (w j) (φ j)) :
    Tracks A K u (fun a i => ∑ j ∈ s, w j a i) fun k => ∑ j ∈ s, φ j k := by
  classical
  induction s using Finset.induction_on with
  | empty => exact Tracks.zero.congr (fun a i => sum_empty) fun k _ => sum_empty
  | insert j s hj ih =>
    exact ((h j (mem_insert_self _ _)).add (ih fun j' hj' => h j' (mem_insert_of_mem hj'))).congr
      (fun a i => sum_insert hj) fun k _ => sum_insert hj

theorem Tracks.wsum {d : Fin 3} (hd : d ∈ A) (h : Tracks A K u w φ) (ws : List ℚ) (s : ℤ) :
    Tracks A K u (fun a i => FVHOE.wsum ℝ ws s fun k => w a (i + Pi.single d k)) fun k => ((ws.sum : ℚ) : ℝ) • φ k := by
  induction ws generalizing s with
  | nil => exact Tracks.zero.congr (fun a i => rfl) fun k _ => by simp
  | cons x ws ih =>
    have h1 := (h.shift (Pi.single d s) fun e he => Pi.single_eq_of_ne (fun h => he (h ▸ hd)) _).smul (x : ℝ)
    exact (h1.add (ih (s + 1))).congr (fun a i => rfl) fun k _ => by
      rw [List.sum_cons, Rat.cast_add, add_smul]

theorem Tracks.sweep {d : Fin 3} (hd : d ∈ A) (r : ℤ) {ws : List ℚ} (hw : ws.sum = 1) (h : Tracks A K u w φ) :
    Tracks A K u (fun a => lsweep ℝ d r ws (w a)) φ :=
  (h.wsum hd ws (-r)).congr (fun a i => rfl) fun k _ => by rw [hw, Rat.cast_one, one_smul]

section

variable {p : Fin 3 → ℕ} (hp : ∀ d, p d ≤ 8) (hA : ∀ d, d ∉ A → p d = 0)
include hp hA

theorem Tracks.latC (d : Fin 3) (h : Tracks A K u w φ) : Tracks A K u (fun a => latC ℝ (p d) d (w a)) φ := by
  by_cases hd : d ∈ A
  · exact h.sweep hd _ (wts_sum (hp d)).2.1
  · rw [hA d hd]
    exact h.congr (fun a i => by rw [latC_low (Nat.zero_le 1)]) fun _ _ => rfl

theorem Tracks.latT (d : Fin 3) (h : Tracks A K u w φ) : Tracks A K u (fun a => latT ℝ (p d) d (w a)) φ := by
  by_cases hd : d ∈ A
  · exact h.sweep hd _ (wts_sum (hp d)).2.2.2
  · rw [hA d hd]
    exact h.congr (fun a i => by rw [latT_low (Nat.zero_le 1)]) fun _ _ => rfl

theorem Tracks.latL (d : Fin 3) (h : Tracks A K u w φ) : Tracks A K u (fun a => latL ℝ (p d) d (w a)) φ := by
  by_cases hd : d ∈ A
  · exact h.sweep hd _ (wts_sum (hp d)).1
  · rw [hA d hd]
    exact h.congr (fun a i => by rw [latL_zero]) fun _ _ => rfl

theorem Tracks.latR (d : Fin 3) (h : Tracks A K u w φ) : Tracks A K u (fun a => latR ℝ (p d) d (w a)) φ := by
  by_cases hd : d ∈ A
  · exact h.sweep hd _ (wts_sum (hp d)).2.2.1
  · rw [hA d hd]
    exact h.congr (fun a i => by rw [latR_zero]) fun _ _ => rfl

theorem Tracks.centers (h : Tracks A K u w φ) : Tracks A K u (fun a => latCenters ℝ p (w a)) φ :=
  ((h.latC hp hA 0).latC hp hA 1).latC hp hA 2

theorem Tracks.line (d : Fin 3) (h : Tracks A K u w φ) : Tracks A K u (fun a => latLine ℝ p d (w a)) φ :=
  (h.latC hp hA _).latC hp hA _

end

/-- A function of two values of the grid function. -/
theorem Tracks.map₂ {C : Set W} {F : W → W → X} {ψ : W → X} {M : ℝ} (hM : 0 ≤ M)
    (hF : ∀ a ∈ C, ∀ b ∈ C, ∀ k ∈ C, ‖F a b - ψ k‖ ≤ M * (‖a - k‖ + ‖b - k‖)) (h : Tracks A K u w φ)
    (h' : Tracks A K u w' φ) (hw : ∀ a i, w a i ∈ C) (hw' : ∀ a i, w' a i ∈ C) (hφ : ∀ k ∈ K, φ k ∈ C) :
    Tracks A K u (fun a i => F (w a i) (w' a i)) fun k => ψ (φ k) := by
  obtain ⟨S, L, hL, hS, H⟩ := h
  obtain ⟨S', L', hL', hS', H'⟩ := h'
  refine ⟨S ∪ S', M * (L + L'), by positivity, fun σ hσ => ?_, fun a k hk i => ?_⟩
  · rcases mem_union.1 hσ with h | h
    · exact hS σ h
    · exact hS' σ h
  · refine (hF _ (hw a i) _ (hw' a i) _ (hφ k hk)).trans ?_
    rw [mul_assoc, add_mul]
    refine mul_le_mul_of_nonneg_left (add_le_add ((H a k hk i).trans ?_) ((H' a k hk i).trans ?_)) hM
    · exact mul_le_mul_of_nonneg_left (sum_le_sum_of_subset_of_nonneg subset_union_left fun _ _ _ => norm_nonneg _) hL
    · exact mul_le_mul_of_nonneg_left (sum_le_sum_of_subset_of_nonneg subset_union_right fun _ _ _ => norm_nonneg _) hL'

theorem Tracks.map {C : Set W} {F : W → X} {M : ℝ} (hM : 0 ≤ M) (hF : ∀ a ∈ C, ∀ k ∈ C, ‖F a - F k‖ ≤ M * ‖a - k‖)
    (h : Tracks A K u w φ) (hw : ∀ a i, w a i ∈ C) (hφ : ∀ k ∈ K, φ k ∈ C) :
    Tracks A K u (fun a i => F (w a i)) fun k => F (φ k) := by
  obtain ⟨S, L, hL, hS, H⟩ := h
  refine ⟨S, M * L, by positivity, hS, fun a k hk i => ?_⟩
  rw [mul_assoc]
  exact (hF _ (hw a i) _ (hφ k hk)).trans (mul_le_mul_of_nonneg_left (H a k hk i) hM)

/-! ### The fluxes of the solver -/

section

variable {np : ℕ} {p : Fin 3 → ℕ} {A : Finset (Fin 3)} {K : Set (State ℝ np)} {u v : I → Ix → State ℝ np}

/-- All that the solver evaluates the gas laws at stays in the set: the averages, the values at the cell centres, and the
values on both sides of the faces, these as primitive variables. -/
def StaysIn (gamma : ℝ) (p : Fin 3 → ℕ) (A : Finset (Fin 3)) (K : Set (State ℝ np)) (U : Ix → State ℝ np) : Prop :=
  ∀ i, U i ∈ K ∧ latCenters ℝ p U i ∈ K ∧ ∀ d ∈ A,
    latR ℝ (p d) d (latLine ℝ p d (latPrim ℝ (computePrimitives gamma) p U)) i ∈ computePrimitives gamma '' K ∧
    latL ℝ (p d) d (latLine ℝ p d (latPrim ℝ (computePrimitives gamma) p U)) i ∈ computePrimitives gamma '' K

theorem flux_tracks (r : RiemannKind) (G : Gas ℝ) (hs : IsSqrt G.sqrt) (hg : 1 ≤ G.gamma) (hp : ∀ d, p d ≤ 8)
    (hA : ∀ d, d ∉ A → p d = 0) (hK : IsCompact K) (hpos : ∀ k ∈ K, PosGas (computePrimitives G.gamma k))
    (hv : ∀ a, StaysIn G.gamma p A K (v a)) (h : Tracks A K u v fun k => k) {d : Fin 3} (hd : d ∈ A) :
    Tracks A K u (fun a => latFlux ℝ (riemann r G d) p none d (latPrim ℝ (computePrimitives G.gamma) p (v a)))
      fun k => targetFlux r G.gamma d (computePrimitives G.gamma k) := by
  have hr : ∀ k ∈ K, k .rho ≠ 0 := fun k hk => (hpos k hk).1.ne'
  obtain ⟨M, hM, hP⟩ := prim_lip_on G.gamma hK hr
  have hC : IsCompact (computePrimitives (K := ℝ) (np := np) G.gamma '' K) :=
    hK.image_of_continuousOn fun k hk => (lip_prim G.gamma (hr k hk)).continuousAt.continuousWithinAt
  obtain ⟨M', hM', hF⟩ := riemann_consistent_on r G hs hg d hC (by rintro _ ⟨k, hk, rfl⟩; exact hpos k hk)
  have t1 : Tracks A K u (fun a i => computePrimitives G.gamma (latCenters ℝ p (v a) i)) (computePrimitives G.gamma) :=
    (h.centers hp hA).map hM hP (fun a i => (hv a i).2.1) fun k hk => hk
  have t2 : Tracks A K u (fun a => latPrim ℝ (computePrimitives G.gamma) p (v a)) (computePrimitives G.gamma) :=
    ((t1.latT hp hA 0).latT hp hA 1).latT hp hA 2
  have t3 := t2.line hp hA d
  have t4 := (t3.latR hp hA d).shift (-Pi.single d 1) fun e he => by
    rw [Pi.neg_apply, Pi.single_eq_of_ne (show e ≠ d from fun h => he (h ▸ hd)), neg_zero]
  have t5 := t3.latL hp hA d
  have t6 := t4.map₂ hM' hF t5 (fun a i => ((hv a _).2.2 d hd).1) (fun a i => ((hv a _).2.2 d hd).2) fun k hk => ⟨k, hk, rfl⟩
  exact ((t6.congr (w' := fun a => latMid ℝ (riemann r G d) p none d (latPrim ℝ (computePrimitives G.gamma) p (v a)))
    (fun a i => by rw [← sub_eq_add_neg]; rfl) fun _ _ => rfl).latT hp hA _).latT hp hA _

/-- The change over a step of bounded length relative to the spacing. -/
theorem div_tracks {act : I → Fin 3 → Bool} (hact : ∀ a d, act a d = true ↔ d ∈ A) {h : I → Fin 3 → ℝ} {τ : I → ℝ} {R : ℝ}
    (hτ : ∀ a, 0 ≤ τ a) (hh : ∀ a d, 0 < h a d) (hR : ∀ a, ∀ d ∈ A, τ a ≤ R * h a d) {F : I → Fin 3 → Ix → State ℝ np}
    {f : Fin 3 → State ℝ np → State ℝ np} (hF : ∀ d ∈ A, Tracks A K u (fun a => F a d) (f d)) :
    Tracks A K u (fun a i => τ a • latDiv (act a) (h a) (F a) i) fun _ => 0 := by
  have t : ∀ d ∈ A, Tracks A K u (fun a i => (τ a * (-(1 / h a d))) • (F a d (i + Pi.single d 1) - F a d i)) fun _ => 0 := by
    intro d hd
    refine Tracks.scale (M := R) (fun a => ?_) ?_
    · rw [mul_neg, abs_neg, abs_of_nonneg (mul_nonneg (hτ a) (one_div_nonneg.2 (hh a d).le)), mul_one_div,
        div_le_iff₀ (hh a d)]
      exact hR a d hd
    · refine (((hF d hd).shift (Pi.single d 1) fun e he => Pi.single_eq_of_ne (fun h => he (h ▸ hd)) _).sub (hF d hd)).congr
        (fun a i => rfl) fun k _ => (sub_self _).symm
  refine (Tracks.sum A t).congr (fun a i => ?_) fun k _ => by rw [sum_const_zero]
  unfold latDiv
  rw [smul_sum]
  refine (sum_subset (subset_univ A) fun d _ hd => ?_).symm.trans (sum_congr rfl fun d hd => ?_)
  · rw [if_neg (fun h => hd ((hact a d).1 h)), smul_zero]
  · rw [if_pos ((hact a d).2 hd), smul_smul]

end

end FVHOE
