import Verif.Proofs.StepTracks
import Verif.Props.C31

/-!
Grid functions that depend locally and Lipschitz continuously on other grid functions away from the sides of the domain, and
the steps of the time steppers with such fluxes. What stands in the ghost cells does not matter there.
-/

set_option linter.unusedSectionVars false

namespace FVHOE

open Finset

/-- A cell that has at least `r` cells between it and every side across one of the directions `A`. -/
def Deep (n : Fin 3 → ℕ) (A : Finset (Fin 3)) (r : ℕ) (i : Ix) : Prop :=
  InCells n i ∧ ∀ d ∈ A, (r : ℤ) ≤ i d ∧ i d + r < n d

theorem Deep.mono {n : Fin 3 → ℕ} {A : Finset (Fin 3)} {r r' : ℕ} (h : r ≤ r') {i : Ix} (hi : Deep n A r' i) : Deep n A r i :=
  ⟨hi.1, fun d hd => by have := hi.2 d hd; omega⟩

theorem Deep.shift {n : Fin 3 → ℕ} {A : Finset (Fin 3)} {r : ℕ} {i s : Ix} (hs : ∀ d, d ∉ A → s d = 0)
    (hi : Deep n A (r + ∑ d, (s d).natAbs) i) : Deep n A r (i + s) := by
  have hb : ∀ d, (s d).natAbs ≤ ∑ d, (s d).natAbs := fun d =>
    single_le_sum (f := fun d => (s d).natAbs) (fun _ _ => Nat.zero_le _) (mem_univ d)
  refine ⟨fun d => ?_, fun d hd => ?_⟩
  · by_cases hd : d ∈ A
    · have h1 := hi.2 d hd
      have h2 := hb d
      rw [Pi.add_apply]
      omega
    · rw [Pi.add_apply, hs d hd, add_zero]
      exact hi.1 d
  · have h1 := hi.2 d hd
    have h2 := hb d
    rw [Pi.add_apply]
    omega

variable {I : Type} {V W X : Type} [NormedAddCommGroup V] [NormedSpace ℝ V] [NormedAddCommGroup W] [NormedSpace ℝ W]
  [NormedAddCommGroup X] [NormedSpace ℝ X]

/-- `Tracks` away from the sides: constant, stencil and margin serve the whole family. -/
def TracksIn (n : I → Fin 3 → ℕ) (A : Finset (Fin 3)) (K : Set V) (u : I → Ix → V) (w : I → Ix → W) (φ : V → W) : Prop :=
  ∃ r : ℕ, ∃ S : Finset Ix, ∃ L : ℝ, 0 ≤ L ∧ (∀ σ ∈ S, ∀ d, d ∉ A → σ d = 0) ∧
    ∀ a, ∀ k ∈ K, ∀ i, Deep (n a) A r i → ‖w a i - φ k‖ ≤ L * ∑ σ ∈ S, ‖u a (i + σ) - k‖

variable {n : I → Fin 3 → ℕ} {A : Finset (Fin 3)} {K : Set V} {u : I → Ix → V} {w w' : I → Ix → W} {φ φ' : V → W}

theorem TracksIn.refl : TracksIn n A K u u fun k => k := by
  refine ⟨0, {0}, 1, zero_le_one, fun σ hσ d _ => ?_, fun a k _ i _ => ?_⟩
  · rw [mem_singleton.1 hσ]; rfl
  · rw [sum_singleton, add_zero, one_mul]

theorem TracksIn.zero : TracksIn n A K u (fun _ _ => (0 : W)) fun _ => 0 :=
  ⟨0, ∅, 0, le_rfl, fun σ hσ => absurd hσ (notMem_empty σ), fun a k _ i _ => by simp⟩

/-- A grid function whose distance is controlled by those of two others. -/
theorem TracksIn.bound₂ {X' : Type} [NormedAddCommGroup X'] [NormedSpace ℝ X'] {M : ℝ} (hM : 0 ≤ M) (R : ℕ)
    {x : I → Ix → X} {ψ : V → X} {y : I → Ix → X'} {χ : V → X'} {z : I → Ix → W} (h : TracksIn n A K u z φ)
    (h' : TracksIn n A K u x ψ)
    (hy : ∀ a, ∀ k ∈ K, ∀ i, Deep (n a) A R i → ‖y a i - χ k‖ ≤ M * (‖z a i - φ k‖ + ‖x a i - ψ k‖)) :
    TracksIn n A K u y χ := by
  obtain ⟨r, S, L, hL, hS, H⟩ := h
  obtain ⟨r', S', L', hL', hS', H'⟩ := h'
  refine ⟨max R (max r r'), S ∪ S', M * (L + L'), by positivity, fun σ hσ => ?_, fun a k hk i hi => ?_⟩
  · rcases mem_union.1 hσ with h | h
    · exact hS σ h
    · exact hS' σ h
  · refine (hy a k hk i (hi.mono (le_max_left _ _))).trans ?_
    rw [mul_assoc, add_mul]
    refine mul_le_mul_of_nonneg_left (add_le_add ((H a k hk i (hi.mono ((le_max_left _ _).trans (le_max_right _ _)))).trans ?_)
      ((H' a k hk i (hi.mono ((le_max_right _ _).trans (le_max_right _ _)))).trans ?_)) hM
    · exact mul_le_mul_of_nonneg_left (sum_le_sum_of_subset_of_nonneg subset_union_left fun _ _ _ => norm_nonneg _) hL
    · exact mul_le_mul_of_nonneg_left (sum_le_sum_of_subset_of_nonneg subset_union_right fun _ _ _ => norm_nonneg _) hL'

theorem TracksIn.add (h : TracksIn n A K u w φ) (h' : TracksIn n A K u w' φ') :
    TracksIn n A K u (fun a i => w a i + w' a i) fun k => φ k + φ' k :=
  TracksIn.bound₂ zero_le_one 0 h h' fun a k _ i _ => by
    rw [show w a i + w' a i - (φ k + φ' k) = (w a i - φ k) + (w' a i - φ' k) by abel, one_mul]
    exact norm_add_le _ _

theorem TracksIn.smul (c : ℝ) (h : TracksIn n A K u w φ) : TracksIn n A K u (fun a i => c • w a i) fun k => c • φ k := by
  obtain ⟨r, S, L, hL, hS, H⟩ := h
  refine ⟨r, S, |c| * L, by positivity, hS, fun a k hk i hi => ?_⟩
  rw [← smul_sub, norm_smul, Real.norm_eq_abs, mul_assoc]
  exact mul_le_mul_of_nonneg_left (H a k hk i hi) (abs_nonneg c)

theorem TracksIn.scale {c : I → ℝ} {M : ℝ} (hc : ∀ a, |c a| ≤ M) (h : TracksIn n A K u w fun _ => 0) :
    TracksIn n A K u (fun a i => c a • w a i) fun _ => 0 := by
  obtain ⟨r, S, L, hL, hS, H⟩ := h
  refine ⟨r, S, |M| * L, by positivity, hS, fun a k hk i hi => ?_⟩
  have := H a k hk i hi
  rw [sub_zero] at this ⊢
  rw [norm_smul, Real.norm_eq_abs, mul_assoc]
  exact mul_le_mul ((hc a).trans (le_abs_self M)) this (norm_nonneg _) (abs_nonneg M)

theorem TracksIn.congr {ψ : V → W} (h : TracksIn n A K u w φ) (hw : ∀ a i, InCells (n a) i → w' a i = w a i)
    (hφ : ∀ k ∈ K, ψ k = φ k) : TracksIn n A K u w' ψ := by
  obtain ⟨r, S, L, hL, hS, H⟩ := h
  exact ⟨r, S, L, hL, hS, fun a k hk i hi => by rw [hw a i hi.1, hφ k hk]; exact H a k hk i hi⟩

theorem TracksIn.sub (h : TracksIn n A K u w φ) (h' : TracksIn n A K u w' φ') :
    TracksIn n A K u (fun a i => w a i - w' a i) fun k => φ k - φ' k :=
  (h.add (h'.smul (-1))).congr (fun a i _ => by rw [neg_one_smul, sub_eq_add_neg]) fun k _ => by
    rw [neg_one_smul, sub_eq_add_neg]

theorem TracksIn.shift (s : Ix) (hs : ∀ d, d ∉ A → s d = 0) (h : TracksIn n A K u w φ) :
    TracksIn n A K u (fun a i => w a (i + s)) φ := by
  classical
  obtain ⟨r, S, L, hL, hS, H⟩ := h
  refine ⟨r + ∑ d, (s d).natAbs, S.image fun σ => s + σ, L, hL, fun σ hσ d hd => ?_, fun a k hk i hi => ?_⟩
  · obtain ⟨σ', hσ', rfl⟩ := mem_image.1 hσ
    rw [Pi.add_apply, hs d hd, hS σ' hσ' d hd, add_zero]
  · rw [sum_image fun x _ y _ h => add_left_cancel h]
    have := H a k hk (i + s) (hi.shift hs)
    simpa only [add_assoc] using this

theorem TracksIn.sum {J : Type} (s : Finset J) {w : J → I → Ix → W} {φ : J → V → W}
    (h : ∀ j ∈ s, TracksIn n A K u (w j) (φ j)) :
    TracksIn n A K u (fun a i => ∑ j ∈ s, w j a i) fun k => ∑ j ∈ s, φ j k := by
  classical
  induction s using Finset.induction_on with
  | empty => exact TracksIn.zero.congr (fun a i _ => sum_empty) fun k _ => sum_empty
  | insert j s hj ih =>
    exact ((h j (mem_insert_self _ _)).add (ih fun j' hj' => h j' (mem_insert_of_mem hj'))).congr
      (fun a i _ => sum_insert hj) fun k _ => sum_insert hj

theorem TracksIn.wsum {d : Fin 3} (hd : d ∈ A) (h : TracksIn n A K u w φ) (ws : List ℚ) (s : ℤ) :
    TracksIn n A K u (fun a i => FVHOE.wsum ℝ ws s fun k => w a (i + Pi.single d k)) fun k => ((ws.sum : ℚ) : ℝ) • φ k := by
  induction ws generalizing s with
  | nil => exact TracksIn.zero.congr (fun a i _ => rfl) fun k _ => by simp
  | cons x ws ih =>
    have h1 := (h.shift (Pi.single d s) fun e he => Pi.single_eq_of_ne (fun h => he (h ▸ hd)) _).smul (x : ℝ)
    exact (h1.add (ih (s + 1))).congr (fun a i _ => rfl) fun k _ => by
      rw [List.sum_cons, Rat.cast_add, add_smul]

theorem TracksIn.sweep {d : Fin 3} (hd : d ∈ A) (r : ℤ) {ws : List ℚ} (hw : ws.sum = 1) (h : TracksIn n A K u w φ) :
    TracksIn n A K u (fun a => lsweep ℝ d r ws (w a)) φ :=
  (h.wsum hd ws (-r)).congr (fun a i _ => rfl) fun k _ => by rw [hw, Rat.cast_one, one_smul]

section

variable {p : Fin 3 → ℕ} (hp : ∀ d, p d ≤ 8) (hA : ∀ d, d ∉ A → p d = 0)
include hp hA

theorem TracksIn.latC (d : Fin 3) (h : TracksIn n A K u w φ) : TracksIn n A K u (fun a => latC ℝ (p d) d (w a)) φ := by
  by_cases hd : d ∈ A
  · exact h.sweep hd _ (wts_sum (hp d)).2.1
  · rw [hA d hd]
    exact h.congr (fun a i _ => by rw [latC_low (Nat.zero_le 1)]) fun _ _ => rfl

theorem TracksIn.latT (d : Fin 3) (h : TracksIn n A K u w φ) : TracksIn n A K u (fun a => latT ℝ (p d) d (w a)) φ := by
  by_cases hd : d ∈ A
  · exact h.sweep hd _ (wts_sum (hp d)).2.2.2
  · rw [hA d hd]
    exact h.congr (fun a i _ => by rw [latT_low (Nat.zero_le 1)]) fun _ _ => rfl

theorem TracksIn.latL (d : Fin 3) (h : TracksIn n A K u w φ) : TracksIn n A K u (fun a => latL ℝ (p d) d (w a)) φ := by
  by_cases hd : d ∈ A
  · exact h.sweep hd _ (wts_sum (hp d)).1
  · rw [hA d hd]
    exact h.congr (fun a i _ => by rw [latL_zero]) fun _ _ => rfl

theorem TracksIn.latR (d : Fin 3) (h : TracksIn n A K u w φ) : TracksIn n A K u (fun a => latR ℝ (p d) d (w a)) φ := by
  by_cases hd : d ∈ A
  · exact h.sweep hd _ (wts_sum (hp d)).2.2.1
  · rw [hA d hd]
    exact h.congr (fun a i _ => by rw [latR_zero]) fun _ _ => rfl

theorem TracksIn.centers (h : TracksIn n A K u w φ) : TracksIn n A K u (fun a => latCenters ℝ p (w a)) φ :=
  ((h.latC hp hA 0).latC hp hA 1).latC hp hA 2

theorem TracksIn.line (d : Fin 3) (h : TracksIn n A K u w φ) : TracksIn n A K u (fun a => latLine ℝ p d (w a)) φ :=
  (h.latC hp hA _).latC hp hA _

end

/-- Slopes that are at most the sum of the differences they are computed from. -/
theorem TracksIn.slope {d : Fin 3} (hd : d ∈ A) {s : I → W → W → W} (hs : ∀ a x y, ‖s a x y‖ ≤ ‖x‖ + ‖y‖)
    (h : TracksIn n A K u w φ) : TracksIn n A K u (fun a => latSlope d (s a) (w a)) fun _ => 0 := by
  have h1 := h.sub (h.shift (-Pi.single d 1) fun e he => by
    rw [Pi.neg_apply, Pi.single_eq_of_ne (show e ≠ d from fun h => he (h ▸ hd)), neg_zero])
  have h2 := (h.shift (Pi.single d 1) fun e he => Pi.single_eq_of_ne (fun h => he (h ▸ hd)) _).sub h
  refine TracksIn.bound₂ zero_le_one 0 h1 h2 fun a k _ i _ => ?_
  rw [sub_self, sub_zero, sub_zero, sub_zero, one_mul, ← sub_eq_add_neg]
  exact hs a _ _

section

variable {p : Fin 3 → ℕ} (hp : ∀ d, p d ≤ 8) (hA : ∀ d, d ∉ A → p d = 0) {s : I → Option (W → W → W)}
  (hs : ∀ a f, s a = some f → ∀ x y, ‖f x y‖ ≤ ‖x‖ + ‖y‖)
include hp hA hs

theorem TracksIn.faceL {d : Fin 3} (hd : d ∈ A) (h : TracksIn n A K u w φ) :
    TracksIn n A K u (fun a => latFaceL ℝ (p d) d (s a) (w a)) φ := by
  classical
  have h1 := h.latL hp hA d
  let s' : I → W → W → W := fun a => (s a).getD fun _ _ => 0
  have hs' : ∀ a x y, ‖s' a x y‖ ≤ ‖x‖ + ‖y‖ := by
    intro a x y
    cases e : s a with
    | none => simp only [s', e, Option.getD_none, norm_zero]; positivity
    | some f => simp only [s', e, Option.getD_some]; exact hs a f e x y
  have h2 := h.sub ((h.slope hd hs').smul (1 / 2))
  refine TracksIn.bound₂ zero_le_one 0 h1 h2 fun a k _ i _ => ?_
  rw [one_mul, smul_zero, sub_zero]
  cases e : s a with
  | none =>
    exact le_add_of_nonneg_right (norm_nonneg _)
  | some f =>
    by_cases hp1 : p d = 1
    · refine le_add_of_nonneg_of_le (norm_nonneg _) (le_of_eq ?_)
      simp only [latFaceL, if_pos hp1, s', e, Option.getD_some]
    · simp only [latFaceL, if_neg hp1]
      exact le_add_of_nonneg_right (norm_nonneg _)

theorem TracksIn.faceR {d : Fin 3} (hd : d ∈ A) (h : TracksIn n A K u w φ) :
    TracksIn n A K u (fun a => latFaceR ℝ (p d) d (s a) (w a)) φ := by
  classical
  have h1 := h.latR hp hA d
  let s' : I → W → W → W := fun a => (s a).getD fun _ _ => 0
  have hs' : ∀ a x y, ‖s' a x y‖ ≤ ‖x‖ + ‖y‖ := by
    intro a x y
    cases e : s a with
    | none => simp only [s', e, Option.getD_none, norm_zero]; positivity
    | some f => simp only [s', e, Option.getD_some]; exact hs a f e x y
  have h2 := h.add ((h.slope hd hs').smul (1 / 2))
  refine TracksIn.bound₂ zero_le_one 0 h1 h2 fun a k _ i _ => ?_
  rw [one_mul, smul_zero, add_zero]
  cases e : s a with
  | none =>
    exact le_add_of_nonneg_right (norm_nonneg _)
  | some f =>
    by_cases hp1 : p d = 1
    · refine le_add_of_nonneg_of_le (norm_nonneg _) (le_of_eq ?_)
      simp only [latFaceR, if_pos hp1, s', e, Option.getD_some]
    · simp only [latFaceR, if_neg hp1]
      exact le_add_of_nonneg_right (norm_nonneg _)

end

/-- Convex combinations, with weights that vary from face to face. -/
theorem TracksIn.blend {θ : I → Ix → ℝ} (hθ : ∀ a i, 0 ≤ θ a i ∧ θ a i ≤ 1) (h : TracksIn n A K u w φ)
    (h' : TracksIn n A K u w' φ) : TracksIn n A K u (fun a i => (1 - θ a i) • w a i + θ a i • w' a i) φ := by
  refine TracksIn.bound₂ zero_le_one 0 h h' fun a k _ i _ => ?_
  obtain ⟨h0, h1⟩ := hθ a i
  rw [show (1 - θ a i) • w a i + θ a i • w' a i - φ k = (1 - θ a i) • (w a i - φ k) + θ a i • (w' a i - φ k) by module, one_mul]
  refine (norm_add_le _ _).trans (add_le_add ?_ ?_)
  · rw [norm_smul, Real.norm_eq_abs, abs_of_nonneg (by linarith)]
    exact mul_le_of_le_one_left (norm_nonneg _) (by linarith)
  · rw [norm_smul, Real.norm_eq_abs, abs_of_nonneg h0]
    exact mul_le_of_le_one_left (norm_nonneg _) h1

theorem TracksIn.map₂ {C : Set W} {F : W → W → X} {ψ : W → X} {M : ℝ} (hM : 0 ≤ M) {R : ℕ}
    (hF : ∀ a ∈ C, ∀ b ∈ C, ∀ k ∈ C, ‖F a b - ψ k‖ ≤ M * (‖a - k‖ + ‖b - k‖)) (h : TracksIn n A K u w φ)
    (h' : TracksIn n A K u w' φ) (hw : ∀ a i, Deep (n a) A R i → w a i ∈ C) (hw' : ∀ a i, Deep (n a) A R i → w' a i ∈ C)
    (hφ : ∀ k ∈ K, φ k ∈ C) : TracksIn n A K u (fun a i => F (w a i) (w' a i)) fun k => ψ (φ k) :=
  TracksIn.bound₂ hM R h h' fun a k hk i hi => hF _ (hw a i hi) _ (hw' a i hi) _ (hφ k hk)

theorem TracksIn.map {C : Set W} {F : W → X} {M : ℝ} (hM : 0 ≤ M) {R : ℕ} (hF : ∀ a ∈ C, ∀ k ∈ C, ‖F a - F k‖ ≤ M * ‖a - k‖)
    (h : TracksIn n A K u w φ) (hw : ∀ a i, Deep (n a) A R i → w a i ∈ C) (hφ : ∀ k ∈ K, φ k ∈ C) :
    TracksIn n A K u (fun a i => F (w a i)) fun k => F (φ k) :=
  TracksIn.bound₂ hM R h h fun a k hk i hi => (hF _ (hw a i hi) _ (hφ k hk)).trans
    (mul_le_mul_of_nonneg_left (le_add_of_nonneg_right (norm_nonneg _)) hM)

/-! ### The fluxes of the solver -/

section

variable {np : ℕ} {p : Fin 3 → ℕ} {A : Finset (Fin 3)} {K : Set (State ℝ np)} {u v : I → Ix → State ℝ np}

/-- At the cells that are `R` cells away from the sides, the gas laws are evaluated in the set only: at the values at the cell
centres and at the values on both sides of the faces, these as primitive variables. -/
def StaysInside (gamma : ℝ) (n : Fin 3 → ℕ) (p : Fin 3 → ℕ) (slope : Option (State ℝ np → State ℝ np → State ℝ np))
    (A : Finset (Fin 3)) (R : ℕ) (K : Set (State ℝ np)) (U : Ix → State ℝ np) : Prop :=
  ∀ i, Deep n A R i → latCenters ℝ p U i ∈ K ∧ ∀ d ∈ A,
    latFaceR ℝ (p d) d slope (latLine ℝ p d (latPrim ℝ (computePrimitives gamma) p U)) i ∈ computePrimitives gamma '' K ∧
    latFaceL ℝ (p d) d slope (latLine ℝ p d (latPrim ℝ (computePrimitives gamma) p U)) i ∈ computePrimitives gamma '' K

theorem flux_tracksIn (r : RiemannKind) (G : Gas ℝ) (hs : IsSqrt G.sqrt) (hg : 1 ≤ G.gamma) (hp : ∀ d, p d ≤ 8)
    (hA : ∀ d, d ∉ A → p d = 0) (hK : IsCompact K) (hpos : ∀ k ∈ K, PosGas (computePrimitives G.gamma k)) {R : ℕ}
    {s : I → Option (State ℝ np → State ℝ np → State ℝ np)} (hsl : ∀ a f, s a = some f → ∀ x y, ‖f x y‖ ≤ ‖x‖ + ‖y‖)
    (hv : ∀ a, StaysInside G.gamma (n a) p (s a) A R K (v a)) (h : TracksIn n A K u v fun k => k) {d : Fin 3} (hd : d ∈ A) :
    TracksIn n A K u (fun a => latFlux ℝ (riemann r G d) p (s a) d (latPrim ℝ (computePrimitives G.gamma) p (v a)))
      fun k => targetFlux r G.gamma d (computePrimitives G.gamma k) := by
  have hr : ∀ k ∈ K, k .rho ≠ 0 := fun k hk => (hpos k hk).1.ne'
  obtain ⟨M, hM, hP⟩ := prim_lip_on G.gamma hK hr
  have hC : IsCompact (computePrimitives (K := ℝ) (np := np) G.gamma '' K) :=
    hK.image_of_continuousOn fun k hk => (lip_prim G.gamma (hr k hk)).continuousAt.continuousWithinAt
  obtain ⟨M', hM', hF⟩ := riemann_consistent_on r G hs hg d hC (by rintro _ ⟨k, hk, rfl⟩; exact hpos k hk)
  have t1 : TracksIn n A K u (fun a i => computePrimitives G.gamma (latCenters ℝ p (v a) i)) (computePrimitives G.gamma) :=
    (h.centers hp hA).map hM hP (fun a i hi => (hv a i hi).1) fun k hk => hk
  have t2 : TracksIn n A K u (fun a => latPrim ℝ (computePrimitives G.gamma) p (v a)) (computePrimitives G.gamma) :=
    ((t1.latT hp hA 0).latT hp hA 1).latT hp hA 2
  have t3 := t2.line hp hA d
  have hsh : ∀ e, e ∉ A → (-Pi.single d 1 : Ix) e = 0 := fun e he => by
    rw [Pi.neg_apply, Pi.single_eq_of_ne (show e ≠ d from fun h => he (h ▸ hd)), neg_zero]
  have t4 := (t3.faceR hp hA hsl hd).shift (-Pi.single d 1) hsh
  have t5 := t3.faceL hp hA hsl hd
  have t6 := t4.map₂ (R := R + ∑ e, ((-Pi.single d 1 : Ix) e).natAbs) hM' hF t5 (fun a i hi => ((hv a _ (hi.shift hsh)).2 d hd).1)
    (fun a i hi => ((hv a _ (hi.mono (Nat.le_add_right _ _))).2 d hd).2) fun k hk => ⟨k, hk, rfl⟩
  exact ((t6.congr (w' := fun a => latMid ℝ (riemann r G d) p (s a) d (latPrim ℝ (computePrimitives G.gamma) p (v a)))
    (fun a i _ => by rw [← sub_eq_add_neg]; rfl) fun _ _ => rfl).latT hp hA _).latT hp hA _

theorem div_tracksIn {act : I → Fin 3 → Bool} (hact : ∀ a d, act a d = true ↔ d ∈ A) {h : I → Fin 3 → ℝ} {τ : I → ℝ} {R : ℝ}
    (hτ : ∀ a, 0 ≤ τ a) (hh : ∀ a d, 0 < h a d) (hR : ∀ a, ∀ d ∈ A, τ a ≤ R * h a d) {F : I → Fin 3 → Ix → State ℝ np}
    {f : Fin 3 → State ℝ np → State ℝ np} (hF : ∀ d ∈ A, TracksIn n A K u (fun a => F a d) (f d)) :
    TracksIn n A K u (fun a i => τ a • latDiv (act a) (h a) (F a) i) fun _ => 0 := by
  have t : ∀ d ∈ A, TracksIn n A K u (fun a i => (τ a * (-(1 / h a d))) • (F a d (i + Pi.single d 1) - F a d i)) fun _ => 0 := by
    intro d hd
    refine TracksIn.scale (M := R) (fun a => ?_) ?_
    · rw [mul_neg, abs_neg, abs_of_nonneg (mul_nonneg (hτ a) (one_div_nonneg.2 (hh a d).le)), mul_one_div,
        div_le_iff₀ (hh a d)]
      exact hR a d hd
    · refine (((hF d hd).shift (Pi.single d 1) fun e he => Pi.single_eq_of_ne (fun h => he (h ▸ hd)) _).sub (hF d hd)).congr
        (fun a i _ => rfl) fun k _ => (sub_self _).symm
  refine (TracksIn.sum A t).congr (fun a i _ => ?_) fun k _ => by rw [sum_const_zero]
  unfold latDiv
  rw [smul_sum]
  refine (sum_subset (subset_univ A) fun d _ hd => ?_).symm.trans (sum_congr rfl fun d hd => ?_)
  · rw [if_neg (fun h => hd ((hact a d).1 h)), smul_zero]
  · rw [if_pos ((hact a d).2 hd), smul_smul]

end

/-! ### Steps -/

section

variable {np : ℕ}

/-- A step of size `τ` from `u` to `u'`, as far as the cells are concerned. -/
def RKStepIn (m : Integrator) (Ev : (Ix → State ℝ np) → (Fin 3 → Ix → State ℝ np) → Prop) (n : Fin 3 → ℕ) (act : Fin 3 → Bool)
    (h : Fin 3 → ℝ) (τ : ℝ) (u u' : Ix → State ℝ np) : Prop :=
  ∃ u₁, RKStep m Ev act h τ u u₁ ∧ ∀ i, InCells n i → u' i = u₁ i

theorem rkStepIn_of_stepper {f : RHS ℝ (Ix → State ℝ np)} {Ev : (Ix → State ℝ np) → (Fin 3 → Ix → State ℝ np) → Prop}
    {n : Fin 3 → ℕ} {act : Fin 3 → Bool} {h : Fin 3 → ℝ} (hEv : ∀ v v' F, (∀ i, InCells n i → v i = v' i) → Ev v F → Ev v' F)
    (hf : ∀ s t u dt D, f s t u = .ok (dt, D) → ∃ F, Ev u F ∧ ∀ i, InCells n i → D i = latDiv act h F i)
    (m : Integrator) (t : ℝ) (u : Ix → State ℝ np) (target : Option ℝ) (τ : ℝ) (u' : Ix → State ℝ np)
    (hs : stepper f m t u target = .ok (τ, u')) : RKStepIn m Ev n act h τ u u' := by
  cases m with
  | euler =>
    obtain ⟨⟨dt, k0⟩, h0, hs⟩ := bind_ok hs
    cases hs
    obtain ⟨F, hF, eF⟩ := hf _ _ _ _ _ h0
    refine ⟨_, ⟨F, hF, rfl⟩, fun i hi => ?_⟩
    simp only [Pi.add_apply, Pi.smul_apply, eF i hi]
  | ssprk2 =>
    obtain ⟨⟨dt, k0⟩, h0, hs⟩ := bind_ok hs
    obtain ⟨⟨dt1, k1⟩, h1, hs⟩ := bind_ok hs
    cases hs
    obtain ⟨F, hF, eF⟩ := hf _ _ _ _ _ h0
    obtain ⟨F', hF', eF'⟩ := hf _ _ _ _ _ h1
    refine ⟨_, ⟨F, F', hF, hEv _ _ _ (fun i hi => ?_) hF', rfl⟩, fun i hi => ?_⟩
    · simp only [Pi.add_apply, Pi.smul_apply, eF i hi]
    · simp only [Pi.add_apply, Pi.smul_apply, eF i hi, eF' i hi]
      module
  | ssprk3 =>
    obtain ⟨⟨dt, k0⟩, h0, hs⟩ := bind_ok hs
    obtain ⟨⟨dt1, k1⟩, h1, hs⟩ := bind_ok hs
    obtain ⟨⟨dt2, k2⟩, h2, hs⟩ := bind_ok hs
    cases hs
    obtain ⟨F, hF, eF⟩ := hf _ _ _ _ _ h0
    obtain ⟨F', hF', eF'⟩ := hf _ _ _ _ _ h1
    obtain ⟨F'', hF'', eF''⟩ := hf _ _ _ _ _ h2
    refine ⟨_, ⟨F, F', F'', hF, hEv _ _ _ (fun i hi => ?_) hF', hEv _ _ _ (fun i hi => ?_) hF'', rfl⟩, fun i hi => ?_⟩
    · simp only [Pi.add_apply, Pi.smul_apply, eF i hi]
    · simp only [Pi.add_apply, Pi.smul_apply, eF i hi, eF' i hi]
      module
    · simp only [Pi.add_apply, Pi.smul_apply, eF i hi, eF' i hi, eF'' i hi]
      module
  | rk4 =>
    obtain ⟨⟨dt, k0⟩, h0, hs⟩ := bind_ok hs
    obtain ⟨⟨dt1, k1⟩, h1, hs⟩ := bind_ok hs
    obtain ⟨⟨dt2, k2⟩, h2, hs⟩ := bind_ok hs
    obtain ⟨⟨dt3, k3⟩, h3, hs⟩ := bind_ok hs
    cases hs
    obtain ⟨F, hF, eF⟩ := hf _ _ _ _ _ h0
    obtain ⟨F', hF', eF'⟩ := hf _ _ _ _ _ h1
    obtain ⟨F'', hF'', eF''⟩ := hf _ _ _ _ _ h2
    obtain ⟨F3, hF3, eF3⟩ := hf _ _ _ _ _ h3
    refine ⟨_, ⟨F, F', F'', F3, hF, hEv _ _ _ (fun i hi => ?_) hF', hEv _ _ _ (fun i hi => ?_) hF'',
      hEv _ _ _ (fun i hi => ?_) hF3, rfl⟩, fun i hi => ?_⟩
    · simp only [Pi.add_apply, Pi.smul_apply, eF i hi]
      module
    · simp only [Pi.add_apply, Pi.smul_apply, eF' i hi]
      module
    · simp only [Pi.add_apply, Pi.smul_apply, eF'' i hi]
    · simp only [Pi.add_apply, Pi.smul_apply, eF i hi, eF' i hi, eF'' i hi, eF3 i hi]
      module

variable {I : Type} {n : I → Fin 3 → ℕ} {A : Finset (Fin 3)} {K : Set (State ℝ np)} {b u u' : I → Ix → State ℝ np}

/-- A family of steps: on the cells the update is conservative with a flux that, away from the sides, depends locally on the
state at the start of the step and is consistent. -/
theorem step_tracksIn (m : Integrator) {Ev : I → (Ix → State ℝ np) → (Fin 3 → Ix → State ℝ np) → Prop}
    {f : Fin 3 → State ℝ np → State ℝ np}
    (hEv : ∀ (v : I → Ix → State ℝ np) (F : I → Fin 3 → Ix → State ℝ np), (∀ a, Ev a (v a) (F a)) →
      TracksIn n A K b v (fun k => k) → ∀ d ∈ A, TracksIn n A K b (fun a => F a d) (f d))
    {act : I → Fin 3 → Bool} (hact : ∀ a d, act a d = true ↔ d ∈ A) {h : I → Fin 3 → ℝ} {τ : I → ℝ} {R : ℝ}
    (hτ : ∀ a, 0 ≤ τ a) (hh : ∀ a d, 0 < h a d) (hR : ∀ a, ∀ d ∈ A, τ a ≤ R * h a d)
    (hstep : ∀ a, RKStepIn m (Ev a) (n a) (act a) (h a) (τ a) (u a) (u' a)) (t0 : TracksIn n A K b u fun k => k) :
    ∃ g : I → Fin 3 → Ix → State ℝ np, (∀ a i, InCells (n a) i → u' a i = u a i + τ a • latDiv (act a) (h a) (g a) i) ∧
      ∀ d ∈ A, TracksIn n A K b (fun a => g a d) (f d) := by
  have dv : ∀ {F : I → Fin 3 → Ix → State ℝ np}, (∀ d ∈ A, TracksIn n A K b (fun a => F a d) (f d)) →
      TracksIn n A K b (fun a i => τ a • latDiv (act a) (h a) (F a) i) fun _ => 0 := fun hF => div_tracksIn hact hτ hh hR hF
  have st : ∀ (c : ℝ) {F : I → Fin 3 → Ix → State ℝ np} {v : I → Ix → State ℝ np}, TracksIn n A K b v (fun k => k) →
      (∀ d ∈ A, TracksIn n A K b (fun a => F a d) (f d)) →
      TracksIn n A K b (fun a => v a + c • (τ a • latDiv (act a) (h a) (F a))) fun k => k := by
    intro c F v hv hF
    exact (hv.add ((dv hF).smul c)).congr (fun a i _ => rfl) fun k _ => by rw [smul_zero, add_zero]
  have st1 : ∀ {F : I → Fin 3 → Ix → State ℝ np} {v : I → Ix → State ℝ np}, TracksIn n A K b v (fun k => k) →
      (∀ d ∈ A, TracksIn n A K b (fun a => F a d) (f d)) →
      TracksIn n A K b (fun a => v a + τ a • latDiv (act a) (h a) (F a)) fun k => k := by
    intro F v hv hF
    exact (st 1 hv hF).congr (fun a i _ => by simp only [one_smul]) fun _ _ => rfl
  choose u₁ hstep hu₁ using hstep
  cases m with
  | euler =>
    choose F hF e using hstep
    exact ⟨F, fun a i hi => by rw [hu₁ a i hi, e]; rfl, hEv u F hF t0⟩
  | ssprk2 =>
    choose F F' hF hF' e using hstep
    have t := hEv u F hF t0
    have t' := hEv _ F' hF' (st1 t0 t)
    refine ⟨fun a => (1 / 2 : ℝ) • F a + (1 / 2 : ℝ) • F' a, fun a i hi => ?_, fun d hd => ?_⟩
    · rw [hu₁ a i hi, e, latDiv_add, latDiv_smul, latDiv_smul]
      simp only [Pi.add_apply, Pi.smul_apply]
      module
    · exact (((t d hd).smul (1 / 2)).add ((t' d hd).smul (1 / 2))).congr (fun a i _ => rfl) fun k _ => by module
  | ssprk3 =>
    choose F F' F'' hF hF' hF'' e using hstep
    have t := hEv u F hF t0
    have t' := hEv _ F' hF' (st1 t0 t)
    have t'' := hEv _ F'' hF'' (st (1 / 4) (st (1 / 4) t0 t) t')
    refine ⟨fun a => (1 / 6 : ℝ) • F a + (1 / 6 : ℝ) • F' a + (2 / 3 : ℝ) • F'' a, fun a i hi => ?_, fun d hd => ?_⟩
    · rw [hu₁ a i hi, e, latDiv_add, latDiv_add, latDiv_smul, latDiv_smul, latDiv_smul]
      simp only [Pi.add_apply, Pi.smul_apply]
      module
    · exact ((((t d hd).smul (1 / 6)).add ((t' d hd).smul (1 / 6))).add ((t'' d hd).smul (2 / 3))).congr (fun a i _ => rfl)
        fun k _ => by module
  | rk4 =>
    choose F F' F'' F3 hF hF' hF'' hF3 e using hstep
    have t := hEv u F hF t0
    have t' := hEv _ F' hF' (st (1 / 2) t0 t)
    have t'' := hEv _ F'' hF'' (st (1 / 2) t0 t')
    have t3 := hEv _ F3 hF3 (st1 t0 t'')
    refine ⟨fun a => (1 / 6 : ℝ) • F a + (1 / 3 : ℝ) • F' a + (1 / 3 : ℝ) • F'' a + (1 / 6 : ℝ) • F3 a, fun a i hi => ?_,
      fun d hd => ?_⟩
    · rw [hu₁ a i hi, e, latDiv_add, latDiv_add, latDiv_add, latDiv_smul, latDiv_smul, latDiv_smul, latDiv_smul]
      simp only [Pi.add_apply, Pi.smul_apply]
      module
    · exact (((((t d hd).smul (1 / 6)).add ((t' d hd).smul (1 / 3))).add ((t'' d hd).smul (1 / 3))).add
        ((t3 d hd).smul (1 / 6))).congr (fun a i _ => rfl) fun k _ => by module

end

end FVHOE
