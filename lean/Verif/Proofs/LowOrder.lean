import Mathlib.Tactic.Module
import Verif.Proofs.SolverFlux

/-!
Degrees 0 and 1: the centre and transverse interpolations do nothing.
-/

set_option linter.unusedSectionVars false

namespace FVHOE

variable {K : Type} [Field K] [LinearOrder K] [IsStrictOrderedRing K] {V : Type} [AddCommGroup V] [Module K V]

theorem low_cases {p : ℕ} (h : p ≤ 1) : p = 0 ∨ p = 1 := by omega

theorem latC_low {p : ℕ} (h : p ≤ 1) (d : Fin 3) (Φ : Ix → V) : latC K p d Φ = Φ := by
  funext i
  rcases low_cases h with rfl | rfl
  · have e : wts (conservativeWeights 0 "c") = [1] := by decide +kernel
    unfold latC lsweep
    rw [e]
    simp [wsum, ceilHalf]
  · have e : wts (conservativeWeights 1 "c") = [0, 1, 0] := by decide +kernel
    unfold latC lsweep
    rw [e]
    simp [wsum, ceilHalf]

theorem latT_low {p : ℕ} (h : p ≤ 1) (d : Fin 3) (Φ : Ix → V) : latT K p d Φ = Φ := by
  funext i
  rcases low_cases h with rfl | rfl
  · have e : wts (transverseWeights 0) = [1] := by decide +kernel
    unfold latT lsweep
    rw [e]
    simp [wsum, ceilHalf]
  · have e : wts (transverseWeights 1) = [0, 1, 0] := by decide +kernel
    unfold latT lsweep
    rw [e]
    simp [wsum, ceilHalf]

theorem latL_zero (d : Fin 3) (Φ : Ix → V) : latL K 0 d Φ = Φ := by
  funext i
  have e : wts (conservativeWeights 0 "l") = [1] := by decide +kernel
  unfold latL lsweep
  rw [e]
  simp [wsum, ceilHalf]

theorem latR_zero (d : Fin 3) (Φ : Ix → V) : latR K 0 d Φ = Φ := by
  funext i
  have e : wts (conservativeWeights 0 "r") = [1] := by decide +kernel
  unfold latR lsweep
  rw [e]
  simp [wsum, ceilHalf]

theorem latL_one (d : Fin 3) (Φ : Ix → V) (i : Ix) :
    latL K 1 d Φ i = (1 / 4 : K) • Φ (i - Pi.single d 1) + Φ i - (1 / 4 : K) • Φ (i + Pi.single d 1) := by
  have e : wts (conservativeWeights 1 "l") = [1 / 4, 1, -1 / 4] := by decide +kernel
  have e1 : i + Pi.single d (-1) = i - Pi.single d 1 := by rw [Pi.single_neg, sub_eq_add_neg]
  have h0 : ((-1 / 4 : ℚ) : K) = -(1 / 4) := by norm_num
  have h1 : ((1 / 4 : ℚ) : K) = 1 / 4 := by norm_num
  unfold latL lsweep
  rw [e]
  simp only [wsum, ceilHalf]
  norm_num [e1]
  module

theorem latR_one (d : Fin 3) (Φ : Ix → V) (i : Ix) :
    latR K 1 d Φ i = -((1 / 4 : K) • Φ (i - Pi.single d 1)) + Φ i + (1 / 4 : K) • Φ (i + Pi.single d 1) := by
  have e : wts (conservativeWeights 1 "r") = [-1 / 4, 1, 1 / 4] := by decide +kernel
  have e1 : i + Pi.single d (-1) = i - Pi.single d 1 := by rw [Pi.single_neg, sub_eq_add_neg]
  unfold latR lsweep
  rw [e]
  simp only [wsum, ceilHalf]
  norm_num [e1]
  module

theorem latPrim_low (prim : V → V) {p : Fin 3 → ℕ} (hp : ∀ d, p d ≤ 1) (Φ : Ix → V) :
    latPrim K prim p Φ = fun i => prim (Φ i) := by
  unfold latPrim latCenters
  rw [latC_low (hp _), latC_low (hp _), latC_low (hp _), latT_low (hp _), latT_low (hp _), latT_low (hp _)]

theorem latFlux_low (riem : V → V → V) {p : Fin 3 → ℕ} (hp : ∀ d, p d ≤ 1) (slope : Option (V → V → V))
    (d : Fin 3) (W : Ix → V) : latFlux K riem p slope d W = fun i =>
      riem (latFaceR K (p d) d slope W (i - Pi.single d 1)) (latFaceL K (p d) d slope W i) := by
  unfold latFlux latMid latLine
  rw [latC_low (hp _), latC_low (hp _), latT_low (hp _), latT_low (hp _)]

theorem latFlux_zero (riem : V → V → V) {p : Fin 3 → ℕ} (hp : ∀ d, p d = 0) (d : Fin 3) (W : Ix → V) :
    latFlux K riem p none d W = fun i => riem (W (i - Pi.single d 1)) (W i) := by
  rw [latFlux_low riem (fun d => by rw [hp]; omega)]
  unfold latFaceL latFaceR
  dsimp only
  rw [hp, latR_zero, latL_zero]

end FVHOE
