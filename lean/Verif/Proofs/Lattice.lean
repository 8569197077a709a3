import Mathlib.Tactic.Abel
import Mathlib.Algebra.BigOperators.Intervals
import Verif.Proofs.SolverFlux

/-! Algebra of the lattice operators: shifts, linear maps, constants, locality. -/

set_option linter.unusedSectionVars false

namespace FVHOE

variable {K : Type} [Field K] [LinearOrder K] [IsStrictOrderedRing K]
variable {V : Type} [AddCommGroup V] [Module K V] {W : Type} [AddCommGroup W] [Module K W]

/-! ### Shifts -/

theorem lsweep_shift (d : Fin 3) (r : ℤ) (ws : List ℚ) (Φ : Ix → V) (v : Ix) :
    lsweep K d r ws (fun i => Φ (i + v)) = fun i => lsweep K d r ws Φ (i + v) := by
  funext i
  unfold lsweep
  apply wsum_congr
  intro k
  rw [add_right_comm]

theorem latC_shift (p : ℕ) (d : Fin 3) (Φ : Ix → V) (v : Ix) :
    latC K p d (fun i => Φ (i + v)) = fun i => latC K p d Φ (i + v) := lsweep_shift ..

theorem latL_shift (p : ℕ) (d : Fin 3) (Φ : Ix → V) (v : Ix) :
    latL K p d (fun i => Φ (i + v)) = fun i => latL K p d Φ (i + v) := lsweep_shift ..

theorem latR_shift (p : ℕ) (d : Fin 3) (Φ : Ix → V) (v : Ix) :
    latR K p d (fun i => Φ (i + v)) = fun i => latR K p d Φ (i + v) := lsweep_shift ..

theorem latT_shift (p : ℕ) (d : Fin 3) (Φ : Ix → V) (v : Ix) :
    latT K p d (fun i => Φ (i + v)) = fun i => latT K p d Φ (i + v) := lsweep_shift ..

theorem latCenters_shift (p : Fin 3 → ℕ) (Φ : Ix → V) (v : Ix) :
    latCenters K p (fun i => Φ (i + v)) = fun i => latCenters K p Φ (i + v) := by
  unfold latCenters
  rw [latC_shift, latC_shift, latC_shift]

theorem latPrim_shift (prim : V → V) (p : Fin 3 → ℕ) (Φ : Ix → V) (v : Ix) :
    latPrim K prim p (fun i => Φ (i + v)) = fun i => latPrim K prim p Φ (i + v) := by
  unfold latPrim
  rw [latCenters_shift, latT_shift (Φ := fun i => prim (latCenters K p Φ i)), latT_shift, latT_shift]

theorem latSlope_shift (d : Fin 3) (s : V → V → V) (Φ : Ix → V) (v : Ix) :
    latSlope d s (fun i => Φ (i + v)) = fun i => latSlope d s Φ (i + v) := by
  funext i
  unfold latSlope
  beta_reduce
  rw [add_right_comm i _ v, show i - Pi.single d 1 + v = i + v - Pi.single d 1 by abel]

theorem latFaceL_shift (p : ℕ) (d : Fin 3) (slope : Option (V → V → V)) (Φ : Ix → V) (v : Ix) :
    latFaceL K p d slope (fun i => Φ (i + v)) = fun i => latFaceL K p d slope Φ (i + v) := by
  unfold latFaceL
  cases slope with
  | none => exact latL_shift ..
  | some s =>
    simp only [latSlope_shift]
    split
    · rfl
    · exact latL_shift ..

theorem latFaceR_shift (p : ℕ) (d : Fin 3) (slope : Option (V → V → V)) (Φ : Ix → V) (v : Ix) :
    latFaceR K p d slope (fun i => Φ (i + v)) = fun i => latFaceR K p d slope Φ (i + v) := by
  unfold latFaceR
  cases slope with
  | none => exact latR_shift ..
  | some s =>
    simp only [latSlope_shift]
    split
    · rfl
    · exact latR_shift ..

theorem latMid_shift (riem : V → V → V) (p : Fin 3 → ℕ) (slope : Option (V → V → V)) (d : Fin 3)
    (Φ : Ix → V) (v : Ix) :
    latMid K riem p slope d (fun i => Φ (i + v)) = fun i => latMid K riem p slope d Φ (i + v) := by
  unfold latMid latLine
  rw [latC_shift, latC_shift, latFaceL_shift, latFaceR_shift]
  funext i
  beta_reduce
  rw [show i - Pi.single d 1 + v = i + v - Pi.single d 1 by abel]

theorem latFlux_shift (riem : V → V → V) (p : Fin 3 → ℕ) (slope : Option (V → V → V)) (d : Fin 3)
    (Φ : Ix → V) (v : Ix) :
    latFlux K riem p slope d (fun i => Φ (i + v)) = fun i => latFlux K riem p slope d Φ (i + v) := by
  unfold latFlux
  rw [latMid_shift, latT_shift, latT_shift]

theorem schemeFlux_shift (S : Scheme K V) (p : Fin 3 → ℕ) (slope : Option (V → V → V)) (U : Ix → V)
    (d : Fin 3) (v : Ix) :
    schemeFlux S p slope (fun i => U (i + v)) d = fun i => schemeFlux S p slope U d (i + v) := by
  unfold schemeFlux
  rw [latPrim_shift, latFlux_shift]

theorem latDiv_shift (act : Fin 3 → Bool) (h : Fin 3 → K) (F : Fin 3 → Ix → V) (v : Ix) :
    latDiv act h (fun d i => F d (i + v)) = fun i => latDiv act h F (i + v) := by
  funext i
  unfold latDiv
  refine Finset.sum_congr rfl fun d _ => ?_
  rw [add_right_comm]

/-! ### Periodic continuation -/

theorem extAll_wrap (n : Fin 3 → ℕ) (hn : ∀ d, 1 ≤ n d) (u : Ix → V) :
    extAll n (fun _ => .wrap) (fun _ => .wrap) u = fun i => u fun d => i d % n d := by
  have key : ∀ (d : Fin 3) (Φ : Ix → V) (i : Ix),
      extAxis (n d) d .wrap .wrap Φ i = Φ (Function.update i d (i d % (n d : ℤ))) := by
    intro d Φ i
    unfold extAxis
    have := hn d
    split_ifs with h1 h2
    · rfl
    · rfl
    · rw [Int.emod_eq_of_lt (by omega) (by omega)]
      simp
  funext i
  unfold extAll
  rw [key, key, key]
  congr 1
  funext d
  match d with
  | 0 => simp
  | 1 => simp
  | 2 => simp

/-- The continuation repeats with the number of cells. -/
theorem wrap_period (n : Fin 3 → ℕ) (u : Ix → V) (d : Fin 3) :
    (fun i : Ix => (fun i : Ix => u fun d => i d % n d) (i + Pi.single d (n d : ℤ))) =
      fun i => u fun d => i d % n d := by
  funext i
  beta_reduce
  congr 1
  funext e
  by_cases h : e = d
  · subst h; simp
  · simp [h]

/-! ### Linear maps, constants and submodules -/

theorem lsweep_map (l : V →ₗ[K] W) (d : Fin 3) (r : ℤ) (ws : List ℚ) (Φ : Ix → V) (i : Ix) :
    l (lsweep K d r ws Φ i) = lsweep K d r ws (fun i => l (Φ i)) i := wsum_map ..

theorem lsweep_congr (d : Fin 3) (r : ℕ) (ws : List ℚ) (hl : ws.length ≤ 2 * r + 1) (Φ Ψ : Ix → V)
    (i : Ix) (h : ∀ k, -(r : ℤ) ≤ k → k ≤ r → Φ (i + Pi.single d k) = Ψ (i + Pi.single d k)) :
    lsweep K d r ws Φ i = lsweep K d r ws Ψ i := by
  unfold lsweep
  exact wsum_congr' _ _ fun k h1 h2 => h k h1 (by omega)

theorem wts_c_len {p : ℕ} (hp : p ≤ 8) (pos : String) (hpos : pos = "l" ∨ pos = "c" ∨ pos = "r") :
    (wts (conservativeWeights p pos)).length = 2 * ceilHalf p + 1 := by
  obtain ⟨ws, h1, h2⟩ := weights_len_c hp pos hpos
  rw [h1]; exact h2

theorem wts_t_len {p : ℕ} (hp : p ≤ 8) : (wts (transverseWeights p)).length = 2 * ceilHalf p + 1 := by
  obtain ⟨ws, h1, h2⟩ := weights_len_t hp
  rw [h1]; exact h2

theorem wts_sum {p : ℕ} (hp : p ≤ 8) : (wts (conservativeWeights p "l")).sum = 1 ∧
    (wts (conservativeWeights p "c")).sum = 1 ∧ (wts (conservativeWeights p "r")).sum = 1 ∧
    (wts (transverseWeights p)).sum = 1 := by
  interval_cases p <;> decide +kernel

theorem lsweep_const (d : Fin 3) (r : ℤ) (ws : List ℚ) (h : ws.sum = 1) (c : V) :
    lsweep K d r ws (fun _ => c) = fun _ => c := by
  funext i
  unfold lsweep
  rw [wsum_const, h]
  simp

theorem lsweep_mem (S : Submodule K V) (d : Fin 3) (r : ℤ) (ws : List ℚ) (Φ : Ix → V)
    (h : ∀ i, Φ i ∈ S) (i : Ix) : lsweep K d r ws Φ i ∈ S := by
  unfold lsweep
  have : ∀ (ws : List ℚ) (s : ℤ), wsum K ws s (fun k => Φ (i + Pi.single d k)) ∈ S := by
    intro ws
    induction ws with
    | nil => intro s; exact S.zero_mem
    | cons w ws ih => intro s; exact S.add_mem (S.smul_mem _ (h _)) (ih _)
  exact this _ _

end FVHOE
