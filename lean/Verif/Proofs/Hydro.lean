import Mathlib.Tactic.Linarith
import Mathlib.Tactic.LinearCombination
import Mathlib.Tactic.Ring
import Mathlib.Tactic.FieldSimp
import Mathlib.Tactic.Positivity
import Mathlib.Tactic.FinCases
import Mathlib.Algebra.Order.Field.Basic
import Verif.Model.Riemann
import Verif.Spec.Gas

/-! Helper lemmas on the gas model. -/

set_option linter.unusedSectionVars false

namespace FVHOE

variable {K : Type} [Field K] [LinearOrder K] [IsStrictOrderedRing K] {np : ℕ}

theorem foldl_max_spec (l : List K) (x : K) :
    l.foldl max x ∈ x :: l ∧ x ≤ l.foldl max x ∧ ∀ y ∈ l, y ≤ l.foldl max x := by
  induction l generalizing x with
  | nil => simp
  | cons a l ih =>
    obtain ⟨h1, h2, h3⟩ := ih (max x a)
    refine ⟨?_, le_trans (le_max_left _ _) h2, ?_⟩
    · rw [List.foldl_cons]
      rcases List.mem_cons.1 h1 with h | h
      · rw [h]
        rcases max_choice x a with h' | h' <;> rw [h'] <;> simp
      · simp [h]
    · intro y hy
      rw [List.foldl_cons]
      rcases List.mem_cons.1 hy with rfl | h
      · exact le_trans (le_max_right _ _) h2
      · exact h3 y h

theorem npMax_spec (l : List K) (h : l ≠ []) :
    ∃ m, npMax l = .ok m ∧ m ∈ l ∧ ∀ y ∈ l, y ≤ m := by
  cases l with
  | nil => exact absurd rfl h
  | cons x xs =>
    obtain ⟨h1, h2, h3⟩ := foldl_max_spec xs x
    refine ⟨_, rfl, h1, ?_⟩
    intro y hy
    rcases List.mem_cons.1 hy with rfl | h
    · exact h2
    · exact h3 y h

theorem mem_indexList (s : Fin 3 → ℕ) (j : Ix) :
    j ∈ indexList s ↔ ∀ d, 0 ≤ j d ∧ j d < s d := by
  unfold indexList
  simp only [List.mem_flatMap, List.mem_range, List.mem_map]
  constructor
  · rintro ⟨a, ha, b, hb, c, hc, rfl⟩ d
    fin_cases d <;> simp <;> assumption
  · intro h
    have h0 := h 0
    have h1 := h 1
    have h2 := h 2
    refine ⟨(j 0).toNat, by omega, (j 1).toNat, by omega, (j 2).toNat, by omega, ?_⟩
    funext d
    fin_cases d <;> simp <;> omega

/-- The floored sound speed. -/
theorem soundSpeed_spec (G : Gas K) (hG : IsSqrt G.sqrt) (hf : 0 < G.csqFloor) (w : State K np) :
    0 < soundSpeed G w ∧
      soundSpeed G w ^ 2 = max (G.gamma * w .en / w .rho) G.csqFloor := by
  have hm : (if G.gamma * w .en / w .rho > G.csqFloor then G.gamma * w .en / w .rho
      else G.csqFloor) = max (G.gamma * w .en / w .rho) G.csqFloor := by
    split
    · rename_i h
      exact (max_eq_left (le_of_lt h)).symm
    · rename_i h
      exact (max_eq_right (not_lt.1 h)).symm
  have hpos : 0 < max (G.gamma * w .en / w .rho) G.csqFloor := lt_of_lt_of_le hf (le_max_right _ _)
  obtain ⟨h1, h2⟩ := hG _ (le_of_lt hpos)
  unfold soundSpeed
  simp only [hm]
  refine ⟨?_, by rw [pow_two, h2]⟩
  rcases lt_or_eq_of_le h1 with h | h
  · exact h
  · rw [← h] at h2
    simp at h2
    exact absurd h2.symm (ne_of_gt hpos)

theorem soundSpeed_unique (G : Gas K) (hG : IsSqrt G.sqrt) (hf : 0 < G.csqFloor) (w : State K np)
    (c : K) (hc : IsSoundSpeed G w c) : c = soundSpeed G w := by
  obtain ⟨h1, h2⟩ := soundSpeed_spec G hG hf w
  obtain ⟨h3, h4⟩ := hc
  have : c ^ 2 = soundSpeed G w ^ 2 := by rw [h2, h4]
  exact (pow_left_inj₀ h3 (le_of_lt h1) (by norm_num)).1 this

theorem conservatives_eq (gamma : K) (w : State K np) :
    computeConservatives gamma w = conserved gamma w := by
  funext i
  cases i <;> simp only [computeConservatives, conserved, totalEnergy, sum3]
  ring

theorem fluxes_eq (gamma : K) (d : Fin 3) (w : State K np) :
    computeFluxes w (computeConservatives gamma w) d true = eulerFlux gamma d w := by
  rw [conservatives_eq]
  funext i
  cases i with
  | rho => simp only [computeFluxes, eulerFlux]; ring
  | mom e =>
    simp only [computeFluxes, eulerFlux, conserved, true_and]
    split <;> ring
  | en =>
    simp only [computeFluxes, eulerFlux, conserved, if_true]
    ring
  | ps j => simp only [computeFluxes, eulerFlux, conserved]; ring

theorem fluxes_noP_eq (gamma : K) (d : Fin 3) (w : State K np) :
    computeFluxes w (computeConservatives gamma w) d false = carriedFlux gamma d w := by
  rw [conservatives_eq]
  funext i
  cases i <;> simp [computeFluxes, carriedFlux, conserved]

end FVHOE
