import Mathlib.Algebra.Polynomial.Derivative
import Mathlib.Algebra.Polynomial.Eval.Degree
import Mathlib.Algebra.Polynomial.Eval.SMul
import Mathlib.Algebra.Polynomial.Degree.Lemmas
import Mathlib.Algebra.BigOperators.Fin
import Mathlib.Data.Rat.Cast.CharZero
import Mathlib.Tactic.FieldSimp
import Mathlib.Tactic.Ring
import Mathlib.Tactic.LinearCombination
import Mathlib.Tactic.NormNum
import Mathlib.Tactic.IntervalCases
import Verif.Proofs.Arr

/-!
Facts about the weight tables: length, moments, symmetry; linearity of weighted sums.
-/

set_option linter.unusedSectionVars false

namespace FVHOE

variable {K : Type} [Field K] [CharZero K] {V : Type} [AddCommGroup V] [Module K V]

/-- Stencil radius `⌈p/2⌉`. -/
def rad (p : ℕ) : ℕ := (p + 1) / 2

theorem wsum_add (ws : List ℚ) (s : ℤ) (f g : ℤ → V) :
    wsum K ws s (fun k => f k + g k) = wsum K ws s f + wsum K ws s g := by
  induction ws generalizing s with
  | nil => simp [wsum]
  | cons w ws ih => simp only [wsum, ih, smul_add]; abel

theorem wsum_smul (ws : List ℚ) (s : ℤ) (c : K) (f : ℤ → V) :
    wsum K ws s (fun k => c • f k) = c • wsum K ws s f := by
  induction ws generalizing s with
  | nil => simp [wsum]
  | cons w ws ih => simp only [wsum, ih, smul_add, smul_comm c (w : K)]

theorem wsum_zero (ws : List ℚ) (s : ℤ) : wsum K ws s (fun _ => (0 : V)) = 0 := by
  induction ws generalizing s with
  | nil => simp [wsum]
  | cons w ws ih => simp [wsum, ih]

theorem wsum_sum {ι : Type} (t : Finset ι) (ws : List ℚ) (s : ℤ) (f : ι → ℤ → V) :
    wsum K ws s (fun k => ∑ a ∈ t, f a k) = ∑ a ∈ t, wsum K ws s (f a) := by
  classical
  induction t using Finset.induction_on with
  | empty => simp [wsum_zero]
  | insert a t ha ih => simp only [Finset.sum_insert ha, wsum_add, ih]

theorem wsum_congr (ws : List ℚ) (s : ℤ) {f g : ℤ → V} (h : ∀ k, f k = g k) :
    wsum K ws s f = wsum K ws s g := by
  have : f = g := funext h
  rw [this]

theorem wsum_congr' (ws : List ℚ) (s : ℤ) {f g : ℤ → V}
    (h : ∀ k, s ≤ k → k < s + ws.length → f k = g k) :
    wsum K ws s f = wsum K ws s g := by
  induction ws generalizing s with
  | nil => rfl
  | cons w ws ih =>
    simp only [wsum]
    rw [h s le_rfl (by simp), ih (s + 1)]
    intro k h1 h2
    exact h k (by omega) (by simp only [List.length_cons]; push_cast; omega)

theorem wsum_map {W : Type} [AddCommGroup W] [Module K W] (l : V →ₗ[K] W) (ws : List ℚ) (s : ℤ)
    (f : ℤ → V) : l (wsum K ws s f) = wsum K ws s (fun k => l (f k)) := by
  induction ws generalizing s with
  | nil => simp [wsum]
  | cons w ws ih => simp [wsum, ih]

theorem wsum_const (ws : List ℚ) (s : ℤ) (c : V) :
    wsum K ws s (fun _ => c) = ((ws.sum : ℚ) : K) • c := by
  induction ws generalizing s with
  | nil => simp [wsum]
  | cons w ws ih => simp only [wsum, ih, List.sum_cons, Rat.cast_add, add_smul]

theorem wsum_cast (ws : List ℚ) (s : ℤ) (f : ℤ → ℚ) :
    wsum K ws s (fun k => ((f k : ℚ) : K)) = ((wsum ℚ ws s f : ℚ) : K) := by
  induction ws generalizing s with
  | nil => simp [wsum]
  | cons w ws ih => simp [wsum, ih]

theorem wsum_shift (ws : List ℚ) (s t : ℤ) (f : ℤ → V) :
    wsum K ws (s + t) f = wsum K ws s (fun k => f (k + t)) := by
  induction ws generalizing s with
  | nil => simp [wsum]
  | cons w ws ih =>
    simp only [wsum]
    rw [← ih (s + 1)]
    congr 2
    omega

theorem wsum_append (ws vs : List ℚ) (s : ℤ) (f : ℤ → V) :
    wsum K (ws ++ vs) s f = wsum K ws s f + wsum K vs (s + ws.length) f := by
  induction ws generalizing s with
  | nil => simp [wsum]
  | cons w ws ih =>
    simp only [List.cons_append, wsum, ih, List.length_cons]
    have : s + 1 + (ws.length : ℤ) = s + ((ws.length + 1 : ℕ) : ℤ) := by push_cast; omega
    rw [this]
    abel

/-- Reversing the weights mirrors the function. -/
theorem wsum_reverse (ws : List ℚ) (s : ℤ) (f : ℤ → V) :
    wsum K ws.reverse s f = wsum K ws (1 - s - ws.length) (fun k => f (-k)) := by
  induction ws generalizing s with
  | nil => simp [wsum]
  | cons w ws ih =>
    rw [List.reverse_cons, wsum_append, ih]
    simp only [wsum, List.length_reverse, List.length_cons]
    rw [add_zero, add_comm]
    have e1 : s + (ws.length : ℤ) = -(1 - s - ((ws.length + 1 : ℕ) : ℤ)) := by push_cast; omega
    have e2 : 1 - s - (ws.length : ℤ) = 1 - s - ((ws.length + 1 : ℕ) : ℤ) + 1 := by
      push_cast; omega
    rw [e1, e2]

theorem wsum_eq_sum (ws : List ℚ) (s : ℤ) (f : ℤ → V) :
    wsum K ws s f = ∑ k : Fin ws.length, ((ws[k] : ℚ) : K) • f (s + (k : ℕ)) := by
  induction ws generalizing s with
  | nil => simp [wsum]
  | cons w ws ih =>
    simp only [wsum, ih, List.length_cons, Fin.sum_univ_succ]
    congr 1
    · simp
    · apply Finset.sum_congr rfl
      intro k _
      simp only [Fin.getElem_fin, Fin.val_succ, List.getElem_cons_succ]
      congr 2
      push_cast
      omega

/-! ## Tables -/

theorem leftWeights_ok {p : ℕ} (hp : p ≤ 8) :
    ∃ ws, leftWeights p = .ok ws ∧ ws.length = 2 * rad p + 1 ∧
      ∀ m < p + 2, wsum ℚ ws (-(rad p : ℤ)) (fun k => (k + 1 / 2 : ℚ) ^ m - (k - 1 / 2 : ℚ) ^ m) =
        m * (-1 / 2) ^ (m - 1) := by
  interval_cases p <;> exact ⟨_, rfl, rfl, by decide +kernel⟩

theorem centerWeights_ok {p : ℕ} (hp : p ≤ 8) :
    ∃ ws, centerWeights p = .ok ws ∧ ws.length = 2 * rad p + 1 ∧ ws.reverse = ws ∧
      ∀ m < p + 2, wsum ℚ ws (-(rad p : ℤ)) (fun k => (k + 1 / 2 : ℚ) ^ m - (k - 1 / 2 : ℚ) ^ m) =
        m * 0 ^ (m - 1) := by
  interval_cases p <;> exact ⟨_, rfl, rfl, rfl, by decide +kernel⟩

theorem transverseWeights_ok {p : ℕ} (hp : p ≤ 8) :
    ∃ ws, transverseWeights p = .ok ws ∧ ws.length = 2 * rad p + 1 ∧ ws.reverse = ws ∧
      ∀ m < p + 2, wsum ℚ ws (-(rad p : ℤ)) (fun k => (m : ℚ) * (k : ℚ) ^ (m - 1)) =
        (1 / 2) ^ m - (-1 / 2) ^ m := by
  interval_cases p <;> exact ⟨_, rfl, rfl, rfl, by decide +kernel⟩

/-- A stencil that is right on the monomials is right on polynomials, on any uniform grid. -/
theorem exact_of_moments (p : ℕ) (ws : List ℚ) (s : ℤ) (y : ℚ)
    (h : ∀ m < p + 2, wsum ℚ ws s (fun k => (k + 1 / 2 : ℚ) ^ m - (k - 1 / 2 : ℚ) ^ m) =
        m * y ^ (m - 1))
    (P : Polynomial K) (hP : P.natDegree ≤ p + 1) (x₀ dx : K) (hdx : dx ≠ 0) :
    wsum K ws s (fun k => (P.eval (x₀ + (k + 1 / 2) * dx) - P.eval (x₀ + (k - 1 / 2) * dx)) / dx) =
      P.derivative.eval (x₀ + y * dx) := by
  -- normalised polynomial
  set Q : Polynomial K := P.comp (Polynomial.C dx * Polynomial.X + Polynomial.C x₀) with hQ
  have hQd : Q.natDegree < p + 2 := by
    have h1 : Q.natDegree ≤ P.natDegree * 1 :=
      le_trans Polynomial.natDegree_comp_le
        (Nat.mul_le_mul_left _ (Polynomial.natDegree_linear_le))
    omega
  have eQ : ∀ x : K, Q.eval x = P.eval (x₀ + x * dx) := by
    intro x; simp [hQ]; ring_nf
  have eQ' : ∀ x : K, Q.derivative.eval x = dx * P.derivative.eval (x₀ + x * dx) := by
    intro x
    simp [hQ, Polynomial.derivative_comp]
    left; ring_nf
  have key : wsum K ws s (fun k => Q.eval ((k : K) + 1 / 2) - Q.eval ((k : K) - 1 / 2)) =
      Q.derivative.eval (y : K) := by
    have hsum := Polynomial.as_sum_range' Q (p + 2) hQd
    have e1 : ∀ x : K, Q.eval x = ∑ i ∈ Finset.range (p + 2), Q.coeff i * x ^ i := by
      intro x; exact Polynomial.eval_eq_sum_range' hQd x
    have e2 : Q.derivative.eval (y : K) =
        ∑ i ∈ Finset.range (p + 2), Q.coeff i * (i * (y : K) ^ (i - 1)) := by
      conv_lhs => rw [hsum]
      rw [Polynomial.derivative_sum, Polynomial.eval_finset_sum]
      apply Finset.sum_congr rfl
      intro i _
      rw [Polynomial.derivative_monomial, Polynomial.eval_monomial]; ring
    rw [e2]
    have e3 : ∀ k : ℤ, Q.eval ((k : K) + 1 / 2) - Q.eval ((k : K) - 1 / 2) =
        ∑ i ∈ Finset.range (p + 2), Q.coeff i •
          ((((k : ℚ) + 1 / 2) ^ i - ((k : ℚ) - 1 / 2) ^ i : ℚ) : K) := by
      intro k
      rw [e1, e1, ← Finset.sum_sub_distrib]
      apply Finset.sum_congr rfl
      intro i _
      push_cast
      rw [smul_eq_mul]; ring
    rw [wsum_congr ws s e3, wsum_sum]
    apply Finset.sum_congr rfl
    intro i hi
    rw [wsum_smul, wsum_cast, h i (Finset.mem_range.1 hi), smul_eq_mul]
    push_cast
    ring
  have e4 : ∀ k : ℤ, (P.eval (x₀ + ((k : K) + 1 / 2) * dx) - P.eval (x₀ + ((k : K) - 1 / 2) * dx)) / dx
      = (1 / dx) • (Q.eval ((k : K) + 1 / 2) - Q.eval ((k : K) - 1 / 2)) := by
    intro k; rw [eQ, eQ, smul_eq_mul]; ring
  rw [wsum_congr ws s e4, wsum_smul, key, eQ', smul_eq_mul]
  field_simp

/-- The same for averages from point values. -/
theorem exact_avg_of_moments (p : ℕ) (ws : List ℚ) (s : ℤ)
    (h : ∀ m < p + 2, wsum ℚ ws s (fun k => (m : ℚ) * (k : ℚ) ^ (m - 1)) =
        (1 / 2) ^ m - (-1 / 2) ^ m)
    (P : Polynomial K) (hP : P.natDegree ≤ p + 1) (x₀ dx : K) (hdx : dx ≠ 0) :
    wsum K ws s (fun k => P.derivative.eval (x₀ + k * dx)) =
      (P.eval (x₀ + (1 / 2) * dx) - P.eval (x₀ - (1 / 2) * dx)) / dx := by
  set Q : Polynomial K := P.comp (Polynomial.C dx * Polynomial.X + Polynomial.C x₀) with hQ
  have hQd : Q.natDegree < p + 2 := by
    have h1 : Q.natDegree ≤ P.natDegree * 1 :=
      le_trans Polynomial.natDegree_comp_le
        (Nat.mul_le_mul_left _ (Polynomial.natDegree_linear_le))
    omega
  have eQ : ∀ x : K, Q.eval x = P.eval (x₀ + x * dx) := by
    intro x; simp [hQ]; ring_nf
  have eQ' : ∀ x : K, Q.derivative.eval x = dx * P.derivative.eval (x₀ + x * dx) := by
    intro x
    simp [hQ, Polynomial.derivative_comp]
    left; ring_nf
  have key : wsum K ws s (fun k => Q.derivative.eval (k : K)) =
      Q.eval (1 / 2) - Q.eval (-1 / 2) := by
    have hsum := Polynomial.as_sum_range' Q (p + 2) hQd
    have e1 : ∀ x : K, Q.eval x = ∑ i ∈ Finset.range (p + 2), Q.coeff i * x ^ i := by
      intro x; exact Polynomial.eval_eq_sum_range' hQd x
    have e2 : ∀ x : K, Q.derivative.eval x =
        ∑ i ∈ Finset.range (p + 2), Q.coeff i * (i * x ^ (i - 1)) := by
      intro x
      conv_lhs => rw [hsum]
      rw [Polynomial.derivative_sum, Polynomial.eval_finset_sum]
      apply Finset.sum_congr rfl
      intro i _
      rw [Polynomial.derivative_monomial, Polynomial.eval_monomial]; ring
    have e3 : ∀ k : ℤ, Q.derivative.eval (k : K) =
        ∑ i ∈ Finset.range (p + 2), Q.coeff i • (((i : ℚ) * (k : ℚ) ^ (i - 1) : ℚ) : K) := by
      intro k
      rw [e2]
      apply Finset.sum_congr rfl
      intro i _
      push_cast
      rw [smul_eq_mul]
    rw [wsum_congr ws s e3, wsum_sum, e1, e1, ← Finset.sum_sub_distrib]
    apply Finset.sum_congr rfl
    intro i hi
    rw [wsum_smul, wsum_cast, h i (Finset.mem_range.1 hi), smul_eq_mul]
    push_cast
    ring
  have e4 : ∀ k : ℤ, P.derivative.eval (x₀ + (k : K) * dx) = (1 / dx) • Q.derivative.eval (k : K) := by
    intro k; rw [eQ', smul_eq_mul]; field_simp
  rw [wsum_congr ws s e4, wsum_smul, key, eQ, eQ, smul_eq_mul]
  have : x₀ + -1 / 2 * dx = x₀ - 1 / 2 * dx := by ring
  rw [this]
  ring

end FVHOE
