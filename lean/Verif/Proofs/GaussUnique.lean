import Verif.Proofs.Scenarios
import Mathlib.Algebra.Polynomial.Roots

/-!
A rule with `n` nodes that is exact for degree `2 n - 1` is unique, hence symmetric.
-/

set_option linter.unusedSectionVars false

namespace FVHOE

open Polynomial

/-- The polynomial that vanishes at the nodes. -/
noncomputable def nodal (R : List (ℝ × ℝ)) : ℝ[X] := (R.map fun y => X - C y.1).prod

theorem nodal_eval {R : List (ℝ × ℝ)} {y : ℝ × ℝ} (hy : y ∈ R) : (nodal R).eval y.1 = 0 := by
  unfold nodal
  rw [eval_list_prod]
  refine List.prod_eq_zero ?_
  rw [List.map_map, List.mem_map]
  exact ⟨y, hy, by simp⟩

theorem nodal_root {R : List (ℝ × ℝ)} {x : ℝ} (h : (nodal R).eval x = 0) : ∃ w, (x, w) ∈ R := by
  unfold nodal at h
  rw [eval_list_prod, List.prod_eq_zero_iff, List.map_map, List.mem_map] at h
  obtain ⟨y, hy, e⟩ := h
  simp only [Function.comp, eval_sub, eval_X, eval_C] at e
  exact ⟨y.2, by rw [sub_eq_zero.1 e]; exact hy⟩

/-- The nodal polynomial is orthogonal to polynomials of smaller degree. -/
theorem IsGauss.orthogonal {n : ℕ} {R : List (ℝ × ℝ)} (h : IsGauss n R) (S d : ℝ[X]) (hS : S.derivative = nodal R * d)
    (hdeg : S.natDegree ≤ 2 * n) : S.eval 1 = S.eval (-1) := by
  have := h.2 S hdeg
  rw [List.sum_eq_zero] at this
  · linarith
  · intro z hz
    obtain ⟨y, hy, rfl⟩ := List.mem_map.1 hz
    rw [hS, eval_mul, nodal_eval hy]
    simp

theorem IsGauss.nodal_unique {n : ℕ} (hn : 1 ≤ n) {R R' : List (ℝ × ℝ)} (h : IsGauss n R) (h' : IsGauss n R') :
    nodal R = nodal R' := by
  obtain ⟨m1, d1⟩ := nodal_list R
  obtain ⟨m2, d2⟩ := nodal_list R'
  change (nodal R).Monic at m1
  change (nodal R).natDegree = _ at d1
  change (nodal R').Monic at m2
  change (nodal R').natDegree = _ at d2
  rw [h.1] at d1
  rw [h'.1] at d2
  by_contra hne
  obtain ⟨d, hd⟩ : ∃ d, d = nodal R - nodal R' := ⟨_, rfl⟩
  have hd0 : d ≠ 0 := by rw [hd]; exact sub_ne_zero.2 hne
  have hdd : d.natDegree < n := by
    have : d.degree < (nodal R).degree := by
      rw [hd]
      refine degree_sub_lt_left ?_ m1.ne_zero (by rw [m1.leadingCoeff, m2.leadingCoeff])
      rw [degree_eq_natDegree m1.ne_zero, degree_eq_natDegree m2.ne_zero, d1, d2]
    rw [← d1]
    exact natDegree_lt_natDegree hd0 this
  have hprod : ∀ q : ℝ[X], q.natDegree = n → (q * d).natDegree ≤ 2 * n - 1 := fun q hq =>
    natDegree_mul_le.trans (by omega)
  obtain ⟨S1, k1, e1⟩ := exists_primitive (nodal R * d) _ (hprod _ d1)
  obtain ⟨S2, k2, e2⟩ := exists_primitive (nodal R' * d) _ (hprod _ d2)
  have f1 := h.orthogonal S1 d e1 (by omega)
  have f2 := h'.orthogonal S2 d e2 (by omega)
  have := eval_lt_of_derivative (S1 - S2) d (by rw [derivative_sub, e1, e2, ← sub_mul, ← hd, sq]) hd0
  rw [eval_sub, eval_sub] at this
  linarith

/-- The value of the rule at the square of the nodal polynomial of the other nodes. -/
theorem IsGauss.weight {n : ℕ} {l r : List (ℝ × ℝ)} {xw : ℝ × ℝ} (h : IsGauss n (l ++ xw :: r)) (S : ℝ[X])
    (hS' : S.derivative = nodal (l ++ r) ^ 2) (hS : S.natDegree ≤ 2 * n) :
    xw.2 * (nodal (l ++ r)).eval xw.1 ^ 2 = S.eval 1 - S.eval (-1) := by
  have h1 := h.2 S hS
  have hzero : ∀ y ∈ l ++ r, y.2 * S.derivative.eval y.1 = 0 := by
    intro y hy
    rw [hS', eval_pow, nodal_eval hy]
    simp
  have hl : (l.map fun y => y.2 * S.derivative.eval y.1).sum = 0 :=
    List.sum_eq_zero (by
      intro z hz
      obtain ⟨y, hy, rfl⟩ := List.mem_map.1 hz
      exact hzero y (List.mem_append_left _ hy))
  have hr : (r.map fun y => y.2 * S.derivative.eval y.1).sum = 0 :=
    List.sum_eq_zero (by
      intro z hz
      obtain ⟨y, hy, rfl⟩ := List.mem_map.1 hz
      exact hzero y (List.mem_append_right _ hy))
  rw [List.map_append, List.map_cons, List.sum_append, List.sum_cons, hl, hr, zero_add, add_zero, hS', eval_pow] at h1
  exact h1

theorem nodal_split (l r : List (ℝ × ℝ)) (xw : ℝ × ℝ) : nodal (l ++ xw :: r) = (X - C xw.1) * nodal (l ++ r) := by
  unfold nodal
  rw [List.map_append, List.map_cons, List.prod_append, List.prod_cons, List.map_append, List.prod_append]
  ring

theorem IsGauss.split {n : ℕ} {l r : List (ℝ × ℝ)} {xw : ℝ × ℝ} (h : IsGauss n (l ++ xw :: r)) :
    ∃ I, 0 < I ∧ xw.2 * (nodal (l ++ r)).eval xw.1 ^ 2 = I ∧ ∀ l' r' : List (ℝ × ℝ), ∀ w,
      IsGauss n (l' ++ (xw.1, w) :: r') → nodal (l' ++ r') = nodal (l ++ r) → w * (nodal (l ++ r)).eval xw.1 ^ 2 = I := by
  obtain ⟨hmon, hdeg⟩ := nodal_list (l ++ r)
  change (nodal (l ++ r)).Monic at hmon
  change (nodal (l ++ r)).natDegree = _ at hdeg
  have hlen : (l ++ r).length + 1 = n := by
    have := h.1; simp at this ⊢; omega
  obtain ⟨S, hS, hS'⟩ := exists_primitive (nodal (l ++ r) ^ 2) (2 * (l ++ r).length)
    (natDegree_pow_le.trans (by rw [hdeg]))
  refine ⟨_, sub_pos.2 (eval_lt_of_derivative S _ hS' hmon.ne_zero), h.weight S hS' (by omega), fun l' r' w hw e => ?_⟩
  have := hw.weight S (by rw [hS', e]) (by omega)
  rw [e] at this
  exact this

/-- The nodes are different. -/
theorem IsGauss.nodup {n : ℕ} {R : List (ℝ × ℝ)} (h : IsGauss n R) : R.Nodup := by
  rw [List.nodup_iff_count_le_one]
  intro xw
  by_cases hxw : xw ∈ R
  · obtain ⟨l, r, rfl⟩ := List.append_of_mem hxw
    obtain ⟨I, hI, e, -⟩ := h.split
    have hnot : xw ∉ l ++ r := by
      intro hm
      rw [nodal_eval hm] at e
      simp at e
      exact hI.ne e
    have hl : xw ∉ l := fun hm => hnot (List.mem_append_left _ hm)
    have hr : xw ∉ r := fun hm => hnot (List.mem_append_right _ hm)
    rw [List.count_append, List.count_cons_self, List.count_eq_zero_of_not_mem hl, List.count_eq_zero_of_not_mem hr]
  · rw [List.count_eq_zero_of_not_mem hxw]
    omega

/-- **The rule is unique** up to the order of the nodes. -/
theorem IsGauss.unique {n : ℕ} (hn : 1 ≤ n) {R R' : List (ℝ × ℝ)} (h : IsGauss n R) (h' : IsGauss n R') : R.Perm R' := by
  have hq := h.nodal_unique hn h'
  refine (h.nodup.subperm fun xw hxw => ?_).perm_of_length_le (by rw [h.1, h'.1])
  have h0 : (nodal R').eval xw.1 = 0 := by rw [← hq]; exact nodal_eval hxw
  obtain ⟨w, hw⟩ := nodal_root h0
  obtain ⟨l, r, rfl⟩ := List.append_of_mem hxw
  obtain ⟨l', r', rfl⟩ := List.append_of_mem hw
  obtain ⟨I, hI, e1, e2⟩ := h.split
  have hn' : nodal (l' ++ r') = nodal (l ++ r) := by
    rw [nodal_split, nodal_split] at hq
    exact (mul_left_cancel₀ (X_sub_C_ne_zero xw.1) hq).symm
  have e3 := e2 l' r' w h' hn'
  have hne : (nodal (l ++ r)).eval xw.1 ^ 2 ≠ 0 := by
    intro e0
    rw [e0, mul_zero] at e1
    exact hI.ne e1
  have : w = xw.2 := mul_right_cancel₀ hne (e3.trans e1.symm)
  subst this
  exact hw

/-- Reversed nodes. -/
theorem IsGauss.reversed {n : ℕ} {R : List (ℝ × ℝ)} (h : IsGauss n R) :
    IsGauss n (R.map fun xw => (-xw.1, xw.2)) := by
  refine ⟨by rw [List.length_map, h.1], fun S hS => ?_⟩
  have e := h.2 (-(S.comp (-X))) (by rw [natDegree_neg, natDegree_comp, natDegree_neg, natDegree_X, mul_one]; exact hS)
  rw [List.map_map]
  simp only [derivative_neg, derivative_comp, derivative_X, eval_neg, eval_comp, eval_X, eval_mul, eval_one, neg_neg] at e
  rw [show S.eval 1 - S.eval (-1) = -S.eval (-1) - -S.eval 1 by ring, ← e]
  refine congrArg List.sum (List.map_congr_left fun xw _ => ?_)
  simp only [Function.comp]
  ring

/-- **Symmetry** A rule that is exact as numpy promises has nodes symmetric about 0 with equal weights. -/
theorem IsGauss.symmetric {n : ℕ} (hn : 1 ≤ n) {R : List (ℝ × ℝ)} (h : IsGauss n R) :
    (R.map fun xw => (-xw.1, xw.2)).Perm R := h.reversed.unique hn h

end FVHOE
