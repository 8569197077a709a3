import Mathlib.Analysis.Calculus.Deriv.MeanValue
import Mathlib.Tactic.FinCases
import Verif.Model.Scenarios
import Verif.Props.C23
import Verif.Proofs.Positivity

/-! Lemmas on the built-in initial conditions and on averages of states in a cone. -/

set_option linter.unusedSectionVars false

namespace FVHOE

open Polynomial

variable {K : Type} [Field K] [LinearOrder K] [IsStrictOrderedRing K] {np : ℕ}

theorem writeVar_ok (rows : ℕ → Ix → K) (name : String) (f : Ix → K) (i : ℕ)
    (h : (baseEntries.foldl (fun m e => VarMap.set m e.1 e.2) (fun _ => none)) name = some (.row i)) :
    writeVar rows (name, f) = .ok fun r => if r = i then f else rows r := by
  unfold writeVar HydroState.init
  simp only [List.nodup_nil, not_true, if_false, ne_eq, bind, Except.bind, HydroState.sel, h]
  rfl

theorem writeVars_ok (rows : ℕ → Ix → K) (a b c d e : Ix → K) :
    writeVars rows [("rho", a), ("vx", b), ("vy", c), ("vz", d), ("P", e)] =
      .ok fun r => if r = 4 then e else if r = 3 then d else if r = 2 then c else if r = 1 then b else if r = 0 then a
        else rows r := by
  unfold writeVars
  simp only [List.foldlM, bind, Except.bind]
  rw [writeVar_ok _ "rho" a 0 (by decide)]
  simp only
  rw [writeVar_ok _ "vx" b 1 (by decide)]
  simp only
  rw [writeVar_ok _ "vy" c 2 (by decide)]
  simp only
  rw [writeVar_ok _ "vz" d 3 (by decide)]
  simp only
  rw [writeVar_ok _ "P" e 4 (by decide)]
  rfl

/-- A quadrature rule with at least one node and positive weights. -/
def PositiveRule (R : List (K × K)) : Prop := R ≠ [] ∧ ∀ xw ∈ R, 0 < xw.2

theorem IsCone.list_sum {C : State K np → Prop} (h : IsCone C) {α : Type} (l : List α) (hl : l ≠ []) (f : α → State K np)
    (hf : ∀ x ∈ l, C (f x)) : C (l.map f).sum := by
  induction l with
  | nil => exact absurd rfl hl
  | cons x l ih =>
    rw [List.map_cons, List.sum_cons]
    by_cases hn : l = []
    · subst hn
      simpa using hf x (by simp)
    · exact h.add _ _ (hf x (by simp)) (ih hn fun y hy => hf y (by simp [hy]))

theorem PositiveRule.half {gauss : ℕ → List (K × K)} {p : ℕ} (h : PositiveRule (gauss (p / 2 + 1))) :
    PositiveRule (legendreQuadrature gauss p) := by
  unfold legendreQuadrature
  rw [quadPoints_eq]
  refine ⟨by simpa using h.1, fun xw hxw => ?_⟩
  obtain ⟨y, hy, rfl⟩ := List.mem_map.1 hxw
  exact half_pos (h.2 y hy)

/-- Averages of states in a cone lie in the cone. -/
theorem IsCone.fvAverage {C : State K np → Prop} (hC : IsCone C) (gauss : ℕ → List (K × K)) (p : Fin 3 → ℕ)
    (hg : ∀ d, PositiveRule (gauss (p d / 2 + 1))) (f : Slab K → Arr (State K np)) (hf : ∀ m j, C ((f m).get j))
    (m : Slab K) (h : Fin 3 → K) (j : Ix) : C ((fvAverage gauss f m h p).get j) := by
  rw [(fvAverage_sum gauss f m h p).2 j]
  refine hC.list_sum _ (hg 0).half.1 _ fun x hx => hC.list_sum _ (hg 1).half.1 _ fun y hy =>
    hC.list_sum _ (hg 2).half.1 _ fun z hz => hC.smul _ _ ?_ (hf _ _)
  exact mul_pos (mul_pos ((hg 0).half.2 x hx) ((hg 1).half.2 y hy)) ((hg 2).half.2 z hz)

/-- The rule with one node. -/
theorem IsGauss.one {R : List (K × K)} (h : IsGauss 1 R) : R = [(0, 2)] := by
  obtain ⟨⟨x, w⟩, rfl⟩ := List.length_eq_one_iff.1 h.1
  have h1 := h.2 X (by simp)
  have h2 := h.2 (X ^ 2) (by simp)
  simp only [List.map_cons, List.map_nil, List.sum_cons, List.sum_nil, derivative_X, eval_one, eval_X, mul_one, add_zero,
    derivative_X_pow, eval_mul, eval_pow, eval_natCast, eval_C] at h1 h2
  have hw : w = 2 := by rw [h1]; norm_num
  have hx : x = 0 := by
    rw [hw] at h2
    norm_num at h2
    exact h2
  rw [hw, hx]

theorem IsGauss.one_positive {R : List (K × K)} (h : IsGauss 1 R) : PositiveRule R := by
  rw [h.one]
  refine ⟨by simp, fun xw hxw => ?_⟩
  rw [List.mem_singleton.1 hxw]
  exact two_pos

/-- A polynomial with derivative `q` of degree at most one more. -/
theorem exists_primitive (q : ℝ[X]) (n : ℕ) (hq : q.natDegree ≤ n) :
    ∃ S : ℝ[X], S.natDegree ≤ n + 1 ∧ S.derivative = q := by
  refine ⟨∑ i ∈ Finset.range (n + 1), C (q.coeff i / (i + 1)) * X ^ (i + 1), ?_, ?_⟩
  · refine natDegree_sum_le_of_forall_le _ _ fun i hi => (natDegree_C_mul_X_pow_le _ _).trans ?_
    have := Finset.mem_range.1 hi
    omega
  · rw [derivative_sum]
    conv_rhs => rw [q.as_sum_range_C_mul_X_pow' (show q.natDegree < n + 1 by omega)]
    refine Finset.sum_congr rfl fun i _ => ?_
    rw [derivative_C_mul_X_pow]
    congr 2
    push_cast
    field_simp

theorem eval_lt_of_derivative (S q : ℝ[X]) (hS : S.derivative = q ^ 2) (hq : q ≠ 0) : S.eval (-1) < S.eval 1 := by
  have mono : Monotone fun x => S.eval x :=
    monotone_of_deriv_nonneg S.differentiable fun x => by
      rw [S.deriv, hS, eval_pow]; positivity
  refine lt_of_le_of_ne (mono (by norm_num)) fun e => hq ?_
  have hc : S = C (S.eval 1) := by
    refine eq_of_infinite_eval_eq _ _ ((Set.Icc_infinite (show (-1 : ℝ) < 1 by norm_num)).mono fun x hx => ?_)
    rw [Set.mem_setOf_eq, eval_C]
    exact le_antisymm (mono hx.2) (e ▸ mono hx.1)
  have : q ^ 2 = 0 := by rw [← hS, hc, derivative_C]
  exact pow_eq_zero_iff (two_ne_zero) |>.1 this

theorem nodal_list (l : List (ℝ × ℝ)) :
    ((l.map fun y => X - C y.1).prod : ℝ[X]).Monic ∧ ((l.map fun y => X - C y.1).prod : ℝ[X]).natDegree = l.length := by
  induction l with
  | nil => simp
  | cons y l ih =>
    rw [List.map_cons, List.prod_cons]
    refine ⟨(monic_X_sub_C _).mul ih.1, ?_⟩
    rw [(monic_X_sub_C _).natDegree_mul ih.1, natDegree_X_sub_C, ih.2, List.length_cons, add_comm]

/-- The weights of a rule with `n` nodes that is exact for degree `2 n - 1` are positive. -/
theorem IsGauss.positive {n : ℕ} {R : List (ℝ × ℝ)} (hn : 1 ≤ n) (h : IsGauss n R) : PositiveRule R := by
  refine ⟨fun e => by have := h.1; rw [e] at this; simp at this; omega, fun xw hxw => ?_⟩
  obtain ⟨l, r, rfl⟩ := List.append_of_mem hxw
  obtain ⟨q, hq⟩ : ∃ q : ℝ[X], q = ((l ++ r).map fun y => X - C y.1).prod := ⟨_, rfl⟩
  obtain ⟨hmon, hdeg⟩ := hq ▸ nodal_list (l ++ r)
  have hlen : (l ++ r).length + 1 = n := by
    have := h.1; simp at this ⊢; omega
  obtain ⟨S, hS, hS'⟩ := exists_primitive (q ^ 2) (2 * (l ++ r).length)
    (natDegree_pow_le.trans (by rw [hdeg]))
  have h1 := h.2 S (by omega)
  have hzero : ∀ y ∈ l ++ r, y.2 * S.derivative.eval y.1 = 0 := by
    intro y hy
    have : q.eval y.1 = 0 := by
      rw [hq, eval_list_prod]
      refine List.prod_eq_zero ?_
      rw [List.map_map, List.mem_map]
      exact ⟨y, hy, by simp⟩
    rw [hS', eval_pow, this]
    simp
  have hl : (l.map fun y => y.2 * S.derivative.eval y.1).sum = 0 :=
    List.sum_eq_zero (by
      intro z hz
      obtain ⟨y, hy, rfl⟩ := List.mem_map.1 hz
      exact hzero y (List.mem_append_left _ hy))
  have hr : (r.map fun y => y.2 * S.derivative.eval y.1).sum = 0 :=
    List.sum_eq_zero (by
      intro z hz
      obtain ⟨y, hy, rfl⟩ := List.mem_map.1 hz
      exact hzero y (List.mem_append_right _ hy))
  rw [List.map_append, List.map_cons, List.sum_append, List.sum_cons, hl, hr, zero_add, add_zero] at h1
  have h2 := eval_lt_of_derivative S q hS' hmon.ne_zero
  have h3 : 0 < xw.2 * S.derivative.eval xw.1 := by rw [h1]; linarith
  rw [hS', eval_pow] at h3
  exact pos_of_mul_pos_left h3 (by positivity)

end FVHOE
