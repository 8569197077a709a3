import Mathlib.Analysis.Real.Sqrt
import Mathlib.Tactic.Positivity
import Mathlib.Tactic.NormNum
import Mathlib.Tactic.Ring
import Verif.Proofs.Shift

/-!
The Runge-Kutta polynomials of a dissipative combination of shifts are contractions.
-/

set_option linter.unusedSectionVars false

namespace FVHOE

variable {n : Fin 3 → ℕ}

theorem natCast_mul_ops (k : ℕ) (x : Ops) : (k : Ops) * x = (k : ℝ) • x := by
  rw [Algebra.smul_def]
  congr 1

theorem OpPos.nat {x : Ops} (hx : OpPos n x) (k : ℕ) : OpPos n ((k : Ops) * x) := by
  rw [natCast_mul_ops]
  exact hx.smul (Nat.cast_nonneg k)

theorem OpPos.of_nat {x : Ops} (k : ℕ) (hk : 0 < k) (hx : OpPos n ((k : Ops) * x)) : OpPos n x := by
  rw [natCast_mul_ops] at hx
  have h0 : (0 : ℝ) < (k : ℝ) := by exact_mod_cast hk
  have := hx.smul (inv_nonneg.2 h0.le)
  rwa [smul_smul, inv_mul_cancel₀ h0.ne', one_smul] at this

theorem OpPos.congr {x y : Ops} (hx : OpPos n x) (e : y = x) : OpPos n y := e ▸ hx

/-- A sum of squares `y* y`. -/
def OpSos (x : Ops) : Prop := ∃ l : List Ops, x = (l.map fun y => adj y * y).sum

theorem OpSos.mul_pos {x y : Ops} (hx : OpSos x) (hy : OpPos n y) : OpPos n (x * y) := by
  obtain ⟨l, rfl⟩ := hx
  induction l with
  | nil => simpa using OpPos.zero
  | cons z l ih =>
    rw [List.map_cons, List.sum_cons, add_mul]
    exact (hy.between z).add ih

theorem OpSos.pos {x : Ops} (hx : OpSos x) : OpPos n x := by
  have := hx.mul_pos (OpPos.one (n := n))
  rwa [mul_one] at this

theorem OpSos.zero : OpSos 0 := ⟨[], by simp⟩

theorem OpSos.add {x y : Ops} (hx : OpSos x) (hy : OpSos y) : OpSos (x + y) := by
  obtain ⟨l, rfl⟩ := hx
  obtain ⟨l', rfl⟩ := hy
  exact ⟨l ++ l', by simp⟩

theorem OpSos.between {x : Ops} (hx : OpSos x) (y : Ops) : OpSos (adj y * y * x) := by
  obtain ⟨l, rfl⟩ := hx
  refine ⟨l.map fun z => y * z, ?_⟩
  induction l with
  | nil => simp
  | cons z l ih =>
    simp only [List.map_cons, List.sum_cons] at ih ⊢
    rw [mul_add, ih, map_mul]
    ring

theorem OpSos.smul {x : Ops} (hx : OpSos x) {c : ℝ} (hc : 0 ≤ c) : OpSos (c • x) := by
  have := hx.between ((Real.sqrt c) • 1)
  rw [map_smul, map_one, smul_mul_smul_comm, Real.mul_self_sqrt hc, one_mul, smul_mul_assoc, one_mul] at this
  exact this

theorem OpSos.sum {ι : Type} (s : Finset ι) {f : ι → Ops} (h : ∀ a ∈ s, OpSos (f a)) : OpSos (∑ a ∈ s, f a) := by
  classical
  induction s using Finset.induction_on with
  | empty => simpa using OpSos.zero
  | insert a s ha ih =>
    rw [Finset.sum_insert ha]
    exact (h a (by simp)).add (ih fun b hb => h b (by simp [hb]))

/-- The polynomial of the third order method, times 6. -/
noncomputable def poly3 (a : Ops) : Ops := 6 + 6 * a + 3 * a ^ 2 + a ^ 3

/-- The polynomial of the fourth order method, times 24. -/
noncomputable def poly4 (a : Ops) : Ops := 24 + 24 * a + 12 * a ^ 2 + 4 * a ^ 3 + a ^ 4

section

variable {a : Ops} (hg : OpSos (-(a + adj a))) (hm : OpPos n (64 - 25 * (adj a * a)))
include hg hm

/-- With the symmetric part of `a` non-positive and `‖a‖ ≤ 8/5`, the third order polynomial is a contraction. -/
theorem pos_poly3 : OpPos n (36 - adj (poly3 a) * poly3 a) := by
  obtain ⟨b, hb⟩ : ∃ b, b = adj a := ⟨_, rfl⟩
  have hba : adj b = a := by rw [hb, adj_adj]
  have t1 := (OpPos.sq (n := n) (3 + b * a + 2 * (a + b)))
  have t2 := (OpPos.sq (n := n) (b * a - 3)).add ((OpPos.one (n := n)).nat 6)
  have t3 := ((hm.nat 1).add ((OpPos.one (n := n)).nat 11)).between (b * a)
  have h := (((hg.mul_pos t1).nat 75).add ((hg.mul_pos t2).nat 75)).add (t3.nat 2)
  refine OpPos.of_nat 50 (by norm_num) ?_
  refine h.congr ?_
  · simp only [poly3, map_add, map_mul, map_sub, map_pow, map_ofNat, hba, ← hb, map_one]
    push_cast
    ring

/-- Likewise for the fourth order polynomial. -/
theorem pos_poly4 : OpPos n (576 - adj (poly4 a) * poly4 a) := by
  obtain ⟨b, hb⟩ : ∃ b, b = adj a := ⟨_, rfl⟩
  have hba : adj b = a := by rw [hb, adj_adj]
  obtain ⟨g, hgd⟩ : ∃ g, g = -(a + b) := ⟨_, rfl⟩
  have hgg : adj g = g := by rw [hgd, map_neg, map_add, hba, ← hb, add_comm]
  obtain ⟨m, hmd⟩ : ∃ m, m = b * a := ⟨_, rfl⟩
  have hmm : adj m = m := by rw [hmd, map_mul, hba, ← hb, mul_comm]
  rw [← hb, ← hgd] at hg
  rw [← hb, ← hmd] at hm
  have hdiff : OpPos n (4 * m - g ^ 2) := by
    have := OpPos.sq (n := n) (a - b)
    rw [map_sub, hba, ← hb] at this
    convert this using 1
    rw [hmd, hgd]
    ring
  have hside : OpPos n (16 - 5 * g) := by
    have := ((hm).nat 1).add (OpPos.sq (n := n) (8 + 5 * a))
    rw [map_add, map_mul, map_ofNat, map_ofNat, ← hb] at this
    refine OpPos.of_nat 8 (by norm_num) ?_
    convert this using 1
    rw [hmd, hgd]
    push_cast
    ring
  have hmp : ∀ {y : Ops}, OpPos n y → OpPos n (m * y) := fun hy => by
    have := hy.between a
    rwa [← hb, ← hmd] at this
  have hsq : ∀ {y : Ops} (z : Ops), adj z = z → OpPos n y → OpPos n (z ^ 2 * y) := fun z hz hy => by
    have := hy.between z
    rwa [hz, ← pow_two] at this
  have s1 : adj (64 - 25 * m) = 64 - 25 * m := by simp [map_sub, map_mul, map_ofNat, hmm]
  have s2 : adj (4 * g - 15) = 4 * g - 15 := by simp [map_sub, map_mul, map_ofNat, hgg]
  have s3 : adj (1300 * g - 2787) = 1300 * g - 2787 := by simp [map_sub, map_mul, map_ofNat, hgg]
  have t1 := (hsq g hgg hdiff).nat 780000
  have t2 := (hg.mul_pos (hsq g hgg hside)).nat 468000
  have t3 := (hsq g hgg (hmp hm)).nat 62400
  have t4 := (hmp (hsq _ s1 hg.pos)).nat 832
  have t5 := (hg.mul_pos (hmp hm)).nat 18304
  have t6 := (hg.mul_pos (hsq _ s2 hm)).nat 4875
  have t7 := (hg.mul_pos hm).nat 73125
  have t8 := (hmp (hsq _ s3 hg.pos)).nat 3
  have t9 := (hmp hg.pos).nat 1368565
  have t10 := (hmp (hsq m hmm hm)).nat 5200
  have t11 := (hmp (hsq m hmm (OpPos.one (n := n)))).nat 707200
  have h := t1.add (t2.add (t3.add (t4.add (t5.add (t6.add (t7.add (t8.add (t9.add (t10.add t11)))))))))
  refine OpPos.of_nat 130000 (by norm_num) ?_
  refine h.congr ?_
  · simp only [poly4, map_add, map_mul, map_pow, map_ofNat, ← hb]
    rw [hgd, hmd]
    push_cast
    ring

end

end FVHOE
