import Verif.Props.C19_C22

/-!
C19, C21: the sizes of the stencils and the positions accepted.
-/

namespace FVHOE

/-- **C21** (size) For every supported degree and position the number of weights is the total size that
`get_stencil_size` reports, 2 ⌈p/2⌉ + 1, and its size to the right, ⌈p/2⌉, is that of the weights behind the middle one. Any
other mode raises. -/
theorem C21_size (p : ℕ) (pos : Pos) (ws : List ℚ) (h : conservativeWeights p pos.str = .ok ws ∨ transverseWeights p = .ok ws) :
    getStencilSize p .total = .ok ws.length ∧ ws.length = 2 * ((p + 1) / 2) + 1 ∧
    getStencilSize p .right = .ok (((p + 1) / 2 : ℕ) : ℤ) ∧ getStencilSize p .other = .error .valueError := by
  have hl : ws.length = 2 * ((p + 1) / 2) + 1 := by
    rcases Nat.lt_or_ge 8 p with hp | hp
    · obtain ⟨q, rfl⟩ : ∃ q, p = q + 9 := ⟨p - 9, by omega⟩
      rcases h with h | h
      · cases pos <;> cases h
      · cases h
    · rcases h with h | h
      · interval_cases p <;> cases pos <;> (injection h with h; subst h; rfl)
      · interval_cases p <;> (injection h with h; subst h; rfl)
  refine ⟨?_, hl, ?_, rfl⟩
  · exact congrArg Except.ok (show -2 * (-(p : ℤ) / 2) + 1 = (ws.length : ℤ) by rw [hl]; push_cast; omega)
  · exact congrArg Except.ok (show -(-(p : ℤ) / 2) = ((p + 1) / 2 : ℕ) by push_cast; omega)

/-- **C19** (positions) Weights are returned exactly for degrees up to 8 at "l", "c" and "r", and at degree 0 also for the
other substrings of "lcr". -/
theorem C19_positions (p : ℕ) (pos : String) : (∃ ws, conservativeWeights p pos = .ok ws) ↔
    (p ≤ 8 ∧ pos ∈ ["l", "c", "r"]) ∨ (p = 0 ∧ pos ∈ ["", "lc", "cr", "lcr"]) := by
  by_cases hpos : pos ∈ ["", "l", "c", "r", "lc", "cr", "lcr"]
  · rcases Nat.lt_or_ge 8 p with hp | hp
    · obtain ⟨q, rfl⟩ : ∃ q, p = q + 9 := ⟨p - 9, by omega⟩
      refine ⟨fun ⟨ws, h⟩ => ?_, by omega⟩
      fin_cases hpos <;> simp [conservativeWeights, leftWeights, centerWeights, otherWeights, Except.map] at h
    · interval_cases p <;> fin_cases hpos <;>
        simp [conservativeWeights, leftWeights, centerWeights, otherWeights, Except.map]
  · refine ⟨fun ⟨ws, h⟩ => ?_, fun h => ?_⟩
    · unfold conservativeWeights at h
      rw [if_neg hpos] at h
      cases h
    · simp only [List.mem_cons, List.not_mem_nil, or_false] at h hpos
      tauto

/-- Degree 3 has five weights, two of them to the right of the middle. -/
example : getStencilSize 3 .total = .ok 5 ∧ getStencilSize 3 .right = .ok 2 ∧ ∃ ws, conservativeWeights 3 "l" = .ok ws :=
  ⟨rfl, rfl, (C19_positions 3 "l").2 (.inl ⟨by omega, by decide⟩)⟩

end FVHOE
