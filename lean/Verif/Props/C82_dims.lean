import Verif.Props.C82

/-!
C82, continued: the saved file says which directions are active.
-/

set_option linter.unusedSectionVars false

namespace FVHOE

variable {K : Type} [Field K] [LinearOrder K] [IsStrictOrderedRing K]

theorem saved_entry (round : K → K) (a : AttrArgs K) (s : AttrState K) (l : List (String × Json K))
    (hl : attrsJson (solverDict round a s) = .ok (.obj l)) (k : String) (v : PyVal K) (j : Json K)
    (hv : (k, v) ∈ savedList round a s) (hj : v.toJson = .ok j) (h : ¬ (a.conservativeIc ∧ a.fvIc)) : (k, j) ∈ l := by
  have hp := attrs_perm (solverDict round a s)
  obtain ⟨js, h1, _, h3⟩ := dictToJson_ok (attrsToSave (solverDict round a s))
    (fun e he => saved_plain round a s h e (hp.mem_iff.1 he))
  have hj' : attrsJson (solverDict round a s) = .ok (.obj js) := by
    unfold attrsJson
    simp only [PyVal.toJson, h1]
  rw [hl] at hj'
  have : l = js := by simpa using hj'
  rw [this]
  exact h3 _ (hp.mem_iff.2 hv) _ hj

/-- **C82** (directions). A direction is recorded as active exactly if it has more than one cell or a degree above zero:
`xdim`, `ydim` and `zdim` say so, `dims` is the letters of the active directions in order, and `ndim` their number. -/
theorem C82_dims (round : K → K) (a : AttrArgs K) (s : AttrState K) (h : ¬ (a.conservativeIc ∧ a.fvIc))
    (on : Fin 3 → Bool) (hon : ∀ d, on d = true ↔ a.n d ≠ 1 ∨ 0 < a.p d) :
    ∃ l, attrsJson (solverDict round a s) = .ok (.obj l) ∧
      ("xdim", .bool (on 0)) ∈ l ∧ ("ydim", .bool (on 1)) ∈ l ∧ ("zdim", .bool (on 2)) ∈ l ∧
      (∃ t : String, ("dims", .str t) ∈ l ∧
        t.toList = (([(0, 'x'), (1, 'y'), (2, 'z')] : List (Fin 3 × Char)).filter fun e => on e.1).map Prod.snd) ∧
      ("ndim", .int (([0, 1, 2] : List (Fin 3)).countP fun d => on d)) ∈ l := by
  obtain ⟨l, hl, _⟩ := C82_partial round a s h
  have hdim : ∀ d, (!(a.n d == 1 && a.p d == 0)) = on d := by
    intro d
    rw [Bool.eq_iff_iff, hon d]
    simp
    omega
  have hstr : (dimsString a.n a.p).toList =
      (([(0, 'x'), (1, 'y'), (2, 'z')] : List (Fin 3 × Char)).filter fun e => on e.1).map Prod.snd := by
    have hc : ∀ d, (a.n d = 1 ∧ a.p d = 0) ↔ on d = false := by
      intro d
      rw [← hdim d]
      simp
    unfold dimsString
    simp only [hc]
    cases h0 : on 0 <;> cases h1 : on 1 <;> cases h2 : on 2 <;> simp [List.filter, h0, h1, h2]
  have hlen : (dimsString a.n a.p).length = ([0, 1, 2] : List (Fin 3)).countP fun d => on d := by
    rw [← String.length_toList, hstr]
    cases h0 : on 0 <;> cases h1 : on 1 <;> cases h2 : on 2 <;> simp [h0, h1, h2]
  refine ⟨l, hl, ?_, ?_, ?_, ⟨dimsString a.n a.p, ?_, hstr⟩, ?_⟩
  · refine saved_entry round a s l hl _ (.bool (!(a.n 0 == 1 && a.p 0 == 0))) _ ?_ (by rw [hdim 0]; rfl) h
    rw [savedList_eq]
    simp
  · refine saved_entry round a s l hl _ (.bool (!(a.n 1 == 1 && a.p 1 == 0))) _ ?_ (by rw [hdim 1]; rfl) h
    rw [savedList_eq]
    simp
  · refine saved_entry round a s l hl _ (.bool (!(a.n 2 == 1 && a.p 2 == 0))) _ ?_ (by rw [hdim 2]; rfl) h
    rw [savedList_eq]
    simp
  · refine saved_entry round a s l hl _ (.str (dimsString a.n a.p)) _ ?_ rfl h
    rw [savedList_eq]
    simp
  · refine saved_entry round a s l hl _ (.int (dimsString a.n a.p).length) _ ?_ (by rw [hlen]; rfl) h
    rw [savedList_eq]
    simp

/-- A run in the plane with a third direction of one cell and degree zero. -/
example : ∀ d, (![true, true, false] : Fin 3 → Bool) d = true ↔
    (![64, 1, 1] : Fin 3 → ℕ) d ≠ 1 ∨ 0 < (![3, 2, 0] : Fin 3 → ℕ) d := by
  decide

end FVHOE
