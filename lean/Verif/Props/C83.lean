import Verif.Model.Attrs

/-!
C83: the timing report is an aligned table of the times measured.
-/

set_option linter.unusedSectionVars false

namespace FVHOE

variable {K : Type}

theorem padRight_length (w : ℕ) (s : List Char) : (padRight w s).length = max w s.length := by
  simp only [padRight, List.length_append, List.length_replicate]
  omega

theorem padLeft_length (w : ℕ) (s : List Char) : (padLeft w s).length = max w s.length := by
  simp only [padLeft, List.length_append, List.length_replicate]
  omega

theorem le_maxLen (l : List (List Char)) (s : List Char) (h : s ∈ l) : s.length ≤ maxLen l := by
  induction l with
  | nil => cases h
  | cons x xs ih =>
    change _ ≤ max x.length (maxLen xs)
    rcases List.mem_cons.1 h with rfl | h
    · exact le_max_left _ _
    · exact le_trans (ih h) (le_max_right _ _)

theorem maxLen_mem (l : List (List Char)) (h : l ≠ []) : ∃ s ∈ l, maxLen l = s.length := by
  induction l with
  | nil => exact absurd rfl h
  | cons x xs ih =>
    change ∃ s ∈ _, max x.length (maxLen xs) = _
    by_cases hx : xs = []
    · subst hx
      exact ⟨x, List.mem_cons_self .., by simp [maxLen]⟩
    · obtain ⟨s, hs, e⟩ := ih hx
      rcases le_total x.length (maxLen xs) with h | h
      · exact ⟨s, List.mem_cons_of_mem _ hs, by rw [max_eq_right h, e]⟩
      · exact ⟨x, List.mem_cons_self .., max_eq_left h⟩

theorem cat_fits (t : Timer K) (c : String) (h : c ∈ t.cats) : c.toList.length ≤ catWidth t := by
  have hn : t.cats ≠ [] := fun e => by rw [e] at h; cases h
  unfold catWidth
  rw [if_neg hn]
  exact le_maxLen _ _ (List.mem_map_of_mem h)

theorem time_fits (fmt : K → List Char) (t : Timer K) (c : String) (h : c ∈ t.cats) :
    (fmt (t.cumTime c)).length ≤ timeWidth fmt t := by
  have hn : t.cats ≠ [] := fun e => by rw [e] at h; cases h
  unfold timeWidth
  rw [if_neg hn]
  exact le_trans (le_maxLen _ _ (List.mem_map_of_mem (f := fun c => fmt (t.cumTime c)) h)) (le_max_left _ _)

/-- **C83** The report consists of a header, a rule and one line for every category in the order in which they
were added. The line of a category starts with its name and ends with its cumulative time, with only
spaces between. All lines but the header are equally long, and the header is as long as the others exactly if there are no
categories or one of them has a name of at least eight letters; otherwise it is longer. -/
theorem C83_report (fmt : K → List Char) (t : Timer K) :
    ∃ header rule rows, t.report fmt = (header :: rule :: rows).flatMap (· ++ ['\n']) ∧
      rows.length = t.cats.length ∧
      (∀ k (h1 : k < t.cats.length) (h2 : k < rows.length), ∃ m, 1 ≤ m ∧
        rows[k] = t.cats[k].toList ++ List.replicate m ' ' ++ fmt (t.cumTime t.cats[k])) ∧
      (∀ c ∈ rule, c = '-') ∧ (∀ r ∈ rows, r.length = rule.length) ∧
      (header.length = rule.length ↔ t.cats = [] ∨ ∃ c ∈ t.cats, 8 ≤ c.toList.length) ∧
      rule.length ≤ header.length := by
  refine ⟨_, _, t.cats.map fun c => padRight (catWidth t) c.toList ++ [' '] ++
    padLeft (timeWidth fmt t) (fmt (t.cumTime c)), rfl, List.length_map _, ?_, ?_, ?_, ?_, ?_⟩
  · intro k h1 h2
    rw [List.getElem_map]
    refine ⟨(catWidth t - t.cats[k].toList.length) + 1 + (timeWidth fmt t - (fmt (t.cumTime t.cats[k])).length),
      by omega, ?_⟩
    rw [List.replicate_add, List.replicate_add]
    simp [padRight, padLeft]
  · intro c hc
    exact List.eq_of_mem_replicate hc
  · intro r hr
    obtain ⟨c, hc, rfl⟩ := List.mem_map.1 hr
    simp only [List.length_append, padRight_length, padLeft_length, List.length_replicate, List.length_singleton]
    rw [max_eq_left (cat_fits t c hc), max_eq_left (time_fits fmt t c hc)]
    omega
  · simp only [List.length_append, padRight_length, List.length_replicate, List.length_singleton]
    have htw : "Time (s)".toList.length ≤ timeWidth fmt t := le_max_right _ _
    rw [max_eq_left htw]
    have h8 : "Category".toList.length = 8 := by decide
    rw [h8]
    constructor
    · intro h
      by_cases hn : t.cats = []
      · exact Or.inl hn
      · right
        have : 8 ≤ catWidth t := by omega
        unfold catWidth at this
        rw [if_neg hn] at this
        obtain ⟨s, hs, e⟩ := maxLen_mem (t.cats.map String.toList) (by simpa using hn)
        obtain ⟨c, hc, rfl⟩ := List.mem_map.1 hs
        exact ⟨c, hc, by rw [← e]; exact this⟩
    · rintro (h | ⟨c, hc, h⟩)
      · have : catWidth t = 8 := by
          unfold catWidth
          rw [if_pos h, h8]
        omega
      · have := cat_fits t c hc
        omega
  · simp only [List.length_append, padRight_length, List.length_replicate, List.length_singleton]
    omega

theorem addCat_mem [Field K] (t : Timer K) (cs : List String) (c : String) (h : c ∈ t.cats) :
    c ∈ (t.addCat cs).1.cats := by
  induction cs generalizing t with
  | nil => exact h
  | cons x xs ih =>
    unfold Timer.addCat
    split_ifs
    · exact h
    · exact ih _ (List.mem_append_left _ h)

theorem runOps_mem [Field K] (t : Timer K) (ops : List (TimerOp K)) (c : String) (h : c ∈ t.cats) :
    c ∈ (t.runOps ops).1.cats := by
  induction ops generalizing t with
  | nil => exact h
  | cons op ops ih =>
    refine ih _ ?_
    cases op with
    | addCat cs => exact addCat_mem t cs c h
    | start d now =>
      simp only [Timer.step, Timer.start]
      split_ifs
      · split <;> exact h
      · exact h
    | stop d now =>
      simp only [Timer.step, Timer.stop]
      split_ifs
      · split <;> exact h
      · exact h

/-- **C83** (solver) Whatever has been measured with the timer of a solver, and whatever categories have been added,
all lines of its report are equally long. -/
theorem C83_solver [Field K] (fmt : K → List Char) (ops : List (TimerOp K)) :
    let t := ((solverTimer : Timer K).runOps ops).1
    ∃ (lines : List (List Char)) (n : ℕ), t.report fmt = lines.flatMap (· ++ ['\n']) ∧ lines.length = t.cats.length + 2 ∧
      ∀ line ∈ lines, line.length = n := by
  intro t
  obtain ⟨header, rule, rows, h1, h2, h3, h4, h5, h6, h7⟩ := C83_report fmt t
  refine ⟨header :: rule :: rows, rule.length, h1, by simp [h2], ?_⟩
  intro line hl
  rcases List.mem_cons.1 hl with rfl | hl
  · exact h6.2 (Or.inr ⟨"SNAPSHOTS", runOps_mem _ _ _ (addCat_mem _ _ _ (by simp [Timer.addCat, odeCats, Timer.empty])),
      by decide⟩)
  · rcases List.mem_cons.1 hl with rfl | hl
    · rfl
    · exact h5 line hl

/-- A timer with a category of a short name: the header sticks out. -/
example : let t : Timer ℚ := ⟨["a"], fun _ => none, fun _ => 0⟩
    ¬ (t.cats = [] ∨ ∃ c ∈ t.cats, 8 ≤ c.toList.length) := by
  decide

end FVHOE
