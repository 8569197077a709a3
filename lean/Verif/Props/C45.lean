import Mathlib.Algebra.Order.Field.Basic
import Mathlib.Data.Rat.Defs
import Mathlib.Algebra.Order.Ring.Rat
import Mathlib.Tactic.Ring
import Mathlib.Tactic.Linarith
import Mathlib.Tactic.NormNum
import Verif.Model.Timer

/-!
C45: the timer never double counts and reports misuse.
-/

set_option linter.unusedSectionVars false

namespace FVHOE

variable {K : Type} [Field K] [LinearOrder K] [IsStrictOrderedRing K]

/-! ## Specification, from the log of calls only -/

/-- Clock readings of the accepted `start c` calls in a log. -/
def acceptedStarts (c : String) : List (TimerOp K × Option PyErr) → List K
  | [] => []
  | (.start c' now, none) :: l => if c' = c then now :: acceptedStarts c l else acceptedStarts c l
  | _ :: l => acceptedStarts c l

/-- Clock readings of the accepted `stop c` calls in a log. -/
def acceptedStops (c : String) : List (TimerOp K × Option PyErr) → List K
  | [] => []
  | (.stop c' now, none) :: l => if c' = c then now :: acceptedStops c l else acceptedStops c l
  | _ :: l => acceptedStops c l

/-- Clock reading of a call, if it has one. -/
def TimerOp.now? : TimerOp K → Option K
  | .addCat _ => none
  | .start _ n => some n
  | .stop _ n => some n

/-- All clock readings of a history are at least `a` and in non-decreasing order. -/
def MonotoneClock : K → List (TimerOp K) → Prop
  | _, [] => True
  | a, op :: ops => match op.now? with
    | none => MonotoneClock a ops
    | some n => a ≤ n ∧ MonotoneClock n ops

/-- Sum of the lengths of the intervals obtained by pairing starts and stops in order. -/
def intervalTotal : List K → List K → K
  | s :: ss, e :: es => (e - s) + intervalTotal ss es
  | _, _ => 0

/-! ## Misuse is reported and changes nothing -/

/-- Unknown category: `start` and `stop` raise `ValueError` and leave the timer unchanged. -/
theorem C45_unknown_category (t : Timer K) (c : String) (now : K) (h : c ∉ t.cats) :
    t.start c now = (t, some .valueError) ∧ t.stop c now = (t, some .valueError) := by
  simp [Timer.start, Timer.stop, h]

example : "x" ∉ ((Timer.empty : Timer ℚ).addCat ["TOTAL"]).1.cats := by decide

/-- Any rejected `start`/`stop` changes nothing, and they are rejected exactly when the category
is unknown or already running (`start`) / not running (`stop`). -/
theorem C45_misuse (t : Timer K) (c : String) (now : K) :
    ((t.start c now).2 ≠ none ↔ c ∉ t.cats ∨ t.startTime c ≠ none) ∧
    ((t.stop c now).2 ≠ none ↔ c ∉ t.cats ∨ t.startTime c = none) ∧
    ((t.start c now).2 ≠ none → (t.start c now).1 = t) ∧
    ((t.stop c now).2 ≠ none → (t.stop c now).1 = t) := by
  unfold Timer.start Timer.stop
  by_cases h : c ∈ t.cats <;> cases h2 : t.startTime c <;> simp [h]

/-- Adding a known category raises. -/
theorem C45_duplicate_category (t : Timer K) (c : String) (h : c ∈ t.cats) :
    t.addCat [c] = (t, some .valueError) := by
  simp [Timer.addCat, h]

example : "TOTAL" ∈ ((Timer.empty : Timer ℚ).addCat ["TOTAL"]).1.cats := by decide

/-- A call on one category never touches the clock of another one. -/
theorem C45_isolated (t : Timer K) (c d : String) (now : K) (h : d ≠ c) :
    (t.start c now).1.cumTime d = t.cumTime d ∧ (t.start c now).1.startTime d = t.startTime d ∧
    (t.stop c now).1.cumTime d = t.cumTime d ∧ (t.stop c now).1.startTime d = t.startTime d := by
  unfold Timer.start Timer.stop
  by_cases h1 : c ∈ t.cats <;> cases h2 : t.startTime c <;> simp [h1, h, Function.update]

/-! ## Accounting over every history -/

private def Inv (t : Timer K) : Prop := ∀ c, c ∉ t.cats → t.startTime c = none ∧ t.cumTime c = 0

private theorem inv_addCat (cs : List String) : ∀ t : Timer K, Inv t → Inv (t.addCat cs).1 := by
  induction cs with
  | nil => intro t h; exact h
  | cons c cs ih =>
    intro t h
    unfold Timer.addCat
    split
    · exact h
    · apply ih
      intro d hd
      simp only [List.mem_append, List.mem_singleton, not_or] at hd
      simp [Function.update, hd.2, h d hd.1]

private theorem addCat_keeps (c : String) (cs : List String) : ∀ t : Timer K, Inv t →
    (t.addCat cs).1.startTime c = t.startTime c ∧ (t.addCat cs).1.cumTime c = t.cumTime c := by
  induction cs with
  | nil => intro t _; exact ⟨rfl, rfl⟩
  | cons d cs ih =>
    intro t h
    unfold Timer.addCat
    split
    · exact ⟨rfl, rfl⟩
    · rename_i hd
      have hinv : Inv ({ cats := t.cats ++ [d]
                         startTime := Function.update t.startTime d none
                         cumTime := Function.update t.cumTime d 0 } : Timer K) := by
        intro e he
        simp only [List.mem_append, List.mem_singleton, not_or] at he
        simp [Function.update, he.2, h e he.1]
      obtain ⟨h1, h2⟩ := ih _ hinv
      rw [h1, h2]
      by_cases hcd : c = d
      · subst hcd; simp [h c hd]
      · simp [Function.update, hcd]

private theorem inv_step (t : Timer K) (op : TimerOp K) (h : Inv t) : Inv (t.step op).1 := by
  cases op with
  | addCat cs => exact inv_addCat cs t h
  | start c now =>
    unfold Timer.step Timer.start
    by_cases h1 : c ∈ t.cats <;> cases h2 : t.startTime c <;> simp only [h1, h2, not_true, not_false_eq_true, if_true, if_false] <;> try exact h
    intro d hd
    have : d ≠ c := fun e => hd (by simpa [e] using h1)
    simp [Function.update, this, h d hd]
  | stop c now =>
    unfold Timer.step Timer.stop
    by_cases h1 : c ∈ t.cats <;> cases h2 : t.startTime c <;> simp only [h1, h2, not_true, not_false_eq_true, if_true, if_false] <;> try exact h
    intro d hd
    have : d ≠ c := fun e => hd (by simpa [e] using h1)
    simp [Function.update, this, h d hd]

/-- Starts of a log seen from a state in which `c` may already be running. -/
private def pend (t : Timer K) (c : String) : List K := (t.startTime c).toList

private theorem accounting (c : String) (ops : List (TimerOp K)) : ∀ t : Timer K, Inv t →
    (t.runOps ops).1.cumTime c
      = t.cumTime c + intervalTotal (pend t c ++ acceptedStarts c (t.runOps ops).2)
          (acceptedStops c (t.runOps ops).2) ∧
    (pend t c ++ acceptedStarts c (t.runOps ops).2).length
      = (acceptedStops c (t.runOps ops).2).length
        + (pend (t.runOps ops).1 c).length := by
  induction ops with
  | nil =>
    intro t _
    cases h : t.startTime c <;> simp [Timer.runOps, acceptedStarts, acceptedStops, pend, h, intervalTotal]
  | cons op ops ih =>
    intro t hinv
    obtain ⟨ih1, ih2⟩ := ih _ (inv_step t op hinv)
    cases op with
    | addCat cs =>
      obtain ⟨e1, e2⟩ := addCat_keeps c cs t hinv
      simp only [Timer.runOps, Timer.step, acceptedStarts, acceptedStops, pend, e1, e2] at ih1 ih2 ⊢
      exact ⟨ih1, ih2⟩
    | start d now =>
      simp only [Timer.runOps, Timer.step, Timer.start, pend] at ih1 ih2 ⊢
      by_cases h1 : d ∈ t.cats
      · cases h2 : t.startTime d with
        | some s =>
          simp only [h1, h2, not_true, if_false, acceptedStarts, acceptedStops] at ih1 ih2 ⊢
          exact ⟨ih1, ih2⟩
        | none =>
          simp only [h1, h2, not_true, if_false, acceptedStarts, acceptedStops] at ih1 ih2 ⊢
          by_cases hdc : d = c
          · subst hdc
            simp only [Function.update_self, Option.toList, List.singleton_append, if_true, h2,
              List.nil_append] at ih1 ih2 ⊢
            exact ⟨ih1, ih2⟩
          · have hcd : c ≠ d := fun e => hdc e.symm
            simp only [Function.update_of_ne hcd, hdc, if_false] at ih1 ih2 ⊢
            exact ⟨ih1, ih2⟩
      · simp only [h1, not_false_eq_true, if_true, acceptedStarts, acceptedStops] at ih1 ih2 ⊢
        exact ⟨ih1, ih2⟩
    | stop d now =>
      simp only [Timer.runOps, Timer.step, Timer.stop, pend] at ih1 ih2 ⊢
      by_cases h1 : d ∈ t.cats
      · cases h2 : t.startTime d with
        | none =>
          simp only [h1, h2, not_true, if_false, acceptedStarts, acceptedStops] at ih1 ih2 ⊢
          exact ⟨ih1, ih2⟩
        | some s =>
          simp only [h1, h2, not_true, if_false, acceptedStarts, acceptedStops] at ih1 ih2 ⊢
          by_cases hdc : d = c
          · subst hdc
            simp only [Function.update_self, Option.toList, List.nil_append, if_true, h2,
              List.singleton_append, List.length_cons, intervalTotal] at ih1 ih2 ⊢
            exact ⟨by rw [ih1]; ring, by omega⟩
          · have hcd : c ≠ d := fun e => hdc e.symm
            simp only [Function.update_of_ne hcd, hdc, if_false] at ih1 ih2 ⊢
            exact ⟨ih1, ih2⟩
      · simp only [h1, not_false_eq_true, if_true, acceptedStarts, acceptedStops] at ih1 ih2 ⊢
        exact ⟨ih1, ih2⟩

private theorem inv_empty : Inv (Timer.empty : Timer K) := fun _ _ => ⟨rfl, rfl⟩

/-- For every history of calls on a new timer and every category, the cumulative time is exactly
the sum of the completed start-stop intervals of that category, and at most one start is pending:
there is one more accepted start than accepted stop if the category is running, else equally many. -/
theorem C45_accounting (ops : List (TimerOp K)) (c : String) :
    let r := (Timer.empty : Timer K).runOps ops
    r.1.cumTime c = intervalTotal (acceptedStarts c r.2) (acceptedStops c r.2) ∧
    (acceptedStarts c r.2).length
      = (acceptedStops c r.2).length + (if (r.1.startTime c).isSome then 1 else 0) := by
  obtain ⟨h1, h2⟩ := accounting c ops Timer.empty inv_empty
  constructor
  · simpa [pend, Timer.empty] using h1
  · have : (pend (Timer.runOps Timer.empty ops).1 c).length
        = if ((Timer.runOps Timer.empty ops).1.startTime c).isSome then 1 else 0 := by
      cases h : (Timer.runOps Timer.empty ops).1.startTime c <;> simp [pend, h]
    rw [← this]
    simpa [pend, Timer.empty] using h2

example : ((Timer.empty : Timer ℚ).runOps
    [.addCat ["A", "B"], .start "A" 1, .start "B" 2, .start "A" 3, .stop "A" 5, .stop "A" 6,
     .start "A" 7, .stop "A" 8]).1.cumTime "A" = 5 := by
  decide +kernel

/-! ## Monotonicity -/

private def Before (a : K) (t : Timer K) : Prop := ∀ c s, t.startTime c = some s → s ≤ a

private theorem mono_aux (c : String) (ops : List (TimerOp K)) : ∀ (t : Timer K) (a : K), Inv t →
    Before a t → MonotoneClock a ops → t.cumTime c ≤ (t.runOps ops).1.cumTime c := by
  induction ops with
  | nil => intro t a _ _ _; exact le_refl _
  | cons op ops ih =>
    intro t a hinv hb hm
    have hi := inv_step t op hinv
    cases op with
    | addCat cs =>
      have hb' : Before a (t.addCat cs).1 := by
        intro d s hs
        rw [(addCat_keeps d cs t hinv).1] at hs
        exact hb d s hs
      have := ih _ a hi hb' hm
      simpa [Timer.runOps, Timer.step, (addCat_keeps c cs t hinv).2] using this
    | start d now =>
      obtain ⟨han, hm⟩ := hm
      have hb' : Before now (t.step (.start d now)).1 := by
        intro e s hs
        simp only [Timer.step, Timer.start] at hs
        by_cases h1 : d ∈ t.cats
        · cases h2 : t.startTime d with
          | some x => simp only [h1, h2, not_true, if_false] at hs; exact le_trans (hb e s hs) han
          | none =>
            simp only [h1, h2, not_true, if_false] at hs
            by_cases hed : e = d
            · subst hed; simp at hs; exact le_of_eq hs.symm
            · rw [Function.update_of_ne hed] at hs; exact le_trans (hb e s hs) han
        · simp only [h1, not_false_eq_true, if_true] at hs; exact le_trans (hb e s hs) han
      have := ih _ now hi hb' hm
      refine le_trans (le_of_eq ?_) this
      simp only [Timer.step, Timer.start]
      by_cases h1 : d ∈ t.cats <;> cases h2 : t.startTime d <;> simp [h1]
    | stop d now =>
      obtain ⟨han, hm⟩ := hm
      have hb' : Before now (t.step (.stop d now)).1 := by
        intro e s hs
        simp only [Timer.step, Timer.stop] at hs
        by_cases h1 : d ∈ t.cats
        · cases h2 : t.startTime d with
          | none => simp only [h1, h2, not_true, if_false] at hs; exact le_trans (hb e s hs) han
          | some x =>
            simp only [h1, h2, not_true, if_false] at hs
            by_cases hed : e = d
            · subst hed; simp at hs
            · rw [Function.update_of_ne hed] at hs; exact le_trans (hb e s hs) han
        · simp only [h1, not_false_eq_true, if_true] at hs; exact le_trans (hb e s hs) han
      have := ih _ now hi hb' hm
      refine le_trans ?_ this
      simp only [Timer.step, Timer.stop]
      by_cases h1 : d ∈ t.cats
      · cases h2 : t.startTime d with
        | none => simp [h1]
        | some x =>
          have hx := le_trans (hb d x h2) han
          by_cases hcd : c = d
          · subst hcd; simp [h1, hx]
          · simp [h1, Function.update_of_ne hcd]
      · simp [h1]

/-- With a monotone clock, in every history the cumulative time of every category never decreases
from any point on, and is never negative. -/
theorem C45_monotone (ops₁ ops₂ : List (TimerOp K)) (a : K) (c : String)
    (hm : MonotoneClock a (ops₁ ++ ops₂)) :
    0 ≤ ((Timer.empty : Timer K).runOps ops₁).1.cumTime c ∧
    ((Timer.empty : Timer K).runOps ops₁).1.cumTime c
      ≤ ((Timer.empty : Timer K).runOps (ops₁ ++ ops₂)).1.cumTime c := by
  have happ : ∀ (l : List (TimerOp K)) (t : Timer K),
      (t.runOps (l ++ ops₂)).1 = ((t.runOps l).1.runOps ops₂).1 := by
    intro l
    induction l with
    | nil => intro t; rfl
    | cons op l ih => intro t; simp only [List.cons_append, Timer.runOps, ih]
  have key : ∀ (l : List (TimerOp K)) (t : Timer K) (a : K), Inv t → Before a t →
      MonotoneClock a (l ++ ops₂) →
      MonotoneClock a l ∧ ∃ b, Inv (t.runOps l).1 ∧ Before b (t.runOps l).1 ∧
        MonotoneClock b ops₂ := by
    intro l
    induction l with
    | nil => intro t a hi hb hm; exact ⟨trivial, a, hi, hb, hm⟩
    | cons op l ih =>
      intro t a hi hb hm
      have hi' := inv_step t op hi
      cases op with
      | addCat cs =>
        have hb' : Before a (t.step (.addCat cs)).1 := by
          intro d s hs
          simp only [Timer.step] at hs
          rw [(addCat_keeps d cs t hi).1] at hs
          exact hb d s hs
        exact ih _ a hi' hb' hm
      | start d now =>
        obtain ⟨han, hm⟩ := hm
        have hb' : Before now (t.step (.start d now)).1 := by
          intro e s hs
          simp only [Timer.step, Timer.start] at hs
          by_cases h1 : d ∈ t.cats
          · cases h2 : t.startTime d with
            | some x => simp only [h1, h2, not_true, if_false] at hs; exact le_trans (hb e s hs) han
            | none =>
              simp only [h1, h2, not_true, if_false] at hs
              by_cases hed : e = d
              · subst hed; simp at hs; exact le_of_eq hs.symm
              · rw [Function.update_of_ne hed] at hs; exact le_trans (hb e s hs) han
          · simp only [h1, not_false_eq_true, if_true] at hs; exact le_trans (hb e s hs) han
        obtain ⟨h1, h2⟩ := ih _ now hi' hb' hm
        exact ⟨⟨han, h1⟩, h2⟩
      | stop d now =>
        obtain ⟨han, hm⟩ := hm
        have hb' : Before now (t.step (.stop d now)).1 := by
          intro e s hs
          simp only [Timer.step, Timer.stop] at hs
          by_cases h1 : d ∈ t.cats
          · cases h2 : t.startTime d with
            | none => simp only [h1, h2, not_true, if_false] at hs; exact le_trans (hb e s hs) han
            | some x =>
              simp only [h1, h2, not_true, if_false] at hs
              by_cases hed : e = d
              · subst hed; simp at hs
              · rw [Function.update_of_ne hed] at hs; exact le_trans (hb e s hs) han
          · simp only [h1, not_false_eq_true, if_true] at hs; exact le_trans (hb e s hs) han
        obtain ⟨h1, h2⟩ := ih _ now hi' hb' hm
        exact ⟨⟨han, h1⟩, h2⟩
  have hbe : Before a (Timer.empty : Timer K) := by intro c s h; simp [Timer.empty] at h
  obtain ⟨hm1, b, hi, hb, hm2⟩ := key ops₁ Timer.empty a inv_empty hbe hm
  constructor
  · exact mono_aux c ops₁ Timer.empty a inv_empty hbe hm1
  · rw [happ]
    exact mono_aux c ops₂ _ b hi hb hm2

example : MonotoneClock (0 : ℚ) ([.addCat ["A"], .start "A" 1] ++ [.stop "A" 2]) := by
  norm_num [MonotoneClock, TimerOp.now?]

end FVHOE
