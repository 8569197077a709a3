import Verif.Proofs.Timed
import Mathlib.Algebra.BigOperators.Group.Finset.Piecewise
import Mathlib.Algebra.Order.BigOperators.Group.Finset

/-!
How much time a successful call adds to a set of timer categories.
-/

set_option linter.unusedSectionVars false

namespace FVHOE

variable {K : Type} [Field K] [LinearOrder K] [IsStrictOrderedRing K] {α β : Type}

instance : LawfulMonad (TM K) := LawfulMonad.mk'
  (id_map := fun m => by
    funext s
    show (match m s with
      | (.ok a, s') => ((.ok (id a), s') : Except PyErr _ × Clocked K)
      | (.error e, s') => (.error e, s')) = m s
    rcases m s with ⟨_ | a, s'⟩ <;> rfl)
  (pure_bind := fun _ _ => rfl)
  (bind_assoc := fun m k l => by
    funext s
    simp only [TM.bind_apply]
    rcases m s with ⟨_ | a, s'⟩ <;> rfl)

/-- `self.timer.start(c)`, some statements, `self.timer.stop(c)`. -/
def bracket (clock : ℕ → K) (c : String) (m : TM K α) : TM K α := do
  TM.start clock c
  let a ← m
  TM.stop clock c
  return a

/-- Total time of some categories. -/
def cumOf (A : Finset String) (s : Clocked K) : K := ∑ c ∈ A, s.timer.cumTime c

/-- A successful call changes the times of no categories but `B`, and reads the clock forwards. -/
structure Only (B : Finset String) (m : TM K α) : Prop where
  only : ∀ s a s', m s = (.ok a, s') → s.ticks ≤ s'.ticks ∧ ∀ c ∉ B, s'.timer.cumTime c = s.timer.cumTime c

theorem Only.mono {A B : Finset String} {m : TM K α} (h : Only A m) (i : A ⊆ B) : Only B m :=
  ⟨fun s a s' e => ⟨(h.only s a s' e).1, fun c hc => (h.only s a s' e).2 c fun hA => hc (i hA)⟩⟩

theorem Only.lift (B : Finset String) (x : Except PyErr α) : Only B (TM.lift x : TM K α) := by
  refine ⟨fun s a s' e => ?_⟩
  simp only [TM.lift, Prod.mk.injEq] at e
  obtain ⟨_, rfl⟩ := e
  exact ⟨le_rfl, fun _ _ => rfl⟩

theorem Only.pure (B : Finset String) (x : α) : Only B (Pure.pure x : TM K α) := by
  refine ⟨fun s a s' e => ?_⟩
  simp only [TM.pure_apply, Prod.mk.injEq] at e
  obtain ⟨_, rfl⟩ := e
  exact ⟨le_rfl, fun _ _ => rfl⟩

theorem tm_bind_ok {m : TM K α} {k : α → TM K β} {s s' : Clocked K} {b : β} (h : (m >>= k) s = (.ok b, s')) :
    ∃ a s1, m s = (.ok a, s1) ∧ k a s1 = (.ok b, s') := by
  rw [TM.bind_apply] at h
  rcases hm : m s with ⟨_ | a, s1⟩
  · rw [hm] at h; simp at h
  · rw [hm] at h; exact ⟨a, s1, rfl, h⟩

theorem Only.bind {B : Finset String} {m : TM K α} {k : α → TM K β} (hm : Only B m)
    (hk : ∀ a, Only B (k a)) : Only B (m >>= k) := by
  refine ⟨fun s b s' e => ?_⟩
  obtain ⟨a, s1, e1, e2⟩ := tm_bind_ok e
  obtain ⟨h1, h2⟩ := hm.only _ _ _ e1
  obtain ⟨k1, k2⟩ := (hk a).only _ _ _ e2
  exact ⟨h1.trans k1, fun c hc => (k2 c hc).trans (h2 c hc)⟩

theorem Only.ite {B : Finset String} {m k : TM K α} {c : Prop} [Decidable c] (hm : Only B m)
    (hk : Only B k) : Only B (if c then m else k) := by
  split <;> assumption

/-- What a successful bracket does. -/
theorem bracket_ok {clock : ℕ → K} {c : String} {m : TM K α} {s s' : Clocked K} {a : α}
    (hm : Balanced m) (h : bracket clock c m s = (.ok a, s')) :
    s.timer.startTime c = none ∧ ∃ s1, m (s.started clock c) = (.ok a, s1) ∧
      s' = s1.stopped clock c (clock s.ticks) := by
  obtain ⟨_, s1, e1, h⟩ := tm_bind_ok h
  obtain ⟨a', s2, e2, h⟩ := tm_bind_ok h
  obtain ⟨_, s3, e3, h⟩ := tm_bind_ok h
  rw [TM.pure_apply, Prod.mk.injEq, Except.ok.injEq] at h
  obtain ⟨rfl, rfl⟩ := h
  have p1 : s.timer.startTime c = none ∧ s1 = s.started clock c :=
    (Post.start (clock := clock) (c := c) (s := s)
      (Q := fun _ s1 => s.timer.startTime c = none ∧ s1 = s.started clock c) fun _ h2 => ⟨h2, rfl⟩) _ _ e1
  obtain ⟨h2, rfl⟩ := p1
  have p2 : s2.timer.startTime c = some (clock s.ticks) := by
    rw [(hm.keeps _ _ _ e2).2]
    exact Function.update_self ..
  have p3 : s3 = s2.stopped clock c (clock s.ticks) :=
    (Post.stop (clock := clock) (c := c) (s := s2)
      (Q := fun _ s3 => s3 = s2.stopped clock c (clock s.ticks)) fun _ b hb => by
        rw [p2] at hb; rw [Option.some.inj hb]) _ _ e3
  exact ⟨h2, s2, e2, p3⟩

theorem cumOf_stopped_mem (clock : ℕ → K) {A : Finset String} {c : String} (hc : c ∈ A) (s : Clocked K)
    (b : K) : cumOf A (s.stopped clock c b) = cumOf A s + (clock s.ticks - b) := by
  unfold cumOf Clocked.stopped
  dsimp only
  rw [Finset.sum_update_of_mem hc, ← Finset.add_sum_erase A _ hc, Finset.sdiff_singleton_eq_erase]
  ring

theorem cumOf_stopped_notMem (clock : ℕ → K) {A : Finset String} {c : String} (hc : c ∉ A) (s : Clocked K)
    (b : K) : cumOf A (s.stopped clock c b) = cumOf A s := by
  unfold cumOf Clocked.stopped
  dsimp only
  refine Finset.sum_congr rfl fun x hx => ?_
  rw [Function.update_of_ne (show x ≠ c from fun e => hc (e ▸ hx))]

theorem cumOf_started (clock : ℕ → K) (A : Finset String) (c : String) (s : Clocked K) :
    cumOf A (s.started clock c) = cumOf A s := rfl

theorem Only.cumOf {A B : Finset String} {m : TM K α} (h : Only B m) (d : Disjoint A B) {s s' : Clocked K}
    {a : α} (e : m s = (.ok a, s')) : cumOf A s' = cumOf A s :=
  Finset.sum_congr rfl fun c hc => (h.only _ _ _ e).2 c (Finset.disjoint_left.1 d hc)

theorem Only.bracket {clock : ℕ → K} {B : Finset String} {c : String} {m : TM K α} (hb : Balanced m)
    (hm : Only B m) (hc : c ∈ B) : Only B (bracket clock c m) := by
  refine ⟨fun s a s' e => ?_⟩
  obtain ⟨_, s1, e1, rfl⟩ := bracket_ok hb e
  obtain ⟨h1, h2⟩ := hm.only _ _ _ e1
  refine ⟨(Nat.le_succ _).trans (h1.trans (Nat.le_succ _)), fun x hx => ?_⟩
  show Function.update _ _ _ _ = _
  rw [Function.update_of_ne (show x ≠ c from fun e => hx (e ▸ hc))]
  exact h2 x hx

theorem Balanced.bracket {clock : ℕ → K} {c : String} {m : TM K α} (hm : Balanced m) :
    Balanced (bracket clock c m) :=
  balanced_iff.2 fun s => by
    refine Post.push (Pushed.refl s) fun s h => ?_
    refine Post.call hm h fun a s h => ?_
    refine Post.pop h fun s h => ?_
    exact Post.pure h

/-! ## The categories of `A` are never timed at the same time -/

/-- The times of `A` grow together by at most what the clock advances. -/
structure Spends (clock : ℕ → K) (A : Finset String) (m : TM K α) : Prop where
  spends : ∀ s a s', m s = (.ok a, s') → cumOf A s' - cumOf A s ≤ clock s'.ticks - clock s.ticks

variable {clock : ℕ → K} (hclock : Monotone clock)
include hclock

theorem Spends.only {A B : Finset String} {m : TM K α} (h : Only B m) (d : Disjoint A B) :
    Spends clock A m := by
  refine ⟨fun s a s' e => ?_⟩
  rw [h.cumOf d e, sub_self]
  exact sub_nonneg.2 (hclock (h.only _ _ _ e).1)

omit hclock in
theorem Spends.bind {A : Finset String} {m : TM K α} {k : α → TM K β} (hm : Spends clock A m)
    (hk : ∀ a, Spends clock A (k a)) : Spends clock A (m >>= k) := by
  refine ⟨fun s b s' e => ?_⟩
  obtain ⟨a, s1, e1, e2⟩ := tm_bind_ok e
  have h1 := hm.spends _ _ _ e1
  have h2 := (hk a).spends _ _ _ e2
  linarith

theorem Spends.inside {A B : Finset String} {c : String} {m : TM K α} (hb : Balanced m) (hc : c ∈ A)
    (hm : Only B m) (d : Disjoint A B) : Spends clock A (bracket clock c m) := by
  refine ⟨fun s a s' e => ?_⟩
  obtain ⟨_, s1, e1, rfl⟩ := bracket_ok hb e
  have h := hm.cumOf d e1
  rw [cumOf_started] at h
  rw [cumOf_stopped_mem clock hc, h]
  have : clock s1.ticks ≤ clock (s1.ticks + 1) := hclock (Nat.le_succ _)
  show cumOf A s + (clock s1.ticks - clock s.ticks) - cumOf A s ≤ clock (s1.ticks + 1) - clock s.ticks
  linarith

theorem Spends.outside {A : Finset String} {c : String} {m : TM K α} (hb : Balanced m) (hc : c ∉ A)
    (hm : Spends clock A m) : Spends clock A (bracket clock c m) := by
  refine ⟨fun s a s' e => ?_⟩
  obtain ⟨_, s1, e1, rfl⟩ := bracket_ok hb e
  have h := hm.spends _ _ _ e1
  rw [cumOf_started] at h
  rw [cumOf_stopped_notMem clock hc]
  have h1 : clock s1.ticks ≤ clock (s1.ticks + 1) := hclock (Nat.le_succ _)
  have h2 : clock s.ticks ≤ clock (s.ticks + 1) := hclock (Nat.le_succ _)
  have h3 : clock (s.started clock c).ticks = clock (s.ticks + 1) := rfl
  show cumOf A s1 - cumOf A s ≤ clock (s1.ticks + 1) - clock s.ticks
  linarith

omit hclock

/-! ## A category that encloses others -/

/-- The times of `A` grow together by at most as much as the time of `P`. -/
structure Nested (P : String) (A : Finset String) (m : TM K α) : Prop where
  nested : ∀ s a s', m s = (.ok a, s') →
    cumOf A s' - cumOf A s ≤ s'.timer.cumTime P - s.timer.cumTime P

theorem Nested.only {P : String} {A B : Finset String} {m : TM K α} (h : Only B m) (d : Disjoint A B)
    (hP : P ∉ B) : Nested P A m := by
  refine ⟨fun s a s' e => ?_⟩
  rw [h.cumOf d e, (h.only _ _ _ e).2 P hP, sub_self, sub_self]

theorem Nested.bind {P : String} {A : Finset String} {m : TM K α} {k : α → TM K β} (hm : Nested P A m)
    (hk : ∀ a, Nested P A (k a)) : Nested P A (m >>= k) := by
  refine ⟨fun s b s' e => ?_⟩
  obtain ⟨a, s1, e1, e2⟩ := tm_bind_ok e
  have h1 := hm.nested _ _ _ e1
  have h2 := (hk a).nested _ _ _ e2
  linarith

theorem Nested.ite {P : String} {A : Finset String} {m k : TM K α} {c : Prop} [Decidable c]
    (hm : Nested P A m) (hk : Nested P A k) : Nested P A (if c then m else k) := by
  split <;> assumption

theorem Nested.outside {P : String} {A : Finset String} {c : String} {m : TM K α} (hb : Balanced m)
    (hc : c ∉ A) (hP : P ≠ c) (hm : Nested P A m) : Nested P A (bracket clock c m) := by
  refine ⟨fun s a s' e => ?_⟩
  obtain ⟨_, s1, e1, rfl⟩ := bracket_ok hb e
  have h := hm.nested _ _ _ e1
  rw [cumOf_started] at h
  rw [cumOf_stopped_notMem clock hc]
  show _ ≤ Function.update s1.timer.cumTime c _ P - s.timer.cumTime P
  rw [Function.update_of_ne hP]
  exact h

include hclock in
/-- The enclosing category itself. -/
theorem Nested.around {P : String} {A B : Finset String} {m : TM K α} (hb : Balanced m)
    (hPA : P ∉ A) (ho : Only B m) (hPB : P ∉ B) (hm : Spends clock A m) :
    Nested P A (bracket clock P m) := by
  refine ⟨fun s a s' e => ?_⟩
  obtain ⟨_, s1, e1, rfl⟩ := bracket_ok hb e
  have h := hm.spends _ _ _ e1
  have h2 := (ho.only _ _ _ e1).2 P hPB
  rw [cumOf_started] at h
  rw [cumOf_stopped_notMem clock hPA]
  have h1 : clock s.ticks ≤ clock (s.started clock P).ticks := hclock (Nat.le_succ _)
  have h3 : (s.started clock P).timer.cumTime P = s.timer.cumTime P := rfl
  show _ ≤ Function.update s1.timer.cumTime P _ P - s.timer.cumTime P
  rw [Function.update_self, h2, h3]
  linarith

end FVHOE
