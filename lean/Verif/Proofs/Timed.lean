import Verif.Model.TimerTrace
import Mathlib.Tactic.Linarith
import Mathlib.Tactic.Ring

/-!
Rules for methods that use the timer: what holds after a successful call (`Post`), and when a method
has the same successful results as one without timer (`Sim`).
-/

set_option linter.unusedSectionVars false

namespace FVHOE

variable {K : Type} [Field K] [LinearOrder K] {α β : Type}

theorem TM.bind_apply (m : TM K α) (k : α → TM K β) (s : Clocked K) :
    (m >>= k) s = match m s with
      | (.ok a, s') => k a s'
      | (.error e, s') => (.error e, s') := rfl

theorem TM.pure_apply (a : α) (s : Clocked K) : (pure a : TM K α) s = (.ok a, s) := rfl

/-! ## What holds after success -/

/-- If the call succeeds then `Q` holds of its result and the timer afterwards. -/
def Post (m : TM K α) (s : Clocked K) (Q : α → Clocked K → Prop) : Prop :=
  ∀ a s', m s = (.ok a, s') → Q a s'

theorem Post.mono {m : TM K α} {s : Clocked K} {Q R : α → Clocked K → Prop} (h : Post m s Q)
    (i : ∀ a s', Q a s' → R a s') : Post m s R := fun a s' e => i a s' (h a s' e)

theorem Post.bind {m : TM K α} {k : α → TM K β} {s : Clocked K} {Q : β → Clocked K → Prop}
    (h : Post m s fun a s' => Post (k a) s' Q) : Post (m >>= k) s Q := by
  intro b s' e
  rw [TM.bind_apply] at e
  rcases hm : m s with ⟨r, s1⟩
  rw [hm] at e
  cases r with
  | error x => simp at e
  | ok a => exact h a s1 hm b s' e

theorem Post.pure {a : α} {s : Clocked K} {Q : α → Clocked K → Prop} (h : Q a s) :
    Post (Pure.pure a) s Q := by
  intro b s' e
  rw [TM.pure_apply] at e
  simp only [Prod.mk.injEq, Except.ok.injEq] at e
  obtain ⟨rfl, rfl⟩ := e
  exact h

theorem Post.lift {x : Except PyErr α} {s : Clocked K} {Q : α → Clocked K → Prop}
    (h : ∀ a, x = .ok a → Q a s) : Post (TM.lift x) s Q := by
  intro b s' e
  simp only [TM.lift, Prod.mk.injEq] at e
  obtain ⟨e1, rfl⟩ := e
  exact h b e1

/-- The timer after an accepted `start c`. -/
def Clocked.started (clock : ℕ → K) (s : Clocked K) (c : String) : Clocked K :=
  ⟨{ s.timer with startTime := Function.update s.timer.startTime c (some (clock s.ticks)) }, s.ticks + 1⟩

/-- The timer after an accepted `stop c` of a category running since `b`. -/
def Clocked.stopped (clock : ℕ → K) (s : Clocked K) (c : String) (b : K) : Clocked K :=
  ⟨{ s.timer with
      cumTime := Function.update s.timer.cumTime c (s.timer.cumTime c + (clock s.ticks - b))
      startTime := Function.update s.timer.startTime c none }, s.ticks + 1⟩

theorem start_apply (clock : ℕ → K) (c : String) (s : Clocked K) :
    TM.start clock c s = if c ∉ s.timer.cats then (.error .valueError, s)
      else match s.timer.startTime c with
        | some _ => (.error .runtimeError, s)
        | none => (.ok (), s.started clock c) := by
  unfold TM.start Timer.start Clocked.started
  by_cases h : c ∈ s.timer.cats
  · cases h2 : s.timer.startTime c <;> simp [h]
  · simp [h]

theorem stop_apply (clock : ℕ → K) (c : String) (s : Clocked K) :
    TM.stop clock c s = if c ∉ s.timer.cats then (.error .valueError, s)
      else match s.timer.startTime c with
        | none => (.error .runtimeError, s)
        | some b => (.ok (), s.stopped clock c b) := by
  unfold TM.stop Timer.stop Clocked.stopped
  by_cases h : c ∈ s.timer.cats
  · cases h2 : s.timer.startTime c <;> simp [h]
  · simp [h]

theorem Post.start {clock : ℕ → K} {c : String} {s : Clocked K} {Q : Unit → Clocked K → Prop}
    (h : c ∈ s.timer.cats → s.timer.startTime c = none → Q () (s.started clock c)) :
    Post (TM.start clock c) s Q := by
  intro a s' e
  rw [start_apply] at e
  by_cases hc : c ∈ s.timer.cats
  · cases h2 : s.timer.startTime c with
    | none =>
      rw [if_neg (not_not.2 hc), h2] at e
      simp only [Prod.mk.injEq, Except.ok.injEq] at e
      obtain ⟨_, rfl⟩ := e
      exact h hc h2
    | some b =>
      rw [if_neg (not_not.2 hc), h2] at e
      simp at e
  · rw [if_pos hc] at e
    simp at e

theorem Post.stop {clock : ℕ → K} {c : String} {s : Clocked K} {Q : Unit → Clocked K → Prop}
    (h : c ∈ s.timer.cats → ∀ b, s.timer.startTime c = some b → Q () (s.stopped clock c b)) :
    Post (TM.stop clock c) s Q := by
  intro a s' e
  rw [stop_apply] at e
  by_cases hc : c ∈ s.timer.cats
  · cases h2 : s.timer.startTime c with
    | none =>
      rw [if_neg (not_not.2 hc), h2] at e
      simp at e
    | some b =>
      rw [if_neg (not_not.2 hc), h2] at e
      simp only [Prod.mk.injEq, Except.ok.injEq] at e
      obtain ⟨_, rfl⟩ := e
      exact h hc b h2
  · rw [if_pos hc] at e
    simp at e

/-! ## The running categories form a stack -/

/-- Between `s` and `s'` exactly the categories of `cs` have been started and not stopped again, and
no other start time has changed. -/
structure Pushed (cs : List String) (s s' : Clocked K) : Prop where
  cats : s'.timer.cats = s.timer.cats
  nodup : cs.Nodup
  other : ∀ c, c ∉ cs → s'.timer.startTime c = s.timer.startTime c
  idle : ∀ c ∈ cs, s.timer.startTime c = none
  runs : ∀ c ∈ cs, s'.timer.startTime c ≠ none

theorem Pushed.refl (s : Clocked K) : Pushed [] s s :=
  ⟨rfl, List.nodup_nil, fun _ _ => rfl, by simp, by simp⟩

theorem Pushed.start {cs : List String} {s s' : Clocked K} (h : Pushed cs s s') (clock : ℕ → K)
    {c : String} (hc : s'.timer.startTime c = none) : Pushed (c :: cs) s (s'.started clock c) := by
  have hn : c ∉ cs := fun m => h.runs c m hc
  refine ⟨h.cats, List.nodup_cons.2 ⟨hn, h.nodup⟩, ?_, ?_, ?_⟩
  · intro x hx
    rw [List.mem_cons, not_or] at hx
    show Function.update _ _ _ _ = _
    rw [Function.update_of_ne hx.1]
    exact h.other x hx.2
  · intro x hx
    rcases List.mem_cons.1 hx with rfl | hx
    · rw [← h.other x hn]; exact hc
    · exact h.idle x hx
  · intro x hx
    show Function.update _ _ _ _ ≠ _
    by_cases e : x = c
    · subst e; rw [Function.update_self]; simp
    · rw [Function.update_of_ne e]
      exact h.runs x ((List.mem_cons.1 hx).resolve_left e)

theorem Pushed.stop {cs : List String} {s s' : Clocked K} {c : String} (h : Pushed (c :: cs) s s')
    (clock : ℕ → K) (b : K) : Pushed cs s (s'.stopped clock c b) := by
  have hn := List.nodup_cons.1 h.nodup
  refine ⟨h.cats, hn.2, ?_, fun x hx => h.idle x (List.mem_cons_of_mem _ hx), ?_⟩
  · intro x hx
    show Function.update _ _ _ _ = _
    by_cases e : x = c
    · subst e; rw [Function.update_self]; exact (h.idle x (by simp)).symm
    · rw [Function.update_of_ne e]
      exact h.other x (by simp [e, hx])
  · intro x hx
    show Function.update _ _ _ _ ≠ _
    have e : x ≠ c := fun e => hn.1 (e ▸ hx)
    rw [Function.update_of_ne e]
    exact h.runs x (List.mem_cons_of_mem _ hx)

theorem Pushed.trans {cs : List String} {s s' s'' : Clocked K} (h : Pushed cs s s')
    (k : Pushed [] s' s'') : Pushed cs s s'' := by
  have e : s''.timer.startTime = s'.timer.startTime := funext fun c => k.other c (by simp)
  exact ⟨k.cats.trans h.cats, h.nodup, fun c hc => by rw [e]; exact h.other c hc, h.idle,
    fun c hc => by rw [e]; exact h.runs c hc⟩

/-- A successful call leaves exactly the categories running that were running before, since the same
instants. -/
structure Balanced (m : TM K α) : Prop where
  keeps : ∀ s a s', m s = (.ok a, s') → s'.timer.cats = s.timer.cats ∧ s'.timer.startTime = s.timer.startTime

theorem balanced_iff {m : TM K α} : Balanced m ↔ ∀ s, Post m s fun _ s' => Pushed [] s s' := by
  constructor
  · intro h s a s' e
    obtain ⟨h1, h2⟩ := h.keeps s a s' e
    exact ⟨h1, List.nodup_nil, fun c _ => by rw [h2], by simp, by simp⟩
  · refine fun h => ⟨fun s a s' e => ?_⟩
    exact ⟨(h s a s' e).cats, funext fun c => (h s a s' e).other c (by simp)⟩

/-- Statement by statement: continue after a balanced call. -/
theorem Post.call {m : TM K α} {k : α → TM K β} {cs : List String} {s s' : Clocked K}
    {Q : β → Clocked K → Prop} (hm : Balanced m) (h : Pushed cs s s')
    (hk : ∀ a s'', Pushed cs s s'' → Post (k a) s'' Q) : Post (m >>= k) s' Q :=
  Post.bind fun a s'' e => hk a s'' (h.trans ((balanced_iff.1 hm) s' a s'' e))

theorem Post.push {clock : ℕ → K} {c : String} {k : Unit → TM K β} {cs : List String} {s s' : Clocked K}
    {Q : β → Clocked K → Prop} (h : Pushed cs s s')
    (hk : ∀ s'', Pushed (c :: cs) s s'' → Post (k ()) s'' Q) : Post (TM.start clock c >>= k) s' Q :=
  Post.bind (Post.start fun _ h2 => hk _ (h.start clock h2))

theorem Post.pop {clock : ℕ → K} {c : String} {k : Unit → TM K β} {cs : List String} {s s' : Clocked K}
    {Q : β → Clocked K → Prop} (h : Pushed (c :: cs) s s')
    (hk : ∀ s'', Pushed cs s s'' → Post (k ()) s'' Q) : Post (TM.stop clock c >>= k) s' Q :=
  Post.bind (Post.stop fun _ b _ => hk _ (h.stop clock b))

theorem Balanced.lift (x : Except PyErr α) : Balanced (TM.lift x : TM K α) :=
  balanced_iff.2 fun s => Post.lift fun _ _ => Pushed.refl s

theorem Balanced.pure (a : α) : Balanced (Pure.pure a : TM K α) :=
  balanced_iff.2 fun s => Post.pure (Pushed.refl s)

theorem Balanced.bind {m : TM K α} {k : α → TM K β} (hm : Balanced m) (hk : ∀ a, Balanced (k a)) :
    Balanced (m >>= k) :=
  balanced_iff.2 fun s => Post.call hm (Pushed.refl s) fun a s' h =>
    ((balanced_iff.1 (hk a)) s').mono fun _ _ h' => h.trans h'

theorem Balanced.ite {m k : TM K α} {c : Prop} [Decidable c] (hm : Balanced m) (hk : Balanced k) :
    Balanced (if c then m else k) := by
  split <;> assumption

/-! ## The same results as without timer -/

/-- The category exists and is not running. -/
def Idle (s : Clocked K) (c : String) : Prop := c ∈ s.timer.cats ∧ s.timer.startTime c = none

/-- Whenever the categories `cs` are idle, the method `m` succeeds exactly when `e` does, and then with
the same result. -/
structure Agrees (cs : List String) (m : TM K α) (e : Except PyErr α) : Prop where
  agrees : ∀ s, (∀ c ∈ cs, Idle s c) → ∀ a, (m s).1 = .ok a ↔ e = .ok a

theorem Pushed.idle' {cs : List String} {s s' : Clocked K} (h : Pushed cs s s') {c : String}
    (hi : Idle s c) (hc : c ∉ cs) : Idle s' c :=
  ⟨h.cats ▸ hi.1, by rw [h.other c hc]; exact hi.2⟩

/-- `m` agrees with `e` when run in the state `s'`. -/
def AgreesAt (m : TM K α) (e : Except PyErr α) (s' : Clocked K) : Prop :=
  ∀ a, (m s').1 = .ok a ↔ e = .ok a

theorem AgreesAt.lift {x : Except PyErr α} {s' : Clocked K} : AgreesAt (TM.lift x) x s' :=
  fun _ => Iff.rfl

theorem AgreesAt.pure {a : α} {s' : Clocked K} : AgreesAt (Pure.pure a) (.ok a) s' :=
  fun _ => Iff.rfl

theorem except_bind_ok {x : Except PyErr α} {k : α → Except PyErr β} {b : β} :
    (x >>= k) = .ok b ↔ ∃ a, x = .ok a ∧ k a = .ok b := by
  cases x <;> simp [bind, Except.bind]

theorem AgreesAt.bind {m : TM K α} {k : α → TM K β} {x : Except PyErr α} {y : α → Except PyErr β}
    {s : Clocked K} (hm : AgreesAt m x s) (hk : Post m s fun a s' => AgreesAt (k a) (y a) s') :
    AgreesAt (m >>= k) (x >>= y) s := by
  intro b
  rw [TM.bind_apply, except_bind_ok]
  rcases h : m s with ⟨r, s1⟩
  cases r with
  | error e =>
    simp only [reduceCtorEq, false_iff, not_exists, not_and]
    intro a ha
    have := (hm a).2 ha
    rw [h] at this
    simp at this
  | ok a =>
    have ha : x = .ok a := (hm a).1 (by rw [h])
    subst ha
    simpa using hk a s1 h b

/-- Statement by statement: continue after a balanced call that agrees. -/
theorem AgreesAt.call {m : TM K α} {k : α → TM K β} {x : Except PyErr α} {y : α → Except PyErr β}
    {all cs : List String} {s s' : Clocked K} {used : List String} (hm : Balanced m)
    (ha : Agrees used m x) (hs : ∀ c ∈ all, Idle s c) (h : Pushed cs s s')
    (hu : ∀ c ∈ used, c ∈ all ∧ c ∉ cs)
    (hk : ∀ a s'', Pushed cs s s'' → AgreesAt (k a) (y a) s'') : AgreesAt (m >>= k) (x >>= y) s' :=
  AgreesAt.bind (ha.agrees s' fun c hc => h.idle' (hs c (hu c hc).1) (hu c hc).2) fun a s'' e =>
    hk a s'' (h.trans ((balanced_iff.1 hm) s' a s'' e))

theorem AgreesAt.expr {k : α → TM K β} {x : Except PyErr α} {y : α → Except PyErr β} {s' : Clocked K}
    (hk : ∀ a, AgreesAt (k a) (y a) s') : AgreesAt (TM.lift x >>= k) (x >>= y) s' :=
  AgreesAt.bind AgreesAt.lift (Post.lift fun a _ => hk a)

theorem AgreesAt.push {clock : ℕ → K} {c : String} {k : Unit → TM K β} {y : Except PyErr β}
    {all cs : List String} {s s' : Clocked K} (hs : ∀ c ∈ all, Idle s c) (h : Pushed cs s s')
    (hc : c ∈ all) (hn : c ∉ cs) (hk : ∀ s'', Pushed (c :: cs) s s'' → AgreesAt (k ()) y s'') :
    AgreesAt (TM.start clock c >>= k) y s' := by
  have hi := h.idle' (hs c hc) hn
  intro b
  rw [TM.bind_apply, start_apply, if_neg (not_not.2 hi.1), hi.2]
  exact hk _ (h.start clock hi.2) b

theorem AgreesAt.pop {clock : ℕ → K} {c : String} {k : Unit → TM K β} {y : Except PyErr β}
    {all cs : List String} {s s' : Clocked K} (hs : ∀ c ∈ all, Idle s c) (h : Pushed (c :: cs) s s')
    (hc : c ∈ all) (hk : ∀ s'', Pushed cs s s'' → AgreesAt (k ()) y s'') :
    AgreesAt (TM.stop clock c >>= k) y s' := by
  have hi : c ∈ s'.timer.cats := h.cats ▸ (hs c hc).1
  obtain ⟨b, hb⟩ := Option.ne_none_iff_exists'.1 (h.runs c (by simp))
  intro r
  rw [TM.bind_apply, stop_apply, if_neg (not_not.2 hi), hb]
  exact hk _ (h.stop clock b) r

theorem Agrees.mono {cs ds : List String} {m : TM K α} {e : Except PyErr α} (h : Agrees cs m e)
    (i : cs ⊆ ds) : Agrees ds m e := ⟨fun s hs => h.agrees s fun c hc => hs c (i hc)⟩

end FVHOE
