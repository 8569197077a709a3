import Verif.Model.ArrayManager
import Verif.Model.HydroState
import Mathlib.Data.List.Induction
import Mathlib.Order.Basic
import Mathlib.Algebra.Order.Monoid.NatCast

/-!
C47 (array manager) and C48 (variable names).
-/

namespace FVHOE

variable {α : Type}

/-! ### C47 -/

/-- The operation is not a switch between numpy and cupy. -/
def AMOp.noToggle : AMOp α → Prop
  | .enable => False
  | .disable => False
  | _ => True

/-- Well-formedness: the stored references are allocated arrays. -/
structure AMState.WF (s : AMState α) : Prop where
  stored : ∀ name r, s.arrays name = some r → r < s.next ∧ (s.heap r).content.isSome

theorem PyObj.set_content (o : PyObj α) (c : α) : (o.set c).content.isSome = o.content.isSome := by
  cases o <;> rfl

theorem AMState.WF.step {s : AMState α} (h : s.WF) (avail : Bool) (op : AMOp α)
    (hop : ∀ name ref, op = .add name ref → ref < s.next) : (s.step avail op).1.WF := by
  have hw : ∀ ref c, (s.write ref c).WF := by
    intro ref c
    constructor
    intro name r hr
    obtain ⟨h1, h2⟩ := h.stored name r hr
    refine ⟨h1, ?_⟩
    simp only [AMState.write]
    by_cases e : r = ref
    · subst e; simp [PyObj.set_content, h2]
    · simpa [Function.update_of_ne e] using h2
  have hal : ∀ o, (s.alloc o).1.WF := by
    intro o
    constructor
    intro name r hr
    obtain ⟨h1, h2⟩ := h.stored name r hr
    simp only [AMState.alloc]
    exact ⟨by omega, by rw [Function.update_of_ne (by omega)]; exact h2⟩
  cases op with
  | enable => simp only [AMState.step, AMState.enable]; split <;> exact ⟨h.stored⟩
  | disable => exact ⟨h.stored⟩
  | add name ref =>
    have hlt := hop name ref rfl
    simp only [AMState.step, AMState.add]
    split
    · exact h
    · cases ho : s.heap ref with
      | numpy c =>
        simp only
        split
        · constructor
          intro nm r hr
          simp only [AMState.alloc] at hr ⊢
          by_cases e : nm = name
          · subst e
            simp at hr
            subst hr
            simp [PyObj.content]
          · rw [Function.update_of_ne e] at hr
            obtain ⟨h1, h2⟩ := h.stored nm r hr
            exact ⟨by omega, by rw [Function.update_of_ne (by omega)]; exact h2⟩
        · constructor
          intro nm r hr
          simp only at hr ⊢
          by_cases e : nm = name
          · subst e
            simp at hr
            subst hr
            exact ⟨hlt, by simp [ho, PyObj.content]⟩
          · rw [Function.update_of_ne e] at hr
            exact h.stored nm r hr
      | cupy c => exact h
      | other => exact h
  | remove name =>
    simp only [AMState.step, AMState.remove]
    split
    · exact h
    · constructor
      intro nm r hr
      simp only at hr ⊢
      by_cases e : nm = name
      · subst e; simp at hr
      · rw [Function.update_of_ne e] at hr
        exact h.stored nm r hr
  | getNumpy name =>
    simp only [AMState.step, AMState.getNumpy]
    split
    · exact h
    · split
      · split
        · exact hal _
        · exact h
      · exact hal _
  | call name => exact h
  | writeVia name c =>
    simp only [AMState.step]
    split
    · exact h
    · exact hw _ _
  | write ref c => exact hw ref c
  | new o => exact hal o

/-- References used by the caller in `add` are allocated at that time. -/
def ValidOps (avail : Bool) : AMState α → List (AMOp α) → Prop
  | _, [] => True
  | s, op :: ops => (∀ name ref, op = .add name ref → ref < s.next) ∧
      (∀ ref c, op = .write ref c → ref < s.next) ∧ ValidOps avail (s.step avail op).1 ops

theorem exec_append (avail : Bool) (s : AMState α) (a b : List (AMOp α)) :
    s.exec avail (a ++ b) = (s.exec avail a).exec avail b := by
  induction a generalizing s with
  | nil => rfl
  | cons x a ih => exact ih _

/-- Only a successful `add` of the name binds it, only a successful `remove` unbinds it. -/
theorem step_arrays (avail : Bool) (s : AMState α) (op : AMOp α) (name : String) :
    (s.step avail op).1.arrays name = s.arrays name ∨
    (∃ ref, op = .add name ref ∧ (s.step avail op).2 = .ok none) ∨
    (op = .remove name ∧ (s.step avail op).2 = .ok none) := by
  cases op with
  | enable => left; simp only [AMState.step, AMState.enable]; split <;> rfl
  | disable => exact Or.inl rfl
  | add nm ref =>
    simp only [AMState.step, AMState.add]
    split
    · exact Or.inl rfl
    · by_cases e : name = nm
      · subst e
        cases s.heap ref with
        | numpy c =>
          right; left
          refine ⟨ref, rfl, ?_⟩
          simp only
          split <;> rfl
        | cupy c => exact Or.inl rfl
        | other => exact Or.inl rfl
      · left
        cases s.heap ref with
        | numpy c =>
          simp only
          split
          · simp [AMState.alloc, Function.update_of_ne e]
          · simp [Function.update_of_ne e]
        | cupy c => rfl
        | other => rfl
  | remove nm =>
    simp only [AMState.step, AMState.remove]
    split
    · exact Or.inl rfl
    · by_cases e : name = nm
      · subst e; exact Or.inr (Or.inr ⟨rfl, rfl⟩)
      · left; simp [Function.update_of_ne e]
  | getNumpy nm =>
    left
    simp only [AMState.step, AMState.getNumpy]
    split
    · rfl
    · split
      · split <;> rfl
      · rfl
  | call nm => exact Or.inl rfl
  | writeVia nm c =>
    left
    simp only [AMState.step]
    split <;> rfl
  | write ref c => exact Or.inl rfl
  | new o => exact Or.inl rfl

/-- The array that a successful `add name ref` in state `s` stores: the caller's own array while cupy is
off, a new cupy copy while it is on. -/
def StoredBy (avail : Bool) (s : AMState α) (name : String) (ref r : ℕ) : Prop :=
  ∃ c, s.heap ref = .numpy c ∧
    (s.usingCupy = false → r = ref) ∧
    (s.usingCupy = true → r = s.next ∧ (s.step avail (.add name ref)).1.heap r = .cupy c)

/-- **C47, lookup** After any sequence of operations (failed ones included), a lookup of `name` succeeds
with array `r` exactly when some earlier `add name` succeeded, stored `r`, and no later `remove name`
succeeded. -/
theorem C47_lookup (avail cupy : Bool) (heap : ℕ → PyObj α) (next : ℕ) (ops : List (AMOp α))
    (name : String) (r : ℕ) :
    ((AMState.init heap next cupy).exec avail ops).call name = .ok r ↔
      ∃ pre ref post, ops = pre ++ .add name ref :: post ∧
        let s := (AMState.init heap next cupy).exec avail pre
        (s.step avail (.add name ref)).2 = .ok none ∧ StoredBy avail s name ref r ∧
        ∀ mid rest, post = mid ++ .remove name :: rest →
          ((s.exec avail (.add name ref :: mid)).step avail (.remove name)).2 ≠ .ok none := by
  have hcall : ∀ s : AMState α, s.call name = .ok r ↔ s.arrays name = some r := by
    intro s
    unfold AMState.call
    cases s.arrays name with
    | none => simp
    | some x => simp
  rw [hcall]
  induction ops using List.reverseRecOn with
  | nil =>
    simp only [AMState.exec, AMState.init]
    constructor
    · intro h; cases h
    · rintro ⟨pre, ref, post, h, _⟩
      simp at h
  | append_singleton ops op ih =>
    rw [exec_append]
    change ((((AMState.init heap next cupy).exec avail ops).step avail op).1.arrays name = some r) ↔ _
    generalize hs : (AMState.init heap next cupy).exec avail ops = s at *
    -- the decompositions of ops ++ [op] that end inside ops
    have ext : (∃ pre ref post, ops ++ [op] = pre ++ .add name ref :: (post ++ [op]) ∧
        let s := (AMState.init heap next cupy).exec avail pre
        (s.step avail (.add name ref)).2 = .ok none ∧ StoredBy avail s name ref r ∧
        ∀ mid rest, post ++ [op] = mid ++ .remove name :: rest →
          ((s.exec avail (.add name ref :: mid)).step avail (.remove name)).2 ≠ .ok none) ↔
        s.arrays name = some r ∧ (op = .remove name → (s.step avail (.remove name)).2 ≠ .ok none) := by
      refine Iff.trans ?_ (and_congr_left' ih).symm
      constructor
      · rintro ⟨pre, ref, post, h1, h2, h3, h4⟩
        have h1' : ops = pre ++ .add name ref :: post := by
          have : ops ++ [op] = (pre ++ .add name ref :: post) ++ [op] := by simpa using h1
          exact (List.append_inj' this rfl).1
        refine ⟨⟨pre, ref, post, h1', h2, h3, fun mid rest hm => ?_⟩, fun ho => ?_⟩
        · exact h4 mid (rest ++ [op]) (by rw [hm]; simp)
        · have := h4 post [] (by rw [ho])
          rwa [← exec_append, ← h1', hs] at this
      · rintro ⟨⟨pre, ref, post, h1, h2, h3, h4⟩, h5⟩
        refine ⟨pre, ref, post, by rw [h1]; simp, h2, h3, fun mid rest hm => ?_⟩
        rcases List.eq_nil_or_concat rest with rfl | ⟨rest', x, rfl⟩
        · have e : post ++ [op] = mid ++ [.remove name] := hm
          obtain ⟨rfl, e2⟩ := List.append_inj' e rfl
          have ho : op = .remove name := by simpa using e2
          have := h5 ho
          rwa [← exec_append, ← h1, hs]
        · have e : post ++ [op] = (mid ++ .remove name :: rest') ++ [x] := by simpa using hm
          exact h4 mid rest' (List.append_inj' e rfl).1
    have split_ : (∃ pre ref post, ops ++ [op] = pre ++ .add name ref :: post ∧
        let s := (AMState.init heap next cupy).exec avail pre
        (s.step avail (.add name ref)).2 = .ok none ∧ StoredBy avail s name ref r ∧
        ∀ mid rest, post = mid ++ .remove name :: rest →
          ((s.exec avail (.add name ref :: mid)).step avail (.remove name)).2 ≠ .ok none) ↔
        (s.arrays name = some r ∧ (op = .remove name → (s.step avail (.remove name)).2 ≠ .ok none)) ∨
        ∃ ref, op = .add name ref ∧ (s.step avail (.add name ref)).2 = .ok none ∧ StoredBy avail s name ref r := by
      rw [← ext]
      constructor
      · rintro ⟨pre, ref, post, h1, h2, h3, h4⟩
        rcases List.eq_nil_or_concat post with rfl | ⟨post', x, rfl⟩
        · right
          obtain ⟨e1, e2⟩ := List.append_inj' (h1 : ops ++ [op] = pre ++ [.add name ref]) rfl
          subst e1
          rw [hs] at h2 h3
          exact ⟨ref, by simpa using e2, h2, h3⟩
        · left
          have e : ops ++ [op] = (pre ++ .add name ref :: post') ++ [x] := by simpa using h1
          obtain ⟨_, e2⟩ := List.append_inj' e rfl
          have hx : x = op := by simpa using e2.symm
          subst hx
          exact ⟨pre, ref, post', by simpa using h1, h2, h3, by simpa using h4⟩
      · rintro (⟨pre, ref, post, h1, h2, h3, h4⟩ | ⟨ref, rfl, h2, h3⟩)
        · exact ⟨pre, ref, post ++ [op], h1, h2, h3, h4⟩
        · refine ⟨ops, ref, [], rfl, by rw [hs]; exact h2, by rw [hs]; exact h3, fun mid rest hm => ?_⟩
          cases mid <;> cases hm
    rw [split_]
    -- one step
    have hadd : ∀ ref, (s.step avail (.add name ref)).2 = .ok none →
        ((s.step avail (.add name ref)).1.arrays name = some r ↔ StoredBy avail s name ref r) ∧
          s.arrays name = none := by
      intro ref
      unfold StoredBy
      simp only [AMState.step, AMState.add]
      by_cases hb : (s.arrays name).isSome
      · rw [if_pos hb]; intro h; cases h
      · rw [if_neg hb]
        have hn : s.arrays name = none := by simpa using hb
        cases s.heap ref with
        | numpy c =>
          intro _
          refine ⟨?_, hn⟩
          cases s.usingCupy with
          | true =>
            simp [AMState.alloc]
            constructor
            · rintro rfl; simp
            · intro h; exact h.1.symm
          | false => simp [eq_comm]
        | cupy c => intro h; cases h
        | other => intro h; cases h
    have hrem : (s.step avail (.remove name)).2 = .ok none →
        (s.step avail (.remove name)).1.arrays name = none := by
      simp only [AMState.step, AMState.remove]
      cases s.arrays name with
      | none => intro h; cases h
      | some x => intro _; simp
    have hkeep : ∀ op', (s.step avail op').1.arrays name = s.arrays name →
        ((s.step avail op').1.arrays name = some r ↔ s.arrays name = some r) := fun _ h => by rw [h]
    constructor
    · intro h
      rcases step_arrays avail s op name with e | ⟨ref, rfl, e⟩ | ⟨rfl, e⟩
      · rw [e] at h
        refine Or.inl ⟨h, fun ho hok => ?_⟩
        subst ho
        have := hrem hok
        rw [e, h] at this
        cases this
      · exact Or.inr ⟨ref, rfl, e, (hadd ref e).1.1 h⟩
      · rw [hrem e] at h; cases h
    · rintro (⟨h, h2⟩ | ⟨ref, rfl, h2, h3⟩)
      · rcases step_arrays avail s op name with e | ⟨ref, rfl, e⟩ | ⟨rfl, e⟩
        · rw [e]; exact h
        · have := (hadd ref e).2
          rw [h] at this
          cases this
        · exact absurd e (h2 rfl)
      · exact (hadd ref h2).1.2 h3

/-- **C47, errors** Adding under an existing name raises KeyError, adding anything but a numpy array
TypeError; removing, looking up or copying an unknown name raises KeyError; in each case nothing
changes. In all other cases the operation succeeds. -/
theorem C47_errors (avail : Bool) (s : AMState α) (name : String) (ref : ℕ) :
    ((s.arrays name).isSome → s.step avail (.add name ref) = (s, .error .keyError)) ∧
    (s.arrays name = none → (∀ c, s.heap ref ≠ .numpy c) →
      s.step avail (.add name ref) = (s, .error .typeError)) ∧
    (s.arrays name = none → (∃ c, s.heap ref = .numpy c) →
      (s.step avail (.add name ref)).2 = .ok none) ∧
    (s.arrays name = none → s.step avail (.remove name) = (s, .error .keyError) ∧
      s.step avail (.getNumpy name) = (s, .error .keyError) ∧
      s.step avail (.call name) = (s, .error .keyError)) ∧
    ((s.arrays name).isSome → (s.step avail (.remove name)).2 = .ok none ∧
      (∃ r, (s.step avail (.getNumpy name)).2 = .ok (some r)) ∧
      ∃ r, s.step avail (.call name) = (s, .ok (some r))) := by
  refine ⟨fun h => ?_, fun h1 h2 => ?_, fun h1 h2 => ?_, fun h => ?_, fun h => ?_⟩
  · simp only [AMState.step, AMState.add, if_pos h]; rfl
  · simp only [AMState.step, AMState.add, h1, Option.isSome_none, Bool.false_eq_true, if_false]
    cases ho : s.heap ref with
    | numpy c => exact absurd ho (h2 c)
    | cupy c => rfl
    | other => rfl
  · obtain ⟨c, hc⟩ := h2
    simp only [AMState.step, AMState.add, h1, Option.isSome_none, Bool.false_eq_true, if_false, hc]
    split <;> rfl
  · refine ⟨?_, ?_, ?_⟩
    · simp only [AMState.step, AMState.remove, h]; rfl
    · simp only [AMState.step, AMState.getNumpy, h]; rfl
    · simp only [AMState.step, AMState.call, h]; rfl
  · obtain ⟨r, hr⟩ := Option.isSome_iff_exists.1 h
    refine ⟨?_, ?_, ?_⟩
    · simp only [AMState.step, AMState.remove, hr]; rfl
    · simp only [AMState.step, AMState.getNumpy, hr]
      split
      · split
        · exact ⟨_, rfl⟩
        · exact ⟨_, rfl⟩
      · exact ⟨_, rfl⟩
    · exact ⟨r, by simp only [AMState.step, AMState.call, hr]; rfl⟩

/-- All stored arrays are of the kind the switch says. -/
def KindOK (s : AMState α) : Prop := ∀ name r, s.arrays name = some r →
  ∃ c, s.heap r = if s.usingCupy then .cupy c else .numpy c

theorem PyObj.set_kind (o : PyObj α) (b : Bool) (c : α) (h : ∃ c, o = if b then .cupy c else .numpy c) :
    ∃ c', o.set c = if b then .cupy c' else .numpy c' := by
  obtain ⟨c0, rfl⟩ := h
  cases b <;> exact ⟨c, rfl⟩

theorem KindOK.step {s : AMState α} (hw : s.WF) (h : KindOK s) (avail : Bool) (op : AMOp α)
    (hop : op.noToggle) : KindOK (s.step avail op).1 ∧ (s.step avail op).1.usingCupy = s.usingCupy := by
  have hal : ∀ o, KindOK (s.alloc o).1 := by
    intro o name r hr
    obtain ⟨h1, _⟩ := hw.stored name r hr
    obtain ⟨c, hc⟩ := h name r hr
    refine ⟨c, ?_⟩
    simp only [AMState.alloc]
    rw [Function.update_of_ne (by omega)]
    exact hc
  have hwr : ∀ ref c, KindOK (s.write ref c) := by
    intro ref c name r hr
    simp only [AMState.write]
    by_cases e : r = ref
    · subst e
      rw [Function.update_self]
      exact PyObj.set_kind _ _ _ (h name r hr)
    · rw [Function.update_of_ne e]
      exact h name r hr
  cases op with
  | enable => cases hop
  | disable => cases hop
  | add name ref =>
    simp only [AMState.step, AMState.add]
    split
    · exact ⟨h, rfl⟩
    · cases ho : s.heap ref with
      | numpy c =>
        simp only
        split
        · rename_i hc
          refine ⟨?_, rfl⟩
          intro nm r hr
          simp only [AMState.alloc] at hr ⊢
          by_cases e : nm = name
          · subst e
            simp at hr
            subst hr
            exact ⟨c, by simp [hc]⟩
          · rw [Function.update_of_ne e] at hr
            have := (hw.stored nm r hr).1
            rw [Function.update_of_ne (by omega)]
            exact h nm r hr
        · rename_i hc
          refine ⟨?_, rfl⟩
          intro nm r hr
          simp only at hr ⊢
          by_cases e : nm = name
          · subst e
            simp at hr
            subst hr
            exact ⟨c, by simp [hc, ho]⟩
          · rw [Function.update_of_ne e] at hr
            exact h nm r hr
      | cupy c => exact ⟨h, rfl⟩
      | other => exact ⟨h, rfl⟩
  | remove name =>
    simp only [AMState.step, AMState.remove]
    split
    · exact ⟨h, rfl⟩
    · refine ⟨?_, rfl⟩
      intro nm r hr
      simp only at hr ⊢
      by_cases e : nm = name
      · subst e; simp at hr
      · rw [Function.update_of_ne e] at hr
        exact h nm r hr
  | getNumpy name =>
    simp only [AMState.step, AMState.getNumpy]
    split
    · exact ⟨h, rfl⟩
    · split
      · split
        · exact ⟨hal _, rfl⟩
        · exact ⟨h, rfl⟩
      · exact ⟨hal _, rfl⟩
  | call name => exact ⟨h, rfl⟩
  | writeVia name c =>
    simp only [AMState.step]
    split
    · exact ⟨h, rfl⟩
    · exact ⟨hwr _ _, rfl⟩
  | write ref c => exact ⟨hwr _ _, rfl⟩
  | new o => exact ⟨hal _, rfl⟩

/-- A reference that is neither stored nor written nor added keeps its content. -/
theorem untouched (avail : Bool) (r : ℕ) (ops : List (AMOp α)) : ∀ (s : AMState α), s.WF →
    r < s.next → (∀ name, s.arrays name ≠ some r) → ValidOps avail s ops →
    (∀ op ∈ ops, (∀ c, op ≠ .write r c) ∧ ∀ name, op ≠ .add name r) →
    (s.exec avail ops).heap r = s.heap r := by
  induction ops with
  | nil => intros; rfl
  | cons op ops ih =>
    intro s hw hr hns hv hops
    have h0 := hops op (List.mem_cons_self ..)
    have hnext : s.next ≤ (s.step avail op).1.next := by
      cases op with
      | enable => simp only [AMState.step, AMState.enable]; split <;> exact Nat.le_refl _
      | disable => exact Nat.le_refl _
      | add name ref =>
        simp only [AMState.step, AMState.add]
        split
        · exact Nat.le_refl _
        · split
          · split
            · exact Nat.le_succ _
            · exact Nat.le_refl _
          · exact Nat.le_refl _
      | remove name => simp only [AMState.step, AMState.remove]; split <;> exact Nat.le_refl _
      | getNumpy name =>
        simp only [AMState.step, AMState.getNumpy]
        split
        · exact Nat.le_refl _
        · split
          · split
            · exact Nat.le_succ _
            · exact Nat.le_refl _
          · exact Nat.le_succ _
      | call name => exact Nat.le_refl _
      | writeVia name c => simp only [AMState.step]; split <;> exact Nat.le_refl _
      | write ref c => exact Nat.le_refl _
      | new o => exact Nat.le_succ _
    have hheap : (s.step avail op).1.heap r = s.heap r := by
      have hal : ∀ o, (s.alloc o).1.heap r = s.heap r := fun o => by
        simp only [AMState.alloc]; rw [Function.update_of_ne (by omega)]
      cases op with
      | enable => simp only [AMState.step, AMState.enable]; split <;> rfl
      | disable => rfl
      | add name ref =>
        simp only [AMState.step, AMState.add]
        split
        · rfl
        · split
          · split
            · exact hal _
            · rfl
          · rfl
      | remove name => simp only [AMState.step, AMState.remove]; split <;> rfl
      | getNumpy name =>
        simp only [AMState.step, AMState.getNumpy]
        split
        · rfl
        · split
          · split
            · exact hal _
            · rfl
          · exact hal _
      | call name => rfl
      | writeVia name c =>
        simp only [AMState.step, AMState.call]
        cases hn : s.arrays name with
        | none => rfl
        | some r' =>
          simp only [AMState.write]
          rw [Function.update_of_ne]
          rintro rfl
          exact hns name hn
      | write ref c =>
        simp only [AMState.step, AMState.write]
        rw [Function.update_of_ne]
        rintro rfl
        exact h0.1 c rfl
      | new o => exact hal o
    have hns' : ∀ name, (s.step avail op).1.arrays name ≠ some r := by
      intro name
      have hgen : ∀ s' : AMState α, s'.arrays = s.arrays → s'.arrays name ≠ some r := fun s' e => by
        rw [e]; exact hns name
      cases op with
      | enable => simp only [AMState.step, AMState.enable]; split <;> exact hns name
      | disable => exact hns name
      | add nm ref =>
        simp only [AMState.step, AMState.add]
        split
        · exact hns name
        · split
          · split
            · simp only [AMState.alloc]
              by_cases e : name = nm
              · subst e; simp; omega
              · rw [Function.update_of_ne e]; exact hns name
            · by_cases e : name = nm
              · subst e
                simp
                rintro rfl
                exact h0.2 name rfl
              · simp only [Function.update_of_ne e]; exact hns name
          · exact hns name
      | remove nm =>
        simp only [AMState.step, AMState.remove]
        split
        · exact hns name
        · by_cases e : name = nm
          · subst e; simp
          · simp only [Function.update_of_ne e]; exact hns name
      | getNumpy nm =>
        simp only [AMState.step, AMState.getNumpy]
        split
        · exact hns name
        · split
          · split
            · exact hns name
            · exact hns name
          · exact hns name
      | call nm => exact hns name
      | writeVia nm c => simp only [AMState.step]; split <;> exact hns name
      | write ref c => exact hns name
      | new o => exact hns name
    have := ih _ (hw.step avail op hv.1) (by omega) hns' hv.2.2
      (fun op' ho => hops op' (List.mem_cons_of_mem _ ho))
    exact this.trans hheap

/-- **C47, copies** Let the switch not be toggled. After any operations, `get_numpy` of a known name
returns a new numpy array with the content of the stored one, and no later operation other than a
direct write to that new array (or handing it back to the manager) changes it. -/
theorem C47_copy (avail cupy : Bool) (heap : ℕ → PyObj α) (next : ℕ) (pre post : List (AMOp α))
    (name : String) (r : ℕ)
    (hv : ValidOps avail (AMState.init heap next cupy) (pre ++ .getNumpy name :: post))
    (ht : ∀ op ∈ pre, op.noToggle)
    (hget : (((AMState.init heap next cupy).exec avail pre).step avail (.getNumpy name)).2 = .ok (some r))
    (hpost : ∀ op ∈ post, (∀ c, op ≠ .write r c) ∧ ∀ nm, op ≠ .add nm r) :
    ∃ stored c, ((AMState.init heap next cupy).exec avail pre).call name = .ok stored ∧
      (((AMState.init heap next cupy).exec avail pre).heap stored).content = some c ∧
      ((AMState.init heap next cupy).exec avail pre).next ≤ r ∧
      ((AMState.init heap next cupy).exec avail (pre ++ .getNumpy name :: post)).heap r = .numpy c := by
  have inv : ∀ (ops : List (AMOp α)) (s : AMState α), s.WF → KindOK s → ValidOps avail s ops →
      (∀ op ∈ ops, op.noToggle) → (s.exec avail ops).WF ∧ KindOK (s.exec avail ops) := by
    intro ops
    induction ops with
    | nil => exact fun s h1 h2 _ _ => ⟨h1, h2⟩
    | cons op ops ih =>
      intro s h1 h2 h3 h4
      exact ih _ (h1.step avail op h3.1) (h2.step h1 avail op (h4 op (List.mem_cons_self ..))).1 h3.2.2
        fun op' ho => h4 op' (List.mem_cons_of_mem _ ho)
  have hva : ∀ (a b : List (AMOp α)) (s : AMState α), ValidOps avail s (a ++ b) →
      ValidOps avail s a ∧ ValidOps avail (s.exec avail a) b := by
    intro a
    induction a with
    | nil => exact fun b s h => ⟨trivial, h⟩
    | cons x a ih =>
      intro b s h
      obtain ⟨h1, h2⟩ := ih b _ h.2.2
      exact ⟨⟨h.1, h.2.1, h1⟩, h2⟩
  obtain ⟨hv1, hv2⟩ := hva _ _ _ hv
  obtain ⟨hw, hk⟩ := inv pre (AMState.init heap next cupy) ⟨fun _ _ h => by cases h⟩
    (fun _ _ h => by cases h) hv1 ht
  rw [exec_append]
  generalize (AMState.init heap next cupy).exec avail pre = s at *
  cases hn : s.arrays name with
  | none =>
    simp only [AMState.step, AMState.getNumpy, hn] at hget
    cases hget
  | some stored =>
    obtain ⟨c, hc⟩ := hk name stored hn
    have hstep : (s.step avail (.getNumpy name)).1 = (s.alloc (.numpy c)).1 ∧ r = s.next := by
      simp only [AMState.step, AMState.getNumpy, hn] at hget ⊢
      cases hcu : s.usingCupy with
      | true =>
        simp only [hcu, if_true] at hc hget ⊢
        simp only [hc] at hget ⊢
        refine ⟨trivial, ?_⟩
        simpa [Except.map, AMState.alloc] using hget.symm
      | false =>
        simp only [hcu, Bool.false_eq_true, if_false] at hc hget ⊢
        simp only [hc] at hget ⊢
        refine ⟨trivial, ?_⟩
        simpa [Except.map, AMState.alloc] using hget.symm
    refine ⟨stored, c, by simp [AMState.call, hn], ?_, by rw [hstep.2], ?_⟩
    · rw [hc]; cases s.usingCupy <;> rfl
    · change ((s.step avail (.getNumpy name)).1.exec avail post).heap r = _
      have hv3 := hv2.2.2
      have hw' := hw.step avail (.getNumpy name) hv2.1
      rw [hstep.1] at hv3 hw' ⊢
      rw [untouched avail r post _ hw' (by rw [hstep.2]; exact Nat.lt_succ_self _) ?_ hv3 hpost]
      · simp [AMState.alloc, hstep.2]
      · intro nm hnm
        have := (hw.stored nm r hnm).1
        omega

/-- A manager without cupy: add, write through the caller's own array, copy, write again. The copy holds
the value at the time of copying. -/
example :
    let s := (AMState.init (fun r => if r = 0 then .numpy 7 else .other) 1 false).exec false
      [.add "u" 0, .write 0 8, .getNumpy "u", .writeVia "u" 9]
    s.call "u" = .ok 0 ∧ s.heap 0 = .numpy 9 ∧ s.heap 1 = .numpy 8 := ⟨rfl, rfl, rfl⟩

/-- A world with one numpy array, at reference 0. -/
def oneArray (cupy : Bool) : AMState ℕ :=
  AMState.init (fun r => if r = 0 then .numpy 7 else .other) 1 cupy

/-- Why the switch must not be toggled. Enabling cupy after an array was added makes `get_numpy` return the
stored array itself, so a later write through the manager changes the "copy"; disabling it makes
`get_numpy` return a cupy array. -/
theorem C47_toggle_breaks_copies :
    ((((oneArray false).exec true [.add "u" 0, .enable]).step true (.getNumpy "u")).2 = .ok (some 0) ∧
      ((oneArray false).exec true [.add "u" 0, .enable, .getNumpy "u", .writeVia "u" 9]).heap 0 =
        .numpy 9) ∧
    ∃ r, (((oneArray true).exec true [.add "u" 0, .disable]).step true (.getNumpy "u")).2 =
        .ok (some r) ∧
      ((oneArray true).exec true [.add "u" 0, .disable, .getNumpy "u"]).heap r = .cupy 7 :=
  ⟨⟨rfl, rfl⟩, ⟨2, rfl, rfl⟩⟩

/-! ### C48 -/

/-- The names every solver knows. -/
def reservedNames : List String :=
  ["rho", "vx", "mx", "vy", "my", "vz", "mz", "v", "m", "P", "E", "active_scalars", "passive_scalars"]

theorem addPassives_ne (l : List String) : ∀ (m : VarMap) (i : ℕ) (s : String), s ∉ l →
    addPassives m i l s = m s := by
  induction l with
  | nil => intros; rfl
  | cons a l ih =>
    intro m i s hs
    rw [List.mem_cons, not_or] at hs
    unfold addPassives
    rw [ih _ _ _ hs.2]
    exact Function.update_of_ne hs.1 _ _

theorem addPassives_get (l : List String) : ∀ (m : VarMap) (i k : ℕ) (h : k < l.length), l.Nodup →
    addPassives m i l l[k] = some (.row (i + k)) := by
  induction l with
  | nil => intro m i k h; exact absurd h (Nat.not_lt_zero _)
  | cons a l ih =>
    intro m i k h hd
    rw [List.nodup_cons] at hd
    unfold addPassives
    cases k with
    | zero =>
      rw [List.getElem_cons_zero, addPassives_ne _ _ _ _ hd.1]
      exact Function.update_self ..
    | succ k =>
      rw [List.getElem_cons_succ, ih _ _ _ (by simpa using h) hd.2]
      congr 2
      omega

/-- **C48** For distinct passive names, none of them reserved, construction succeeds and the map is
exactly: rho 0; vx and mx 1; vy and my 2; vz and mz 3; P and E 4; the k-th passive scalar 5 + k; the
groups v and m are rows 1-3, active_scalars rows 0-4, passive_scalars the remaining rows (present only
if there are passive scalars); every other name raises ValueError. -/
theorem C48_slots (passives : List String) (ndim : ℕ) (hd : passives.Nodup)
    (hr : ∀ s ∈ passives, s ∉ reservedNames) :
    ∃ hs, HydroState.init passives ndim = .ok hs ∧ hs.nvars = 5 + passives.length ∧
      hs.sel (.str "rho") = .ok (.ix (.row 0)) ∧
      hs.sel (.str "vx") = .ok (.ix (.row 1)) ∧ hs.sel (.str "mx") = .ok (.ix (.row 1)) ∧
      hs.sel (.str "vy") = .ok (.ix (.row 2)) ∧ hs.sel (.str "my") = .ok (.ix (.row 2)) ∧
      hs.sel (.str "vz") = .ok (.ix (.row 3)) ∧ hs.sel (.str "mz") = .ok (.ix (.row 3)) ∧
      hs.sel (.str "P") = .ok (.ix (.row 4)) ∧ hs.sel (.str "E") = .ok (.ix (.row 4)) ∧
      hs.sel (.str "v") = .ok (.ix (.rows [1, 2, 3])) ∧ hs.sel (.str "m") = .ok (.ix (.rows [1, 2, 3])) ∧
      hs.sel (.str "active_scalars") = .ok (.ix (.rows [0, 1, 2, 3, 4])) ∧
      (∀ k (h : k < passives.length), hs.sel (.str passives[k]) = .ok (.ix (.row (5 + k)))) ∧
      hs.sel (.str "passive_scalars") =
        (if passives = [] then .error .valueError
          else .ok (.ix (.rows (List.range' 5 passives.length)))) ∧
      ∀ s, s ∉ passives → s ∉ reservedNames → hs.sel (.str s) = .error .valueError := by
  have hsel : ∀ (hs : HydroState) s v, hs.map s = some v → hs.sel (.str s) = .ok (.ix v) := by
    intro hs s v h
    simp only [HydroState.sel, h]
  have hsel' : ∀ (hs : HydroState) s, hs.map s = none → hs.sel (.str s) = .error .valueError := by
    intro hs s h
    simp only [HydroState.sel, h]
  have hbase : ∀ s, s ∉ reservedNames →
      baseEntries.foldl (fun m e => VarMap.set m e.1 e.2) (fun _ => none) s = none := by
    intro s hs
    simp only [reservedNames, List.mem_cons, not_or] at hs
    simp [baseEntries, VarMap.set, Function.update, hs]
  by_cases hp : passives = []
  · subst hp
    refine ⟨_, by simp only [HydroState.init]; rw [if_neg (by simp), if_neg (by simp)], rfl,
      rfl, rfl, rfl, rfl, rfl, rfl, rfl, rfl, rfl, rfl, rfl, rfl, ?_, ?_, ?_⟩
    · intro k h; exact absurd h (Nat.not_lt_zero _)
    · rw [if_pos rfl]; exact hsel' _ _ rfl
    · intro s _ hs; exact hsel' _ _ (hbase s hs)
  · have hold : ∀ s v, s ∈ reservedNames → s ≠ "passive_scalars" →
        baseEntries.foldl (fun m e => VarMap.set m e.1 e.2) (fun _ => none) s = some v →
        (addPassives (baseEntries.foldl (fun m e => VarMap.set m e.1 e.2) fun _ => none) 5 passives).set
          "passive_scalars" (.rows (List.range' 5 passives.length)) s = some v := by
      intro s v h1 h2 h3
      unfold VarMap.set
      rw [Function.update_of_ne h2, addPassives_ne _ _ _ _ fun h => hr s h h1]
      exact h3
    refine ⟨_, by simp only [HydroState.init]; rw [if_neg (by simpa using hd), if_pos hp], rfl,
      hsel _ _ _ (hold "rho" _ (by decide) (by decide) rfl),
      hsel _ _ _ (hold "vx" _ (by decide) (by decide) rfl),
      hsel _ _ _ (hold "mx" _ (by decide) (by decide) rfl),
      hsel _ _ _ (hold "vy" _ (by decide) (by decide) rfl),
      hsel _ _ _ (hold "my" _ (by decide) (by decide) rfl),
      hsel _ _ _ (hold "vz" _ (by decide) (by decide) rfl),
      hsel _ _ _ (hold "mz" _ (by decide) (by decide) rfl),
      hsel _ _ _ (hold "P" _ (by decide) (by decide) rfl),
      hsel _ _ _ (hold "E" _ (by decide) (by decide) rfl),
      hsel _ _ _ (hold "v" _ (by decide) (by decide) rfl),
      hsel _ _ _ (hold "m" _ (by decide) (by decide) rfl),
      hsel _ _ _ (hold "active_scalars" _ (by decide) (by decide) rfl),
      ?_, ?_, ?_⟩
    · intro k h
      refine hsel _ _ _ ?_
      have hne : passives[k] ≠ "passive_scalars" := fun e =>
        hr _ (List.getElem_mem h) (by rw [e]; decide)
      change VarMap.set _ _ _ _ = _
      unfold VarMap.set
      rw [Function.update_of_ne hne, addPassives_get _ _ _ _ h hd]
    · rw [if_neg hp]
      exact hsel _ _ _ (by simp [VarMap.set])
    · intro s h1 h2
      refine hsel' _ _ ?_
      change VarMap.set _ _ _ _ = _
      unfold VarMap.set
      rw [Function.update_of_ne (by rintro rfl; exact h2 (by decide)), addPassives_ne _ _ _ _ h1]
      exact hbase s h2

/-- The names of the primitive variables in row order; "rho", "vx", …, "P", then the passive scalars. -/
def rowNames (passives : List String) : List String := ["rho", "vx", "vy", "vz", "P"] ++ passives

/-- **C48, disjoint and covering** Row `i` of the array is addressed by exactly one primitive name, the
`i`-th of them, for every row below nvars. -/
theorem C48_bijection (passives : List String) (ndim : ℕ) (hd : passives.Nodup)
    (hr : ∀ s ∈ passives, s ∉ reservedNames) :
    ∃ hs, HydroState.init passives ndim = .ok hs ∧ (rowNames passives).length = hs.nvars ∧
      ∀ i (h : i < (rowNames passives).length) (j : ℕ),
        hs.sel (.str (rowNames passives)[i]) = .ok (.ix (.row j)) ↔ j = i := by
  obtain ⟨hs, e, hn, h0, h1, _, h2, _, h3, _, h4, _, _, _, _, hp, _⟩ := C48_slots passives ndim hd hr
  refine ⟨hs, e, by simp [rowNames, hn]; omega, ?_⟩
  intro i h j
  have key : hs.sel (.str (rowNames passives)[i]) = .ok (.ix (.row i)) := by
    match i, h with
    | 0, _ => exact h0
    | 1, _ => exact h1
    | 2, _ => exact h2
    | 3, _ => exact h3
    | 4, _ => exact h4
    | k + 5, h =>
      have hk : k < passives.length := by simp [rowNames] at h; omega
      have := hp k hk
      have e : (rowNames passives)[k + 5] = passives[k] := by
        simp [rowNames]
      rw [e, this, Nat.add_comm]
  rw [key]
  constructor
  · intro h; cases h; rfl
  · rintro rfl; rfl

/-- **C48, duplicates** Duplicate passive names raise ValueError. -/
theorem C48_duplicates (passives : List String) (ndim : ℕ) (h : ¬ passives.Nodup) :
    HydroState.init passives ndim = .error .valueError := by
  simp only [HydroState.init, if_pos h]

/-- **C48, tuples** A tuple of names of single rows, or of groups of equally many rows, selects the rows of its members in
order. It raises ValueError when one of them is unknown, and when rows are mixed with groups or with groups of
another length. -/
theorem C48_tuples (hs : HydroState) (l : List String) :
    (∀ is : List ℕ, l.map hs.map = is.map (fun i => some (.row i)) → hs.sel (.tuple l) = .ok (.many (is.map .row))) ∧
    (∀ (k : ℕ) (gs : List (List ℕ)), (∀ g ∈ gs, g.length = k) → l.map hs.map = gs.map (fun g => some (.rows g)) →
      hs.sel (.tuple l) = .ok (.many (gs.map .rows))) ∧
    ((∃ s ∈ l, hs.map s = none) → hs.sel (.tuple l) = .error .valueError) ∧
    (∀ s ∈ l, ∀ s' ∈ l, ∀ g, hs.map s = some (.rows g) →
      ((∃ i, hs.map s' = some (.row i)) ∨ ∃ g', hs.map s' = some (.rows g') ∧ g'.length ≠ g.length) →
      hs.sel (.tuple l) = .error .valueError) := by
  have key : ∀ vs : List VarIx, (∀ v ∈ vs, ∀ w ∈ vs, v.size = w.size) → l.map hs.map = vs.map some →
      hs.sel (.tuple l) = .ok (.many vs) := by
    intro vs hu h
    have hall : (l.all fun s => (hs.map s).isSome) = true := by
      rw [List.all_eq_true]
      intro s hsl
      have : hs.map s ∈ vs.map some := h ▸ List.mem_map_of_mem hsl
      obtain ⟨v, _, hv⟩ := List.mem_map.1 this
      simp [← hv]
    have hf : l.filterMap hs.map = vs := by
      have := congrArg (List.filterMap id) h
      simpa [List.filterMap_map] using this
    simp only [HydroState.sel, hall, if_true, hf]
    rw [if_pos hu]
  refine ⟨fun is h => key _ ?_ (by rw [h, List.map_map]; rfl), fun k gs hk h => key _ ?_ (by rw [h, List.map_map]; rfl), ?_, ?_⟩
  · intro v hv w hw
    obtain ⟨i, _, rfl⟩ := List.mem_map.1 hv
    obtain ⟨j, _, rfl⟩ := List.mem_map.1 hw
    rfl
  · intro v hv w hw
    obtain ⟨g, hg, rfl⟩ := List.mem_map.1 hv
    obtain ⟨g', hg', rfl⟩ := List.mem_map.1 hw
    simp only [VarIx.size, hk g hg, hk g' hg']
  · rintro ⟨s, hsl, hn⟩
    have hall : (l.all fun s => (hs.map s).isSome) = false := by
      rw [List.all_eq_false]
      exact ⟨s, hsl, by simp [hn]⟩
    simp only [HydroState.sel, hall, Bool.false_eq_true, if_false]
  · intro s hsl s' hsl' g hg h
    have hm : ∀ s ∈ l, ∀ v, hs.map s = some v → v ∈ l.filterMap hs.map :=
      fun s hs' v hv => List.mem_filterMap.2 ⟨s, hs', hv⟩
    simp only [HydroState.sel]
    split
    · refine if_neg fun hu => ?_
      rcases h with ⟨i, hi⟩ | ⟨g', hg', hne⟩
      · exact absurd (hu _ (hm s hsl _ hg) _ (hm s' hsl' _ hi)) (by simp [VarIx.size])
      · have := hu _ (hm s hsl _ hg) _ (hm s' hsl' _ hg')
        simp only [VarIx.size, Option.some.injEq] at this
        exact hne this.symm
    · rfl

/-- Rows, groups of three, and a mixture of both. -/
example : ∃ hs, HydroState.init [] 4 = .ok hs ∧ hs.sel (.tuple ["rho", "P"]) = .ok (.many [.row 0, .row 4]) ∧
    hs.sel (.tuple ["v", "m"]) = .ok (.many [.rows [1, 2, 3], .rows [1, 2, 3]]) ∧
    hs.sel (.tuple ["rho", "v"]) = .error .valueError := by
  refine ⟨_, by simp only [HydroState.init]; rw [if_neg (by simp), if_neg (by simp)], ?_, ?_, ?_⟩ <;> decide

/-- Why the passive names must not be reserved: a passive scalar called "P" takes over the name of the
pressure. -/
theorem C48_reserved_collision :
    ∃ hs, HydroState.init ["P"] 4 = .ok hs ∧ hs.sel (.str "P") = .ok (.ix (.row 5)) := by
  refine ⟨_, by simp only [HydroState.init]; rw [if_neg (by simp), if_pos (by simp)], rfl⟩

/-- Two passive scalars. -/
example : (["dye", "smoke"] : List String).Nodup ∧ ∀ s ∈ ["dye", "smoke"], s ∉ reservedNames := by decide

end FVHOE
