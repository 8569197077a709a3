import Verif.Model.Snapshots

/-!
C49 (a completed save is read back exactly; a crash never yields a wrong result).
-/

namespace FVHOE

variable {S : Type}

theorem runCalls_append (fs : FS) (a b : List FSCall) : runCalls fs (a ++ b) = runCalls (runCalls fs a) b :=
  List.foldl_append

/-- Appending bytes one at a time. -/
theorem run_appends (name : String) (d : Dir) (b c : Bytes) (h : d name = some b) :
    runCalls (some d) (c.map (.append name)) = some (Function.update d name (some (b ++ c))) := by
  induction c generalizing d b with
  | nil =>
    simp only [List.map_nil, runCalls, List.foldl_nil, List.append_nil]
    rw [← h, Function.update_eq_self]
  | cons x c ih =>
    change runCalls (some (Function.update d name ((d name).map (· ++ [x])))) _ = _
    rw [h, Option.map_some]
    rw [ih (Function.update d name (some (b ++ [x]))) (b ++ [x]) (by simp)]
    simp

theorem run_writeFile (name : String) (d : Dir) (c : Bytes) :
    runCalls (some d) (writeFile name c) = some (Function.update d name (some c)) := by
  change runCalls (some (Function.update d name (some []))) (c.map (.append name)) = _
  rw [run_appends name _ [] c (by simp)]
  simp

theorem run_unlinks (l : List String) (d : Dir) : ∃ d', runCalls (some d) (l.map .unlink) = some d' ∧
    (d' "arrs.pkl" = d "arrs.pkl" ∨ d' "arrs.pkl" = none) := by
  induction l generalizing d with
  | nil => exact ⟨d, rfl, Or.inl rfl⟩
  | cons x l ih =>
    obtain ⟨d', h1, h2⟩ := ih (Function.update d x none)
    refine ⟨d', h1, ?_⟩
    by_cases hx : "arrs.pkl" = x
    · rw [← hx] at h2
      right
      rcases h2 with h | h
      · simpa using h
      · exact h
    · simpa [Function.update_of_ne hx] using h2

/-- The file "arrs.pkl" as one sees it from outside: directory absent, file absent, or its bytes. -/
def pklOf : FS → Option (Option Bytes)
  | none => none
  | some d => some (d "arrs.pkl")

theorem read_eq (P : Pickle S) (fs : FS) : readSnapshots P fs = match pklOf fs with
    | none => .ok none
    | some none => .error .fileNotFoundError
    | some (some b) => match P.load b with | none => .error .unpicklingError | some l => .ok (some l) := by
  cases fs with
  | none => rfl
  | some d =>
    simp only [readSnapshots, pklOf]
    cases d "arrs.pkl" <;> rfl

/-- Calls on other files leave "arrs.pkl" alone. -/
theorem pkl_other (name : String) (hn : name ≠ "arrs.pkl") (c : Bytes) (calls : List FSCall)
    (h : calls <+: writeFile name c) (d : Dir) :
    ∃ d', runCalls (some d) calls = some d' ∧ d' "arrs.pkl" = d "arrs.pkl" := by
  have key : ∀ (calls : List FSCall) (d : Dir), (∀ x ∈ calls, x = .create name ∨ ∃ b, x = .append name b) →
      ∃ d', runCalls (some d) calls = some d' ∧ d' "arrs.pkl" = d "arrs.pkl" := by
    intro calls
    induction calls with
    | nil => exact fun d _ => ⟨d, rfl, rfl⟩
    | cons x l ih =>
      intro d hx
      have hl := fun d => ih d fun y hy => hx y (List.mem_cons_of_mem _ hy)
      rcases hx x (List.mem_cons_self ..) with rfl | ⟨b, rfl⟩
      · obtain ⟨d', h1, h2⟩ := hl (Function.update d name (some []))
        exact ⟨d', h1, h2.trans (Function.update_of_ne hn.symm _ _)⟩
      · obtain ⟨d', h1, h2⟩ := hl (Function.update d name ((d name).map (· ++ [b])))
        exact ⟨d', h1, h2.trans (Function.update_of_ne hn.symm _ _)⟩
  refine key calls d fun x hx => ?_
  have := h.subset hx
  simp only [writeFile, List.mem_cons, List.mem_map] at this
  rcases this with h | ⟨b, _, h⟩
  · exact Or.inl h
  · exact Or.inr ⟨b, h.symm⟩

theorem prefix_append_cases {α : Type} (l a b : List α) (h : l <+: a ++ b) :
    l <+: a ∨ ∃ m, l = a ++ m ∧ m <+: b := by
  rcases Nat.le_total l.length a.length with hl | hl
  · exact Or.inl (List.prefix_of_prefix_length_le h (List.prefix_append a b) hl)
  · obtain ⟨m, rfl⟩ := List.prefix_of_prefix_length_le (List.prefix_append a b) h hl
    exact Or.inr ⟨m, rfl, (List.prefix_append_right_inj a).1 h⟩

theorem prefix_writeFile (name : String) (c : Bytes) (calls : List FSCall)
    (h : calls <+: writeFile name c) : calls = [] ∨ ∃ b, b <+: c ∧ calls = writeFile name b := by
  unfold writeFile at h
  cases calls with
  | nil => exact Or.inl rfl
  | cons x l =>
    rw [List.cons_prefix_cons] at h
    obtain ⟨rfl, h⟩ := h
    right
    obtain ⟨b, hb, rfl⟩ := List.prefix_map_iff.1 h
    exact ⟨b, hb, rfl⟩

/-- What "arrs.pkl" can look like after the process died during a save. -/
theorem pkl_of_crash (P : Pickle S) (fs : FS) (overwrite : Bool) (listing : List String) (rep : Report)
    (l : List S) (calls : List FSCall)
    (h : calls <+: (writeSnapshots P fs overwrite listing rep l).1) :
    pklOf (runCalls fs calls) = pklOf fs ∨ pklOf (runCalls fs calls) = none ∨
      pklOf (runCalls fs calls) = some none ∨
      ∃ b, b <+: P.dump l ∧ pklOf (runCalls fs calls) = some (some b) := by
  unfold writeSnapshots at h
  by_cases hex : fs.isSome ∧ ¬ overwrite
  · rw [if_pos hex] at h
    have := List.prefix_nil.1 h
    subst this
    exact Or.inl rfl
  rw [if_neg hex] at h
  -- forget the timing report
  have hall : ∃ clear : List FSCall, (clear = if fs.isSome ∧ overwrite then rmtree listing else []) ∧
      calls <+: clear ++ ([.mkdir] ++ (writeFile "arrs.pkl" (P.dump l) ++ (writeFile "attrs.json" rep.json ++
        writeFile "timing.txt" rep.timing))) := by
    refine ⟨_, rfl, ?_⟩
    cases hj : rep.jsonError with
    | some e =>
      simp only [hj] at h
      refine h.trans ?_
      simp only [List.append_assoc]
      exact ⟨writeFile "timing.txt" rep.timing, by simp⟩
    | none =>
      simp only [hj] at h
      simpa using h
  clear h
  obtain ⟨clear, hc, h⟩ := hall
  -- while clearing
  have hclear : ∀ c, c <+: clear → pklOf (runCalls fs c) = pklOf fs ∨ pklOf (runCalls fs c) = none ∨
      pklOf (runCalls fs c) = some none := by
    intro c hcp
    by_cases ho : fs.isSome ∧ overwrite = true
    · rw [hc, if_pos ho] at hcp
      obtain ⟨d, rfl⟩ := Option.isSome_iff_exists.1 ho.1
      unfold rmtree at hcp
      rcases prefix_append_cases _ _ _ hcp with h1 | ⟨m, rfl, h1⟩
      · obtain ⟨l', _, rfl⟩ := List.prefix_map_iff.1 h1
        obtain ⟨d', e1, e2⟩ := run_unlinks l' d
        rw [e1]
        rcases e2 with e2 | e2
        · left; simp [pklOf, e2]
        · right; right; simp [pklOf, e2]
      · rcases List.prefix_cons_iff.1 h1 with rfl | ⟨t, rfl, ht⟩
        · obtain ⟨d', e1, e2⟩ := run_unlinks listing d
          rw [List.append_nil, e1]
          rcases e2 with e2 | e2
          · left; simp [pklOf, e2]
          · right; right; simp [pklOf, e2]
        · rw [List.prefix_nil.1 ht]
          obtain ⟨d', e1, _⟩ := run_unlinks listing d
          rw [runCalls_append, e1]
          right; left; rfl
    · rw [hc, if_neg ho] at hcp
      rw [List.prefix_nil.1 hcp]
      left; rfl
  -- after clearing
  have hnone : runCalls fs clear = none := by
    by_cases ho : fs.isSome ∧ overwrite = true
    · rw [hc, if_pos ho]
      obtain ⟨d, rfl⟩ := Option.isSome_iff_exists.1 ho.1
      obtain ⟨d', e1, _⟩ := run_unlinks listing d
      unfold rmtree
      rw [runCalls_append, e1]
      rfl
    · rw [hc, if_neg ho]
      cases fs with
      | none => rfl
      | some d =>
        exfalso
        simp at hex ho
        rw [hex] at ho
        cases ho
  rcases prefix_append_cases _ _ _ h with h1 | ⟨m, rfl, h2⟩
  · rcases hclear _ h1 with e | e | e
    · exact Or.inl e
    · exact Or.inr (Or.inl e)
    · exact Or.inr (Or.inr (Or.inl e))
  rw [runCalls_append, hnone]
  rcases prefix_append_cases _ _ _ h2 with h1 | ⟨m, rfl, h3⟩
  · rcases List.prefix_cons_iff.1 h1 with rfl | ⟨t, rfl, ht⟩
    · right; left; rfl
    · rw [List.prefix_nil.1 ht]
      right; right; left; rfl
  rw [runCalls_append]
  change pklOf (runCalls (some fun _ => none) m) = _ ∨ _
  rcases prefix_append_cases _ _ _ h3 with h1 | ⟨m', rfl, h4⟩
  · rcases prefix_writeFile _ _ _ h1 with rfl | ⟨b, hb, rfl⟩
    · right; right; left; rfl
    · right; right; right
      refine ⟨b, hb, ?_⟩
      change pklOf (runCalls (some fun _ => none) (writeFile "arrs.pkl" b)) = _
      rw [run_writeFile]
      simp [pklOf]
  · right; right; right
    refine ⟨P.dump l, List.prefix_rfl, ?_⟩
    change pklOf (runCalls (some fun _ => none) (writeFile "arrs.pkl" (P.dump l) ++ m')) = _
    rw [runCalls_append, run_writeFile]
    rcases prefix_append_cases _ _ _ h4 with h1 | ⟨m, rfl, h5⟩
    · obtain ⟨d', e1, e2⟩ := pkl_other "attrs.json" (by decide) _ _ h1
        (Function.update (fun _ => none) "arrs.pkl" (some (P.dump l)))
      rw [e1]
      simp [pklOf, e2]
    · rw [runCalls_append, run_writeFile]
      obtain ⟨d', e1, e2⟩ := pkl_other "timing.txt" (by decide) _ _ h5
        (Function.update (Function.update (fun _ => none) "arrs.pkl" (some (P.dump l))) "attrs.json"
          (some rep.json))
      rw [e1]
      simp [pklOf, e2]

/-- **C49, round trip** If `write_snapshots` returns normally, reading gives exactly the saved list. If it
raises, then because the directory existed without `overwrite` (and nothing was touched), or because
the attributes could not be written as json, and then the saved list still reads back. -/
theorem C49_roundtrip (P : Pickle S) (fs : FS) (overwrite : Bool) (listing : List String) (rep : Report)
    (l : List S) :
    let out := writeSnapshots P fs overwrite listing rep l
    (out.2 = none → readSnapshots P (runCalls fs out.1) = .ok (some l)) ∧
    (∀ e, out.2 = some e →
      (e = .fileExistsError ∧ fs.isSome ∧ overwrite = false ∧ out.1 = []) ∨
      (rep.jsonError = some e ∧ readSnapshots P (runCalls fs out.1) = .ok (some l))) := by
  intro out
  by_cases hex : fs.isSome ∧ ¬ overwrite
  · have ho : out = ([], some .fileExistsError) := by
      simp only [out, writeSnapshots, if_pos hex]
    rw [ho]
    refine ⟨fun h => (by cases h), fun e he => Or.inl ⟨(by cases he; rfl), hex.1, by simpa using hex.2, rfl⟩⟩
  · have hnone : runCalls fs (if fs.isSome ∧ overwrite then rmtree listing else []) = none := by
      by_cases ho : fs.isSome ∧ overwrite = true
      · rw [if_pos ho]
        obtain ⟨d, rfl⟩ := Option.isSome_iff_exists.1 ho.1
        obtain ⟨d', e1, _⟩ := run_unlinks listing d
        unfold rmtree
        rw [runCalls_append, e1]
        rfl
      · rw [if_neg ho]
        cases fs with
        | none => rfl
        | some d =>
          exfalso
          simp at hex ho
          rw [hex] at ho
          cases ho
    have hread : ∀ tail, (∃ c, tail = writeFile "timing.txt" c) ∨ tail = [] →
        readSnapshots P (runCalls fs ((if fs.isSome ∧ overwrite then rmtree listing else []) ++ [.mkdir] ++
          writeFile "arrs.pkl" (P.dump l) ++ writeFile "attrs.json" rep.json ++ tail)) = .ok (some l) := by
      intro tail ht
      rw [runCalls_append, runCalls_append, runCalls_append, runCalls_append, hnone]
      change readSnapshots P (runCalls (runCalls (runCalls (some fun _ => none) _) _) _) = _
      rw [run_writeFile, run_writeFile]
      have : ∃ d', runCalls (some (Function.update (Function.update (fun _ => none) "arrs.pkl"
          (some (P.dump l))) "attrs.json" (some rep.json))) tail = some d' ∧ d' "arrs.pkl" = some (P.dump l) := by
        rcases ht with ⟨c, rfl⟩ | rfl
        · obtain ⟨d', e1, e2⟩ := pkl_other "timing.txt" (by decide) c _ List.prefix_rfl
            (Function.update (Function.update (fun _ => none) "arrs.pkl" (some (P.dump l))) "attrs.json"
              (some rep.json))
          exact ⟨d', e1, e2.trans (by simp)⟩
        · exact ⟨_, rfl, by simp⟩
      obtain ⟨d', e1, e2⟩ := this
      rw [e1, read_eq]
      simp [pklOf, e2, P.load_dump]
    cases hj : rep.jsonError with
    | some e =>
      have ho : out = (((if fs.isSome ∧ overwrite then rmtree listing else []) ++ [.mkdir] ++
          writeFile "arrs.pkl" (P.dump l) ++ writeFile "attrs.json" rep.json), some e) := by
        simp only [out, writeSnapshots, if_neg hex, hj]
      rw [ho]
      refine ⟨fun h => (by cases h), fun e' he => Or.inr ⟨he, ?_⟩⟩
      have := hread [] (Or.inr rfl)
      rwa [List.append_nil] at this
    | none =>
      have ho : out = (((if fs.isSome ∧ overwrite then rmtree listing else []) ++ [.mkdir] ++
          writeFile "arrs.pkl" (P.dump l) ++ writeFile "attrs.json" rep.json ++
          writeFile "timing.txt" rep.timing), none) := by
        simp only [out, writeSnapshots, if_neg hex, hj]
      rw [ho]
      exact ⟨fun _ => hread _ (Or.inl ⟨_, rfl⟩), fun e he => (by cases he)⟩

/-- **C49, crash** A process dies at any point of `write_snapshots` (after any prefix of its file-system
calls, single bytes included). A later read finds no directory, raises, returns exactly the list
being saved, or returns what a read before the save would have returned. -/
theorem C49_crash (P : Pickle S) (fs : FS) (overwrite : Bool) (listing : List String) (rep : Report)
    (l : List S) (calls : List FSCall) (h : calls <+: (writeSnapshots P fs overwrite listing rep l).1) :
    let r := readSnapshots P (runCalls fs calls)
    r = .ok none ∨ (∃ e, r = .error e) ∨ r = .ok (some l) ∨ r = readSnapshots P fs := by
  intro r
  rcases pkl_of_crash P fs overwrite listing rep l calls h with e | e | e | ⟨b, hb, e⟩
  · right; right; right
    simp only [r, read_eq, e]
  · left
    simp only [r, read_eq, e]
  · right; left
    exact ⟨.fileNotFoundError, by simp only [r, read_eq, e]⟩
  · by_cases hbl : b = P.dump l
    · right; right; left
      simp only [r, read_eq, e, hbl, P.load_dump]
    · right; left
      exact ⟨.unpicklingError, by simp only [r, read_eq, e, P.load_cut l b hb hbl]⟩

/-- One attempt of a process to run with saving: its arguments and the list it computes, and the file
system calls it managed to make. -/
structure Attempt (S : Type) where
  overwrite : Bool
  listing : List String
  rep : Report
  computed : List S
  done : List FSCall

/-- The history of attempts on a directory: each process makes a prefix of the calls of `integrate`. -/
inductive Attempts (P : Pickle S) : FS → List (Attempt S) → FS → Prop
  | nil (fs) : Attempts P fs [] fs
  | cons (fs) (a : Attempt S) (rest : List (Attempt S)) (fs' : FS)
      (h : a.done <+: (integrateSaving P fs a.overwrite a.listing a.rep a.computed).1)
      (hr : Attempts P (runCalls fs a.done) rest fs') : Attempts P fs (a :: rest) fs'

theorem integrateSaving_calls (P : Pickle S) (fs : FS) (o : Bool) (ls : List String) (rep : Report)
    (l : List S) : (integrateSaving P fs o ls rep l).1 = [] ∨
      (integrateSaving P fs o ls rep l).1 = (writeSnapshots P fs o ls rep l).1 := by
  unfold integrateSaving
  have hc : (match writeSnapshots P fs o ls rep l with
      | (calls, some e) => (calls, .error e)
      | (calls, none) => (calls, .ok l) : List FSCall × Except PyErr (List S)).1 =
      (writeSnapshots P fs o ls rep l).1 := by
    rcases writeSnapshots P fs o ls rep l with ⟨c, _ | e⟩ <;> rfl
  simp only
  split
  · exact Or.inr hc
  · split
    · exact Or.inl rfl
    · exact Or.inl rfl
    · exact Or.inr hc

/-- **C49** Start without a directory and let any number of processes run with saving, each dying at any
point or finishing. Whatever a later run without `overwrite` returns without computing is exactly the
snapshot list that one of those processes computed. Otherwise it raises, or computes afresh. A run
without `overwrite` makes no file-system call when the directory exists. -/
theorem C49_histories (P : Pickle S) (hist : List (Attempt S)) (fs : FS) (h : Attempts P none hist fs)
    (listing : List String) (rep : Report) (computed : List S) :
    let out := integrateSaving P fs false listing rep computed
    (fs.isSome → out.1 = []) ∧
    ∀ l, out.2 = .ok l → (fs = none ∧ l = computed) ∨ ∃ a ∈ hist, l = a.computed := by
  have key : ∀ fs0 hist fs, Attempts P fs0 hist fs → ∀ l, readSnapshots P fs = .ok (some l) →
      readSnapshots P fs0 = .ok (some l) ∨ ∃ a ∈ hist, l = a.computed := by
    intro fs0 hist fs h
    induction h with
    | nil fs => exact fun l hl => Or.inl hl
    | cons fs a rest fs' ha _ ih =>
      intro l hl
      rcases ih l hl with h1 | ⟨b, hb, rfl⟩
      · have hd : a.done <+: (writeSnapshots P fs a.overwrite a.listing a.rep a.computed).1 := by
          rcases integrateSaving_calls P fs a.overwrite a.listing a.rep a.computed with e | e
          · rw [e] at ha
            rw [List.prefix_nil.1 ha]
            exact List.nil_prefix
          · rwa [e] at ha
        rcases C49_crash P fs a.overwrite a.listing a.rep a.computed a.done hd with e | ⟨x, e⟩ | e | e
        · rw [e] at h1; cases h1
        · rw [e] at h1; cases h1
        · rw [e] at h1
          cases h1
          exact Or.inr ⟨a, List.mem_cons_self .., rfl⟩
        · rw [e] at h1
          exact Or.inl h1
      · exact Or.inr ⟨b, List.mem_cons_of_mem _ hb, rfl⟩
  have hk := key _ _ _ h
  intro out
  constructor
  · intro hs
    obtain ⟨d, rfl⟩ := Option.isSome_iff_exists.1 hs
    simp only [out, integrateSaving, Bool.false_eq_true, if_false]
    cases hr : readSnapshots P (some d) with
    | error e => rfl
    | ok o =>
      cases o with
      | some l => rfl
      | none =>
        exfalso
        unfold readSnapshots at hr
        simp only at hr
        split at hr
        · cases hr
        · split at hr <;> cases hr
  · intro l hl
    simp only [out, integrateSaving, Bool.false_eq_true, if_false] at hl
    cases hr : readSnapshots P fs with
    | error e => rw [hr] at hl; cases hl
    | ok o =>
      cases o with
      | some l' =>
        rw [hr] at hl
        cases hl
        rcases hk l hr with h1 | h1
        · cases h1
        · exact Or.inr h1
      | none =>
        left
        have hfs : fs = none := by
          cases fs with
          | none => rfl
          | some d =>
            exfalso
            unfold readSnapshots at hr
            simp only at hr
            split at hr
            · cases hr
            · split at hr <;> cases hr
        refine ⟨hfs, ?_⟩
        rw [hr] at hl
        simp only at hl
        split at hl
        · cases hl
        · cases hl; rfl

/-- A codec meeting the assumptions: numbers shifted by one, 0 as the final mark. -/
def shiftPickle : Pickle ℕ where
  dump l := l.map (· + 1) ++ [0]
  load b := if b.getLast? = some 0 then some (b.dropLast.map (· - 1)) else none
  load_dump := by intro l; simp [List.map_map, Function.comp_def]
  load_cut := by
    intro l b h hne
    rw [if_neg]
    intro h0
    rcases prefix_append_cases _ _ _ h with h1 | ⟨m, rfl, hm⟩
    · have := h1.subset (List.mem_of_getLast? h0)
      simp at this
    · rcases List.prefix_cons_iff.1 hm with rfl | ⟨t, rfl, ht⟩
      · have := List.mem_of_getLast? h0
        simp at this
      · rw [List.prefix_nil.1 ht] at hne
        exact hne rfl

/-- The directory after a process saved [3, 4]. -/
def savedFS : FS := runCalls none (integrateSaving shiftPickle none false [] ⟨[1], none, [2]⟩ [3, 4]).1

/-- A process saves [3, 4]; a second one overwrites with [5] and dies after two calls. Between the two a
read returns [3, 4], afterwards it raises. -/
example :
    let ls := ["arrs.pkl", "timing.txt", "attrs.json"]
    let done := (integrateSaving shiftPickle savedFS true ls ⟨[], none, []⟩ [5]).1.take 2
    Attempts shiftPickle none [⟨false, [], ⟨[1], none, [2]⟩, [3, 4],
        (integrateSaving shiftPickle none false [] ⟨[1], none, [2]⟩ [3, 4]).1⟩,
      ⟨true, ls, ⟨[], none, []⟩, [5], done⟩] (runCalls savedFS done) ∧
    readSnapshots shiftPickle savedFS = .ok (some [3, 4]) ∧
    readSnapshots shiftPickle (runCalls savedFS done) = .error .fileNotFoundError :=
  ⟨.cons _ _ _ _ List.prefix_rfl (.cons _ _ _ _ (List.take_prefix _ _) (.nil _)), rfl, rfl⟩

end FVHOE
