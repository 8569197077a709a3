import Mathlib.Data.List.Basic
import Mathlib.Tactic.Common
import Verif.Model.Commit

/-!
C90. The commit details kept with a run name the commit, its author, its date and the branch that is checked out.
-/

namespace FVHOE

/-! ### Text -/

/-- A text without the separator is one field. -/
theorem pySplit_one (sep : Char) : ∀ s : List Char, sep ∉ s → pySplit sep s = [s]
  | [], _ => rfl
  | c :: cs, h => by
    have h1 : c ≠ sep := fun e => h (by simp [e])
    have h2 := pySplit_one sep cs fun e => h (by simp [e])
    simp [pySplit, h1, h2]

/-- The first field ends at the first separator. -/
theorem pySplit_cons (sep : Char) (r : List Char) :
    ∀ s : List Char, sep ∉ s → pySplit sep (s ++ sep :: r) = s :: pySplit sep r
  | [], _ => by simp [pySplit]
  | c :: cs, h => by
    have h1 : c ≠ sep := fun e => h (by simp [e])
    have h2 := pySplit_cons sep r cs fun e => h (by simp [e])
    simp [pySplit, h1, h2]

/-- There is always a field. -/
theorem pySplit_ne_nil (sep : Char) (s : List Char) : pySplit sep s ≠ [] := by
  cases s with
  | nil => simp [pySplit]
  | cons c cs =>
    unfold pySplit
    split
    · simp
    · split <;> simp

/-- A separator later on does not change the text before the first one. -/
theorem pySplit_head (sep : Char) (s r : List Char) (h : sep ∉ s) (hr : r = [] ∨ ∃ t, r = sep :: t) :
    (pySplit sep (s ++ r))[0]? = some s := by
  rcases hr with rfl | ⟨t, rfl⟩
  · simp [pySplit_one sep s h]
  · simp [pySplit_cons sep t s h]

/-- A word is one word. -/
theorem pyWordsFrom_word : ∀ (s cur : List Char), (∀ c ∈ s, pySpace c = false) → cur ≠ [] ∨ s ≠ [] →
    pyWordsFrom cur s = [cur.reverse ++ s]
  | [], cur, _, h => by
    have : cur ≠ [] := by simpa using h
    simp [pyWordsFrom, this]
  | c :: cs, cur, hs, _ => by
    have := pyWordsFrom_word cs (c :: cur) (fun d hd => hs d (by simp [hd])) (Or.inl (by simp))
    simp [pyWordsFrom, hs c (by simp), this]

/-- Text that starts and ends with something else than white space is left alone. -/
theorem pyStrip_eq (s : List Char) (h : ∀ c ∈ s.head?, pySpace c = false) (h' : ∀ c ∈ s.getLast?, pySpace c = false) :
    pyStrip s = s := by
  have drop (l : List Char) (hl : ∀ c ∈ l.head?, pySpace c = false) : l.dropWhile pySpace = l := by
    cases l with
    | nil => rfl
    | cons c cs => simp [hl c (by simp)]
  unfold pyStrip
  rw [drop s h, drop s.reverse (by simpa using h'), List.reverse_reverse]

/-! ### What git prints -/

/-- The state of the working copy: on a branch or detached. -/
inductive Head where
  | branch (name : List Char)
  | detached

/-- How `%D` starts. -/
def Head.text : Head → List Char
  | .branch b => ['H', 'E', 'A', 'D', ' ', '-', '>', ' '] ++ b
  | .detached => ['H', 'E', 'A', 'D']

/-- What the details should call it. -/
def Head.name : Head → List Char
  | .branch b => b
  | .detached => ['H', 'E', 'A', 'D']

/-- `%H|%an|%ai|%D`: the refs that point at the commit, `HEAD` first, are separated by a comma and a space. -/
def gitLine (hash author date : List Char) (head : Head) (others : List (List Char)) : List Char :=
  hash ++ '|' :: (author ++ '|' :: (date ++ '|' :: (head.text ++ others.flatMap fun r => [',', ' '] ++ r)))

/-- A name that git accepts for a branch or a tag has no white space. -/
def IsRef (r : List Char) : Prop := r ≠ [] ∧ ∀ c ∈ r, pySpace c = false

theorem getLast_others : ∀ (others : List (List Char)) (s : List Char), (∀ r ∈ others, IsRef r) → s ≠ [] →
    (∀ c ∈ s.getLast?, pySpace c = false) →
    ∀ c ∈ (s ++ others.flatMap fun r => [',', ' '] ++ r).getLast?, pySpace c = false
  | [], s, _, _, hs => by simpa using hs
  | r :: rs, s, h, _, _ => by
    have hr := h r (by simp)
    have e : s ++ (r :: rs).flatMap (fun r => [',', ' '] ++ r) =
        (s ++ ([',', ' '] ++ r)) ++ rs.flatMap fun r => [',', ' '] ++ r := by simp
    rw [e]
    refine getLast_others rs _ (fun q hq => h q (by simp [hq])) (by simp) ?_
    intro c hc
    have h2 : (s ++ ([',', ' '] ++ r)).getLast? = r.getLast? := by
      rw [← List.append_assoc, List.getLast?_append_of_ne_nil _ hr.1]
    rw [h2] at hc
    exact hr.2 c (List.mem_of_mem_getLast? hc)

theorem head_words (head : Head) (h : ∀ b, head = .branch b → IsRef b) :
    lastField (pyWords (pyStrip head.text)) = .ok head.name := by
  cases head with
  | detached => decide +kernel
  | branch b =>
    have hb := h b rfl
    have hs : pyStrip (Head.branch b).text = (Head.branch b).text := by
      refine pyStrip_eq _ ?_ ?_
      · intro c hc
        simp [Head.text] at hc
        subst hc
        decide +kernel
      · intro c hc
        rw [Head.text, List.getLast?_append_of_ne_nil _ hb.1] at hc
        exact hb.2 c (List.mem_of_mem_getLast? hc)
    have s1 : pySpace ' ' = true := by decide +kernel
    have s2 : pySpace 'H' = false := by decide +kernel
    have s3 : pySpace 'E' = false := by decide +kernel
    have s4 : pySpace 'A' = false := by decide +kernel
    have s5 : pySpace 'D' = false := by decide +kernel
    have s6 : pySpace '-' = false := by decide +kernel
    have s7 : pySpace '>' = false := by decide +kernel
    rw [hs]
    simp [Head.text, Head.name, pyWords, pyWordsFrom, s1, s2, s3, s4, s5, s6, s7,
      pyWordsFrom_word b [] hb.2 (Or.inr hb.1), lastField]

/-! ### The property -/

theorem pyWordsFrom_spec : ∀ (s cur : List Char), (∀ c ∈ cur, pySpace c = false) →
    (∀ w ∈ pyWordsFrom cur s, w ≠ [] ∧ ∀ c ∈ w, pySpace c = false) ∧
      (pyWordsFrom cur s).flatten = cur.reverse ++ s.filter fun c => !pySpace c
  | [], cur, hc => by
    unfold pyWordsFrom
    by_cases h : cur = []
    · simp [h]
    · rw [if_neg h]
      refine ⟨fun w hw => ?_, by simp⟩
      rw [List.mem_singleton] at hw
      subst hw
      exact ⟨by simpa using h, fun c hcc => hc c (by simpa using hcc)⟩
  | c :: cs, cur, hc => by
    unfold pyWordsFrom
    by_cases hs : pySpace c = true
    · rw [if_pos hs]
      have ih := pyWordsFrom_spec cs [] (by simp)
      by_cases h : cur = []
      · rw [if_pos h]
        simpa [hs, h] using ih
      · rw [if_neg h]
        refine ⟨fun w hw => ?_, by simp [ih.2, hs]⟩
        rcases List.mem_cons.1 hw with rfl | hw
        · exact ⟨by simpa using h, fun c hcc => hc c (by simpa using hcc)⟩
        · exact ih.1 w hw
    · have hs' : pySpace c = false := by simpa using hs
      rw [if_neg hs]
      have ih := pyWordsFrom_spec cs (c :: cur) (fun d hd => by
        rcases List.mem_cons.1 hd with rfl | hd
        · exact hs'
        · exact hc d hd)
      exact ⟨ih.1, by rw [ih.2]; simp [hs']⟩

/-- The words of a text, from the last of which the branch is read, are not empty and hold no white space; one after the
other they are the text without its white space, and a text of white space has none, so that taking the last raises. -/
theorem C90_words (s : List Char) : (∀ w ∈ pyWords s, w ≠ [] ∧ ∀ c ∈ w, pySpace c = false) ∧
    (pyWords s).flatten = s.filter (fun c => !pySpace c) ∧
    ((∀ c ∈ s, pySpace c = true) ↔ lastField (pyWords s) = .error .indexError) := by
  have h := pyWordsFrom_spec s [] (by simp)
  have e : (pyWords s).flatten = s.filter fun c => !pySpace c := h.2
  refine ⟨h.1, e, ?_⟩
  constructor
  · intro ha
    have h0 : (pyWords s).flatten = [] := by
      rw [e, List.filter_eq_nil_iff]
      intro c hc
      simp [ha c hc]
    have h1 : pyWords s = [] := by
      cases hw : pyWords s with
      | nil => rfl
      | cons w ws =>
        rw [hw, List.flatten_cons, List.append_eq_nil_iff] at h0
        exact absurd h0.1 (h.1 w (by change w ∈ pyWords s; rw [hw]; simp)).1
    rw [h1]
    rfl
  · intro hl
    have h1 : pyWords s = [] := by
      unfold lastField at hl
      cases hw : (pyWords s).getLast? with
      | some w => rw [hw] at hl; cases hl
      | none => exact List.getLast?_eq_none_iff.1 hw
    rw [h1, List.flatten_nil] at e
    intro c hc
    have := List.filter_eq_nil_iff.1 e.symm c hc
    simpa using this

/-- **C90** (partial). On a branch whose name has neither a comma nor a bar nor white space, or detached, and with no bar in the author's
name, the four entries are the commit, its author, its date and the branch (`HEAD` when detached), whatever other branches
and tags point at the commit. -/
theorem C90_details_partial (hash author date : List Char) (head : Head) (others : List (List Char))
    (hhash : IsRef hash ∧ '|' ∉ hash) (hauthor : '|' ∉ author) (hdate : '|' ∉ date)
    (hhead : ∀ b, head = .branch b → IsRef b ∧ ',' ∉ b ∧ '|' ∉ b) (hothers : ∀ r ∈ others, IsRef r) :
    getCommitDetails (.printed (gitLine hash author date head others)) =
      .ok [("commit_hash", some hash), ("author_name", some author), ("commit_date", some date),
        ("branch_name", some head.name)] := by
  have htext : head.text ≠ [] ∧ ',' ∉ head.text ∧ '|' ∉ head.text ∧ ∀ c ∈ head.text.getLast?, pySpace c = false := by
    cases head with
    | detached => decide +kernel
    | branch b =>
      obtain ⟨hb, hc, hd⟩ := hhead b rfl
      refine ⟨by simp [Head.text], ?_, ?_, ?_⟩
      · simpa [Head.text] using hc
      · simpa [Head.text] using hd
      · intro c hc
        rw [Head.text, List.getLast?_append_of_ne_nil _ hb.1] at hc
        exact hb.2 c (List.mem_of_mem_getLast? hc)
  have hstrip : pyStrip (gitLine hash author date head others) = gitLine hash author date head others := by
    refine pyStrip_eq _ ?_ ?_
    · intro c hc
      obtain ⟨d, ds, hd⟩ := List.exists_cons_of_ne_nil hhash.1.1
      simp [gitLine, hd] at hc
      subst hc
      exact hhash.1.2 d (by simp [hd])
    · have e : gitLine hash author date head others =
          (hash ++ '|' :: (author ++ '|' :: (date ++ '|' :: head.text))) ++ others.flatMap fun r => [',', ' '] ++ r := by
        simp [gitLine]
      rw [e]
      refine getLast_others others _ hothers (by simp) ?_
      intro c hc
      have h2 : (hash ++ '|' :: (author ++ '|' :: (date ++ '|' :: head.text))).getLast? = head.text.getLast? := by
        have e2 : hash ++ '|' :: (author ++ '|' :: (date ++ '|' :: head.text)) =
            (hash ++ '|' :: (author ++ '|' :: (date ++ ['|']))) ++ head.text := by simp
        rw [e2, List.getLast?_append_of_ne_nil _ htext.1]
      rw [h2] at hc
      exact htext.2.2.2 c hc
  have hrest : (others.flatMap fun r => [',', ' '] ++ r) = [] ∨
      ∃ t, (others.flatMap fun r => [',', ' '] ++ r) = ',' :: t := by
    cases others with
    | nil => exact Or.inl rfl
    | cons r rs => exact Or.inr ⟨' ' :: (r ++ rs.flatMap fun r => [',', ' '] ++ r), by simp⟩
  obtain ⟨f, fs, hf, hfirst⟩ : ∃ f fs, pySplit '|' (head.text ++ others.flatMap fun r => [',', ' '] ++ r) = f :: fs ∧
      (pySplit ',' f)[0]? = some head.text := by
    have aux : ∀ (s r : List Char), '|' ∉ s → (r = [] ∨ ∃ t, r = ',' :: t) →
        ∃ q fs, pySplit '|' (s ++ r) = (s ++ q) :: fs ∧ (q = [] ∨ ∃ t, q = ',' :: t) := by
      intro s r hs hr
      rcases hr with rfl | ⟨t, rfl⟩
      · exact ⟨[], [], by simp [pySplit_one '|' s hs], Or.inl rfl⟩
      · induction s with
        | nil =>
          obtain ⟨g, gs, hg⟩ := List.exists_cons_of_ne_nil (pySplit_ne_nil '|' t)
          exact ⟨',' :: g, gs, by simp [pySplit, hg], Or.inr ⟨g, rfl⟩⟩
        | cons c cs ih =>
          obtain ⟨q, fs, h1, h2⟩ := ih fun h => hs (by simp [h])
          have h3 : c ≠ '|' := fun e => hs (by simp [e])
          exact ⟨q, fs, by simp [pySplit, h3, h1], h2⟩
    obtain ⟨q, fs, h1, h2⟩ := aux head.text _ htext.2.2.1 hrest
    exact ⟨head.text ++ q, fs, h1, pySplit_head ',' _ _ htext.2.1 h2⟩
  have hinfo : pySplit '|' (pyStrip (gitLine hash author date head others)) = hash :: author :: date :: f :: fs := by
    rw [hstrip, gitLine, pySplit_cons '|' _ _ hhash.2, pySplit_cons '|' _ _ hauthor, pySplit_cons '|' _ _ hdate, hf]
  have hb : branchField (hash :: author :: date :: f :: fs) = .ok (some head.name) := by
    have hw := head_words head fun b e => (hhead b e).1
    have h0 : fieldAt (pySplit ',' f) 0 = .ok head.text := by simp only [fieldAt, hfirst]
    simp only [branchField, List.length_cons]
    rw [if_pos (by omega)]
    simp only [fieldAt, List.getElem?_cons_succ, List.getElem?_cons_zero] at h0 ⊢
    simp only [bind, Except.bind, h0, hw, pure, Except.pure]
  simp only [getCommitDetails, hinfo]
  simp only [fieldAt, List.getElem?_cons_succ, List.getElem?_cons_zero, bind, Except.bind, hb, pure, Except.pure]

/-- A commit on `main` to which a tag and a remote branch also point. -/
example : getCommitDetails (.printed
    "3f2a9c1|A. Author|2024-11-16 10:00:00 -0500|HEAD -> main, tag: v1, origin/main".toList) =
    .ok [("commit_hash", some "3f2a9c1".toList), ("author_name", some "A. Author".toList),
      ("commit_date", some "2024-11-16 10:00:00 -0500".toList), ("branch_name", some "main".toList)] := by
  decide +kernel

/-- The hypotheses of the theorem hold for such a commit. -/
example : getCommitDetails (.printed (gitLine "3f2a9c1".toList "A. Author".toList "2024-11-16 10:00:00 -0500".toList
      .detached ["origin/main".toList])) =
    .ok [("commit_hash", some "3f2a9c1".toList), ("author_name", some "A. Author".toList),
      ("commit_date", some "2024-11-16 10:00:00 -0500".toList), ("branch_name", some "HEAD".toList)] :=
  C90_details_partial _ _ _ _ _ (by unfold IsRef; decide +kernel) (by decide +kernel) (by decide +kernel)
    (by intro b h; cases h) (by unfold IsRef; decide +kernel)

/-- **C90**. When git fails, its message without surrounding white space is kept and nothing is raised. -/
theorem C90_failed (e : List Char) (h : ∀ c ∈ e.head?, pySpace c = false) (h' : ∀ c ∈ e.getLast?, pySpace c = false) :
    getCommitDetails (.failed (e ++ ['\n'])) = .ok [("error", some ("An error occurred: ".toList ++ e))] := by
  have drop (l : List Char) (hl : ∀ c ∈ l.head?, pySpace c = false) : l.dropWhile pySpace = l := by
    cases l with
    | nil => rfl
    | cons c cs => simp [hl c (by simp)]
  have hn : pySpace '\n' = true := by decide +kernel
  have hs : pyStrip (e ++ ['\n']) = e := by
    unfold pyStrip
    cases e with
    | nil => simp [hn]
    | cons c cs =>
      rw [drop (c :: cs ++ ['\n']) (by simpa using h)]
      rw [List.reverse_append, List.reverse_singleton, List.singleton_append, List.dropWhile_cons_of_pos hn,
        drop (c :: cs).reverse (by rw [List.head?_reverse]; exact h'), List.reverse_reverse]
  rw [getCommitDetails, hs]

/-- The claim that a solver can be constructed whether or not git is installed fails: the exception is not caught. -/
theorem C90_missing_violated : getCommitDetails .missing = .error .fileNotFoundError := rfl

/-- The claim fails for an author whose name has a bar: the date is part of the name and the branch is the end of the
date. -/
theorem C90_author_violated :
    getCommitDetails (.printed (gitLine "3f2a9c1".toList "A|B".toList "2024-11-16 10:00:00 -0500".toList
      (.branch "main".toList) [])) =
    .ok [("commit_hash", some "3f2a9c1".toList), ("author_name", some "A".toList), ("commit_date", some "B".toList),
      ("branch_name", some "-0500".toList)] := by
  decide +kernel

/-- The claim fails for a branch whose name has a comma, which git allows. -/
theorem C90_branch_violated :
    getCommitDetails (.printed (gitLine "3f2a9c1".toList "A".toList "2024-11-16 10:00:00 -0500".toList
      (.branch "fix,again".toList) [])) =
    .ok [("commit_hash", some "3f2a9c1".toList), ("author_name", some "A".toList),
      ("commit_date", some "2024-11-16 10:00:00 -0500".toList), ("branch_name", some "fix".toList)] := by
  decide +kernel

/-- The claim fails for a branch whose name has a white space other than the blank, such as the ideographic space, which git
allows: only the text behind it is kept. -/
theorem C90_space_violated :
    getCommitDetails (.printed (gitLine "3f2a9c1".toList "A".toList "2024-11-16 10:00:00 -0500".toList
      (.branch ("fix".toList ++ [Char.ofNat 12288] ++ "again".toList)) [])) =
    .ok [("commit_hash", some "3f2a9c1".toList), ("author_name", some "A".toList),
      ("commit_date", some "2024-11-16 10:00:00 -0500".toList), ("branch_name", some "again".toList)] := by
  decide +kernel

/-- What counts as white space above: the controls that separate lines, columns and records, the next-line control, and the spaces
of Unicode. -/
theorem C90_spaces (c : Char) : pySpace c = true ↔ (9 ≤ c.toNat ∧ c.toNat ≤ 13) ∨ (28 ≤ c.toNat ∧ c.toNat ≤ 32) ∨ c.toNat = 0x85 ∨
    c.toNat = 0xA0 ∨ c.toNat = 0x1680 ∨ (0x2000 ≤ c.toNat ∧ c.toNat ≤ 0x200A) ∨ c.toNat = 0x2028 ∨ c.toNat = 0x2029 ∨
    c.toNat = 0x202F ∨ c.toNat = 0x205F ∨ c.toNat = 0x3000 := by
  unfold pySpace
  simp only [decide_eq_true_eq, List.mem_cons, List.not_mem_nil, or_false]
  omega

end FVHOE
