import Verif.Proofs.Broadcast

/-!
C35 (simple broadcasting), C36 (convex weights), C37 (convex weights and periodic boundaries).

`Troubled tr c` says that `c` is a cell of the array `tr` and flagged there.
-/

set_option linter.unusedSectionVars false

namespace FVHOE

variable {K : Type} [Field K] [LinearOrder K] [IsStrictOrderedRing K]

/-! ## C35 -/

/-- **C35** Simple broadcasting always returns face arrays of the right shape: 1 on the faces of an
active direction with a troubled cell on one of their sides, 0 on all other faces. -/
theorem C35_simple (periodic : Fin 3 → Bool) (dims : List (Fin 3)) (tr : Arr Bool) :
    ∃ theta, broadcastTrouble K false periodic dims tr = .ok theta ∧
      ∀ d, (∀ e, (theta d).shape e = if e = d then tr.shape e + 1 else tr.shape e) ∧
        ∀ i, InFaces tr.shape d i →
          ((d ∈ dims ∧ (Troubled tr (i - Pi.single d 1) ∨ Troubled tr i)) → (theta d).get i = 1) ∧
          (¬ (d ∈ dims ∧ (Troubled tr (i - Pi.single d 1) ∨ Troubled tr i)) → (theta d).get i = 0) := by
  choose F hF1 hF2 hF3 using fun d => simple_spec (K := K) tr dims d
  refine ⟨![F 0, F 1, F 2], ?_, fun d => ?_⟩
  · unfold broadcastTrouble
    simp only [Bool.false_eq_true, if_false]
    rw [hF1 0, hF1 1, hF1 2]
    rfl
  · have hd : (![F 0, F 1, F 2] : Fin 3 → Arr K) d = F d := by
      match d with
      | 0 => rfl
      | 1 => rfl
      | 2 => rfl
    rw [hd]
    refine ⟨fun e => congrFun (hF2 d) e, fun i hi => ?_⟩
    have hif : InBox (faceShape tr.shape d) i := by
      intro e
      have := hi e
      unfold faceShape
      simp only [Pi.single_apply] at this
      split_ifs at this ⊢ <;> omega
    have := hF3 d i hif
    exact ⟨fun h => this.trans (if_pos h), fun h => this.trans (if_neg h)⟩

/-! ## C36 -/

/-- `c'` is `k` cells away from `c` along axis `a`. -/
def Along (a : Fin 3) (k : ℕ) (c c' : Ix) : Prop := c' = c + Pi.single a (k : ℤ) ∨ c' = c - Pi.single a (k : ℤ)

/-- The weights of the cells of a line: 1, 3/4, 1/4, 0 at distance 0, 1, 2 and more from the nearest
troubled cell. -/
structure LineWeights (T : Ix → Prop) (a : Fin 3) (w : Ix → K) : Prop where
  hit : ∀ c, T c → w c = 1
  next : ∀ c, ¬ T c → (∃ c', T c' ∧ Along a 1 c c') → w c = 3 / 4
  second : ∀ c, ¬ T c → (¬ ∃ c', T c' ∧ Along a 1 c c') → (∃ c', T c' ∧ Along a 2 c c') → w c = 1 / 4
  far : ∀ c, (¬ ∃ k ≤ 2, ∃ c', T c' ∧ Along a k c c') → w c = 0

/-- `c'` differs from `c` by `k` cells along `a` and `l` cells along `b`. -/
def Across (a b : Fin 3) (k l : ℕ) (c c' : Ix) : Prop := ∃ m, Along a k c m ∧ Along b l m c'

/-- The weights of the cells of a plane: 1 in a troubled cell, 3/4 if one shares an edge, 1/2 if one
shares only a corner, 1/4 elsewhere in the 5 × 5 cells around a troubled cell, 0 outside. -/
structure PlaneWeights (T : Ix → Prop) (a b : Fin 3) (w : Ix → K) : Prop where
  hit : ∀ c, T c → w c = 1
  edge : ∀ c, ¬ T c → (∃ c', T c' ∧ (Across a b 1 0 c c' ∨ Across a b 0 1 c c')) → w c = 3 / 4
  corner : ∀ c, ¬ T c → (¬ ∃ c', T c' ∧ (Across a b 1 0 c c' ∨ Across a b 0 1 c c')) →
    (∃ c', T c' ∧ Across a b 1 1 c c') → w c = 1 / 2
  rest : ∀ c, (¬ ∃ k ≤ 1, ∃ l ≤ 1, ∃ c', T c' ∧ Across a b k l c c') →
    (∃ k ≤ 2, ∃ l ≤ 2, ∃ c', T c' ∧ Across a b k l c c') → w c = 1 / 4
  far : ∀ c, (¬ ∃ k ≤ 2, ∃ l ≤ 2, ∃ c', T c' ∧ Across a b k l c c') → w c = 0

theorem along_iff (T : Ix → Prop) (a : Fin 3) (k : ℕ) (c : Ix) :
    (∃ c', T c' ∧ Along a k c c') ↔ T (c + off a k) ∨ T (c + off a (-k)) := by
  have e : c - Pi.single a (k : ℤ) = c + off a (-k) := by
    funext e
    simp only [Pi.sub_apply, Pi.add_apply, off_apply, Pi.single_apply]
    split_ifs <;> ring
  constructor
  · rintro ⟨c', h, rfl | rfl⟩
    · exact Or.inl h
    · rw [e] at h; exact Or.inr h
  · rintro (h | h)
    · exact ⟨_, h, Or.inl rfl⟩
    · exact ⟨_, h, Or.inr e.symm⟩

theorem near_iff (T : Ix → Prop) (a : Fin 3) (n : ℕ) (c : Ix) :
    near T a (-n) n c ↔ ∃ k ≤ n, ∃ c', T c' ∧ Along a k c c' := by
  constructor
  · rintro ⟨k, h1, h2, h3⟩
    refine ⟨k.natAbs, by omega, (along_iff T a _ c).2 ?_⟩
    rcases Int.natAbs_eq k with h | h
    · left; rwa [← h]
    · right; rwa [← h]
  · rintro ⟨k, hk, h⟩
    rcases (along_iff T a k c).1 h with h | h
    · exact ⟨k, by omega, by omega, h⟩
    · exact ⟨-k, by omega, by omega, h⟩

theorem lineLevel_weights (T : Ix → Prop) (a : Fin 3) : LineWeights T a (lineLevel K T a) := by
  have h1 := fun c => along_iff T a 1 c
  have h2 := fun c => near_iff T a 2 c
  simp only [Nat.cast_one, Nat.cast_ofNat] at h1 h2
  constructor
  · intro c h
    simp [lineLevel, level, h]
  · intro c h h'
    rw [h1] at h'
    simp [lineLevel, level, h, h']
  · intro c h h' h''
    rw [h1] at h'
    have : near T a (-2) 2 c := (h2 c).2 ⟨2, le_rfl, h''⟩
    simp [lineLevel, level, h, h', this]
  · intro c h
    have h0 : ¬ near T a (-2) 2 c := fun h' => h ((h2 c).1 h')
    have h3 : ¬ T c := fun h' => h0 ⟨0, by omega, by omega, by rwa [off_zero]⟩
    have h4 : ¬ (T (c + off a 1) ∨ T (c + off a (-1))) := by
      rintro (h' | h')
      · exact h0 ⟨1, by omega, by omega, h'⟩
      · exact h0 ⟨-1, by omega, by omega, h'⟩
    simp [lineLevel, level, h0, h3, h4]

theorem across_iff (T : Ix → Prop) (a b : Fin 3) (k l : ℕ) (c : Ix) :
    (∃ c', T c' ∧ Across a b k l c c') ↔ ∃ m, (∃ c', T c' ∧ Along b l m c') ∧ Along a k c m := by
  constructor
  · rintro ⟨c', h, m, h1, h2⟩; exact ⟨m, ⟨c', h, h2⟩, h1⟩
  · rintro ⟨m, ⟨c', h, h2⟩, h1⟩; exact ⟨c', h, m, h1, h2⟩

theorem planeLevel_weights (T : Ix → Prop) (a b : Fin 3) : PlaneWeights T a b (planeLevel K T a b) := by
  have key : ∀ k l c, (∃ c', T c' ∧ Across a b k l c c') ↔
      (T (c + off a k + off b l) ∨ T (c + off a k + off b (-l))) ∨
        (T (c + off a (-k) + off b l) ∨ T (c + off a (-k) + off b (-l))) := by
    intro k l c
    rw [across_iff, along_iff (fun m => ∃ c', T c' ∧ Along b l m c'), along_iff, along_iff]
  have hedge : ∀ c, (∃ c', T c' ∧ (Across a b 1 0 c c' ∨ Across a b 0 1 c c')) ↔ edgeNear T a b c := by
    intro c
    have e : (∃ c', T c' ∧ (Across a b 1 0 c c' ∨ Across a b 0 1 c c')) ↔
        (∃ c', T c' ∧ Across a b 1 0 c c') ∨ ∃ c', T c' ∧ Across a b 0 1 c c' := by
      simp only [and_or_left, exists_or]
    rw [e, key, key]
    simp only [Nat.cast_one, Nat.cast_zero, neg_zero, off_zero, or_self]
    unfold edgeNear
    tauto
  have hcorner : ∀ c, (∃ c', T c' ∧ Across a b 1 1 c c') ↔ cornerNear T a b c := by
    intro c
    rw [key]
    simp only [Nat.cast_one]
    unfold cornerNear
    tauto
  have hnear : ∀ n c, near (near T b (-(n : ℕ)) n) a (-n) n c ↔
      ∃ k ≤ n, ∃ l ≤ n, ∃ c', T c' ∧ Across a b k l c c' := by
    intro n c
    rw [near_iff]
    refine exists_congr fun k => and_congr_right fun hk => ?_
    constructor
    · rintro ⟨m, hm, hc⟩
      obtain ⟨l, hl, c', hT, hc'⟩ := (near_iff T b n m).1 hm
      exact ⟨l, hl, c', hT, m, hc, hc'⟩
    · rintro ⟨l, hl, c', hT, m, hc, hc'⟩
      exact ⟨m, (near_iff T b n m).2 ⟨l, hl, c', hT, hc'⟩, hc⟩
  have h2 := hnear 2
  simp only [Nat.cast_ofNat] at h2
  have hin : ∀ c, ∀ k ≤ 1, ∀ l ≤ 1, (∃ c', T c' ∧ Across a b k l c c') →
      T c ∨ edgeNear T a b c ∨ cornerNear T a b c := by
    intro c k hk l hl h
    rw [key] at h
    unfold edgeNear cornerNear
    have hk' : k = 0 ∨ k = 1 := by omega
    have hl' : l = 0 ∨ l = 1 := by omega
    rcases hk' with rfl | rfl <;> rcases hl' with rfl | rfl <;>
      simp only [Nat.cast_one, Nat.cast_zero, neg_zero, off_zero, or_self] at h <;> tauto
  have hout : ∀ c, (T c ∨ edgeNear T a b c ∨ cornerNear T a b c) →
      ∃ k ≤ 1, ∃ l ≤ 1, ∃ c', T c' ∧ Across a b k l c c' := by
    rintro c (h | h | h)
    · refine ⟨0, by omega, 0, by omega, (key _ _ _).2 ?_⟩
      simp only [Nat.cast_zero, neg_zero, off_zero, or_self]
      exact h
    · obtain ⟨c', hT, h | h⟩ := (hedge c).2 h
      · exact ⟨1, by omega, 0, by omega, c', hT, h⟩
      · exact ⟨0, by omega, 1, by omega, c', hT, h⟩
    · obtain ⟨c', hT, h⟩ := (hcorner c).2 h
      exact ⟨1, by omega, 1, by omega, c', hT, h⟩
  constructor
  · intro c h
    simp [planeLevel, level, h]
  · intro c h h'
    rw [hedge] at h'
    simp [planeLevel, level, h, h']
  · intro c h h' h''
    rw [hedge] at h'
    rw [hcorner] at h''
    simp [planeLevel, level, h, h', h'']
  · intro c h h'
    have n0 : ¬ (T c ∨ edgeNear T a b c ∨ cornerNear T a b c) := fun hc => h (hout c hc)
    push Not at n0
    simp [planeLevel, level, n0.1, n0.2.1, n0.2.2, (h2 c).2 h']
  · intro c h
    have h0 : ¬ near (near T b (-2) 2) a (-2) 2 c := fun h' => h ((h2 c).1 h')
    have n0 : ¬ (T c ∨ edgeNear T a b c ∨ cornerNear T a b c) := by
      intro hc
      obtain ⟨k, hk, l, hl, h'⟩ := hout c hc
      exact h ⟨k, by omega, l, by omega, h'⟩
    push Not at n0
    simp [planeLevel, level, n0.1, n0.2.1, n0.2.2, h0]

/-- **C36, one dimension** Convex broadcasting along the only active direction `a` returns, whatever
the periodic flags, face arrays of the right shape; a face along `a` takes the larger weight of its two
cells, all other faces are 0. -/
theorem C36_line (tr : Arr Bool) (a : Fin 3) (h1 : ∀ e, e ≠ a → tr.shape e = 1) (hn : 1 ≤ tr.shape a)
    (periodic : Fin 3 → Bool) :
    ∃ theta w, broadcastTrouble K true periodic [a] tr = .ok theta ∧ LineWeights (Troubled tr) a w ∧
      (∀ d e, (theta d).shape e = if e = d then tr.shape e + 1 else tr.shape e) ∧
      (∀ i, InFaces tr.shape a i → (theta a).get i = max (w (i - Pi.single a 1)) (w i)) ∧
      ∀ d, d ≠ a → ∀ i, (theta d).get i = 0 := by
  have hn' : ∀ e, 1 ≤ tr.shape e := by
    intro e
    by_cases he : e = a
    · rw [he]; exact hn
    · rw [h1 e he]
  obtain ⟨theta, h⟩ := (convex_returns (K := K) tr [a] periodic (Or.inl ⟨a, rfl⟩)
    (fun e he => h1 e (by simpa using he)) hn').1 (by
      rintro ⟨_, h2, e, he, h3, _⟩
      simp at h2 he
      exact h3 (he.trans h2.symm))
  obtain ⟨s, v, z⟩ := convex_line tr a h1 periodic theta h
  exact ⟨theta, lineLevel K (Troubled tr) a, h, lineLevel_weights _ a, fun d e => congrFun (s d) e, v, z⟩

/-- **C36, two dimensions** The same for two active directions, provided the call returns; it does
unless one of them is z with a true periodic flag and the other does not have exactly 5 cells. -/
theorem C36_plane (tr : Arr Bool) (a b : Fin 3) (hab : a < b) (h1 : ∀ e, e ≠ a → e ≠ b → tr.shape e = 1)
    (hn : ∀ e, 1 ≤ tr.shape e) (periodic : Fin 3 → Bool) :
    (¬ (b = 2 ∧ periodic 2 = true ∧ tr.shape a ≠ 5) →
      ∃ theta, broadcastTrouble K true periodic [a, b] tr = .ok theta) ∧
    ∀ theta, broadcastTrouble K true periodic [a, b] tr = .ok theta →
      ∃ w, PlaneWeights (Troubled tr) a b w ∧
      (∀ d e, (theta d).shape e = if e = d then tr.shape e + 1 else tr.shape e) ∧
      (∀ d, d = a ∨ d = b → ∀ i, InFaces tr.shape d i →
        (theta d).get i = max (w (i - Pi.single d 1)) (w i)) ∧
      ∀ d, d ≠ a → d ≠ b → ∀ i, (theta d).get i = 0 := by
  constructor
  · intro h
    refine (convex_returns (K := K) tr [a, b] periodic (Or.inr ⟨a, b, hab, rfl⟩)
      (fun e he => by simp at he; exact h1 e he.1 he.2) hn).1 ?_
    rintro ⟨h2, h3, e, he, h4, h5⟩
    have hb : b = 2 := by
      simp at h3
      rcases h3 with h3 | h3
      · subst h3
        exact absurd hab ((by decide : ∀ b : Fin 3, ¬ (2 : Fin 3) < b) b)
      · exact h3.symm
    refine h ⟨hb, h2, ?_⟩
    simp at he
    rcases he with rfl | rfl
    · exact h5
    · exact absurd hb h4
  · intro theta h
    obtain ⟨s, v, z⟩ := convex_plane tr a b hab h1 periodic theta h
    exact ⟨planeLevel K (Troubled tr) a b, planeLevel_weights _ a b, fun d e => congrFun (s d) e, v, z⟩

/-! ### Mirror symmetry -/

theorem sign_mul (s k : ℤ) (hs : s = 1 ∨ s = -1) : s * (s * k) = k := by
  rcases hs with rfl | rfl <;> ring

theorem lineLevel_move (T T' : Ix → Prop) (a : Fin 3) (c c' : Ix) (s : ℤ) (hs : s = 1 ∨ s = -1)
    (h : ∀ k : ℤ, -2 ≤ k → k ≤ 2 → (T (c + off a k) ↔ T' (c' + off a (s * k)))) :
    lineLevel K T a c = lineLevel K T' a c' := by
  refine level_congr ?_ ?_ Iff.rfl ?_
  · have := h 0 (by omega) (by omega)
    rwa [mul_zero, off_zero, off_zero] at this
  · have h1 := h 1 (by omega) (by omega)
    have h2 := h (-1) (by omega) (by omega)
    rcases hs with rfl | rfl <;> simp at h1 h2 <;> rw [h1, h2]
    exact or_comm
  · constructor
    · rintro ⟨k, hk, hk', hT⟩
      refine ⟨s * k, ?_, ?_, (h k hk hk').1 hT⟩ <;> rcases hs with rfl | rfl <;> omega
    · rintro ⟨k, hk, hk', hT⟩
      have hb : -2 ≤ s * k ∧ s * k ≤ 2 := by rcases hs with rfl | rfl <;> omega
      exact ⟨s * k, hb.1, hb.2, (h (s * k) hb.1 hb.2).2 (by rwa [sign_mul s k hs])⟩

theorem planeLevel_move (T T' : Ix → Prop) (a b : Fin 3) (c c' : Ix) (s t : ℤ) (hs : s = 1 ∨ s = -1)
    (ht : t = 1 ∨ t = -1)
    (h : ∀ k l : ℤ, -2 ≤ k → k ≤ 2 → -2 ≤ l → l ≤ 2 →
      (T (c + off a k + off b l) ↔ T' (c' + off a (s * k) + off b (t * l)))) :
    planeLevel K T a b c = planeLevel K T' a b c' := by
  have e1 := h 0 0 (by omega) (by omega) (by omega) (by omega)
  have e2 := h 1 0 (by omega) (by omega) (by omega) (by omega)
  have e3 := h (-1) 0 (by omega) (by omega) (by omega) (by omega)
  have e4 := h 0 1 (by omega) (by omega) (by omega) (by omega)
  have e5 := h 0 (-1) (by omega) (by omega) (by omega) (by omega)
  have e6 := h 1 1 (by omega) (by omega) (by omega) (by omega)
  have e7 := h 1 (-1) (by omega) (by omega) (by omega) (by omega)
  have e8 := h (-1) 1 (by omega) (by omega) (by omega) (by omega)
  have e9 := h (-1) (-1) (by omega) (by omega) (by omega) (by omega)
  simp only [mul_zero, off_zero] at e1 e2 e3 e4 e5
  refine level_congr e1 ?_ ?_ ?_
  · unfold edgeNear
    rw [e2, e3, e4, e5]
    clear * - hs ht
    rcases hs with rfl | rfl <;> rcases ht with rfl | rfl <;>
      simp only [mul_one, one_mul, mul_neg, neg_neg, or_assoc, or_comm, or_left_comm]
  · unfold cornerNear
    rw [e6, e7, e8, e9]
    clear * - hs ht
    rcases hs with rfl | rfl <;> rcases ht with rfl | rfl <;>
      simp only [mul_one, one_mul, mul_neg, neg_neg, or_assoc, or_comm, or_left_comm]
  · constructor
    · rintro ⟨k, hk, hk', l, hl, hl', hT⟩
      refine ⟨s * k, ?_, ?_, t * l, ?_, ?_, (h k l hk hk' hl hl').1 hT⟩ <;>
        rcases hs with rfl | rfl <;> rcases ht with rfl | rfl <;> omega
    · rintro ⟨k, hk, hk', l, hl, hl', hT⟩
      have hb : (-2 ≤ s * k ∧ s * k ≤ 2) ∧ -2 ≤ t * l ∧ t * l ≤ 2 := by
        rcases hs with rfl | rfl <;> rcases ht with rfl | rfl <;> omega
      exact ⟨s * k, hb.1.1, hb.1.2, t * l, hb.2.1, hb.2.2,
        (h _ _ hb.1.1 hb.1.2 hb.2.1 hb.2.2).2 (by rwa [sign_mul s k hs, sign_mul t l ht])⟩

/-- The position opposite to `i` along axis `d` among `m` positions. -/
def opposite (m : ℤ) (d : Fin 3) (i : Ix) : Ix := fun e => if e = d then m - 1 - i e else i e

/-- The flags reversed along axis `d`. -/
def mirrored (d : Fin 3) (tr : Arr Bool) : Arr Bool :=
  ⟨tr.shape, fun i => tr.get (opposite (tr.shape d) d i)⟩

theorem mirrored_troubled (d : Fin 3) (tr : Arr Bool) (i : Ix) :
    Troubled (mirrored d tr) i ↔ Troubled tr (opposite (tr.shape d) d i) := by
  unfold Troubled mirrored
  refine and_congr_left fun _ => ?_
  unfold InBox opposite
  refine forall_congr' fun e => ?_
  by_cases he : e = d
  · subst he; simp only [if_true]; omega
  · simp only [he, if_false]

theorem opposite_off (m : ℤ) (d e : Fin 3) (i : Ix) (k : ℤ) :
    opposite m d (i + off e k) = opposite m d i + off e ((if e = d then -1 else 1) * k) := by
  funext x
  simp only [opposite, Pi.add_apply, off_apply]
  split_ifs <;> first | ring1 | (exfalso; simp_all)

theorem opposite_faces {n : Fin 3 → ℕ} {d' d : Fin 3} {i : Ix} (hi : InFaces n d' i) :
    InFaces n d' (opposite (if d' = d then n d + 1 else n d) d i) := by
  intro e
  have := hi e
  unfold opposite
  simp only [Pi.single_apply] at this ⊢
  split_ifs at this ⊢ <;> simp_all <;> omega

/-- **C36, mirror symmetry in one dimension** Reversing the flags reverses the weights. -/
theorem C36_line_mirror (tr : Arr Bool) (a : Fin 3) (h1 : ∀ e, e ≠ a → tr.shape e = 1)
    (periodic periodic' : Fin 3 → Bool) (theta theta' : Fin 3 → Arr K)
    (h : broadcastTrouble K true periodic [a] tr = .ok theta)
    (h' : broadcastTrouble K true periodic' [a] (mirrored a tr) = .ok theta')
    (i : Ix) (hi : InFaces tr.shape a i) :
    (theta' a).get (opposite (tr.shape a + 1) a i) = (theta a).get i := by
  have hi' := opposite_faces (d := a) hi
  rw [if_pos rfl] at hi'
  have e := (convex_line tr a h1 periodic theta h).2.1 i hi
  have e' := (convex_line (mirrored a tr) a h1 periodic' theta' h').2.1 _ hi'
  have key : ∀ c c', c' = opposite (tr.shape a) a c →
      lineLevel K (Troubled (mirrored a tr)) a c' = lineLevel K (Troubled tr) a c := by
    intro c c' hc
    refine lineLevel_move _ _ a c' c (-1) (Or.inr rfl) fun k _ _ => ?_
    rw [mirrored_troubled, opposite_off, if_pos rfl, hc]
    have : opposite (tr.shape a) a (opposite (tr.shape a) a c) = c := by
      funext x
      unfold opposite
      split_ifs <;> ring
    rw [this]
  rw [e, e', key i _ ?_, key (i - off a 1) _ ?_, max_comm]
  · funext x
    simp only [opposite, Pi.sub_apply, off_apply]
    split_ifs <;> ring
  · funext x
    simp only [opposite, Pi.sub_apply, off_apply]
    split_ifs <;> ring

/-- **C36, mirror symmetry in two dimensions** Reversing the flags along any axis `d` reverses the
weights along it. -/
theorem C36_plane_mirror (tr : Arr Bool) (a b : Fin 3) (hab : a < b)
    (h1 : ∀ e, e ≠ a → e ≠ b → tr.shape e = 1) (d : Fin 3)
    (periodic periodic' : Fin 3 → Bool) (theta theta' : Fin 3 → Arr K)
    (h : broadcastTrouble K true periodic [a, b] tr = .ok theta)
    (h' : broadcastTrouble K true periodic' [a, b] (mirrored d tr) = .ok theta')
    (d' : Fin 3) (hd' : d' = a ∨ d' = b) (i : Ix) (hi : InFaces tr.shape d' i) :
    (theta' d').get (opposite (if d' = d then tr.shape d + 1 else tr.shape d) d i) =
      (theta d').get i := by
  have hi' := opposite_faces (d := d) hi
  have e := (convex_plane tr a b hab h1 periodic theta h).2.1 d' hd' i hi
  have e' := (convex_plane (mirrored d tr) a b hab h1 periodic' theta' h').2.1 d' hd' _ hi'
  have key : ∀ c c', c' = opposite (tr.shape d) d c →
      planeLevel K (Troubled (mirrored d tr)) a b c' = planeLevel K (Troubled tr) a b c := by
    intro c c' hc
    have hsgn : ∀ x : Fin 3, (if x = d then (-1 : ℤ) else 1) = 1 ∨ (if x = d then (-1 : ℤ) else 1) = -1 := by
      intro x; split_ifs <;> simp
    refine planeLevel_move _ _ a b c' c _ _ (hsgn a) (hsgn b) fun k l _ _ _ _ => ?_
    rw [mirrored_troubled, opposite_off, opposite_off, hc]
    have : opposite (tr.shape d) d (opposite (tr.shape d) d c) = c := by
      funext x
      unfold opposite
      split_ifs <;> ring
    rw [this]
  rw [e, e']
  by_cases hd : d' = d
  · subst hd
    rw [if_pos rfl, key i _ ?_, key (i - off d' 1) _ ?_, max_comm]
    · funext x
      simp only [opposite, Pi.sub_apply, off_apply]
      split_ifs <;> ring
    · funext x
      simp only [opposite, Pi.sub_apply, off_apply]
      split_ifs <;> ring
  · rw [if_neg hd, key i _ rfl, key (i - off d' 1) _ ?_]
    funext x
    simp only [opposite, Pi.sub_apply, off_apply]
    split_ifs <;> first | ring1 | (exfalso; simp_all)

/-! ## C37 -/

/-- The cell of the mesh that `c` stands for when the flagged directions in `dims` are wrapped. -/
def wrapped (n : Fin 3 → ℕ) (periodic : Fin 3 → Bool) (dims : List (Fin 3)) (c : Ix) : Ix :=
  fun e => if e ∈ dims ∧ periodic e = true then c e % n e else c e

/-- **C37 fails in one dimension** In every periodic line of at least 4 cells whose first cell alone is
troubled, the first face has weight 1 and the last face, which is the same face of the wrapped line,
has weight 0. -/
theorem C37_line_violated (n : ℕ) (hn : 4 ≤ n) (a : Fin 3) :
    ∃ tr : Arr Bool, (∀ e, tr.shape e = if e = a then n else 1) ∧ (∀ c, Troubled tr c ↔ c = 0) ∧
      ∃ theta, broadcastTrouble K true (fun _ => true) [a] tr = .ok theta ∧
        (theta a).get 0 = 1 ∧ (theta a).get (Pi.single a (n : ℤ)) = 0 := by
  let tr : Arr Bool := ⟨fun e => if e = a then n else 1, fun c => decide (c = 0)⟩
  have hT : ∀ c, Troubled tr c ↔ c = 0 := by
    intro c
    unfold Troubled
    simp only [tr, decide_eq_true_eq]
    constructor
    · exact fun h => h.2
    · rintro rfl
      refine ⟨fun e => ?_, rfl⟩
      dsimp only
      split_ifs <;> simp
      omega
  have h1 : ∀ e, e ≠ a → tr.shape e = 1 := fun e he => if_neg he
  have ha : tr.shape a = n := if_pos rfl
  obtain ⟨theta, w, h, hw, _, hf, _⟩ := C36_line (K := K) tr a h1 (by omega) (fun _ => true)
  refine ⟨tr, fun e => rfl, hT, theta, h, ?_, ?_⟩
  · rw [hf 0 (fun e => by
      by_cases he : e = a
      · subst he; simp [ha]
      · simp [he, h1 e he]), hw.hit 0 ((hT 0).2 rfl)]
    refine max_eq_right ?_
    rw [hw.next (0 - Pi.single a 1) (fun h => ?_) ⟨0, (hT 0).2 rfl, Or.inl (by simp)⟩]
    · norm_num
    · have := congrFun ((hT _).1 h) a
      simp at this
  · rw [hf _ (fun e => by
      by_cases he : e = a
      · subst he; simp [ha]
      · simp [he, h1 e he])]
    have far : ∀ c : Ix, (n : ℤ) - 1 ≤ c a → w c = 0 := by
      intro c hc
      refine hw.far c ?_
      rintro ⟨k, hk, c', hc', hA⟩
      have h0 : c' a = 0 := congrFun ((hT _).1 hc') a
      rcases hA with rfl | rfl <;> simp at h0 <;> omega
    rw [far _ (by simp), far _ (by simp), max_self]

/-- **C37 fails in two dimensions** The same for the faces along `a` of a mesh of two directions: with
only the cell at the origin troubled and `a` periodic, the first face of its row has weight 1, the last
one 0. The other direction must not be z with a periodic flag; see `C37_raises`. -/
theorem C37_plane_violated (n : Fin 3 → ℕ) (a b : Fin 3) (hab : a < b) (hn : 4 ≤ n a) (hnb : 1 ≤ n b)
    (h1 : ∀ e, e ≠ a → e ≠ b → n e = 1) :
    ∃ tr : Arr Bool, tr.shape = n ∧ (∀ c, Troubled tr c ↔ c = 0) ∧
      ∃ theta, broadcastTrouble K true (fun e => decide (e = a)) [a, b] tr = .ok theta ∧
        (theta a).get 0 = 1 ∧ (theta a).get (Pi.single a (n a : ℤ)) = 0 := by
  have hpos : ∀ e, 1 ≤ n e := by
    intro e
    by_cases ha : e = a
    · rw [ha]; omega
    · by_cases hb : e = b
      · rw [hb]; exact hnb
      · rw [h1 e ha hb]
  let tr : Arr Bool := ⟨n, fun c => decide (c = 0)⟩
  have hT : ∀ c, Troubled tr c ↔ c = 0 := by
    intro c
    unfold Troubled
    simp only [tr, decide_eq_true_eq]
    constructor
    · exact fun h => h.2
    · rintro rfl
      refine ⟨fun e => ?_, rfl⟩
      have := hpos e
      simp
      omega
  obtain ⟨hret, hall⟩ := C36_plane (K := K) tr a b hab h1 hpos (fun e => decide (e = a))
  obtain ⟨theta, h⟩ := hret (by
    rintro ⟨hb, hp, _⟩
    rw [decide_eq_true_eq] at hp
    rw [hb, hp] at hab
    exact lt_irrefl _ hab)
  obtain ⟨w, hw, _, hf, _⟩ := hall theta h
  refine ⟨tr, rfl, hT, theta, h, ?_, ?_⟩
  · rw [hf a (Or.inl rfl) 0 (fun e => by
      have := hpos e
      change 0 ≤ (0 : ℤ) ∧ (0 : ℤ) < n e + (Pi.single a 1 : Ix) e
      rw [Pi.single_apply]
      split_ifs <;> omega), hw.hit 0 ((hT 0).2 rfl)]
    refine max_eq_right ?_
    rw [hw.edge (0 - Pi.single a 1) (fun h => ?_) ⟨0, (hT 0).2 rfl, Or.inl ⟨0, Or.inl (by simp),
      Or.inl (by simp)⟩⟩]
    · norm_num
    · have := congrFun ((hT _).1 h) a
      simp at this
  · rw [hf a (Or.inl rfl) _ (fun e => by
      have := hpos e
      change 0 ≤ (Pi.single a (n a : ℤ) : Ix) e ∧ (Pi.single a (n a : ℤ) : Ix) e < n e + (Pi.single a 1 : Ix) e
      simp only [Pi.single_apply]
      split_ifs with he
      · subst he; omega
      · omega)]
    have far : ∀ c : Ix, (n a : ℤ) - 1 ≤ c a → w c = 0 := by
      intro c hc
      refine hw.far c ?_
      rintro ⟨k, hk, l, hl, c', hc', m, hA, hB⟩
      have h0 : c' a = 0 := congrFun ((hT _).1 hc') a
      have hne : a ≠ b := ne_of_lt hab
      rcases hA with rfl | rfl <;> rcases hB with rfl | rfl <;> simp [hne] at h0 <;> omega
    rw [far _ (by simp), far _ (by simp), max_self]

/-- **C37 fails in the planes containing z** With a periodic flag for z the call raises ValueError as
soon as the other direction does not have exactly 5 cells. -/
theorem C37_raises (tr : Arr Bool) (a : Fin 3) (ha : a ≠ 2) (h1 : ∀ e, e ≠ a → e ≠ 2 → tr.shape e = 1)
    (hn : ∀ e, 1 ≤ tr.shape e) (h5 : tr.shape a ≠ 5) (periodic : Fin 3 → Bool) (hp : periodic 2 = true) :
    broadcastTrouble K true periodic [a, 2] tr = .error .valueError := by
  have hlt : a < 2 := (by decide : ∀ a : Fin 3, a ≠ 2 → a < 2) a ha
  exact (convex_returns (K := K) tr [a, 2] periodic (Or.inr ⟨a, 2, hlt, rfl⟩)
    (fun e he => by simp at he; exact h1 e he.1 he.2) hn).2 ⟨hp, by simp, a, by simp, ha, h5⟩

theorem troubled_wrapped (tr : Arr Bool) (periodic : Fin 3 → Bool) (dims : List (Fin 3))
    (hT : ∀ c, Troubled tr c → ∀ e ∈ dims, periodic e = true → 3 ≤ c e ∧ c e + 3 < tr.shape e)
    (x : Ix) (hx : ∀ e ∈ dims, -3 ≤ x e ∧ x e ≤ tr.shape e + 2) :
    Troubled tr x ↔ Troubled tr (wrapped tr.shape periodic dims x) := by
  by_cases hin : ∀ e ∈ dims, periodic e = true → 0 ≤ x e ∧ x e < tr.shape e
  · have : wrapped tr.shape periodic dims x = x := by
      funext e
      unfold wrapped
      split_ifs with he
      · exact Int.emod_eq_of_lt (hin e he.1 he.2).1 (hin e he.1 he.2).2
      · rfl
    rw [this]
  · push Not at hin
    obtain ⟨e, he, hp, hout⟩ := hin
    constructor
    · intro h
      have := h.1 e
      omega
    · intro h
      have h3 := hT _ h e he hp
      have hb := hx e he
      rw [show wrapped tr.shape periodic dims x e = x e % tr.shape e from if_pos ⟨he, hp⟩] at h3
      exfalso
      have hn : (7 : ℤ) ≤ tr.shape e := by omega
      by_cases h0 : 0 ≤ x e
      · have hge := hout h0
        have : x e % tr.shape e = x e - tr.shape e := by
          rw [Int.emod_eq_sub_self_emod]
          exact Int.emod_eq_of_lt (by omega) (by omega)
        omega
      · have : x e % tr.shape e = x e + tr.shape e := by
          rw [← Int.add_emod_right]
          exact Int.emod_eq_of_lt (by omega) (by omega)
        omega

/-- **C37, one dimension, partial** When the three first and the three last cells of a periodic line
are not troubled, the face weights are those of the wrapped line. Missing: troubled cells near the
seam, for which the claim is false (`C37_line_violated`). -/
theorem C37_line_partial (tr : Arr Bool) (a : Fin 3) (h1 : ∀ e, e ≠ a → tr.shape e = 1)
    (hn : 1 ≤ tr.shape a) (periodic : Fin 3 → Bool)
    (hT : ∀ c, Troubled tr c → periodic a = true → 3 ≤ c a ∧ c a + 3 < tr.shape a) :
    ∃ theta w, broadcastTrouble K true periodic [a] tr = .ok theta ∧
      LineWeights (fun c => Troubled tr (wrapped tr.shape periodic [a] c)) a w ∧
      ∀ i, InFaces tr.shape a i → (theta a).get i = max (w (i - Pi.single a 1)) (w i) := by
  obtain ⟨theta, _, h, _⟩ := C36_line (K := K) tr a h1 hn periodic
  refine ⟨theta, _, h, lineLevel_weights _ a, fun i hi => ?_⟩
  rw [(convex_line tr a h1 periodic theta h).2.1 i hi]
  have key : ∀ c : Ix, -1 ≤ c a → c a ≤ tr.shape a → lineLevel K (Troubled tr) a c =
      lineLevel K (fun c => Troubled tr (wrapped tr.shape periodic [a] c)) a c := by
    intro c h2 h3
    refine lineLevel_move _ _ a c c 1 (Or.inl rfl) fun k _ _ => ?_
    rw [one_mul]
    refine troubled_wrapped tr periodic [a] (fun c hc e he hp => ?_) _ (fun e he => ?_)
    · rw [List.mem_singleton.1 he] at hp ⊢; exact hT c hc hp
    · rw [List.mem_singleton.1 he]
      simp only [Pi.add_apply, off_apply, if_true]
      omega
  have := hi a
  simp only [Pi.single_eq_same] at this
  rw [key i (by omega) (by omega), key (i - off a 1) (by simp [off_apply]; omega)
    (by simp [off_apply]; omega)]
  rfl

/-- **C37, two dimensions, partial** The same in two dimensions, when the call returns. -/
theorem C37_plane_partial (tr : Arr Bool) (a b : Fin 3) (hab : a < b)
    (h1 : ∀ e, e ≠ a → e ≠ b → tr.shape e = 1) (periodic : Fin 3 → Bool)
    (hT : ∀ c, Troubled tr c → ∀ e ∈ [a, b], periodic e = true → 3 ≤ c e ∧ c e + 3 < tr.shape e)
    (theta : Fin 3 → Arr K) (h : broadcastTrouble K true periodic [a, b] tr = .ok theta) :
    ∃ w, PlaneWeights (fun c => Troubled tr (wrapped tr.shape periodic [a, b] c)) a b w ∧
      ∀ d, d = a ∨ d = b → ∀ i, InFaces tr.shape d i →
        (theta d).get i = max (w (i - Pi.single d 1)) (w i) := by
  refine ⟨_, planeLevel_weights _ a b, fun d hd i hi => ?_⟩
  rw [(convex_plane tr a b hab h1 periodic theta h).2.1 d hd i hi]
  have key : ∀ c : Ix, (∀ e, -1 ≤ c e ∧ c e ≤ tr.shape e) → planeLevel K (Troubled tr) a b c =
      planeLevel K (fun c => Troubled tr (wrapped tr.shape periodic [a, b] c)) a b c := by
    intro c h2
    refine planeLevel_move _ _ a b c c 1 1 (Or.inl rfl) (Or.inl rfl) fun k l _ _ _ _ => ?_
    rw [one_mul, one_mul]
    refine troubled_wrapped tr periodic [a, b] hT _ (fun e he => ?_)
    have := h2 e
    have hne : a ≠ b := ne_of_lt hab
    simp only [Pi.add_apply, off_apply]
    split_ifs with hea heb <;> first | omega | exact absurd (hea.symm.trans heb) hne
  have hi' : ∀ e, 0 ≤ i e ∧ i e ≤ tr.shape e := by
    intro e
    have := hi e
    simp only [Pi.single_apply] at this
    split_ifs at this <;> omega
  rw [key i (fun e => by have := hi' e; omega), key (i - off d 1) (fun e => by
    have := hi' e
    simp only [Pi.sub_apply, off_apply]
    split_ifs <;> omega)]
  rfl

/-! ## Concrete cases -/

/-- A line of 9 cells, the fifth of which is troubled. -/
def oneTroubled : Arr Bool := ⟨![9, 1, 1], fun i => decide (i 0 = 4)⟩

/-- A plane of 9 × 10 cells with one troubled cell. -/
def oneTroubledPlane : Arr Bool := ⟨![9, 10, 1], fun i => decide (i 0 = 4 ∧ i 1 = 5)⟩

example : (∀ e, e ≠ 0 → oneTroubled.shape e = 1) ∧ 1 ≤ oneTroubled.shape 0 ∧
    Troubled oneTroubled ![4, 0, 0] ∧
    ∀ c, Troubled oneTroubled c → 3 ≤ c 0 ∧ c 0 + 3 < oneTroubled.shape 0 := by
  refine ⟨by decide, by decide, ⟨by decide, by decide⟩, fun c hc => ?_⟩
  have : c 0 = 4 := by simpa [oneTroubled] using hc.2
  rw [this]
  decide

example : (∀ e, e ≠ 0 → e ≠ 1 → oneTroubledPlane.shape e = 1) ∧ (∀ e, 1 ≤ oneTroubledPlane.shape e) ∧
    Troubled oneTroubledPlane ![4, 5, 0] ∧
    ∀ c, Troubled oneTroubledPlane c → ∀ e ∈ [(0 : Fin 3), 1], 3 ≤ c e ∧ c e + 3 < oneTroubledPlane.shape e := by
  refine ⟨by decide, by decide, ⟨by decide, by decide⟩, fun c hc e he => ?_⟩
  have : c 0 = 4 ∧ c 1 = 5 := by simpa [oneTroubledPlane] using hc.2
  simp at he
  rcases he with rfl | rfl
  · rw [this.1]; decide
  · rw [this.2]; decide

example : ∃ theta, broadcastTrouble ℚ true (fun _ => true) [0, 1] oneTroubledPlane = .ok theta :=
  (C36_plane oneTroubledPlane 0 1 (by decide) (by decide) (by decide) _).1 (by decide)

end FVHOE
