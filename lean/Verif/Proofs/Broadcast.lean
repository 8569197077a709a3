import Mathlib.Tactic.Linarith
import Mathlib.Tactic.NormNum
import Mathlib.Tactic.Positivity
import Verif.Proofs.Arr
import Verif.Proofs.Limited

/-! Evaluation of the broadcasting of troubled cells to faces. -/

set_option linter.unusedSectionVars false

namespace FVHOE

variable {K : Type} [Field K] [LinearOrder K] [IsStrictOrderedRing K] {α : Type}

/-- The index is in a box with the given sizes. -/
def InBox (m : Fin 3 → ℕ) (j : Ix) : Prop := ∀ d, 0 ≤ j d ∧ j d < m d

instance (m : Fin 3 → ℕ) (j : Ix) : Decidable (InBox m j) := by unfold InBox; infer_instance

/-- Every component is -1, 0 or 1. -/
def Unit1 (o : Ix) : Prop := ∀ d, o d = -1 ∨ o d = 0 ∨ o d = 1

theorem bounds_dst (m : ℕ) (o : Ix) (ho : Unit1 o) (d : Fin 3) :
    (sliceStart m (dstBox o d).1 : ℤ) = (if o d = -1 then min 1 (m : ℤ) else 0) ∧
    (sliceStop m (dstBox o d).2 : ℤ) = (if o d = 1 then max 0 ((m : ℤ) - 1) else m) ∧
    (sliceStart m (srcBox o d).1 : ℤ) = (if o d = 1 then min 1 (m : ℤ) else 0) ∧
    (sliceStop m (srcBox o d).2 : ℤ) = (if o d = -1 then max 0 ((m : ℤ) - 1) else m) := by
  have e1 : (1 : ℤ).toNat = 1 := rfl
  rcases ho d with h | h | h <;>
    simp [dstBox, srcBox, h, sliceStart, sliceStop, pyBound, e1] <;> omega

theorem maxFrom_spec (f : K → K) (m : Fin 3 → ℕ) (src theta : Arr K) (hs : src.shape = m)
    (ht : theta.shape = m) (o : Ix) (ho : Unit1 o) :
    ∃ C, maxFrom f src o theta = .ok C ∧ C.shape = m ∧ ∀ j, InBox m j → C.get j =
      if InBox m (j + o) then max (f (src.get (j + o))) (theta.get j) else theta.get j := by
  have hb := fun d => bounds_dst (m d) o ho d
  have hsz : ∀ d, sliceStop (m d) (srcBox o d).2 - sliceStart (m d) (srcBox o d).1 =
      sliceStop (m d) (dstBox o d).2 - sliceStart (m d) (dstBox o d).1 := by
    intro d
    obtain ⟨h1, h2, h3, h4⟩ := hb d
    rcases ho d with h | h | h <;> simp [h] at h1 h2 h3 h4 <;> omega
  have e1 : ((src.box (srcBox o)).map f).shape = (theta.box (dstBox o)).shape := by
    funext d
    simp only [Arr.map, Arr.box, hs, ht]
    exact hsz d
  unfold maxFrom
  unfold Arr.zip
  rw [if_pos (show ∀ d, dimCompat (((src.box (srcBox o)).map f).shape d)
    ((theta.box (dstBox o)).shape d) from fun d => Or.inl (congrFun e1 d))]
  simp only [bind, Except.bind]
  unfold Arr.setBox
  have e2 : (fun d => dimBroadcast (((src.box (srcBox o)).map f).shape d)
      ((theta.box (dstBox o)).shape d)) = (theta.box (dstBox o)).shape := by
    funext d
    unfold dimBroadcast
    rw [e1]
    split_ifs <;> rfl
  simp only [e2]
  rw [if_pos (show broadcastsTo (theta.box (dstBox o)).shape fun d =>
    sliceStop (theta.shape d) (dstBox o d).2 - sliceStart (theta.shape d) (dstBox o d).1 from
      fun d => Or.inl rfl)]
  refine ⟨_, rfl, ht, fun j hj => ?_⟩
  simp only
  have hiff : (∀ d, (sliceStart (theta.shape d) (dstBox o d).1 : ℤ) ≤ j d ∧
      j d < sliceStop (theta.shape d) (dstBox o d).2) ↔ InBox m (j + o) := by
    rw [ht]
    unfold InBox
    refine forall_congr' fun d => ?_
    obtain ⟨h1, h2, _, _⟩ := hb d
    have := hj d
    rw [h1, h2, Pi.add_apply]
    rcases ho d with h | h | h <;> simp [h] <;> omega
  by_cases hin : InBox m (j + o)
  swap
  · rw [if_neg (fun h => hin (hiff.1 h)), if_neg hin]
  rw [if_pos (hiff.2 hin), if_pos hin]
  have hjb : (theta.box (dstBox o)).InB fun d => j d - sliceStart (theta.shape d) (dstBox o d).1 := by
    intro d
    have := hiff.2 hin d
    simp only [Arr.box]
    omega
  have hjb' : ((src.box (srcBox o)).map f).InB
      fun d => j d - sliceStart (theta.shape d) (dstBox o d).1 := by
    intro d
    rw [e1]
    exact hjb d
  have hz : ∀ (A : Arr K) (k : Ix), A.shape = (theta.box (dstBox o)).shape →
      (theta.box (dstBox o)).InB k → A.bix k = k := by
    intro A k hA hk
    exact bix_eq A k (by intro d; rw [hA]; exact hk d)
  have hz' : ∀ (g : Ix → K) (k : Ix), (theta.box (dstBox o)).InB k →
      Arr.bix ⟨(theta.box (dstBox o)).shape, g⟩ k = k := fun g k hk => hz _ k rfl hk
  rw [hz' _ _ hjb, hz _ _ e1 hjb, hz _ _ rfl hjb]
  simp only [Arr.map, Arr.box]
  congr 2
  · congr 1
    funext d
    obtain ⟨h1, _, h3, _⟩ := hb d
    have := hj d
    have h' := hin d
    rw [Pi.add_apply] at h'
    rw [hs, ht, h1, h3, Pi.add_apply]
    rcases ho d with h | h | h <;> simp [h] at h' ⊢ <;> omega
  · congr 1
    funext d
    ring

/-! ## Levels -/

open Classical in
/-- The weight of a cell: 1, 3/4 and 1/2 where `p`, `q`, `s` hold, 1/4 elsewhere in `r`. -/
noncomputable def level (K : Type) [Field K] (p q s r : Prop) : K :=
  if p then 1 else if q then 3 / 4 else if s then 1 / 2 else if r then 1 / 4 else 0

theorem level_pos (p q s r : Prop) (hp : p → r) (hq : q → r) (hs : s → r) :
    0 < level K p q s r ↔ r := by
  unfold level
  split_ifs <;> norm_num <;> tauto

theorem level_congr {p q s r p' q' s' r' : Prop} (hp : p ↔ p') (hq : q ↔ q') (hs : s ↔ s')
    (hr : r ↔ r') : level K p q s r = level K p' q' s' r' := by
  rw [propext hp, propext hq, propext hs, propext hr]

theorem level_flag (b : Bool) : (flag b : K) = level K (b = true) False False (b = true) := by
  unfold flag level
  cases b <;> simp

theorem max_level_q (t p q s r : Prop) :
    max (3 / 4 * level K t False False t) (level K p q s r) = level K p (q ∨ t) s (r ∨ t) := by
  unfold level
  by_cases t <;> by_cases p <;> by_cases q <;> by_cases s <;> by_cases r <;> simp [*] <;> norm_num

theorem max_level_s (t p q s r : Prop) :
    max (1 / 2 * level K t False False t) (level K p q s r) = level K p q (s ∨ t) (r ∨ t) := by
  unfold level
  by_cases t <;> by_cases p <;> by_cases q <;> by_cases s <;> by_cases r <;> simp [*] <;> norm_num

theorem max_level_r (x : K) (t p q s r : Prop) (h : 0 < x ↔ t) :
    max (quarterIfPos x) (level K p q s r) = level K p q s (r ∨ t) := by
  unfold quarterIfPos flag level
  by_cases t <;> by_cases p <;> by_cases q <;> by_cases s <;> by_cases r <;> simp [*] <;> norm_num

/-- The entries of `A` are the levels given by the four predicates, positive exactly in `r`. -/
structure Levels (A : Arr K) (m : Fin 3 → ℕ) (p q s r : Ix → Prop) : Prop where
  shape : A.shape = m
  get : ∀ j, InBox m j → A.get j = level K (p j) (q j) (s j) (r j)
  sub : ∀ j, p j ∨ q j ∨ s j → r j

theorem Levels.congr {A : Arr K} {m : Fin 3 → ℕ} {p q s r r' : Ix → Prop} (h : Levels A m p q s r)
    (hr : ∀ j, InBox m j → (r j ↔ r' j)) (hs : ∀ j, p j ∨ q j ∨ s j → r' j) : Levels A m p q s r' :=
  ⟨h.shape, fun j hj => (h.get j hj).trans (level_congr Iff.rfl Iff.rfl Iff.rfl (hr j hj)), hs⟩

variable {m : Fin 3 → ℕ} {T p q s r : Ix → Prop} {src theta : Arr K}

theorem Levels.edge (hT : ∀ j, T j → InBox m j) (hs : Levels src m T (fun _ => False) (fun _ => False) T)
    (ht : Levels theta m p q s r) (o : Ix) (ho : Unit1 o) :
    ∃ C, maxFrom (scaleBy (3 / 4)) src o theta = .ok C ∧
      Levels C m p (fun j => q j ∨ T (j + o)) s (fun j => r j ∨ T (j + o)) := by
  obtain ⟨C, e, h1, h2⟩ := maxFrom_spec (scaleBy (3 / 4)) m src theta hs.shape ht.shape o ho
  refine ⟨C, e, h1, fun j hj => ?_, fun j hj => ?_⟩
  · rw [h2 j hj, ht.get j hj]
    split_ifs with hin
    · rw [hs.get _ hin]
      exact max_level_q _ _ _ _ _
    · have : ¬ T (j + o) := fun h => hin (hT _ h)
      exact level_congr Iff.rfl (by simp [this]) Iff.rfl (by simp [this])
  · have := ht.sub j
    tauto

theorem Levels.corner (hT : ∀ j, T j → InBox m j) (hs : Levels src m T (fun _ => False) (fun _ => False) T)
    (ht : Levels theta m p q s r) (o : Ix) (ho : Unit1 o) :
    ∃ C, maxFrom (scaleBy (1 / 2)) src o theta = .ok C ∧
      Levels C m p q (fun j => s j ∨ T (j + o)) (fun j => r j ∨ T (j + o)) := by
  obtain ⟨C, e, h1, h2⟩ := maxFrom_spec (scaleBy (1 / 2)) m src theta hs.shape ht.shape o ho
  refine ⟨C, e, h1, fun j hj => ?_, fun j hj => ?_⟩
  · rw [h2 j hj, ht.get j hj]
    split_ifs with hin
    · rw [hs.get _ hin]
      exact max_level_s _ _ _ _ _
    · have : ¬ T (j + o) := fun h => hin (hT _ h)
      exact level_congr Iff.rfl Iff.rfl (by simp [this]) (by simp [this])
  · have := ht.sub j
    tauto

theorem Levels.far (ht : Levels theta m p q s r) (o : Ix) (ho : Unit1 o) :
    ∃ C, maxFrom quarterIfPos theta o theta = .ok C ∧
      Levels C m p q s (fun j => r j ∨ (InBox m (j + o) ∧ r (j + o))) := by
  obtain ⟨C, e, h1, h2⟩ := maxFrom_spec quarterIfPos m theta theta ht.shape ht.shape o ho
  refine ⟨C, e, h1, fun j hj => ?_, fun j hj => Or.inl (ht.sub j hj)⟩
  rw [h2 j hj, ht.get j hj]
  split_ifs with hin
  · rw [ht.get _ hin]
    refine (max_level_r _ (r (j + o)) _ _ _ _ (level_pos _ _ _ _ ?_ ?_ ?_)).trans
      (level_congr Iff.rfl Iff.rfl Iff.rfl (by simp [hin])) <;>
    · intro h
      exact ht.sub _ (by tauto)
  · exact level_congr Iff.rfl Iff.rfl Iff.rfl (by simp [hin])

/-- Some cell with `T` lies between `lo` and `hi` cells ahead along axis `a`. -/
def near (T : Ix → Prop) (a : Fin 3) (lo hi : ℤ) (j : Ix) : Prop :=
  ∃ k, lo ≤ k ∧ k ≤ hi ∧ T (j + off a k)

theorem off_apply (a e : Fin 3) (k : ℤ) : off a k e = if e = a then k else 0 := by
  unfold off
  rw [Pi.single_apply]

theorem off_off (j : Ix) (a : Fin 3) (k l : ℤ) : j + off a k + off a l = j + off a (k + l) := by
  funext e
  simp only [Pi.add_apply, off_apply]
  split_ifs <;> ring

theorem off_zero (j : Ix) (a : Fin 3) : j + off a 0 = j := by
  funext e
  simp [off_apply]

theorem unit_off (a : Fin 3) (k : ℤ) (hk : k = 1 ∨ k = -1) : Unit1 (off a k) := by
  intro d
  rw [off_apply]
  split_ifs <;> omega

theorem near_up (T : Ix → Prop) (a : Fin 3) (lo hi : ℤ) (h0 : lo ≤ 0) (h1 : 0 ≤ hi)
    (hT : ∀ j, T j → j a < m a) (j : Ix) (hj : InBox m j) :
    (near T a lo hi j ∨ (InBox m (j + off a 1) ∧ near T a lo hi (j + off a 1))) ↔
      near T a lo (hi + 1) j := by
  constructor
  · rintro (⟨k, h2, h3, h4⟩ | ⟨_, k, h2, h3, h4⟩)
    · exact ⟨k, h2, by omega, h4⟩
    · refine ⟨1 + k, by omega, by omega, ?_⟩
      rwa [off_off] at h4
  · rintro ⟨k, h2, h3, h4⟩
    by_cases hk : k ≤ hi
    · exact Or.inl ⟨k, h2, hk, h4⟩
    · right
      constructor
      · intro e
        have := hj e
        have h5 := hT _ h4
        simp only [Pi.add_apply, off_apply] at h5 ⊢
        split_ifs at h5 ⊢ with he
        · subst he; omega
        · omega
      · refine ⟨k - 1, by omega, by omega, ?_⟩
        rw [off_off]
        convert h4 using 3 <;> ring

theorem near_down (T : Ix → Prop) (a : Fin 3) (lo hi : ℤ) (h0 : lo ≤ 0) (h1 : 0 ≤ hi)
    (hT : ∀ j, T j → 0 ≤ j a) (j : Ix) (hj : InBox m j) :
    (near T a lo hi j ∨ (InBox m (j + off a (-1)) ∧ near T a lo hi (j + off a (-1)))) ↔
      near T a (lo - 1) hi j := by
  constructor
  · rintro (⟨k, h2, h3, h4⟩ | ⟨_, k, h2, h3, h4⟩)
    · exact ⟨k, by omega, h3, h4⟩
    · refine ⟨-1 + k, by omega, by omega, ?_⟩
      rwa [off_off] at h4
  · rintro ⟨k, h2, h3, h4⟩
    by_cases hk : lo ≤ k
    · exact Or.inl ⟨k, hk, h3, h4⟩
    · right
      constructor
      · intro e
        have := hj e
        have h5 := hT _ h4
        simp only [Pi.add_apply, off_apply] at h5 ⊢
        split_ifs at h5 ⊢ with he
        · subst he; omega
        · omega
      · refine ⟨k + 1, by omega, by omega, ?_⟩
        rw [off_off]
        convert h4 using 3 <;> ring

theorem near_one (T : Ix → Prop) (a : Fin 3) (j : Ix) :
    near T a (-1) 1 j ↔ T j ∨ T (j + off a 1) ∨ T (j + off a (-1)) := by
  constructor
  · rintro ⟨k, h2, h3, h4⟩
    have : k = -1 ∨ k = 0 ∨ k = 1 := by omega
    rcases this with rfl | rfl | rfl
    · exact Or.inr (Or.inr h4)
    · rw [off_zero] at h4; exact Or.inl h4
    · exact Or.inr (Or.inl h4)
  · rintro (h | h | h)
    · exact ⟨0, by omega, by omega, by rwa [off_zero]⟩
    · exact ⟨1, by omega, by omega, h⟩
    · exact ⟨-1, by omega, by omega, h⟩

theorem near_comm (T : Ix → Prop) (a b : Fin 3) (l h l' h' : ℤ) (j : Ix) :
    near (near T a l h) b l' h' j ↔ near (near T b l' h') a l h j := by
  constructor
  · rintro ⟨k, h1, h2, k', h3, h4, h5⟩
    exact ⟨k', h3, h4, k, h1, h2, by rwa [add_right_comm]⟩
  · rintro ⟨k, h1, h2, k', h3, h4, h5⟩
    exact ⟨k', h3, h4, k, h1, h2, by rwa [add_right_comm]⟩

theorem near_mono {T T' : Ix → Prop} {a : Fin 3} {l h l' h' : ℤ} (hT : ∀ j, T j → T' j) (hl : l' ≤ l)
    (hh : h ≤ h') {j : Ix} : near T a l h j → near T' a l' h' j :=
  fun ⟨k, h1, h2, h3⟩ => ⟨k, by omega, by omega, hT _ h3⟩

theorem convexCells1_spec (hT : ∀ j, T j → InBox m j)
    (hs : Levels src m T (fun _ => False) (fun _ => False) T) (a : Fin 3) :
    ∃ C, convexCells1 src a = .ok C ∧ Levels C m T
      (fun j => T (j + off a 1) ∨ T (j + off a (-1))) (fun _ => False) (near T a (-2) 2) := by
  have ha : ∀ j, T j → j a < m a := fun j h => (hT j h a).2
  have hb : ∀ j, T j → 0 ≤ j a := fun j h => (hT j h a).1
  obtain ⟨C1, e1, h1⟩ := hs.edge hT hs (off a 1) (unit_off a 1 (Or.inl rfl))
  obtain ⟨C2, e2, h2⟩ := hs.edge hT h1 (off a (-1)) (unit_off a (-1) (Or.inr rfl))
  have h2' := h2.congr (r' := near T a (-1) 1) (fun j _ => by rw [near_one]; tauto)
    (fun j h => by rw [near_one]; tauto)
  obtain ⟨C3, e3, h3⟩ := h2'.far (off a 1) (unit_off a 1 (Or.inl rfl))
  have h3' := h3.congr (fun j hj => near_up T a (-1) 1 (by omega) (by omega) ha j hj)
    (fun j h => near_mono (fun _ h => h) le_rfl (by omega) (h2'.sub j h))
  obtain ⟨C4, e4, h4⟩ := h3'.far (off a (-1)) (unit_off a (-1) (Or.inr rfl))
  have h4' := h4.congr (fun j hj => near_down T a (-1) (1 + 1) (by omega) (by omega) hb j hj)
    (fun j h => near_mono (fun _ h => h) (by omega) (by omega) (h2'.sub j h))
  refine ⟨C4, ?_, ⟨h4'.shape, fun j hj => (h4'.get j hj).trans (level_congr Iff.rfl (by simp) Iff.rfl
    Iff.rfl), fun j h => h4'.sub j (by tauto)⟩⟩
  unfold convexCells1
  rw [e1]
  simp only [bind, Except.bind]
  rw [e2]
  simp only
  rw [e3]
  exact e4

/-- The cells sharing an edge, the cells sharing only a corner. -/
def edgeNear (T : Ix → Prop) (a b : Fin 3) (j : Ix) : Prop :=
  T (j + off a 1) ∨ T (j + off a (-1)) ∨ T (j + off b 1) ∨ T (j + off b (-1))

/-- The cells sharing only a corner. -/
def cornerNear (T : Ix → Prop) (a b : Fin 3) (j : Ix) : Prop :=
  T (j + off a 1 + off b 1) ∨ T (j + off a 1 + off b (-1)) ∨ T (j + off a (-1) + off b 1) ∨
    T (j + off a (-1) + off b (-1))

theorem unit_diag (a b : Fin 3) (hab : a ≠ b) (k l : ℤ) (hk : k = 1 ∨ k = -1) (hl : l = 1 ∨ l = -1) :
    Unit1 (off a k + off b l) := by
  intro d
  simp only [Pi.add_apply, off_apply]
  split_ifs with h1 h2
  · exact absurd (h1.symm.trans h2) hab
  all_goals omega

theorem convexCells2_spec (hT : ∀ j, T j → InBox m j)
    (hs : Levels src m T (fun _ => False) (fun _ => False) T) (a b : Fin 3) (hab : a ≠ b) :
    ∃ C, convexCells2 src a b = .ok C ∧ Levels C m T (edgeNear T a b) (cornerNear T a b)
      (near (near T b (-2) 2) a (-2) 2) := by
  have up := fun c => unit_off c 1 (Or.inl rfl)
  have dn := fun c => unit_off c (-1) (Or.inr rfl)
  obtain ⟨C1, e1, h1⟩ := hs.edge hT hs (off b 1) (up b)
  obtain ⟨C2, e2, h2⟩ := hs.edge hT h1 (off b (-1)) (dn b)
  obtain ⟨C3, e3, h3⟩ := hs.edge hT h2 (off a 1) (up a)
  obtain ⟨C4, e4, h4⟩ := hs.edge hT h3 (off a (-1)) (dn a)
  obtain ⟨C5, e5, h5⟩ := hs.corner hT h4 (off a 1 + off b 1)
    (unit_diag a b hab _ _ (Or.inl rfl) (Or.inl rfl))
  obtain ⟨C6, e6, h6⟩ := hs.corner hT h5 (off a 1 + off b (-1))
    (unit_diag a b hab _ _ (Or.inl rfl) (Or.inr rfl))
  obtain ⟨C7, e7, h7⟩ := hs.corner hT h6 (off a (-1) + off b 1)
    (unit_diag a b hab _ _ (Or.inr rfl) (Or.inl rfl))
  obtain ⟨C8, e8, h8⟩ := hs.corner hT h7 (off a (-1) + off b (-1))
    (unit_diag a b hab _ _ (Or.inr rfl) (Or.inr rfl))
  have key : ∀ j, near (near T a (-1) 1) b (-1) 1 j ↔ T j ∨ edgeNear T a b j ∨ cornerNear T a b j := by
    intro j
    simp only [near_one, edgeNear, cornerNear, add_right_comm j (off b _) (off a _)]
    tauto
  have h8' : Levels C8 m T (edgeNear T a b) (cornerNear T a b) (near (near T a (-1) 1) b (-1) 1) := by
    refine ⟨h8.shape, fun j hj => (h8.get j hj).trans (level_congr Iff.rfl ?_ ?_ ?_), fun j hj => ?_⟩
    · unfold edgeNear; tauto
    · unfold cornerNear
      simp only [add_assoc]
      tauto
    · rw [key]
      unfold edgeNear cornerNear
      simp only [add_assoc]
      tauto
    · rw [key]; tauto
  have sa : ∀ (l h : ℤ) (j : Ix), near T a l h j → 0 ≤ j b ∧ j b < m b := by
    rintro l h j ⟨k, _, _, hk⟩
    have := hT _ hk b
    simpa [off_apply, hab.symm] using this
  have sb : ∀ (l h : ℤ) (j : Ix), near T b l h j → 0 ≤ j a ∧ j a < m a := by
    rintro l h j ⟨k, _, _, hk⟩
    have := hT _ hk a
    simpa [off_apply, hab] using this
  obtain ⟨C9, e9, h9⟩ := h8'.far (off b 1) (up b)
  have h9' := h9.congr (fun j hj => near_up (near T a (-1) 1) b (-1) 1 (by omega) (by omega)
    (fun j h => (sa _ _ j h).2) j hj)
    (fun j h => near_mono (fun _ h => h) le_rfl (by omega) (h8'.sub j h))
  obtain ⟨C10, e10, h10⟩ := h9'.far (off b (-1)) (dn b)
  have h10' := h10.congr (fun j hj => near_down (near T a (-1) 1) b (-1) (1 + 1) (by omega) (by omega)
    (fun j h => (sa _ _ j h).1) j hj)
    (fun j h => near_mono (fun _ h => h) (by omega) (by omega) (h8'.sub j h))
  have h10'' := h10'.congr (r' := near (near T b (-2) 2) a (-1) 1) (fun j _ => near_comm T a b _ _ _ _ j)
    (fun j h => (near_comm T a b _ _ _ _ j).1 (h10'.sub j h))
  obtain ⟨C11, e11, h11⟩ := h10''.far (off a 1) (up a)
  have h11' := h11.congr (fun j hj => near_up (near T b (-2) 2) a (-1) 1 (by omega) (by omega)
    (fun j h => (sb _ _ j h).2) j hj)
    (fun j h => near_mono (fun _ h => h) le_rfl (by omega) (h10''.sub j h))
  obtain ⟨C12, e12, h12⟩ := h11'.far (off a (-1)) (dn a)
  have h12' := h12.congr (fun j hj => near_down (near T b (-2) 2) a (-1) (1 + 1) (by omega) (by omega)
    (fun j h => (sb _ _ j h).1) j hj)
    (fun j h => near_mono (fun _ h => h) (by omega) (by omega) (h10''.sub j h))
  refine ⟨C12, ?_, h12'⟩
  unfold convexCells2
  rw [e1]; simp only [bind, Except.bind]
  rw [e2]; simp only
  rw [e3]; simp only
  rw [e4]; simp only
  rw [e5]; simp only
  rw [e6]; simp only
  rw [e7]; simp only
  rw [e8]; simp only
  rw [e9]; simp only
  rw [e10]; simp only
  rw [e11]
  exact e12

/-! ## Faces -/

theorem zip_same {β γ : Type} (f : α → β → γ) (A : Arr α) (B : Arr β) (h : A.shape = B.shape) :
    ∃ C, A.zip f B = .ok C ∧ C.shape = B.shape ∧ ∀ j, B.InB j → C.get j = f (A.get j) (B.get j) := by
  unfold Arr.zip
  rw [if_pos (show ∀ d, dimCompat (A.shape d) (B.shape d) from fun d => Or.inl (congrFun h d))]
  refine ⟨_, rfl, ?_, fun j hj => ?_⟩
  · funext d
    simp only [dimBroadcast, h]
    split_ifs <;> rfl
  · simp only
    rw [bix_eq B j hj, bix_eq A j (by intro d; rw [h]; exact hj d)]

/-- The larger of two neighbouring entries along `a`. -/
theorem pair_max (theta : Arr K) (a : Fin 3) (h4 : 4 ≤ theta.shape a) (x : Bool) :
    ∃ C, (if x then (theta.slice a (some 1) (some (-2))).zip max (theta.slice a (some 2) (some (-1)))
        else (theta.slice a (some 2) (some (-1))).zip max (theta.slice a (some 1) (some (-2)))) = .ok C ∧
      C.shape = Function.update theta.shape a (theta.shape a - 3) ∧
      ∀ j, InBox C.shape j → C.get j = max (theta.get (j + off a 1)) (theta.get (j + off a 2)) := by
  have b1 : sliceStart (theta.shape a) (some 1) = 1 := by simp [sliceStart, pyBound]; omega
  have b2 : sliceStart (theta.shape a) (some 2) = 2 := by
    have : (2 : ℤ).toNat = 2 := rfl
    simp [sliceStart, pyBound, this]; omega
  have b3 : sliceStop (theta.shape a) (some (-1)) = theta.shape a - 1 := by
    simp [sliceStop, pyBound]; omega
  have b4 : sliceStop (theta.shape a) (some (-2)) = theta.shape a - 2 := by
    simp [sliceStop, pyBound]; omega
  have s1 : (theta.slice a (some 1) (some (-2))).shape =
      Function.update theta.shape a (theta.shape a - 3) := by
    simp only [Arr.slice, b1, b4]
    congr 1
  have s2 : (theta.slice a (some 2) (some (-1))).shape =
      Function.update theta.shape a (theta.shape a - 3) := by
    simp only [Arr.slice, b2, b3]
    congr 1
  have g1 : ∀ j, (theta.slice a (some 1) (some (-2))).get j = theta.get (j + off a 1) := by
    intro j; simp only [Arr.slice, b1]; rfl
  have g2 : ∀ j, (theta.slice a (some 2) (some (-1))).get j = theta.get (j + off a 2) := by
    intro j; simp only [Arr.slice, b2]; rfl
  cases x
  · obtain ⟨C, e, h1, h2⟩ := zip_same max _ _ (s2.trans s1.symm)
    refine ⟨C, e, h1.trans s1, fun j hj => ?_⟩
    rw [h2 j (by rw [h1] at hj; exact hj), g1, g2, max_comm]
  · obtain ⟨C, e, h1, h2⟩ := zip_same max _ _ (s1.trans s2.symm)
    refine ⟨C, e, h1.trans s2, fun j hj => ?_⟩
    rw [h2 j (by rw [h1] at hj; exact hj), g1, g2]

theorem slice_inner (theta : Arr K) (b : Fin 3) (h4 : 4 ≤ theta.shape b) :
    (theta.slice b (some 2) (some (-2))).shape = Function.update theta.shape b (theta.shape b - 4) ∧
    ∀ j, (theta.slice b (some 2) (some (-2))).get j = theta.get (j + off b 2) := by
  have b2 : sliceStart (theta.shape b) (some 2) = 2 := by
    have : (2 : ℤ).toNat = 2 := rfl
    simp [sliceStart, pyBound, this]; omega
  have b4 : sliceStop (theta.shape b) (some (-2)) = theta.shape b - 2 := by
    simp [sliceStop, pyBound]; omega
  constructor
  · simp only [Arr.slice, b2, b4]
    congr 1
  · intro j; simp only [Arr.slice, b2]; rfl

theorem assign_same (dst src : Arr α) (h : src.shape = dst.shape) :
    ∃ C, dst.assign src = .ok C ∧ C.shape = dst.shape ∧ ∀ j, dst.InB j → C.get j = src.get j := by
  unfold Arr.assign
  rw [if_pos (show broadcastsTo src.shape dst.shape from fun d => Or.inl (congrFun h d))]
  refine ⟨_, rfl, rfl, fun j hj => ?_⟩
  simp only
  rw [bix_eq src j (by intro d; rw [h]; exact hj d)]

/-- Sizes with two extra layers at both ends of the given axes. -/
def padSize (n : Fin 3 → ℕ) (dims : List (Fin 3)) : Fin 3 → ℕ :=
  fun d => if d ∈ dims then n d + 4 else 1

/-- The shift of the padding. -/
def padShift (dims : List (Fin 3)) : Ix := fun d => if d ∈ dims then 2 else 0

/-- The troubled cells. -/
def Troubled (tr : Arr Bool) (i : Ix) : Prop := InBox tr.shape i ∧ tr.get i = true

theorem alloc_spec (tr : Arr Bool) (dims : List (Fin 3)) (h1 : ∀ e, e ∉ dims → tr.shape e = 1) :
    ∃ A : Arr K, allocTrouble (tr.map flag) dims = .ok A ∧
      Levels A (padSize tr.shape dims) (fun j => Troubled tr (j - padShift dims)) (fun _ => False)
        (fun _ => False) (fun j => Troubled tr (j - padShift dims)) := by
  have t2 : (2 : ℤ).toNat = 2 := rfl
  have hst : ∀ d, sliceStart (padSize tr.shape dims d)
      (if d ∈ dims then (some (2 : ℤ), some (-2 : ℤ)) else (none, none)).1 =
        if d ∈ dims then 2 else 0 := by
    intro d
    unfold padSize
    split_ifs
    · simp [sliceStart, pyBound, t2]
    · rfl
  have hsp : ∀ d, sliceStop (padSize tr.shape dims d)
      (if d ∈ dims then (some (2 : ℤ), some (-2 : ℤ)) else (none, none)).2 =
        if d ∈ dims then tr.shape d + 2 else 1 := by
    intro d
    unfold padSize
    split_ifs
    · simp [sliceStop, pyBound]; omega
    · rfl
  unfold allocTrouble Arr.setBox
  have hb : broadcastsTo (tr.map (flag (K := K))).shape (fun d =>
      sliceStop (padSize tr.shape dims d)
        (if d ∈ dims then (some (2 : ℤ), some (-2 : ℤ)) else (none, none)).2 -
      sliceStart (padSize tr.shape dims d)
        (if d ∈ dims then (some (2 : ℤ), some (-2 : ℤ)) else (none, none)).1) := by
    intro d
    left
    simp only [hst, hsp]
    change tr.shape d = _
    split_ifs with hd
    · omega
    · rw [h1 d hd]
  change ∃ A, (if broadcastsTo (tr.map (flag (K := K))).shape (fun d =>
      sliceStop (padSize tr.shape dims d)
        (if d ∈ dims then (some (2 : ℤ), some (-2 : ℤ)) else (none, none)).2 -
      sliceStart (padSize tr.shape dims d)
        (if d ∈ dims then (some (2 : ℤ), some (-2 : ℤ)) else (none, none)).1) then _ else _) = _ ∧ _
  rw [if_pos hb]
  refine ⟨_, rfl, rfl, fun j hj => ?_, fun j hj => by tauto⟩
  change (if ∀ d, (sliceStart (padSize tr.shape dims d)
      (if d ∈ dims then (some (2 : ℤ), some (-2 : ℤ)) else (none, none)).1 : ℤ) ≤ j d ∧
      j d < sliceStop (padSize tr.shape dims d)
        (if d ∈ dims then (some (2 : ℤ), some (-2 : ℤ)) else (none, none)).2 then
      (tr.map flag).get ((tr.map flag).bix fun d => j d - sliceStart (padSize tr.shape dims d)
        (if d ∈ dims then (some (2 : ℤ), some (-2 : ℤ)) else (none, none)).1) else 0) = _
  simp only [hst, hsp]
  have hsub : (fun d => j d - ((if d ∈ dims then 2 else 0 : ℕ) : ℤ)) = j - padShift dims := by
    funext d
    simp only [Pi.sub_apply, padShift]
    split_ifs <;> rfl
  rw [hsub]
  have hiff : (∀ d, ((if d ∈ dims then 2 else 0 : ℕ) : ℤ) ≤ j d ∧
      j d < ((if d ∈ dims then tr.shape d + 2 else 1 : ℕ) : ℤ)) ↔ InBox tr.shape (j - padShift dims) := by
    unfold InBox
    refine forall_congr' fun d => ?_
    simp only [Pi.sub_apply, padShift]
    split_ifs with hd
    · push_cast; omega
    · have := h1 d hd
      push_cast; omega
  by_cases hin : InBox tr.shape (j - padShift dims)
  · rw [if_pos (hiff.2 hin), bix_eq (tr.map flag) _ hin]
    exact (level_flag _).trans (level_congr (by simp [Troubled, hin]) Iff.rfl Iff.rfl
      (by simp [Troubled, hin]))
  · rw [if_neg (fun h => hin (hiff.1 h))]
    simp [level, Troubled, hin]

theorem setBox_empty {A C src : Arr α} {b : Box} (e : Fin 3)
    (he : sliceStop (A.shape e) (b e).2 ≤ sliceStart (A.shape e) (b e).1)
    (h : A.setBox b src = .ok C) : C = A := by
  unfold Arr.setBox at h
  dsimp only at h
  split at h
  · cases h
    congr 1
    funext j
    rw [if_neg]
    intro hd
    have := hd e
    omega
  · cases h

theorem wrap_noop {tr A C : Arr K} {dims : List (Fin 3)} {periodic : Fin 3 → Bool} {d : Fin 3} (e : Fin 3)
    (he : e ∉ dims) (h1 : A.shape e = 1) (h : wrapTrouble tr dims periodic A d = .ok C) : C = A := by
  have t2 : (2 : ℤ).toNat = 2 := rfl
  unfold wrapTrouble at h
  split at h
  · rename_i hd
    have hed : e ≠ d := fun h' => he (h' ▸ hd.2)
    obtain ⟨B, hB, h'⟩ := bind_ok h
    have eB : B = A := by
      refine setBox_empty e ?_ hB
      simp [lowBox, hed, h1, sliceStop, sliceStart, pyBound, t2]
    subst eB
    refine setBox_empty e ?_ h'
    simp [highBox, hed, h1, sliceStop, sliceStart, pyBound, t2]
  · cases h; rfl

theorem fold_noop {tr A C : Arr K} {dims : List (Fin 3)} {periodic : Fin 3 → Bool} (e : Fin 3)
    (he : e ∉ dims) (h1 : A.shape e = 1) (l : List (Fin 3))
    (h : l.foldlM (wrapTrouble tr dims periodic) A = .ok C) : C = A := by
  induction l generalizing A with
  | nil => cases h; rfl
  | cons d l ih =>
    rw [List.foldlM_cons] at h
    obtain ⟨B, hB, h'⟩ := bind_ok h
    have := wrap_noop e he h1 hB
    subst this
    exact ih h1 h'

theorem padded_trouble (tr : Arr Bool) (dims : List (Fin 3)) (h1 : ∀ e, e ∉ dims → tr.shape e = 1) (j : Ix)
    (h : Troubled tr (j - padShift dims)) : InBox (padSize tr.shape dims) j := by
  intro d
  have := h.1 d
  simp only [Pi.sub_apply, padShift, padSize] at this ⊢
  split_ifs at this ⊢ with hd
  · push_cast; omega
  · have := h1 d hd; omega

theorem near_shift (T : Ix → Prop) (a : Fin 3) (lo hi : ℤ) (s j : Ix) :
    near (fun j => T (j - s)) a lo hi j ↔ near T a lo hi (j - s) := by
  unfold near
  simp only [add_sub_right_comm]

/-- The weight of a cell next to troubled cells of a line. -/
noncomputable def lineLevel (K : Type) [Field K] (T : Ix → Prop) (a : Fin 3) (i : Ix) : K :=
  level K (T i) (T (i + off a 1) ∨ T (i + off a (-1))) False (near T a (-2) 2 i)

/-- The weight of a cell next to troubled cells of a plane. -/
noncomputable def planeLevel (K : Type) [Field K] (T : Ix → Prop) (a b : Fin 3) (i : Ix) : K :=
  level K (T i) (edgeNear T a b i) (cornerNear T a b i) (near (near T b (-2) 2) a (-2) 2 i)

theorem faceShape_eq (n : Fin 3 → ℕ) (d : Fin 3) : (zeroFaces K n d).shape = faceShape n d := rfl

theorem convexFaces_line (tr : Arr Bool) (a : Fin 3) (h1 : ∀ e, e ≠ a → tr.shape e = 1) (A : Arr K)
    (hA : Levels A (padSize tr.shape [a]) (fun j => Troubled tr (j - padShift [a])) (fun _ => False)
        (fun _ => False) (fun j => Troubled tr (j - padShift [a]))) :
    ∃ theta, convexFaces tr.shape [a] A = .ok theta ∧
      (∀ d, (theta d).shape = faceShape tr.shape d) ∧
      (∀ i, InFaces tr.shape a i → (theta a).get i =
        max (lineLevel K (Troubled tr) a (i - off a 1)) (lineLevel K (Troubled tr) a i)) ∧
      ∀ d, d ≠ a → ∀ i, (theta d).get i = 0 := by
  have h1' : ∀ e, e ∉ [a] → tr.shape e = 1 := fun e he => h1 e (by simpa using he)
  obtain ⟨C, eC, hC⟩ := convexCells1_spec (padded_trouble tr [a] h1') hA a
  have hma : padSize tr.shape [a] a = tr.shape a + 4 := by simp [padSize]
  obtain ⟨F, eF, hF1, hF2⟩ := pair_max C a (by rw [hC.shape, hma]; omega) true
  simp only [if_true] at eF
  have hshape : F.shape = faceShape tr.shape a := by
    rw [hF1, hC.shape]
    funext d
    unfold faceShape
    by_cases hd : d = a
    · subst hd
      simp [hma]
    · rw [Function.update_of_ne hd, if_neg hd, h1 d hd]
      simp [padSize, hd]
  obtain ⟨G, eG, hG1, hG2⟩ := assign_same (zeroFaces K tr.shape a) F hshape
  have h3 : convexFaces tr.shape [a] A = .ok fun e => if e = a then G else zeroFaces K tr.shape e := by
    unfold convexFaces convex1
    simp only
    rw [eC]
    simp only [bind, Except.bind]
    rw [eF]
    simp only
    rw [eG]
    rfl
  refine ⟨_, h3, fun d => ?_, fun i hi => ?_, fun d hd i => ?_⟩
  · split_ifs with hd
    · subst hd; exact hG1
    · rfl
  · simp only [if_true]
    have hif : InBox (faceShape tr.shape a) i := by
      intro d
      have := hi d
      unfold faceShape
      simp only [Pi.single_apply] at this
      split_ifs at this ⊢ <;> omega
    rw [hG2 i hif, hF2 i (by rw [hshape]; exact hif)]
    have hbox : ∀ k : ℤ, k = 1 ∨ k = 2 → InBox (padSize tr.shape [a]) (i + off a k) := by
      intro k hk d
      have := hif d
      unfold faceShape at this
      simp only [Pi.add_apply, off_apply]
      by_cases hd : d = a
      · subst hd
        rw [if_pos rfl] at this ⊢
        rw [hma]
        push_cast at this ⊢
        omega
      · rw [if_neg hd] at this ⊢
        rw [h1 d hd] at this
        simp [padSize, hd]
        omega
    rw [hC.get _ (hbox 1 (Or.inl rfl)), hC.get _ (hbox 2 (Or.inr rfl))]
    have hs : padShift [a] = off a 2 := by
      funext d
      simp [padShift, off_apply]
    have hc : ∀ k : ℤ, ∀ x : Ix, x = i + off a k - off a 2 →
        level K (Troubled tr (i + off a k - padShift [a])) (Troubled tr (i + off a k + off a 1 - padShift [a])
          ∨ Troubled tr (i + off a k + off a (-1) - padShift [a])) False
          (near (fun j => Troubled tr (j - padShift [a])) a (-2) 2 (i + off a k)) =
        lineLevel K (Troubled tr) a x := by
      rintro k x rfl
      unfold lineLevel
      rw [hs, near_shift]
      refine level_congr Iff.rfl ?_ Iff.rfl Iff.rfl
      simp only [add_sub_right_comm]
    rw [hc 1 (i - off a 1) ?_, hc 2 i ?_]
    · funext d
      simp
    · funext d
      simp only [Pi.sub_apply, Pi.add_apply, off_apply]
      split_ifs <;> ring
  · simp only [if_neg hd]
    rfl

theorem convex_line (tr : Arr Bool) (a : Fin 3) (h1 : ∀ e, e ≠ a → tr.shape e = 1)
    (periodic : Fin 3 → Bool) (theta : Fin 3 → Arr K)
    (h : broadcastTrouble K true periodic [a] tr = .ok theta) :
    (∀ d, (theta d).shape = faceShape tr.shape d) ∧
      (∀ i, InFaces tr.shape a i → (theta a).get i =
        max (lineLevel K (Troubled tr) a (i - off a 1)) (lineLevel K (Troubled tr) a i)) ∧
      ∀ d, d ≠ a → ∀ i, (theta d).get i = 0 := by
  have h1' : ∀ e, e ∉ [a] → tr.shape e = 1 := fun e he => h1 e (by simpa using he)
  obtain ⟨e, he⟩ : ∃ e : Fin 3, e ∉ [a] := (by decide : ∀ a : Fin 3, ∃ e, e ∉ [a]) a
  obtain ⟨A, eA, hA⟩ := alloc_spec (K := K) tr [a] h1'
  unfold broadcastTrouble at h
  simp only [if_true] at h
  rw [eA] at h
  simp only [bind, Except.bind] at h
  obtain ⟨A', hA', h2⟩ := bind_ok h
  have : A' = A := fold_noop e he (by rw [hA.shape]; simp only [padSize, if_neg he]) _ hA'
  subst this
  obtain ⟨th, e3, h3⟩ := convexFaces_line tr a h1 A' hA
  rw [e3] at h2
  cases h2
  exact h3

theorem convexFaces_plane (tr : Arr Bool) (a b : Fin 3) (hab : a < b)
    (h1 : ∀ e, e ≠ a → e ≠ b → tr.shape e = 1) (A : Arr K)
    (hA : Levels A (padSize tr.shape [a, b]) (fun j => Troubled tr (j - padShift [a, b]))
        (fun _ => False) (fun _ => False) (fun j => Troubled tr (j - padShift [a, b]))) :
    ∃ theta, convexFaces tr.shape [a, b] A = .ok theta ∧
      (∀ d, (theta d).shape = faceShape tr.shape d) ∧
      (∀ d, d = a ∨ d = b → ∀ i, InFaces tr.shape d i → (theta d).get i =
        max (planeLevel K (Troubled tr) a b (i - off d 1)) (planeLevel K (Troubled tr) a b i)) ∧
      ∀ d, d ≠ a → d ≠ b → ∀ i, (theta d).get i = 0 := by
  have hne : a ≠ b := ne_of_lt hab
  have h1' : ∀ e, e ∉ [a, b] → tr.shape e = 1 := fun e he => by
    simp at he
    exact h1 e he.1 he.2
  obtain ⟨C, eC, hC⟩ := convexCells2_spec (padded_trouble tr [a, b] h1') hA a b hne
  have hma : padSize tr.shape [a, b] a = tr.shape a + 4 := by simp [padSize]
  have hmb : padSize tr.shape [a, b] b = tr.shape b + 4 := by simp [padSize]
  have hs : padShift [a, b] = off a 2 + off b 2 := by
    funext d
    simp only [padShift, Pi.add_apply, off_apply, List.mem_cons, List.not_mem_nil, or_false]
    by_cases h1 : d = a <;> by_cases h2 : d = b <;> simp [h1, h2]
    · exact absurd (h1.symm.trans h2) hne
    · intro h; exact absurd h hne
    · intro h; exact absurd h.symm hne
  have hc : ∀ J x : Ix, x = J - (off a 2 + off b 2) →
      level K (Troubled tr (J - padShift [a, b])) (edgeNear (fun j => Troubled tr (j - padShift [a, b])) a b J)
        (cornerNear (fun j => Troubled tr (j - padShift [a, b])) a b J)
        (near (near (fun j => Troubled tr (j - padShift [a, b])) b (-2) 2) a (-2) 2 J) =
      planeLevel K (Troubled tr) a b x := by
    rintro J x rfl
    unfold planeLevel
    rw [hs]
    refine level_congr Iff.rfl ?_ ?_ ?_
    · unfold edgeNear
      simp only [add_sub_right_comm]
    · unfold cornerNear
      simp only [add_sub_right_comm]
    · rw [← near_shift, show near (fun j => Troubled tr (j - (off a 2 + off b 2))) b (-2) 2 =
        fun j => near (Troubled tr) b (-2) 2 (j - (off a 2 + off b 2)) from
          funext fun j => propext (near_shift _ _ _ _ _ _)]
  -- the two face arrays
  have face : ∀ c e : Fin 3, c ≠ e → (c = a ∧ e = b ∨ c = b ∧ e = a) → ∃ F : Arr K,
      ((C.slice e (some 2) (some (-2))).slice c (some 2) (some (-1))).zip max
        ((C.slice e (some 2) (some (-2))).slice c (some 1) (some (-2))) = .ok F ∧
      F.shape = faceShape tr.shape c ∧ ∀ i, InBox (faceShape tr.shape c) i → F.get i =
        max (planeLevel K (Troubled tr) a b (i - off c 1)) (planeLevel K (Troubled tr) a b i) := by
    intro c e hce hor
    have hc4 : padSize tr.shape [a, b] c = tr.shape c + 4 := by
      rcases hor with ⟨rfl, rfl⟩ | ⟨rfl, rfl⟩ <;> assumption
    have he4 : padSize tr.shape [a, b] e = tr.shape e + 4 := by
      rcases hor with ⟨rfl, rfl⟩ | ⟨rfl, rfl⟩ <;> assumption
    have ho : ∀ d, d ≠ c → d ≠ e → tr.shape d = 1 ∧ padSize tr.shape [a, b] d = 1 := by
      intro d h3 h4
      have : d ≠ a ∧ d ≠ b := by
        rcases hor with ⟨rfl, rfl⟩ | ⟨rfl, rfl⟩
        · exact ⟨h3, h4⟩
        · exact ⟨h4, h3⟩
      exact ⟨h1 d this.1 this.2, by simp [padSize, this.1, this.2]⟩
    obtain ⟨s1, s2⟩ := slice_inner C e (by rw [hC.shape, he4]; omega)
    have sc : (C.slice e (some 2) (some (-2))).shape c = tr.shape c + 4 := by
      rw [s1, Function.update_of_ne hce, hC.shape, hc4]
    obtain ⟨F, eF, hF1, hF2⟩ := pair_max (C.slice e (some 2) (some (-2))) c (by rw [sc]; omega) false
    simp only [Bool.false_eq_true, if_false] at eF
    have hshape : F.shape = faceShape tr.shape c := by
      rw [hF1, sc, s1]
      funext d
      unfold faceShape
      by_cases hd : d = c
      · subst hd
        simp
      · rw [Function.update_of_ne hd, if_neg hd]
        by_cases hd' : d = e
        · subst hd'
          rw [Function.update_self, hC.shape, he4]
          omega
        · rw [Function.update_of_ne hd', hC.shape, (ho d hd hd').1, (ho d hd hd').2]
    refine ⟨F, eF, hshape, fun i hi => ?_⟩
    rw [hF2 i (by rw [hshape]; exact hi), s2, s2]
    have hbox : ∀ k : ℤ, k = 1 ∨ k = 2 → InBox (padSize tr.shape [a, b]) (i + off c k + off e 2) := by
      intro k hk d
      have := hi d
      unfold faceShape at this
      simp only [Pi.add_apply, off_apply]
      by_cases hd : d = c
      · subst hd
        rw [if_pos rfl] at this ⊢
        rw [if_neg hce, hc4]
        push_cast at this ⊢
        omega
      · rw [if_neg hd] at this ⊢
        by_cases hd' : d = e
        · subst hd'
          rw [if_pos rfl, he4]
          push_cast
          omega
        · rw [if_neg hd', (ho d hd hd').2]
          rw [(ho d hd hd').1] at this
          omega
    rw [hC.get _ (hbox 1 (Or.inl rfl)), hC.get _ (hbox 2 (Or.inr rfl)), hc _ (i - off c 1) ?_, hc _ i ?_]
    · rcases hor with ⟨rfl, rfl⟩ | ⟨rfl, rfl⟩ <;> funext d <;>
        simp only [Pi.sub_apply, Pi.add_apply] <;> ring
    · rcases hor with ⟨rfl, rfl⟩ | ⟨rfl, rfl⟩ <;> funext d <;>
        simp only [Pi.sub_apply, Pi.add_apply, off_apply] <;> split_ifs <;> ring
  obtain ⟨F, eF, hF1, hF2⟩ := face a b hne (Or.inl ⟨rfl, rfl⟩)
  obtain ⟨G, eG, hG1, hG2⟩ := face b a hne.symm (Or.inr ⟨rfl, rfl⟩)
  obtain ⟨F', eF', hF1', hF2'⟩ := assign_same (zeroFaces K tr.shape a) F hF1
  obtain ⟨G', eG', hG1', hG2'⟩ := assign_same (zeroFaces K tr.shape b) G hG1
  have h3 : convexFaces tr.shape [a, b] A = .ok fun e =>
      if e = a then F' else if e = b then G' else zeroFaces K tr.shape e := by
    unfold convexFaces convex2
    simp only [if_neg hne, min_eq_left hab.le, max_eq_right hab.le]
    rw [eC]
    simp only [bind, Except.bind]
    rw [eF]
    simp only
    rw [eG]
    simp only [pure, Except.pure]
    rw [eF']
    simp only
    rw [eG']
  have hif : ∀ d i, InFaces tr.shape d i → InBox (faceShape tr.shape d) i := by
    intro d i hi e
    have := hi e
    unfold faceShape
    simp only [Pi.single_apply] at this
    split_ifs at this ⊢ <;> omega
  refine ⟨_, h3, fun d => ?_, fun d hd i hi => ?_, fun d hd hd' i => ?_⟩
  · split_ifs with hd hd'
    · subst hd; exact hF1'
    · subst hd'; exact hG1'
    · rfl
  · rcases hd with rfl | rfl
    · simp only [if_true]
      rw [hF2' i (hif _ i hi), hF2 i (hif _ i hi)]
    · simp only [if_neg hne.symm, if_true]
      rw [hG2' i (hif _ i hi), hG2 i (hif _ i hi)]
  · simp only [if_neg hd, if_neg hd']
    rfl

theorem convex_plane (tr : Arr Bool) (a b : Fin 3) (hab : a < b)
    (h1 : ∀ e, e ≠ a → e ≠ b → tr.shape e = 1)
    (periodic : Fin 3 → Bool) (theta : Fin 3 → Arr K)
    (h : broadcastTrouble K true periodic [a, b] tr = .ok theta) :
    (∀ d, (theta d).shape = faceShape tr.shape d) ∧
      (∀ d, d = a ∨ d = b → ∀ i, InFaces tr.shape d i → (theta d).get i =
        max (planeLevel K (Troubled tr) a b (i - off d 1)) (planeLevel K (Troubled tr) a b i)) ∧
      ∀ d, d ≠ a → d ≠ b → ∀ i, (theta d).get i = 0 := by
  have h1' : ∀ e, e ∉ [a, b] → tr.shape e = 1 := fun e he => by
    simp at he
    exact h1 e he.1 he.2
  obtain ⟨e, he⟩ : ∃ e : Fin 3, e ∉ [a, b] := (by decide : ∀ a b : Fin 3, ∃ e, e ∉ [a, b]) a b
  obtain ⟨A, eA, hA⟩ := alloc_spec (K := K) tr [a, b] h1'
  unfold broadcastTrouble at h
  simp only [if_true] at h
  rw [eA] at h
  simp only [bind, Except.bind] at h
  obtain ⟨A', hA', h2⟩ := bind_ok h
  have : A' = A := fold_noop e he (by rw [hA.shape]; simp only [padSize, if_neg he]) _ hA'
  subst this
  obtain ⟨th, e3, h3⟩ := convexFaces_plane tr a b hab h1 A' hA
  rw [e3] at h2
  cases h2
  exact h3

/-! ## Simple broadcasting -/

open Classical in
theorem simple_spec (tr : Arr Bool) (dims : List (Fin 3)) (d : Fin 3) :
    ∃ F : Arr K, simpleFaces (tr.map flag) dims d = .ok F ∧ F.shape = faceShape tr.shape d ∧
      ∀ i, InBox (faceShape tr.shape d) i → F.get i =
        if d ∈ dims ∧ (Troubled tr (i - off d 1) ∨ Troubled tr i) then 1 else 0 := by
  unfold simpleFaces
  by_cases hd : d ∈ dims
  swap
  · simp only [if_neg hd]
    exact ⟨_, rfl, rfl, fun i _ => by rw [if_neg (fun h => hd h.1)]; rfl⟩
  simp only [if_pos hd]
  have hz : (zeroFaces K tr.shape d).shape d = tr.shape d + 1 := by simp [zeroFaces]
  have b1 : sliceStart (tr.shape d + 1) (some 1) = 1 := by simp [sliceStart, pyBound]
  have b2 : sliceStop (tr.shape d + 1) (some (-1)) = tr.shape d := by simp [sliceStop, pyBound]
  have hup : Function.update (faceShape tr.shape d) d (tr.shape d) = tr.shape := by
    funext e
    unfold faceShape
    by_cases he : e = d
    · subst he; simp
    · simp [he]
  -- first assignment
  obtain ⟨a, ea, ha1, ha2⟩ : ∃ a, (zeroFaces K (tr.map (flag (K := K))).shape d).setSlice d (some 1) none
      (tr.map flag) = .ok a ∧ a.shape = faceShape tr.shape d ∧ ∀ j, InBox (faceShape tr.shape d) j →
        a.get j = if Troubled tr (j - off d 1) then 1 else 0 := by
    unfold Arr.setSlice
    have hz' : (zeroFaces K (tr.map (flag (K := K))).shape d).shape d = tr.shape d + 1 := hz
    simp only [hz', b1, sliceStop]
    rw [if_pos (show broadcastsTo (tr.map (flag (K := K))).shape (Function.update
      (zeroFaces K (tr.map (flag (K := K))).shape d).shape d (tr.shape d + 1 - 1)) from fun e => Or.inl
        (congrFun hup.symm e))]
    refine ⟨_, rfl, rfl, fun j hj => ?_⟩
    simp only
    have hsub : j + Pi.single d (-((1 : ℕ) : ℤ)) = j - off d 1 := by
      funext e
      simp only [Pi.add_apply, Pi.sub_apply, off_apply, Pi.single_apply]
      split_ifs <;> push_cast <;> ring
    have hjd := hj d
    simp only [faceShape, if_true] at hjd
    by_cases hin : 1 ≤ j d
    · have hb : InBox tr.shape (j - off d 1) := by
        intro e
        have := hj e
        simp only [Pi.sub_apply, off_apply, faceShape] at this ⊢
        split_ifs at this ⊢ with he
        · subst he; push_cast at this; omega
        · omega
      rw [if_pos (by push_cast at hjd ⊢; omega), hsub, bix_eq (tr.map flag) _ hb]
      simp only [Arr.map, flag, Troubled, hb, true_and]
    · rw [if_neg (by push_cast; omega), if_neg]
      · rfl
      · intro h
        have := h.1 d
        simp only [Pi.sub_apply, off_apply, if_true] at this
        omega
  rw [ea]
  simp only [bind, Except.bind]
  have hsl : (a.slice d none (some (-1))).shape = (tr.map (flag (K := K))).shape := by
    simp only [Arr.slice, ha1]
    have : faceShape tr.shape d d = tr.shape d + 1 := by simp [faceShape]
    rw [this, b2]
    exact hup
  obtain ⟨m, em, hm1, hm2⟩ := zip_same max _ _ hsl
  rw [em]
  simp only
  unfold Arr.setSlice
  have had : a.shape d = tr.shape d + 1 := by rw [ha1]; simp [faceShape]
  simp only [had, b2, sliceStart]
  rw [if_pos (show broadcastsTo m.shape (Function.update a.shape d (tr.shape d - 0)) from fun e => Or.inl (by
    rw [hm1, ha1]
    exact congrFun hup.symm e))]
  refine ⟨_, rfl, ha1, fun j hj => ?_⟩
  simp only
  have hsub : j + Pi.single d (-((0 : ℕ) : ℤ)) = j := by
    funext e
    simp
  rw [hsub]
  have hjd := hj d
  simp only [faceShape, if_true] at hjd
  by_cases hin : j d < tr.shape d
  · have hb : InBox tr.shape j := by
      intro e
      have := hj e
      simp only [faceShape] at this
      split_ifs at this with he
      · subst he; omega
      · omega
    rw [if_pos (by push_cast; omega), bix_eq m _ (by intro e; rw [hm1]; exact hb e), hm2 j hb]
    have hg : (a.slice d none (some (-1))).get j = a.get j := by
      simp only [Arr.slice, sliceStart]
      exact congrArg a.get (by funext e; simp)
    rw [hg, ha2 j hj]
    simp only [Arr.map, flag, Troubled, hb, true_and, hd]
    by_cases t1 : InBox tr.shape (j - off d 1) ∧ tr.get (j - off d 1) = true <;>
      by_cases t2 : tr.get j = true <;> simp [t1, t2]
  · rw [if_neg (by push_cast; omega), ha2 j hj]
    have : ¬ Troubled tr j := fun h => by have := h.1 d; omega
    simp [this, hd]

/-! ## All weights are between 0 and 1 -/

/-- All entries are between 0 and 1. -/
def Arr.Unit (A : Arr K) : Prop := ∀ j, 0 ≤ A.get j ∧ A.get j ≤ 1

theorem Arr.Unit.zipMax {A B C : Arr K} (hA : A.Unit) (hB : B.Unit) (h : A.zip max B = .ok C) : C.Unit := by
  unfold Arr.zip at h
  split at h
  · cases h
    intro j
    exact ⟨le_max_of_le_left (hA _).1, max_le (hA _).2 (hB _).2⟩
  · cases h

theorem Arr.Unit.slice {A : Arr K} (hA : A.Unit) (d : Fin 3) (a b : Option ℤ) : (A.slice d a b).Unit :=
  fun _ => hA _

theorem Arr.Unit.box {A : Arr K} (hA : A.Unit) (b : Box) : (A.box b).Unit := fun _ => hA _

theorem Arr.Unit.setBox {A B C : Arr K} (hA : A.Unit) (hB : B.Unit) {b : Box}
    (h : A.setBox b B = .ok C) : C.Unit := by
  unfold Arr.setBox at h
  dsimp only at h
  split at h
  · cases h
    intro j
    dsimp only
    split
    · exact hB _
    · exact hA _
  · cases h

theorem Arr.Unit.setSlice {A B C : Arr K} (hA : A.Unit) (hB : B.Unit) {d : Fin 3} {a b : Option ℤ}
    (h : A.setSlice d a b B = .ok C) : C.Unit := by
  unfold Arr.setSlice at h
  dsimp only at h
  split at h
  · cases h
    intro j
    dsimp only
    split
    · exact hB _
    · exact hA _
  · cases h

theorem Arr.Unit.assign {A B C : Arr K} (hB : B.Unit) (h : A.assign B = .ok C) : C.Unit := by
  unfold Arr.assign at h
  split at h
  · cases h
    exact fun j => hB _
  · cases h

theorem Arr.Unit.maxFrom {f : K → K} (hf : ∀ x, 0 ≤ x → x ≤ 1 → 0 ≤ f x ∧ f x ≤ 1) {A B C : Arr K}
    (hA : A.Unit) (hB : B.Unit) {o : Ix} (h : maxFrom f A o B = .ok C) : C.Unit := by
  unfold FVHOE.maxFrom at h
  obtain ⟨m, hm, h⟩ := bind_ok h
  refine hB.setBox (Arr.Unit.zipMax ?_ (hB.box _) hm) h
  exact fun j => hf _ (hA _).1 (hA _).2

theorem scale_unit (c : K) (h0 : 0 ≤ c) (h1 : c ≤ 1) (x : K) (hx : 0 ≤ x) (hx' : x ≤ 1) :
    0 ≤ scaleBy c x ∧ scaleBy c x ≤ 1 := by
  unfold scaleBy
  exact ⟨by positivity, by nlinarith⟩

theorem quarter_unit (x : K) (_ : 0 ≤ x) (_ : x ≤ 1) : 0 ≤ quarterIfPos x ∧ quarterIfPos x ≤ 1 := by
  unfold quarterIfPos flag
  split <;> norm_num

theorem zeroFaces_unit (n : Fin 3 → ℕ) (d : Fin 3) : (zeroFaces K n d).Unit :=
  fun _ => ⟨le_refl (0 : K), zero_le_one⟩

theorem flag_unit (A : Arr Bool) : (A.map (flag (K := K))).Unit := by
  intro j
  simp only [Arr.map, flag]
  split <;> norm_num

theorem convexCells1_unit {A C : Arr K} (hA : A.Unit) {a : Fin 3} (h : convexCells1 A a = .ok C) :
    C.Unit := by
  unfold convexCells1 at h
  obtain ⟨c1, e1, h⟩ := bind_ok h
  obtain ⟨c2, e2, h⟩ := bind_ok h
  obtain ⟨c3, e3, h⟩ := bind_ok h
  have s := scale_unit (3 / 4 : K) (by norm_num) (by norm_num)
  have u1 := Arr.Unit.maxFrom s hA hA e1
  have u2 := Arr.Unit.maxFrom s hA u1 e2
  have u3 := Arr.Unit.maxFrom quarter_unit u2 u2 e3
  exact Arr.Unit.maxFrom quarter_unit u3 u3 h

theorem convexCells2_unit {A C : Arr K} (hA : A.Unit) {a b : Fin 3} (h : convexCells2 A a b = .ok C) :
    C.Unit := by
  unfold convexCells2 at h
  obtain ⟨c1, e1, h⟩ := bind_ok h
  obtain ⟨c2, e2, h⟩ := bind_ok h
  obtain ⟨c3, e3, h⟩ := bind_ok h
  obtain ⟨c4, e4, h⟩ := bind_ok h
  obtain ⟨c5, e5, h⟩ := bind_ok h
  obtain ⟨c6, e6, h⟩ := bind_ok h
  obtain ⟨c7, e7, h⟩ := bind_ok h
  obtain ⟨c8, e8, h⟩ := bind_ok h
  obtain ⟨c9, e9, h⟩ := bind_ok h
  obtain ⟨c10, e10, h⟩ := bind_ok h
  obtain ⟨c11, e11, h⟩ := bind_ok h
  have s := scale_unit (3 / 4 : K) (by norm_num) (by norm_num)
  have s' := scale_unit (1 / 2 : K) (by norm_num) (by norm_num)
  have u1 := Arr.Unit.maxFrom s hA hA e1
  have u2 := Arr.Unit.maxFrom s hA u1 e2
  have u3 := Arr.Unit.maxFrom s hA u2 e3
  have u4 := Arr.Unit.maxFrom s hA u3 e4
  have u5 := Arr.Unit.maxFrom s' hA u4 e5
  have u6 := Arr.Unit.maxFrom s' hA u5 e6
  have u7 := Arr.Unit.maxFrom s' hA u6 e7
  have u8 := Arr.Unit.maxFrom s' hA u7 e8
  have u9 := Arr.Unit.maxFrom quarter_unit u8 u8 e9
  have u10 := Arr.Unit.maxFrom quarter_unit u9 u9 e10
  have u11 := Arr.Unit.maxFrom quarter_unit u10 u10 e11
  exact Arr.Unit.maxFrom quarter_unit u11 u11 h

theorem wrap_unit {tr A C : Arr K} (ht : tr.Unit) (hA : A.Unit) {dims : List (Fin 3)}
    {periodic : Fin 3 → Bool} {d : Fin 3} (h : wrapTrouble tr dims periodic A d = .ok C) : C.Unit := by
  unfold wrapTrouble at h
  split at h
  · obtain ⟨B, hB, h⟩ := bind_ok h
    exact (hA.setBox (ht.box _) hB).setBox (ht.box _) h
  · cases h; exact hA

theorem fold_unit {tr A C : Arr K} (ht : tr.Unit) (hA : A.Unit) {dims : List (Fin 3)}
    {periodic : Fin 3 → Bool} (l : List (Fin 3))
    (h : l.foldlM (wrapTrouble tr dims periodic) A = .ok C) : C.Unit := by
  induction l generalizing A with
  | nil => cases h; exact hA
  | cons d l ih =>
    rw [List.foldlM_cons] at h
    obtain ⟨B, hB, h'⟩ := bind_ok h
    exact ih (wrap_unit ht hA hB) h'

theorem simple_unit {tr F : Arr K} (ht : tr.Unit) {dims : List (Fin 3)} {d : Fin 3}
    (h : simpleFaces tr dims d = .ok F) : F.Unit := by
  unfold simpleFaces at h
  dsimp only at h
  split at h
  · obtain ⟨a, ha, h⟩ := bind_ok h
    obtain ⟨m, hm, h⟩ := bind_ok h
    have u := (zeroFaces_unit _ _).setSlice ht ha
    exact u.setSlice ((u.slice _ _ _).zipMax ht hm) h
  · cases h; exact zeroFaces_unit _ _

theorem broadcast_unit {convex : Bool} {periodic : Fin 3 → Bool} {dims : List (Fin 3)} {tr : Arr Bool}
    {theta : Fin 3 → Arr K} (h : broadcastTrouble K convex periodic dims tr = .ok theta) (d : Fin 3) :
    (theta d).Unit := by
  unfold broadcastTrouble at h
  dsimp only at h
  split at h
  · obtain ⟨A, hA, h⟩ := bind_ok h
    obtain ⟨B, hB, h⟩ := bind_ok h
    have uA : A.Unit := by
      unfold allocTrouble at hA
      exact Arr.Unit.setBox (fun _ => ⟨le_refl (0 : K), zero_le_one⟩) (flag_unit tr) hA
    have uB := fold_unit (flag_unit tr) uA _ hB
    unfold convexFaces at h
    split at h
    · obtain ⟨f, hf, h⟩ := bind_ok h
      obtain ⟨F, hF, h⟩ := bind_ok h
      cases h
      unfold convex1 at hf
      obtain ⟨t, ht, hf⟩ := bind_ok hf
      have ut := convexCells1_unit uB ht
      have uf := (ut.slice _ _ _).zipMax (ut.slice _ _ _) hf
      dsimp only
      split
      · exact uf.assign hF
      · exact zeroFaces_unit _ _
    · split at h
      · cases h
      · obtain ⟨r, hr, h⟩ := bind_ok h
        obtain ⟨F, hF, h⟩ := bind_ok h
        obtain ⟨G, hG, h⟩ := bind_ok h
        cases h
        unfold convex2 at hr
        obtain ⟨t, ht, hr⟩ := bind_ok hr
        obtain ⟨fa, hfa, hr⟩ := bind_ok hr
        obtain ⟨fb, hfb, hr⟩ := bind_ok hr
        cases hr
        have ut := convexCells2_unit uB ht
        have uf := ((ut.slice _ _ _).slice _ _ _).zipMax ((ut.slice _ _ _).slice _ _ _) hfa
        have ug := ((ut.slice _ _ _).slice _ _ _).zipMax ((ut.slice _ _ _).slice _ _ _) hfb
        dsimp only
        split
        · exact uf.assign hF
        · split
          · exact ug.assign hG
          · exact zeroFaces_unit _ _
    · cases h
    · cases h
  · obtain ⟨x, hx, h⟩ := bind_ok h
    obtain ⟨y, hy, h⟩ := bind_ok h
    obtain ⟨z, hz, h⟩ := bind_ok h
    cases h
    match d with
    | 0 => exact simple_unit (flag_unit tr) hx
    | 1 => exact simple_unit (flag_unit tr) hy
    | 2 => exact simple_unit (flag_unit tr) hz

/-! ## When the periodic assignments succeed -/

theorem bounds_low (N : ℕ) (hN : 4 ≤ N) : sliceStart N (none : Option ℤ) = 0 ∧ sliceStop N (some 2) = 2 ∧
    sliceStart N (some (-2)) = N - 2 ∧ sliceStop N none = N ∧ sliceStart N (some 2) = 2 ∧
    sliceStop N (some (-2)) = N - 2 := by
  have t2 : (2 : ℤ).toNat = 2 := rfl
  simp [sliceStart, sliceStop, pyBound, t2]
  omega

theorem bounds_one : sliceStart 1 (some (2 : ℤ)) = 1 ∧ sliceStop 1 (some (-2 : ℤ)) = 0 := by decide

theorem bounds_src (N : ℕ) (hN : 1 ≤ N) : sliceStart N (none : Option ℤ) = 0 ∧
    sliceStop N (some 2) = min 2 N ∧ sliceStart N (some (-2)) = N - 2 ∧ sliceStop N none = N ∧
    sliceStart N (some 2) = min 2 N ∧ sliceStop N (some (-2)) = N - 2 := by
  have t2 : (2 : ℤ).toNat = 2 := rfl
  simp [sliceStart, sliceStop, pyBound, t2]
  omega

/-- The assignments of one periodic direction raise exactly when the copied part of the z layers does
not fit. -/
theorem wrap_eq (tr A : Arr K) (dims : List (Fin 3)) (periodic : Fin 3 → Bool) (d : Fin 3)
    (hA : A.shape = padSize tr.shape dims) (h1 : ∀ e, e ∉ dims → tr.shape e = 1)
    (hn : ∀ e, 1 ≤ tr.shape e) (e₀ : Fin 3) (he₀ : e₀ ∉ dims) :
    wrapTrouble tr dims periodic A d =
      if periodic d = true ∧ d ∈ dims ∧ d = 2 ∧ ∃ e ∈ dims, e ≠ d ∧ tr.shape e ≠ 5 then
        .error .valueError else .ok A := by
  have hmem : ∀ e, e ∈ dims → A.shape e = tr.shape e + 4 := by
    intro e he; rw [hA]; simp [padSize, he]
  have hnot : ∀ e, e ∉ dims → A.shape e = 1 := by
    intro e he; rw [hA]; simp [padSize, he]
  by_cases hper : periodic d = true ∧ d ∈ dims
  swap
  · rw [if_neg (fun h => hper ⟨h.1, h.2.1⟩)]
    unfold wrapTrouble
    rw [if_neg hper]
  have hed : ∀ e, e ∉ dims → e ≠ d := fun e he h' => he (h' ▸ hper.2)
  have hlow : broadcastsTo (tr.box (fromHighBox d)).shape (fun e =>
      sliceStop (A.shape e) (lowBox d e).2 - sliceStart (A.shape e) (lowBox d e).1) ↔
        ¬ (d = 2 ∧ ∃ e ∈ dims, e ≠ d ∧ tr.shape e ≠ 5) := by
    unfold broadcastsTo
    constructor
    · rintro h ⟨rfl, e, he, hne, h5⟩
      have := h e
      obtain ⟨_, _, _, _, b1, b2⟩ := bounds_low (tr.shape e + 4) (by omega)
      obtain ⟨_, _, _, _, c1, c2⟩ := bounds_src (tr.shape e) (hn e)
      have hpos := hn e
      simp only [Arr.box, fromHighBox, lowBox, if_neg hne, if_true, hmem e he, b1, b2, c1, c2] at this
      omega
    · intro h e
      obtain ⟨c0, c1, c2, c3, c4, c5⟩ := bounds_src (tr.shape e) (hn e)
      have hpos := hn e
      by_cases he : e ∈ dims
      · obtain ⟨b0, b1, b2, b3, b4, b5⟩ := bounds_low (tr.shape e + 4) (by omega)
        by_cases hne : e = d
        · subst hne
          simp only [Arr.box, fromHighBox, lowBox, if_true, hmem e he, b0, b1, c2, c3]
          omega
        · by_cases h2 : d = 2
          · have h5 : tr.shape e = 5 := by
              by_contra h5
              exact h ⟨h2, e, he, hne, h5⟩
            simp only [Arr.box, fromHighBox, lowBox, if_neg hne, if_pos h2, hmem e he, b4, b5, c4, c5]
            omega
          · simp only [Arr.box, fromHighBox, lowBox, if_neg hne, if_neg h2, hmem e he, b4, b5, c0, c3]
            omega
      · have hne := hed e he
        have h1e := h1 e he
        obtain ⟨o1, o2⟩ := bounds_one
        by_cases h2 : d = 2
        · simp only [Arr.box, fromHighBox, lowBox, if_neg hne, if_pos h2, hnot e he, h1e, o1, o2]
          exact Or.inl trivial
        · simp only [Arr.box, fromHighBox, lowBox, if_neg hne, if_neg h2, hnot e he, o1, o2, c0, c3]
          omega
  have hhigh : broadcastsTo (tr.box (fromLowBox d)).shape (fun e =>
      sliceStop (A.shape e) (highBox d e).2 - sliceStart (A.shape e) (highBox d e).1) ↔
        ¬ (d = 2 ∧ ∃ e ∈ dims, e ≠ d ∧ tr.shape e ≠ 5) := by
    unfold broadcastsTo
    constructor
    · rintro h ⟨rfl, e, he, hne, h5⟩
      have := h e
      obtain ⟨_, _, _, _, b1, b2⟩ := bounds_low (tr.shape e + 4) (by omega)
      obtain ⟨_, _, _, _, c1, c2⟩ := bounds_src (tr.shape e) (hn e)
      have hpos := hn e
      simp only [Arr.box, fromLowBox, highBox, if_neg hne, if_true, hmem e he, b1, b2, c1, c2] at this
      omega
    · intro h e
      obtain ⟨c0, c1, c2, c3, c4, c5⟩ := bounds_src (tr.shape e) (hn e)
      have hpos := hn e
      by_cases he : e ∈ dims
      · obtain ⟨b0, b1, b2, b3, b4, b5⟩ := bounds_low (tr.shape e + 4) (by omega)
        by_cases hne : e = d
        · subst hne
          simp only [Arr.box, fromLowBox, highBox, if_true, hmem e he, b2, b3, c0, c1]
          clear * - hpos
          omega
        · by_cases h2 : d = 2
          · have h5 : tr.shape e = 5 := by
              by_contra h5
              exact h ⟨h2, e, he, hne, h5⟩
            simp only [Arr.box, fromLowBox, highBox, if_neg hne, if_pos h2, hmem e he, b4, b5, c4, c5]
            omega
          · simp only [Arr.box, fromLowBox, highBox, if_neg hne, if_neg h2, hmem e he, b4, b5, c0, c3]
            omega
      · have hne := hed e he
        have h1e := h1 e he
        obtain ⟨o1, o2⟩ := bounds_one
        by_cases h2 : d = 2
        · simp only [Arr.box, fromLowBox, highBox, if_neg hne, if_pos h2, hnot e he, h1e, o1, o2]
          exact Or.inl trivial
        · simp only [Arr.box, fromLowBox, highBox, if_neg hne, if_neg h2, hnot e he, o1, o2, c0, c3]
          omega
  by_cases hbad : d = 2 ∧ ∃ e ∈ dims, e ≠ d ∧ tr.shape e ≠ 5
  · rw [if_pos ⟨hper.1, hper.2, hbad⟩]
    unfold wrapTrouble
    rw [if_pos hper]
    have : A.setBox (lowBox d) (tr.box (fromHighBox d)) = .error .valueError := by
      unfold Arr.setBox
      exact if_neg (fun h => hlow.1 h hbad)
    rw [this]
    rfl
  · rw [if_neg (fun h => hbad h.2.2)]
    have e1 : ∃ B, A.setBox (lowBox d) (tr.box (fromHighBox d)) = .ok B := by
      unfold Arr.setBox
      exact ⟨_, if_pos (hlow.2 hbad)⟩
    obtain ⟨B, hB⟩ := e1
    have e2 : ∃ C, A.setBox (highBox d) (tr.box (fromLowBox d)) = .ok C := by
      unfold Arr.setBox
      exact ⟨_, if_pos (hhigh.2 hbad)⟩
    obtain ⟨C, hC⟩ := e2
    obtain ⟨o1, o2⟩ := bounds_one
    have hBA : B = A := by
      refine setBox_empty e₀ ?_ hB
      simp only [lowBox, if_neg (hed e₀ he₀), hnot e₀ he₀, o1, o2]
      omega
    subst hBA
    have hCA : C = B := by
      refine setBox_empty e₀ ?_ hC
      simp only [highBox, if_neg (hed e₀ he₀), hnot e₀ he₀, o1, o2]
      omega
    subst hCA
    have : wrapTrouble tr dims periodic C d = .ok C := by
      unfold wrapTrouble
      rw [if_pos hper, hB]
      exact hC
    exact this

/-- In one and two dimensions convex broadcasting raises ValueError when the z direction is periodic
and the other direction does not have 5 cells, and returns otherwise. -/
theorem convex_returns (tr : Arr Bool) (dims : List (Fin 3)) (periodic : Fin 3 → Bool)
    (hd : (∃ a, dims = [a]) ∨ ∃ a b, a < b ∧ dims = [a, b]) (h1 : ∀ e, e ∉ dims → tr.shape e = 1)
    (hn : ∀ e, 1 ≤ tr.shape e) :
    (¬ (periodic 2 = true ∧ 2 ∈ dims ∧ ∃ e ∈ dims, e ≠ 2 ∧ tr.shape e ≠ 5) →
      ∃ theta, broadcastTrouble K true periodic dims tr = .ok theta) ∧
    (periodic 2 = true ∧ 2 ∈ dims ∧ (∃ e ∈ dims, e ≠ 2 ∧ tr.shape e ≠ 5) →
      broadcastTrouble K true periodic dims tr = .error .valueError) := by
  obtain ⟨e₀, he₀⟩ : ∃ e : Fin 3, e ∉ dims := by
    rcases hd with ⟨a, rfl⟩ | ⟨a, b, _, rfl⟩
    · exact (by decide : ∀ a : Fin 3, ∃ e, e ∉ [a]) a
    · exact (by decide : ∀ a b : Fin 3, ∃ e, e ∉ [a, b]) a b
  obtain ⟨A, eA, hA⟩ := alloc_spec (K := K) tr dims h1
  have hw := fun d => wrap_eq (tr.map flag) A dims periodic d hA.shape h1 hn e₀ he₀
  have hfold : ([0, 1, 2] : List (Fin 3)).foldlM (wrapTrouble (tr.map flag) dims periodic) A =
      wrapTrouble (tr.map flag) dims periodic A 2 := by
    simp only [List.foldlM_cons, List.foldlM_nil]
    rw [hw 0, if_neg (fun h => absurd h.2.2.1 (by decide))]
    simp only [bind, Except.bind]
    rw [hw 1, if_neg (fun h => absurd h.2.2.1 (by decide))]
    simp only
    cases wrapTrouble (tr.map flag) dims periodic A 2 <;> rfl
  have hcells : ∃ r, convexFaces tr.shape dims A = .ok r := by
    rcases hd with ⟨a, rfl⟩ | ⟨a, b, hab, rfl⟩
    · obtain ⟨th, e, _⟩ := convexFaces_line tr a (fun e he => h1 e (by simpa using he)) A hA
      exact ⟨th, e⟩
    · obtain ⟨th, e, _⟩ := convexFaces_plane tr a b hab
        (fun e he he' => h1 e (by simp [he, he'])) A hA
      exact ⟨th, e⟩
  constructor
  · intro h
    obtain ⟨r, hr⟩ := hcells
    refine ⟨r, ?_⟩
    unfold broadcastTrouble
    simp only [if_true]
    rw [eA]
    simp only [bind, Except.bind]
    have := hw 2
    rw [if_neg (by rintro ⟨h1, h2, _, h3⟩; exact h ⟨h1, h2, h3⟩)] at this
    rw [hfold, this]
    exact hr
  · rintro ⟨h2, h3, h4⟩
    unfold broadcastTrouble
    simp only [if_true]
    rw [eA]
    simp only [bind, Except.bind]
    have := hw 2
    rw [if_pos ⟨h2, h3, rfl, h4⟩] at this
    rw [hfold, this]

end FVHOE
