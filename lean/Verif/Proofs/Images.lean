import Verif.Props.C09_C10

/-! Doubling a domain between two walls: the mesh with twice as many cells along one axis, periodic there. -/

set_option linter.unusedSectionVars false

namespace FVHOE

variable {K : Type} [Field K] [LinearOrder K] [IsStrictOrderedRing K] {np : ℕ}

/-- The configuration with twice as many cells along axis `d` and periodic ends there. -/
def EulerConfig.doubled (c : EulerConfig K np) (d : Fin 3) : EulerConfig K np :=
  { c with
    n := Function.update c.n d (2 * c.n d)
    bc := { c.bc with kind := fun e s => if e = d then .periodic else c.bc.kind e s } }

/-- `x.2` is `x.1` followed, along axis `d`, by its mirror image with that momentum component negated. -/
def imagePair (K : Type) [Field K] (np : ℕ) (n : Fin 3 → ℕ) (d : Fin 3) :
    Submodule K ((Ix → State K np) × (Ix → State K np)) where
  carrier := {x | ∀ i, InCells n i → x.2 i = x.1 i ∧
    x.2 (Function.update i d (2 * n d - 1 - i d)) = mirrorState d (x.1 i)}
  add_mem' := fun {a b} ha hb i hi => by
    obtain ⟨a1, a2⟩ := ha i hi
    obtain ⟨b1, b2⟩ := hb i hi
    simp only [Prod.snd_add, Prod.fst_add, Pi.add_apply, a1, a2, b1, b2, true_and]
    funext j
    cases j <;> simp only [mirrorState, Pi.add_apply]
    split_ifs <;> ring
  zero_mem' := fun i _ => ⟨rfl, by funext j; cases j <;> simp [mirrorState]⟩
  smul_mem' := fun c x hx i hi => by
    obtain ⟨a1, a2⟩ := hx i hi
    simp only [Prod.smul_snd, Prod.smul_fst, Pi.smul_apply, a1, a2, true_and]
    funext j
    cases j <;> simp only [mirrorState, Pi.smul_apply, smul_eq_mul]
    split_ifs <;> ring

theorem turn_only (d : Fin 3) (v : State K np) : turnState K np 1 (only d) v = mirrorState d v := by
  funext i
  cases i with
  | rho => rfl
  | en => rfl
  | ps j => rfl
  | mom e =>
    rw [turn_mom]
    unfold mirrorState only
    simp

theorem negateMom_mirror (d : Fin 3) (v : State K np) : negateMom d v = mirrorState d v := by
  funext i
  unfold negateMom
  cases i <;> simp [mirrorState]

theorem mirror_mirror (d : Fin 3) (v : State K np) : mirrorState d (mirrorState d v) = v := by
  funext i
  cases i <;> simp only [mirrorState]
  split_ifs <;> simp

theorem tau_only (n : Fin 3 → ℕ) (d : Fin 3) (i : Ix) :
    tau 1 (only d) (lastCell n) i = Function.update i d (n d - 1 - i d) := by
  funext e
  have hs : (1 : Equiv.Perm (Fin 3)).symm e = e := rfl
  unfold tau only lastCell
  rw [hs]
  by_cases he : e = d
  · subst he
    simp
  · simp [he]

section
variable (c : EulerConfig K np) (d : Fin 3)

theorem doubled_n : (c.doubled d).n d = 2 * c.n d := Function.update_self ..

theorem doubled_n_ne {e : Fin 3} (h : e ≠ d) : (c.doubled d).n e = c.n e := Function.update_of_ne h ..

/-- The doubled problem is its own mirror image. -/
theorem doubled_turned : Turned 1 (only d) (c.doubled d) (c.doubled d) := by
  refine ⟨rfl, rfl, rfl, rfl, rfl, rfl, rfl, fun e s => ?_⟩
  show (if e = d then _ else _) = (if e = d then _ else c.bc.kind e _)
  by_cases h : e = d
  · rw [if_pos h, if_pos h]
  · rw [if_neg h, if_neg h]
    simp [only, h]

theorem doubled_active (hn : ∀ e, 1 ≤ c.n e) (hd : c.scheme.active d = true) :
    (c.doubled d).scheme.active = c.scheme.active := by
  funext e
  by_cases h : e = d
  · subst h
    rw [hd]
    show (!((c.doubled e).n e == 1 && c.p e == 0)) = true
    rw [doubled_n]
    have := hn e
    have : ¬ 2 * c.n e = 1 := by omega
    simp [this]
  · show (!((c.doubled d).n e == 1 && c.p e == 0)) = (!(c.n e == 1 && c.p e == 0))
    rw [doubled_n_ne c d h]

theorem doubled_ndim (hn : ∀ e, 1 ≤ c.n e) (hd : c.scheme.active d = true) :
    (c.doubled d).scheme.ndim = c.scheme.ndim := by
  unfold Scheme.ndim
  rw [doubled_active c d hn hd]

theorem doubled_width (hn : ∀ e, 1 ≤ c.n e) (hd : c.scheme.active d = true) :
    fluxWidth (c.doubled d).scheme (c.doubled d).p = fluxWidth c.scheme c.p := by
  funext e
  unfold fluxWidth
  rw [doubled_active c d hn hd]
  rfl

theorem doubled_sides (hn : ∀ e, 1 ≤ c.n e) (hd : c.scheme.active d = true)
    (hw : fluxWidth c.scheme c.p d ≤ 2 * c.n d) (hs : PlainSides c.scheme (fluxWidth c.scheme c.p)) :
    PlainSides (c.doubled d).scheme (fluxWidth (c.doubled d).scheme (c.doubled d).p) := by
  rw [doubled_width c d hn hd]
  intro e he
  rw [doubled_active c d hn hd] at he
  by_cases h : e = d
  · subst h
    have hk : ∀ s, (c.doubled e).scheme.bc.kind e s = .periodic := fun s => if_pos rfl
    refine ⟨fun s => .inr ⟨.inr (.inr (hk s)), ?_⟩, fun _ => hk _⟩
    show _ ≤ (c.doubled e).n e
    rw [doubled_n]
    exact hw
  · have hk : ∀ s, (c.doubled d).scheme.bc.kind e s = c.scheme.bc.kind e s := fun s => if_neg h
    have hn' : (c.doubled d).scheme.n e = c.scheme.n e := doubled_n_ne c d h
    simp only [hk, hn']
    exact hs e he

theorem doubled_ghost (hn : ∀ e, 1 ≤ c.n e) (hd : c.scheme.active d = true) (s : Side) {e : Fin 3} (h : e ≠ d) :
    (c.doubled d).scheme.ghost s e = c.scheme.ghost s e := by
  unfold Scheme.ghost
  rw [doubled_active c d hn hd, show (c.doubled d).scheme.bc.kind e s = c.scheme.bc.kind e s from if_neg h]
  rfl

/-- The continuations along the three axes can be made in any order. -/
theorem padded_first (Φ : Ix → State K np) :
    padded c.scheme Φ =
      extAxis (c.n (Equiv.swap 0 d 2)) (Equiv.swap 0 d 2) (c.scheme.ghost .l (Equiv.swap 0 d 2))
        (c.scheme.ghost .r (Equiv.swap 0 d 2))
      (extAxis (c.n (Equiv.swap 0 d 1)) (Equiv.swap 0 d 1) (c.scheme.ghost .l (Equiv.swap 0 d 1))
        (c.scheme.ghost .r (Equiv.swap 0 d 1))
      (extAxis (c.n d) d (c.scheme.ghost .l d) (c.scheme.ghost .r d) Φ)) := by
  have := perm_three (fun d => extAxis (V := State K np) (c.n d) d (c.scheme.ghost .l d) (c.scheme.ghost .r d))
    (fun a b x => by
      by_cases h : a = b
      · subst h; rfl
      · exact extAxis_comm h (ghost_plain ..) (ghost_plain ..) (ghost_plain ..) (ghost_plain ..)
          (ghost_commutes c _ _ _ _) (ghost_commutes c _ _ _ _) (ghost_commutes c _ _ _ _) (ghost_commutes c _ _ _ _) x)
    (Equiv.swap 0 d) Φ
  beta_reduce at this
  rw [Equiv.swap_apply_left] at this
  exact this.symm

theorem swap_ne (e : Fin 3) (he : e ≠ 0) : Equiv.swap 0 d e ≠ d := by
  intro h
  apply he
  have := congrArg (Equiv.swap 0 d) h
  simpa using this

/-- The doubled data continued periodically along the axis. -/
def wound (u' : Ix → State K np) : Ix → State K np := fun i =>
  clip (c.doubled d).n u' (Function.update i d (i d % (2 * c.n d : ℕ)))

theorem wound_eq (hn : ∀ e, 1 ≤ c.n e) (u' : Ix → State K np) :
    extAxis ((c.doubled d).n d) d .wrap .wrap (clip (c.doubled d).n u') = wound c d u' := by
  funext i
  unfold extAxis wound
  rw [doubled_n]
  have := hn d
  split_ifs with h1 h2
  · rfl
  · rfl
  · rw [Int.emod_eq_of_lt (by omega) (by omega)]
    simp

theorem clip_image {u u' : Ix → State K np} (h : InRel (imagePair K np c.n d) u u') (i : Ix) :
    clip (c.doubled d).n u' (Function.update i d (2 * c.n d - 1 - i d)) =
      mirrorState d (clip (c.doubled d).n u' i) := by
  have hin : ∀ i, InCells (c.doubled d).n i ↔ (0 ≤ i d ∧ i d < 2 * c.n d) ∧ ∀ e, e ≠ d → 0 ≤ i e ∧ i e < c.n e := by
    intro i
    constructor
    · intro hi
      refine ⟨?_, fun e he => ?_⟩
      · have := hi d
        rw [doubled_n] at this
        omega
      · have := hi e
        rwa [doubled_n_ne c d he] at this
    · rintro ⟨h1, h2⟩ e
      by_cases he : e = d
      · subst he
        rw [doubled_n]
        push_cast
        exact h1
      · rw [doubled_n_ne c d he]
        exact h2 e he
  have hcell : ∀ i, InCells (c.doubled d).n i → i d < c.n d → InCells c.n i := by
    intro i hi h1 e
    have hi := (hin i).1 hi
    by_cases he : e = d
    · subst he; exact ⟨hi.1.1, h1⟩
    · exact hi.2 e he
  unfold clip
  by_cases hi : InCells (c.doubled d).n i
  · have hi' : InCells (c.doubled d).n (Function.update i d (2 * c.n d - 1 - i d)) := by
      rw [hin] at hi ⊢
      refine ⟨?_, fun e he => ?_⟩
      · rw [Function.update_self]
        omega
      · rw [Function.update_of_ne he]
        exact hi.2 e he
    rw [if_pos hi, if_pos hi']
    by_cases h1 : i d < c.n d
    · have := h i (hcell i hi h1)
      exact this.2.trans (congrArg _ this.1.symm)
    · have h2 := h _ (hcell _ hi' (by rw [Function.update_self]; omega))
      have e2 := h2.2
      rw [Function.update_self, Function.update_idem, sub_sub_cancel, Function.update_eq_self] at e2
      change u' _ = _
      rw [show u' (Function.update i d (2 * c.n d - 1 - i d)) = u (Function.update i d (2 * c.n d - 1 - i d)) from h2.1]
      change u' i = _ at e2
      rw [e2, mirror_mirror]
  · have hi' : ¬ InCells (c.doubled d).n (Function.update i d (2 * c.n d - 1 - i d)) := by
      intro h'
      apply hi
      rw [hin] at h' ⊢
      refine ⟨?_, fun e he => ?_⟩
      · have := h'.1
        rw [Function.update_self] at this
        omega
      · have := h'.2 e he
        rwa [Function.update_of_ne he] at this
    rw [if_neg hi, if_neg hi']
    funext j
    cases j <;> simp [mirrorState]

/-- The wound-up data are symmetric about every wall. -/
theorem wound_mirror (hn : ∀ e, 1 ≤ c.n e) {u u' : Ix → State K np} (h : InRel (imagePair K np c.n d) u u') (i : Ix)
    (k : ℤ) : wound c d u' (Function.update i d (2 * c.n d * k - 1 - i d)) = mirrorState d (wound c d u' i) := by
  unfold wound
  rw [← clip_image c d h]
  simp only [Function.update_self, Function.update_idem]
  congr 2
  have h1 := hn d
  have := emod_flip (n := ((2 * c.n d : ℕ) : ℤ)) (by omega) (i d)
  push_cast at this ⊢
  rw [← this, show 2 * (c.n d : ℤ) * k - 1 - i d = (2 * c.n d - 1 - i d) + (2 * c.n d) * (k - 1) by ring,
    Int.add_mul_emod_self_left]

theorem wound_walls (hn : ∀ e, 1 ≤ c.n e) (hd : c.scheme.active d = true)
    (hk : ∀ s, c.bc.kind d s = .reflective) {u u' : Ix → State K np} (h : InRel (imagePair K np c.n d) u u') :
    extAxis (c.n d) d (c.scheme.ghost .l d) (c.scheme.ghost .r d) (wound c d u') = wound c d u' := by
  have hg : ∀ s, c.scheme.ghost s d = .mirror (negateMom d) := by
    intro s
    unfold Scheme.ghost
    rw [if_pos hd, show c.scheme.bc.kind d s = .reflective from hk s]
    rfl
  rw [hg, hg]
  funext i
  unfold extAxis Ghost.left Ghost.right
  have h0 := wound_mirror c d hn h i 0
  have h1 := wound_mirror c d hn h i 1
  rw [mul_zero, zero_sub] at h0
  rw [mul_one] at h1
  split_ifs
  · dsimp only
    rw [h0, negateMom_mirror, mirror_mirror]
  · dsimp only
    rw [h1, negateMom_mirror, mirror_mirror]
  · rfl

/-- Both problems see the same continued state. -/
theorem padded_image (hn : ∀ e, 1 ≤ c.n e) (hd : c.scheme.active d = true)
    (hk : ∀ s, c.bc.kind d s = .reflective) {u u' : Ix → State K np} (h : InRel (imagePair K np c.n d) u u') :
    padded c.scheme (wound c d u') = padded (c.doubled d).scheme (clip (c.doubled d).n u') := by
  rw [padded_first c d, padded_first (c.doubled d) d, wound_walls c d hn hd hk h]
  have hg : ∀ s, (c.doubled d).scheme.ghost s d = .wrap := by
    intro s
    unfold Scheme.ghost
    rw [show (c.doubled d).scheme.bc.kind d s = .periodic from if_pos rfl]
    split <;> rfl
  rw [hg, hg, wound_eq c d hn]
  have h1 : Equiv.swap 0 d 1 ≠ d := swap_ne d 1 (by decide)
  have h2 : Equiv.swap 0 d 2 ≠ d := swap_ne d 2 (by decide)
  rw [doubled_ghost c d hn hd _ h1, doubled_ghost c d hn hd _ h1, doubled_ghost c d hn hd _ h2,
    doubled_ghost c d hn hd _ h2, doubled_n_ne c d h1, doubled_n_ne c d h2]

/-- One evaluation: the step size is the same, the derivative of the doubled problem is that of the domain between
the walls followed by its mirror image. -/
theorem image_rhs (hl : c.limiting = none) (hp : ∀ e, c.p e ≤ 8) (hn : ∀ e, 1 ≤ c.n e)
    (hd : c.scheme.active d = true) (hk : ∀ s, c.bc.kind d s = .reflective)
    (hs : PlainSides c.scheme (fluxWidth c.scheme c.p))
    (junk junk' : ℕ → Ix → State K np) (mem mem' : Fin 3 → Ix → State K np) (t t' : K) (u u' : Ix → State K np)
    (hu : InRel (imagePair K np c.n d) u u') (hr : Reversible (only d) 1 (c.doubled d) u') :
    ∃ dt D D', solverRHS c.scheme junk mem t t' u = .ok (dt, D) ∧
      solverRHS (c.doubled d).scheme junk' mem' t t' u' = .ok (dt, D') ∧ InRel (imagePair K np c.n d) D D' := by
  have hin : ∀ (c : EulerConfig K np) d, c.scheme.active d = false → fluxWidth c.scheme c.p d = 0 := by
    intro c d hd
    have hp0 : c.p d = 0 := c.scheme.inactive_p d hd
    simp [fluxWidth, hd, hp0, ceilHalf]
  have hwd : fluxWidth c.scheme c.p d ≤ c.n d := by
    rcases (hs d hd).1 .l with e | ⟨_, e⟩
    · rw [show c.scheme.bc.kind d .l = .reflective from hk .l] at e
      cases e
    · exact e
  have hs' := doubled_sides c d hn hd (by omega) hs
  have hn' : ∀ e, 1 ≤ (c.doubled d).n e := by
    intro e
    by_cases he : e = d
    · subst he; rw [doubled_n]; have := hn e; omega
    · rw [doubled_n_ne c d he]; exact hn e
  have hsub : ∀ i, InCells c.n i → InCells (c.doubled d).n i := by
    intro i hi e
    have := hi e
    by_cases he : e = d
    · subst he; rw [doubled_n]; push_cast; omega
    · rw [doubled_n_ne c d he]; exact this
  have hU : ∀ i, InCells c.scheme.n i → u i = wound c d u' i := by
    intro i hi
    have hid := hi d
    change 0 ≤ i d ∧ i d < (c.n d : ℤ) at hid
    unfold wound
    rw [Int.emod_eq_of_lt (by omega) (by push_cast; omega), Function.update_eq_self]
    unfold clip
    rw [if_pos (hsub i hi)]
    exact (hu i hi).1.symm
  obtain ⟨dt, hdt, e⟩ := rhs_spec c.scheme hl hp hn t _ _ (hs.sides hn (hin c) t) junk mem t' u (wound c d u') hU
  obtain ⟨dt', hdt', e'⟩ := rhs_spec (c.doubled d).scheme hl hp hn' t _ _ (hs'.sides hn' (hin _) t) junk' mem' t' u'
    (clip (c.doubled d).n u') fun i hi => (if_pos hi).symm
  have hP := padded_image c d hn hd hk hu
  -- the continued state is its own mirror image
  have hsym : clip (c.doubled d).n u' =
      fun i => turnState K np 1 (only d) (clip (c.doubled d).n u' (tau 1 (only d) (lastCell (c.doubled d).n) i)) := by
    funext i
    rw [tau_only, turn_only, doubled_n]
    push_cast
    rw [clip_image c d hu, mirror_mirror]
  obtain ⟨dt2, D2, D2', e2, e2', h2⟩ := turn_rhs (doubled_turned c d) hl hl hp hn' hs' hs' junk' junk' mem' mem' t t' u' u'
    (fun i hi => by
      have h1 := congrFun hsym i
      have hi2 : InCells (c.doubled d).n (tau 1 (only d) (lastCell (c.doubled d).n) i) := by
        rw [tau_cells]; exact hi
      unfold clip at h1
      rw [if_pos hi, if_pos hi2] at h1
      exact h1) hr
  rw [e'] at e2 e2'
  have hsym2 : padded (c.doubled d).scheme (clip (c.doubled d).n u') =
      fun i => turnState K np 1 (only d) (padded (c.doubled d).scheme (clip (c.doubled d).n u')
        (tau 1 (only d) (lastCell (c.doubled d).n) i)) := by
    have := padded_turn (doubled_turned c d) hn' (clip (c.doubled d).n u')
    rw [← hsym] at this
    exact this
  have hW : ∀ i, latPrim K c.scheme.prim c.p (padded (c.doubled d).scheme (clip (c.doubled d).n u')) i =
      turnState K np 1 (only d) (latPrim K c.scheme.prim c.p (padded (c.doubled d).scheme (clip (c.doubled d).n u'))
        (tau 1 (only d) (lastCell (c.doubled d).n) i)) := by
    intro i
    have := latPrim_tau 1 (only d) (lastCell (c.doubled d).n) (turnState K np 1 (only d)) hp c.scheme.prim
      (prim_turn 1 (only d) _) (padded (c.doubled d).scheme (clip (c.doubled d).n u'))
    rw [← hsym2] at this
    exact congrFun this i
  change IsDt c.scheme c.p (latPrim K c.scheme.prim c.p (padded c.scheme (wound c d u'))) dt at hdt
  change IsDt (c.doubled d).scheme c.p (latPrim K c.scheme.prim c.p
    (padded (c.doubled d).scheme (clip (c.doubled d).n u'))) dt' at hdt'
  rw [hP] at hdt
  have hdd : dt = dt' := by
    refine IsDt.unique (S := (c.doubled d).scheme) ?_ hdt'
    revert hdt hW
    generalize latPrim K c.scheme.prim c.p (padded (c.doubled d).scheme (clip (c.doubled d).n u')) = W
    intro hW hdt
    unfold IsDt at hdt ⊢
    change match c.scheme.fixedDt with | some x => _ | none => _
    cases hf : c.scheme.fixedDt with
    | some x => rw [hf] at hdt; exact hdt
    | none =>
      rw [hf] at hdt
      obtain ⟨m, ⟨i, hi, hm⟩, hmax, rfl⟩ := hdt
      have hsp : ∀ v, (c.doubled d).scheme.speed (c.doubled d).scheme.ndim v = c.scheme.speed c.scheme.ndim v := by
        intro v
        rw [doubled_ndim c d hn hd]
        rfl
      refine ⟨m, ⟨i, fun a => ?_, by rw [hsp, hm]⟩, fun j hj => ?_, rfl⟩
      · have := hi a
        rw [doubled_active c d hn hd]
        refine ⟨this.1, lt_of_lt_of_le this.2 ?_⟩
        show (c.n a : ℤ) + _ ≤ ((c.doubled d).n a : ℤ) + _
        by_cases he : a = d
        · subst he; rw [doubled_n]; push_cast; omega
        · rw [doubled_n_ne c d he]
      · rw [hsp]
        have hj' : ∀ a, _ := hj
        by_cases hjd : j d < c.n d
        · refine hmax j fun a => ?_
          have := hj a
          rw [doubled_active c d hn hd] at this
          by_cases he : a = d
          · subst he
            refine ⟨this.1, ?_⟩
            show j _ < (c.n _ : ℤ) + _
            split_ifs <;> omega
          · refine ⟨this.1, ?_⟩
            have h3 := this.2
            change j a < ((c.doubled d).n a : ℤ) + _ at h3
            rw [doubled_n_ne c d he] at h3
            exact h3
        · rw [hW j]
          have hspt : c.scheme.speed c.scheme.ndim (turnState K np 1 (only d)
              (W (tau 1 (only d) (lastCell (c.doubled d).n) j))) =
              c.scheme.speed c.scheme.ndim (W (tau 1 (only d) (lastCell (c.doubled d).n) j)) :=
            speed_turn 1 (only d) _ _ _
          rw [hspt]
          refine hmax _ fun a => ?_
          rw [tau_only]
          have := hj a
          rw [doubled_active c d hn hd] at this
          by_cases he : a = d
          · subst he
            rw [Function.update_self]
            have h3 := this
            change _ ∧ j a < ((c.doubled a).n a : ℤ) + _ at h3
            rw [doubled_n] at h3 ⊢
            push_cast at h3 ⊢
            change _ ∧ _ < (c.n a : ℤ) + _
            have h4 := h3.1
            have h5 := h3.2
            change j a < 2 * (c.n a : ℤ) + (if c.scheme.active a = true then (fluxGw c.p : ℤ) else 0) at h5
            change (-(if c.scheme.active a = true then (fluxGw c.p : ℤ) else 0)) ≤ _ ∧
              _ < (c.n a : ℤ) + (if c.scheme.active a = true then (fluxGw c.p : ℤ) else 0)
            split_ifs at h5 ⊢ <;> omega
          · rw [Function.update_of_ne he]
            refine ⟨this.1, ?_⟩
            have h3 := this.2
            change j a < ((c.doubled d).n a : ℤ) + _ at h3
            rw [doubled_n_ne c d he] at h3
            exact h3
  subst hdd
  refine ⟨_, _, _, e, e', fun i hi => ?_⟩
  have hfirst : (fun i => if InCells (c.doubled d).scheme.n i then latDiv (c.doubled d).scheme.active (c.doubled d).scheme.h
      (schemeFlux (c.doubled d).scheme (c.doubled d).scheme.p none (padded (c.doubled d).scheme (clip (c.doubled d).n u'))) i
        else 0) i = (fun i => if InCells c.scheme.n i then latDiv c.scheme.active c.scheme.h
      (schemeFlux c.scheme c.scheme.p none (padded c.scheme (wound c d u'))) i else 0) i := by
    beta_reduce
    rw [if_pos (show InCells (c.doubled d).scheme.n i from hsub i hi), if_pos (show InCells c.scheme.n i from hi), hP,
      doubled_active c d hn hd]
    rfl
  refine ⟨hfirst, ?_⟩
  have hi2 : InCells (c.doubled d).n (Function.update i d (2 * c.n d - 1 - i d)) := by
    have := (tau_cells (σ := 1) (fl := only d) (n := (c.doubled d).n) i).2 (hsub i hi)
    rw [tau_only, doubled_n] at this
    push_cast at this
    exact this
  have h3 := h2 _ hi2
  have q1 : D2 = _ := (congrArg Prod.snd (Except.ok.inj e2)).symm
  have q2 : D2' = _ := (congrArg Prod.snd (Except.ok.inj e2')).symm
  rw [tau_only, turn_only, doubled_n, Function.update_self, Function.update_idem] at h3
  push_cast at h3
  rw [sub_sub_cancel, Function.update_eq_self, q1, q2] at h3
  exact h3.trans (congrArg _ hfirst)
end

end FVHOE
