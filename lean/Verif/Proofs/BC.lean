import Verif.Proofs.Arr
import Verif.Model.BC
import Verif.Spec.Lattice

/-! Refinement of boundary handling to the lattice specification. -/

set_option linter.unusedSectionVars false

namespace FVHOE

variable {V : Type} {K : Type}

/-- A slice with known bounds. -/
theorem rep_slice {A : Arr V} {lo hi : Ix} {Φ : Ix → V} (h : Rep A lo hi Φ) (d : Fin 3)
    (a b : Option ℤ) (s e : ℤ) (hs : (sliceStart (A.shape d) a : ℤ) = s)
    (he : (sliceStop (A.shape d) b : ℤ) = e) (h0 : 0 ≤ s) (hse : s ≤ e) (heN : e ≤ hi d - lo d) :
    Rep (A.slice d a b) (lo + Pi.single d s) (Function.update hi d (lo d + e)) Φ := by
  have hsh : ∀ d', (((A.slice d a b).shape d' : ℕ) : ℤ) =
      (Function.update hi d (lo d + e)) d' - (lo + Pi.single d s : Ix) d' := by
    intro d'
    by_cases hd : d' = d
    · subst hd
      simp only [Arr.slice, Function.update_self, Pi.add_apply, Pi.single_eq_same]
      omega
    · simp only [Arr.slice, Function.update_of_ne hd, Pi.add_apply, Pi.single_eq_of_ne hd]
      have := h.1 d'
      omega
  refine ⟨hsh, ?_⟩
  intro j hj
  simp only [Arr.slice]
  rw [hs, h.2]
  · congr 1
    abel
  · intro d'
    have h1 := hj d'
    have h2 := hsh d'
    have h3 := h.1 d'
    by_cases hd : d' = d
    · subst hd
      simp only [Function.update_self, Pi.add_apply, Pi.single_eq_same] at *
      omega
    · simp only [Function.update_of_ne hd, Pi.add_apply, Pi.single_eq_of_ne hd] at *
      omega

theorem rep_flip {A : Arr V} {lo hi : Ix} {Φ : Ix → V} (h : Rep A lo hi Φ) (d : Fin 3) :
    Rep (A.flip d) lo hi (fun i => Φ (Function.update i d (lo d + hi d - 1 - i d))) := by
  refine ⟨h.1, ?_⟩
  intro j hj
  have hd := h.1 d
  simp only [Arr.flip]
  rw [h.2]
  · congr 1
    funext d'
    by_cases hdd : d' = d
    · subst hdd
      simp only [Function.update_self, Pi.add_apply]
      omega
    · simp only [Function.update_of_ne hdd, Pi.add_apply]
  · intro d'
    by_cases hdd : d' = d
    · subst hdd
      have h1 : 0 ≤ j d' ∧ j d' < A.shape d' := hj d'
      simp only [Function.update_self]
      omega
    · have h1 : 0 ≤ j d' ∧ j d' < A.shape d' := hj d'
      simpa only [Function.update_of_ne hdd] using h1

/-- Lattice coordinates of the ghost slab on a side. -/
def slabLo (lo hi : Ix) (st : ℕ) (d : Fin 3) : Side → Ix
  | .l => lo
  | .r => Function.update lo d (hi d - st)

/-- Lattice coordinates of the ghost slab on a side. -/
def slabHi (lo hi : Ix) (st : ℕ) (d : Fin 3) : Side → Ix
  | .l => Function.update hi d (lo d + st)
  | .r => hi

theorem start_pos {N : ℕ} {a : ℤ} (h : 0 < a) (h' : a ≤ N) : (sliceStart N (orNone a) : ℤ) = a := by
  unfold orNone
  rw [if_neg (by omega)]
  simp only [sliceStart, pyBound]
  rw [if_neg (by omega)]
  omega

theorem start_neg {N : ℕ} {a : ℤ} (h : 0 < a) (h' : a ≤ N) :
    (sliceStart N (orNone (-a)) : ℤ) = N - a := by
  unfold orNone
  rw [if_neg (by omega)]
  simp only [sliceStart, pyBound]
  rw [if_pos (by omega)]
  omega

theorem stop_pos {N : ℕ} {a : ℤ} (h : 0 < a) (h' : a ≤ N) : (sliceStop N (orNone a) : ℤ) = a := by
  unfold orNone
  rw [if_neg (by omega)]
  simp only [sliceStop, pyBound]
  rw [if_neg (by omega)]
  omega

theorem stop_neg {N : ℕ} {a : ℤ} (h : 0 < a) (h' : a ≤ N) :
    (sliceStop N (orNone (-a)) : ℤ) = N - a := by
  unfold orNone
  rw [if_neg (by omega)]
  simp only [sliceStop, pyBound]
  rw [if_pos (by omega)]
  omega

theorem outer_start (N st : ℕ) (h : st ≤ N) (h0 : 0 < st) (s : Side) :
    (sliceStart N (orNone (outerCut st s).1) : ℤ) = match s with | .l => 0 | .r => (N : ℤ) - st := by
  cases s
  · rfl
  · exact start_neg (by omega) (by omega)

theorem outer_stop (N st : ℕ) (h : st ≤ N) (h0 : 0 < st) (s : Side) :
    (sliceStop N (orNone (outerCut st s).2) : ℤ) = match s with | .l => (st : ℤ) | .r => (N : ℤ) := by
  cases s
  · exact stop_pos (a := (st : ℤ)) (by omega) (by omega)
  · rfl

/-- The slab of ghost entries. -/
theorem rep_outer {A : Arr V} {lo hi : Ix} {Φ : Ix → V} (h : Rep A lo hi Φ) (d : Fin 3) (s : Side)
    (st : ℕ) (h0 : 0 < st) (hst : (st : ℤ) ≤ hi d - lo d) :
    Rep (A.cut d (outerCut st s).1 (outerCut st s).2) (slabLo lo hi st d s) (slabHi lo hi st d s) Φ := by
  have hN := h.1 d
  have e1 := outer_start (A.shape d) st (by omega) h0 s
  have e2 := outer_stop (A.shape d) st (by omega) h0 s
  have := rep_slice h d _ _ _ _ e1 e2 (by cases s <;> simp <;> omega) (by cases s <;> simp <;> omega)
    (by cases s <;> simp <;> omega)
  refine this.congr ?_ ?_ (fun _ _ => rfl)
  · funext d'
    by_cases hd : d' = d
    · subst hd
      cases s <;> simp [slabLo]
      omega
    · cases s <;> simp [slabLo, hd]
  · funext d'
    by_cases hd : d' = d
    · subst hd
      cases s <;> simp [slabHi]
      omega
    · cases s <;> simp [slabHi, hd]

/-- Overwriting the ghost slab of one side. -/
theorem rep_setOuter {A : Arr V} {lo hi : Ix} {Φ : Ix → V} (h : Rep A lo hi Φ) (d : Fin 3) (s : Side)
    (st : ℕ) (h0 : 0 < st) (hst : (st : ℤ) ≤ hi d - lo d) (src : Arr V)
    (hsrc : ∀ d', d' ≠ d → src.shape d' = A.shape d' ∨ src.shape d' = 1)
    (hd : src.shape d = st ∨ src.shape d = 1) (Ψ : Ix → V)
    (hΨ : ∀ i, (∀ d', lo d' ≤ i d' ∧ i d' < hi d') →
      (slabLo lo hi st d s d ≤ i d ∧ i d < slabHi lo hi st d s d) →
      src.get (src.bix (i - slabLo lo hi st d s)) = Ψ i) :
    ∃ A', A.setCut d (outerCut st s).1 (outerCut st s).2 src = .ok A' ∧
      Rep A' lo hi (fun i => if slabLo lo hi st d s d ≤ i d ∧ i d < slabHi lo hi st d s d then Ψ i
        else Φ i) := by
  have hN := h.1 d
  have e1 := outer_start (A.shape d) st (by omega) h0 s
  have e2 := outer_stop (A.shape d) st (by omega) h0 s
  unfold Arr.setCut Arr.setSlice
  simp only
  have hb : broadcastsTo src.shape (Function.update A.shape d
      (sliceStop (A.shape d) (orNone (outerCut st s).2) -
        sliceStart (A.shape d) (orNone (outerCut st s).1))) := by
    intro d'
    by_cases hdd : d' = d
    · subst hdd
      simp only [Function.update_self]
      rcases hd with hd | hd
      · left
        rw [hd]
        cases s <;> simp only at e1 e2 <;> omega
      · right; exact hd
    · simp only [Function.update_of_ne hdd]
      exact hsrc d' hdd
  rw [if_pos hb]
  refine ⟨_, rfl, h.1, ?_⟩
  intro j hj
  have hj' : ∀ d', 0 ≤ j d' ∧ j d' < A.shape d' := hj
  have hjd := hj' d
  have hbox : ∀ d', lo d' ≤ (j + lo) d' ∧ (j + lo) d' < hi d' := by
    intro d'
    have a1 := hj' d'
    have a2 := h.1 d'
    simp only [Pi.add_apply]
    omega
  have hiff : (((sliceStart (A.shape d) (orNone (outerCut st s).1) : ℕ) : ℤ) ≤ j d ∧
      j d < ((sliceStop (A.shape d) (orNone (outerCut st s).2) : ℕ) : ℤ)) ↔
      (slabLo lo hi st d s d ≤ (j + lo) d ∧ (j + lo) d < slabHi lo hi st d s d) := by
    rw [e1, e2]
    cases s <;> simp [slabLo, slabHi] <;> omega
  beta_reduce
  by_cases hc : slabLo lo hi st d s d ≤ (j + lo) d ∧ (j + lo) d < slabHi lo hi st d s d
  · rw [if_pos hc, ← hΨ _ hbox hc]
    refine (if_pos (hiff.2 hc)).trans ?_
    congr 2
    rw [e1]
    funext d'
    by_cases hdd : d' = d
    · subst hdd
      cases s <;> simp [slabLo]
      omega
    · cases s <;> simp [slabLo, hdd]
  · rw [if_neg hc]
    exact (if_neg (fun hh => hc (hiff.1 hh))).trans (h.2 j hj')

/-- Overwriting the ghost slab by an array that represents a function there. -/
theorem rep_setOuter_rep {A : Arr V} {lo hi : Ix} {Φ Ψ : Ix → V} (h : Rep A lo hi Φ) (d : Fin 3)
    (s : Side) (st : ℕ) (h0 : 0 < st) (hst : (st : ℤ) ≤ hi d - lo d) (src : Arr V)
    (hsrc : Rep src (slabLo lo hi st d s) (slabHi lo hi st d s) Ψ) :
    ∃ A', A.setCut d (outerCut st s).1 (outerCut st s).2 src = .ok A' ∧
      Rep A' lo hi (fun i => if slabLo lo hi st d s d ≤ i d ∧ i d < slabHi lo hi st d s d then Ψ i
        else Φ i) := by
  have hN := h.1 d
  refine rep_setOuter h d s st h0 hst src ?_ (Or.inl ?_) Ψ ?_
  · intro d' hd
    have h1 := hsrc.1 d'
    have h2 := h.1 d'
    left
    cases s <;> simp only [slabLo, slabHi, Function.update_of_ne hd] at h1 <;> omega
  · have h1 := hsrc.1 d
    cases s <;> simp only [slabLo, slabHi, Function.update_self] at h1 <;> omega
  · intro i hi1 hi2
    have hin : src.InB (i - slabLo lo hi st d s) := by
      intro d'
      have h1 := hsrc.1 d'
      have h2 := hi1 d'
      simp only [Pi.sub_apply]
      by_cases hd : d' = d
      · subst hd
        omega
      · cases s <;> simp only [slabLo, slabHi, Function.update_of_ne hd] at h1 ⊢ <;> omega
    rw [bix_eq _ _ hin, hsrc.2 _ hin]
    congr 1
    funext d'
    simp

theorem inner_start (N st : ℕ) (h : 2 * st ≤ N) (h0 : 0 < st) (s : Side) :
    (sliceStart N (orNone (innerCut st s).1) : ℤ) =
      match s with | .l => (st : ℤ) | .r => (N : ℤ) - 2 * st := by
  cases s
  · exact start_pos (a := (st : ℤ)) (by omega) (by omega)
  · exact (congrArg (fun x => ((sliceStart N (orNone x) : ℕ) : ℤ)) (by simp [innerCut])).trans
      (start_neg (a := 2 * st) (by omega) (by omega))

theorem inner_stop (N st : ℕ) (h : 2 * st ≤ N) (h0 : 0 < st) (s : Side) :
    (sliceStop N (orNone (innerCut st s).2) : ℤ) =
      match s with | .l => 2 * (st : ℤ) | .r => (N : ℤ) - st := by
  cases s
  · exact stop_pos (a := 2 * st) (by omega) (by omega)
  · exact stop_neg (by omega) (by omega)

theorem edge_start (N st : ℕ) (h : st + 1 ≤ N) (h0 : 0 < st) (s : Side) :
    (sliceStart N (orNone (edgeCut st s).1) : ℤ) =
      match s with | .l => (st : ℤ) | .r => (N : ℤ) - st - 1 := by
  cases s
  · exact start_pos (a := (st : ℤ)) (by omega) (by omega)
  · exact (start_neg (a := (st : ℤ) + 1) (by omega) (by omega)).trans (by simp only; omega)

theorem edge_stop (N st : ℕ) (h : st + 1 ≤ N) (h0 : 0 < st) (s : Side) :
    (sliceStop N (orNone (edgeCut st s).2) : ℤ) =
      match s with | .l => (st : ℤ) + 1 | .r => (N : ℤ) - st := by
  cases s
  · exact stop_pos (a := (st : ℤ) + 1) (by omega) (by omega)
  · exact stop_neg (by omega) (by omega)

/-- A shifted copy of a function. -/
theorem Rep.shift {A : Arr V} {lo hi : Ix} {Φ : Ix → V} (h : Rep A lo hi Φ) (v : Ix) :
    Rep A (lo + v) (hi + v) (fun i => Φ (i - v)) := by
  refine ⟨fun d => ?_, fun j hj => ?_⟩
  · rw [h.1 d]
    simp only [Pi.add_apply]
    omega
  · rw [h.2 j hj]
    congr 1
    abel

/-- The interior slab of depth `st`, in the coordinates of the ghost slab on side `s'`. -/
theorem rep_inner {A : Arr V} {lo hi : Ix} {Φ : Ix → V} (h : Rep A lo hi Φ) (d : Fin 3) (s s' : Side)
    (st : ℕ) (h0 : 0 < st) (hst : 2 * (st : ℤ) ≤ hi d - lo d) :
    ∃ v : ℤ, (∀ i : ℤ, (match s' with | .l => lo d ≤ i ∧ i < lo d + st | .r => hi d - st ≤ i ∧ i < hi d) →
        match s with | .l => lo d + st ≤ i - v ∧ i - v < lo d + 2 * st
                     | .r => hi d - 2 * st ≤ i - v ∧ i - v < hi d - st) ∧
      (match s, s' with
        | .l, .l => v = -(st : ℤ) | .l, .r => v = hi d - lo d - 2 * st
        | .r, .l => v = -(hi d - lo d - 2 * st) | .r, .r => v = (st : ℤ)) ∧
      Rep (A.cut d (innerCut st s).1 (innerCut st s).2) (slabLo lo hi st d s') (slabHi lo hi st d s')
        (fun i => Φ (i - Pi.single d v)) := by
  have hN := h.1 d
  have e1 := inner_start (A.shape d) st (by omega) h0 s
  have e2 := inner_stop (A.shape d) st (by omega) h0 s
  have := rep_slice h d _ _ _ _ e1 e2 (by cases s <;> simp <;> omega) (by cases s <;> simp <;> omega)
    (by cases s <;> simp <;> omega)
  refine ⟨match s, s' with
        | .l, .l => -(st : ℤ) | .l, .r => hi d - lo d - 2 * st
        | .r, .l => -(hi d - lo d - 2 * st) | .r, .r => (st : ℤ), ?_, ?_, ?_⟩
  · intro i hi'
    cases s <;> cases s' <;> simp only at hi' ⊢ <;> omega
  · cases s <;> cases s' <;> rfl
  · refine (this.shift (Pi.single d _)).congr ?_ ?_ (fun _ _ => rfl)
    · funext d'
      by_cases hd : d' = d
      · subst hd
        cases s <;> cases s' <;> simp [slabLo] <;> omega
      · cases s' <;> simp [slabLo, hd]
    · funext d'
      by_cases hd : d' = d
      · subst hd
        cases s <;> cases s' <;> simp [slabHi] <;> omega
      · cases s' <;> simp [slabHi, hd]

/-- The edge layer. -/
theorem rep_edge {A : Arr V} {lo hi : Ix} {Φ : Ix → V} (h : Rep A lo hi Φ) (d : Fin 3) (s : Side)
    (st : ℕ) (h0 : 0 < st) (hst : (st : ℤ) + 1 ≤ hi d - lo d) :
    Rep (A.cut d (edgeCut st s).1 (edgeCut st s).2)
      (Function.update lo d (match s with | .l => lo d + st | .r => hi d - st - 1))
      (Function.update hi d (match s with | .l => lo d + st + 1 | .r => hi d - st)) Φ := by
  have hN := h.1 d
  have e1 := edge_start (A.shape d) st (by omega) h0 s
  have e2 := edge_stop (A.shape d) st (by omega) h0 s
  have := rep_slice h d _ _ _ _ e1 e2 (by cases s <;> simp <;> omega) (by cases s <;> simp <;> omega)
    (by cases s <;> simp <;> omega)
  refine this.congr ?_ ?_ (fun _ _ => rfl)
  · funext d'
    by_cases hd : d' = d
    · subst hd
      cases s <;> simp
      omega
    · simp [hd]
  · funext d'
    by_cases hd : d' = d
    · subst hd
      cases s <;> simp <;> omega
    · simp [hd]

/-- Lower corner of the padded box. -/
def padLo (gw : Fin 3 → ℕ) : Ix := fun d => -(gw d : ℤ)

/-- Upper corner of the padded box. -/
def padHi (n gw : Fin 3 → ℕ) : Ix := fun d => (n d : ℤ) + gw d

/-- Continuation beyond a side. -/
def Ghost.beyond (G : Ghost V) (n : ℤ) (d : Fin 3) : Side → (Ix → V) → Ix → V
  | .l => G.left n d
  | .r => G.right n d

/-- The side of a ghost index. -/
def OnSide (n : ℤ) (d : Fin 3) : Side → Ix → Prop
  | .l, i => i d < 0
  | .r, i => n ≤ i d

instance (n : ℤ) (d : Fin 3) (s : Side) (i : Ix) : Decidable (OnSide n d s i) := by
  cases s <;> unfold OnSide <;> infer_instance

/-- `vals` can be assigned to the ghost slab and gives it the values `ψ`. -/
def FillsSlab (n gw : Fin 3 → ℕ) (d : Fin 3) (s : Side) (vals : Arr V) (ψ : Ix → V) : Prop :=
  (∀ d', (vals.shape d' : ℤ) = slabHi (padLo gw) (padHi n gw) (gw d) d s d' -
      slabLo (padLo gw) (padHi n gw) (gw d) d s d' ∨ vals.shape d' = 1) ∧
  ∀ i : Ix, (∀ d', slabLo (padLo gw) (padHi n gw) (gw d) d s d' ≤ i d' ∧
      i d' < slabHi (padLo gw) (padHi n gw) (gw d) d s d') →
    vals.get (vals.bix (i - slabLo (padLo gw) (padHi n gw) (gw d) d s)) = ψ i

theorem FillsSlab.of_rep {n gw : Fin 3 → ℕ} {d : Fin 3} {s : Side} {vals : Arr V} {ψ : Ix → V}
    (h : Rep vals (slabLo (padLo gw) (padHi n gw) (gw d) d s)
      (slabHi (padLo gw) (padHi n gw) (gw d) d s) ψ) : FillsSlab n gw d s vals ψ := by
  refine ⟨fun d' => Or.inl (h.1 d'), fun i hi => ?_⟩
  have hin : vals.InB (i - slabLo (padLo gw) (padHi n gw) (gw d) d s) := by
    intro d'
    have h1 := h.1 d'
    have h2 := hi d'
    simp only [Pi.sub_apply]
    omega
  rw [bix_eq _ _ hin, h.2 _ hin]
  congr 1
  funext d'
  simp

/-- What the boundary condition on one side amounts to. The coordinates enter through the arrays
passed to a boundary function. -/
inductive SideSpec (bc : BC K V) (negate : Fin 3 → V → V) (n gw : Fin 3 → ℕ) (t : K) (d : Fin 3)
    (s : Side) : Ghost V → Prop
  | free (h : bc.kind d s = .free) (hn : 1 ≤ n d) : SideSpec bc negate n gw t d s .clamp
  | outflow (h : bc.kind d s = .outflow) (hn : gw d ≤ n d) :
      SideSpec bc negate n gw t d s (.mirror id)
  | reflective (h : bc.kind d s = .reflective) (hn : gw d ≤ n d) :
      SideSpec bc negate n gw t d s (.mirror (negate d))
  | periodic (h : bc.kind d s = .periodic) (hl : bc.kind d .l = .periodic) (hn : gw d ≤ n d)
      (hn1 : 1 ≤ n d) : SideSpec bc negate n gw t d s .wrap
  | const (h : bc.kind d s = .dirichlet ∨ bc.kind d s = .ic) (v : V) (hv : bc.value d s = .const v)
      (hc : ∃ c, trimSlabs bc.slabs gw d s = .ok c) : SideSpec bc negate n gw t d s (.fixed fun _ => v)
  | func (g : Arr K → Arr K → Arr K → Option K → Except PyErr (Arr V)) (τ : Option K)
      (h : (bc.kind d s = .dirichlet ∧ τ = some t) ∨ (bc.kind d s = .ic ∧ τ = none))
      (hv : bc.value d s = .func g) (ψ : Ix → V)
      (hc : ∃ c vals, trimSlabs bc.slabs gw d s = .ok c ∧ g (c 0) (c 1) (c 2) τ = .ok vals ∧
        FillsSlab n gw d s vals ψ) : SideSpec bc negate n gw t d s (.fixed ψ)
  | inactive (h : gw d = 0) (G : Ghost V) : SideSpec bc negate n gw t d s G

theorem slab_iff (n gw : Fin 3 → ℕ) (d : Fin 3) (s : Side) (i : Ix)
    (hi : ∀ d', padLo gw d' ≤ i d' ∧ i d' < padHi n gw d') :
    (slabLo (padLo gw) (padHi n gw) (gw d) d s d ≤ i d ∧
      i d < slabHi (padLo gw) (padHi n gw) (gw d) d s d) ↔ OnSide (n d) d s i := by
  have := hi d
  cases s <;> simp only [slabLo, slabHi, Function.update_self, OnSide, padLo, padHi] at * <;> omega

theorem Rep.congr' {A : Arr V} {lo hi : Ix} {Φ Ψ : Ix → V} (h : Rep A lo hi Φ)
    (hΦ : ∀ i, (∀ d, lo d ≤ i d ∧ i d < hi d) → Φ i = Ψ i) : Rep A lo hi Ψ :=
  h.congr rfl rfl hΦ

/-- One side, periodic conditions aside. -/
theorem applySlab_spec (bc : BC K V) (negate : Fin 3 → V → V) (n gw : Fin 3 → ℕ) (t : K) (d : Fin 3)
    (s : Side) (G : Ghost V) (hG : SideSpec bc negate n gw t d s G) (hp : bc.kind d s ≠ .periodic)
    (A : Arr V) (Φ : Ix → V) (hA : Rep A (padLo gw) (padHi n gw) Φ) :
    ∃ A', applySlab bc negate gw t A (d, s) = .ok A' ∧
      Rep A' (padLo gw) (padHi n gw)
        (fun i => if OnSide (n d) d s i then G.beyond (n d) d s Φ i else Φ i) := by
  unfold applySlab
  simp only
  by_cases hg : gw d = 0
  · rw [if_pos hg]
    refine ⟨A, rfl, hA.congr' ?_⟩
    intro i hi
    have := hi d
    have hno : ¬ OnSide (n d) d s i := by
      cases s <;> simp only [OnSide, padLo, padHi] at * <;> omega
    rw [if_neg hno]
  rw [if_neg hg]
  have h0 : 0 < gw d := Nat.pos_of_ne_zero hg
  have hst : ((gw d : ℕ) : ℤ) ≤ padHi n gw d - padLo gw d := by
    simp only [padLo, padHi]; omega
  -- symmetric conditions
  have hsym : ∀ σ : V → V, gw d ≤ n d →
      ∃ A', setSymmetric A (gw d) d s σ = .ok A' ∧
      Rep A' (padLo gw) (padHi n gw) (fun i => if OnSide (n d) d s i then
        (Ghost.mirror σ).beyond (n d) d s Φ i else Φ i) := by
    intro σ hn
    have hst2 : 2 * ((gw d : ℕ) : ℤ) ≤ padHi n gw d - padLo gw d := by
      simp only [padLo, padHi]; omega
    obtain ⟨v, -, hv, hin⟩ := rep_inner hA d s s (gw d) h0 hst2
    have hfl := rep_flip hin d
    obtain ⟨A1, e1, r1⟩ := rep_setOuter_rep hA d s (gw d) h0 hst _ hfl
    have r1' := rep_outer r1 d s (gw d) h0 hst
    have r1'' := rep_map r1' σ
    obtain ⟨A2, e2, r2⟩ := rep_setOuter_rep r1 d s (gw d) h0 hst _ r1''
    refine ⟨A2, ?_, r2.congr' ?_⟩
    · simp only [setSymmetric, e1]
      exact e2
    · intro i hi
      have hiff := slab_iff n gw d s i hi
      by_cases hc : OnSide (n d) d s i
      · rw [if_pos (hiff.2 hc), if_pos (hiff.2 hc), if_pos hc]
        have := hi d
        cases s <;> simp only [Ghost.beyond, Ghost.left, Ghost.right, slabLo, slabHi, padLo, padHi,
          Function.update_self] at hv ⊢ <;> congr 2 <;> funext d' <;> by_cases hd : d' = d
        all_goals first
          | (subst hd; simp; omega)
          | simp [hd]
      · rw [if_neg (fun h => hc (hiff.1 h)), if_neg (fun h => hc (hiff.1 h)), if_neg hc]
  -- values given on the slab
  have hfix : ∀ (vals : Arr V) (ψ : Ix → V), FillsSlab n gw d s vals ψ →
      ∃ A', A.setCut d (outerCut (gw d) s).1 (outerCut (gw d) s).2 vals = .ok A' ∧
      Rep A' (padLo gw) (padHi n gw) (fun i => if OnSide (n d) d s i then
        (Ghost.fixed ψ).beyond (n d) d s Φ i else Φ i) := by
    intro vals ψ hv
    have key := rep_setOuter hA d s (gw d) h0 hst vals
    have k1 : ∀ d', d' ≠ d → vals.shape d' = A.shape d' ∨ vals.shape d' = 1 := by
      intro d' hd
      have h1 := hv.1 d'
      have h2 := hA.1 d'
      cases s <;> simp only [slabLo, slabHi, Function.update_of_ne hd] at h1 <;> omega
    have k2 : vals.shape d = gw d ∨ vals.shape d = 1 := by
      have h1 := hv.1 d
      cases s <;> simp only [slabLo, slabHi, Function.update_self] at h1 <;> omega
    obtain ⟨A1, e1, r1⟩ := key k1 k2 ψ (by
      intro i hi1 hi2
      apply hv.2
      intro d'
      by_cases hd : d' = d
      · subst hd
        exact hi2
      · have := hi1 d'
        cases s <;> simpa only [slabLo, slabHi, Function.update_of_ne hd] using this)
    refine ⟨A1, e1, r1.congr' ?_⟩
    intro i hi
    have hiff := slab_iff n gw d s i hi
    by_cases hc : OnSide (n d) d s i
    · rw [if_pos (hiff.2 hc), if_pos hc]
      cases s <;> rfl
    · rw [if_neg (fun h => hc (hiff.1 h)), if_neg hc]
  cases hG with
  | free h hn =>
    rw [h]
    have hst1 : ((gw d : ℕ) : ℤ) + 1 ≤ padHi n gw d - padLo gw d := by
      simp only [padLo, padHi]; omega
    have hed := rep_edge hA d s (gw d) h0 hst1
    have key := rep_setOuter hA d s (gw d) h0 hst (A.cut d (edgeCut (gw d) s).1 (edgeCut (gw d) s).2)
    specialize key ?_ (Or.inr ?_) ((Ghost.clamp : Ghost V).beyond (n d) d s Φ) ?_
    rotate_right
    · obtain ⟨A1, e1, r1⟩ := key
      refine ⟨A1, e1, r1.congr' ?_⟩
      intro i hi
      have hiff := slab_iff n gw d s i hi
      by_cases hc : OnSide (n d) d s i
      · rw [if_pos (hiff.2 hc), if_pos hc]
      · rw [if_neg (fun h => hc (hiff.1 h)), if_neg hc]
    · intro d' hd
      have h1 := hed.1 d'
      have h2 := hA.1 d'
      simp only [Function.update_of_ne hd] at h1
      left
      omega
    · have h1 := hed.1 d
      cases s <;> simp only [Function.update_self] at h1 <;> omega
    · intro i hi hc
      have hiff := (slab_iff n gw d s i hi).1 hc
      have hsh : ((A.cut d (edgeCut (gw d) s).1 (edgeCut (gw d) s).2).shape d) = 1 := by
        have h1 := hed.1 d
        cases s <;> simp only [Function.update_self] at h1 <;> omega
      have hin : (A.cut d (edgeCut (gw d) s).1 (edgeCut (gw d) s).2).InB
          (Arr.bix (A.cut d (edgeCut (gw d) s).1 (edgeCut (gw d) s).2)
            (i - slabLo (padLo gw) (padHi n gw) (gw d) d s)) := by
        intro d'
        have h1 := hed.1 d'
        have h2 := hi d'
        by_cases hd : d' = d
        · subst hd
          simp only [Arr.bix, hsh, if_true]
          omega
        · simp only [Function.update_of_ne hd] at h1
          simp only [Arr.bix]
          split_ifs
          · omega
          · cases s <;> simp only [slabLo, Pi.sub_apply, Function.update_of_ne hd] <;> omega
      rw [hed.2 _ hin]
      cases s <;> simp only [Ghost.beyond, Ghost.left, Ghost.right] <;> congr 1 <;> funext d' <;>
        by_cases hd : d' = d
      · subst hd
        simp only [Arr.bix, hsh, if_true, Pi.add_apply, Function.update_self, padLo]
        omega
      · have h1 := hed.1 d'
        have h2 := hi d'
        simp only [Function.update_of_ne hd] at h1
        simp only [Arr.bix, Pi.add_apply, Function.update_of_ne hd, slabLo, Pi.sub_apply]
        split_ifs <;> omega
      · subst hd
        simp only [Arr.bix, hsh, if_true, Pi.add_apply, Function.update_self, padHi]
        omega
      · have h1 := hed.1 d'
        have h2 := hi d'
        simp only [Function.update_of_ne hd] at h1
        simp only [Arr.bix, Pi.add_apply, Function.update_of_ne hd, slabLo, Pi.sub_apply]
        split_ifs <;> omega
  | outflow h hn =>
    rw [h]
    exact hsym id hn
  | reflective h hn =>
    rw [h]
    exact hsym (negate d) hn
  | periodic h _ _ _ => exact absurd h hp
  | inactive h _ => exact absurd h hg
  | const h v hv hc =>
    obtain ⟨c, hc⟩ := hc
    have hr := rep_map (rep_outer hA d s (gw d) h0 hst) (fun _ => v)
    obtain ⟨A', e, r⟩ := hfix _ (fun _ => v) (FillsSlab.of_rep hr)
    refine ⟨A', ?_, r⟩
    rcases h with h | h <;>
    · rw [h]
      simp only [hc, hv]
      exact e
  | func g τ h hv ψ hc =>
    obtain ⟨c, vals, hc, hg', hr⟩ := hc
    obtain ⟨A', e, r⟩ := hfix _ ψ hr
    refine ⟨A', ?_, r⟩
    rcases h with ⟨h, ht⟩ | ⟨h, ht⟩ <;> subst ht <;>
    · rw [h]
      simp only [hc, hv]
      change (g (c 0) (c 1) (c 2) _ >>= _) = _
      rw [hg']
      exact e

/-- Periodic conditions, handled on the left side for both. -/
theorem applySlab_periodic (bc : BC K V) (negate : Fin 3 → V → V) (n gw : Fin 3 → ℕ) (t : K)
    (d : Fin 3) (hp : bc.kind d .l = .periodic) (hn : gw d ≤ n d)
    (A : Arr V) (Φ : Ix → V) (hA : Rep A (padLo gw) (padHi n gw) Φ) :
    ∃ A', applySlab bc negate gw t A (d, .l) = .ok A' ∧
      Rep A' (padLo gw) (padHi n gw) (extAxis (n d) d .wrap .wrap Φ) := by
  unfold applySlab
  simp only
  by_cases hg : gw d = 0
  · rw [if_pos hg]
    refine ⟨A, rfl, hA.congr' ?_⟩
    intro i hi
    have := hi d
    simp only [padLo, padHi] at this
    unfold extAxis
    rw [if_neg (by omega), if_neg (by omega)]
  rw [if_neg hg, hp]
  simp only [if_true]
  have h0 : 0 < gw d := Nat.pos_of_ne_zero hg
  have hst : ((gw d : ℕ) : ℤ) ≤ padHi n gw d - padLo gw d := by
    simp only [padLo, padHi]; omega
  have hst2 : 2 * ((gw d : ℕ) : ℤ) ≤ padHi n gw d - padLo gw d := by
    simp only [padLo, padHi]; omega
  obtain ⟨v, -, hv, hin⟩ := rep_inner hA d .r .l (gw d) h0 hst2
  obtain ⟨A1, e1, r1⟩ := rep_setOuter_rep hA d .l (gw d) h0 hst _ hin
  obtain ⟨v', -, hv', hin'⟩ := rep_inner r1 d .l .r (gw d) h0 hst2
  obtain ⟨A2, e2, r2⟩ := rep_setOuter_rep r1 d .r (gw d) h0 hst _ hin'
  refine ⟨A2, ?_, r2.congr' ?_⟩
  · simp only [setPeriodic, e1]
    exact e2
  · intro i hi
    have hR := slab_iff n gw d .r i hi
    have hL := slab_iff n gw d .l i hi
    have hid := hi d
    simp only [OnSide] at hR hL
    simp only [padLo, padHi] at hv hv' hid
    unfold extAxis
    by_cases hc : (n d : ℤ) ≤ i d
    · have hno : ¬ (slabLo (padLo gw) (padHi n gw) (gw d) d .l d ≤ (i - Pi.single d v' : Ix) d ∧
          (i - Pi.single d v' : Ix) d < slabHi (padLo gw) (padHi n gw) (gw d) d .l d) := by
        simp only [slabLo, slabHi, Function.update_self, Pi.sub_apply, Pi.single_eq_same, padLo]
        omega
      rw [if_pos (hR.2 hc), if_neg hno, if_neg (show ¬ i d < 0 by omega), if_pos hc]
      · simp only [Ghost.right]
        have hmod : i d % (n d : ℤ) = i d - n d := by
          rw [← Int.sub_emod_right, Int.emod_eq_of_lt] <;> omega
        rw [hmod]
        congr 1
        funext d'
        by_cases hd : d' = d
        · subst hd
          simp
          omega
        · simp [hd]
    · rw [if_neg (fun h => hc (hR.1 h))]
      by_cases hc' : i d < 0
      · rw [if_pos (hL.2 hc'), if_pos hc']
        simp only [Ghost.left]
        have hmod : i d % (n d : ℤ) = i d + n d := by
          rw [← Int.add_emod_right, Int.emod_eq_of_lt] <;> omega
        rw [hmod]
        congr 1
        funext d'
        by_cases hd : d' = d
        · subst hd
          simp
          omega
        · simp [hd]
      · rw [if_neg (fun h => hc' (hL.1 h)), if_neg hc', if_neg hc]

theorem applySlab_periodic_right (bc : BC K V) (negate : Fin 3 → V → V) (gw : Fin 3 → ℕ) (t : K)
    (d : Fin 3) (hp : bc.kind d .r = .periodic) (A : Arr V) :
    applySlab bc negate gw t A (d, .r) = .ok A := by
  unfold applySlab
  simp only [hp]
  split_ifs with h1 h2
  · rfl
  · cases h2
  · rfl

/-- The continuation depends only on the cells inside along the axis. -/
theorem beyond_congr (bc : BC K V) (negate : Fin 3 → V → V) (n gw : Fin 3 → ℕ) (t : K) (d : Fin 3)
    (s : Side) (G : Ghost V) (hG : SideSpec bc negate n gw t d s G) (Φ Ψ : Ix → V) (i : Ix)
    (hi : padLo gw d ≤ i d ∧ i d < padHi n gw d) (hs : OnSide (n d) d s i)
    (h : ∀ a : ℤ, 0 ≤ a → a < n d → Φ (Function.update i d a) = Ψ (Function.update i d a)) :
    G.beyond (n d) d s Φ i = G.beyond (n d) d s Ψ i := by
  simp only [padLo, padHi] at hi
  cases hG with
  | free _ hn => cases s <;> simp only [Ghost.beyond, Ghost.left, Ghost.right] <;> apply h <;> omega
  | outflow _ hn =>
    cases s <;> simp only [OnSide] at hs <;> simp only [Ghost.beyond, Ghost.left, Ghost.right] <;>
      congr 1 <;> apply h <;> omega
  | reflective _ hn =>
    cases s <;> simp only [OnSide] at hs <;> simp only [Ghost.beyond, Ghost.left, Ghost.right] <;>
      congr 1 <;> apply h <;> omega
  | periodic _ _ _ hn =>
    cases s <;> simp only [Ghost.beyond, Ghost.left, Ghost.right] <;> apply h
    · exact Int.emod_nonneg _ (by omega)
    · exact Int.emod_lt_of_pos _ (by omega)
    · exact Int.emod_nonneg _ (by omega)
    · exact Int.emod_lt_of_pos _ (by omega)
  | const _ _ _ _ => cases s <;> rfl
  | func _ _ _ _ _ _ => cases s <;> rfl
  | inactive h _ =>
    exfalso
    cases s <;> simp only [OnSide] at hs <;> omega

/-- Both sides of one axis. -/
theorem applyAxis_spec (bc : BC K V) (negate : Fin 3 → V → V) (n gw : Fin 3 → ℕ) (t : K) (d : Fin 3)
    (gl gr : Ghost V) (hl : SideSpec bc negate n gw t d .l gl) (hr : SideSpec bc negate n gw t d .r gr)
    (A : Arr V) (Φ : Ix → V) (hA : Rep A (padLo gw) (padHi n gw) Φ) :
    ∃ A', (do
      let B ← applySlab bc negate gw t A (d, .l)
      applySlab bc negate gw t B (d, .r)) = .ok A' ∧
      Rep A' (padLo gw) (padHi n gw) (extAxis (n d) d gl gr Φ) := by
  by_cases hg : gw d = 0
  · have e : ∀ s, applySlab bc negate gw t A (d, s) = .ok A := by
      intro s
      unfold applySlab
      simp only [hg, if_true]
    rw [e .l]
    refine ⟨A, e .r, hA.congr' ?_⟩
    intro i hi
    have := hi d
    simp only [padLo, padHi] at this
    unfold extAxis
    rw [if_neg (by omega), if_neg (by omega)]
  -- the left side
  have h1 : ∃ A1 Θ, applySlab bc negate gw t A (d, .l) = .ok A1 ∧
      (bc.kind d .l = .periodic → Θ = (Ghost.wrap : Ghost V).right (n d) d Φ) ∧
      Rep A1 (padLo gw) (padHi n gw) (fun i => if i d < 0 then gl.left (n d) d Φ i else
        if (n d : ℤ) ≤ i d then Θ i else Φ i) := by
    by_cases hp : bc.kind d .l = .periodic
    · cases hl with
      | periodic _ _ hn hn1 =>
        obtain ⟨A1, e1, r1⟩ := applySlab_periodic bc negate n gw t d hp hn A Φ hA
        exact ⟨A1, (Ghost.wrap : Ghost V).right (n d) d Φ, e1, fun _ => rfl, r1⟩
      | free h _ => rw [h] at hp; cases hp
      | outflow h _ => rw [h] at hp; cases hp
      | reflective h _ => rw [h] at hp; cases hp
      | const h _ _ _ => rcases h with h | h <;> rw [h] at hp <;> cases hp
      | func _ _ h _ _ _ => rcases h with ⟨h, _⟩ | ⟨h, _⟩ <;> rw [h] at hp <;> cases hp
      | inactive h _ => exact absurd h hg
    · obtain ⟨A1, e1, r1⟩ := applySlab_spec bc negate n gw t d .l gl hl hp A Φ hA
      refine ⟨A1, Φ, e1, fun h => absurd h hp, r1.congr' ?_⟩
      intro i _
      simp only [OnSide, Ghost.beyond, ite_self]
  obtain ⟨A1, Θ, e1, hΘ, r1⟩ := h1
  rw [e1]
  by_cases hp : bc.kind d .r = .periodic
  · have : gr = .wrap ∧ bc.kind d .l = .periodic := by
      cases hr with
      | periodic _ hl _ _ => exact ⟨rfl, hl⟩
      | free h _ => rw [h] at hp; cases hp
      | outflow h _ => rw [h] at hp; cases hp
      | reflective h _ => rw [h] at hp; cases hp
      | const h _ _ _ => rcases h with h | h <;> rw [h] at hp <;> cases hp
      | func _ _ h _ _ _ => rcases h with ⟨h, _⟩ | ⟨h, _⟩ <;> rw [h] at hp <;> cases hp
      | inactive h _ => exact absurd h hg
    obtain ⟨hgr, hlp⟩ := this
    refine ⟨A1, applySlab_periodic_right bc negate gw t d hp A1, r1.congr' ?_⟩
    intro i _
    rw [hΘ hlp, hgr]
    rfl
  · obtain ⟨A2, e2, r2⟩ := applySlab_spec bc negate n gw t d .r gr hr hp A1 _ r1
    refine ⟨A2, e2, r2.congr' ?_⟩
    intro i hi
    unfold extAxis
    by_cases hc : (n d : ℤ) ≤ i d
    · have hneg : ¬ i d < 0 := by omega
      rw [if_pos (show OnSide (n d) d .r i from hc), if_neg hneg, if_pos hc]
      refine beyond_congr bc negate n gw t d .r gr hr _ Φ i (hi d) hc ?_
      intro a h0 h1
      simp only [Function.update_self]
      rw [if_neg (by omega), if_neg (by omega)]
    · rw [if_neg (show ¬ OnSide (n d) d .r i from hc), if_neg hc, if_neg hc]

/-- The padded array. -/
theorem rep_pad (u : Arr V) (n gw : Fin 3 → ℕ) (hu : u.shape = n) (junk : Ix → V) :
    Rep (padEmpty u gw junk) (padLo gw) (padHi n gw)
      (fun i => if u.InB i then u.get i else junk (i - padLo gw)) := by
  refine ⟨fun d => ?_, fun j _ => ?_⟩
  · simp only [padEmpty, padLo, padHi, hu]
    push_cast
    omega
  · simp only [padEmpty]
    have : (fun d => j d - (gw d : ℤ)) = j + padLo gw := by
      funext d
      simp [padLo, sub_eq_add_neg]
    rw [this]
    simp

/-- The continuation depends on the cells inside only. -/
theorem extAll_congr (bc : BC K V) (negate : Fin 3 → V → V) (n gw : Fin 3 → ℕ) (t : K)
    (gl gr : Fin 3 → Ghost V) (hl : ∀ d, SideSpec bc negate n gw t d .l (gl d))
    (hr : ∀ d, SideSpec bc negate n gw t d .r (gr d)) (Φ Ψ : Ix → V)
    (h : ∀ i : Ix, (∀ d, 0 ≤ i d ∧ i d < n d) → Φ i = Ψ i) (i : Ix)
    (hi : ∀ d, padLo gw d ≤ i d ∧ i d < padHi n gw d) :
    extAll n gl gr Φ i = extAll n gl gr Ψ i := by
  have step : ∀ (d : Fin 3) (Φ Ψ : Ix → V) (i : Ix), (padLo gw d ≤ i d ∧ i d < padHi n gw d) →
      (∀ a : ℤ, 0 ≤ a → a < n d → Φ (Function.update i d a) = Ψ (Function.update i d a)) →
      extAxis (n d) d (gl d) (gr d) Φ i = extAxis (n d) d (gl d) (gr d) Ψ i := by
    intro d Φ Ψ i hi h
    unfold extAxis
    split_ifs with h1 h2
    · exact beyond_congr bc negate n gw t d .l _ (hl d) Φ Ψ i hi h1 h
    · exact beyond_congr bc negate n gw t d .r _ (hr d) Φ Ψ i hi h2 h
    · have := h (i d) (by omega) (by omega)
      simpa using this
  unfold extAll
  refine step 2 _ _ i (hi 2) fun a ha ha' => ?_
  refine step 1 _ _ _ (by simpa using hi 1) fun b hb hb' => ?_
  refine step 0 _ _ _ (by simpa using hi 0) fun c hc hc' => ?_
  apply h
  intro d
  match d with
  | 0 => simp; omega
  | 1 => simp; omega
  | 2 => simp; omega

/-- **Refinement**: the padded array holds the continuation of the cell values, whatever the
uninitialised memory held. -/
theorem apply_spec (bc : BC K V) (negate : Fin 3 → V → V) (n gw : Fin 3 → ℕ) (t : K)
    (gl gr : Fin 3 → Ghost V) (hl : ∀ d, SideSpec bc negate n gw t d .l (gl d))
    (hr : ∀ d, SideSpec bc negate n gw t d .r (gr d)) (u : Ix → V) (junk : Ix → V) :
    ∃ A, bc.apply negate ⟨n, u⟩ gw t junk = .ok A ∧
      Rep A (padLo gw) (padHi n gw) (extAll n gl gr u) := by
  have r0 := rep_pad ⟨n, u⟩ n gw rfl junk
  obtain ⟨A1, e1, r1⟩ := applyAxis_spec bc negate n gw t 0 _ _ (hl 0) (hr 0) _ _ r0
  obtain ⟨A2, e2, r2⟩ := applyAxis_spec bc negate n gw t 1 _ _ (hl 1) (hr 1) _ _ r1
  obtain ⟨A3, e3, r3⟩ := applyAxis_spec bc negate n gw t 2 _ _ (hl 2) (hr 2) _ _ r2
  refine ⟨A3, ?_, r3.congr' ?_⟩
  · unfold BC.apply slabOrder
    simp only [List.foldlM_cons, List.foldlM_nil]
    cases h1 : applySlab bc negate gw t (padEmpty ⟨n, u⟩ gw junk) (0, .l) with
    | error e => rw [h1] at e1; cases e1
    | ok B1 =>
      rw [h1] at e1
      change applySlab bc negate gw t B1 (0, .r) = _ at e1
      change (applySlab bc negate gw t B1 (0, .r) >>= _) = _
      rw [e1]
      change (applySlab bc negate gw t A1 (1, .l) >>= _) = _
      cases h2 : applySlab bc negate gw t A1 (1, .l) with
      | error e => rw [h2] at e2; cases e2
      | ok B2 =>
        rw [h2] at e2
        change applySlab bc negate gw t B2 (1, .r) = _ at e2
        change (applySlab bc negate gw t B2 (1, .r) >>= _) = _
        rw [e2]
        change (applySlab bc negate gw t A2 (2, .l) >>= _) = _
        cases h3 : applySlab bc negate gw t A2 (2, .l) with
        | error e => rw [h3] at e3; cases e3
        | ok B3 =>
          rw [h3] at e3
          change applySlab bc negate gw t B3 (2, .r) = _ at e3
          change (applySlab bc negate gw t B3 (2, .r) >>= _) = _
          rw [e3]
          rfl
  · intro i hi
    refine extAll_congr bc negate n gw t gl gr hl hr _ u ?_ i hi
    intro i hi
    exact if_pos hi

theorem setCut_shape {A B src : Arr V} {d : Fin 3} {a b : ℤ} (h : A.setCut d a b src = .ok B) :
    B.shape = A.shape ∧ broadcastsTo src.shape (Function.update A.shape d
      (sliceStop (A.shape d) (orNone b) - sliceStart (A.shape d) (orNone a))) := by
  unfold Arr.setCut Arr.setSlice at h
  simp only at h
  split_ifs at h with hb
  injection h with h
  subst h
  exact ⟨rfl, hb⟩

theorem bind_ok {α β : Type} {x : Except PyErr α} {f : α → Except PyErr β} {b : β}
    (h : x >>= f = .ok b) : ∃ a, x = .ok a ∧ f a = .ok b := by
  cases x with
  | error e => cases h
  | ok a => exact ⟨a, rfl, h⟩

/-- The sides whose ghost cells the code can fill without reading uninitialised memory. -/
def Fillable (bc : BC K V) (n gw : Fin 3 → ℕ) : Prop :=
  ∀ d, gw d ≠ 0 → 1 ≤ n d ∧
    (∀ s, bc.kind d s ≠ .none ∧
      (bc.kind d s = .periodic ∨ bc.kind d s = .outflow ∨ bc.kind d s = .reflective → gw d ≤ n d)) ∧
    (bc.kind d .r = .periodic → bc.kind d .l = .periodic)

/-- If a side is handled without an exception, it has a specification. -/
theorem sideSpec_of_ok (bc : BC K V) (negate : Fin 3 → V → V) (n gw : Fin 3 → ℕ) (t : K) (d : Fin 3)
    (s : Side) (hF : Fillable bc n gw) (A B : Arr V) (hA : ∀ d, A.shape d = n d + 2 * gw d)
    (h : applySlab bc negate gw t A (d, s) = .ok B) :
    (∃ G, SideSpec bc negate n gw t d s G) ∧ ∀ d, B.shape d = n d + 2 * gw d := by
  by_cases hg : gw d = 0
  · unfold applySlab at h
    simp only [hg, if_true] at h
    injection h with h
    exact ⟨⟨.clamp, .inactive hg _⟩, h ▸ hA⟩
  obtain ⟨hn, hk, hp⟩ := hF d hg
  unfold applySlab at h
  simp only [hg, if_false] at h
  -- dirichlet-like sides
  have hdir : ∀ τ : Option K, ((bc.kind d s = .dirichlet ∧ τ = some t) ∨ (bc.kind d s = .ic ∧ τ = none)) →
      (trimSlabs bc.slabs gw d s >>= fun c => setDirichlet A (bc.value d s) (gw d) d s c τ) = .ok B →
      (∃ G, SideSpec bc negate n gw t d s G) ∧ ∀ d, B.shape d = n d + 2 * gw d := by
    intro τ hτ h
    obtain ⟨c, hc, h⟩ := bind_ok h
    unfold setDirichlet at h
    cases hv : bc.value d s with
    | other => rw [hv] at h; cases h
    | const v =>
      rw [hv] at h
      refine ⟨⟨_, .const (hτ.imp And.left And.left) v hv ⟨c, hc⟩⟩, ?_⟩
      rw [(setCut_shape h).1]
      exact hA
    | func g =>
      rw [hv] at h
      obtain ⟨vals, hvals, h⟩ := bind_ok h
      obtain ⟨h1, h2⟩ := setCut_shape h
      refine ⟨⟨.fixed fun i => vals.get (vals.bix (i - slabLo (padLo gw) (padHi n gw) (gw d) d s)),
        .func g τ hτ hv _ ⟨c, vals, hc, hvals, ?_, fun _ _ => rfl⟩⟩, h1 ▸ hA⟩
      intro d'
      have := h2 d'
      have hAd := hA d
      have e1 := outer_start (A.shape d) (gw d) (by omega) (by omega) s
      have e2 := outer_stop (A.shape d) (gw d) (by omega) (by omega) s
      by_cases hd : d' = d
      · subst hd
        simp only [Function.update_self] at this
        cases s <;> simp only [slabLo, slabHi, Function.update_self, padLo, padHi] at * <;> omega
      · simp only [Function.update_of_ne hd] at this
        have hAd' := hA d'
        cases s <;> simp only [slabLo, slabHi, Function.update_of_ne hd, padLo, padHi] at * <;> omega
  have hsy : ∀ σ, setSymmetric A (gw d) d s σ = .ok B → ∀ d, B.shape d = n d + 2 * gw d := by
    intro σ h
    obtain ⟨u1, h1, h2⟩ := bind_ok h
    rw [(setCut_shape h2).1, (setCut_shape h1).1]
    exact hA
  cases hkind : bc.kind d s with
  | dirichlet => exact hdir (some t) (Or.inl ⟨hkind, rfl⟩) (by rw [hkind] at h; exact h)
  | ic => exact hdir none (Or.inr ⟨hkind, rfl⟩) (by rw [hkind] at h; exact h)
  | free =>
    rw [hkind] at h
    refine ⟨⟨_, .free hkind hn⟩, ?_⟩
    rw [(setCut_shape h).1]
    exact hA
  | outflow =>
    rw [hkind] at h
    exact ⟨⟨_, .outflow hkind ((hk s).2 (by simp [hkind]))⟩, hsy _ h⟩
  | reflective =>
    rw [hkind] at h
    exact ⟨⟨_, .reflective hkind ((hk s).2 (by simp [hkind]))⟩, hsy _ h⟩
  | periodic =>
    rw [hkind] at h
    have hl : bc.kind d .l = .periodic := by
      cases s
      · exact hkind
      · exact hp hkind
    refine ⟨⟨_, .periodic hkind hl ((hk s).2 (by simp [hkind])) hn⟩, ?_⟩
    simp only at h
    split_ifs at h
    · obtain ⟨u1, h1, h2⟩ := bind_ok h
      rw [(setCut_shape h2).1, (setCut_shape h1).1]
      exact hA
    · injection h with h
      exact h ▸ hA
  | doubleMach =>
    rw [hkind] at h
    obtain ⟨c, hc, h⟩ := bind_ok h
    cases h
  | none => exact absurd hkind (hk s).1
  | unknown => rw [hkind] at h; cases h

/-- If the boundary conditions are applied without an exception, all sides have specifications. -/
theorem spec_of_ok (bc : BC K V) (negate : Fin 3 → V → V) (n gw : Fin 3 → ℕ) (t : K)
    (hF : Fillable bc n gw) (u : Ix → V) (junk : Ix → V) (A : Arr V)
    (h : bc.apply negate ⟨n, u⟩ gw t junk = .ok A) :
    ∃ gl gr : Fin 3 → Ghost V, (∀ d, SideSpec bc negate n gw t d .l (gl d)) ∧
      (∀ d, SideSpec bc negate n gw t d .r (gr d)) := by
  unfold BC.apply slabOrder at h
  simp only [List.foldlM_cons, List.foldlM_nil] at h
  have h0 : ∀ d, (padEmpty (⟨n, u⟩ : Arr V) gw junk).shape d = n d + 2 * gw d := fun d => rfl
  obtain ⟨A1, a1, h⟩ := bind_ok h
  obtain ⟨⟨G1, g1⟩, s1⟩ := sideSpec_of_ok bc negate n gw t 0 .l hF _ _ h0 a1
  obtain ⟨A2, a2, h⟩ := bind_ok h
  obtain ⟨⟨G2, g2⟩, s2⟩ := sideSpec_of_ok bc negate n gw t 0 .r hF _ _ s1 a2
  obtain ⟨A3, a3, h⟩ := bind_ok h
  obtain ⟨⟨G3, g3⟩, s3⟩ := sideSpec_of_ok bc negate n gw t 1 .l hF _ _ s2 a3
  obtain ⟨A4, a4, h⟩ := bind_ok h
  obtain ⟨⟨G4, g4⟩, s4⟩ := sideSpec_of_ok bc negate n gw t 1 .r hF _ _ s3 a4
  obtain ⟨A5, a5, h⟩ := bind_ok h
  obtain ⟨⟨G5, g5⟩, s5⟩ := sideSpec_of_ok bc negate n gw t 2 .l hF _ _ s4 a5
  obtain ⟨A6, a6, h⟩ := bind_ok h
  obtain ⟨⟨G6, g6⟩, s6⟩ := sideSpec_of_ok bc negate n gw t 2 .r hF _ _ s5 a6
  refine ⟨![G1, G3, G5], ![G2, G4, G6], ?_, ?_⟩
  · intro d
    match d with
    | 0 => exact g1
    | 1 => exact g3
    | 2 => exact g5
  · intro d
    match d with
    | 0 => exact g2
    | 1 => exact g4
    | 2 => exact g6

end FVHOE
