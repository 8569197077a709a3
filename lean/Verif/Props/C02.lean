import Verif.Proofs.LowOrder
import Verif.Props.C01_C03
import Verif.Props.C38

/-!
C02: totals on a periodic domain with limiting.
-/

set_option linter.unusedSectionVars false

namespace FVHOE

variable {K : Type} [Field K] [LinearOrder K] [IsStrictOrderedRing K] {np : ℕ}

/-- All active directions periodic, and no fewer cells than the ghost layers of the scheme, of the fallback
scheme and of the detector. -/
structure PeriodicLimited (c : EulerConfig K np) : Prop where
  cells : ∀ d, 1 ≤ c.n d
  degree : ∀ d, c.p d ≤ 8
  periodic : ∀ d s, c.scheme.active d = true → c.bc.kind d s = .periodic
  wide : ∀ d, c.scheme.active d = true → fluxWidth c.scheme c.p d ≤ c.n d ∧
    fluxWidth c.scheme (fallbackP c.p) d ≤ c.n d ∧ detectWidth c.scheme d ≤ c.n d

theorem PeriodicLimited.sides {c : EulerConfig K np} (h : PeriodicLimited c) (w : Fin 3 → ℕ) (t : K)
    (hw : ∀ d, c.scheme.active d = true → w d ≤ c.n d) (h0 : ∀ d, c.scheme.active d = false → w d = 0) :
    Sides c.scheme w t (fun _ => .wrap) (fun _ => .wrap) := by
  have key : ∀ d s, SideSpec c.scheme.bc c.scheme.negate c.scheme.n w t d s .wrap := by
    intro d s
    by_cases ha : c.scheme.active d = true
    · exact .periodic (h.periodic d s ha) (h.periodic d .l ha) (hw d ha) (h.cells d)
    · exact .inactive (h0 d (by simpa using ha)) _
  exact fun d => ⟨key d .l, key d .r⟩

theorem PeriodicLimited.all {c : EulerConfig K np} (h : PeriodicLimited c) (t : K) :
    Sides c.scheme (fluxWidth c.scheme c.p) t (fun _ => .wrap) (fun _ => .wrap) ∧
    Sides c.scheme (fluxWidth c.scheme (fallbackP c.p)) t (fun _ => .wrap) (fun _ => .wrap) ∧
    Sides c.scheme (detectWidth c.scheme) t (fun _ => .wrap) (fun _ => .wrap) := by
  have z : ∀ d, c.scheme.active d = false → c.p d = 0 := fun d hd => c.scheme.inactive_p d hd
  refine ⟨h.sides _ t (fun d hd => (h.wide d hd).1) ?_, h.sides _ t (fun d hd => (h.wide d hd).2.1) ?_,
    h.sides _ t (fun d hd => (h.wide d hd).2.2) ?_⟩
  · intro d hd
    unfold fluxWidth
    rw [hd, z d hd]
    rfl
  · intro d hd
    unfold fluxWidth fallbackP
    rw [hd, z d hd]
    rfl
  · intro d hd
    unfold detectWidth
    rw [hd, show c.scheme.p d = 0 from z d hd]
    rfl

/-- The fluxes of the scheme and of the fallback scheme on a periodic domain. -/
abbrev perHigh (c : EulerConfig K np) (u : Ix → State K np) : Fin 3 → Ix → State K np :=
  highFlux c (fun _ => .wrap) (fun _ => .wrap) u

/-- The fluxes of the fallback scheme on a periodic domain. -/
abbrev perFallback (c : EulerConfig K np) (o : LimiterOpts K) (u : Ix → State K np) :
    Fin 3 → Ix → State K np := fallbackFlux c o (fun _ => .wrap) (fun _ => .wrap) u

/-- The detector, looking at the periodic state and at the state after an unlimited Euler step of size `dt`,
reports cell `i`; or all cells are taken as reported. -/
def Flagged (c : EulerConfig K np) (o : LimiterOpts K) (u : Ix → State K np) (dt : K) (i : Ix) : Prop :=
  InCells c.n i ∧ (o.force = true ∨
    Reported o.toDetectOpts c.dims c.n (seenPrim c (fun _ => .wrap) (fun _ => .wrap) u)
      (seenPrim c (fun _ => .wrap) (fun _ => .wrap) fun i =>
        u i + dt • latDiv c.scheme.active c.h (perHigh c u) i) i)

theorem high_periodic (c : EulerConfig K np) (hn : ∀ d, 1 ≤ c.n d) (u : Ix → State K np) (d : Fin 3) (i : Ix) :
    perHigh c u d (i + Pi.single d (c.n d : ℤ)) = perHigh c u d i := by
  unfold perHigh highFlux
  rw [extAll_wrap c.n hn]
  exact periodic_flux c.scheme c.p none u d i

theorem fallback_periodic (c : EulerConfig K np) (o : LimiterOpts K) (hn : ∀ d, 1 ≤ c.n d)
    (u : Ix → State K np) (d : Fin 3) (i : Ix) :
    perFallback c o u d (i + Pi.single d (c.n d : ℤ)) = perFallback c o u d i := by
  unfold perFallback fallbackFlux
  rw [extAll_wrap c.n hn]
  exact periodic_flux c.scheme (fallbackP c.p) _ u d i

theorem seam_total (c : EulerConfig K np) (Fh Fl : Fin 3 → Ix → State K np)
    (hh : ∀ d i, Fh d (i + Pi.single d (c.n d : ℤ)) = Fh d i)
    (hl : ∀ d i, Fl d (i + Pi.single d (c.n d : ℤ)) = Fl d i) (θ : Fin 3 → Ix → K)
    (hθ : ∀ d, c.scheme.active d = true → ∀ i, InFaces c.n d i → i d = 0 →
      θ d (i + Pi.single d (c.n d : ℤ)) = θ d i) :
    cellSum c.n (latDiv c.scheme.active c.h (blendFlux θ Fh Fl)) = 0 := by
  refine (latDiv_sum c.scheme _).trans (Finset.sum_eq_zero fun d _ => ?_)
  split_ifs with hd
  · have : layerSum c.scheme.n d (c.scheme.n d) (blendFlux θ Fh Fl d) =
        layerSum c.scheme.n d 0 (blendFlux θ Fh Fl d) := by
      unfold layerSum
      refine cellSum_congr _ _ _ fun i hi => ?_
      have e : (Function.update i d (c.n d : ℤ) : Ix) = Function.update i d 0 + Pi.single d (c.n d : ℤ) := by
        funext e
        by_cases he : e = d
        · subst he; simp
        · simp [he]
      have hf : InFaces c.n d (Function.update i d 0) := by
        intro e
        have := hi e
        by_cases he : e = d
        · subst he
          simp only [Function.update_self, Pi.single_eq_same]
          omega
        · rw [Function.update_of_ne he] at this
          rw [Function.update_of_ne he, Pi.single_eq_of_ne he, add_zero]
          exact this
      show blendFlux θ Fh Fl d (Function.update i d (c.n d : ℤ)) = _
      rw [e]
      unfold blendFlux
      rw [hh, hl, hθ d hd _ hf (Function.update_self ..)]
    rw [this, sub_self, smul_zero]
  · rfl

theorem flagged_used {c : EulerConfig K np} {o : LimiterOpts K} {u : Ix → State K np} {dt : K} {tr : Arr Bool}
    (h2 : tr.shape = c.n)
    (h3 : ∀ i, InCells c.n i → (tr.get i = true ↔ Reported o.toDetectOpts c.dims c.n
      (seenPrim c (fun _ => .wrap) (fun _ => .wrap) u) (seenPrim c (fun _ => .wrap) (fun _ => .wrap) fun i =>
        u i + dt • latDiv c.scheme.active c.h (perHigh c u) i) i)) (i : Ix) :
    Troubled (used o tr) i ↔ Flagged c o u dt i := by
  unfold Troubled Flagged
  rw [used_shape, h2]
  refine and_congr_right fun hi => ?_
  unfold used
  by_cases hf : o.force = true
  · simp [hf, Arr.map]
  · rw [if_neg hf]
    exact (h3 i hi).trans ⟨Or.inr, fun h => h.resolve_left hf⟩

theorem face_shift {n : Fin 3 → ℕ} {d : Fin 3} {i : Ix} (hi : InFaces n d i) (h0 : i d = 0) :
    InFaces n d (i + Pi.single d (n d : ℤ)) := by
  intro e
  have := hi e
  rw [Pi.add_apply]
  by_cases he : e = d
  · subst he
    rw [Pi.single_eq_same] at this ⊢
    rw [Pi.single_eq_same]
    omega
  · rw [Pi.single_eq_of_ne he] at this ⊢
    rw [Pi.single_eq_of_ne he]
    omega

/-- Evaluation on a periodic domain: the flags are `Flagged`, and the derivative is a divergence of blended
fluxes with the weights of these flags. -/
theorem periodic_limited_rhs (c : EulerConfig K np) (o : LimiterOpts K) (hk : o.toDetectOpts.Known)
    (hd : c.dims ≠ []) (hc : PeriodicLimited c)
    (junk : ℕ → Ix → State K np) (mem : Fin 3 → Ix → State K np) (t t' : K) (u : Ix → State K np)
    (dt : K) (k : Ix → State K np)
    (h : solverRHS (c.limited (some o)).scheme junk mem t t' u = .ok (dt, k)) :
    cellSum c.n k = 0 ∨ ∃ tr theta, tr.shape = c.n ∧ (∀ i, Troubled tr i ↔ Flagged c o u dt i) ∧
      broadcastTrouble K o.convex c.isPeriodic c.dims tr = .ok theta ∧
      k = fun i => if InCells c.n i then latDiv c.scheme.active c.h
        (blendFlux (fun d i => (theta d).get i) (perHigh c u) (perFallback c o u)) i else 0 := by
  obtain ⟨hs, hs', hsd⟩ := hc.all t
  obtain ⟨dt', tr, h1, h2, h3, h4⟩ := limited_rhs c o hk hd hc.degree hc.cells t _ _ _ _ _ _ hs hs' hsd junk mem t' u
  rw [h4] at h
  obtain ⟨rfl, hcase⟩ := limitedResult_inv c o _ _ dt' dt tr h2 k h
  rcases hcase with ⟨_, rfl⟩ | ⟨_, theta, hb, rfl⟩
  · left
    have := seam_total c (perHigh c u) (perFallback c o u) (high_periodic c hc.cells u)
      (fallback_periodic c o hc.cells u) (fun _ _ => 0) (fun _ _ _ _ _ => rfl)
    rw [← this]
    refine cellSum_congr _ _ _ fun i hi => (if_pos hi).trans ?_
    refine congrArg (fun F => latDiv c.scheme.active c.h F i) ?_
    funext d j
    simp [blendFlux, highFlux]
  · right
    exact ⟨used o tr, theta, by rw [used_shape, h2], flagged_used h2 h3, hb, rfl⟩

/-- **C02, simple spreading, partial** With simple spreading the totals are conserved if on every line
through the domain the first cell is flagged exactly when the last one is. Missing: other patterns, for
which the claim is false (`C02_violated`). -/
theorem C02_simple_partial (c : EulerConfig K np) (o : LimiterOpts K) (hk : o.toDetectOpts.Known)
    (hd : c.dims ≠ []) (hc : PeriodicLimited c) (ho : o.convex = false)
    (junk : ℕ → Ix → State K np) (mem : Fin 3 → Ix → State K np) (t t' : K) (u : Ix → State K np)
    (dt : K) (k : Ix → State K np)
    (h : solverRHS (c.limited (some o)).scheme junk mem t t' u = .ok (dt, k))
    (hT : ∀ d, c.scheme.active d = true → ∀ i, InCells c.n i → i d = 0 →
      (Flagged c o u dt i ↔ Flagged c o u dt (i + Pi.single d ((c.n d : ℤ) - 1)))) :
    cellSum c.n k = 0 := by
  rcases periodic_limited_rhs c o hk hd hc junk mem t t' u dt k h with h0 | ⟨tr, theta, h2, h3, hb, rfl⟩
  · exact h0
  rw [cellSum_congr _ _ _ fun i hi => if_pos hi]
  refine seam_total c _ _ (high_periodic c hc.cells u) (fallback_periodic c o hc.cells u) _ ?_
  intro d hda i hi h0
  rw [ho] at hb
  obtain ⟨theta', hb', hθ⟩ := C35_simple (K := K) c.isPeriodic c.dims tr
  rw [hb] at hb'
  cases hb'
  rw [h2] at hθ
  have hi' := face_shift hi h0
  have hin : InCells c.n i := by
    intro e
    have := hi e
    by_cases he : e = d
    · subst he
      have := hc.cells e
      omega
    · rw [Pi.single_eq_of_ne he, add_zero] at this
      exact this
  have e1 : i + Pi.single d (c.n d : ℤ) - Pi.single d 1 = i + Pi.single d ((c.n d : ℤ) - 1) := by
    rw [add_sub_assoc, ← Pi.single_sub]
  have hout1 : ¬ Troubled tr (i - Pi.single d 1) := by
    intro hx
    have := (hx.1 d).1
    rw [Pi.sub_apply, Pi.single_eq_same, h0] at this
    omega
  have hout2 : ¬ Troubled tr (i + Pi.single d (c.n d : ℤ)) := by
    intro hx
    have := (hx.1 d).2
    rw [Pi.add_apply, Pi.single_eq_same, h0, h2] at this
    omega
  have hdm := (mem_dims c d).2 hda
  by_cases hf : Flagged c o u dt i
  · rw [((hθ d).2 i hi).1 ⟨hdm, Or.inr ((h3 i).2 hf)⟩,
      ((hθ d).2 _ hi').1 ⟨hdm, Or.inl (by rw [e1]; exact (h3 _).2 ((hT d hda i hin h0).1 hf))⟩]
  · rw [((hθ d).2 i hi).2 (by rintro ⟨_, hx | hx⟩; exacts [hout1 hx, hf ((h3 i).1 hx)]),
      ((hθ d).2 _ hi').2 (by
        rintro ⟨_, hx | hx⟩
        · rw [e1] at hx
          exact hf ((hT d hda i hin h0).2 ((h3 _).1 hx))
        · exact hout2 hx)]

theorem level_none {p q s r : Prop} (hp : ¬ p) (hq : ¬ q) (hs : ¬ s) (hr : ¬ r) : level K p q s r = 0 := by
  unfold level
  rw [if_neg hp, if_neg hq, if_neg hs, if_neg hr]

/-- Far from the flags the weights vanish. -/
theorem theta_far {convex : Bool} {periodic : Fin 3 → Bool} {dims : List (Fin 3)} {tr : Arr Bool}
    {theta : Fin 3 → Arr K} (hs : dims.Pairwise (· < ·)) (h1 : ∀ e, e ∉ dims → tr.shape e = 1)
    (h : broadcastTrouble K convex periodic dims tr = .ok theta) (d : Fin 3) (i : Ix)
    (hi : InFaces tr.shape d i) (hfar : ∀ x, Troubled tr x → 3 ≤ |x d - i d| ∧ x d ≠ i d - 3) :
    (theta d).get i = 0 := by
  have hno : ∀ x : Ix, -3 ≤ x d - i d → x d - i d ≤ 2 → ¬ Troubled tr x := by
    intro x h2 h3 hx
    obtain ⟨h4, h5⟩ := hfar x hx
    rcases le_abs.1 h4 with h6 | h6 <;> omega
  cases convex with
  | false =>
    obtain ⟨theta', hb, hθ⟩ := C35_simple (K := K) periodic dims tr
    rw [h] at hb
    cases hb
    refine ((hθ d).2 i hi).2 ?_
    rintro ⟨_, hx | hx⟩
    · exact hno _ (by simp) (by simp) hx
    · exact hno _ (by simp) (by simp) hx
  | true =>
    match dims, hs with
    | [], _ =>
      unfold broadcastTrouble at h
      simp only [if_true] at h
      obtain ⟨A, _, h⟩ := bind_ok h
      obtain ⟨B, _, h⟩ := bind_ok h
      cases h
    | [a], _ =>
      obtain ⟨_, h3, h4⟩ := convex_line tr a (fun e he => h1 e (by simpa using he)) periodic theta h
      by_cases hda : d = a
      · subst hda
        rw [h3 i hi]
        have key : ∀ j : Ix, j d = i d ∨ j d = i d - 1 → lineLevel K (Troubled tr) d j = 0 := by
          intro j hj
          have hk : ∀ k : ℤ, -2 ≤ k → k ≤ 2 → ¬ Troubled tr (j + off d k) := by
            intro k h5 h6
            refine hno _ ?_ ?_ <;> simp only [Pi.add_apply, off_apply, if_true]
            · omega
            · omega
          refine level_none ?_ ?_ not_false ?_
          · have := hk 0 (by omega) (by omega)
            rwa [off_zero] at this
          · rintro (hx | hx)
            · exact hk 1 (by omega) (by omega) hx
            · exact hk (-1) (by omega) (by omega) hx
          · rintro ⟨k, h5, h6, hx⟩
            exact hk k h5 h6 hx
        rw [key i (Or.inl rfl), key _ (Or.inr (by simp [off_apply])), max_self]
      · exact h4 d hda i
    | [a, b], hs =>
      obtain ⟨_, h3, h4⟩ := convex_plane tr a b (by simpa using hs) (fun e h2 h3 => h1 e (by simp [h2, h3]))
        periodic theta h
      by_cases hda : d = a ∨ d = b
      · rw [h3 d hda i hi]
        have hab : a ≠ b := by
          have : a < b := by simpa using hs
          exact this.ne
        have key : ∀ j : Ix, j d = i d ∨ j d = i d - 1 → planeLevel K (Troubled tr) a b j = 0 := by
          intro j hj
          have hk : ∀ k l : ℤ, -2 ≤ k → k ≤ 2 → -2 ≤ l → l ≤ 2 → ¬ Troubled tr (j + off a k + off b l) := by
            intro k l h5 h6 h7 h8
            rcases hda with rfl | rfl
            · refine hno _ ?_ ?_ <;> simp only [Pi.add_apply, off_apply, if_true, if_neg hab] <;> omega
            · refine hno _ ?_ ?_ <;> simp only [Pi.add_apply, off_apply, if_true, if_neg hab.symm] <;> omega
          have ha : ∀ k : ℤ, -2 ≤ k → k ≤ 2 → ¬ Troubled tr (j + off a k) := by
            intro k h5 h6
            have := hk k 0 h5 h6 (by omega) (by omega)
            rwa [off_zero] at this
          have hb : ∀ l : ℤ, -2 ≤ l → l ≤ 2 → ¬ Troubled tr (j + off b l) := by
            intro l h5 h6
            have := hk 0 l (by omega) (by omega) h5 h6
            rwa [off_zero] at this
          refine level_none ?_ ?_ ?_ ?_
          · have := ha 0 (by omega) (by omega)
            rwa [off_zero] at this
          · rintro (hx | hx | hx | hx)
            · exact ha 1 (by omega) (by omega) hx
            · exact ha (-1) (by omega) (by omega) hx
            · exact hb 1 (by omega) (by omega) hx
            · exact hb (-1) (by omega) (by omega) hx
          · rintro (hx | hx | hx | hx)
            · exact hk 1 1 (by omega) (by omega) (by omega) (by omega) hx
            · exact hk 1 (-1) (by omega) (by omega) (by omega) (by omega) hx
            · exact hk (-1) 1 (by omega) (by omega) (by omega) (by omega) hx
            · exact hk (-1) (-1) (by omega) (by omega) (by omega) (by omega) hx
          · rintro ⟨k, h5, h6, l, h7, h8, hx⟩
            exact hk k l h5 h6 h7 h8 hx
        rw [key i (Or.inl rfl), key _ (Or.inr (by simp [off_apply])), max_self]
      · push Not at hda
        exact h4 d hda.1 hda.2 i
    | _ :: _ :: _ :: [], _ =>
      unfold broadcastTrouble at h
      simp only [if_true] at h
      obtain ⟨A, _, h⟩ := bind_ok h
      obtain ⟨B, _, h⟩ := bind_ok h
      cases h
    | _ :: _ :: _ :: _ :: _, _ =>
      unfold broadcastTrouble at h
      simp only [if_true] at h
      obtain ⟨A, _, h⟩ := bind_ok h
      obtain ⟨B, _, h⟩ := bind_ok h
      cases h

/-- **C02, partial** With either way of spreading the totals are conserved if no flagged cell is among the
first three or last three cells of an active direction. Missing: flags near the seam, for which the claim
is false (`C02_violated`). -/
theorem C02_partial (c : EulerConfig K np) (o : LimiterOpts K) (hk : o.toDetectOpts.Known)
    (hd : c.dims ≠ []) (hc : PeriodicLimited c)
    (junk : ℕ → Ix → State K np) (mem : Fin 3 → Ix → State K np) (t t' : K) (u : Ix → State K np)
    (dt : K) (k : Ix → State K np)
    (h : solverRHS (c.limited (some o)).scheme junk mem t t' u = .ok (dt, k))
    (hT : ∀ i, Flagged c o u dt i → ∀ d, c.scheme.active d = true → 3 ≤ i d ∧ i d + 3 < c.n d) :
    cellSum c.n k = 0 := by
  rcases periodic_limited_rhs c o hk hd hc junk mem t t' u dt k h with h0 | ⟨tr, theta, h2, h3, hb, rfl⟩
  · exact h0
  rw [cellSum_congr _ _ _ fun i hi => if_pos hi]
  refine seam_total c _ _ (high_periodic c hc.cells u) (fallback_periodic c o hc.cells u) _ ?_
  intro d hda i hi h0
  have h1 : ∀ e, e ∉ c.dims → tr.shape e = 1 := fun e he => by rw [h2]; exact dims_cells c e he
  have hi' := face_shift hi h0
  rw [theta_far (dims_sorted c) h1 hb d i (by rw [h2]; exact hi), theta_far (dims_sorted c) h1 hb d _ (by
    rw [h2]; exact hi')]
  · intro x hx
    have := hT x ((h3 x).1 hx) d hda
    rw [Pi.add_apply, Pi.single_eq_same, h0]
    constructor
    · rw [le_abs]; right; omega
    · omega
  · intro x hx
    have := hT x ((h3 x).1 hx) d hda
    rw [h0]
    constructor
    · rw [le_abs]; left; omega
    · omega

/-- **C02, the defect** In one dimension with at least four cells, if exactly the first cell is flagged, then
with either way of spreading the rate of change of the totals is the difference of the two fluxes at the
seam. -/
theorem C02_defect (c : EulerConfig K np) (o : LimiterOpts K) (hk : o.toDetectOpts.Known) (a : Fin 3)
    (hd : c.dims = [a]) (hc : PeriodicLimited c) (h4 : 4 ≤ c.n a)
    (junk : ℕ → Ix → State K np) (mem : Fin 3 → Ix → State K np) (t t' : K) (u : Ix → State K np)
    (hT : ∀ dt, IsDt c.scheme c.p (latPrim K c.scheme.prim c.p
        (extAll c.n (fun _ => .wrap) (fun _ => .wrap) u)) dt → ∀ i, Flagged c o u dt i ↔ i = 0) :
    ∃ dt k, solverRHS (c.limited (some o)).scheme junk mem t t' u = .ok (dt, k) ∧
      cellSum c.n k = (1 / c.h a) • (perFallback c o u a 0 - perHigh c u a 0) := by
  obtain ⟨hs, hs', hsd⟩ := hc.all t
  obtain ⟨dt, tr, h1, h2, h3, h5⟩ := limited_rhs c o hk (by rw [hd]; simp) hc.degree hc.cells t _ _ _ _ _ _ hs hs'
    hsd junk mem t' u
  have hT : ∀ i, Troubled (used o tr) i ↔ i = 0 := fun i => (flagged_used h2 h3 i).trans (hT dt h1 i)
  have h2' : (used o tr).shape = c.n := by rw [used_shape, h2]
  have hn1 : ∀ e, e ≠ a → (used o tr).shape e = 1 := fun e he => by
    rw [h2']
    exact dims_cells c e (by rw [hd]; simpa using he)
  have hb : ∃ theta, broadcastTrouble K o.convex c.isPeriodic c.dims (used o tr) = .ok theta ∧
      (theta a).get 0 = 1 ∧ (theta a).get (Pi.single a (c.n a : ℤ)) = 0 := by
    have f0 : InFaces c.n a 0 := by
      intro e
      have := hc.cells e
      by_cases he : e = a
      · subst he
        simp
      · simp [Pi.single_eq_of_ne he]
        try omega
    have fn : InFaces c.n a (Pi.single a (c.n a : ℤ)) := by
      have := face_shift f0 rfl
      rwa [zero_add] at this
    have hret : ∃ theta, broadcastTrouble K o.convex c.isPeriodic c.dims (used o tr) = .ok theta := by
      cases hcv : o.convex with
      | false =>
        obtain ⟨theta, hb, _⟩ := C35_simple (K := K) c.isPeriodic c.dims (used o tr)
        exact ⟨theta, hb⟩
      | true =>
        rw [hd]
        obtain ⟨theta, w, hb, _⟩ := C36_line (K := K) (used o tr) a hn1 (by rw [h2']; exact hc.cells a) c.isPeriodic
        exact ⟨theta, hb⟩
    obtain ⟨theta, hb⟩ := hret
    refine ⟨theta, hb, ?_, ?_⟩
    · cases hcv : o.convex with
      | false =>
        rw [hcv] at hb
        obtain ⟨theta', hb', hθ⟩ := C35_simple (K := K) c.isPeriodic c.dims (used o tr)
        rw [hb] at hb'
        cases hb'
        exact ((hθ a).2 0 (by rw [h2']; exact f0)).1 ⟨by rw [hd]; simp, Or.inr ((hT 0).2 rfl)⟩
      | true =>
        rw [hcv, hd] at hb
        obtain ⟨theta', w, hb', hw, _, hv, _⟩ := C36_line (K := K) (used o tr) a hn1
          (by rw [h2']; exact hc.cells a) c.isPeriodic
        rw [hb] at hb'
        cases hb'
        rw [hv 0 (by rw [h2']; exact f0), hw.hit 0 ((hT 0).2 rfl)]
        refine max_eq_right ?_
        have := (convex_line (K := K) (used o tr) a hn1 c.isPeriodic theta hb)
        by_cases hx : Troubled (used o tr) (0 - Pi.single a 1)
        · rw [hw.hit _ hx]
        · by_cases hy : ∃ c', Troubled (used o tr) c' ∧ Along a 1 (0 - Pi.single a 1) c'
          · rw [hw.next _ hx hy]; norm_num
          · by_cases hz : ∃ c', Troubled (used o tr) c' ∧ Along a 2 (0 - Pi.single a 1) c'
            · rw [hw.second _ hx hy hz]; norm_num
            · rw [hw.far]
              · norm_num
              · rintro ⟨m, hm, c', hc', hal⟩
                have hm' : m = 0 ∨ m = 1 ∨ m = 2 := by omega
                rcases hm' with rfl | rfl | rfl
                · rcases hal with rfl | rfl <;> exact hx (by simpa using hc')
                · exact hy ⟨c', hc', hal⟩
                · exact hz ⟨c', hc', hal⟩
    · refine theta_far (dims_sorted c) (fun e he => by rw [h2']; exact dims_cells c e he) hb a _
        (by rw [h2']; exact fn) ?_
      intro x hx
      rw [(hT x).1 hx, Pi.single_eq_same, Pi.zero_apply]
      constructor
      · rw [le_abs]; right; omega
      · omega
  obtain ⟨theta, hb, hz, hl⟩ := hb
  have hany : anyTrue (used o tr) = true := by
    rw [anyTrue_iff, h2']
    have := (hT 0).2 rfl
    exact ⟨0, by rw [← h2']; exact this.1, this.2⟩
  refine ⟨dt, _, h5.trans (limitedResult_ok c o _ _ dt tr h2 hany theta hb), ?_⟩
  rw [cellSum_congr _ _ _ fun i hi => if_pos hi]
  refine (latDiv_sum c.scheme _).trans ?_
  have hact : ∀ d, c.scheme.active d = true ↔ d = a := fun d => by
    rw [← mem_dims, hd, List.mem_singleton]
  rw [Finset.sum_eq_single a (fun d _ hda => if_neg (fun hx => hda ((hact d).1 hx)))
    (fun hx => absurd (Finset.mem_univ a) hx), if_pos ((hact a).2 rfl)]
  have hone : Function.update c.n a 1 = fun _ => 1 := by
    funext e
    by_cases he : e = a
    · subst he; simp
    · rw [Function.update_of_ne he, ← h2', hn1 e he]
  have layer : ∀ (x : ℤ) (F : Ix → State K np), layerSum c.n a x F = F (Pi.single a x) := by
    intro x F
    unfold layerSum cellSum
    rw [hone]
    simp only [Finset.sum_range_one]
    refine congrArg F ?_
    funext e
    by_cases he : e = a
    · subst he; simp
    · rw [Function.update_of_ne he, Pi.single_eq_of_ne he]
      match e with
      | 0 | 1 | 2 => rfl
  show (-(1 / c.h a)) • (layerSum c.n a (c.n a) _ - layerSum c.n a 0 _) = _
  rw [layer, layer, Pi.single_zero]
  unfold blendFlux
  dsimp only
  simp only [hz, hl, sub_self, zero_smul, one_smul, zero_add, sub_zero, add_zero]
  have hp := high_periodic c hc.cells u a 0
  rw [zero_add] at hp
  have hp' : schemeFlux c.scheme c.p none (extAll c.n (fun _ => .wrap) (fun _ => .wrap) u) a
      (Pi.single a (c.n a : ℤ)) = perHigh c u a 0 := hp
  rw [hp', neg_smul, ← smul_neg, neg_sub]
  rfl

/-! ## A concrete violation -/

/-- A line of six cells of size 1, degree 1, upwind fluxes, time step 1/4, periodic. -/
def seamConfig : EulerConfig ℚ 0 where
  gas := ⟨7 / 5, 0, id⟩
  riem := .advectionUpwind
  n := ![6, 1, 1]
  p := ![1, 0, 0]
  h := ![1, 1, 1]
  cfl := 1 / 2
  fixedDt := some (1 / 4)
  bc := ⟨fun _ _ => .periodic, fun _ _ => .other, none⟩
  limiting := none

/-- The density may not exceed 3; no other test; minmod in the fallback scheme. -/
def seamLimiter (convex : Bool) : LimiterOpts ℚ where
  eps := 1 / 100
  mode := "global"
  rangeType := "relative"
  nadVars := some []
  pad := [(.rho, none, some 3)]
  sed := true
  sedEps := 1 / 10 ^ 10
  convex := convex
  force := false
  slope := some .minmod
  tiny := 1 / 10 ^ 16

/-- Density 4 in the first cell and 1 elsewhere, velocity 1, pressure 1. -/
def seamState : Ix → State ℚ 0 := fun i v =>
  let r : ℚ := if i 0 = 0 then 4 else 1
  match v with
  | .rho => r
  | .mom d => if d = 0 then r else 0
  | .en => r / 2 + 5 / 2

theorem seam_high : ∀ a : Fin 7, perHigh seamConfig seamState 0 ![(a : ℕ), 0, 0] .rho =
    (![7 / 4, 4, 1 / 4, 1, 1, 1, 7 / 4] : Fin 7 → ℚ) a := by
  decide +kernel

theorem seam_low (cv : Bool) : perFallback seamConfig (seamLimiter cv) seamState 0 0 .rho = 1 := by
  revert cv
  decide +kernel

theorem seam_candidate : ∀ a : Fin 6, seenPrim seamConfig (fun _ => .wrap) (fun _ => .wrap) (fun i =>
      seamState i + (1 / 4 : ℚ) • latDiv seamConfig.scheme.active seamConfig.h (perHigh seamConfig seamState) i)
      ![(a : ℕ), 0, 0] .rho = (![55 / 16, 31 / 16, 13 / 16, 1, 1, 13 / 16] : Fin 6 → ℚ) a := by
  decide +kernel

theorem seam_cells (i : Ix) (hi : InCells seamConfig.n i) : ∃ a : Fin 6, i = ![((a : ℕ) : ℤ), 0, 0] := by
  have h0 := hi 0
  have h1 := hi 1
  have h2 := hi 2
  simp [seamConfig] at h0 h1 h2
  refine ⟨⟨(i 0).toNat, by omega⟩, ?_⟩
  funext d
  match d with
  | 0 => show i 0 = ((i 0).toNat : ℤ); omega
  | 1 => show i 1 = 0; omega
  | 2 => show i 2 = 0; omega

theorem seam_flagged (cv : Bool) (i : Ix) : Flagged seamConfig (seamLimiter cv) seamState (1 / 4) i ↔ i = 0 := by
  have pad : ∀ x : ℚ, padPoint none (some 3) x < 0 ↔ 3 < x := by
    intro x
    unfold padPoint
    simp only [min_lt_iff, not_top_lt, false_or]
    rw [← WithTop.coe_zero, WithTop.coe_lt_coe, sub_neg]
  have rep : ∀ i, Reported (seamLimiter cv).toDetectOpts seamConfig.dims seamConfig.n
      (seenPrim seamConfig (fun _ => .wrap) (fun _ => .wrap) seamState)
      (seenPrim seamConfig (fun _ => .wrap) (fun _ => .wrap) fun i => seamState i + (1 / 4 : ℚ) •
        latDiv seamConfig.scheme.active seamConfig.h (perHigh seamConfig seamState) i) i ↔
      3 < seenPrim seamConfig (fun _ => .wrap) (fun _ => .wrap) (fun i => seamState i + (1 / 4 : ℚ) •
        latDiv seamConfig.scheme.active seamConfig.h (perHigh seamConfig seamState) i) i .rho := by
    intro i
    rw [← pad]
    refine ⟨fun h => h.resolve_left ?_, Or.inr⟩
    rintro ⟨v, hv, -⟩
    simp [seamLimiter, DetectOpts.considers] at hv
  unfold Flagged
  rw [rep]
  constructor
  · rintro ⟨hi, h⟩
    obtain ⟨a, rfl⟩ := seam_cells i hi
    rcases h with h | h
    · cases h
    · rw [seam_candidate] at h
      have : a = 0 := by revert h; revert a; decide +kernel
      subst this
      funext d
      match d with
      | 0 | 1 | 2 => rfl
  · rintro rfl
    refine ⟨fun d => ?_, Or.inr ?_⟩
    · match d with
      | 0 | 1 | 2 => simp [seamConfig]
    · have e : (0 : Ix) = ![(((0 : Fin 6) : ℕ) : ℤ), 0, 0] := by
        funext d
        match d with
        | 0 | 1 | 2 => rfl
      rw [e, seam_candidate]
      norm_num

theorem seam_periodic : PeriodicLimited seamConfig where
  cells d := by match d with | 0 | 1 | 2 => decide
  degree d := by match d with | 0 | 1 | 2 => decide
  periodic _ _ _ := rfl
  wide d := by match d with | 0 | 1 | 2 => decide +kernel

/-- **C02 is violated** On a periodic line with the density bound active in the first cell only, with simple and
with convex spreading, the rate of change that the solver returns changes the total mass. -/
theorem C02_violated (cv : Bool) (junk : ℕ → Ix → State ℚ 0) (mem : Fin 3 → Ix → State ℚ 0) (t t' : ℚ) :
    ∃ dt k, solverRHS (seamConfig.limited (some (seamLimiter cv))).scheme junk mem t t' seamState = .ok (dt, k) ∧
      cellSum seamConfig.n k .rho = -3 / 4 := by
  obtain ⟨dt, k, h, hs⟩ := C02_defect seamConfig (seamLimiter cv) ⟨Or.inl rfl, Or.inl rfl⟩ 0 (by decide) seam_periodic
    (by decide) junk mem t t' seamState (fun dt hdt i => by
      have : dt = 1 / 4 := hdt.unique (by unfold IsDt; rfl)
      subst this
      exact seam_flagged cv i)
  refine ⟨dt, k, h, ?_⟩
  rw [hs]
  have e : (0 : Ix) = ![(((0 : Fin 7) : ℕ) : ℤ), 0, 0] := by
    funext d
    match d with
    | 0 | 1 | 2 => rfl
  show (1 / seamConfig.h 0) * (perFallback seamConfig (seamLimiter cv) seamState 0 0 .rho -
    perHigh seamConfig seamState 0 0 .rho) = _
  rw [seam_low, e, seam_high]
  decide +kernel

end FVHOE
