import Verif.Proofs.Norms
import Verif.Props.C78

/-!
Helper lemmas for C113: near slowly varying densities in a uniform flow the detector reports nothing and the limited
right-hand side is the unlimited one.
-/

set_option linter.unusedSectionVars false

namespace FVHOE

variable {np : ℕ}

/-- The kind of test that is the default of the solver: relative to the range over the whole array, with the default PAD
bounds or none, and not forced. -/
structure GlobalTest (o : LimiterOpts ℝ) : Prop where
  mode : o.mode = "global"
  range : o.rangeType = "relative"
  free : o.force = false
  tolerance : 0 ≤ o.eps
  pad : o.pad = [] ∨ o.pad = defaultPad

theorem GlobalTest.known {o : LimiterOpts ℝ} (h : GlobalTest o) : o.toDetectOpts.Known := ⟨Or.inl h.mode, Or.inl h.range⟩

/-- A candidate that differs from the state by less than the tolerated part of the range is not reported. -/
theorem not_reported {o : LimiterOpts ℝ} (ho : GlobalTest o) (dims : List (Fin 3)) (n : Fin 3 → ℕ) (W W' : Ix → State ℝ 0)
    (i : Ix) (hW : ∀ v, |W' i v - W i v| ≤ o.eps * (gHi dims n W v - gLo dims n W v)) (hP : 0 ≤ W' i .en) :
    ¬ Reported o.toDetectOpts dims n W W' i := by
  have hi : Nbr dims i i := fun d => by split_ifs <;> simp
  rintro (⟨v, -, h, -⟩ | h)
  · have a1 := (nLo_least dims W i v).2 ⟨i, hi, rfl⟩
    have a2 := (nHi_greatest dims W i v).2 ⟨i, hi, rfl⟩
    have a3 := abs_le.1 (hW v)
    unfold tolLo tolHi at h
    rw [if_pos ho.range, if_pos ho.range, if_pos ho.mode] at h
    beta_reduce at a1 a2
    rcases h with h | h <;> linarith [a3.1, a3.2]
  · rcases ho.pad with e | e
    · rw [e] at h
      exact lt_irrefl _ h
    · rw [e] at h
      have : padAt (defaultPad : List (Var 0 × Option ℝ × Option ℝ)) (W' i) = ((W' i .en - 0 : ℝ) : WithTop ℝ) := by
        show min (((W' i .en - 0 : ℝ) : WithTop ℝ)) ⊤ = _
        rw [min_eq_left le_top]
      rw [this, sub_zero] at h
      exact absurd h (not_lt.2 (by exact_mod_cast hP))

/-- The box is wide enough for the ghost cells of the detector and of the fallback scheme too. -/
def WideBox (c : EulerConfig ℝ np) : Prop :=
  ∀ d, c.scheme.active d = true → fluxWidth c.scheme (fallbackP c.p) d ≤ c.n d ∧ detectWidth c.scheme d ≤ c.n d

theorem wrap_sides {c : EulerConfig ℝ np} (h : PeriodicBox c) (hn : ∀ d, 1 ≤ c.n d) (gw : Fin 3 → ℕ)
    (h0 : ∀ d, c.scheme.active d = false → gw d = 0) (hw : ∀ d, c.scheme.active d = true → gw d ≤ c.n d) (t : ℝ) :
    Sides c.scheme gw t (fun _ => .wrap) (fun _ => .wrap) := by
  have key : ∀ d s, SideSpec c.scheme.bc c.scheme.negate c.scheme.n gw t d s .wrap := by
    intro d s
    by_cases ha : c.scheme.active d = true
    · exact .periodic (h.periodic d s ha) (h.periodic d .l ha) (hw d ha) (hn d)
    · exact .inactive (h0 d (by simpa using ha)) _
  exact fun d => ⟨key d .l, key d .r⟩

theorem smoothed_const {p : Fin 3 → ℕ} (hp : ∀ d, p d ≤ 8) (k : ℝ) : smoothed ℝ p (fun _ => k) = fun _ => k := by
  unfold smoothed
  rw [centers_const hp]
  unfold latT
  rw [lsweep_const 0 _ _ (wts_sum (hp _)).2.2.2, lsweep_const 1 _ _ (wts_sum (hp _)).2.2.2,
    lsweep_const 2 _ _ (wts_sum (hp _)).2.2.2]

/-- Densities near slowly varying ones are seen near them. -/
theorem smoothed_near {p : Fin 3 → ℕ} (hp : ∀ d, p d ≤ 8) {g β : Ix → ℝ} {ω B : ℝ} (hω0 : 0 ≤ ω) (hB0 : 0 ≤ B)
    (hω : ∀ d j, |g (j + Pi.single d 1) - g j| ≤ ω) (hB : ∀ j, |β j - g j| ≤ B) (i : Ix) :
    |smoothed ℝ p β i - g i| ≤ 3 * (24 * ω + B) := by
  have near : ∀ j : Ix, (∀ e, |j e - i e| ≤ 8) → |β j - g i| ≤ 24 * ω + B := by
    intro j hij
    have h1 := walk hω i j
    have h2 : ω * ((|j 0 - i 0| + |j 1 - i 1| + |j 2 - i 2| : ℤ) : ℝ) ≤ ω * 24 := by
      refine mul_le_mul_of_nonneg_left ?_ hω0
      have := hij 0
      have := hij 1
      have := hij 2
      exact_mod_cast (by omega : |j 0 - i 0| + |j 1 - i 1| + |j 2 - i 2| ≤ 24)
    have h3 := abs_le.1 (hB j)
    have h4 := abs_le.1 (h1.trans h2)
    rw [abs_le]
    constructor <;> linarith [h3.1, h3.2, h4.1, h4.2]
  have hε : 0 ≤ 24 * ω + B := by linarith
  have := bounded_smoothed hp (i := i) (m := 0) hε (α := fun j => 1 * β j + (-1) * g i) (fun j hj => by
    beta_reduce
    rw [one_mul, neg_one_mul, ← sub_eq_add_neg]
    refine near j fun e => (hj e).trans ?_
    have := ceilHalf_le_four (hp e)
    simp only [Pi.zero_apply]
    omega) i (by simp)
  rw [smoothed_lin, smoothed_const hp] at this
  beta_reduce at this
  rw [one_mul, neg_one_mul, ← sub_eq_add_neg] at this
  exact this.trans (by linarith)

theorem smoothed_diff {p : Fin 3 → ℕ} (hp : ∀ d, p d ≤ 8) {α β : Ix → ℝ} {B : ℝ} (hB0 : 0 ≤ B)
    (hB : ∀ j, |β j - α j| ≤ B) (i : Ix) : |smoothed ℝ p β i - smoothed ℝ p α i| ≤ 3 * B := by
  have := bounded_smoothed hp (i := i) (m := 0) hB0 (α := fun j => 1 * β j + (-1) * α j) (fun j _ => by
    beta_reduce
    rw [one_mul, neg_one_mul, ← sub_eq_add_neg]
    exact hB j) i (by simp)
  rw [smoothed_lin] at this
  beta_reduce at this
  rw [one_mul, neg_one_mul, ← sub_eq_add_neg] at this
  exact this.trans (by linarith)

section

variable {c : EulerConfig ℝ np} {v : Fin 3 → ℝ} (h : FlowSetup c v)
include h

/-- The extended state of a uniform flow. -/
theorem flow_ext (P : ℝ) (x : Fin np → ℝ) (α : Ix → ℝ) (hα : Cyclic c.n α) (u : Ix → State ℝ np)
    (hu : ∀ j, InCells c.n j → u j = conserved c.gas.gamma (flowing v P x (α j))) :
    extAll c.n (fun _ => .wrap) (fun _ => .wrap) u = fun j => conserved c.gas.gamma (flowing v P x (α j)) := by
  rw [extAll_wrap c.n h.transport.cells]
  funext j
  have hj : InCells c.n (fun d => j d % c.n d) := fun d => by
    have : (0 : ℤ) < c.n d := by exact_mod_cast h.transport.cells d
    exact ⟨Int.emod_nonneg _ this.ne', Int.emod_lt_of_pos _ this⟩
  rw [hu _ hj, periodic_wrap c.n α hα]

/-- What the detector sees of a uniform flow. -/
theorem flow_seen (P : ℝ) (x : Fin np → ℝ) (α : Ix → ℝ) (hα : Cyclic c.n α) (h0 : ∀ j, latCenters ℝ c.p α j ≠ 0)
    (u : Ix → State ℝ np) (hu : ∀ j, InCells c.n j → u j = conserved c.gas.gamma (flowing v P x (α j))) (i : Ix) :
    seenPrim c (fun _ => .wrap) (fun _ => .wrap) u i = activePart (flowing v P x (smoothed ℝ c.p α i)) := by
  unfold seenPrim
  congr 1
  exact contact_prim h.transport.degree c.gas.gamma h.transport.gamma v P x α (extAll c.n (fun _ => .wrap) (fun _ => .wrap) u) i 0
    (fun j _ => by rw [flow_ext h P x α hα u hu]) (fun j _ => h0 j) i (by simp)

/-- Near slowly varying densities the limited right-hand side is the unlimited one. -/
theorem quiet_rhs {o : LimiterOpts ℝ} (ho : GlobalTest o) (hw : WideBox c) {g β : Ix → ℝ} {m ω B A : ℝ} (hω0 : 0 ≤ ω)
    (hg : ∀ j, m ≤ g j) (hω : ∀ d j, |g (j + Pi.single d 1) - g j| ≤ ω) (hB : ∀ j, |β j - g j| ≤ B)
    (hm : 400 * ω + 160 * B < m) (hgc : Cyclic c.n g) (hA : ∃ i j, A ≤ g i - g j)
    (hε : 24 * ω + 48 * B ≤ o.eps * (A - (144 * ω + 6 * B))) (P : ℝ) (hP : 0 ≤ P) (x : Fin np → ℝ) (hβ : Cyclic c.n β)
    (t t' : ℝ) (u : Ix → State ℝ np) (hu : ∀ j, InCells c.n j → u j = conserved c.gas.gamma (flowing v P x (β j)))
    (junk : ℕ → Ix → State ℝ np) (mem : Fin 3 → Ix → State ℝ np) :
    solverRHS (c.limited (some o)).scheme junk mem t t' u = solverRHS c.scheme junk mem t t' u := by
  have hc := h.transport
  have hp := hc.degree
  have hB0 : 0 ≤ B := (abs_nonneg _).trans (hB 0)
  have hnv : Nonvanishing c β := nonvanishing_near hp hω0 hB0 hg hω hB (by linarith)
  have hd : c.dims ≠ [] := by
    obtain ⟨d, hd⟩ := h.extended
    exact List.ne_nil_of_mem ((mem_dims c d).2 hd)
  have hin : ∀ d, c.scheme.active d = false → c.p d = 0 := fun d hd => c.scheme.inactive_p d hd
  have hs := h.box.sides hc.cells t
  have hs' := wrap_sides h.box hc.cells (fluxWidth c.scheme (fallbackP c.p)) (fun d hd => by
    unfold fluxWidth fallbackP
    rw [hd, hin d hd]
    rfl) (fun d hd => (hw d hd).1) t
  have hsd := wrap_sides h.box hc.cells (detectWidth c.scheme) (fun d hd => by
    unfold detectWidth
    rw [hd, show c.scheme.p d = 0 from hin d hd]
    rfl) (fun d hd => (hw d hd).2) t
  obtain ⟨dt, tr, k1, k2, k3, k4⟩ := limited_rhs c o ho.known hd hp hc.cells t _ _ _ _ _ _ hs hs' hsd junk mem t' u
  obtain ⟨dt₀, g1, g2⟩ := rhs_spec c.scheme hc.unlimited hp hc.cells t _ _ hs junk mem t' u u fun _ _ => rfl
  obtain rfl : dt₀ = dt := IsDt.unique (S := c.scheme) g1 k1
  obtain ⟨dt₁, D, e1, e2, e3, e4⟩ := flow_rhs h P x β hβ hnv t t' u hu junk mem
  rw [g2] at e1
  obtain ⟨rfl, rfl⟩ := Prod.mk.inj (Except.ok.inj e1)
  have hs1 := sup_rate_diff h e2.le e3 (α := g) hω0 (fun d _ j => hω d j)
  have hs2 := sup_rate h e2.le e3 (α := β - g) hB0 hB
  have hstep : ∀ j, |dt₀ * act (rateOp c v) β j| ≤ 8 * ω + 16 * B := by
    intro j
    have e : act (dt₀ • rateOp c v) β j = act (dt₀ • rateOp c v) g j + act (dt₀ • rateOp c v) (β - g) j := by
      have : β = g + (β - g) := by simp
      conv_lhs => rw [this, act_map_add]
      rfl
    have e' : act (dt₀ • rateOp c v) β j = dt₀ * act (rateOp c v) β j := by rw [act_smul]; rfl
    rw [← e', e]
    exact (abs_add_le _ _).trans (add_le_add (hs1 j) (hs2 j))
  obtain ⟨β', hβ'⟩ : ∃ β', β' = act (1 + dt₀ • rateOp c v) β := ⟨_, rfl⟩
  have hβv : ∀ j, β' j = β j + dt₀ * act (rateOp c v) β j := fun j => by
    rw [hβ', act_add, act_one, act_smul]
    rfl
  have hβc : Cyclic c.n β' := hβ' ▸ act_cyclic _ hβ
  have hdiff : ∀ j, |β' j - β j| ≤ 8 * ω + 16 * B := fun j => by
    rw [hβv, add_sub_cancel_left]
    exact hstep j
  have hnv' : Nonvanishing c β' := nonvanishing_near hp hω0 (B := 8 * ω + 17 * B) (by linarith) hg hω (fun j => by
    have a1 := abs_le.1 (hdiff j)
    have a2 := abs_le.1 (hB j)
    rw [abs_le]
    constructor <;> linarith [a1.1, a1.2, a2.1, a2.2]) (by linarith)
  have hcand : ∀ j, InCells c.n j → (fun i => u i + dt₀ • latDiv c.scheme.active c.h
      (schemeFlux c.scheme c.p none (extAll c.n (fun _ => .wrap) (fun _ => .wrap) u)) i) j =
      conserved c.gas.gamma (flowing v P x (β' j)) := by
    intro j hj
    have := (if_pos hj).symm.trans (e4 j hj)
    beta_reduce
    rw [show latDiv c.scheme.active c.h (schemeFlux c.scheme c.p none (extAll c.n (fun _ => .wrap) (fun _ => .wrap) u)) j =
      act (rateOp c v) β j • carried v x from this, hu j hj, smul_smul, flow_add h, hβv]
  have hsee := flow_seen h P x β hβ hnv.1 u hu
  have hsee' := flow_seen h P x β' hβc hnv'.1 _ hcand
  have hrange : A - (144 * ω + 6 * B) ≤ gHi c.dims c.n (seenPrim c (fun _ => .wrap) (fun _ => .wrap) u) .rho -
      gLo c.dims c.n (seenPrim c (fun _ => .wrap) (fun _ => .wrap) u) .rho := by
    obtain ⟨i, j, hij⟩ := hA
    have hwr : ∀ i : Ix, InPadded c.dims c.n (fun d => i d % c.n d) := fun i d => by
      have hn : (0 : ℤ) < c.n d := by exact_mod_cast hc.cells d
      have := Int.emod_nonneg (i d) hn.ne'
      have := Int.emod_lt_of_pos (i d) hn
      beta_reduce
      constructor <;> omega
    have b1 := (gHi_greatest c.dims c.n hc.cells (seenPrim c (fun _ => .wrap) (fun _ => .wrap) u) .rho).2
      ⟨_, hwr i, rfl⟩
    have b2 := (gLo_least c.dims c.n hc.cells (seenPrim c (fun _ => .wrap) (fun _ => .wrap) u) .rho).2
      ⟨_, hwr j, rfl⟩
    beta_reduce at b1 b2
    rw [hsee] at b1 b2
    change smoothed ℝ c.p β _ ≤ _ at b1
    change _ ≤ smoothed ℝ c.p β _ at b2
    have c1 := abs_le.1 (smoothed_near hp hω0 hB0 hω hB fun d => i d % c.n d)
    have c2 := abs_le.1 (smoothed_near hp hω0 hB0 hω hB fun d => j d % c.n d)
    rw [periodic_wrap c.n g hgc] at c1 c2
    linarith [c1.1, c1.2, c2.1, c2.2]
  have hquiet : anyTrue (used o tr) = false := by
    have hu' : used o tr = tr := by unfold used; rw [ho.free]; rfl
    rw [hu', Bool.eq_false_iff]
    intro hany
    obtain ⟨i, hi, htr⟩ := (anyTrue_iff tr).1 hany
    rw [k2] at hi
    refine not_reported ho c.dims c.n _ _ i (fun w => ?_) ?_ ((k3 i hi).1 htr)
    · have hle : gLo c.dims c.n (seenPrim c (fun _ => .wrap) (fun _ => .wrap) u) w ≤
          gHi c.dims c.n (seenPrim c (fun _ => .wrap) (fun _ => .wrap) u) w := by
        obtain ⟨y, hy, e⟩ := (gLo_least c.dims c.n hc.cells (seenPrim c (fun _ => .wrap) (fun _ => .wrap) u) w).1
        rw [← e]
        exact (gHi_greatest c.dims c.n hc.cells (seenPrim c (fun _ => .wrap) (fun _ => .wrap) u) w).2 ⟨y, hy, rfl⟩
      have hnn := mul_nonneg ho.tolerance (sub_nonneg.2 hle)
      rw [hsee', hsee]
      match w with
      | .rho =>
        refine (smoothed_diff hp (by linarith) hdiff i).trans (le_trans ?_ (mul_le_mul_of_nonneg_left hrange ho.tolerance))
        linarith
      | .mom d => exact le_trans (by rw [show activePart (flowing v P x (smoothed ℝ c.p β' i)) (.mom d) -
          activePart (flowing v P x (smoothed ℝ c.p β i)) (.mom d) = 0 from sub_self _, abs_zero]) hnn
      | .en => exact le_trans (by rw [show activePart (flowing v P x (smoothed ℝ c.p β' i)) .en -
          activePart (flowing v P x (smoothed ℝ c.p β i)) .en = 0 from sub_self _, abs_zero]) hnn
    · rw [hsee']
      exact hP
  rw [k4, limitedResult_quiet c o _ _ _ _ hquiet, g2]
  rfl

end

end FVHOE
