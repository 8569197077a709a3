import Verif.Proofs.LinesRun
import Verif.Proofs.TurnLimited
import Verif.Proofs.QuietNear
import Verif.Props.C66
import Mathlib.Analysis.ODE.Gronwall
import Mathlib.Topology.Algebra.Module.FiniteDimension

/-! The limiter at small steps: the candidate is near the state, which has slack. -/

set_option linter.unusedSectionVars false

namespace FVHOE

open Topology Set

variable {np : ℕ} {c : EulerConfig ℝ np} {o : LimiterOpts ℝ}

/-- The primitive averages of the active variables the detector computes from `u`. -/
noncomputable def seenAt (c : EulerConfig ℝ np) (u : Ix → State ℝ np) (i : Ix) : State ℝ 0 :=
  seenPrim c (c.scheme.ghost .l) (c.scheme.ghost .r) (clip c.n u) i

/-- The setup of `SmoothSetup` with a-posteriori limiting added: the boundaries also allow the ghost cells of the detector and of the
fallback scheme, the options are known ones, and the fallback is not forced on all cells. -/
structure LimitedLines (c : EulerConfig ℝ np) (o : LimiterOpts ℝ) : Prop where
  smooth : SmoothSetup c
  fallback : PlainSides c.scheme (fluxWidth c.scheme (fallbackP c.p))
  detect : PlainSides c.scheme (detectWidth c.scheme)
  free : o.force = false
  known : o.toDetectOpts.Known

/-- No momentum across the grid in the directions `Z`, and elsewhere strict inequality in all tests, were the candidate the state itself:
every considered variable lies strictly inside the tolerated range of every cell, and strictly inside the bounds of the last PAD entry
(the only one the detector uses). The densities at the cell centres the detector divides by are positive. -/
structure Slack (c : EulerConfig ℝ np) (o : DetectOpts ℝ) (Z : Fin 3 → Prop) (u : Ix → State ℝ np) : Prop where
  centers : OnBox (fun d => c.n d) (fun d => detPad c.dims d + ceilHalf (c.p d)) (fun v => 0 < v .rho)
    (latCenters ℝ c.p (padded c.scheme (clip c.n u)))
  still : ∀ d, Z d → c.scheme.active d = false ∧ ∀ i, InCells c.n i → u i (.mom d) = 0
  nad : ∀ i, InCells c.n i → ∀ v, o.considers v = true → (∀ d, Z d → v ≠ .mom d) →
    tolLo o c.dims c.n (seenAt c u) i v < seenAt c u i v ∧ seenAt c u i v < tolHi o c.dims c.n (seenAt c u) i v
  pad : ∀ i, InCells c.n i → ∀ e, o.pad.getLast? = some e →
    (∀ l, e.2.1 = some l → l < seenAt c u i e.1) ∧ ∀ b, e.2.2 = some b → seenAt c u i e.1 < b

/-! ### The limited right-hand side where nothing is reported -/

theorem SmoothSetup.at_clip (h : SmoothSetup c) {D : (Ix → State ℝ np) → ℝ}
    (hD : ∀ junk mem t t' u, solverRHS c.scheme junk mem t t' u = .ok (D u, slopes c u)) (u : Ix → State ℝ np) :
    IsDt c.scheme c.p (latPrim ℝ (computePrimitives c.gas.gamma) c.p (padded c.scheme (clip c.n u))) (D u) ∧
      slopes c (clip c.n u) = slopes c u := by
  obtain ⟨dt, h1, h2⟩ := rhs_spec c.scheme h.limiting h.degree h.cells 0 _ _
    (h.sides.sides h.cells (fun d hd => (inactive_width c d hd).1) 0) (fun _ => 0) (fun _ _ => 0) 0 u (clip c.n u)
    fun i hi => (if_pos hi).symm
  have e := hD (fun _ => 0) (fun _ _ => 0) 0 0 u
  have e2 := Except.ok.inj (e.symm.trans h2)
  refine ⟨?_, (congrArg Prod.snd e2).symm⟩
  have e3 : D u = dt := congrArg Prod.fst e2
  rw [e3]
  exact h1

theorem LimitedLines.rhs (h : LimitedLines c o) {D : (Ix → State ℝ np) → ℝ}
    (hD : ∀ junk mem t t' u, solverRHS c.scheme junk mem t t' u = .ok (D u, slopes c u)) (junk : ℕ → Ix → State ℝ np)
    (mem : Fin 3 → Ix → State ℝ np) (t t' : ℝ) (u : Ix → State ℝ np) :
    (∀ dt k, solverRHS (c.limited (some o)).scheme junk mem t t' u = .ok (dt, k) → dt = D u) ∧
    ((∀ i, InCells c.n i → ¬Reported o.toDetectOpts c.dims c.n (seenAt c u) (seenAt c (u + D u • slopes c u)) i) →
      solverRHS (c.limited (some o)).scheme junk mem t t' u = .ok (D u, slopes c u)) := by
  obtain ⟨hsm, hfb, hdet, hfree, hknown⟩ := h
  have hd : c.dims ≠ [] := by
    have := hsm.extended
    intro h0
    have : c.scheme.ndim = 0 := by
      have hno : ∀ d, c.scheme.active d = false := fun d => by
        rw [Bool.eq_false_iff]
        intro hd
        have := (mem_dims c d).2 hd
        rw [h0] at this
        cases this
      unfold Scheme.ndim
      simp [hno]
    omega
  obtain ⟨hdt, hsl⟩ := hsm.at_clip hD u
  obtain ⟨dt, tr, k1, k2, k3, k4⟩ := limited_rhs_on c o hknown hd hsm.degree hsm.cells t _ _ _ _ _ _
    (hsm.sides.sides hsm.cells (fun d hd => (inactive_width c d hd).1) t)
    (hfb.sides hsm.cells (fun d hd => (inactive_width c d hd).2.1) t)
    (hdet.sides hsm.cells (fun d hd => (inactive_width c d hd).2.2) t) junk mem t' u (clip c.n u) fun i hi => (if_pos hi).symm
  obtain rfl : D u = dt := IsDt.unique (S := c.scheme) hdt k1
  refine ⟨fun dt k e => ?_, fun hq => ?_⟩
  · rw [k4] at e
    exact (limitedResult_inv c o _ _ _ _ tr k2 k e).1
  · have hcand : (clip c.n fun i => clip c.n u i + D u • latDiv c.scheme.active c.h
          (schemeFlux c.scheme c.p none (extAll c.n (c.scheme.ghost .l) (c.scheme.ghost .r) (clip c.n u))) i) =
        clip c.n (u + D u • slopes c u) := by
      refine clip_cells fun i hi => ?_
      rw [Pi.add_apply, Pi.smul_apply, ← hsl, show clip c.n u i = u i from if_pos hi]
      unfold slopes
      rw [if_pos hi]
      rfl
    have hquiet : anyTrue (used o tr) = false := by
      have hut : used o tr = tr := by unfold used; rw [hfree]; rfl
      rw [hut, Bool.eq_false_iff]
      intro hany
      obtain ⟨i, hi, htr⟩ := (anyTrue_iff tr).1 hany
      rw [k2] at hi
      have hrep := (k3 i hi).1 htr
      rw [hcand] at hrep
      exact hq i hi hrep
    rw [k4, limitedResult_quiet c o _ _ _ _ hquiet, ← hsl]
    rfl

/-! ### No momentum across the grid -/

theorem still_prim {p : Fin 3 → ℕ} {d : Fin 3} {X : Ix → State ℝ np} (hX : ∀ j, drift d 0 (X j) = 0) (gamma : ℝ) (j : Ix) :
    drift d 0 (latPrim ℝ (computePrimitives gamma) p X j) = 0 := by
  have hc : ∀ j, drift d 0 (latCenters ℝ p X j) = 0 := drift_sweep _ _ _ _ _ (drift_sweep _ _ _ _ _ (drift_sweep _ _ _ _ _ hX))
  refine drift_sweep _ _ _ _ _ (drift_sweep _ _ _ _ _ (drift_sweep _ _ _ _ _ fun j => ?_)) j
  have := hc j
  rw [drift_apply, zero_mul, sub_zero] at this ⊢
  change latCenters ℝ p X j (.mom d) / latCenters ℝ p X j .rho = 0
  rw [this, zero_div]

theorem still_flux {p : Fin 3 → ℕ} {d : Fin 3} {W : Ix → State ℝ np} (hW : ∀ j, drift d 0 (W j) = 0) (k : RiemannKind) (G : Gas ℝ)
    (e : Fin 3) (hed : d ≠ e) (j : Ix) : drift d 0 (latFlux ℝ (riemann k G e) p none e W j) = 0 := by
  have hline : ∀ j, drift d 0 (latLine ℝ p e W j) = 0 := drift_sweep _ _ _ _ _ (drift_sweep _ _ _ _ _ hW)
  have mom : ∀ {s : State ℝ np}, drift d 0 s = 0 → s (.mom d) = 0 := fun h => by
    rwa [drift_apply, zero_mul, sub_zero] at h
  exact drift_sweep _ _ _ _ _ (drift_sweep _ _ _ _ _ fun j => drift_riemann k G e d hed 0 _ _
    (mom (drift_sweep _ _ _ _ _ hline _)) (mom (drift_sweep _ _ _ _ _ hline _))) j

/-- The states without momentum along the directions `Z`. -/
def stillSpace (n : Fin 3 → ℕ) (Z : Fin 3 → Prop) : Submodule ℝ (Ix → State ℝ np) where
  carrier := {u | ∀ d, Z d → ∀ i, InCells n i → u i (.mom d) = 0}
  add_mem' := fun {a b} ha hb d hd i hi => by
    change a i (.mom d) + b i (.mom d) = 0
    rw [ha d hd i hi, hb d hd i hi, add_zero]
  zero_mem' := fun _ _ _ _ => rfl
  smul_mem' := fun r a ha d hd i hi => by
    change r * a i (.mom d) = 0
    rw [ha d hd i hi, mul_zero]

theorem still_padded {n : Fin 3 → ℕ} {Z : Fin 3 → Prop} (hn : n = c.n) {u : Ix → State ℝ np} (hu : u ∈ stillSpace n Z) {d : Fin 3} (hd : Z d) (j : Ix) :
    drift d 0 (padded c.scheme (clip c.n u) j) = 0 := by
  subst hn
  have hk : ∀ s e, (c.scheme.ghost s e).Keeps fun v => drift d 0 v = 0 := by
    intro s e
    have hneg : ∀ v : State ℝ np, drift d 0 v = 0 → drift d 0 (negateMom e v) = 0 := by
      intro v hv
      rw [drift_apply, zero_mul, sub_zero] at hv ⊢
      unfold negateMom
      split_ifs
      · rw [hv, mul_zero]
      · exact hv
    unfold Scheme.ghost
    split_ifs
    · cases c.scheme.bc.kind e s <;> first | trivial | exact hneg | exact fun v hv => hv
    · trivial
  refine extAll_keeps c.n _ _ _ (hk .l) (hk .r) _ (fun i => ?_) j
  rw [drift_apply, zero_mul, sub_zero]
  unfold clip
  split_ifs with hi
  · exact hu d hd i hi
  · rfl

theorem SmoothSetup.still_slopes (h : SmoothSetup c) {Z : Fin 3 → Prop} (hZ : ∀ d, Z d → c.scheme.active d = false) (u : Ix → State ℝ np)
    (hu : u ∈ stillSpace c.n Z) : slopes c u ∈ stillSpace c.n Z := by
  obtain ⟨D, hD, -⟩ := h.rhs
  intro d hd i hi
  rw [← (h.at_clip hD u).2]
  unfold slopes
  rw [if_pos hi]
  have key : drift d 0 (latDiv c.scheme.active c.h (schemeFlux c.scheme c.p none (padded c.scheme (clip c.n u))) i) = 0 := by
    unfold latDiv
    rw [map_sum]
    refine Finset.sum_eq_zero fun e _ => ?_
    split_ifs with he
    · have hed : d ≠ e := by
        rintro rfl
        rw [hZ d hd] at he
        cases he
      have hf : ∀ j, drift d 0 (schemeFlux c.scheme c.p none (padded c.scheme (clip c.n u)) e j) = 0 := fun j =>
        still_flux (still_prim (still_padded rfl hu hd) c.gas.gamma) c.riem c.gas e hed j
      rw [map_smul, map_sub, hf, hf, sub_zero, smul_zero]
    · exact map_zero _
  rwa [drift_apply, zero_mul, sub_zero] at key

theorem still_seen {Z : Fin 3 → Prop} {u : Ix → State ℝ np} (hu : u ∈ stillSpace c.n Z) {d : Fin 3} (hd : Z d) (i : Ix) :
    seenAt c u i (.mom d) = 0 := by
  have := still_prim (p := c.p) (still_padded rfl hu hd) c.gas.gamma i
  rwa [drift_apply, zero_mul, sub_zero] at this

/-! ### Nearby states and small steps -/

theorem continuousAt_listMin {X ι : Type} [TopologicalSpace X] {x : X} (f : ι → X → ℝ) (l : List ι) (h : ∀ k ∈ l, ContinuousAt (f k) x) :
    ContinuousAt (fun y => listMin (l.map fun k => f k y)) x := by
  have key : ∀ (l : List ι) (g : X → ℝ), ContinuousAt g x → (∀ k ∈ l, ContinuousAt (f k) x) →
      ContinuousAt (fun y => (l.map fun k => f k y).foldl min (g y)) x := by
    intro l
    induction l with
    | nil => intro g hg _; exact hg
    | cons a l ih =>
      intro g hg h
      exact ih (fun y => min (g y) (f a y)) (hg.min (h a (by simp))) fun k hk => h k (by simp [hk])
  cases l with
  | nil => exact continuousAt_const
  | cons a l => exact key l (f a) (h a (by simp)) fun k hk => h k (by simp [hk])

theorem continuousAt_listMax {X ι : Type} [TopologicalSpace X] {x : X} (f : ι → X → ℝ) (l : List ι) (h : ∀ k ∈ l, ContinuousAt (f k) x) :
    ContinuousAt (fun y => listMax (l.map fun k => f k y)) x := by
  have key : ∀ (l : List ι) (g : X → ℝ), ContinuousAt g x → (∀ k ∈ l, ContinuousAt (f k) x) →
      ContinuousAt (fun y => (l.map fun k => f k y).foldl max (g y)) x := by
    intro l
    induction l with
    | nil => intro g hg _; exact hg
    | cons a l ih =>
      intro g hg h
      exact ih (fun y => max (g y) (f a y)) (hg.max (h a (by simp))) fun k hk => h k (by simp [hk])
  cases l with
  | nil => exact continuousAt_const
  | cons a l => exact key l (f a) (h a (by simp)) fun k hk => h k (by simp [hk])

theorem continuousAt_tol {X : Type} [TopologicalSpace X] {x : X} (o : DetectOpts ℝ) (dims : List (Fin 3)) (n : Fin 3 → ℕ)
    (W : X → Ix → State ℝ 0) (v : Var 0) (h : ∀ k, InPadded dims n k → ContinuousAt (fun y => W y k v) x) (i : Ix) (hi : InCells n i) :
    ContinuousAt (fun y => tolLo o dims n (W y) i v) x ∧ ContinuousAt (fun y => tolHi o dims n (W y) i v) x := by
  have hN : ∀ k ∈ neighbours dims i, ContinuousAt (fun y => W y k v) x := by
    intro k hk
    refine h k fun d => ?_
    have h1 := (mem_neighbours dims i k).1 hk d
    have h2 := hi d
    unfold detPad
    split_ifs at h1 ⊢ with hd
    · rw [abs_le] at h1
      push_cast
      omega
    · push_cast
      omega
  have hG : ∀ j ∈ indexList fun d => n d + 2 * detPad dims d, ContinuousAt (fun y => W y (fun d => j d - detPad dims d) v) x := by
    intro j hj
    refine h _ fun d => ?_
    have := (mem_indexList _ _).1 hj d
    push_cast at this
    omega
  have n1 := continuousAt_listMin (fun k y => W y k v) _ hN
  have n2 := continuousAt_listMax (fun k y => W y k v) _ hN
  have g1 := continuousAt_listMin (fun (j : Ix) y => W y (fun d => j d - detPad dims d) v) _ hG
  have g2 := continuousAt_listMax (fun (j : Ix) y => W y (fun d => j d - detPad dims d) v) _ hG
  constructor
  · unfold tolLo
    split_ifs
    · exact n1.sub (continuousAt_const.mul (g2.sub g1))
    · exact n1.sub (continuousAt_const.mul (n2.sub n1))
    · exact continuousAt_const.mul g1
    · exact continuousAt_const.mul n1
  · unfold tolHi
    split_ifs
    · exact n2.add (continuousAt_const.mul (g2.sub g1))
    · exact n2.add (continuousAt_const.mul (n2.sub n1))
    · exact continuousAt_const.mul g2
    · exact continuousAt_const.mul n2

theorem continuous_clip (n : Fin 3 → ℕ) : Continuous (clip n : (Ix → State ℝ np) → Ix → State ℝ np) := by
  refine continuous_pi fun i => ?_
  unfold clip
  split_ifs with hi
  · exact continuous_apply i
  · exact continuous_const

theorem seen_cont (hp : ∀ d, c.p d ≤ 8) {u : Ix → State ℝ np} (hu : OnBox (fun d => c.n d) (fun d => detPad c.dims d + ceilHalf (c.p d))
    (fun v => 0 < v .rho) (latCenters ℝ c.p (padded c.scheme (clip c.n u)))) (k : Ix) (hk : InPadded c.dims c.n k) (v : Var 0) :
    ContinuousAt (fun u => seenAt c u k v) u := by
  have hb : OnBox (fun d => c.n d) (fun d => (detPad c.dims d : ℤ)) (fun v : (Ix → State ℝ np) → State ℝ np => ContinuousAt v u)
      (latPrim ℝ (fun v y => computePrimitives c.gas.gamma (v y)) c.p fun i x => padded c.scheme (clip c.n x) i) := by
    refine OnBox.prim (affClosed_continuousAt u) (affClosed_continuousAt u) _ c.p hp
      (fun i _ => ((continuous_padded c i).comp (continuous_clip c.n)).continuousAt) fun i hi hc => ?_
    have hpos := hu i hi
    have e := congrFun (centers_at c.p (fun i x => padded c.scheme (clip c.n x) i) u) i
    refine ContinuousAt.comp (g := computePrimitives c.gas.gamma) ?_ hc
    beta_reduce at e
    rw [e]
    exact (lip_prim c.gas.gamma hpos.ne').continuousAt
  have h1 := hb k hk
  have e : (fun u => seenAt c u k v) = fun y => activePart
      (latPrim ℝ (fun v y => computePrimitives c.gas.gamma (v y)) c.p (fun i x => padded c.scheme (clip c.n x) i) k y) v := by
    funext y
    have := congrFun (prim_at (computePrimitives c.gas.gamma) c.p (fun i x => padded c.scheme (clip c.n x) i) y) k
    beta_reduce at this
    rw [this]
    rfl
  rw [e]
  have row : ∀ w : Var np, ContinuousAt (fun y => latPrim ℝ (fun v y => computePrimitives c.gas.gamma (v y)) c.p
      (fun i x => padded c.scheme (clip c.n x) i) k y w) u := fun w => ContinuousAt.comp (g := fun s : State ℝ np => s w)
    (continuous_apply (A := fun _ : Var np => ℝ) w).continuousAt h1
  cases v with
  | rho => exact row .rho
  | mom d => exact row (.mom d)
  | en => exact row .en
  | ps j => exact j.elim0

theorem tol_still (o : DetectOpts ℝ) (dims : List (Fin 3)) (n : Fin 3 → ℕ) (hn : ∀ d, 1 ≤ n d) (W : Ix → State ℝ 0) (v : Var 0)
    (h : ∀ k, W k v = 0) (i : Ix) : tolLo o dims n W i v = 0 ∧ tolHi o dims n W i v = 0 := by
  have n1 : nLo dims W i v = 0 := by
    obtain ⟨k, -, e⟩ := (nLo_least dims W i v).1
    exact e.symm.trans (h k)
  have n2 : nHi dims W i v = 0 := by
    obtain ⟨k, -, e⟩ := (nHi_greatest dims W i v).1
    exact e.symm.trans (h k)
  have g1 : gLo dims n W v = 0 := by
    obtain ⟨k, -, e⟩ := (gLo_least dims n hn W v).1
    exact e.symm.trans (h k)
  have g2 : gHi dims n W v = 0 := by
    obtain ⟨k, -, e⟩ := (gHi_greatest dims n hn W v).1
    exact e.symm.trans (h k)
  unfold tolLo tolHi
  simp [n1, n2, g1, g2]

/-- Near a state with slack, and for small steps, nothing is reported. -/
theorem SmoothSetup.quiet_near (h : SmoothSetup c) (o : DetectOpts ℝ) {Z : Fin 3 → Prop} {u : Ix → State ℝ np} (hu : Sturdy c u)
    (hs : Slack c o Z u) : ∀ᶠ z : (Ix → State ℝ np) × ℝ in 𝓝 (u, 0), z.1 ∈ stillSpace c.n Z → ∀ i, InCells c.n i →
      ¬Reported o c.dims c.n (seenAt c z.1) (seenAt c (z.1 + z.2 • slopes c z.1)) i := by
  have hfst : ContinuousAt (fun z : (Ix → State ℝ np) × ℝ => z.1) (u, 0) := continuousAt_fst
  have hcand : ContinuousAt (fun z : (Ix → State ℝ np) × ℝ => z.1 + z.2 • slopes c z.1) (u, 0) :=
    hfst.add (continuousAt_snd.smul (ContinuousAt.comp (g := slopes c) (h.slopes_cont hu) hfst))
  have e0 : u + (0 : ℝ) • slopes c u = u := by rw [zero_smul, add_zero]
  have c1 : ∀ k, InPadded c.dims c.n k → ∀ v, ContinuousAt (fun z : (Ix → State ℝ np) × ℝ => seenAt c z.1 k v) (u, 0) := fun k hk v =>
    ContinuousAt.comp (g := fun u => seenAt c u k v) (seen_cont h.degree hs.centers k hk v) hfst
  have c2 : ∀ k, InPadded c.dims c.n k → ∀ v, ContinuousAt (fun z : (Ix → State ℝ np) × ℝ =>
      seenAt c (z.1 + z.2 • slopes c z.1) k v) (u, 0) := fun k hk v =>
    ContinuousAt.comp (g := fun u => seenAt c u k v) (by
      show ContinuousAt _ (u + (0 : ℝ) • slopes c u)
      rw [e0]
      exact seen_cont h.degree hs.centers k hk v) hcand
  have inP : ∀ i, InCells c.n i → InPadded c.dims c.n i := fun i hi d => by
    have := hi d
    constructor <;> omega
  have fin : {i | InCells c.n i}.Finite := (box_finite (fun d => (c.n d : ℤ)) 0).subset fun i hi d => by
    have := hi d
    simpa using this
  -- the NAD test
  have t1 : ∀ i, InCells c.n i → ∀ v, ∀ᶠ z : (Ix → State ℝ np) × ℝ in 𝓝 (u, 0), z.1 ∈ stillSpace c.n Z → o.considers v = true →
      ¬(seenAt c (z.1 + z.2 • slopes c z.1) i v < tolLo o c.dims c.n (seenAt c z.1) i v ∨
        tolHi o c.dims c.n (seenAt c z.1) i v < seenAt c (z.1 + z.2 • slopes c z.1) i v) := by
    intro i hi v
    by_cases hz : ∃ d, Z d ∧ v = .mom d
    · obtain ⟨d, hd, rfl⟩ := hz
      refine Filter.Eventually.of_forall fun z hz _ => ?_
      have k1 := still_seen (c := c) hz hd
      have k2 := still_seen (c := c) ((stillSpace c.n Z).add_mem hz ((stillSpace c.n Z).smul_mem z.2
        (h.still_slopes (fun d hd => (hs.still d hd).1) z.1 hz))) hd i
      obtain ⟨b1, b2⟩ := tol_still o c.dims c.n h.cells (seenAt c z.1) (.mom d) k1 i
      rw [b1, b2, k2]
      simp
    · by_cases hv : o.considers v = true
      swap
      · exact Filter.Eventually.of_forall fun z _ hv' => absurd hv' hv
      obtain ⟨a1, a2⟩ := hs.nad i hi v hv fun d hd e => hz ⟨d, hd, e⟩
      obtain ⟨b1, b2⟩ := continuousAt_tol (x := ((u, 0) : (Ix → State ℝ np) × ℝ)) o c.dims c.n (fun z => seenAt c z.1) v
        (fun k hk => c1 k hk v) i hi
      have c2' := c2 i (inP i hi) v
      have l1 := b1.eventually_lt c2' (by simpa [e0] using a1)
      have l2 := c2'.eventually_lt b2 (by simpa [e0] using a2)
      filter_upwards [l1, l2] with z z1 z2 _ _
      rintro (z3 | z3)
      · exact absurd z1 (not_lt.2 z3.le)
      · exact absurd z2 (not_lt.2 z3.le)
  -- the PAD test
  have t2 : ∀ i, InCells c.n i → ∀ᶠ z : (Ix → State ℝ np) × ℝ in 𝓝 (u, 0),
      ¬padAt o.pad (seenAt c (z.1 + z.2 • slopes c z.1) i) < 0 := by
    intro i hi
    unfold padAt
    cases he : o.pad.getLast? with
    | none => exact Filter.Eventually.of_forall fun z => lt_irrefl _
    | some e =>
      obtain ⟨p1, p2⟩ := hs.pad i hi e he
      have c2' := c2 i (inP i hi) e.1
      have q1 : ∀ᶠ z : (Ix → State ℝ np) × ℝ in 𝓝 (u, 0), ∀ l, e.2.1 = some l → l < seenAt c (z.1 + z.2 • slopes c z.1) i e.1 := by
        cases h1 : e.2.1 with
        | none => exact Filter.Eventually.of_forall fun z l hl => by cases hl
        | some l =>
          have := (continuousAt_const (y := l)).eventually_lt c2' (by simpa [e0] using p1 l h1)
          filter_upwards [this] with z hz l' hl'
          cases hl'
          exact hz
      have q2 : ∀ᶠ z : (Ix → State ℝ np) × ℝ in 𝓝 (u, 0), ∀ b, e.2.2 = some b → seenAt c (z.1 + z.2 • slopes c z.1) i e.1 < b := by
        cases h1 : e.2.2 with
        | none => exact Filter.Eventually.of_forall fun z l hl => by cases hl
        | some l =>
          have := c2'.eventually_lt (continuousAt_const (y := l)) (by simpa [e0] using p2 l h1)
          filter_upwards [this] with z hz l' hl'
          cases hl'
          exact hz
      filter_upwards [q1, q2] with z z1 z2
      unfold padPoint
      rw [not_lt, le_min_iff]
      constructor
      · cases h1 : e.2.1 with
        | none => exact le_top
        | some l =>
          have := z1 l h1
          show ((0 : ℝ) : WithTop ℝ) ≤ _
          exact WithTop.coe_le_coe.2 (by linarith)
      · cases h1 : e.2.2 with
        | none => exact le_top
        | some l =>
          have := z2 l h1
          show ((0 : ℝ) : WithTop ℝ) ≤ _
          exact WithTop.coe_le_coe.2 (by linarith)
  have a1 := (Filter.eventually_all_finite (l := 𝓝 ((u, 0) : (Ix → State ℝ np) × ℝ)) fin (p := fun i z => ∀ v, z.1 ∈ stillSpace c.n Z →
    o.considers v = true → ¬(seenAt c (z.1 + z.2 • slopes c z.1) i v < tolLo o c.dims c.n (seenAt c z.1) i v ∨
        tolHi o c.dims c.n (seenAt c z.1) i v < seenAt c (z.1 + z.2 • slopes c z.1) i v))).2
    fun i hi => Filter.eventually_all.2 fun v => t1 i hi v
  have a2 := (Filter.eventually_all_finite (l := 𝓝 ((u, 0) : (Ix → State ℝ np) × ℝ)) fin (p := fun i z =>
    ¬padAt o.pad (seenAt c (z.1 + z.2 • slopes c z.1) i) < 0)).2 t2
  filter_upwards [a1, a2] with z z1 z2 hz i hi
  rintro (⟨v, hv, hb, -⟩ | hb)
  · exact z1 i hi v hz hv hb
  · exact z2 i hi hb

/-- Slack is kept by small changes. -/
theorem Slack.near {o : DetectOpts ℝ} (hp : ∀ d, c.p d ≤ 8) {Z : Fin 3 → Prop} {u : Ix → State ℝ np} (hs : Slack c o Z u) :
    ∀ᶠ u' in 𝓝 u, u' ∈ stillSpace c.n Z → Slack c o Z u' := by
  have inP : ∀ i, InCells c.n i → InPadded c.dims c.n i := fun i hi d => by
    have := hi d
    constructor <;> omega
  have fin : {i | InCells c.n i}.Finite := (box_finite (fun d => (c.n d : ℤ)) 0).subset fun i hi d => by
    have := hi d
    simpa using this
  have hcont : ∀ k, InPadded c.dims c.n k → ∀ v, ContinuousAt (fun u => seenAt c u k v) u := fun k hk v => seen_cont hp hs.centers k hk v
  have a0 : ∀ᶠ u' in 𝓝 u, OnBox (fun d => c.n d) (fun d => detPad c.dims d + ceilHalf (c.p d)) (fun v => 0 < v .rho)
      (latCenters ℝ c.p (padded c.scheme (clip c.n u'))) := by
    have := (Filter.eventually_all_finite (l := 𝓝 u) (box_finite (fun d => (c.n d : ℤ)) fun d => detPad c.dims d + ceilHalf (c.p d))
      (p := fun i u' => 0 < latCenters ℝ c.p (padded c.scheme (clip c.n u')) i .rho)).2 fun i hi => by
        have hb := OnBox.centers (n := fun d => (c.n d : ℤ)) (m := fun d => detPad c.dims d + ceilHalf (c.p d))
          (affClosed_continuousAt u) c.p hp
          (Φ := fun i x => padded c.scheme (clip c.n x) i) (fun i _ => ((continuous_padded c i).comp (continuous_clip c.n)).continuousAt) i hi
        have e : (fun u' => latCenters ℝ c.p (padded c.scheme (clip c.n u')) i) = latCenters ℝ c.p
            (fun i x => padded c.scheme (clip c.n x) i) i := by
          funext y
          exact (congrFun (centers_at c.p (fun i x => padded c.scheme (clip c.n x) i) y) i).symm
        rw [← e] at hb
        have hr : ContinuousAt (fun u' => latCenters ℝ c.p (padded c.scheme (clip c.n u')) i .rho) u :=
          ContinuousAt.comp (g := fun s : State ℝ np => s .rho) (continuous_apply (A := fun _ : Var np => ℝ) Var.rho).continuousAt hb
        exact hr.eventually (lt_mem_nhds (hs.centers i hi))
    filter_upwards [this] with u' hu' i hi
    exact hu' i hi
  have a1 := (Filter.eventually_all_finite (l := 𝓝 u) fin (p := fun i u' => ∀ v, o.considers v = true → (∀ d, Z d → v ≠ .mom d) →
      tolLo o c.dims c.n (seenAt c u') i v < seenAt c u' i v ∧ seenAt c u' i v < tolHi o c.dims c.n (seenAt c u') i v)).2
    fun i hi => Filter.eventually_all.2 fun v => by
      by_cases hv : o.considers v = true ∧ ∀ d, Z d → v ≠ .mom d
      · obtain ⟨n1, n2⟩ := hs.nad i hi v hv.1 hv.2
        obtain ⟨b1, b2⟩ := continuousAt_tol (x := u) o c.dims c.n (fun z => seenAt c z) v (fun k hk => hcont k hk v) i hi
        have c2' := hcont i (inP i hi) v
        filter_upwards [b1.eventually_lt c2' n1, c2'.eventually_lt b2 n2] with z z1 z2 _ _
        exact ⟨z1, z2⟩
      · exact Filter.Eventually.of_forall fun z h1 h2 => absurd ⟨h1, h2⟩ hv
  have a2 := (Filter.eventually_all_finite (l := 𝓝 u) fin (p := fun i u' => ∀ e, o.pad.getLast? = some e →
      (∀ l, e.2.1 = some l → l < seenAt c u' i e.1) ∧ ∀ b, e.2.2 = some b → seenAt c u' i e.1 < b)).2 fun i hi => by
    cases he : o.pad.getLast? with
    | none => exact Filter.Eventually.of_forall fun z e h => by cases h
    | some e =>
      obtain ⟨p1, p2⟩ := hs.pad i hi e he
      have c2' := hcont i (inP i hi) e.1
      have q1 : ∀ᶠ z in 𝓝 u, ∀ l, e.2.1 = some l → l < seenAt c z i e.1 := by
        cases h1 : e.2.1 with
        | none => exact Filter.Eventually.of_forall fun z l hl => by cases hl
        | some l =>
          filter_upwards [(continuousAt_const (y := l)).eventually_lt c2' (p1 l h1)] with z hz l' hl'
          cases hl'
          exact hz
      have q2 : ∀ᶠ z in 𝓝 u, ∀ b, e.2.2 = some b → seenAt c z i e.1 < b := by
        cases h1 : e.2.2 with
        | none => exact Filter.Eventually.of_forall fun z l hl => by cases hl
        | some l =>
          filter_upwards [c2'.eventually_lt (continuousAt_const (y := l)) (p2 l h1)] with z hz l' hl'
          cases hl'
          exact hz
      filter_upwards [q1, q2] with z z1 z2 e' he'
      cases he'
      exact ⟨z1, z2⟩
  filter_upwards [a0, a1, a2] with u' u0 u1 u2 hu'
  exact ⟨u0, fun d hd => ⟨(hs.still d hd).1, hu' d hd⟩, u1, u2⟩

open Classical in
/-- The momenta along `Z`. -/
noncomputable def across (n : Fin 3 → ℕ) (Z : Fin 3 → Prop) : (Cell n → State ℝ np) →ₗ[ℝ] (Cell n → State ℝ np) where
  toFun x := fun i v => if ∃ d, Z d ∧ v = .mom d then x i v else 0
  map_add' x y := by
    funext i v
    change (if _ then x i v + y i v else 0) = (if _ then x i v else 0) + if _ then y i v else 0
    split_ifs <;> simp
  map_smul' a x := by
    funext i v
    change (if _ then a * x i v else 0) = a * if _ then x i v else 0
    split_ifs <;> simp

theorem across_apply (n : Fin 3 → ℕ) (Z : Fin 3 → Prop) (x : Cell n → State ℝ np) (i : Cell n) (v : Var np) :
    (∃ d, Z d ∧ v = .mom d) ∧ across n Z x i v = x i v ∨ (¬∃ d, Z d ∧ v = .mom d) ∧ across n Z x i v = 0 := by
  by_cases h : ∃ d, Z d ∧ v = .mom d
  · exact .inl ⟨h, if_pos h⟩
  · exact .inr ⟨h, if_neg h⟩

theorem across_norm (n : Fin 3 → ℕ) (Z : Fin 3 → Prop) (x : Cell n → State ℝ np) :
    ‖across n Z x‖ ≤ ‖x‖ ∧ ‖x - across n Z x‖ ≤ ‖x‖ := by
  constructor
  · refine (pi_norm_le_iff_of_nonneg (norm_nonneg _)).2 fun i => (pi_norm_le_iff_of_nonneg (norm_nonneg _)).2 fun v => ?_
    rcases across_apply n Z x i v with ⟨-, e⟩ | ⟨-, e⟩ <;> rw [e]
    · exact (norm_le_pi_norm (x i) v).trans (norm_le_pi_norm x i)
    · rw [norm_zero]
      exact norm_nonneg _
  · refine (pi_norm_le_iff_of_nonneg (norm_nonneg _)).2 fun i => (pi_norm_le_iff_of_nonneg (norm_nonneg _)).2 fun v => ?_
    rw [Pi.sub_apply, Pi.sub_apply]
    rcases across_apply n Z x i v with ⟨-, e⟩ | ⟨-, e⟩ <;> rw [e]
    · rw [sub_self, norm_zero]
      exact norm_nonneg _
    · rw [sub_zero]
      exact (norm_le_pi_norm (x i) v).trans (norm_le_pi_norm x i)

theorem across_zero (n : Fin 3 → ℕ) (Z : Fin 3 → Prop) (u₀ : Ix → State ℝ np) (x : Cell n → State ℝ np) :
    across n Z x = 0 ↔ glue n u₀ x ∈ stillSpace n Z := by
  constructor
  · intro h d hd i hi
    have := congrFun (congrFun h ⟨i, hi⟩) (.mom d)
    rcases across_apply n Z x ⟨i, hi⟩ (.mom d) with ⟨-, e⟩ | ⟨hno, -⟩
    · rw [e] at this
      unfold glue
      rw [dif_pos hi]
      exact this
    · exact absurd ⟨d, hd, rfl⟩ hno
  · intro h
    funext i v
    rcases across_apply n Z x i v with ⟨⟨d, hd, rfl⟩, e⟩ | ⟨-, e⟩
    · rw [e]
      have := h d hd i.1 i.2
      unfold glue at this
      rw [dif_pos i.2] at this
      exact this
    · exact e

/-- Momentum across the grid does not arise. -/
theorem SmoothSetup.still_solution (h : SmoothSetup c) {Z : Fin 3 → Prop} (hZ : ∀ d, Z d → c.scheme.active d = false) {u₀ : Ix → State ℝ np}
    {T : ℝ} (hT : 0 < T) {x : ℝ → Cell c.n → State ℝ np} (hx : ∀ t ∈ Icc 0 T, HasDerivWithinAt x (cellSlopes c u₀ (x t)) (Icc 0 T) t)
    (hu : Sturdy c (glue c.n u₀ (x 0))) (h0 : glue c.n u₀ (x 0) ∈ stillSpace c.n Z) :
    ∃ T₁, 0 < T₁ ∧ T₁ ≤ T ∧ ∀ t ∈ Icc 0 T₁, glue c.n u₀ (x t) ∈ stillSpace c.n Z := by
  obtain ⟨L, U, hU, hL⟩ := h.slopes_lip hu
  obtain ⟨ε, hε, hb⟩ := Metric.mem_nhds_iff.1 hU
  obtain ⟨δ, hδ, hd⟩ := Metric.mem_nhdsWithin_iff.1 ((hx 0 ⟨le_rfl, hT.le⟩).continuousWithinAt.eventually (Metric.ball_mem_nhds _ hε))
  have z0 := (across_zero c.n Z u₀ (x 0)).2 h0
  have hT₁ : 0 < min T (δ / 2) := lt_min hT (by linarith)
  have hsub : Icc 0 (min T (δ / 2)) ⊆ Icc 0 T := Icc_subset_Icc le_rfl (min_le_left _ _)
  refine ⟨min T (δ / 2), hT₁, min_le_left _ _, fun t ht => (across_zero c.n Z u₀ (x t)).1 ?_⟩
  have near : ∀ t ∈ Icc 0 (min T (δ / 2)), x t ∈ U ∧ x t - across c.n Z (x t) ∈ U := by
    intro t ht
    have hin : t ∈ Metric.ball 0 δ ∩ Icc 0 T := by
      refine ⟨?_, hsub ht⟩
      rw [Metric.mem_ball, Real.dist_eq, sub_zero, abs_of_nonneg ht.1]
      have := ht.2.trans (min_le_right _ _)
      linarith
    have h1 : x t ∈ Metric.ball (x 0) ε := hd hin
    refine ⟨hb h1, hb ?_⟩
    rw [Metric.mem_ball, dist_eq_norm] at h1 ⊢
    refine lt_of_le_of_lt (le_trans (le_of_eq ?_) (across_norm c.n Z (x t - x 0)).2) h1
    rw [map_sub, z0, sub_zero, sub_right_comm]
  have hder : ∀ t ∈ Icc 0 (min T (δ / 2)), HasDerivWithinAt (fun s => across c.n Z (x s)) (across c.n Z (cellSlopes c u₀ (x t)))
      (Icc 0 (min T (δ / 2))) t := fun t ht =>
    (LinearMap.toContinuousLinearMap (across c.n Z)).hasFDerivAt.comp_hasDerivWithinAt t ((hx t (hsub ht)).mono hsub)
  refine eq_zero_of_abs_deriv_le_mul_abs_self_of_eq_zero_right (f := fun s => across c.n Z (x s))
    (f' := fun t => across c.n Z (cellSlopes c u₀ (x t))) (K := L) (fun t ht => (hder t ht).continuousWithinAt) (fun t ht => ?_) z0
    (fun t ht => ?_) t ht
  · exact (hder t ⟨ht.1, ht.2.le⟩).mono_of_mem_nhdsWithin (Icc_mem_nhdsGE_of_mem ht)
  · obtain ⟨n1, n2⟩ := near t ⟨ht.1, ht.2.le⟩
    have hst : across c.n Z (cellSlopes c u₀ (x t - across c.n Z (x t))) = 0 := by
      refine (across_zero c.n Z u₀ _).2 ?_
      have hin : glue c.n u₀ (x t - across c.n Z (x t)) ∈ stillSpace c.n Z := by
        refine (across_zero c.n Z u₀ _).1 ?_
        rw [map_sub, sub_eq_zero]
        funext i v
        rcases across_apply c.n Z (x t) i v with ⟨hm, e⟩ | ⟨hm, e⟩
        · rcases across_apply c.n Z (across c.n Z (x t)) i v with ⟨-, e'⟩ | ⟨hm', -⟩
          · exact e'.symm
          · exact absurd hm hm'
        · rcases across_apply c.n Z (across c.n Z (x t)) i v with ⟨hm', -⟩ | ⟨-, e'⟩
          · exact absurd hm' hm
          · rw [e, e']
      have := h.still_slopes hZ _ hin
      intro d hd i hi
      unfold glue cellSlopes inCells
      rw [dif_pos hi]
      exact this d hd i hi
    have e : across c.n Z (cellSlopes c u₀ (x t)) =
        across c.n Z (cellSlopes c u₀ (x t) - cellSlopes c u₀ (x t - across c.n Z (x t))) := by
      rw [map_sub, hst, sub_zero]
    rw [e]
    refine (across_norm c.n Z _).1.trans ?_
    have := hL.dist_le_mul _ n1 _ n2
    rw [dist_eq_norm, dist_eq_norm, sub_sub_cancel] at this
    exact this

end FVHOE
