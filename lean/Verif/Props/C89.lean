import Verif.Proofs.Variation
import Verif.Props.C79
import Verif.Props.C71
import Verif.Props.C85
import Verif.Props.C87

/-!
C89: in a tube with a uniform flow the fallback scheme does not increase the total variation of the density; nor does the
first-order scheme in a periodic box of any dimension.
-/

set_option linter.unusedSectionVars false

namespace FVHOE

variable {K : Type} [Field K] [LinearOrder K] [IsStrictOrderedRing K] {np : ℕ}

/-- The difference of the crossing densities is a multiple of the difference to the cell upstream. -/
theorem crossing_upstream (tiny : K) (ht : 0 < tiny) (s : SlopeKind) (q : ℕ) (v : Fin 3 → K) (d : Fin 3)
    (β : Ix → K) (i : Ix) : ∃ κ, 0 ≤ κ ∧ κ ≤ 1 + (s.steepness : K) / 2 ∧
      v d * (crossing tiny s q v d β (i + Pi.single d 1) - crossing tiny s q v d β i) =
        |v d| * κ * (β i - β (if 0 < v d then i - Pi.single d 1 else i + Pi.single d 1)) := by
  have hk := s.steepness_bound (K := K)
  have e1 : i + Pi.single d 1 - Pi.single d 1 = i := add_sub_cancel_right _ _
  have e2 : i - Pi.single d 1 + Pi.single d 1 = i := sub_add_cancel _ _
  unfold crossing
  by_cases hv : 0 < v d
  · simp only [if_pos hv, e1]
    obtain ⟨θ, t1, t2, eθ⟩ := (slopeAt_limited tiny ht s q d β i).part hk.1
    have hL := slopeAt_limited tiny ht s q d β (i - Pi.single d 1)
    rw [e2] at hL
    obtain ⟨φ, p1, p2, eφ⟩ := hL.flip.part hk.1
    refine ⟨1 + θ / 2 - φ / 2, by linarith, by linarith, ?_⟩
    rw [eθ, eφ, abs_of_pos hv]
    ring
  · simp only [if_neg hv]
    obtain ⟨φ, p1, p2, eφ⟩ := (slopeAt_limited tiny ht s q d β i).flip.part hk.1
    have hL := slopeAt_limited tiny ht s q d β (i + Pi.single d 1)
    rw [e1] at hL
    obtain ⟨θ, t1, t2, eθ⟩ := hL.part hk.1
    refine ⟨1 - θ / 2 + φ / 2, by linarith, by linarith, ?_⟩
    rw [eθ, eφ, abs_of_nonpos (not_lt.1 hv)]
    ring

section

variable {V : Type}

theorem extAxis_inside (n : ℤ) (e : Fin 3) (gl gr : Ghost V) (Φ : Ix → V) (i : Ix) (h0 : 0 ≤ i e) (h1 : i e < n) :
    extAxis n e gl gr Φ i = Φ i := by
  unfold extAxis
  rw [if_neg (by omega), if_neg (by omega)]

/-- A value read just beyond a side. -/
theorem extAll_beside (n : Fin 3 → ℕ) (gl gr : Fin 3 → Ghost V) (Φ : Ix → V) (d : Fin 3) (i j : Ix) (hj : InCells n j)
    (hij : ∀ e, e ≠ d → i e = j e)
    (h : ∀ Ψ : Ix → V, extAxis (n d) d (gl d) (gr d) Ψ i = Ψ j) : extAll n gl gr Φ i = Φ j := by
  have hin : ∀ e, e ≠ d → ∀ Ψ : Ix → V, extAxis (n e) e (gl e) (gr e) Ψ i = Ψ i := fun e he Ψ =>
    extAxis_inside _ _ _ _ _ _ (by rw [hij e he]; exact (hj e).1) (by rw [hij e he]; exact (hj e).2)
  have hjn : ∀ e, ∀ Ψ : Ix → V, extAxis (n e) e (gl e) (gr e) Ψ j = Ψ j := fun e Ψ =>
    extAxis_inside _ _ _ _ _ _ (hj e).1 (hj e).2
  unfold extAll
  match d with
  | 0 => rw [hin 2 (by decide), hin 1 (by decide), h]
  | 1 => rw [hin 2 (by decide), h, hjn]
  | 2 => rw [h, hjn, hjn]

end

/-- The densities along the only active direction `d` of a tube. -/
def rowDensity (d : Fin 3) (u : Ix → State K np) (a : ℤ) : K := u (Pi.single d a) .rho

/-- A tube: `d` is the only active direction, and both of its ends or none are periodic. -/
structure IsTube (c : EulerConfig K np) (d : Fin 3) : Prop where
  active : c.scheme.active d = true
  only : ∀ e, c.scheme.active e = true → e = d
  paired : c.bc.kind d .l = .periodic ↔ c.bc.kind d .r = .periodic

/-- Whether the two ends of the tube are joined. -/
def EulerConfig.joined (c : EulerConfig K np) (d : Fin 3) : Bool := decide (c.bc.kind d .l = .periodic)

/-- The total variation of the density in the tube. -/
def tubeVariation (c : EulerConfig K np) (d : Fin 3) (u : Ix → State K np) : K :=
  rowVariation (c.n d) (c.joined d) (rowDensity d u)

theorem single_inCells {n : Fin 3 → ℕ} (hn : ∀ d, 1 ≤ n d) (d : Fin 3) {a : ℤ} (h0 : 0 ≤ a) (h1 : a < n d) :
    InCells n (Pi.single d a) := by
  intro e
  by_cases he : e = d
  · subst he; simpa using ⟨h0, h1⟩
  · have := hn e
    simp only [Pi.single_apply, if_neg he]
    omega

theorem tube_ghosts {c : EulerConfig K np} {o : LimiterOpts K} {s : SlopeKind} (h : FallbackSetup c o s) {d : Fin 3}
    (ht : IsTube c d) (U : Ix → State K np) :
    (padded c.scheme U (Pi.single d (-1)) = U (Pi.single d (if c.joined d = true then (c.n d : ℤ) - 1 else 0))) ∧
    padded c.scheme U (Pi.single d (c.n d : ℤ)) = U (Pi.single d (if c.joined d = true then 0 else (c.n d : ℤ) - 1)) := by
  have hn : (1 : ℤ) ≤ c.n d := by exact_mod_cast h.cells d
  have hside : ∀ s, c.scheme.ghost s d = sideGhost (c.scheme.negate d) (c.bc.kind d s) := fun s => by
    unfold Scheme.ghost
    rw [if_pos ht.active]
    rfl
  have hup : ∀ a b : ℤ, Function.update (Pi.single d a : Ix) d b = Pi.single d b := fun a b => by
    funext e
    by_cases he : e = d
    · subst he; simp
    · simp [he]
  have hne : ∀ a b : ℤ, ∀ e, e ≠ d → (Pi.single d a : Ix) e = (Pi.single d b : Ix) e := fun a b e he => by
    simp [he]
  have hkind := fun s => (h.sides d ht.active).1 s
  have hwall := fun s => h.noWall d s ht.active
  unfold EulerConfig.joined
  constructor
  · refine extAll_beside _ _ _ _ d _ _ ?_ (hne _ _) fun Ψ => ?_
    · refine single_inCells h.cells d ?_ ?_ <;> split_ifs <;> omega
    · unfold extAxis
      rw [if_pos (by simp), hside]
      change ∀ s, c.bc.kind d s = .free ∨ ((c.bc.kind d s = .outflow ∨ c.bc.kind d s = .reflective ∨
        c.bc.kind d s = .periodic) ∧ _) at hkind
      rcases hkind .l with e | ⟨e | e | e, -⟩
      · rw [e]; simp [sideGhost, Ghost.left, hup]
      · rw [e]; simp [sideGhost, Ghost.left, hup]
      · exact absurd e (hwall .l)
      · rw [e]
        simp only [sideGhost, Ghost.left, hup, Pi.single_eq_same, decide_true, if_true]
        congr 2
  · refine extAll_beside _ _ _ _ d _ _ ?_ (hne _ _) fun Ψ => ?_
    · refine single_inCells h.cells d ?_ ?_ <;> split_ifs <;> omega
    · unfold extAxis
      rw [if_neg (by simp), if_pos (by simp; exact le_rfl), hside]
      change ∀ s, c.bc.kind d s = .free ∨ ((c.bc.kind d s = .outflow ∨ c.bc.kind d s = .reflective ∨
        c.bc.kind d s = .periodic) ∧ _) at hkind
      have hp := ht.paired
      rcases hkind .r with e | ⟨e | e | e, -⟩
      · rw [e] at hp ⊢
        simp only [reduceCtorEq, iff_false] at hp
        simp only [sideGhost, Ghost.right, hup, hp, decide_false, Bool.false_eq_true, if_false]
        rfl
      · rw [e] at hp ⊢
        simp only [reduceCtorEq, iff_false] at hp
        simp only [sideGhost, Ghost.right, hup, hp, decide_false, Bool.false_eq_true, if_false, id, Pi.single_eq_same]
        congr 2
        show 2 * (c.n d : ℤ) - 1 - c.n d = c.n d - 1
        ring
      · exact absurd e (hwall .r)
      · rw [e] at hp ⊢
        simp only [iff_true] at hp
        simp only [sideGhost, Ghost.right, hup, hp, decide_true, if_true, Pi.single_eq_same]
        congr 2
        exact Int.emod_self

/-- **C89, one step** An Euler step of length `τ` with the rate of the fallback scheme does not increase the total
variation of the density of a uniform flow in a tube, if the flow crosses at most 2/3 (minmod) or 1/2 (moncen) of a cell. -/
theorem C89_step (c : EulerConfig K np) (o : LimiterOpts K) (s : SlopeKind) (h : FallbackSetup c o s) (d : Fin 3)
    (ht : IsTube c d) (v : Fin 3 → K) (P : K) (x : Fin np → K) (lo up : K) (hlo : 0 < lo) (u : Ix → State K np)
    (hu : UniformFlow c v P x lo up u) (junk : ℕ → Ix → State K np) (mem : Fin 3 → Ix → State K np) (t t' : K)
    (dt : K) (k : Ix → State K np) (hr : solverRHS (c.limited (some o)).scheme junk mem t t' u = .ok (dt, k))
    (τ : K) (h0 : 0 ≤ τ) (hτ : τ * (|v d| / c.h d) ≤ crossingLimit s) :
    tubeVariation c d (u + τ • k) ≤ tubeVariation c d u := by
  obtain ⟨dt', k', β, e, -, hβ, huβ, hk, U, hU, hpad⟩ := fallback_rate_padded h v P x lo up hlo u hu junk mem t t'
  rw [hr] at e
  obtain ⟨rfl, rfl⟩ := Prod.mk.inj (Except.ok.inj e)
  have hn := h.cells d
  have hh := h.spacing d
  have hrho : ∀ r, conserved c.gas.gamma (flowing v P x r) .rho = r := fun r => rfl
  have hin : ∀ a : ℤ, 0 ≤ a → a < c.n d → InCells c.n (Pi.single d a) := fun a => single_inCells h.cells d
  -- the row of densities, continued by one cell at each end
  obtain ⟨b, hb⟩ : ∃ b : ℤ → K, b = fun a => β (Pi.single d a) := ⟨_, rfl⟩
  have hrow : ∀ a : ℤ, 0 ≤ a → a < c.n d → rowDensity d u a = b a := fun a h1 h2 => by
    unfold rowDensity
    rw [huβ _ (hin a h1 h2), hb]
    exact hrho _
  have hUb : ∀ a : ℤ, 0 ≤ a → a < c.n d → U (Pi.single d a) = conserved c.gas.gamma (flowing v P x (b a)) := fun a h1 h2 => by
    rw [← hU _ (hin a h1 h2), huβ _ (hin a h1 h2), hb]
  obtain ⟨g1, g2⟩ := tube_ghosts h ht U
  have gl : b (-1) = if c.joined d = true then b (c.n d - 1) else b 0 := by
    rw [hpad, hUb _ (by split_ifs <;> omega) (by split_ifs <;> omega)] at g1
    have := congrFun g1 .rho
    rw [hrho, hrho] at this
    rw [hb] at this ⊢
    beta_reduce at this ⊢
    rw [this]
    split_ifs <;> rfl
  have gr : b (c.n d) = if c.joined d = true then b 0 else b (c.n d - 1) := by
    rw [hpad, hUb _ (by split_ifs <;> omega) (by split_ifs <;> omega)] at g2
    have := congrFun g2 .rho
    rw [hrho, hrho] at this
    rw [hb] at this ⊢
    beta_reduce at this ⊢
    rw [this]
    split_ifs <;> rfl
  choose κ κ0 κ1 hdiff using fun a : ℤ => crossing_upstream o.tiny h.tiny s (fallbackP c.p d) v d β (Pi.single d a)
  have hC : ∀ a, 0 ≤ τ * (|v d| / c.h d) * κ a ∧ τ * (|v d| / c.h d) * κ a ≤ 1 := by
    intro a
    have hq : 0 ≤ τ * (|v d| / c.h d) := by positivity
    refine ⟨mul_nonneg hq (κ0 a), ?_⟩
    refine (mul_le_mul_of_nonneg_left (κ1 a) hq).trans ?_
    cases s with
    | minmod =>
      simp only [crossingLimit, SlopeKind.steepness] at hτ ⊢
      linarith
    | moncen =>
      simp only [crossingLimit, SlopeKind.steepness] at hτ ⊢
      linarith
  have hnew : ∀ a : ℤ, 0 ≤ a → a < c.n d → rowDensity d (u + τ • k) a =
      b a - τ * (|v d| / c.h d) * κ a * (b a - if 0 < v d then b (a - 1) else b (a + 1)) := by
    intro a h1 h2
    have hsum : (∑ e, if c.scheme.active e = true then v e / c.h e *
        (crossing o.tiny s (fallbackP c.p e) v e β (Pi.single d a + Pi.single e 1) -
          crossing o.tiny s (fallbackP c.p e) v e β (Pi.single d a)) else 0) = v d / c.h d *
        (crossing o.tiny s (fallbackP c.p d) v d β (Pi.single d a + Pi.single d 1) -
          crossing o.tiny s (fallbackP c.p d) v d β (Pi.single d a)) := by
      refine (Finset.sum_eq_single d (fun e _ he => if_neg fun hx => he (ht.only e hx)) (by simp)).trans ?_
      rw [if_pos ht.active]
    unfold rowDensity
    rw [Pi.add_apply, Pi.smul_apply, hk _ (hin a h1 h2), hsum, huβ _ (hin a h1 h2)]
    have hcar : carried v x .rho = 1 := rfl
    rw [Pi.add_apply, Pi.smul_apply, Pi.smul_apply, hrho, hcar, smul_eq_mul, smul_eq_mul, mul_one]
    have hx := hdiff a
    have hup : β (if 0 < v d then Pi.single d a - Pi.single d 1 else Pi.single d a + Pi.single d 1) =
        if 0 < v d then b (a - 1) else b (a + 1) := by
      rw [hb, ← Pi.single_sub, ← Pi.single_add]
      split_ifs <;> rfl
    rw [hup] at hx
    have hba : β (Pi.single d a) = b a := by rw [hb]
    rw [hba] at hx ⊢
    have : v d / c.h d * (crossing o.tiny s (fallbackP c.p d) v d β (Pi.single d a + Pi.single d 1) -
        crossing o.tiny s (fallbackP c.p d) v d β (Pi.single d a)) =
        (|v d| * κ a * (b a - if 0 < v d then b (a - 1) else b (a + 1))) / c.h d := by
      rw [← hx]
      ring
    rw [this]
    ring
  unfold tubeVariation
  rw [rowVariation_congr hn _ hrow]
  by_cases hv : 0 < v d
  · simp only [if_pos hv] at hnew
    exact rowVariation_left hn _ _ _ _ (fun a _ _ => hC a) hnew gl
  · simp only [if_neg hv] at hnew
    exact rowVariation_right hn _ _ _ _ (fun a _ _ => hC a) hnew gr

/-- **C89** A run of `euler`, `ssprk2` or `ssprk3` in which every cell falls back (`force_trouble`, simple spreading) does
not increase the total variation of the density of a uniform flow in a tube with open or joined ends, under the same
conditions as C79. -/
theorem C89_run (c : EulerConfig K np) (o : LimiterOpts K) (s : SlopeKind) (h : FallbackSetup c o s) (d : Fin 3)
    (ht : IsTube c d) (v : Fin 3 → K) (hv : ShortSteps c s v) (P : K) (x : Fin np → K) (lo up : K) (hlo : 0 < lo)
    (f : RHS K (Ix → State K np)) (hf : IsSolverRHS (c.limited (some o)).scheme f) (m : Integrator) (hm : m.SSP)
    {Sn : Type} (mk : ODEState K (Ix → State K np) Sn → Sn) (fuel : ℕ) (a : IntegrateArgs K Sn)
    (st : ODEState K (Ix → State K np) Sn) (h0 : 0 ≤ st.t) (hT : Ahead a st.t) (hu : UniformFlow c v P x lo up st.u)
    (out : Outcome K (Ix → State K np) Sn) (hrun : st.integrate (stepper f m) mk fuel a = some out) :
    tubeVariation c d out.1.u ≤ tubeVariation c d st.u := by
  have hpos : PosDt f := by
    intro t t' u dt k hk
    obtain ⟨junk, mem, e⟩ := hf t t' u
    rw [e] at hk
    refine fallback_dt_pos h ?_ junk mem t t' u dt k hk
    unfold ShortSteps at hv
    cases hx : c.fixedDt <;> simp only [hx] at hv ⊢ <;> exact hv.1
  have hconv : Convex K {u : Ix → State K np | UniformFlow c v P x lo up u ∧
      tubeVariation c d u ≤ tubeVariation c d st.u} := by
    rintro u ⟨hu, hu'⟩ w ⟨hw, hw'⟩ a b ha hb hab
    refine ⟨fun i hi => ?_, ?_⟩
    · obtain ⟨r, r1, r2, r3⟩ := hu i hi
      obtain ⟨q, q1, q2, q3⟩ := hw i hi
      refine ⟨a * r + b * q, ?_, ?_, ?_⟩
      · nlinarith [mul_le_mul_of_nonneg_left r1 ha, mul_le_mul_of_nonneg_left q1 hb]
      · nlinarith [mul_le_mul_of_nonneg_left r2 ha, mul_le_mul_of_nonneg_left q2 hb]
      · rw [Pi.add_apply, Pi.smul_apply, Pi.smul_apply, r3, q3, conserved_flowing, conserved_flowing, conserved_flowing]
        rw [show b = 1 - a by linarith]
        module
    · refine (rowVariation_convex _ _ (rowDensity d u) (rowDensity d w) ha hb).trans ?_
      have h1 := mul_le_mul_of_nonneg_left hu' ha
      have h2 := mul_le_mul_of_nonneg_left hw' hb
      unfold tubeVariation at *
      refine (add_le_add h1 h2).trans ?_
      rw [← add_mul, hab, one_mul]
  refine (run_convex f hpos _ hconv m hm ?_ mk fuel a st h0 hT ⟨hu, le_rfl⟩ out hrun).2
  rintro t w dσ l ⟨hw, -⟩ hl τ hτ0 hτ t' u dτ k ⟨hu', hvar⟩ hk
  obtain ⟨junk, mem, e⟩ := hf t t w
  obtain ⟨junk', mem', e'⟩ := hf t t' u
  rw [e] at hl
  rw [e'] at hk
  have hsum : (∑ e, if c.scheme.active e = true then |v e| / c.h e else 0) = |v d| / c.h d := by
    refine (Finset.sum_eq_single d (fun e _ he => if_neg fun hx => he (ht.only e hx)) (by simp)).trans ?_
    rw [if_pos ht.active]
  have hh := h.spacing d
  have hb : τ * (∑ e, if c.scheme.active e = true then |v e| / c.h e else 0) ≤ crossingLimit s := by
    refine le_trans (mul_le_mul_of_nonneg_right hτ ?_) (hv.bound h P x lo up hlo w hw junk mem t t dσ l hl)
    rw [hsum]
    positivity
  refine ⟨C79_step c o s h v P x lo up hlo u hu' junk' mem' t t' dτ k hk τ hτ0.le hb, ?_⟩
  rw [hsum] at hb
  exact (C89_step c o s h d ht v P x lo up hlo u hu' junk' mem' t t' dτ k hk τ hτ0.le hb).trans hvar

/-! ## Cases -/

theorem rampTube_tube (cfl : ℝ) : IsTube (rampTube cfl) 0 where
  active := by simp [Scheme.active, EulerConfig.scheme, rampTube]
  only := fun e he => by
    match e with
    | 0 => rfl
    | 1 | 2 => simp [Scheme.active, EulerConfig.scheme, rampTube] at he
  paired := Iff.rfl

theorem rampTube_variation (cfl : ℝ) (u : Ix → State ℝ 0) :
    tubeVariation (rampTube cfl) 0 u = |rowDensity 0 u 1 - rowDensity 0 u 0| + |rowDensity 0 u 2 - rowDensity 0 u 1| +
      |rowDensity 0 u 3 - rowDensity 0 u 2| + |rowDensity 0 u 4 - rowDensity 0 u 3| + |rowDensity 0 u 5 - rowDensity 0 u 4| +
      |rowDensity 0 u 6 - rowDensity 0 u 5| + |rowDensity 0 u 7 - rowDensity 0 u 6| +
      |rowDensity 0 u 0 - rowDensity 0 u 7| := by
  unfold tubeVariation rowVariation
  rw [show (rampTube cfl).n 0 = 8 from rfl, show (rampTube cfl).joined 0 = true from rfl]
  simp [Finset.sum_range_succ]

theorem ramp_variation (cfl : ℝ) : tubeVariation (rampTube cfl) 0 ramp = 4 := by
  have h : ∀ a : ℤ, rowDensity 0 ramp a = if a ≤ 1 then 1 else if a = 2 then 2 else 3 := fun a => by
    unfold rowDensity ramp
    show (if (Pi.single 0 a : Ix) 0 ≤ 1 then (1 : ℝ) else if (Pi.single 0 a : Ix) 0 = 2 then 2 else 3) = _
    rw [Pi.single_eq_same]
  rw [rampTube_variation]
  simp only [h]
  norm_num

/-- The ramp of C79, whose variation around the tube is 4: with a CFL number of 2/3 and minmod, or 1/2 and moncen, it is at
most 4 after the run. -/
example (s : SlopeKind) (f : RHS ℝ (Ix → State ℝ 0))
    (hf : IsSolverRHS ((rampTube (crossingLimit s)).limited (some (forcedLimiter s))).scheme f)
    (out : Outcome ℝ (Ix → State ℝ 0) Unit)
    (hrun : (ODEState.init ramp).integrate (stepper f .ssprk2) (fun _ => ()) 1000
      ⟨some 2, none, true, [1], false, none⟩ = some out) :
    tubeVariation (rampTube (crossingLimit s)) 0 out.1.u ≤ 4 := by
  have hT : Ahead (Sn := Unit) (⟨some 2, none, true, [1], false, none⟩ : IntegrateArgs ℝ Unit) 0 := by
    intro T hT
    cases hT
    exact ⟨by norm_num, fun d hd => .inr (by rw [List.mem_singleton.1 hd]; norm_num)⟩
  rw [← ramp_variation (crossingLimit s)]
  refine C89_run _ _ s (rampTube_setup (crossingLimit s) s) 0 (rampTube_tube _) _ ?_ _ _ 1 3 one_pos f hf .ssprk2 trivial
    _ _ _ _ le_rfl hT (ramp_flow _) out hrun
  show 0 < crossingLimit s ∧ crossingLimit s ≤ crossingLimit s ∧ _
  refine ⟨by cases s <;> norm_num [crossingLimit], le_rfl, fun d => ?_⟩
  match d with | 0 | 1 | 2 => simp [rampTube]

/-- **C89, the limit is needed** With the default CFL number 0.8 one step of the fallback scheme with minmod increases the
variation of the ramp. -/
theorem C89_default_cfl_violated (f : RHS ℝ (Ix → State ℝ 0))
    (hf : IsSolverRHS ((rampTube (4 / 5)).limited (some (forcedLimiter .minmod))).scheme f) :
    ∃ dt k, f 0 0 ramp = .ok (dt, k) ∧
      tubeVariation (rampTube (4 / 5)) 0 ramp < tubeVariation (rampTube (4 / 5)) 0 (ramp + dt • k) := by
  obtain ⟨dt, k, e1, hlow⟩ := C79_default_cfl_violated f hf
  refine ⟨dt, k, e1, ?_⟩
  obtain ⟨junk, mem, e⟩ := hf 0 0 ramp
  obtain ⟨dt', k', β, e', -, hβ, huβ, hk⟩ := fallback_rate (rampTube_setup (4 / 5) .minmod) ![9, 0, 0] (5 / 7) ![] 1 3
    one_pos ramp (ramp_flow _) junk mem 0 0
  rw [← e, e1] at e'
  obtain ⟨rfl, rfl⟩ := Prod.mk.inj (Except.ok.inj e')
  have hcell : ∀ a : ℤ, 0 ≤ a → a < 8 → InCells (rampTube (4 / 5)).n (Pi.single 0 a) := fun a h1 h2 =>
    single_inCells (rampTube_setup (4 / 5) .minmod).cells 0 h1 h2
  have hb : ∀ a : ℤ, 3 ≤ a → a < 8 → β (Pi.single 0 a) = 3 := by
    intro a h1 h2
    have h3 := congrFun (huβ _ (hcell a (by omega) h2)) .rho
    have h4 : ramp (Pi.single 0 a) .rho = if (Pi.single 0 a : Ix) 0 ≤ 1 then (1 : ℝ) else
      if (Pi.single 0 a : Ix) 0 = 2 then 2 else 3 := rfl
    rw [Pi.single_eq_same, if_neg (by omega), if_neg (by omega)] at h4
    rw [h4] at h3
    exact h3.symm
  have h5 : rowDensity 0 (ramp + dt • k) 5 = 3 := by
    have hs : ∀ a b : ℤ, (Pi.single 0 a : Ix) + Pi.single 0 b = Pi.single 0 (a + b) := fun a b => by rw [Pi.single_add]
    have hs' : ∀ a b : ℤ, (Pi.single 0 a : Ix) - Pi.single 0 b = Pi.single 0 (a - b) := fun a b => by rw [Pi.single_sub]
    have hc : ∀ a : ℤ, a = 5 ∨ a = 6 → crossing (forcedLimiter .minmod).tiny .minmod (fallbackP (rampTube (4 / 5)).p 0)
        ![9, 0, 0] 0 β (Pi.single 0 a) = 3 := by
      intro a ha
      unfold crossing slopeAt
      rw [if_pos (by norm_num), hs', hs', hs, hb _ (by omega) (by omega), hb _ (by omega) (by omega), hb _ (by omega) (by omega)]
      simp [SlopeKind.fn_flat]
    unfold rowDensity
    rw [Pi.add_apply, Pi.smul_apply, hk _ (hcell 5 (by norm_num) (by norm_num)), Fin.sum_univ_three,
      if_pos (by simp [Scheme.active, EulerConfig.scheme, rampTube]),
      if_neg (by simp [Scheme.active, EulerConfig.scheme, rampTube]),
      if_neg (by simp [Scheme.active, EulerConfig.scheme, rampTube]), hs, hc _ (.inr (by norm_num)), hc _ (.inl rfl),
      huβ _ (hcell 5 (by norm_num) (by norm_num)),
      hb 5 (by norm_num) (by norm_num)]
    simp [conserved, flowing]
  have h2 : rowDensity 0 (ramp + dt • k) 2 < 1 := by
    have : (Pi.single 0 2 : Ix) = ![2, 0, 0] := by funext d; match d with | 0 | 1 | 2 => simp
    unfold rowDensity
    rw [this]
    exact hlow
  rw [ramp_variation, rampTube_variation]
  obtain ⟨r, hr⟩ : ∃ r, r = rowDensity 0 (ramp + dt • k) := ⟨_, rfl⟩
  rw [← hr] at h5 h2 ⊢
  linarith [le_abs_self (r 3 - r 2), le_abs_self (r 4 - r 3), le_abs_self (r 5 - r 4), neg_abs_le (r 6 - r 5),
    neg_abs_le (r 7 - r 6), neg_abs_le (r 0 - r 7), neg_abs_le (r 1 - r 0), neg_abs_le (r 2 - r 1)]

/-! ## The first-order scheme in a periodic box -/

/-- The sum over the cells of the jump of the density between a cell and the cell displaced from it by `σ`, counted around
the periodic box. -/
def jumpSum (n : Fin 3 → ℕ) (σ : Ix) (u : Ix → State ℝ np) : ℝ :=
  cellSum n fun i => |u (fun d => (i d + σ d) % n d) .rho - u i .rho|

/-- The same for values repeated periodically. -/
def cyclicJumps (n : Fin 3 → ℕ) (σ : Ix) (α : Ix → ℝ) : ℝ := cellSum n fun i => |α (i + σ) - α i|

theorem cellSum_le (n : Fin 3 → ℕ) {f g : Ix → ℝ} (h : ∀ i, InCells n i → f i ≤ g i) : cellSum n f ≤ cellSum n g := by
  have := cellSum_nonneg n (f := fun i => g i - f i) fun i hi => sub_nonneg.2 (h i hi)
  rw [cellSum_sub'] at this
  linarith

theorem jumpSum_cyclic {c : EulerConfig ℝ np} (hn : ∀ d, 1 ≤ c.n d) (σ : Ix) {α : Ix → ℝ} (hα : Cyclic c.n α)
    (v : Fin 3 → ℝ) (P : ℝ) (x : Fin np → ℝ) {u : Ix → State ℝ np}
    (hu : ∀ j, InCells c.n j → u j = conserved c.gas.gamma (flowing v P x (α j))) :
    jumpSum c.n σ u = cyclicJumps c.n σ α := by
  refine cellSum_congr _ _ _ fun i hi => ?_
  have hw : InCells c.n (fun d => (i d + σ d) % c.n d) := fun d =>
    ⟨Int.emod_nonneg _ (by have := hn d; omega), Int.emod_lt_of_pos _ (by have := hn d; omega)⟩
  rw [hu i hi, hu _ hw]
  have := periodic_wrap c.n α hα (i + σ)
  rw [← this]
  rfl

theorem upwindStep_displaced {act : Fin 3 → Bool} {h v : Fin 3 → ℝ} {τ : ℝ} (α : Ix → ℝ) (σ : Ix) (i : Ix) :
    upwindStep act h v τ α (i + σ) = upwindStep act h v τ (fun j => α (j + σ)) i := by
  unfold upwindStep
  congr 1
  refine Finset.sum_congr rfl fun d _ => ?_
  have : upwind v d (i + σ) = upwind v d i + σ := by
    unfold upwind
    split_ifs <;> abel
  rw [this]

/-- An upwind step does not increase the jumps. -/
theorem cyclicJumps_step {n : Fin 3 → ℕ} {act : Fin 3 → Bool} {h v : Fin 3 → ℝ} {τ : ℝ} (hh : ∀ d, 0 < h d) (hτ : 0 ≤ τ)
    (hs : ∑ d, share act h v τ d ≤ 1) (σ : Ix) {α : Ix → ℝ} (hα : Cyclic n α) :
    cyclicJumps n σ (upwindStep act h v τ α) ≤ cyclicJumps n σ α := by
  obtain ⟨γ, hγ⟩ : ∃ γ : Ix → ℝ, γ = fun j => α (j + σ) - α j := ⟨_, rfl⟩
  have hγc : ∀ d i, |γ (i + Pi.single d (n d : ℤ))| = |γ i| := fun d i => by
    rw [hγ]
    beta_reduce
    rw [add_right_comm, hα, hα]
  have h1 : ∀ i, |upwindStep act h v τ α (i + σ) - upwindStep act h v τ α i| ≤
      (1 - ∑ d, share act h v τ d) * |γ i| + ∑ d, share act h v τ d * |γ (upwind v d i)| := by
    intro i
    rw [upwindStep_displaced, upwindStep_sub, ← hγ, upwindStep_eq]
    refine (abs_add_le _ _).trans (add_le_add ?_ ?_)
    · rw [abs_mul, abs_of_nonneg (sub_nonneg.2 hs)]
    · refine (Finset.abs_sum_le_sum_abs _ _).trans (le_of_eq (Finset.sum_congr rfl fun d _ => ?_))
      rw [abs_mul, abs_of_nonneg (share_nonneg hh hτ d)]
  have h2 : ∀ d, cellSum n (fun i => |γ (upwind v d i)|) = cellSum n fun i => |γ i| := by
    intro d
    unfold upwind
    split_ifs
    · have := cellSum_shift n d (fun i => |γ i|) (hγc d) (-1)
      rw [← this]
      congr 1
      funext i
      rw [Pi.single_neg, sub_eq_add_neg]
    · exact cellSum_shift n d (fun i => |γ i|) (hγc d) 1
  have e : cyclicJumps n σ α = cellSum n fun i => |γ i| := by rw [hγ]; rfl
  rw [e]
  refine (cellSum_le n fun i _ => h1 i).trans (le_of_eq ?_)
  rw [cellSum_add, cellSum_finset]
  have e1 := cellSum_smul (K := ℝ) n (1 - ∑ d, share act h v τ d) fun i => |γ i|
  have e2 : ∀ d, cellSum n (fun i => share act h v τ d * |γ (upwind v d i)|) = share act h v τ d * cellSum n fun i => |γ i| := by
    intro d
    rw [← h2 d]
    exact cellSum_smul (K := ℝ) n (share act h v τ d) fun i => |γ (upwind v d i)|
  simp only [smul_eq_mul] at e1
  rw [e1, Finset.sum_congr rfl fun d _ => e2 d, ← Finset.sum_mul]
  ring

theorem cyclicJumps_convex (n : Fin 3 → ℕ) (σ : Ix) (α β : Ix → ℝ) {a b : ℝ} (ha : 0 ≤ a) (hb : 0 ≤ b) :
    cyclicJumps n σ (fun i => a * α i + b * β i) ≤ a * cyclicJumps n σ α + b * cyclicJumps n σ β := by
  have e1 := cellSum_smul (K := ℝ) n a fun i => |α (i + σ) - α i|
  have e2 := cellSum_smul (K := ℝ) n b fun i => |β (i + σ) - β i|
  simp only [smul_eq_mul] at e1 e2
  unfold cyclicJumps
  rw [← e1, ← e2, ← cellSum_add]
  refine cellSum_le n fun i _ => ?_
  rw [show a * α (i + σ) + b * β (i + σ) - (a * α i + b * β i) = a * (α (i + σ) - α i) + b * (β (i + σ) - β i) by ring]
  refine (abs_add_le _ _).trans ?_
  rw [abs_mul, abs_mul, abs_of_nonneg ha, abs_of_nonneg hb]

/-- **C89, first order** A run of `euler`, `ssprk2` or `ssprk3` at degree zero in a periodic box of any dimension, from a
gas of one velocity, pressure and set of concentrations with densities of at least `lo > 0`: for every displacement `σ` the
sum of the jumps of the density between the cells displaced by `σ` is at most what it was at the start. -/
theorem C89_first_order (c : EulerConfig ℝ np) (h : UpwindSetup c) (v : Fin 3 → ℝ) (P : ℝ) (x : Fin np → ℝ) (lo : ℝ)
    (hlo : 0 < lo) (f : RHS ℝ (Ix → State ℝ np)) (hf : IsSolverRHS c.scheme f) (m : Integrator) (hm : m.SSP) {Sn : Type}
    (mk : ODEState ℝ (Ix → State ℝ np) Sn → Sn) (fuel : ℕ) (a : IntegrateArgs ℝ Sn)
    (st : ODEState ℝ (Ix → State ℝ np) Sn) (h0 : 0 ≤ st.t) (hT : Ahead a st.t)
    (hu : ∀ j, InCells c.n j → ∃ r, lo ≤ r ∧ st.u j = conserved c.gas.gamma (flowing v P x r))
    (out : Outcome ℝ (Ix → State ℝ np) Sn) (hrun : st.integrate (stepper f m) mk fuel a = some out) (σ : Ix) :
    jumpSum c.n σ out.1.u ≤ jumpSum c.n σ st.u := by
  have hc := h.transport
  have hpos : PosDt f := by
    intro s t u dt k hk
    obtain ⟨junk, mem, e⟩ := hf s t u
    obtain ⟨dt', D, e', hd, _⟩ := h.first.rhs (fun _ => True) (fun _ _ _ => trivial) junk mem s t u fun _ _ => trivial
    rw [← e, hk] at e'
    cases e'
    exact hd
  let C : Set (Ix → State ℝ np) := {u | ∃ α : Ix → ℝ, Cyclic c.n α ∧ (∀ j, lo ≤ α j) ∧
    (∀ j, InCells c.n j → u j = conserved c.gas.gamma (flowing v P x (α j))) ∧
    cyclicJumps c.n σ α ≤ jumpSum c.n σ st.u}
  have hconv : Convex ℝ C := by
    rintro u ⟨α, a1, a2, a3, a4⟩ w ⟨β, b1, b2, b3, b4⟩ a b ha hb hab
    refine ⟨fun i => a * α i + b * β i, fun d i => ?_, fun j => ?_, fun j hj => ?_, ?_⟩
    · beta_reduce
      rw [a1 d i, b1 d i]
    · have e1 := mul_le_mul_of_nonneg_left (a2 j) ha
      have e2 := mul_le_mul_of_nonneg_left (b2 j) hb
      nlinarith
    · rw [Pi.add_apply, Pi.smul_apply, Pi.smul_apply, a3 j hj, b3 j hj, conserved_flowing, conserved_flowing,
        conserved_flowing]
      rw [show b = 1 - a by linarith]
      module
    · refine (cyclicJumps_convex c.n σ α β ha hb).trans ?_
      have e1 := mul_le_mul_of_nonneg_left a4 ha
      have e2 := mul_le_mul_of_nonneg_left b4 hb
      refine (add_le_add e1 e2).trans (le_of_eq ?_)
      rw [← add_mul, hab, one_mul]
  have hstart : st.u ∈ C := by
    choose! r r1 r2 using hu
    obtain ⟨α, hα, hαr⟩ := exists_periodic c.n r
    have huα : ∀ j, InCells c.n j → st.u j = conserved c.gas.gamma (flowing v P x (α j)) := fun j hj => by
      rw [hαr j hj]; exact r2 j hj
    refine ⟨α, hα, fun j => ?_, huα, (jumpSum_cyclic hc.cells σ hα v P x huα).ge⟩
    rw [← periodic_wrap c.n α hα j]
    have hw : InCells c.n (fun d => j d % c.n d) := fun d =>
      ⟨Int.emod_nonneg _ (by have := hc.cells d; omega), Int.emod_lt_of_pos _ (by have := hc.cells d; omega)⟩
    rw [hαr _ hw]
    exact r1 _ hw
  have hend : out.1.u ∈ C := by
    refine run_convex f hpos C hconv m hm ?_ mk fuel a st h0 hT hstart out hrun
    rintro t w dσ l ⟨β, b1, b2, b3, -⟩ hl τ hτ0 hτ t' u dτ k ⟨α, a1, a2, a3, a4⟩ hk
    obtain ⟨junk, mem, e⟩ := hf t t w
    obtain ⟨junk', mem', e'⟩ := hf t t' u
    obtain ⟨dt, D, g1, -, g3, -⟩ := upwind_rhs h v P x β b1 (fun j => hlo.trans_le (b2 j)) t t w b3 junk mem
    rw [← e, hl] at g1
    obtain ⟨rfl, rfl⟩ := Prod.mk.inj (Except.ok.inj g1)
    obtain ⟨dt', D', q1, -, -, q4⟩ := upwind_rhs h v P x α a1 (fun j => hlo.trans_le (a2 j)) t t' u a3 junk' mem'
    rw [← e', hk] at q1
    obtain ⟨rfl, rfl⟩ := Prod.mk.inj (Except.ok.inj q1)
    have hV : 0 ≤ ∑ d, |v d| := Finset.sum_nonneg fun d _ => abs_nonneg _
    have hτV : ∀ d, τ * ∑ d, |v d| ≤ c.h d := fun d => (mul_le_mul_of_nonneg_right hτ hV).trans (g3 d)
    have hshare : ∑ d, share c.scheme.active c.h v τ d ≤ 1 := by
      refine share_sum hc.spacing (min (min (c.h 0) (c.h 1)) (c.h 2))
        (lt_min (lt_min (hc.spacing 0) (hc.spacing 1)) (hc.spacing 2)) (fun d => ?_) hτ0.le
        (le_min (le_min (hτV 0) (hτV 1)) (hτV 2))
      match d with
      | 0 => exact (min_le_left _ _).trans (min_le_left _ _)
      | 1 => exact (min_le_left _ _).trans (min_le_right _ _)
      | 2 => exact min_le_right _ _
    exact ⟨upwindStep c.scheme.active c.h v τ α, fun d j => upwindStep_shift α _ (a1 d) j,
      upwindStep_least hc.spacing hτ0.le hshare α lo a2, q4 τ, (cyclicJumps_step hc.spacing hτ0.le hshare σ a1).trans a4⟩
  obtain ⟨α, hα, -, hu', hle⟩ := hend
  rw [jumpSum_cyclic hc.cells σ hα v P x hu']
  exact hle

/-- Any densities of at least 1 in the tube of C71, displaced by one cell. -/
example (N : ℕ) (hN : 2 ≤ N) (r : Ix → ℝ) (hr : ∀ j, 1 ≤ r j) (f : RHS ℝ (Ix → State ℝ 1))
    (hf : IsSolverRHS (sineTube N).scheme f) (fuel : ℕ) (out : Outcome ℝ (Ix → State ℝ 1) Unit) (u : Ix → State ℝ 1)
    (hu : u = fun j => conserved (sineTube N).gas.gamma (flowing ![1, 0, 0] 3 (fun _ => 1 / 2) (r j)))
    (hrun : (ODEState.init u).integrate (stepper f .ssprk3) (fun _ => ()) fuel ⟨none, some 1000, true, [], false, none⟩ = some out) :
    jumpSum (sineTube N).n (Pi.single 0 1) out.1.u ≤ jumpSum (sineTube N).n (Pi.single 0 1) u :=
  C89_first_order _ (sineTube_setup N hN) _ _ _ 1 one_pos f hf .ssprk3 trivial _ fuel _ _ le_rfl
    (by intro T hT; cases hT) (fun j _ => ⟨r j, hr j, congrFun hu j⟩) out hrun _

end FVHOE
