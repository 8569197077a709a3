import Verif.Props.C12_C57
import Verif.Props.C93

/-!
C108: the bound on the CFL number in C12 is sharp; with the default CFL number a step in two or three dimensions can make
the density negative.
-/

set_option linter.unusedSectionVars false

namespace FVHOE

/-- The step of the degree-zero scheme is not smaller than it has to be. -/
theorem FirstOrder.dt_attained {K : Type} [Field K] [LinearOrder K] [IsStrictOrderedRing K] {np : ℕ} {c : EulerConfig K np}
    (h : FirstOrder c) (P : State K np → Prop) (hneg : ∀ d v, P v → P (negateMom d v)) (junk : ℕ → Ix → State K np)
    (mem : Fin 3 → Ix → State K np) (t t' : K) (u : Ix → State K np) (hu : ∀ i, InCells c.n i → P (u i)) {dt : K}
    {D : Ix → State K np} (hr : solverRHS c.scheme junk mem t t' u = .ok (dt, D)) :
    ∃ v, P v ∧ dt * signalSpeed c.gas c.directions.card (computePrimitives c.gas.gamma v) =
      c.cfl * min (min (c.h 0) (c.h 1)) (c.h 2) := by
  have hin : ∀ d, c.scheme.active d = false → fluxWidth c.scheme c.p d = 0 := fun d hd => by
    rw [h.width]; simp [hd]
  have hp1 : ∀ d, c.p d ≤ 1 := fun d => by rw [h.degree]; omega
  obtain ⟨dt', hdt, e⟩ := rhs_spec c.scheme h.limiting (fun d => (hp1 d).trans (by omega)) h.cells t _ _
    (h.sides.sides h.cells hin t) junk mem t' u u fun _ _ => rfl
  rw [hr] at e
  obtain ⟨rfl, -⟩ := Prod.mk.inj (Except.ok.inj e)
  have hb := ext_onBox c.scheme (fluxWidth c.scheme c.p) t _ _ (h.sides.sides h.cells hin t) P
    (fun e => c.scheme.ghost_keeps _ .l (fun e _ _ v hv => hneg e v hv) e)
    (fun e => c.scheme.ghost_keeps _ .r (fun e _ _ v hv => hneg e v hv) e) h.cells u hu
  change OnBox _ _ P (padded c.scheme u) at hb
  have hW : latPrim K c.scheme.prim c.scheme.p (extAll c.scheme.n (c.scheme.ghost .l) (c.scheme.ghost .r) u) =
      fun i => computePrimitives c.gas.gamma (padded c.scheme u i) := latPrim_low _ hp1 _
  rw [hW] at hdt
  unfold IsDt at hdt
  rw [show c.scheme.fixedDt = none from h.fixedDt] at hdt
  obtain ⟨m, ⟨i₀, hi₀, hm⟩, hmax, rfl⟩ := hdt
  have hm' : signalSpeed c.gas c.directions.card (computePrimitives c.gas.gamma (padded c.scheme u i₀)) = m := by
    rw [← c.ndim_eq]
    exact hm
  refine ⟨padded c.scheme u i₀, hb i₀ fun e => ?_, ?_⟩
  · have h1 := hi₀ e
    have : fluxGw c.scheme.p = 1 := by show fluxGw c.p = 1; unfold fluxGw; simp [h.degree, ceilHalf]
    rw [this] at h1
    beta_reduce
    rw [h.width]
    push_cast at h1 ⊢
    exact h1
  · rw [hm']
    have hpos := (soundSpeed_spec c.gas h.gas.sqrt h.gas.floor (computePrimitives c.gas.gamma (padded c.scheme u i₀))).1
    have hk : (1 : K) ≤ (c.directions.card : K) := by
      rw [← c.ndim_eq]
      exact_mod_cast h.ndim_pos
    have hm0 : m ≠ 0 := by
      rw [← hm']
      unfold signalSpeed sum3
      have := mul_pos (lt_of_lt_of_le one_pos hk) hpos
      positivity
    show c.cfl * min (min (c.h 0) (c.h 1)) (c.h 2) / m * m = _
    exact div_mul_cancel₀ _ hm0

/-- Three cells of size one along each of the given directions and one along the others, degree zero, llf, open sides. -/
noncomputable def burstConfig (act : Fin 3 → Bool) (cfl : ℝ) : EulerConfig ℝ 0 where
  gas := airGas
  riem := .llf
  n := fun d => if act d then 3 else 1
  p := fun _ => 0
  h := fun _ => 1
  cfl := cfl
  fixedDt := none
  bc := ⟨fun _ _ => .free, fun _ _ => .other, none⟩
  limiting := none

/-- The cell in the middle. -/
def burstCell (act : Fin 3 → Bool) : Ix := fun d => if act d then 1 else 0

/-- Velocities pointing away from the middle cell, in its neighbours. -/
noncomputable def burstVelocity (act : Fin 3 → Bool) (V : ℝ) (i : Ix) (d : Fin 3) : ℝ :=
  if i = burstCell act + Pi.single d 1 then V else if i = burstCell act - Pi.single d 1 then -V else 0

/-- A gas of density one and sound speed one, at rest except for the neighbours of the middle cell. -/
noncomputable def burst (act : Fin 3 → Bool) (V : ℝ) (i : Ix) : State ℝ 0 :=
  conserved (7 / 5) (flowing (burstVelocity act V i) (5 / 7) ![] 1)

theorem burst_first (act : Fin 3 → Bool) (hact : ∃ d, act d = true) (cfl : ℝ) (hc : 0 < cfl) :
    FirstOrder (burstConfig act cfl) where
  limiting := rfl
  fixedDt := rfl
  degree := fun _ => rfl
  cells := fun d => by show 1 ≤ if act d then 3 else 1; split <;> omega
  spacing := fun _ => one_pos
  cfl := hc
  gas := ⟨airGas_sqrt, by norm_num [burstConfig, airGas], by norm_num [burstConfig, airGas]⟩
  sides := fun _ _ => ⟨fun _ => .inl rfl, fun h => by cases h⟩
  extended := by
    obtain ⟨d, hd⟩ := hact
    exact ⟨d, by show (if act d then 3 else 1) ≠ 1; rw [if_pos hd]; omega⟩

/-- A state of density one, sound speed one and velocity components of total magnitude at most `V`. -/
def SlowGas (V : ℝ) (s : State ℝ 0) : Prop :=
  ∃ v : Fin 3 → ℝ, s = conserved (7 / 5) (flowing v (5 / 7) ![] 1) ∧ |v 0| + |v 1| + |v 2| ≤ V

theorem slowGas_negate {V : ℝ} (d : Fin 3) (s : State ℝ 0) (h : SlowGas V s) : SlowGas V (negateMom d s) := by
  obtain ⟨v, rfl, hv⟩ := h
  refine ⟨fun e => if e = d then -v e else v e, ?_, ?_⟩
  · have hsq : ∀ e, (if e = d then -v e else v e) ^ 2 = v e ^ 2 := fun e => by split <;> ring
    funext w
    cases w with
    | rho => rfl
    | ps j => exact j.elim0
    | en => simp only [negateMom, conserved, totalEnergy, flowing, hsq, reduceCtorEq, if_false]
    | mom e =>
      by_cases he : e = d
      · subst he
        simp [negateMom, conserved, flowing]
      · have : ¬ (Var.mom e : Var 0) = .mom d := fun hh => he (by cases hh; rfl)
        simp [negateMom, conserved, flowing, he]
  · have ha : ∀ e, |if e = d then -v e else v e| = |v e| := fun e => by split <;> simp
    simp only [ha]
    exact hv

theorem burstVelocity_sum (act : Fin 3 → Bool) {V : ℝ} (hV : 0 ≤ V) (i : Ix) :
    |burstVelocity act V i 0| + |burstVelocity act V i 1| + |burstVelocity act V i 2| ≤ V := by
  have hz : ∀ d, burstVelocity act V i d ≠ 0 → (i - burstCell act) d ≠ 0 ∧ ∀ e, e ≠ d → (i - burstCell act) e = 0 := by
    intro d hd
    unfold burstVelocity at hd
    split at hd
    · rename_i h
      subst h
      refine ⟨by simp, fun e he => by simp [he]⟩
    · split at hd
      · rename_i h
        subst h
        refine ⟨by simp, fun e he => by simp [he]⟩
      · exact absurd rfl hd
  have hb : ∀ d, |burstVelocity act V i d| ≤ V := fun d => by
    unfold burstVelocity
    split
    · rw [abs_of_nonneg hV]
    · split
      · rw [abs_neg, abs_of_nonneg hV]
      · simpa using hV
  have hone : ∀ d e, e ≠ d → burstVelocity act V i d ≠ 0 → burstVelocity act V i e = 0 := fun d e he hd => by
    by_contra hc
    exact (hz e hc).1 ((hz d hd).2 e he)
  by_cases h0 : burstVelocity act V i 0 = 0
  · by_cases h1 : burstVelocity act V i 1 = 0
    · rw [h0, h1]
      simpa using hb 2
    · rw [h0, hone 1 2 (by decide) h1]
      simpa using hb 1
  · rw [hone 0 1 (by decide) h0, hone 0 2 (by decide) h0]
    simpa using hb 0

theorem slow_sound (v : Fin 3 → ℝ) : soundSpeed airGas (flowing v (5 / 7) ![] 1 : State ℝ 0) = 1 := by
  have h1 : airGas.gamma * (flowing v (5 / 7) ![] 1 : State ℝ 0) .en / (flowing v (5 / 7) ![] 1 : State ℝ 0) .rho = 1 := by
    simp only [flowing, airGas]
    norm_num
  unfold soundSpeed
  rw [h1]
  dsimp only
  rw [if_pos (by norm_num [airGas])]
  exact Real.sqrt_one

/-- **C108** Whatever the number of directions, if it is larger than one over the CFL number there is a gas of density one and
pressure 5/7 on which one step of the automatic size, at degree zero with llf, makes the density of a cell negative. -/
theorem C108_sharp (act : Fin 3 → Bool) (cfl : ℝ) (hc : 0 < cfl) (hN : 1 < ((burstConfig act cfl).directions.card : ℝ) * cfl) :
    ∃ u : Ix → State ℝ 0, (∀ i, 0 < u i .rho ∧ 0 < pressureOf airGas.gamma (u i)) ∧
      ∀ f, IsSolverRHS (burstConfig act cfl).scheme f → ∃ dt k, f 0 0 u = .ok (dt, k) ∧ 0 < dt ∧
        InCells (burstConfig act cfl).n (burstCell act) ∧ (u + dt • k) (burstCell act) .rho < 0 := by
  obtain ⟨N, hNdef⟩ : ∃ N : ℝ, N = ((burstConfig act cfl).directions.card : ℝ) := ⟨_, rfl⟩
  have hact : ∃ d, act d = true := by
    by_contra hno
    have : (burstConfig act cfl).directions = ∅ := Finset.filter_eq_empty_iff.2 fun d _ => by
      rw [not_not]
      refine ⟨?_, rfl⟩
      show (if act d then 3 else 1) = 1
      rw [if_neg fun h => hno ⟨d, h⟩]
    rw [this] at hN
    simp at hN
    linarith
  have h := burst_first act hact cfl hc
  rw [← hNdef] at hN
  have hN1 : 1 ≤ N := by
    rw [hNdef, ← (burstConfig act cfl).ndim_eq]
    exact_mod_cast h.ndim_pos
  -- the speed
  obtain ⟨V, hV⟩ : ∃ V : ℝ, V = 2 * N / (N * cfl - 1) := ⟨_, rfl⟩
  have hd0 : 0 < N * cfl - 1 := by linarith
  have hV0 : 0 < V := by rw [hV]; positivity
  have hV1 : (N * cfl - 1) * V = 2 * N := by rw [hV]; field_simp
  have hgas : ∀ v : Fin 3 → ℝ, computePrimitives airGas.gamma (conserved (7 / 5) (flowing v (5 / 7) ![] 1 : State ℝ 0)) =
      flowing v (5 / 7) ![] 1 := fun v => prim_conserved (7 / 5) (by norm_num) _ one_ne_zero
  refine ⟨burst act V, fun i => ⟨one_pos, ?_⟩, fun f hf => ?_⟩
  · simp only [pressureOf, burst, conserved, totalEnergy, flowing, airGas]
    ring_nf
    norm_num
  obtain ⟨junk, mem, e⟩ := hf 0 0 (burst act V)
  have hu : ∀ i, InCells (burstConfig act cfl).n i → SlowGas V (burst act V i) := fun i _ =>
    ⟨_, rfl, burstVelocity_sum act hV0.le i⟩
  obtain ⟨dt, D, e', hdt, hD⟩ := h.rhs (SlowGas V) slowGas_negate junk mem 0 0 (burst act V) hu
  obtain ⟨s, ⟨v, rfl, hv⟩, hatt⟩ := h.dt_attained (SlowGas V) slowGas_negate junk mem 0 0 (burst act V) hu e'
  have hcell : InCells (burstConfig act cfl).n (burstCell act) := fun d => by
    show 0 ≤ (if act d then (1 : ℤ) else 0) ∧ (if act d then (1 : ℤ) else 0) < ((if act d then 3 else 1 : ℕ) : ℤ)
    split <;> norm_num
  refine ⟨dt, D, e.trans e', hdt, hcell, ?_⟩
  -- the step
  have hlow : cfl ≤ dt * (V + N) := by
    rw [show (burstConfig act cfl).gas = airGas from rfl, hgas] at hatt
    unfold signalSpeed at hatt
    rw [slow_sound, ← hNdef] at hatt
    have h1 : (burstConfig act cfl).cfl * min (min ((burstConfig act cfl).h 0) ((burstConfig act cfl).h 1))
        ((burstConfig act cfl).h 2) = cfl := by
      show cfl * min (min 1 1) 1 = cfl
      simp
    rw [h1] at hatt
    rw [← hatt, mul_one]
    refine mul_le_mul_of_nonneg_left ?_ hdt.le
    show |v 0| + |v 1| + |v 2| + N ≤ V + N
    linarith
  -- the rate
  obtain ⟨-, hpi, hDi⟩ := hD _ hcell
  have hflux : ∀ d, (burstConfig act cfl).n d ≠ 1 → ((-(1 / (burstConfig act cfl).h d)) •
        (riemann (burstConfig act cfl).riem (burstConfig act cfl).gas d
            (computePrimitives (burstConfig act cfl).gas.gamma (padded (burstConfig act cfl).scheme (burst act V) (burstCell act)))
            (computePrimitives (burstConfig act cfl).gas.gamma
              (padded (burstConfig act cfl).scheme (burst act V) (burstCell act + Pi.single d 1))) -
          riemann (burstConfig act cfl).riem (burstConfig act cfl).gas d
            (computePrimitives (burstConfig act cfl).gas.gamma
              (padded (burstConfig act cfl).scheme (burst act V) (burstCell act - Pi.single d 1)))
            (computePrimitives (burstConfig act cfl).gas.gamma
              (padded (burstConfig act cfl).scheme (burst act V) (burstCell act))))) .rho = -V := by
    intro d hd
    have had : act d = true := by
      by_contra hno
      exact hd (if_neg hno)
    have hin : ∀ s : ℤ, s = 1 ∨ s = -1 → InCells (burstConfig act cfl).n (burstCell act + Pi.single d s) := by
      intro s hs e
      have := hcell e
      by_cases he : e = d
      · subst he
        simp only [Pi.add_apply, Pi.single_eq_same, burstCell, had, if_true]
        show 0 ≤ 1 + s ∧ 1 + s < ((if act e then 3 else 1 : ℕ) : ℤ)
        rw [if_pos had]
        rcases hs with rfl | rfl <;> norm_num
      · simpa [he] using this
    have hr := hin 1 (.inl rfl)
    have hl : InCells (burstConfig act cfl).n (burstCell act - Pi.single d 1) := by
      have := hin (-1) (.inr rfl)
      rwa [Pi.single_neg, ← sub_eq_add_neg] at this
    rw [padded_cell _ _ _ hcell, padded_cell _ _ _ hr, padded_cell _ _ _ hl]
    unfold burst
    rw [show (burstConfig act cfl).gas = airGas from rfl, hgas, hgas, hgas]
    have hne : Pi.single (M := fun _ : Fin 3 => ℤ) d 1 ≠ 0 := fun hz => by
      have := congrFun hz d
      simp at this
    have v0 : burstVelocity act V (burstCell act) d = 0 := by
      unfold burstVelocity
      rw [if_neg (fun hz => hne (by simpa using hz.symm)), if_neg (fun hz => hne (by simpa using hz.symm))]
    have v1 : burstVelocity act V (burstCell act + Pi.single d 1) d = V := if_pos rfl
    have v2 : burstVelocity act V (burstCell act - Pi.single d 1) d = -V := by
      unfold burstVelocity
      rw [if_neg, if_pos rfl]
      intro hz
      have := congrFun hz d
      simp at this
      omega
    show (-(1 / 1 : ℝ)) * (llf airGas d _ _ .rho - llf airGas d _ _ .rho) = -V
    simp only [llf, computeFluxes, computeConservatives, flowing, v0, v1, v2]
    ring
  have hrate : D (burstCell act) .rho = -(N * V) := by
    rw [hDi, Finset.sum_apply]
    have : ∀ d : Fin 3, (if (burstConfig act cfl).n d ≠ 1 then ((-(1 / (burstConfig act cfl).h d)) •
        (riemann (burstConfig act cfl).riem (burstConfig act cfl).gas d
            (computePrimitives (burstConfig act cfl).gas.gamma (padded (burstConfig act cfl).scheme (burst act V) (burstCell act)))
            (computePrimitives (burstConfig act cfl).gas.gamma
              (padded (burstConfig act cfl).scheme (burst act V) (burstCell act + Pi.single d 1))) -
          riemann (burstConfig act cfl).riem (burstConfig act cfl).gas d
            (computePrimitives (burstConfig act cfl).gas.gamma
              (padded (burstConfig act cfl).scheme (burst act V) (burstCell act - Pi.single d 1)))
            (computePrimitives (burstConfig act cfl).gas.gamma
              (padded (burstConfig act cfl).scheme (burst act V) (burstCell act))))) else 0 : State ℝ 0) .rho =
        if d ∈ (burstConfig act cfl).directions then -V else 0 := fun d => by
      by_cases hd : (burstConfig act cfl).n d ≠ 1
      · rw [if_pos hd, hflux d hd, if_pos]
        exact Finset.mem_filter.2 ⟨Finset.mem_univ _, fun hh => hd hh.1⟩
      · rw [if_neg hd, if_neg]
        · rfl
        · intro hm
          exact (Finset.mem_filter.1 hm).2 ⟨not_not.1 hd, rfl⟩
    rw [Finset.sum_congr rfl fun d _ => this d, Finset.sum_ite_mem, Finset.univ_inter, Finset.sum_const, nsmul_eq_mul, ← hNdef]
    ring
  show burst act V (burstCell act) .rho + dt * D (burstCell act) .rho < 0
  rw [hrate, show burst act V (burstCell act) .rho = 1 from rfl]
  have hVN : 0 < V + N := by linarith
  have h1 : cfl * (N * V) ≤ dt * (N * V) * (V + N) := by
    have := mul_le_mul_of_nonneg_right hlow (show 0 ≤ N * V by positivity)
    linarith
  have h2 : V + N < cfl * (N * V) := by nlinarith
  have h3 : 1 < dt * (N * V) := by
    by_contra hno
    have := mul_le_mul_of_nonneg_right (not_lt.1 hno) hVN.le
    linarith
  linarith

/-- **C108, the default** With the default CFL number 0.8 of `EulerSolver` this happens in two and in three dimensions, and at
0.8 it does not in one (C12). -/
theorem C108_default_violated (act : Fin 3 → Bool) (h2 : 2 ≤ (burstConfig act (4 / 5)).directions.card) :
    ∃ u : Ix → State ℝ 0, (∀ i, 0 < u i .rho ∧ 0 < pressureOf airGas.gamma (u i)) ∧
      ∀ f, IsSolverRHS (burstConfig act (4 / 5)).scheme f → ∃ dt k, f 0 0 u = .ok (dt, k) ∧ 0 < dt ∧
        InCells (burstConfig act (4 / 5)).n (burstCell act) ∧ (u + dt • k) (burstCell act) .rho < 0 := by
  refine C108_sharp act (4 / 5) (by norm_num) ?_
  have : (2 : ℝ) ≤ ((burstConfig act (4 / 5)).directions.card : ℝ) := by exact_mod_cast h2
  linarith

/-- Two and three directions. -/
example : (burstConfig ![true, true, false] (4 / 5)).directions.card = 2 ∧
    (burstConfig ![true, true, true] (4 / 5)).directions.card = 3 := by
  constructor <;> decide

end FVHOE
