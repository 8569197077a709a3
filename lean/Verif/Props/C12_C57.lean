import Verif.Proofs.Positivity
import Verif.Proofs.Refine
import Verif.Props.C09_C10

/-!
C12: the degree-zero llf scheme keeps density and pressure positive. C57: passive scalars per mass obey a maximum
principle. C59: the degree-zero hllc scheme keeps density and pressure positive.
-/

set_option linter.unusedSectionVars false

namespace FVHOE

variable {K : Type} [Field K] [LinearOrder K] [IsStrictOrderedRing K] {np : ℕ}

theorem positive_negate (γ : K) (d : Fin 3) (v : State K np) (h : Positive γ v) : Positive γ (negateMom d v) := by
  refine ⟨h.1, ?_⟩
  have e : pressureOf γ (negateMom d v) = pressureOf γ v := by
    unfold pressureOf
    have k : ∀ e, negateMom d v (.mom e) ^ 2 = v (.mom e) ^ 2 := by
      intro e
      simp only [negateMom]
      split_ifs <;> ring
    rw [k, k, k]
    rfl
  rw [e]
  exact h.2

theorem IsSolverRHS.plain {S : Scheme K (State K np)} {f : RHS K (Ix → State K np)} (hf : IsSolverRHS S f) :
    IsCheckedRHS S (fun _ => True) f := by
  intro s t u r h
  obtain ⟨junk, mem, e⟩ := hf s t u
  exact ⟨trivial, junk, mem, e ▸ h⟩

/-- The conditions under which a run to time `T` only moves forward: the final time and the requested output times
lie ahead of the current time. -/
def Ahead {Sn : Type} (a : IntegrateArgs K Sn) (t : K) : Prop :=
  ∀ T, a.T = some T → t < T ∧ ∀ d ∈ a.downbeats, d = 0 ∨ t < d

/-- A cone kept by the one-sided updates is kept by whole runs. -/
theorem FirstOrder.run_cone {c : EulerConfig K np} (h : FirstOrder c) (C : State K np → Prop) (κ : K) (hC : IsCone C)
    (hneg : ∀ d v, C v → C (negateMom d v)) (hsafe : HalfSafe c.gas c.riem C C κ)
    (hκ : (c.directions.card : K) * c.cfl ≤ κ)
    (f : RHS K (Ix → State K np)) (hf : IsSolverRHS c.scheme f) {Sn : Type}
    (mk : ODEState K (Ix → State K np) Sn → Sn) (fuel : ℕ) (a : IntegrateArgs K Sn)
    (st : ODEState K (Ix → State K np) Sn) (h0 : 0 ≤ st.t) (hT : Ahead a st.t)
    (hP : ∀ i, InCells c.n i → C (st.u i)) (out : Outcome K (Ix → State K np) Sn)
    (hrun : st.integrate (stepper f .euler) mk fuel a = some out) : ∀ i, InCells c.n i → C (out.1.u i) := by
  refine h.run C (fun _ => True) ?_ f hf.plain mk fuel a st h0 hT hP out hrun
  intro u _ hu junk mem t t' dt D e τ hτ0 hτ
  obtain ⟨dt', D', e', -, k⟩ := h.step C C κ hC hneg hsafe hκ junk mem t t' u hu
  rw [e'] at e
  cases e
  exact k τ hτ0 hτ

theorem onlyOn_eq {V : Type} (Good : (Ix → V) → Prop) (f : RHS K (Ix → V)) (s t : K) (u : Ix → V) (h : Good u) :
    onlyOn Good f s t u = f s t u := by
  unfold onlyOn
  rw [if_pos h]

/-! ## C12 -/

/-- C12 (one step). At degree zero with llf, from positive densities and pressures the right-hand side is evaluated
without exception and proposes a positive step; a step of any length up to the proposed one ends with positive
densities and pressures, as long as the CFL number times the number of directions is at most one. -/
theorem C12_step (c : EulerConfig K np) (h : FirstOrder c) (hr : c.riem = .llf)
    (hcfl : (c.directions.card : K) * c.cfl ≤ 1) (junk : ℕ → Ix → State K np) (mem : Fin 3 → Ix → State K np)
    (t t' : K) (u : Ix → State K np) (hu : ∀ i, InCells c.n i → 0 < u i .rho ∧ 0 < pressureOf c.gas.gamma (u i)) :
    ∃ dt D, solverRHS c.scheme junk mem t t' u = .ok (dt, D) ∧ 0 < dt ∧ ∀ τ, 0 ≤ τ → τ ≤ dt →
      ∀ i, InCells c.n i → 0 < (u + τ • D) i .rho ∧ 0 < pressureOf c.gas.gamma ((u + τ • D) i) :=
  h.step (Positive c.gas.gamma) (Positive c.gas.gamma) 1 (positive_cone h.gas.gamma) (positive_negate _)
    (by rw [hr]; exact llf_safe c.gas h.gas _ (positive_cone h.gas.gamma) (fun _ => id) (positive_streamSafe c.gas h.gas))
    hcfl junk mem t t' u hu

/-- C12. Positive densities and pressures stay positive through every run of the explicit Euler method at degree zero
with llf, in one dimension for every CFL number up to one. -/
theorem C12_run (c : EulerConfig K np) (h : FirstOrder c) (hr : c.riem = .llf)
    (hcfl : (c.directions.card : K) * c.cfl ≤ 1) (f : RHS K (Ix → State K np)) (hf : IsSolverRHS c.scheme f) {Sn : Type}
    (mk : ODEState K (Ix → State K np) Sn → Sn) (fuel : ℕ) (a : IntegrateArgs K Sn)
    (st : ODEState K (Ix → State K np) Sn) (h0 : 0 ≤ st.t) (hT : Ahead a st.t)
    (hP : ∀ i, InCells c.n i → 0 < st.u i .rho ∧ 0 < pressureOf c.gas.gamma (st.u i))
    (out : Outcome K (Ix → State K np) Sn) (hrun : st.integrate (stepper f .euler) mk fuel a = some out) :
    ∀ i, InCells c.n i → 0 < out.1.u i .rho ∧ 0 < pressureOf c.gas.gamma (out.1.u i) :=
  h.run_cone (Positive c.gas.gamma) 1 (positive_cone h.gas.gamma) (positive_negate _)
    (by rw [hr]; exact llf_safe c.gas h.gas _ (positive_cone h.gas.gamma) (fun _ => id) (positive_streamSafe c.gas h.gas))
    hcfl f hf mk fuel a st h0 hT hP out hrun

/-! ## C59 -/

theorem positive_star {γ : K} : ∀ u v : State K np, Positive γ u → Positive γ v →
    (∃ r, 0 < r ∧ v .rho = r * u .rho ∧ ∀ j, v (.ps j) = r * u (.ps j)) → Positive γ v :=
  fun _ _ _ h _ => h

/-- C59 (one step). The same for hllc, as long as the CFL number times the number of directions is at most a quarter. -/
theorem C59_step (c : EulerConfig K np) (h : FirstOrder c) (hr : c.riem = .hllc)
    (hcfl : (c.directions.card : K) * c.cfl ≤ 1 / 4) (junk : ℕ → Ix → State K np) (mem : Fin 3 → Ix → State K np)
    (t t' : K) (u : Ix → State K np) (hu : ∀ i, InCells c.n i → 0 < u i .rho ∧ 0 < pressureOf c.gas.gamma (u i)) :
    ∃ dt D, solverRHS c.scheme junk mem t t' u = .ok (dt, D) ∧ 0 < dt ∧ ∀ τ, 0 ≤ τ → τ ≤ dt →
      ∀ i, InCells c.n i → 0 < (u + τ • D) i .rho ∧ 0 < pressureOf c.gas.gamma ((u + τ • D) i) :=
  h.step (Positive c.gas.gamma) (Positive c.gas.gamma) (1 / 4) (positive_cone h.gas.gamma) (positive_negate _)
    (by rw [hr]; exact hllc_safe c.gas h.gas _ (positive_cone h.gas.gamma) (fun _ => id) positive_star)
    hcfl junk mem t t' u hu

/-- C59. Positive densities and pressures stay positive through every run of the explicit Euler method at degree zero
with hllc and a CFL number times the number of directions of at most a quarter. -/
theorem C59_run (c : EulerConfig K np) (h : FirstOrder c) (hr : c.riem = .hllc)
    (hcfl : (c.directions.card : K) * c.cfl ≤ 1 / 4) (f : RHS K (Ix → State K np)) (hf : IsSolverRHS c.scheme f)
    {Sn : Type} (mk : ODEState K (Ix → State K np) Sn → Sn) (fuel : ℕ) (a : IntegrateArgs K Sn)
    (st : ODEState K (Ix → State K np) Sn) (h0 : 0 ≤ st.t) (hT : Ahead a st.t)
    (hP : ∀ i, InCells c.n i → 0 < st.u i .rho ∧ 0 < pressureOf c.gas.gamma (st.u i))
    (out : Outcome K (Ix → State K np) Sn) (hrun : st.integrate (stepper f .euler) mk fuel a = some out) :
    ∀ i, InCells c.n i → 0 < out.1.u i .rho ∧ 0 < pressureOf c.gas.gamma (out.1.u i) :=
  h.run_cone (Positive c.gas.gamma) (1 / 4) (positive_cone h.gas.gamma) (positive_negate _)
    (by rw [hr]; exact hllc_safe c.gas h.gas _ (positive_cone h.gas.gamma) (fun _ => id) positive_star)
    hcfl f hf mk fuel a st h0 hT hP out hrun

/-! ## C57 -/

theorem within_iff (j : Fin np) (lo hi : K) (u : State K np) (hu : 0 < u .rho) :
    Within j lo hi u ↔ lo ≤ u (.ps j) / u .rho ∧ u (.ps j) / u .rho ≤ hi := by
  unfold Within
  rw [le_div_iff₀ hu, div_le_iff₀ hu]

theorem within_negate (γ : K) (j : Fin np) (lo hi : K) (d : Fin 3) (v : State K np)
    (h : Positive γ v ∧ 0 < v .rho ∧ Within j lo hi v) :
    Positive γ (negateMom d v) ∧ 0 < negateMom d v .rho ∧ Within j lo hi (negateMom d v) :=
  ⟨positive_negate γ d v h.1, h.2.1, h.2.2⟩

theorem within_run {c : EulerConfig K np} (h : FirstOrder c) (κ : K) (hκ : (c.directions.card : K) * c.cfl ≤ κ)
    (j : Fin np) (lo hi : K)
    (hsafe : HalfSafe c.gas c.riem (fun u : State K np => Positive c.gas.gamma u ∧ 0 < u .rho ∧ Within j lo hi u)
      (fun u : State K np => Positive c.gas.gamma u ∧ 0 < u .rho ∧ Within j lo hi u) κ)
    (f : RHS K (Ix → State K np)) (hf : IsSolverRHS c.scheme f)
    {Sn : Type} (mk : ODEState K (Ix → State K np) Sn → Sn) (fuel : ℕ) (a : IntegrateArgs K Sn)
    (st : ODEState K (Ix → State K np) Sn) (h0 : 0 ≤ st.t) (hT : Ahead a st.t)
    (hP : ∀ i, InCells c.n i → 0 < st.u i .rho ∧ 0 < pressureOf c.gas.gamma (st.u i))
    (hw : ∀ i, InCells c.n i → lo ≤ st.u i (.ps j) / st.u i .rho ∧ st.u i (.ps j) / st.u i .rho ≤ hi)
    (out : Outcome K (Ix → State K np) Sn) (hrun : st.integrate (stepper f .euler) mk fuel a = some out)
    (i : Ix) (hi' : InCells c.n i) :
    lo ≤ out.1.u i (.ps j) / out.1.u i .rho ∧ out.1.u i (.ps j) / out.1.u i .rho ≤ hi := by
  have := h.run_cone _ κ ((positive_cone h.gas.gamma).and (within_cone j lo hi)) (within_negate _ j lo hi) hsafe
    hκ f hf mk fuel a st h0 hT
    (fun i hi' => ⟨hP i hi', (hP i hi').1, (within_iff j lo hi _ (hP i hi').1).2 (hw i hi')⟩) out hrun i hi'
  exact (within_iff j lo hi _ this.2.1).1 this.2.2

/-- C57 (llf). At degree zero with llf a passive concentration stays within its initial bounds through every run of the
explicit Euler method from positive densities and pressures, in one dimension for every CFL number up to one. -/
theorem C57_llf (c : EulerConfig K np) (h : FirstOrder c) (hr : c.riem = .llf)
    (hcfl : (c.directions.card : K) * c.cfl ≤ 1) (j : Fin np) (lo hi : K)
    (f : RHS K (Ix → State K np)) (hf : IsSolverRHS c.scheme f)
    {Sn : Type} (mk : ODEState K (Ix → State K np) Sn → Sn) (fuel : ℕ) (a : IntegrateArgs K Sn)
    (st : ODEState K (Ix → State K np) Sn) (h0 : 0 ≤ st.t) (hT : Ahead a st.t)
    (hP : ∀ i, InCells c.n i → 0 < st.u i .rho ∧ 0 < pressureOf c.gas.gamma (st.u i))
    (hw : ∀ i, InCells c.n i → lo ≤ st.u i (.ps j) / st.u i .rho ∧ st.u i (.ps j) / st.u i .rho ≤ hi)
    (out : Outcome K (Ix → State K np) Sn) (hrun : st.integrate (stepper f .euler) mk fuel a = some out)
    (i : Ix) (hi' : InCells c.n i) :
    lo ≤ out.1.u i (.ps j) / out.1.u i .rho ∧ out.1.u i (.ps j) / out.1.u i .rho ≤ hi :=
  within_run h 1 hcfl j lo hi
    (by rw [hr]; exact llf_safe c.gas h.gas _ ((positive_cone h.gas.gamma).and (within_cone j lo hi)) (fun _ => And.left)
          (within_streamSafe c.gas h.gas j lo hi)) f hf mk fuel a st h0 hT hP hw out hrun i hi'

/-- C57 (hllc, CFL at most a quarter over the number of directions). The same for hllc with no condition on the states
met on the way. -/
theorem C57_hllc_quarter (c : EulerConfig K np) (h : FirstOrder c) (hr : c.riem = .hllc)
    (hcfl : (c.directions.card : K) * c.cfl ≤ 1 / 4) (j : Fin np) (lo hi : K)
    (f : RHS K (Ix → State K np)) (hf : IsSolverRHS c.scheme f)
    {Sn : Type} (mk : ODEState K (Ix → State K np) Sn → Sn) (fuel : ℕ) (a : IntegrateArgs K Sn)
    (st : ODEState K (Ix → State K np) Sn) (h0 : 0 ≤ st.t) (hT : Ahead a st.t)
    (hP : ∀ i, InCells c.n i → 0 < st.u i .rho ∧ 0 < pressureOf c.gas.gamma (st.u i))
    (hw : ∀ i, InCells c.n i → lo ≤ st.u i (.ps j) / st.u i .rho ∧ st.u i (.ps j) / st.u i .rho ≤ hi)
    (out : Outcome K (Ix → State K np) Sn) (hrun : st.integrate (stepper f .euler) mk fuel a = some out)
    (i : Ix) (hi' : InCells c.n i) :
    lo ≤ out.1.u i (.ps j) / out.1.u i .rho ∧ out.1.u i (.ps j) / out.1.u i .rho ≤ hi :=
  within_run h (1 / 4) hcfl j lo hi
    (by
      rw [hr]
      refine hllc_safe c.gas h.gas _ ((positive_cone h.gas.gamma).and (within_cone j lo hi)) (fun _ => And.left) ?_
      rintro u v ⟨_, _, h1, h2⟩ hv ⟨r, hr, e1, e2⟩
      refine ⟨hv, hv.1, ?_, ?_⟩
      · rw [e1, e2]; have := mul_le_mul_of_nonneg_left h1 hr.le; linarith
      · rw [e1, e2]; have := mul_le_mul_of_nonneg_left h2 hr.le; linarith) f hf mk fuel a st h0 hT hP hw out hrun i hi'

/-- C57 (hllc). At degree zero with hllc a passive concentration stays within its initial bounds, and the density stays
positive, through every run of the explicit Euler method that meets only positive pressures, in one dimension for every
CFL number up to one half. -/
theorem C57_hllc (c : EulerConfig K np) (h : FirstOrder c) (hr : c.riem = .hllc)
    (hcfl : (c.directions.card : K) * c.cfl ≤ 1 / 2) (j : Fin np) (lo hi : K)
    (f : RHS K (Ix → State K np)) (hf : IsSolverRHS c.scheme f)
    {Sn : Type} (mk : ODEState K (Ix → State K np) Sn → Sn) (fuel : ℕ) (a : IntegrateArgs K Sn)
    (st : ODEState K (Ix → State K np) Sn) (h0 : 0 ≤ st.t) (hT : Ahead a st.t)
    (hP : ∀ i, InCells c.n i → 0 < st.u i .rho)
    (hw : ∀ i, InCells c.n i → lo ≤ st.u i (.ps j) / st.u i .rho ∧ st.u i (.ps j) / st.u i .rho ≤ hi)
    (out : ODEState K (Ix → State K np) Sn)
    (hrun : st.integrate
      (stepper (onlyOn (fun u => ∀ i, InCells c.n i → 0 < pressureOf c.gas.gamma (u i)) f) .euler) mk fuel a =
        some (out, none)) :
    st.integrate (stepper f .euler) mk fuel a = some (out, none) ∧ ∀ i, InCells c.n i → 0 < out.u i .rho ∧
      lo ≤ out.u i (.ps j) / out.u i .rho ∧ out.u i (.ps j) / out.u i .rho ≤ hi := by
  refine ⟨integrate_refine _ _ (onlyOn_sub _ f) .euler _ fuel _ st out hrun, fun i hi' => ?_⟩
  have key : 0 < out.u i .rho ∧ Within j lo hi (out.u i) := by
    refine h.run (fun u : State K np => 0 < u .rho ∧ Within j lo hi u)
      (fun u => ∀ i, InCells c.n i → 0 < pressureOf c.gas.gamma (u i)) ?_
      (onlyOn (fun u => ∀ i, InCells c.n i → 0 < pressureOf c.gas.gamma (u i)) f) ?_ mk fuel a st h0 hT
      (fun i hi' => ⟨hP i hi', (within_iff j lo hi _ (hP i hi')).2 (hw i hi')⟩) (out, none) hrun i hi'
    · intro u hg hu junk mem t t' dt D e τ hτ0 hτ
      obtain ⟨dt', D', e', -, k⟩ := h.step (fun u : State K np => Positive c.gas.gamma u ∧ Within j lo hi u)
        (fun u : State K np => 0 < u .rho ∧ Within j lo hi u) (1 / 2) (within_cone j lo hi)
        (fun d v hv => ⟨positive_negate _ d v hv.1, hv.2⟩)
        (by rw [hr]; exact hllc_within c.gas h.gas j lo hi) hcfl junk mem t t' u
        (fun i hi' => ⟨⟨(hu i hi').1, hg i hi'⟩, (hu i hi').2⟩)
      rw [e'] at e
      cases e
      exact k τ hτ0 hτ
    · intro s t u r hk
      unfold onlyOn at hk
      split at hk
      · rename_i hg
        obtain ⟨junk, mem, e⟩ := hf s t u
        exact ⟨hg, junk, mem, e ▸ hk⟩
      · cases hk
  exact ⟨key.1, (within_iff j lo hi _ key.1).1 key.2⟩

/-! ## Cases -/

/-- A tube of ten cells with one passive scalar, a wall at the left end and an open right end, and a CFL number of one,
one half or one quarter. -/
noncomputable def dyeTube (k : RiemannKind) (q : Fin 3) : EulerConfig ℝ 1 where
  gas := airGas
  riem := k
  n := ![10, 1, 1]
  p := ![0, 0, 0]
  h := ![1, 1, 1]
  cfl := ![1, 1 / 2, 1 / 4] q
  fixedDt := none
  bc := ⟨fun _ s => match s with | .l => .reflective | .r => .free, fun _ _ => .other, none⟩
  limiting := none

theorem dyeTube_first (k : RiemannKind) (q : Fin 3) : FirstOrder (dyeTube k q) where
  limiting := rfl
  fixedDt := rfl
  degree := by cases k <;> revert q <;> decide
  cells := by cases k <;> revert q <;> decide
  spacing := fun d => by match d with | 0 | 1 | 2 => simp [dyeTube]
  cfl := by match q with | 0 | 1 | 2 => simp [dyeTube]
  gas := ⟨airGas_sqrt, by norm_num [dyeTube, airGas], by norm_num [dyeTube, airGas]⟩
  sides := by
    have e : fluxWidth (dyeTube k q).scheme (dyeTube k q).p = ![1, 0, 0] := by cases k <;> revert q <;> decide
    rw [e]
    intro d _
    refine ⟨fun s => ?_, ?_⟩
    · cases s <;> cases k <;> revert d q <;> decide
    · cases k <;> revert d q <;> decide
  extended := ⟨0, by cases k <;> revert q <;> decide⟩

theorem dyeTube_card (k : RiemannKind) (q : Fin 3) : (dyeTube k q).directions.card = 1 := by
  cases k <;> revert q <;> decide

/-- A strong blast: density and pressure jump by large factors, and the dye fills the left half. -/
noncomputable def blastState (i : Ix) : State ℝ 1
  | .rho => if i 0 < 5 then 1000 else 1
  | .mom _ => 0
  | .en => if i 0 < 5 then 1000 else 1 / 1000
  | .ps _ => if i 0 < 5 then 1000 else 0

theorem blast_positive (i : Ix) : 0 < blastState i .rho ∧ 0 < pressureOf airGas.gamma (blastState i) := by
  simp only [blastState, pressureOf, airGas]
  split_ifs <;> norm_num

theorem blast_dye (i : Ix) : 0 ≤ blastState i (.ps 0) / blastState i .rho ∧ blastState i (.ps 0) / blastState i .rho ≤ 1 := by
  simp only [blastState]
  split_ifs <;> norm_num

/-- The hypotheses of the theorems hold for the blast in the tube with ten steps, or a final time of two. -/
example (f : RHS ℝ (Ix → State ℝ 1)) (hf : IsSolverRHS (dyeTube .llf 0).scheme f) (out : Outcome ℝ (Ix → State ℝ 1) Unit)
    (hrun : (ODEState.init blastState).integrate (stepper f .euler) (fun _ => ()) 1000
      ⟨some 2, none, true, [1], false, none⟩ = some out) :
    ∀ i, InCells ![10, 1, 1] i → 0 < out.1.u i .rho ∧ out.1.u i (.ps 0) / out.1.u i .rho ≤ 1 := by
  have hT : Ahead (Sn := Unit) (⟨some 2, none, true, [1], false, none⟩ : IntegrateArgs ℝ Unit) 0 := by
    intro T hT
    cases hT
    exact ⟨by norm_num, fun d hd => .inr (by rw [List.mem_singleton.1 hd]; norm_num)⟩
  intro i hi
  exact ⟨(C12_run _ (dyeTube_first .llf 0) rfl (by rw [dyeTube_card]; simp [dyeTube]) f hf _ _ _ _ le_rfl hT
      (fun i _ => blast_positive i) out hrun i hi).1,
    (C57_llf _ (dyeTube_first .llf 0) rfl (by rw [dyeTube_card]; simp [dyeTube]) 0 0 1 f hf _ _ _ _ le_rfl hT
      (fun i _ => blast_positive i) (fun i _ => blast_dye i) out hrun i hi).2⟩

example (f : RHS ℝ (Ix → State ℝ 1)) (hf : IsSolverRHS (dyeTube .hllc 2).scheme f)
    (out : Outcome ℝ (Ix → State ℝ 1) Unit)
    (hrun : (ODEState.init blastState).integrate (stepper f .euler) (fun _ => ()) 1000
      ⟨none, some 10, true, [], false, none⟩ = some out) :
    ∀ i, InCells ![10, 1, 1] i → 0 < out.1.u i .rho ∧ out.1.u i (.ps 0) / out.1.u i .rho ≤ 1 := by
  have hT : Ahead (Sn := Unit) (⟨none, some 10, true, [], false, none⟩ : IntegrateArgs ℝ Unit) 0 := by
    intro T hT
    cases hT
  intro i hi
  exact ⟨(C59_run _ (dyeTube_first .hllc 2) rfl (by rw [dyeTube_card]; simp [dyeTube]) f hf _ _ _ _
      le_rfl hT (fun i _ => blast_positive i) out hrun i hi).1,
    (C57_hllc_quarter _ (dyeTube_first .hllc 2) rfl (by rw [dyeTube_card]; simp [dyeTube]) 0 0 1
      f hf _ _ _ _ le_rfl hT (fun i _ => blast_positive i) (fun i _ => blast_dye i) out hrun i hi).2⟩

/-- The first step from the blast meets only positive pressures, so `C57_hllc` applies to it with CFL one half. -/
example (f : RHS ℝ (Ix → State ℝ 1)) (hf : IsSolverRHS (dyeTube .hllc 1).scheme f) :
    ∃ out, (ODEState.init blastState).integrate (stepper (onlyOn
      (fun u => ∀ i, InCells (dyeTube .hllc 1).n i → 0 < pressureOf (dyeTube .hllc 1).gas.gamma (u i)) f) .euler)
      (fun _ => ()) 0 ⟨none, some 1, true, [], false, none⟩ = some (out, none) ∧
      ∀ i, InCells ![10, 1, 1] i → out.u i (.ps 0) / out.u i .rho ≤ 1 := by
  obtain ⟨junk, mem, e⟩ := hf 0 0 blastState
  have hF := dyeTube_first .hllc 1
  obtain ⟨dt, D, e2, -, -⟩ := hF.rhs (fun _ => True) (fun _ _ _ => trivial) junk mem 0 0 blastState fun _ _ => trivial
  have hg : ∀ i, InCells (dyeTube .hllc 1).n i → 0 < pressureOf (dyeTube .hllc 1).gas.gamma (blastState i) :=
    fun i _ => (blast_positive i).2
  have hon := onlyOn_eq (fun u : Ix → State ℝ 1 =>
    ∀ i, InCells (dyeTube .hllc 1).n i → 0 < pressureOf (dyeTube .hllc 1).gas.gamma (u i)) f 0 0 blastState hg
  have : ∃ out, (ODEState.init blastState).integrate (stepper (onlyOn
      (fun u => ∀ i, InCells (dyeTube .hllc 1).n i → 0 < pressureOf (dyeTube .hllc 1).gas.gamma (u i)) f) .euler)
      (fun _ => ()) 0 ⟨none, some 1, true, [], false, none⟩ = some (out, none) := by
    simp only [ODEState.integrate, ODEState.integrateN, ODEState.takeSteps, ODEState.takeStep, ODEState.init,
      ODEState.snapshot, stepper, eulerStepper, hon, e, e2]
    exact ⟨_, rfl⟩
  obtain ⟨out, ho⟩ := this
  refine ⟨out, ho, fun i hi => ?_⟩
  refine ((C57_hllc (dyeTube .hllc 1) hF rfl (by rw [dyeTube_card]; simp [dyeTube]) 0 0 1 f hf _ _ _ _ le_rfl ?_
    (fun i _ => (blast_positive i).1) (fun i _ => blast_dye i) out ho).2 i hi).2.2
  intro T hT
  cases hT

end FVHOE
