import Verif.Props.C56
import Verif.Props.C86

/-!
C106: the centred Sedov blast is symmetric about the middle of the box, and stays so.
-/

set_option linter.unusedSectionVars false

namespace FVHOE

variable {K : Type} [Field K] [LinearOrder K] [IsStrictOrderedRing K]

/-- A cell of the blast as a conserved state of the solver without passive scalars: the rows of the array are taken as
they are, as solver.py does with `conservative_ic=True`; the velocities are zero, so the momenta are too. -/
def SedovCell.toState (s : SedovCell K) : State K 0
  | .rho => s.rho
  | .mom d => ![s.vx, s.vy, s.vz] d
  | .en => s.e
  | .ps j => j.elim0

theorem sedov_center_energy {dims : Fin 3 → Bool} {n : Fin 3 → ℕ} {dom : Fin 3 → K × K} (hn : ∀ e, 1 ≤ n e)
    {rho0 E0 E1 : K} {A : Arr (SedovCell K)} (hA : sedov .center dims rho0 E0 E1 (meshgen n dom).coord = .ok A) :
    ∃ emax : K, ∀ i, A.get i = ⟨rho0, 0, 0, 0,
      if ∀ d, dims d → ((sliceStart (n d) (some (((n d / 2 : ℕ) : ℤ) - 1)) : ℕ) : ℤ) ≤ i d ∧
        i d < ((sliceStop (n d) (some (((n d / 2 : ℕ) : ℤ) + 1)) : ℕ) : ℤ) then emax else E0⟩ := by
  obtain ⟨hx, e0, -⟩ := meanSpacing_mesh n dom 0 hn
  obtain ⟨hy, e1, -⟩ := meanSpacing_mesh n dom 1 hn
  obtain ⟨hz, e2, -⟩ := meanSpacing_mesh n dom 2 hn
  unfold sedov at hA
  rw [e0, e1, e2] at hA
  cases hA
  exact ⟨_, fun i => rfl⟩

theorem center_start {n : ℕ} (h : 2 ≤ n) :
    ((sliceStart n (some (((n / 2 : ℕ) : ℤ) - 1)) : ℕ) : ℤ) = n / 2 - 1 ∧
      ((sliceStop n (some (((n / 2 : ℕ) : ℤ) + 1)) : ℕ) : ℤ) = n / 2 + 1 := by
  simp only [sliceStart, sliceStop, pyBound]
  constructor <;> split <;> omega

/-- **C106, the start** On a mesh with even numbers of cells along the directions of the blast, the state that the centred
blast starts from is its own mirror image along every axis. -/
theorem C106_mirror (dims : Fin 3 → Bool) (n : Fin 3 → ℕ) (dom : Fin 3 → K × K) (hn : ∀ e, 1 ≤ n e)
    (heven : ∀ d, dims d → n d % 2 = 0) (rho0 E0 E1 : K) (A : Arr (SedovCell K))
    (hA : sedov .center dims rho0 E0 E1 (meshgen n dom).coord = .ok A) (d : Fin 3) :
    MirrorSymmetric n d fun i => (A.get i).toState := by
  obtain ⟨emax, h⟩ := sedov_center_energy hn hA
  intro i _
  beta_reduce
  have key : (∀ e, dims e → ((sliceStart (n e) (some (((n e / 2 : ℕ) : ℤ) - 1)) : ℕ) : ℤ) ≤ i e ∧
        i e < ((sliceStop (n e) (some (((n e / 2 : ℕ) : ℤ) + 1)) : ℕ) : ℤ)) ↔
      ∀ e, dims e → ((sliceStart (n e) (some (((n e / 2 : ℕ) : ℤ) - 1)) : ℕ) : ℤ) ≤ mirrorCell n d i e ∧
        mirrorCell n d i e < ((sliceStop (n e) (some (((n e / 2 : ℕ) : ℤ) + 1)) : ℕ) : ℤ) := by
    refine forall_congr' fun e => imp_congr_right fun he => ?_
    have h1 := hn e
    have h2 := heven e he
    obtain ⟨s1, s2⟩ := center_start (n := n e) (by omega)
    rw [s1, s2]
    unfold mirrorCell
    by_cases hd : e = d
    · subst hd
      rw [Function.update_self]
      omega
    · rw [Function.update_of_ne hd]
  rw [h i, h (mirrorCell n d i)]
  simp only [key]
  funext v
  cases v with
  | rho => rfl
  | en => rfl
  | ps j => exact j.elim0
  | mom e =>
    have h0 : ∀ e, (![0, 0, 0] : Fin 3 → K) e = 0 := fun e => by match e with | 0 | 1 | 2 => rfl
    simp only [mirrorState, SedovCell.toState, h0, neg_zero, ite_self]

/-- **C106, the start** For every exchange of axes that keeps the numbers of cells and the directions of the blast, the
state is unchanged by the exchange; the lengths of the sides play no part. -/
theorem C106_exchange (dims : Fin 3 → Bool) (n : Fin 3 → ℕ) (dom : Fin 3 → K × K) (hn : ∀ e, 1 ≤ n e)
    (rho0 E0 E1 : K) (A : Arr (SedovCell K))
    (hA : sedov .center dims rho0 E0 E1 (meshgen n dom).coord = .ok A) (σ : Equiv.Perm (Fin 3))
    (hσn : ∀ d, n (σ d) = n d) (hσ : ∀ d, dims (σ d) = dims d) :
    ExchangeSymmetric n σ fun i => (A.get i).toState := by
  obtain ⟨emax, h⟩ := sedov_center_energy hn hA
  intro i _
  have h0 : ∀ e, (![0, 0, 0] : Fin 3 → K) e = 0 := fun e => by match e with | 0 | 1 | 2 => rfl
  beta_reduce
  rw [h i, h fun d => i (σ d)]
  refine ⟨fun d => ?_, rfl, ?_, fun j => j.elim0⟩
  · simp only [SedovCell.toState, h0]
  · simp only [SedovCell.toState]
    refine if_congr ?_ rfl rfl
    constructor
    · intro g d hd
      have := g (σ.symm d) (by rw [← hσ, Equiv.apply_symm_apply]; exact hd)
      rw [← hσn (σ.symm d), Equiv.apply_symm_apply] at this
      exact this
    · intro g d hd
      have := g (σ d) (by rw [hσ]; exact hd)
      rw [hσn d] at this
      exact this

/-- **C106** A run of the centred blast with llf, any degree and integrator, a limiter without smooth-extremum relaxation
and with equal boundary conditions at the two ends of the axis `d`: at the end of the run and in every snapshot the state is
its own mirror image along `d`. -/
theorem C106_run (c : EulerConfig K 0) (o : LimiterOpts K) (d : Fin 3) (h : LimitedSetup c o)
    (hd : c.bc.kind d .l = c.bc.kind d .r) (ho : o.mirror d = o) (hc : c.riem = .llf) (hsed : o.sed = false)
    (hr : o.rangeType = "relative" ∨ o.considers (.mom d) = false)
    (dims : Fin 3 → Bool) (dom : Fin 3 → K × K) (heven : ∀ e, dims e → c.n e % 2 = 0) (rho0 E0 E1 : K)
    (A : Arr (SedovCell K)) (hA : sedov .center dims rho0 E0 E1 (meshgen c.n dom).coord = .ok A)
    (f : RHS K (Ix → State K 0)) (hf : IsSolverRHS (c.limited (some o)).scheme f)
    (m : Integrator) (fuel : ℕ) (T : Option K) (n : Option ℕ) (exact : Bool) (downbeats : List K) (logEvery : Bool)
    (out : ODEState K (Ix → State K 0) (Ix → State K 0)) (e : Option PyErr)
    (hrun : (ODEState.init fun i => (A.get i).toState).integrate (stepper f m) (·.u) fuel
      ⟨T, n, exact, downbeats, logEvery, none⟩ = some (out, e)) :
    MirrorSymmetric c.n d out.u ∧ ∀ v ∈ out.snapshots, MirrorSymmetric c.n d v :=
  C86_symmetric_llf c o d h hd ho hc hsed hr f hf m fuel T n exact downbeats logEvery _
    (C106_mirror dims c.n dom h.cells heven rho0 E0 E1 A hA d) out e hrun

/-- **C106** With any Riemann solver and any limiter: on a mesh with boundary conditions and options unchanged by an exchange
of axes of the blast, the state at the end and every snapshot are unchanged by the exchange. -/
theorem C106_run_exchange (c : EulerConfig K 0) (o : LimiterOpts K) (σ : Equiv.Perm (Fin 3))
    (h : LimitedSetup c o) (hc : c.exchange σ = c) (ho : o.exchange σ = o)
    (dims : Fin 3 → Bool) (hσ : ∀ d, dims (σ d) = dims d) (dom : Fin 3 → K × K) (rho0 E0 E1 : K)
    (A : Arr (SedovCell K)) (hA : sedov .center dims rho0 E0 E1 (meshgen c.n dom).coord = .ok A)
    (f : RHS K (Ix → State K 0)) (hf : IsSolverRHS (c.limited (some o)).scheme f)
    (m : Integrator) (fuel : ℕ) (T : Option K) (n : Option ℕ) (exact : Bool) (downbeats : List K) (logEvery : Bool)
    (out : ODEState K (Ix → State K 0) (Ix → State K 0)) (e : Option PyErr)
    (hrun : (ODEState.init fun i => (A.get i).toState).integrate (stepper f m) (·.u) fuel
      ⟨T, n, exact, downbeats, logEvery, none⟩ = some (out, e)) :
    ExchangeSymmetric c.n σ out.u ∧ ∀ v ∈ out.snapshots, ExchangeSymmetric c.n σ v := by
  have hn : ∀ d, c.n (σ d) = c.n d := fun d => congrFun (congrArg EulerConfig.n hc) d
  exact C86_symmetric_exchange c o σ h hc ho f hf m fuel T n exact downbeats logEvery _
    (C106_exchange dims c.n dom h.cells rho0 E0 E1 A hA σ hn hσ) out e hrun

/-- **C106, odd numbers of cells** Along a direction of the blast with an odd number of cells, three or more, the two cells
N//2 - 1 and N//2 that receive the energy do not lie about the middle: if any cell of the blast differs from the background,
the state is not its own mirror image, although the docstring says "if 'center', the blast is centered at the domain
center". -/
theorem C106_odd_violated (dims : Fin 3 → Bool) (n : Fin 3 → ℕ) (dom : Fin 3 → K × K) (hn : ∀ e, 1 ≤ n e)
    (rho0 E0 E1 : K) (A : Arr (SedovCell K))
    (hA : sedov .center dims rho0 E0 E1 (meshgen n dom).coord = .ok A) (d : Fin 3) (hd : dims d) (h3 : 3 ≤ n d)
    (hodd : n d % 2 = 1) (hblast : ∃ i, InCells n i ∧ (A.get i).e ≠ E0) :
    ¬ MirrorSymmetric n d fun i => (A.get i).toState := by
  obtain ⟨emax, h⟩ := sedov_center_energy hn hA
  obtain ⟨i, hi, hne⟩ := hblast
  rw [h i] at hne
  have hin : ∀ e, dims e → ((sliceStart (n e) (some (((n e / 2 : ℕ) : ℤ) - 1)) : ℕ) : ℤ) ≤ i e ∧
        i e < ((sliceStop (n e) (some (((n e / 2 : ℕ) : ℤ) + 1)) : ℕ) : ℤ) := by
    by_contra hc
    exact hne (if_neg hc)
  dsimp only at hne
  rw [if_pos hin] at hne
  obtain ⟨s1, s2⟩ := center_start (n := n d) (by omega)
  intro hsym
  -- the cell n/2 - 1 with the other coordinates of `i`
  have hj : InCells n (Function.update i d ((n d : ℤ) / 2 - 1)) := fun e => by
    by_cases he : e = d
    · subst he
      rw [Function.update_self]
      omega
    · rw [Function.update_of_ne he]
      exact hi e
  have hk := congrFun (hsym _ hj) .en
  beta_reduce at hk
  rw [h, h (mirrorCell n d _)] at hk
  simp only [SedovCell.toState, mirrorState] at hk
  rw [if_pos, if_neg] at hk
  · exact hne hk
  · intro g
    have := (g d hd).2
    rw [s2] at this
    unfold mirrorCell at this
    rw [Function.update_self, Function.update_self] at this
    omega
  · intro e he
    by_cases hed : e = d
    · subst hed
      rw [Function.update_self, s1, s2]
      omega
    · rw [Function.update_of_ne hed]
      exact hin e he

/-! ## Concrete cases -/

/-- On the square of 16 by 16 cells the blast in x and y meets the hypotheses of `C106_run` along both axes and of
`C106_run_exchange`; the blast exists. -/
example : (LimitedSetup (squareConfig .llf) plainLimiter ∧
      ∀ d, (squareConfig .llf).bc.kind d .l = (squareConfig .llf).bc.kind d .r) ∧
    (∀ e, (![true, true, false] : Fin 3 → Bool) e → (squareConfig .llf).n e % 2 = 0) ∧
    (∀ d, (![true, true, false] : Fin 3 → Bool) (swapXY d) = (![true, true, false] : Fin 3 → Bool) d) ∧
    ∃ A, sedov .center ![true, true, false] 1 (1 / 100000) 1
      (meshgen (squareConfig .llf).n fun _ => ((0 : ℝ), 16)).coord = .ok A := by
  refine ⟨⟨square_setup _ _ ⟨.inl rfl, .inl rfl⟩ (by norm_num [plainLimiter]), fun _ => rfl⟩, ?_, by decide, ?_⟩
  · exact fun e => (by decide : ∀ e, (![true, true, false] : Fin 3 → Bool) e → (![16, 16, 1] : Fin 3 → ℕ) e % 2 = 0) e
  · obtain ⟨A, h, -⟩ := C56_center (K := ℝ) ![true, true, false] (squareConfig .llf).n (fun _ => (0, 16))
      (fun _ => by norm_num) (square_setup .llf plainLimiter ⟨.inl rfl, .inl rfl⟩ (by norm_num [plainLimiter])).cells
      (fun e => (by decide : ∀ e, (![true, true, false] : Fin 3 → Bool) e → (![16, 16, 1] : Fin 3 → ℕ) e % 2 = 0) e)
      (fun e => (by decide : ∀ e, (![true, true, false] : Fin 3 → Bool) e = false → (![16, 16, 1] : Fin 3 → ℕ) e = 1) e)
      1 (1 / 100000) 1
    exact ⟨A, h⟩

end FVHOE
