import Verif.Props.C01_C03
import Verif.Proofs.ODERel

/-!
C08: periodic shifts.
-/

set_option linter.unusedSectionVars false

namespace FVHOE

variable {K : Type} [Field K] [LinearOrder K] [IsStrictOrderedRing K]
variable {V : Type} [AddCommGroup V] [Module K V]

/-- `x.2` is `x.1` shifted cyclically by `-s` cells, on the cells of the mesh. -/
def shifted (K : Type) [Field K] (V : Type) [AddCommGroup V] [Module K V] (n : Fin 3 → ℕ) (s : Ix) :
    Submodule K ((Ix → V) × (Ix → V)) where
  carrier := {x | ∀ i, InCells n i → x.2 i = x.1 fun d => (i d + s d) % n d}
  add_mem' := fun ha hb i hi => by simp [ha i hi, hb i hi]
  zero_mem' := fun i _ => rfl
  smul_mem' := fun c x hx i hi => by simp [hx i hi]

/-- On a periodic lattice function the step size is a supremum over all lattice points. -/
theorem isDt_periodic (S : Scheme K V) (hn : ∀ d, 1 ≤ S.n d) (p : Fin 3 → ℕ) (W : Ix → V)
    (hW : ∀ i, W (fun d => i d % S.n d) = W i) (s : Ix) (dt : K) :
    IsDt S p W dt → IsDt S p (fun i => W (i + s)) dt := by
  unfold IsDt
  split
  · exact id
  · rintro ⟨m, ⟨i, hi, hm⟩, hmax, rfl⟩
    have box : ∀ i : Ix, InDtBox S p fun d => i d % S.n d := by
      intro i d
      have := hn d
      have h1 := Int.emod_nonneg (i d) (b := (S.n d : ℤ)) (by omega)
      have h2 := Int.emod_lt_of_pos (i d) (b := (S.n d : ℤ)) (by omega)
      beta_reduce
      constructor <;> split <;> omega
    refine ⟨m, ⟨_, box (i - s), ?_⟩, fun j hj => ?_, rfl⟩
    · rw [← hm, ← hW i]
      beta_reduce
      rw [← hW]
      congr 3
      funext d
      simp
    · beta_reduce
      rw [← hW]
      exact hmax _ (box _)

theorem periodic_wrap (n : Fin 3 → ℕ) (Φ : Ix → V) (h : ∀ d i, Φ (i + Pi.single d (n d : ℤ)) = Φ i) (i : Ix) :
    Φ (fun d => i d % n d) = Φ i := by
  have hz : ∀ (d : Fin 3) (k : ℤ) (i : Ix), Φ (i + Pi.single d (n d * k)) = Φ i := by
    intro d k
    induction k using Int.induction_on with
    | zero => intro i; simp
    | succ k ih =>
      intro i
      rw [mul_add, mul_one, Pi.single_add, ← add_assoc, h, ih]
    | pred k ih =>
      intro i
      rw [← h d, add_assoc, ← Pi.single_add, show (n d : ℤ) * (-k - 1) + n d = n d * -k by ring, ih]
  have : i = (fun d => i d % n d) + Pi.single 0 (n 0 * (i 0 / n 0)) + Pi.single 1 (n 1 * (i 1 / n 1)) +
      Pi.single 2 (n 2 * (i 2 / n 2)) := by
    funext d
    match d with
    | 0 => simp [Int.emod_add_mul_ediv]
    | 1 => simp [Int.emod_add_mul_ediv]
    | 2 => simp [Int.emod_add_mul_ediv]
  conv_rhs => rw [this]
  rw [hz, hz, hz]

/-- The divergence of the fluxes of a periodic state is periodic. -/
theorem periodic_div (S : Scheme K V) (P : Ix → V)
    (hP : ∀ d, (fun i => P (i + Pi.single d (S.n d : ℤ))) = P) (i : Ix) :
    latDiv S.active S.h (schemeFlux S S.p none P) (fun d => i d % S.n d) =
      latDiv S.active S.h (schemeFlux S S.p none P) i := by
  refine periodic_wrap S.n _ (fun d i => ?_) i
  have h5 : (fun (e : Fin 3) (i : Ix) => schemeFlux S S.p none P e (i + Pi.single d (S.n d : ℤ))) =
      schemeFlux S S.p none P := by
    funext e
    have := schemeFlux_shift S S.p none P e (Pi.single d (S.n d : ℤ))
    rw [hP d] at this
    exact this.symm
  have h4 := latDiv_shift S.active S.h (schemeFlux S S.p none P) (Pi.single d (S.n d : ℤ))
  rw [h5] at h4
  exact (congrFun h4 i).symm

/-- The primitive averages of a periodic state are periodic. -/
theorem periodic_prim (S : Scheme K V) (P : Ix → V)
    (hP : ∀ d, (fun i => P (i + Pi.single d (S.n d : ℤ))) = P) (i : Ix) :
    latPrim K S.prim S.p P (fun d => i d % S.n d) = latPrim K S.prim S.p P i := by
  refine periodic_wrap S.n _ (fun d i => ?_) i
  have := latPrim_shift (K := K) S.prim S.p P (Pi.single d (S.n d : ℤ))
  rw [hP d] at this
  exact (congrFun this i).symm

/-- **C08** (one evaluation) On a periodic domain the derivative at the shifted state is the shifted
derivative, and the step size is the same, whatever the uninitialised memory holds. -/
theorem C08_rhs (S : Scheme K V) (hS : PeriodicSetup S) (hlim : S.limiting = none) (s : Ix)
    (junk junk' : ℕ → Ix → V) (mem mem' : Fin 3 → Ix → V) (t t' : K) (u u' : Ix → V)
    (hu : ∀ i, InCells S.n i → u' i = u fun d => (i d + s d) % S.n d) :
    ∃ dt D D', solverRHS S junk mem t t' u = .ok (dt, D) ∧ solverRHS S junk' mem' t t' u' = .ok (dt, D') ∧
      ∀ i, InCells S.n i → D' i = D fun d => (i d + s d) % S.n d := by
  obtain ⟨dt, hdt, e⟩ := rhs_spec S hlim hS.degree hS.cells t _ _ (hS.sides t) junk mem t' u u (fun _ _ => rfl)
  obtain ⟨dt', hdt', e'⟩ := rhs_spec S hlim hS.degree hS.cells t _ _ (hS.sides t) junk' mem' t' u'
    (fun i => u fun d => (i d + s d) % S.n d) hu
  rw [extAll_wrap S.n hS.cells] at e e' hdt hdt'
  obtain ⟨P, hPd⟩ : ∃ P : Ix → V, P = fun i => u fun d => i d % S.n d := ⟨_, rfl⟩
  have hP : ∀ d, (fun i => P (i + Pi.single d (S.n d : ℤ))) = P := fun d => by
    rw [hPd]
    exact wrap_period S.n u d
  have h1 : (fun i : Ix => (fun i : Ix => u fun d => (i d + s d) % S.n d) fun d => i d % S.n d) =
      fun i => P (i + s) := by
    funext i
    rw [hPd]
    simp
  rw [h1] at e' hdt'
  rw [← hPd] at e hdt
  clear hPd h1
  have hd := isDt_periodic S hS.cells S.p _ (periodic_prim S P hP) s dt hdt
  rw [latPrim_shift] at hdt'
  have : dt' = dt := hdt'.unique hd
  subst this
  refine ⟨_, _, _, e, e', fun i hi => ?_⟩
  have hi' : InCells S.n fun d => (i d + s d) % S.n d := by
    intro d
    have := hS.cells d
    exact ⟨Int.emod_nonneg _ (by omega), Int.emod_lt_of_pos _ (by omega)⟩
  have h2 : schemeFlux S S.p none (fun i => P (i + s)) = fun d i => schemeFlux S S.p none P d (i + s) :=
    funext fun d => schemeFlux_shift S S.p none _ d s
  refine (if_pos hi).trans (Eq.trans ?_ (if_pos hi').symm)
  rw [h2, latDiv_shift]
  exact (periodic_div S P hP (i + s)).symm

/-- **C08** On a periodic domain with limiting off, two runs from states that are cyclic shifts of each other
take the same steps at the same times, and all stored states and the final state are shifted by the same
number of cells: for every shift, integrator, and arguments of `integrate`, whatever the uninitialised
memory holds at each evaluation. -/
theorem C08_shift (S : Scheme K V) (hS : PeriodicSetup S) (hlim : S.limiting = none) (s : Ix)
    (f f' : RHS K (Ix → V)) (hf : IsSolverRHS S f) (hf' : IsSolverRHS S f') (m : Integrator) (fuel : ℕ)
    (T : Option K) (n : Option ℕ) (exact : Bool) (downbeats : List K) (logEvery : Bool)
    (st st' : ODEState K (Ix → V) (Ix → V))
    (h : RelState (InRel (shifted K V S.n s)) (InRel (shifted K V S.n s)) st st') :
    Option.Rel (RelOut (InRel (shifted K V S.n s)) (InRel (shifted K V S.n s)))
      (st.integrate (stepper f m) (·.u) fuel ⟨T, n, exact, downbeats, logEvery, none⟩)
      (st'.integrate (stepper f' m) (·.u) fuel ⟨T, n, exact, downbeats, logEvery, none⟩) := by
  refine integrate_rel (shifted K V S.n s) _ f f' ?_ m _ _ (fun _ _ h => h.u) fuel _ _
    ⟨rfl, rfl, rfl, rfl, rfl, .none⟩ st st' h
  intro τ t u u' hu
  obtain ⟨junk, mem, e⟩ := hf τ t u
  obtain ⟨junk', mem', e'⟩ := hf' τ t u'
  obtain ⟨dt, D, D', h1, h2, h3⟩ := C08_rhs S hS hlim s junk junk' mem mem' τ t u u' hu
  rw [e, e', h1, h2]
  exact ⟨rfl, h3⟩

/-- The hypotheses hold for the two-dimensional HLLC setup and fresh solvers whose initial arrays are shifts of
each other by 3 cells in x and -2 in y. -/
example (u : Ix → State ℝ 1) : PeriodicSetup exampleConfig.scheme ∧ exampleConfig.scheme.limiting = none ∧
    RelState (K := ℝ) (InRel (shifted ℝ (State ℝ 1) exampleConfig.n ![3, -2, 0]))
      (InRel (shifted ℝ (State ℝ 1) exampleConfig.n ![3, -2, 0])) (ODEState.init u)
      (ODEState.init fun i => u fun d => (i d + ![3, -2, 0] d) % exampleConfig.n d) := by
  refine ⟨⟨?_, ?_, fun _ _ _ => rfl, ?_⟩, rfl, rfl, rfl, rfl, fun i _ => rfl, .nil, rfl⟩ <;> intro d <;>
    revert d <;> decide

end FVHOE
