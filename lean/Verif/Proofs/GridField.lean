import Verif.Proofs.WeakForm
import Verif.Proofs.StepTracks
import Verif.Props.C70
import Verif.Props.C08
import Mathlib.MeasureTheory.Constructions.BorelSpace.Order
import Mathlib.MeasureTheory.Function.Floor

/-!
Grid functions as piecewise constant fields, and the evaluations of the solver in a periodic box as conservative updates.
-/

set_option linter.unusedSectionVars false

namespace FVHOE

open MeasureTheory Filter Topology

variable {np : ℕ}

/-- The cell in which a point lies. -/
noncomputable def cellAt (h : Fin 3 → ℝ) (x : Fin 3 → ℝ) : Ix := fun d => ⌊x d / h d⌋

/-- The field that has in every cell the value of the grid function, continued periodically. -/
noncomputable def onGrid (n : Fin 3 → ℕ) (h : Fin 3 → ℝ) (u : Ix → State ℝ np) (x : Fin 3 → ℝ) : State ℝ np :=
  u fun d => cellAt h x d % n d

theorem cellAt_shift {h : Fin 3 → ℝ} (hh : ∀ d, 0 < h d) (x : Fin 3 → ℝ) (σ : Ix) :
    cellAt h (x + latShift h σ) = cellAt h x + σ := by
  funext d
  unfold cellAt latShift
  rw [Pi.add_apply, Pi.add_apply, add_div, mul_div_cancel_right₀ _ (hh d).ne', Int.floor_add_intCast]

theorem latShift_single (h : Fin 3 → ℝ) (d : Fin 3) (k : ℤ) : latShift h (Pi.single d k) = Pi.single d (k * h d) := by
  funext e
  unfold latShift
  by_cases he : e = d
  · subst he; simp
  · rw [Pi.single_eq_of_ne he, Pi.single_eq_of_ne he]; simp

theorem measurable_cellAt (h : Fin 3 → ℝ) : Measurable (cellAt h) := by
  refine measurable_pi_lambda _ fun d => ?_
  exact ((measurable_pi_apply d).div_const _).floor

theorem measurable_grid (h : Fin 3 → ℝ) (U : Ix → State ℝ np) : Measurable fun x => U (cellAt h x) :=
  (Measurable.of_discrete (f := U)).comp (measurable_cellAt h)

theorem wrap_periodic {V : Type} (n : Fin 3 → ℕ) (u : Ix → V) (d : Fin 3) (i : Ix) :
    u (fun e => (i + Pi.single d (n d : ℤ) : Ix) e % n e) = u fun e => i e % n e := by
  congr 1
  funext e
  by_cases he : e = d
  · subst he; simp
  · rw [Pi.add_apply, Pi.single_eq_of_ne he, add_zero]

theorem grid_periodic {n : Fin 3 → ℕ} {h ℓ : Fin 3 → ℝ} (hh : ∀ d, 0 < h d) (hℓ : ∀ d, (n d : ℝ) * h d = ℓ d)
    {U : Ix → State ℝ np} (hU : ∀ d i, U (i + Pi.single d (n d : ℤ)) = U i) : BoxPeriodic ℓ fun x => U (cellAt h x) := by
  intro d x
  have e : Pi.single d (ℓ d) = latShift h (Pi.single d (n d : ℤ)) := by
    rw [latShift_single, ← hℓ, Int.cast_natCast]
  simp only [e, cellAt_shift hh, hU]

theorem flux_periodic {V : Type} [AddCommGroup V] [Module ℝ V] (S : Scheme ℝ V) (p : Fin 3 → ℕ) (slope : Option (V → V → V))
    {U : Ix → V} {s : Ix} (hU : ∀ i, U (i + s) = U i) (d : Fin 3) (i : Ix) :
    schemeFlux S p slope U d (i + s) = schemeFlux S p slope U d i := by
  have h := congrFun (schemeFlux_shift S p slope U d s) i
  rw [show (fun i => U (i + s)) = U from funext hU] at h
  exact h.symm

theorem div_periodic {V : Type} [AddCommGroup V] [Module ℝ V] (act : Fin 3 → Bool) (h : Fin 3 → ℝ) {F : Fin 3 → Ix → V}
    {s : Ix} (hF : ∀ d i, F d (i + s) = F d i) (i : Ix) : latDiv act h F (i + s) = latDiv act h F i := by
  have e := congrFun (latDiv_shift act h F s) i
  rw [show (fun d i => F d (i + s)) = F from funext fun d => funext (hF d)] at e
  exact e.symm

/-! ### Evaluations -/

/-- A configuration of a family: gas, Riemann solver, degrees, active directions and CFL number are those of the family, and
the step size is computed. -/
structure InClass (c : EulerConfig ℝ np) (G : Gas ℝ) (r : RiemannKind) (p : Fin 3 → ℕ) (A : Finset (Fin 3)) (cfl : ℝ) :
    Prop where
  gas : c.gas = G
  riem : c.riem = r
  degrees : c.p = p
  cfl_eq : c.cfl = cfl
  computed : c.fixedDt = none
  active : ∀ d, c.scheme.active d = true ↔ d ∈ A
  cells : ∀ d, 1 ≤ c.n d
  spacing : ∀ d, 0 < c.h d

/-- Moreover there is no limiting, and all active directions are periodic. -/
structure InFamily (c : EulerConfig ℝ np) (G : Gas ℝ) (r : RiemannKind) (p : Fin 3 → ℕ) (A : Finset (Fin 3)) (cfl : ℝ) : Prop
    extends InClass c G r p A cfl where
  unlimited : c.limiting = none
  periodic : PeriodicBox c

/-- The right-hand side, refusing states that do not have the property. -/
noncomputable def restrictTo (Q : (Ix → State ℝ np) → Prop) (f : RHS ℝ (Ix → State ℝ np)) : RHS ℝ (Ix → State ℝ np) :=
  open Classical in fun s t u => if Q u then f s t u else .error .valueError

theorem restrictTo_ok {Q : (Ix → State ℝ np) → Prop} {f : RHS ℝ (Ix → State ℝ np)} {s t : ℝ} {u : Ix → State ℝ np}
    {r : ℝ × (Ix → State ℝ np)} (h : restrictTo Q f s t u = .ok r) : Q u ∧ f s t u = .ok r := by
  unfold restrictTo at h
  split at h
  · rename_i hq
    exact ⟨hq, h⟩
  · cases h

section

variable {c : EulerConfig ℝ np} {G : Gas ℝ} {r : RiemannKind} {p : Fin 3 → ℕ} {A : Finset (Fin 3)} {cfl : ℝ}
  (hc : InClass c G r p A cfl)
include hc

theorem InClass.inactive (d : Fin 3) (hd : d ∉ A) : p d = 0 := by
  rw [← hc.degrees]
  exact c.scheme.inactive_p d (by simpa using fun h => hd ((hc.active d).1 h))

theorem InClass.dt_bounds (hs : IsSqrt G.sqrt) (hfl : 0 < G.csqFloor) (hcfl : 0 < cfl) (hA : A.Nonempty)
    {W : Ix → State ℝ np} {dt : ℝ} (hdt : IsDt c.scheme c.p W dt) :
    0 < dt ∧ ∀ d, dt ≤ cfl / Real.sqrt G.csqFloor * c.h d := by
  unfold IsDt at hdt
  rw [show c.scheme.fixedDt = none from hc.computed] at hdt
  obtain ⟨m, ⟨i, -, hm⟩, -, hdt⟩ := hdt
  have hss := soundSpeed_spec c.gas (by rw [hc.gas]; exact hs) (by rw [hc.gas]; exact hfl) (W i)
  have hroot : 0 < Real.sqrt G.csqFloor := Real.sqrt_pos.2 hfl
  have hge : Real.sqrt G.csqFloor ≤ soundSpeed c.gas (W i) := by
    rw [← Real.sqrt_sq hss.1.le, hss.2]
    exact Real.sqrt_le_sqrt (by rw [hc.gas]; exact le_max_right _ _)
  have hk : (1 : ℝ) ≤ (c.scheme.ndim : ℝ) := by
    obtain ⟨d, hd⟩ := hA
    have : 1 ≤ c.scheme.ndim := List.countP_pos_iff.2
      ⟨d, by match d with | 0 | 1 | 2 => simp, (hc.active d).2 hd⟩
    exact_mod_cast this
  have hm1 : Real.sqrt G.csqFloor ≤ m := by
    rw [← hm]
    show _ ≤ signalSpeed c.gas _ _
    unfold signalSpeed sum3
    have h1 := mul_le_mul_of_nonneg_right hk hss.1.le
    have h0 := abs_nonneg (W i (.mom 0))
    have h2 := abs_nonneg (W i (.mom 1))
    have h3 := abs_nonneg (W i (.mom 2))
    linarith
  have hm0 : 0 < m := hroot.trans_le hm1
  have hmin : 0 < min (min (c.h 0) (c.h 1)) (c.h 2) :=
    lt_min (lt_min (hc.spacing 0) (hc.spacing 1)) (hc.spacing 2)
  have hdt' : dt = cfl * min (min (c.h 0) (c.h 1)) (c.h 2) / m := by rw [← hc.cfl_eq]; exact hdt
  refine ⟨by rw [hdt']; positivity, fun d => ?_⟩
  have hle : min (min (c.h 0) (c.h 1)) (c.h 2) ≤ c.h d := by
    match d with
    | 0 => exact (min_le_left _ _).trans (min_le_left _ _)
    | 1 => exact (min_le_left _ _).trans (min_le_right _ _)
    | 2 => exact min_le_right _ _
  rw [hdt', div_mul_eq_mul_div]
  refine div_le_div₀ (by have := hc.spacing d; positivity) ?_ hroot hm1
  exact mul_le_mul_of_nonneg_left hle hcfl.le

end

theorem InFamily.eval {c : EulerConfig ℝ np} {G : Gas ℝ} {r : RiemannKind} {p : Fin 3 → ℕ} {A : Finset (Fin 3)} {cfl : ℝ}
    (hc : InFamily c G r p A cfl) (hp : ∀ d, p d ≤ 8) {f : RHS ℝ (Ix → State ℝ np)} (hf : IsSolverRHS c.scheme f) {s t dt : ℝ}
    {u D : Ix → State ℝ np} (h : f s t u = .ok (dt, D)) :
    (fun i : Ix => D fun d => i d % c.n d) = latDiv c.scheme.active c.h
      (fun d => latFlux ℝ (riemann r G d) p none d (latPrim ℝ (computePrimitives G.gamma) p fun i => u fun d => i d % c.n d)) ∧
    IsDt c.scheme c.p (latPrim ℝ (computePrimitives G.gamma) p fun i => u fun d => i d % c.n d) dt := by
  obtain ⟨junk, mem, e⟩ := hf s t u
  obtain ⟨dt', hdt', e'⟩ := rhs_spec c.scheme hc.unlimited (fun d => by rw [show c.scheme.p = p from hc.degrees]; exact hp d)
    hc.cells s _ _ (hc.periodic.sides hc.cells s) junk mem t u u fun _ _ => rfl
  rw [← e, h] at e'
  rw [show c.scheme.n = c.n from rfl, extAll_wrap c.n hc.cells] at e' hdt'
  injection e' with e'
  obtain ⟨rfl, rfl⟩ := Prod.mk.inj e'
  have hpr : c.scheme.prim = computePrimitives G.gamma := by rw [← hc.gas]; rfl
  have hP : c.scheme.p = p := hc.degrees
  refine ⟨?_, ?_⟩
  · have hF : schemeFlux c.scheme c.scheme.p none (fun i => u fun d => i d % c.n d) =
        fun d => latFlux ℝ (riemann r G d) p none d (latPrim ℝ (computePrimitives G.gamma) p fun i => u fun d => i d % c.n d) := by
      funext d
      unfold schemeFlux
      rw [hpr, hP, show c.scheme.riem d = riemann c.riem c.gas d from rfl, hc.gas, hc.riem]
    rw [← hF]
    funext i
    have hi : InCells c.n fun d => i d % c.n d := fun d => by
      have : (0 : ℤ) < c.n d := by exact_mod_cast hc.cells d
      exact ⟨Int.emod_nonneg _ this.ne', Int.emod_lt_of_pos _ this⟩
    beta_reduce
    rw [if_pos hi]
    refine periodic_wrap c.n _ (fun d j => ?_) i
    exact div_periodic _ _ (fun d' k => flux_periodic c.scheme _ _ (fun k => wrap_periodic c.n u d k) d' k) j
  · rw [hpr, hP] at hdt'
    rw [hc.degrees]
    exact hdt'

end FVHOE
