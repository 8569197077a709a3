import Mathlib.Algebra.Module.LinearMap.End
import Mathlib.Algebra.BigOperators.Group.Finset.Basic
import Mathlib.Analysis.Convex.Basic
import Mathlib.Data.Nat.Factorial.Basic
import Mathlib.Tactic.Module
import Mathlib.Tactic.FieldSimp
import Mathlib.Tactic.Ring
import Mathlib.Tactic.Linarith
import Verif.Props.C24_C27

/-!
C28 (order on linear problems, fixed points, linear invariants), C29 (strong stability), C30 (stage
times) for the steppers of `fvhoe/ode.py`.
-/

set_option linter.unusedSectionVars false

namespace FVHOE

variable {K : Type} [Field K] [LinearOrder K] [IsStrictOrderedRing K]
variable {U : Type} [AddCommGroup U] [Module K U] {S : Type}

/-- The nominal order of each integrator. -/
def Integrator.order : Integrator → ℕ
  | .euler => 1 | .ssprk2 => 2 | .ssprk3 => 3 | .rk4 => 4

/-- The Taylor polynomial of degree `q` of `exp(h A) u`. -/
def taylorExp (A : U →ₗ[K] U) (q : ℕ) (h : K) (u : U) : U :=
  ∑ j ∈ Finset.range (q + 1), (h ^ j / (j.factorial : K)) • (A ^ j) u

/-- C28 (order). On `u' = A u` with linear `A`, one step of each integrator is the Taylor polynomial
of the exact solution of the nominal order, for the step size actually taken, also when shortened to
hit a target. -/
theorem C28_linear_order (A : U →ₗ[K] U) (dt0 t : K) (u : U) (target : Option K) (m : Integrator) :
    ∃ h, h = (match target with | none => dt0 | some T => min dt0 (T - t)) ∧
      stepper (fun _ _ v => .ok (dt0, A v)) m t u target = .ok (h, taylorExp A m.order h u) := by
  have hh : hitTarget t dt0 target =
      (match target with | none => dt0 | some T => min dt0 (T - t)) := by
    cases target with
    | none => rfl
    | some T =>
      simp only [hitTarget]
      split
      · rename_i h; rw [min_eq_right (le_of_lt h)]
      · rename_i h; rw [min_eq_left (not_lt.1 h)]
  refine ⟨_, hh, ?_⟩
  have e : ∀ {α : Type} (a : α), (pure a : Except PyErr α) = .ok a := fun _ => rfl
  have eb : ∀ {α β : Type} (a : α) (g : α → Except PyErr β), (Except.ok a >>= g) = g a :=
    fun _ _ => rfl
  cases m <;>
    simp only [stepper, eulerStepper, ssprk2Stepper, ssprk3Stepper, rk4Stepper, e, eb] <;>
    refine congrArg Except.ok (Prod.ext rfl ?_) <;>
    simp only [taylorExp, Integrator.order, Finset.sum_range_succ, Finset.sum_range_zero,
      Nat.factorial, pow_zero, pow_succ, Module.End.mul_apply, Module.End.one_apply, map_add,
      map_smul, Nat.cast_one, Nat.cast_mul, Nat.cast_ofNat, Nat.cast_add, Nat.cast_zero,
      Nat.cast_succ, LinearMap.map_smul] <;>
    module

/-- A rotation, `A(x,y) = (-y,x)`, is a non-trivial instance: one rk4 step of size 1 from (1,0). -/
example : stepper (K := ℚ) (U := ℚ × ℚ) (fun _ _ v => .ok (1, (-v.2, v.1))) .rk4 0 (1, 0) none =
    .ok (1, (1 - 1 / 2 + 1 / 24, 1 - 1 / 6)) := by decide +kernel

/-- C28 (fixed points). A state where the right-hand side vanishes is kept exactly by every
integrator. -/
theorem C28_fixed_point (f : RHS K U) (u : U) (hf : ∀ s t, ∃ dt, f s t u = .ok (dt, 0))
    (m : Integrator) (t : K) (target : Option K) :
    ∃ dt, stepper f m t u target = .ok (dt, u) := by
  have eb : ∀ {α β : Type} (a : α) (g : α → Except PyErr β), (Except.ok a >>= g) = g a :=
    fun _ _ => rfl
  choose d hd using hf
  refine ⟨hitTarget t (d t t) target, ?_⟩
  cases m <;>
    simp only [stepper, eulerStepper, ssprk2Stepper, ssprk3Stepper, rk4Stepper, hd, eb, smul_zero,
      add_zero] <;>
    refine congrArg Except.ok (Prod.ext rfl ?_) <;> simp only [] <;> module

example : ∀ s t : ℚ, ∃ dt, (fun _ _ v => .ok (1, (v - 3) * v) : RHS ℚ ℚ) s t 3 = .ok (dt, 0) := by
  intro s t; exact ⟨1, by norm_num⟩

/-- The stepper returns `u` plus a combination of values of the right-hand side. -/
theorem stepper_sub_mem (f : RHS K U) (W : Submodule K U)
    (hf : ∀ s t u dt k, f s t u = .ok (dt, k) → k ∈ W) (m : Integrator) (t : K) (u : U)
    (target : Option K) (dt : K) (u' : U) (h : stepper f m t u target = .ok (dt, u')) :
    u' - u ∈ W := by
  cases m with
  | euler =>
    simp only [stepper, eulerStepper] at h
    cases h0 : f t t u with
    | error e => rw [h0] at h; cases h
    | ok r =>
      rw [h0] at h; cases h
      have := hf _ _ _ _ _ h0
      simpa using W.smul_mem _ this
  | ssprk2 =>
    simp only [stepper, ssprk2Stepper] at h
    cases h0 : f t t u with
    | error e => rw [h0] at h; cases h
    | ok r =>
      rw [h0] at h
      simp only [bind, Except.bind] at h
      cases h1 : f t t (u + hitTarget t r.1 target • r.2) with
      | error e => rw [h1] at h; cases h
      | ok r1 =>
        rw [h1] at h; cases h
        have a0 := hf _ _ _ _ _ h0
        have a1 := hf _ _ _ _ _ h1
        have : ((1 / 2 : K) • u + (1 / 2 : K) • (u + hitTarget t r.1 target • r.2 +
            hitTarget t r.1 target • r1.2)) - u =
            (1 / 2 * hitTarget t r.1 target) • r.2 + (1 / 2 * hitTarget t r.1 target) • r1.2 := by
          module
        rw [this]
        exact W.add_mem (W.smul_mem _ a0) (W.smul_mem _ a1)
  | ssprk3 =>
    simp only [stepper, ssprk3Stepper] at h
    cases h0 : f t t u with
    | error e => rw [h0] at h; cases h
    | ok r =>
      rw [h0] at h
      simp only [bind, Except.bind] at h
      split at h
      · cases h
      · rename_i r1 h1
        split at h
        · cases h
        · rename_i r2 h2
          cases h
          have a0 := hf _ _ _ _ _ h0
          have a1 := hf _ _ _ _ _ h1
          have a2 := hf _ _ _ _ _ h2
          rw [add_sub_cancel_left]
          exact W.smul_mem _ (W.add_mem (W.add_mem a0 a1) (W.smul_mem _ a2))
  | rk4 =>
    simp only [stepper, rk4Stepper] at h
    cases h0 : f t t u with
    | error e => rw [h0] at h; cases h
    | ok r =>
      rw [h0] at h
      simp only [bind, Except.bind] at h
      split at h
      · cases h
      · rename_i r1 h1
        split at h
        · cases h
        · rename_i r2 h2
          split at h
          · cases h
          · rename_i r3 h3
            cases h
            have a0 := hf _ _ _ _ _ h0
            have a1 := hf _ _ _ _ _ h1
            have a2 := hf _ _ _ _ _ h2
            have a3 := hf _ _ _ _ _ h3
            rw [add_sub_cancel_left]
            exact W.smul_mem _ (W.add_mem (W.add_mem (W.add_mem a0 (W.smul_mem _ a1))
              (W.smul_mem _ a2)) a3)

/-- C28 (linear invariants). A linear functional that vanishes on every value of the right-hand side
is unchanged by every `integrate` call, with any integrator and arguments, whether or not the call
raises. -/
theorem C28_linear_invariant {V : Type} [AddCommGroup V] [Module K V] (ℓ : U →ₗ[K] V)
    (f : RHS K U) (hf : ∀ s t u dt k, f s t u = .ok (dt, k) → ℓ k = 0) (m : Integrator)
    (mk : ODEState K U S → S) (fuel : ℕ) (a : IntegrateArgs K S) (st : ODEState K U S)
    (out : Outcome K U S) (h : st.integrate (stepper f m) mk fuel a = some out) :
    ℓ out.1.u = ℓ st.u := by
  refine integrate_preserves (fun s => ℓ s.u = ℓ st.u) ?_ (fun _ h => h) fuel a
    (fun _ _ _ _ h => h) st out rfl h
  intro s target hs
  unfold ODEState.takeStep
  cases hst : stepper f m s.t s.u target with
  | error e => exact hs
  | ok r =>
    have := stepper_sub_mem f (LinearMap.ker ℓ) (fun s t u dt k h => hf s t u dt k h) m _ _ _ r.1 r.2
      hst
    rw [LinearMap.mem_ker, map_sub, sub_eq_zero] at this
    simpa [this] using hs

/-- Non-trivial instance: exchange between two cells keeps the sum. -/
example : ∀ s t (u : ℚ × ℚ) dt k,
    (fun _ _ v => .ok (1, (v.2 - v.1, v.1 - v.2)) : RHS ℚ (ℚ × ℚ)) s t u = .ok (dt, k) →
    (LinearMap.fst ℚ ℚ ℚ + LinearMap.snd ℚ ℚ ℚ) k = 0 := by
  intro s t u dt k h
  simp only [Except.ok.injEq, Prod.mk.injEq] at h
  rw [← h.2]; simp

/-! ## C29 -/

/-- The integrators that are strong-stability preserving with coefficient 1. -/
def Integrator.SSP : Integrator → Prop
  | .euler | .ssprk2 | .ssprk3 => True
  | .rk4 => False

/-- C29. If the forward Euler update with the step size actually taken keeps a convex set, so does one
step of `euler`, `ssprk2` and `ssprk3`. -/
theorem C29_convex_sets (f : RHS K U) (C : Set U) (hC : Convex K C) (m : Integrator) (hm : m.SSP)
    (t : K) (u : U) (target : Option K) (dt : K) (u' : U) (hu : u ∈ C)
    (h : stepper f m t u target = .ok (dt, u'))
    (hE : ∀ τ v dτ k, v ∈ C → f t τ v = .ok (dτ, k) → v + dt • k ∈ C) : u' ∈ C := by
  cases m with
  | rk4 => exact hm.elim
  | euler =>
    simp only [stepper, eulerStepper] at h
    cases h0 : f t t u with
    | error e => rw [h0] at h; cases h
    | ok r => rw [h0] at h; cases h; exact hE _ _ _ _ hu h0
  | ssprk2 =>
    simp only [stepper, ssprk2Stepper] at h
    cases h0 : f t t u with
    | error e => rw [h0] at h; cases h
    | ok r =>
      rw [h0] at h
      simp only [bind, Except.bind] at h
      split at h
      · cases h
      · rename_i r1 h1
        cases h
        have a0 := hE _ _ _ _ hu h0
        have a1 := hE _ _ _ _ a0 h1
        exact hC hu a1 (by norm_num) (by norm_num) (by norm_num)
  | ssprk3 =>
    simp only [stepper, ssprk3Stepper] at h
    cases h0 : f t t u with
    | error e => rw [h0] at h; cases h
    | ok r =>
      rw [h0] at h
      simp only [bind, Except.bind] at h
      split at h
      · cases h
      · rename_i r1 h1
        split at h
        · cases h
        · rename_i r2 h2
          cases h
          have a0 := hE _ _ _ _ hu h0
          have a1 := hE _ _ _ _ a0 h1
          have a1' := hC hu a1 (a := 3 / 4) (b := 1 / 4) (by norm_num) (by norm_num) (by norm_num)
          have e1 : (3 / 4 : K) • u + (1 / 4 : K) • (u + hitTarget t r.1 target • r.2 +
              hitTarget t r.1 target • r1.2) = u + ((1 / 4 : K) * hitTarget t r.1 target) • r.2 +
              ((1 / 4 : K) * hitTarget t r.1 target) • r1.2 := by module
          rw [e1] at a1'
          have a2 := hE _ _ _ _ a1' h2
          have a3 := hC hu a2 (a := 1 / 3) (b := 2 / 3) (by norm_num) (by norm_num) (by norm_num)
          convert a3 using 1
          module

/-- C29 over whole runs. Suppose that from any state of the convex set the Euler update with any
step between 0 and the proposal of the first stage stays in the set. Then every `integrate(T)` call,
in either mode, with requested times ahead of the current time, ends in the set (also when it
raises). -/
theorem C29_run (f : RHS K U) (hf : PosDt f) (C : Set U) (hC : Convex K C) (m : Integrator)
    (hm : m.SSP)
    (hE : ∀ s w dσ l, w ∈ C → f s s w = .ok (dσ, l) → ∀ h, 0 < h → h ≤ dσ →
      ∀ τ v dτ k, v ∈ C → f s τ v = .ok (dτ, k) → v + h • k ∈ C)
    (mk : ODEState K U S → S) (T : K) (exact : Bool) (downbeats : List K) (logEvery : Bool)
    (fuel : ℕ) (st : ODEState K U S) (h0 : 0 ≤ st.t) (hT : st.t < T)
    (hd : ∀ d ∈ downbeats, d = 0 ∨ st.t < d) (out : Outcome K U S) (hst : st.u ∈ C)
    (h : st.integrateT (stepper f m) mk T exact downbeats logEvery fuel = some out) :
    out.1.u ∈ C := by
  refine integrateT_preserves_fwd (posStepper_of_posDt hf m) (fun s => s.u ∈ C) ?_ (fun _ h => h)
    T exact downbeats logEvery fuel st h0 hT hd out hst h
  intro s target htg hs
  unfold ODEState.takeStep
  cases hr : stepper f m s.t s.u target with
  | error e => exact hs
  | ok r =>
    obtain ⟨dt, k, hf', hdt⟩ := stepper_dt f m s.t s.u target r.1 r.2 hr
    have hp := hf _ _ _ _ _ hf'
    refine C29_convex_sets f C hC m hm s.t s.u target r.1 r.2 hs hr ?_
    intro τ v dτ k' hv hk
    refine hE s.t s.u dt k hs hf' r.1 ?_ ?_ τ v dτ k' hv hk
    · rw [hdt]
      cases target with
      | none => exact hp
      | some g => exact hitTarget_pos hp (htg g rfl)
    · rw [hdt]
      cases target with
      | none => exact le_refl _
      | some g =>
        simp only [hitTarget]
        split
        · rename_i hlt; exact le_of_lt hlt
        · exact le_refl _

/-- Instance: `u' = -u` with proposal 1 keeps `[0, 1]`. -/
example : Convex ℚ (Set.Icc (0 : ℚ) 1) ∧ PosDt (fun _ _ v => .ok (1, -v) : RHS ℚ ℚ) ∧
    ∀ s w dσ l, w ∈ Set.Icc (0 : ℚ) 1 → (fun _ _ v => .ok (1, -v) : RHS ℚ ℚ) s s w = .ok (dσ, l) →
      ∀ h, 0 < h → h ≤ dσ → ∀ τ v dτ k, v ∈ Set.Icc (0 : ℚ) 1 →
      (fun _ _ v => .ok (1, -v) : RHS ℚ ℚ) s τ v = .ok (dτ, k) → v + h • k ∈ Set.Icc (0 : ℚ) 1 := by
  refine ⟨convex_Icc 0 1, ?_, ?_⟩
  · intro s t u dt k h; simp at h; rw [← h.1]; norm_num
  · intro s w dσ l _ h1 h h0 h2 τ v dτ k hv hk
    simp only [Except.ok.injEq, Prod.mk.injEq] at h1 hk
    obtain ⟨rfl, -⟩ := h1
    obtain ⟨-, rfl⟩ := hk
    obtain ⟨a, b⟩ := hv
    rw [smul_eq_mul, Set.mem_Icc]
    constructor <;> nlinarith

/-- The restriction to the first three integrators is needed: a stage of `rk4` can leave a convex
set that the Euler update keeps. -/
theorem C29_rk4_not_ssp : ¬ ∀ (f : RHS ℚ ℚ) (C : Set ℚ), Convex ℚ C → ∀ t u dt u', u ∈ C →
    stepper f .rk4 t u none = .ok (dt, u') →
    (∀ τ v dτ k, v ∈ C → f t τ v = .ok (dτ, k) → v + dt • k ∈ C) → u' ∈ C := by
  intro h
  have := h (fun _ _ v => .ok (1, if v = 1 then -1 else if v = 1 / 2 then 1 / 2 else
    if 1 < v then 100 else 0)) (Set.Icc 0 1) (convex_Icc 0 1) 0 1 1 51 (by norm_num)
    (by decide +kernel) ?_
  · norm_num at this
  · intro τ v dτ k hv hk
    simp only [Except.ok.injEq, Prod.mk.injEq] at hk
    obtain ⟨-, rfl⟩ := hk
    obtain ⟨a, b⟩ := hv
    split
    · rename_i e; subst e; norm_num
    · split
      · rename_i e; subst e; norm_num
      · split
        · rename_i e; linarith
        · simpa using ⟨a, b⟩

/-! ## C30 -/

/-- The right-hand side `u' = g(t)` evaluated at the time handed to `f` by the stepper. -/
def quadRHS (dt : K) (g : K → K) : RHS K K := fun _ t _ => .ok (dt, g t)

/-- The right-hand side `u' = g(self.t)`, which is how `EulerSolver` sees time-dependent boundary
values: solver.py 422-427 ignores the stage time and boundary_conditions receives `self.t`
(solver.py 445-447). -/
def clockRHS (dt : K) (g : K → K) : RHS K K := fun s _ _ => .ok (dt, g s)

/-- C30, full claim for one integrator: `u' = g(t)` with `g` a polynomial of degree below the order
is integrated exactly, `g(t) = c0 + c1 t + c2 t^2 + c3 t^3`. -/
def IntegratesTime (K : Type) [Field K] [LinearOrder K] (rhs : K → (K → K) → RHS K K)
    (m : Integrator) : Prop :=
  ∀ c0 c1 c2 c3 t h u : K,
    (m.order < 2 → c1 = 0) → (m.order < 3 → c2 = 0) → (m.order < 4 → c3 = 0) →
    stepper (rhs h fun t => c0 + c1 * t + c2 * t ^ 2 + c3 * t ^ 3) m t u none =
      .ok (h, u + (c0 * ((t + h) - t) + c1 * ((t + h) ^ 2 - t ^ 2) / 2 +
        c2 * ((t + h) ^ 3 - t ^ 3) / 3 + c3 * ((t + h) ^ 4 - t ^ 4) / 4))

/-- C30, partial: `euler`, `ssprk3` and `rk4` evaluate the right-hand side at stage times that give
the nominal order for `u' = g(t)`. Missing: `ssprk2` (`C30_ssprk2_violated`), and time-dependent
boundary values in the solver (`C30_clock_violated`). -/
theorem C30_stage_times_partial (m : Integrator) (hm : m ≠ .ssprk2) :
    IntegratesTime K (quadRHS (K := K)) m := by
  intro c0 c1 c2 c3 t h u h1 h2 h3
  cases m with
  | ssprk2 => exact absurd rfl hm
  | euler =>
    simp only [Integrator.order] at h1 h2 h3
    have := h1 (by norm_num); have := h2 (by norm_num); have := h3 (by norm_num)
    subst_vars
    simp only [stepper, eulerStepper, quadRHS, bind, Except.bind, pure, Except.pure, hitTarget,
      smul_eq_mul]
    refine congrArg Except.ok (Prod.ext rfl ?_)
    simp only []
    ring
  | ssprk3 =>
    simp only [stepper, ssprk3Stepper, quadRHS, bind, Except.bind, pure, Except.pure, hitTarget,
      smul_eq_mul]
    refine congrArg Except.ok (Prod.ext rfl ?_)
    simp only []
    ring
  | rk4 =>
    simp only [stepper, rk4Stepper, quadRHS, bind, Except.bind, pure, Except.pure, hitTarget,
      smul_eq_mul]
    refine congrArg Except.ok (Prod.ext rfl ?_)
    simp only []
    ring

/-- C30 is violated by `ssprk2`: its second stage is evaluated at `t` instead of `t + dt`
(ode.py 264), so `u' = t` is not integrated exactly. -/
theorem C30_ssprk2_violated : ¬ IntegratesTime ℚ (quadRHS (K := ℚ)) .ssprk2 := by
  intro h
  have := h 0 1 0 0 0 1 0 (by simp [Integrator.order]) (by simp) (by simp)
  revert this
  decide +kernel

/-- With the clock of the object instead of the stage time every integrator reduces to forward
Euler: the stage times are ignored. -/
theorem C30_clock_is_euler (g : K → K) (m : Integrator) (t h u : K) :
    stepper (clockRHS h g) m t u none = .ok (h, u + h * g t) := by
  cases m <;>
    simp only [stepper, eulerStepper, ssprk2Stepper, ssprk3Stepper, rk4Stepper, clockRHS, bind,
      Except.bind, pure, Except.pure, hitTarget, smul_eq_mul] <;>
    refine congrArg Except.ok (Prod.ext rfl ?_) <;> simp only [] <;> ring

/-- C30 is violated for time-dependent boundary values for every integrator of order above one. -/
theorem C30_clock_violated (m : Integrator) (hm : m ≠ .euler) :
    ¬ IntegratesTime ℚ (clockRHS (K := ℚ)) m := by
  intro h
  have := h 0 1 0 0 0 1 0 (by cases m <;> simp_all [Integrator.order]) (by simp) (by simp)
  rw [C30_clock_is_euler] at this
  revert this
  decide +kernel

end FVHOE
