import Verif.Model.Euler
import Verif.Proofs.Lattice
import Verif.Props.C28_C30
import Verif.Props.C13_C18

/-!
C01 (conservation), C03 (budget).
-/

set_option linter.unusedSectionVars false

namespace FVHOE

variable {K : Type} [Field K] [LinearOrder K] [IsStrictOrderedRing K]
variable {V : Type} [AddCommGroup V] [Module K V]

/-- Sum over the cells of a mesh. -/
def cellSum (n : Fin 3 → ℕ) (f : Ix → V) : V :=
  ∑ a ∈ Finset.range (n 0), ∑ b ∈ Finset.range (n 1), ∑ c ∈ Finset.range (n 2),
    f ![(a : ℤ), (b : ℤ), (c : ℤ)]

/-- Sum over the layer of faces `i d = x` of a mesh. -/
def layerSum (n : Fin 3 → ℕ) (d : Fin 3) (x : ℤ) (f : Ix → V) : V :=
  cellSum (Function.update n d 1) fun i => f (Function.update i d x)

theorem cellSum_congr (n : Fin 3 → ℕ) (f g : Ix → V) (h : ∀ i, InCells n i → f i = g i) :
    cellSum n f = cellSum n g := by
  unfold cellSum
  refine Finset.sum_congr rfl fun a ha => Finset.sum_congr rfl fun b hb =>
    Finset.sum_congr rfl fun c hc => h _ ?_
  intro d
  rw [Finset.mem_range] at ha hb hc
  match d with
  | 0 => simpa using ha
  | 1 => simpa using hb
  | 2 => simpa using hc

theorem cellSum_add (n : Fin 3 → ℕ) (f g : Ix → V) :
    cellSum n (fun i => f i + g i) = cellSum n f + cellSum n g := by
  simp only [cellSum, Finset.sum_add_distrib]

theorem cellSum_sub (n : Fin 3 → ℕ) (f g : Ix → V) :
    cellSum n (fun i => f i - g i) = cellSum n f - cellSum n g := by
  simp only [cellSum, Finset.sum_sub_distrib]

theorem cellSum_smul (n : Fin 3 → ℕ) (c : K) (f : Ix → V) :
    cellSum n (fun i => c • f i) = c • cellSum n f := by
  simp only [cellSum, Finset.smul_sum]

theorem cellSum_finset {ι : Type} (t : Finset ι) (n : Fin 3 → ℕ) (f : ι → Ix → V) :
    cellSum n (fun i => ∑ a ∈ t, f a i) = ∑ a ∈ t, cellSum n (f a) := by
  classical
  induction t using Finset.induction_on with
  | empty => simp [cellSum]
  | insert a t ha ih => simp only [Finset.sum_insert ha, cellSum_add, ih]

/-- Differences telescope along an axis. -/
theorem cellSum_telescope (n : Fin 3 → ℕ) (d : Fin 3) (f : Ix → V) :
    cellSum n (fun i => f (i + Pi.single d 1) - f i) = layerSum n d (n d) f - layerSum n d 0 f := by
  have e0 : ∀ a b c : ℤ, (![a, b, c] : Ix) + Pi.single 0 1 = ![a + 1, b, c] := by
    intro a b c; funext e
    match e with
    | 0 => simp
    | 1 => simp
    | 2 => simp
  have e1 : ∀ a b c : ℤ, (![a, b, c] : Ix) + Pi.single 1 1 = ![a, b + 1, c] := by
    intro a b c; funext e
    match e with
    | 0 => simp
    | 1 => simp
    | 2 => simp
  have e2 : ∀ a b c : ℤ, (![a, b, c] : Ix) + Pi.single 2 1 = ![a, b, c + 1] := by
    intro a b c; funext e
    match e with
    | 0 => simp
    | 1 => simp
    | 2 => simp
  have u0 : ∀ a b c x : ℤ, Function.update (![a, b, c] : Ix) 0 x = ![x, b, c] := by
    intro a b c x; funext e
    match e with
    | 0 => simp
    | 1 => simp
    | 2 => simp
  have u1 : ∀ a b c x : ℤ, Function.update (![a, b, c] : Ix) 1 x = ![a, x, c] := by
    intro a b c x; funext e
    match e with
    | 0 => simp
    | 1 => simp
    | 2 => simp
  have u2 : ∀ a b c x : ℤ, Function.update (![a, b, c] : Ix) 2 x = ![a, b, x] := by
    intro a b c x; funext e
    match e with
    | 0 => simp
    | 1 => simp
    | 2 => simp
  have tel : ∀ (m : ℕ) (g : ℤ → V), ∑ a ∈ Finset.range m, (g ((a : ℤ) + 1) - g a) = g m - g 0 := by
    intro m g
    have := Finset.sum_range_sub (fun k : ℕ => g k) m
    simpa using this
  have h12 : (1 : Fin 3) ≠ 2 := by decide
  match d with
  | 0 =>
    unfold layerSum cellSum
    simp only [e0, u0, Function.update_self, ne_eq, Fin.reduceEq, not_false_eq_true,
      Function.update_of_ne, Finset.range_one, Finset.sum_singleton]
    rw [Finset.sum_comm, ← Finset.sum_sub_distrib]
    refine Finset.sum_congr rfl fun b _ => ?_
    rw [Finset.sum_comm, ← Finset.sum_sub_distrib]
    refine Finset.sum_congr rfl fun c _ => ?_
    exact tel (n 0) fun a => f ![a, b, c]
  | 1 =>
    unfold layerSum cellSum
    simp only [e1, u1, Function.update_self, ne_eq, Fin.reduceEq, not_false_eq_true,
      Function.update_of_ne, Finset.range_one, Finset.sum_singleton]
    rw [← Finset.sum_sub_distrib]
    refine Finset.sum_congr rfl fun a _ => ?_
    rw [Finset.sum_comm, ← Finset.sum_sub_distrib]
    refine Finset.sum_congr rfl fun c _ => ?_
    exact tel (n 1) fun b => f ![a, b, c]
  | 2 =>
    unfold layerSum cellSum
    simp only [e2, u2, Function.update_self, ne_eq, Fin.reduceEq, not_false_eq_true,
      Function.update_of_ne, Finset.range_one, Finset.sum_singleton]
    rw [← Finset.sum_sub_distrib]
    refine Finset.sum_congr rfl fun a _ => ?_
    rw [← Finset.sum_sub_distrib]
    refine Finset.sum_congr rfl fun b _ => ?_
    exact tel (n 2) fun c => f ![a, b, c]

theorem latDiv_sum (S : Scheme K V) (F : Fin 3 → Ix → V) :
    cellSum S.n (latDiv S.active S.h F) = ∑ d : Fin 3, if S.active d then
      (-(1 / S.h d)) • (layerSum S.n d (S.n d) (F d) - layerSum S.n d 0 (F d)) else 0 := by
  unfold latDiv
  rw [cellSum_finset]
  refine Finset.sum_congr rfl fun d _ => ?_
  by_cases h : S.active d = true
  · simp only [h, if_true]
    rw [cellSum_smul, cellSum_telescope]
  · simp only [h]
    simp [cellSum]

/-! ### C03 -/

/-- **C03** (the array function). For any flux arrays of the declared shapes, `euler_equation`
succeeds and the total of its result is, for every active direction, minus the difference of the
fluxes on the two outer layers of faces over the spacing; no interior face appears. -/
theorem C03_budget_arrays (S : Scheme K V) (F : Fin 3 → Arr V)
    (hF : ∀ d, (F d).shape = fun e => if e = d then S.n e + 1 else S.n e) :
    ∃ D, eulerEquation S F = .ok D ∧ D.shape = S.n ∧
      cellSum S.n D.get = ∑ d : Fin 3, if S.active d then
        (-(1 / S.h d)) • (layerSum S.n d (S.n d) (F d).get - layerSum S.n d 0 (F d).get) else 0 := by
  obtain ⟨D, e, r⟩ := eulerEquation_spec S F (fun d => (F d).get)
    (fun d _ => faceRep_self S.n d (F d) (hF d))
  refine ⟨D, e, ?_, ?_⟩
  · funext d
    have := r.1 d
    simp at this
    exact this
  · rw [← latDiv_sum]
    refine cellSum_congr _ _ _ fun i hi => ?_
    have := r.get_at i (fun d => by simpa using hi d)
    rwa [sub_zero] at this

/-- **C03** Whenever the right-hand side succeeds - any boundary condition, any limiter, any
memory - the total of the derivative is given by the outer layers of the flux arrays that the
evaluation leaves behind. -/
theorem C03_budget (S : Scheme K V) (junk : ℕ → Ix → V) (mem : Fin 3 → Ix → V) (t t' : K)
    (u : Ix → V) (dt : K) (D : Ix → V) (h : solverRHS S junk mem t t' u = .ok (dt, D)) :
    ∃ F, solverFluxes S t junk (S.mem mem) ⟨S.n, u⟩ = .ok (dt, F) ∧
      cellSum S.n D = ∑ d : Fin 3, if S.active d then
        (-(1 / S.h d)) • (layerSum S.n d (S.n d) (F d).get - layerSum S.n d 0 (F d).get) else 0 := by
  obtain ⟨F, e, hD⟩ := rhs_inv h
  refine ⟨F, e, ?_⟩
  rw [hD (fun d => (F d).get) (fun d _ => faceRep_self S.n d (F d) (solverFluxes_shape e d)),
    ← latDiv_sum]
  exact cellSum_congr _ _ _ fun i hi => if_pos hi

/-! ### C01 -/

/-- Periodic sides in every active direction, and no fewer cells than ghost layers. -/
structure PeriodicSetup (S : Scheme K V) : Prop where
  cells : ∀ d, 1 ≤ S.n d
  degree : ∀ d, S.p d ≤ 8
  periodic : ∀ d s, S.active d = true → S.bc.kind d s = .periodic
  wide : ∀ d, fluxWidth S S.p d ≤ S.n d

theorem fluxWidth_inactive (S : Scheme K V) (d : Fin 3) (h : S.active d = false) :
    fluxWidth S S.p d = 0 := by
  unfold fluxWidth
  rw [h, S.inactive_p d h]
  rfl

theorem PeriodicSetup.sides {S : Scheme K V} (hS : PeriodicSetup S) (t : K) :
    Sides S (fluxWidth S S.p) t (fun _ => .wrap) (fun _ => .wrap) := by
  have key : ∀ d s, SideSpec S.bc S.negate S.n (fluxWidth S S.p) t d s .wrap := by
    intro d s
    by_cases h : S.active d = true
    · exact .periodic (hS.periodic d s h) (hS.periodic d .l h) (hS.wide d) (hS.cells d)
    · exact .inactive (fluxWidth_inactive S d (by simpa using h)) _
  exact fun d => ⟨key d .l, key d .r⟩

/-- The fluxes of a periodic state are periodic. -/
theorem periodic_flux (S : Scheme K V) (p : Fin 3 → ℕ) (slope : Option (V → V → V)) (u : Ix → V)
    (d : Fin 3) (i : Ix) :
    schemeFlux S p slope (fun i => u fun d => i d % S.n d) d (i + Pi.single d (S.n d : ℤ)) =
      schemeFlux S p slope (fun i => u fun d => i d % S.n d) d i := by
  have h1 := wrap_period S.n u d
  have h2 := schemeFlux_shift S p slope (fun i => u fun d => i d % S.n d) d
    (Pi.single d (S.n d : ℤ))
  rw [h1] at h2
  exact (congrFun h2 i).symm

theorem layerSum_periodic (n : Fin 3 → ℕ) (d : Fin 3) (f : Ix → V)
    (h : ∀ i, f (i + Pi.single d (n d : ℤ)) = f i) : layerSum n d (n d) f = layerSum n d 0 f := by
  unfold layerSum
  congr 1
  funext i
  rw [← h (Function.update i d 0)]
  congr 1
  funext e
  by_cases he : e = d
  · subst he; simp
  · simp [he]

/-- One evaluation on a periodic domain without limiting: the derivative sums to zero. -/
theorem C01_rhs (S : Scheme K V) (hS : PeriodicSetup S) (hlim : S.limiting = none)
    (junk : ℕ → Ix → V) (mem : Fin 3 → Ix → V) (t t' : K) (u : Ix → V) (dt : K) (D : Ix → V)
    (h : solverRHS S junk mem t t' u = .ok (dt, D)) : cellSum S.n D = 0 := by
  obtain ⟨dt', _, e⟩ := rhs_spec S hlim hS.degree hS.cells t _ _ (hS.sides t) junk mem t' u u (fun _ _ => rfl)
  rw [h] at e
  cases e
  rw [cellSum_congr _ _ _ fun i hi => if_pos hi, latDiv_sum, extAll_wrap S.n hS.cells]
  refine Finset.sum_eq_zero fun d _ => ?_
  split
  · rw [layerSum_periodic, sub_self, smul_zero]
    exact fun i => periodic_flux S S.p none u d i
  · rfl

/-- **C01** On a periodic domain with limiting off, whatever the integrator, the arguments of
`integrate`, the step sizes and the memory contents: if the call returns (even with an exception
part way) the totals of all conservative variables are what they were. -/
theorem C01_conservation (S : Scheme K V) (hS : PeriodicSetup S) (hlim : S.limiting = none)
    (f : RHS K (Ix → V)) (hf : IsSolverRHS S f) {Sn : Type} (m : Integrator)
    (mk : ODEState K (Ix → V) Sn → Sn) (fuel : ℕ) (a : IntegrateArgs K Sn)
    (st : ODEState K (Ix → V) Sn) (out : Outcome K (Ix → V) Sn)
    (h : st.integrate (stepper f m) mk fuel a = some out) :
    cellSum S.n out.1.u = cellSum S.n st.u := by
  let ℓ : (Ix → V) →ₗ[K] V :=
    { toFun := cellSum S.n
      map_add' := fun x y => cellSum_add S.n x y
      map_smul' := fun c x => cellSum_smul S.n c x }
  refine C28_linear_invariant ℓ f ?_ m mk fuel a st out h
  intro s t u dt k hk
  obtain ⟨junk, mem, e⟩ := hf s t u
  rw [hk] at e
  exact C01_rhs S hS hlim junk mem s t u dt k e.symm

/-- **C01** And the evaluation does succeed, so the statement is not about failing runs only. -/
theorem C01_succeeds (S : Scheme K V) (hS : PeriodicSetup S) (hlim : S.limiting = none)
    (junk : ℕ → Ix → V) (mem : Fin 3 → Ix → V) (t t' : K) (u : Ix → V) :
    ∃ r, solverRHS S junk mem t t' u = .ok r := by
  obtain ⟨dt', _, e⟩ := rhs_spec S hlim hS.degree hS.cells t _ _ (hS.sides t) junk mem t' u u (fun _ _ => rfl)
  exact ⟨_, e⟩

/-- A two-dimensional HLLC setup of degrees 3 and 2 on 8 × 9 cells with one passive scalar. -/
noncomputable def exampleConfig : EulerConfig ℝ 1 where
  gas := airGas
  riem := .hllc
  n := ![8, 9, 1]
  p := ![3, 2, 0]
  h := ![1, 2, 3]
  cfl := 1 / 2
  fixedDt := none
  bc := ⟨fun _ _ => .periodic, fun _ _ => .other, none⟩
  limiting := none

example : PeriodicSetup exampleConfig.scheme ∧ exampleConfig.scheme.limiting = none ∧
    exampleConfig.scheme.active 0 = true ∧ exampleConfig.scheme.active 1 = true ∧
    exampleConfig.scheme.active 2 = false := by
  refine ⟨⟨?_, ?_, fun _ _ _ => rfl, ?_⟩, rfl, rfl, rfl, rfl⟩ <;> intro d <;> revert d <;> decide

end FVHOE
