import Verif.Props.C98
import Verif.Proofs.SolverFlux

/-!
C98: what the floating-point model computes when nothing is rounded.
-/

set_option linter.unusedSectionVars false

namespace FVHOE

variable {W : Type}

/-- The scheme of the other theorems, on states with the variables `W`, as a scheme with rounding. -/
def Scheme.withRounding (S : Scheme ℚ (W → ℚ)) : RoundedScheme W :=
  ⟨S.n, S.active, S.h, S.p, S.prim, S.riem, S.speed S.ndim, S.cfl, S.fixedDt⟩

/-- **C98** (link, whole right-hand side). On a periodic domain without limiting, the right-hand side with roundings after every
operation becomes, when nothing is rounded, that of the solver: the same step size, and the same time derivative in the cells. -/
theorem C98_solver (S : Scheme ℚ (W → ℚ)) (hlim : S.limiting = none) (hp : ∀ d, S.p d ≤ 8) (hn : ∀ d, 1 ≤ S.n d)
    (hper : ∀ d s, S.active d = true → S.bc.kind d s = .periodic)
    (hwide : ∀ d, S.active d = true → fluxWidth S S.p d ≤ S.n d) (junk : ℕ → Ix → W → ℚ) (mem : Fin 3 → Ix → W → ℚ) (s t : ℚ)
    (u : FState W) :
    ∃ dt k k', S.withRounding.rhs id s t u = .ok (dt, k) ∧ solverRHS S junk mem s t u.cells = .ok (dt, k') ∧
      ∀ i, InCells S.n i → ∀ w, k w i = k' i w := by
  have key : ∀ d σ, SideSpec S.bc S.negate S.n (fluxWidth S S.p) s d σ .wrap := by
    intro d σ
    by_cases ha : S.active d = true
    · exact .periodic (hper d σ ha) (hper d .l ha) (hwide d ha) (hn d)
    · have : S.p d = 0 := S.inactive_p d (by simpa using ha)
      refine .inactive ?_ _
      unfold fluxWidth
      rw [if_neg ha, this]
      rfl
  obtain ⟨dt, hdt, e⟩ := rhs_spec S hlim hp hn s _ _ (fun d => ⟨key d .l, key d .r⟩) junk mem t u.cells u.cells fun _ _ => rfl
  rw [extAll_wrap S.n hn] at hdt e
  let P := S.withRounding
  have hw : (wrapAround P.n u).cells = fun i => u.cells fun d => i d % (S.n d : ℤ) := rfl
  have hA : (P.primAverages id (wrapAround P.n u)).cells = latPrim ℚ S.prim S.p fun i => u.cells fun d => i d % (S.n d : ℤ) := by
    rw [P.primAverages_id, hw]
    rfl
  have hsize : P.size id (P.primAverages id (wrapAround P.n u)) = .ok dt := by
    unfold RoundedScheme.size
    unfold IsDt at hdt
    change (match S.fixedDt with | some x => _ | none => _) = _
    cases hf : S.fixedDt with
    | some x => rw [hf] at hdt; exact congrArg Except.ok hdt.symm
    | none =>
      rw [hf] at hdt
      obtain ⟨m, ⟨j, hj, hm⟩, hle, hdt⟩ := hdt
      rw [← hA] at hm hle
      have hmod : ∀ i : Ix, (P.primAverages id (wrapAround P.n u)).cells (fun d => i d % (S.n d : ℤ)) =
          (P.primAverages id (wrapAround P.n u)).cells i := by
        intro i
        have h := wrapAround_eq P.n u (fun d => -((S.n d : ℤ) * (i d / S.n d))) fun e => by
          simp [show P.n = S.n from rfl]
        have h2 := P.primAverages_shift id (fun d => -((S.n d : ℤ) * (i d / S.n d))) (wrapAround P.n u)
        rw [h] at h2
        have h3 := congrArg (fun a : FState W => a.cells i) h2
        refine Eq.trans ?_ h3.symm
        unfold FState.cells FState.shift
        funext w
        congr 1
        funext d
        show i d % S.n d = i d + -_
        rw [Int.emod_def]
        ring
      obtain ⟨m', e1, e2, e3⟩ := npMax_spec ((indexList P.n).map fun i => P.speed fun y => P.primAverages id (wrapAround P.n u) y i) (by
        intro h0
        have : (0 : Ix) ∈ indexList P.n := (mem_indexList _ _).2 fun d => ⟨le_rfl, by have := hn d; show (0 : ℤ) < S.n d; omega⟩
        rw [List.map_eq_nil_iff.1 h0] at this
        cases this)
      have hmm : m' = m := by
        refine le_antisymm ?_ ?_
        · obtain ⟨i, hi, rfl⟩ := List.mem_map.1 e2
          refine hle i fun d => ?_
          have h1 := (mem_indexList _ _).1 hi d
          have h2 : i d < S.n d := h1.2
          split_ifs <;> omega
        · rw [← hm, ← hmod]
          exact e3 _ (List.mem_map.2 ⟨_, (mem_indexList _ _).2 fun d => mod_inCells S.n hn j d, rfl⟩)
      rw [e1, hdt, hmm]
      rfl
  refine ⟨dt, roundedEulerEquation id P.active P.h fun d => P.flux id d (P.primAverages id (wrapAround P.n u)), _, ?_, e,
    fun i hi w => ?_⟩
  · unfold RoundedScheme.rhs
    simp only [Bind.bind, Except.bind, Pure.pure, Except.pure]
    erw [hsize]
  · rw [if_pos hi]
    have h1 := congrFun ((C98_exact P 0 u P.active P.h (fun d => P.flux id d (P.primAverages id (wrapAround P.n u))) w
      (fun _ _ _ => .error .valueError) .euler).1) i
    rw [h1]
    unfold latDiv
    rw [Finset.sum_apply]
    refine Finset.sum_congr rfl fun d _ => ?_
    have hF : ∀ j, P.flux id d (P.primAverages id (wrapAround P.n u)) w j =
        schemeFlux S S.p none (fun i => u.cells fun d => i d % (S.n d : ℤ)) d j w := by
      intro j
      have := congrFun (congrFun (P.flux_id d (P.primAverages id (wrapAround P.n u))) j) w
      rw [hA] at this
      exact this
    beta_reduce
    rw [hF, hF]
    show (if S.active d = true then _ else _) = _
    split_ifs <;> rfl
/-- Advection to the right on eight periodic cells at degree two, in one variable. -/
def roundabout : Scheme ℚ (Unit → ℚ) where
  n := ![8, 1, 1]
  p := ![2, 0, 0]
  h := ![1 / 8, 1, 1]
  prim := id
  riem := fun _ l _ => l
  speed := fun n _ => n
  negate := fun _ x => x
  cfl := 1 / 2
  fixedDt := none
  bc := ⟨fun _ _ => .periodic, fun _ _ => .other, none⟩
  limiting := none

/-- The hypotheses hold for it; its step size is the CFL number times the smallest spacing over the signal speed. -/
example (u : FState Unit) : ∃ k, roundabout.withRounding.rhs id 0 0 u = .ok (1 / 16, k) := by
  have hw : ∀ d, roundabout.active d = true → fluxWidth roundabout roundabout.p d ≤ roundabout.n d := by decide +kernel
  obtain ⟨dt, k, k', h1, h2, -⟩ := C98_solver roundabout rfl (by decide) (by decide) (fun _ _ _ => rfl) hw
    (fun _ _ _ => 0) (fun _ _ _ => 0) 0 0 u
  have : dt = 1 / 16 := by
    have h3 := (RoundedScheme.rhs_ok id _ h1).1
    unfold RoundedScheme.size at h3
    change (do let m ← npMax (((indexList ![8, 1, 1]).map fun _ => ((roundabout.ndim : ℕ) : ℚ))); _) = _ at h3
    have e : (indexList ![8, 1, 1]).map (fun _ : Ix => ((roundabout.ndim : ℕ) : ℚ)) = List.replicate 8 1 := by decide +kernel
    rw [e] at h3
    have h4 : (1 / 2 * min (min (1 / 8) 1) 1 / (List.replicate 7 1).foldl max 1 : ℚ) = dt := Except.ok.inj h3
    rw [← h4]
    decide +kernel
  rw [this] at h1
  exact ⟨k, h1⟩

end FVHOE
