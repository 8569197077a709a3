import Verif.Proofs.Closed
import Verif.Props.C04_C11

/-! Boundary conditions without prescribed values, and checked runs. -/

set_option linter.unusedSectionVars false

namespace FVHOE

variable {K : Type} [Field K] [LinearOrder K] [IsStrictOrderedRing K]
variable {V : Type} [AddCommGroup V] [Module K V]

/-- Every active side is free, or outflow, reflective or periodic with at least as many cells as ghost
layers; a periodic right side comes with a periodic left side. -/
def PlainSides (S : Scheme K V) (gw : Fin 3 → ℕ) : Prop := ∀ d, S.active d = true →
  (∀ s, S.bc.kind d s = .free ∨ ((S.bc.kind d s = .outflow ∨ S.bc.kind d s = .reflective ∨
    S.bc.kind d s = .periodic) ∧ gw d ≤ S.n d)) ∧
  (S.bc.kind d .r = .periodic → S.bc.kind d .l = .periodic)

/-- The continuation of each of these kinds. -/
def sideGhost (negate : V → V) : BCKind → Ghost V
  | .free => .clamp
  | .outflow => .mirror id
  | .reflective => .mirror negate
  | _ => .wrap

/-- The continuation at a side; nothing is read beyond the sides of an inactive direction. -/
def Scheme.ghost (S : Scheme K V) (s : Side) (d : Fin 3) : Ghost V :=
  if S.active d = true then sideGhost (S.negate d) (S.bc.kind d s) else .wrap

/-- The state continued beyond the boundaries. -/
def padded (S : Scheme K V) (u : Ix → V) : Ix → V := extAll S.n (S.ghost .l) (S.ghost .r) u

theorem PlainSides.sides {S : Scheme K V} {gw : Fin 3 → ℕ} (h : PlainSides S gw) (hn : ∀ d, 1 ≤ S.n d)
    (h0 : ∀ d, S.active d = false → gw d = 0) (t : K) :
    Sides S gw t (S.ghost .l) (S.ghost .r) := by
  have key : ∀ d s, SideSpec S.bc S.negate S.n gw t d s (S.ghost s d) := by
    intro d s
    unfold Scheme.ghost
    by_cases hd : S.active d = true
    · rw [if_pos hd]
      obtain ⟨h1, h2⟩ := h d hd
      rcases h1 s with e | ⟨e | e | e, hw⟩
      · rw [e]; exact .free e (hn d)
      · rw [e]; exact .outflow e hw
      · rw [e]; exact .reflective e hw
      · rw [e]
        refine .periodic e ?_ hw (hn d)
        cases s with
        | l => exact e
        | r => exact h2 e
    · exact .inactive (h0 d (by simpa using hd)) _
  exact fun d => ⟨key d .l, key d .r⟩

theorem Scheme.ghost_keeps (S : Scheme K V) (P : V → Prop) (s : Side)
    (h : ∀ d, S.active d = true → S.bc.kind d s = .reflective → ∀ v, P v → P (S.negate d v)) (d : Fin 3) :
    (S.ghost s d).Keeps P := by
  unfold Scheme.ghost
  split
  · rename_i hd
    have := h d hd
    revert this
    cases S.bc.kind d s <;> intro this <;> simp only [sideGhost, Ghost.Keeps] <;>
      first | trivial | exact fun v hv => hv | exact this rfl
  · trivial

/-- A right-hand side that either raises or is an evaluation of the solver at a state satisfying
`Good`. A run of the solver that meets only such states is a run of a right-hand side of this form;
`IsSolverRHS.checked` builds it. -/
def IsCheckedRHS (S : Scheme K V) (Good : (Ix → V) → Prop) (f : RHS K (Ix → V)) : Prop :=
  ∀ s t u r, f s t u = .ok r → Good u ∧ ∃ junk mem, solverRHS S junk mem s t u = .ok r

open Classical in
theorem IsSolverRHS.checked {S : Scheme K V} {f : RHS K (Ix → V)} (hf : IsSolverRHS S f)
    (Good : (Ix → V) → Prop) :
    IsCheckedRHS S Good fun s t u => if Good u then f s t u else .error .valueError := by
  intro s t u r h
  beta_reduce at h
  split at h
  · rename_i hg
    obtain ⟨junk, mem, e⟩ := hf s t u
    exact ⟨hg, junk, mem, e ▸ h⟩
  · cases h

/-- Membership in a submodule, cell by cell. -/
def cellsIn (n : Fin 3 → ℕ) (N : Submodule K V) : Submodule K (Ix → V) where
  carrier := {u | ∀ i, InCells n i → u i ∈ N}
  add_mem' := fun ha hb i hi => N.add_mem (ha i hi) (hb i hi)
  zero_mem' := fun _ _ => N.zero_mem
  smul_mem' := fun c _ ha i hi => N.smul_mem c (ha i hi)

/-- A condition on the cells that survives adding elements of `N`, where all derivatives at states in
the condition lie, holds throughout a checked run. -/
theorem run_closed (S : Scheme K V) (Good : (Ix → V) → Prop) (Pc : V → Prop) (N : Submodule K V)
    (hPN : ∀ a b, Pc a → b ∈ N → Pc (a + b)) (f : RHS K (Ix → V)) (hf : IsCheckedRHS S Good f)
    (hD : ∀ u, Good u → (∀ i, InCells S.n i → Pc (u i)) → ∀ junk mem t t' dt D,
      solverRHS S junk mem t t' u = .ok (dt, D) → ∀ i, D i ∈ N)
    {Sn : Type} (m : Integrator) (mk : ODEState K (Ix → V) Sn → Sn) (fuel : ℕ) (a : IntegrateArgs K Sn)
    (st : ODEState K (Ix → V) Sn) (h0 : ∀ i, InCells S.n i → Pc (st.u i)) (out : Outcome K (Ix → V) Sn)
    (h : st.integrate (stepper f m) mk fuel a = some out) : ∀ i, InCells S.n i → Pc (out.1.u i) := by
  have hc : ∀ v : Ix → V, v - st.u ∈ cellsIn S.n N → ∀ i, InCells S.n i → Pc (v i) := by
    intro v hv i hi
    have := hPN _ _ (h0 i hi) (hv i hi)
    simpa using this
  refine hc _ (integrate_coset f (cellsIn S.n N) st.u ?_ m mk fuel a st out ?_ h)
  · intro s t v dt k hv hk
    obtain ⟨hg, junk, mem, e⟩ := hf s t v (dt, k) hk
    exact fun i _ => hD v hg (hc v hv) junk mem s t dt k e i
  · rw [sub_self]; exact Submodule.zero_mem _

end FVHOE
