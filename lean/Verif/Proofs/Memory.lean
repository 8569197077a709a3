import Verif.Proofs.Limited
import Verif.Props.C04_C11

/-!
The right-hand side, with or without limiting, does not depend on uninitialised ghost memory, on the
stored flux arrays or on what the state holds outside the cells.
-/

set_option linter.unusedSectionVars false

namespace FVHOE

variable {K : Type} [Field K] [LinearOrder K] [IsStrictOrderedRing K]
variable {V : Type} [AddCommGroup V] [Module K V]

/-- Ghost layers of the given width can be filled at any time: no side is left alone, there are enough
cells to fill from, and filling raises nothing (for some state, hence for all). -/
def Fills (S : Scheme K V) (gw : Fin 3 → ℕ) : Prop :=
  Fillable S.bc S.n gw ∧ ∀ t, ∃ v junk A, S.bc.apply S.negate ⟨S.n, v⟩ gw t junk = .ok A

/-- Degrees up to 8, cells in every direction, all ghost layers used can be filled. -/
structure WellPosed (S : Scheme K V) : Prop where
  degree : ∀ d, S.p d ≤ 8
  cells : ∀ d, 1 ≤ S.n d
  ghosts : Fills S (fluxWidth S S.p)
  limiter : ∀ L, S.limiting = some L → L.Local ∧ Fills S (fluxWidth S (fallbackP S.p)) ∧
    Fills S (detectWidth S)

theorem Fills.sides {S : Scheme K V} {gw : Fin 3 → ℕ} (h : Fills S gw) (t : K) :
    ∃ gl gr, Sides S gw t gl gr := by
  obtain ⟨v, junk, A, hA⟩ := h.2 t
  obtain ⟨gl, gr, hl, hr⟩ := spec_of_ok S.bc S.negate S.n gw t h.1 v junk A hA
  exact ⟨gl, gr, fun d => ⟨hl d, hr d⟩⟩

theorem rhs_memory (S : Scheme K V) (h : WellPosed S) (t t₁ t₂ : K) (junk junk' : ℕ → Ix → V)
    (mem mem' : Fin 3 → Ix → V) (u u' : Ix → V) (hu : ∀ i, InCells S.n i → u i = u' i) :
    solverRHS S junk mem t t₁ u = solverRHS S junk' mem' t t₂ u' := by
  obtain ⟨gl, gr, hs⟩ := h.ghosts.sides t
  cases hlim : S.limiting with
  | none =>
    obtain ⟨dt, h1, e1⟩ := rhs_spec S hlim h.degree h.cells t gl gr hs junk mem t₁ u u' hu
    obtain ⟨dt', h2, e2⟩ := rhs_spec S hlim h.degree h.cells t gl gr hs junk' mem' t₂ u' u'
      (fun _ _ => rfl)
    cases h1.unique h2
    rw [e1, e2]
  | some L =>
    obtain ⟨hloc, hf, hd⟩ := h.limiter L hlim
    obtain ⟨gl', gr', hs'⟩ := hf.sides t
    obtain ⟨gld, grd, hsd⟩ := hd.sides t
    obtain ⟨dt, h1, e1⟩ := rhs_limited S L hlim hloc h.degree h.cells t gl gr gl' gr' gld grd hs hs' hsd
      junk mem t₁ u u' hu
    obtain ⟨dt', h2, e2⟩ := rhs_limited S L hlim hloc h.degree h.cells t gl gr gl' gr' gld grd hs hs' hsd
      junk' mem' t₂ u' u' (fun _ _ => rfl)
    cases h1.unique h2
    rw [e1, e2]

/-- Sides other than dirichlet, with enough cells, can always be filled. -/
theorem Fills.plain (S : Scheme K V) (gw : Fin 3 → ℕ) (hn : ∀ d, 1 ≤ S.n d)
    (hk : ∀ d, gw d ≠ 0 →
      (∀ s, S.bc.kind d s = .free ∨ ((S.bc.kind d s = .outflow ∨ S.bc.kind d s = .reflective ∨
        S.bc.kind d s = .periodic) ∧ gw d ≤ S.n d)) ∧
      (S.bc.kind d .r = .periodic → S.bc.kind d .l = .periodic)) : Fills S gw :=
  ⟨(C11_open_sides S gw 0 hn hk).1, fun t => ⟨0, 0, (C11_open_sides S gw t hn hk).2 0 0⟩⟩

end FVHOE
