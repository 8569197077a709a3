import Verif.Model.ODE

/-! A run without exceptions stays the same when the right-hand side is defined at more states. -/

set_option linter.unusedSectionVars false

namespace FVHOE

variable {K : Type} [Field K] [LinearOrder K] [IsStrictOrderedRing K]
variable {U : Type} [AddCommGroup U] [Module K U] {S : Type}

/-- Wherever `x` succeeds `y` gives the same. -/
def Sub {α : Type} (x y : Except PyErr α) : Prop := ∀ r, x = .ok r → y = .ok r

theorem Sub.bind {α β : Type} {x y : Except PyErr α} (h : Sub x y) {g g' : α → Except PyErr β}
    (hg : ∀ a, Sub (g a) (g' a)) : Sub (x >>= g) (y >>= g') := by
  intro r hr
  cases hx : x with
  | error e => rw [hx] at hr; cases hr
  | ok a =>
    rw [hx] at hr
    rw [h a hx]
    exact hg a r hr

theorem Sub.rfl {α : Type} (x : Except PyErr α) : Sub x x := fun _ h => h

theorem stepper_refine (f g : RHS K U) (h : ∀ s t u, Sub (f s t u) (g s t u)) (m : Integrator) (t : K) (u : U)
    (target : Option K) : Sub (stepper f m t u target) (stepper g m t u target) := by
  cases m with
  | euler => exact (h _ _ _).bind fun _ => .rfl _
  | ssprk2 => exact (h _ _ _).bind fun _ => (h _ _ _).bind fun _ => .rfl _
  | ssprk3 => exact (h _ _ _).bind fun _ => (h _ _ _).bind fun _ => (h _ _ _).bind fun _ => .rfl _
  | rk4 =>
    exact (h _ _ _).bind fun _ => (h _ _ _).bind fun _ => (h _ _ _).bind fun _ => (h _ _ _).bind fun _ => .rfl _

section
variable {stp stp' : K → U → Option K → Except PyErr (K × U)} (hs : ∀ t u x, Sub (stp t u x) (stp' t u x))
  {mk : ODEState K U S → S}
include hs

theorem takeStep_refine (st : ODEState K U S) (x : Option K) (st1 : ODEState K U S)
    (h : st.takeStep stp x = (st1, none)) : st.takeStep stp' x = (st1, none) := by
  unfold ODEState.takeStep at h ⊢
  cases hx : stp st.t st.u x with
  | error e => rw [hx] at h; cases h
  | ok r =>
    rw [hx] at h
    rw [hs _ _ _ r hx]
    exact h

theorem takeSteps_refine (n : ℕ) (st : ODEState K U S) (st1 : ODEState K U S)
    (h : st.takeSteps stp n = (st1, none)) : st.takeSteps stp' n = (st1, none) := by
  induction n generalizing st with
  | zero => exact h
  | succ n ih =>
    unfold ODEState.takeSteps at h ⊢
    cases hx : st.takeStep stp none with
    | mk a e =>
      rw [hx] at h
      cases e with
      | some e => cases h
      | none =>
        rw [takeStep_refine hs st none a hx]
        exact ih a h

theorem loop_refine (T : K) (logEvery : Bool) (fuel : ℕ) (target : Option K) (ds : List K)
    (st : ODEState K U S) (out : ODEState K U S)
    (h : st.loop stp mk T logEvery fuel target ds = some (out, none)) :
    st.loop stp' mk T logEvery fuel target ds = some (out, none) := by
  induction fuel generalizing target ds st with
  | zero => cases h
  | succ fuel ih =>
    unfold ODEState.loop at h ⊢
    by_cases hT : st.t < T
    · rw [if_pos hT] at h ⊢
      cases hx : st.takeStep stp target with
      | mk a e =>
        rw [hx] at h
        cases e with
        | some e => cases h
        | none =>
          rw [takeStep_refine hs st target a hx]
          dsimp only at h ⊢
          split at h
          · rename_i hc
            rw [if_pos hc]
            cases ds with
            | nil => exact ih _ _ _ h
            | cons d ds =>
              dsimp only at h ⊢
              split at h
              · rename_i hc'
                rw [if_pos hc']
                exact ih _ _ _ h
              · rename_i hc'
                rw [if_neg hc']
                exact ih _ _ _ h
          · rename_i hc
            rw [if_neg hc]
            exact ih _ _ _ h
    · rw [if_neg hT] at h ⊢
      exact h

end

/-- A run without exception is also a run of a right-hand side that agrees wherever the first one succeeds. -/
theorem integrate_refine (f g : RHS K U) (h : ∀ s t u, Sub (f s t u) (g s t u)) (m : Integrator)
    (mk : ODEState K U S → S) (fuel : ℕ) (a : IntegrateArgs K S) (st out : ODEState K U S)
    (hr : st.integrate (stepper f m) mk fuel a = some (out, none)) :
    st.integrate (stepper g m) mk fuel a = some (out, none) := by
  have hs := stepper_refine f g h m
  unfold ODEState.integrate at hr ⊢
  cases hT : a.T with
  | none =>
    rw [hT] at hr
    dsimp only at hr ⊢
    unfold ODEState.integrateN at hr ⊢
    cases hn : a.n with
    | none => rw [hn] at hr; cases hr
    | some n =>
      rw [hn] at hr
      dsimp only at hr ⊢
      cases hx : (st.snapshot mk).takeSteps (stepper f m) n with
      | mk b e =>
        rw [hx] at hr
        cases e with
        | some e => cases hr
        | none =>
          rw [takeSteps_refine hs n _ b hx]
          exact hr
  | some T =>
    rw [hT] at hr
    dsimp only at hr ⊢
    cases hv : a.saved with
    | some l => rw [hv] at hr; exact hr
    | none =>
      rw [hv] at hr
      dsimp only at hr ⊢
      unfold ODEState.integrateT at hr ⊢
      split at hr
      · rename_i hc
        rw [if_pos hc]
        split at hr
        · cases hr
        · exact loop_refine hs T _ fuel _ _ _ out hr
      · rename_i hc
        rw [if_neg hc]
        exact loop_refine hs T _ fuel _ _ _ out hr

end FVHOE
