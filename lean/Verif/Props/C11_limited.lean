import Verif.Proofs.Memory
import Verif.Props.C06

/-!
C11 with limiting: the right-hand side does not depend on memory that was never written.
-/

set_option linter.unusedSectionVars false

namespace FVHOE

variable {K : Type} [Field K] [LinearOrder K] [IsStrictOrderedRing K] {np : ℕ}

/-- **C11** With any limiter options: where the ghost layers can be filled, the outcome of the
right-hand side (step, derivative, or exception) does not depend on the uninitialised ghost memory,
on the contents of the stored flux arrays, or on anything outside the cells of the state. -/
theorem C11_memory_limited (c : EulerConfig K np) (o : Option (LimiterOpts K))
    (hw : WellPosed (c.limited o).scheme) (t : K) (u : Ix → State K np) :
    ∃ r, ∀ junk mem t' u', (∀ i, InCells c.n i → u' i = u i) →
      solverRHS (c.limited o).scheme junk mem t t' u' = r :=
  ⟨solverRHS (c.limited o).scheme (fun _ _ => 0) (fun _ _ => 0) t t u, fun junk mem t' u' hu =>
    rhs_memory _ hw t t' t junk _ mem _ u' u (fun i hi => hu i (by cases o <;> exact hi))⟩

/-- The hypotheses hold for the channel with the default limiter. -/
example : WellPosed ((scalarChannel 1).limited (some convexLimiter)).scheme := channel_wellPosed 1 _

end FVHOE
