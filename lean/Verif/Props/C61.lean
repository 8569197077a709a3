import Mathlib.Data.Rat.Cast.Order
import Verif.Proofs.Spent
import Verif.Props.C46

/-!
C61: the times reported by the timers of a solver fit into each other.
-/

set_option linter.unusedSectionVars false

namespace FVHOE

variable {K : Type} [Field K] [LinearOrder K] [IsStrictOrderedRing K] {V : Type} [AddCommGroup V] [Module K V]

/-! ## The programs as nested brackets -/

theorem timedPrimitives_eq (clock : ℕ → K) (S : Scheme K V) (t : K) (junk : Ix → V) (p gw : Fin 3 → ℕ)
    (u : Arr V) (fv : Bool) : timedPrimitives clock S t junk p gw u fv = (do
      let ubc ← bracket clock "boundary conditions" (TM.lift
        (S.bc.apply S.negate u (fun d => gw d + (if fv then 2 else 1) * ceilHalf (p d)) t junk))
      let uc ← TM.lift (interpolateCellCenters K ubc p)
      if fv then TM.lift (interpolateFvAverages K (uc.map S.prim) p) else pure (uc.map S.prim)) := by
  unfold timedPrimitives bracket
  simp only [bind_assoc, pure_bind]

/-- The part of `hydrofluxes` between its two outer timer calls. -/
def fluxBody (clock : ℕ → K) (S : Scheme K V) (selfT : K) (junk : Ix → V) (mem : Fin 3 → Arr V)
    (p : Fin 3 → ℕ) (slope : Option (V → V → V)) (pre : String) (u : Arr V) : TM K (K × (Fin 3 → Arr V)) := do
  TM.lift (if slope.isSome = true ∧ 1 < max (max (p 0) (p 1)) (p 2) then .error .valueError else .ok ())
  let w ← timedPrimitives clock S selfT junk p (fun d => if S.active d then fluxGw p else 0) u true
  let dt ← TM.lift (timeStep S w)
  let W ← bracket clock (pre ++ "conservative interpolation") (TM.lift (forDims (faceStage S p slope w)))
  let f ← bracket clock (pre ++ "riemann solver") (TM.lift (forDims (riemannStage S W)))
  let F ← bracket clock (pre ++ "transverse reconstruction") (TM.lift (forDims (integralStage S p mem f)))
  return (dt, F)

theorem timedHydrofluxes_eq (clock : ℕ → K) (S : Scheme K V) (t : K) (junk : Ix → V) (mem : Fin 3 → Arr V)
    (p : Fin 3 → ℕ) (slope : Option (V → V → V)) (pre : String) (u : Arr V) :
    timedHydrofluxes clock S t junk mem p slope pre u =
      bracket clock (pre ++ "hydrofluxes") (fluxBody clock S t junk mem p slope pre u) := by
  unfold timedHydrofluxes bracket fluxBody bracket
  simp only [bind_assoc, pure_bind]

/-- The part of `revise_fluxes` between its two outer timer calls. -/
def reviseBody (clock : ℕ → K) (S : Scheme K V) (L : Limiting K V) (selfT : K) (junk : ℕ → Ix → V)
    (u : Arr V) (F : Fin 3 → Arr V) (dt : K) : TM K (Fin 3 → Arr V) := do
  let dudt ← TM.lift (eulerEquation S F)
  let ustar ← TM.lift (u.zip (fun x y => x + dt • y) dudt)
  let w ← timedPrimitives clock S selfT (junk 1) S.p (fun d => if S.active d then 3 else 0) u true
  let wstar ← timedPrimitives clock S selfT (junk 2) S.p (fun d => if S.active d then 3 else 0) ustar true
  let troubled ← bracket clock "(fallback scheme) troubled cell detection" (TM.lift (L.detect w wstar))
  timedFallback clock S L selfT junk u F (if L.force then troubled.map fun _ => true else troubled)

theorem timedRevise_eq (clock : ℕ → K) (S : Scheme K V) (L : Limiting K V) (t : K)
    (junk : ℕ → Ix → V) (u : Arr V) (F : Fin 3 → Arr V) (dt : K) :
    timedRevise clock S L t junk u F dt =
      bracket clock "(fallback scheme)" (reviseBody clock S L t junk u F dt) := by
  unfold timedRevise bracket reviseBody bracket
  simp only [bind_assoc, pure_bind]

section
variable {U : Type} [AddCommGroup U] [Module K U] {S : Type} {clock : ℕ → K}
  {stp : K → U → Option K → TM K (K × U)} {mk : ODEState K U S → TM K S}

theorem timedIntegrateN_eq (n : Option ℕ) (st : ODEState K U S) : timedIntegrateN clock stp mk n st = (do
    let st1 ← bracket clock "SNAPSHOTS" (timedSnapshot mk st)
    let st2 ← bracket clock "TOTAL" (do
      let k ← TM.lift (match n with | none => .error .typeError | some k => .ok k)
      timedTakeSteps stp k st1)
    bracket clock "SNAPSHOTS" (timedSnapshot mk st2)) := by
  unfold timedIntegrateN bracket
  simp only [bind_assoc, pure_bind]
  rfl

theorem timedLoopSnapshot_eq (st : ODEState K U S) :
    timedLoopSnapshot clock mk st = bracket clock "SNAPSHOTS" (timedSnapshot mk st) := rfl

theorem timedMain_eq {T : K} {logEvery : Bool} {fuel : ℕ} {target : Option K} {ds : List K}
    {st st' : ODEState K U S} {s s' : Clocked K}
    (h : timedMain clock stp mk T logEvery fuel target ds st s = (.ok (some st'), s')) :
    (timedSnapshot mk st >>= fun st1 =>
      bracket clock "TOTAL" (timedLoop clock stp mk T logEvery fuel target ds st1)) s = (.ok (some st'), s') := by
  obtain ⟨st1, s1, e1, h⟩ := tm_bind_ok h
  obtain ⟨x, s2, e2, h⟩ := tm_bind_ok h
  obtain ⟨r, s3, e3, h⟩ := tm_bind_ok h
  cases r with
  | none =>
    change ((.ok none, s3) : Except PyErr (Option (ODEState K U S)) × Clocked K) = _ at h
    simp at h
  | some st2 =>
    obtain ⟨y, s4, e4, h⟩ := tm_bind_ok h
    rw [TM.pure_apply, Prod.mk.injEq, Except.ok.injEq, Option.some.injEq] at h
    obtain ⟨rfl, rfl⟩ := h
    unfold bracket
    simp only [TM.bind_apply, e1, e2, e3, e4]
    rfl

end

/-! ## Which categories a call can change -/

/-- Categories of the stages of a flux computation. -/
def stageCats (pre : String) : Finset String :=
  {pre ++ "conservative interpolation", pre ++ "riemann solver", pre ++ "transverse reconstruction"}

/-- Categories inside the outer calls of a flux computation. -/
def fluxInner (pre : String) : Finset String := stageCats pre ∪ {"boundary conditions"}

section
variable (clock : ℕ → K) (S : Scheme K V)

theorem timedPrimitives_only (t : K) (junk : Ix → V) (p gw : Fin 3 → ℕ) (u : Arr V) (fv : Bool) :
    Only {"boundary conditions"} (timedPrimitives clock S t junk p gw u fv) := by
  rw [timedPrimitives_eq]
  refine (Only.bracket (Balanced.lift _) (Only.lift _ _) (by simp)).bind fun _ => (Only.lift _ _).bind
    fun _ => Only.ite (Only.lift _ _) (Only.pure _ _)

theorem fluxBody_balanced (t : K) (junk : Ix → V) (mem : Fin 3 → Arr V)
    (p : Fin 3 → ℕ) (slope : Option (V → V → V)) (pre : String) (u : Arr V) :
    Balanced (fluxBody clock S t junk mem p slope pre u) :=
  (Balanced.lift _).bind fun _ => (timedPrimitives_balanced ..).bind fun _ => (Balanced.lift _).bind fun _ =>
    (Balanced.lift _).bracket.bind fun _ => (Balanced.lift _).bracket.bind fun _ =>
    (Balanced.lift _).bracket.bind fun _ => Balanced.pure _

theorem fluxBody_only (t : K) (junk : Ix → V) (mem : Fin 3 → Arr V)
    (p : Fin 3 → ℕ) (slope : Option (V → V → V)) (pre : String) (u : Arr V) :
    Only (fluxInner pre) (fluxBody clock S t junk mem p slope pre u) :=
  (Only.lift _ _).bind fun _ => ((timedPrimitives_only ..).mono Finset.subset_union_right).bind fun _ =>
    (Only.lift _ _).bind fun _ =>
    (Only.bracket (Balanced.lift _) (Only.lift _ _) (by simp [fluxInner, stageCats])).bind fun _ =>
    (Only.bracket (Balanced.lift _) (Only.lift _ _) (by simp [fluxInner, stageCats])).bind fun _ =>
    (Only.bracket (Balanced.lift _) (Only.lift _ _) (by simp [fluxInner, stageCats])).bind fun _ => Only.pure _ _

/-- Categories of a flux computation. -/
def fluxAll (pre : String) : Finset String := insert (pre ++ "hydrofluxes") (fluxInner pre)

theorem timedHydrofluxes_only (t : K) (junk : Ix → V) (mem : Fin 3 → Arr V)
    (p : Fin 3 → ℕ) (slope : Option (V → V → V)) (pre : String) (u : Arr V) :
    Only (fluxAll pre) (timedHydrofluxes clock S t junk mem p slope pre u) := by
  rw [timedHydrofluxes_eq]
  exact Only.bracket (fluxBody_balanced ..) ((fluxBody_only ..).mono (Finset.subset_insert _ _))
    (Finset.mem_insert_self _ _)

theorem timedFallback_only (L : Limiting K V) (t : K) (junk : ℕ → Ix → V) (u : Arr V) (F : Fin 3 → Arr V)
    (troubled : Arr Bool) :
    Only (fluxAll "(fallback scheme) ") (timedFallback clock S L t junk u F troubled) := by
  unfold timedFallback
  exact Only.ite ((timedHydrofluxes_only ..).bind fun _ => (Only.lift _ _).bind fun _ => Only.lift _ _)
    (Only.pure _ _)

/-- Categories inside the outer calls of `revise_fluxes`. -/
def reviseInner : Finset String :=
  insert "(fallback scheme) troubled cell detection" (fluxAll "(fallback scheme) ")

theorem reviseBody_balanced (L : Limiting K V) (t : K) (junk : ℕ → Ix → V) (u : Arr V) (F : Fin 3 → Arr V)
    (dt : K) : Balanced (reviseBody clock S L t junk u F dt) :=
  (Balanced.lift _).bind fun _ => (Balanced.lift _).bind fun _ => (timedPrimitives_balanced ..).bind fun _ =>
    (timedPrimitives_balanced ..).bind fun _ => (Balanced.lift _).bracket.bind fun _ => timedFallback_balanced ..

theorem bc_inner : ({"boundary conditions"} : Finset String) ⊆ reviseInner := by decide +kernel

theorem reviseBody_only (L : Limiting K V) (t : K) (junk : ℕ → Ix → V) (u : Arr V) (F : Fin 3 → Arr V)
    (dt : K) : Only reviseInner (reviseBody clock S L t junk u F dt) :=
  (Only.lift _ _).bind fun _ => (Only.lift _ _).bind fun _ =>
    ((timedPrimitives_only ..).mono bc_inner).bind fun _ =>
    ((timedPrimitives_only ..).mono bc_inner).bind fun _ =>
    (Only.bracket (Balanced.lift _) (Only.lift _ _) (Finset.mem_insert_self _ _)).bind fun _ =>
    (timedFallback_only ..).mono (Finset.subset_insert _ _)

/-- Categories of `revise_fluxes`. -/
def reviseAll : Finset String := insert "(fallback scheme)" reviseInner

theorem timedRevise_only (L : Limiting K V) (t : K) (junk : ℕ → Ix → V) (u : Arr V) (F : Fin 3 → Arr V)
    (dt : K) : Only reviseAll (timedRevise clock S L t junk u F dt) := by
  rw [timedRevise_eq]
  exact Only.bracket (reviseBody_balanced ..) ((reviseBody_only ..).mono (Finset.subset_insert _ _))
    (Finset.mem_insert_self _ _)

theorem timedLimit_only (t : K) (junk : ℕ → Ix → V) (u : Arr V) (F : Fin 3 → Arr V) (dt : K) :
    Only reviseAll (timedLimit clock S t junk u F dt) := by
  unfold timedLimit
  split
  · exact Only.pure _ _
  · exact timedRevise_only ..

theorem solver_sub : fluxAll "(high-order) " ⊆ solverCats.toFinset ∧ reviseAll ⊆ solverCats.toFinset := by
  decide +kernel

theorem timedRHS_only (junk : ℕ → Ix → V) (mem : Fin 3 → Ix → V) (t t' : K) (u : Ix → V) :
    Only solverCats.toFinset (timedRHS clock S junk mem t t' u) := by
  refine Only.bind (Only.bind ((timedHydrofluxes_only ..).mono solver_sub.1) fun _ => (Only.lift _ _).bind
    fun _ => Only.bind ((timedLimit_only ..).mono solver_sub.2) fun _ => (Only.lift _ _).bind fun _ =>
    Only.pure _ _) fun _ => Only.lift _ _

end

/-! ## Right-hand sides -/

section
variable {clock : ℕ → K} (hclock : Monotone clock) (S : Scheme K V)
include hclock

theorem fluxBody_spends (pre : String) (hp : (fluxCats pre).Nodup) (t : K) (junk : Ix → V)
    (mem : Fin 3 → Arr V) (p : Fin 3 → ℕ) (slope : Option (V → V → V)) (u : Arr V) :
    Spends clock (stageCats pre) (fluxBody clock S t junk mem p slope pre u) := by
  have d : Disjoint (stageCats pre) ({"boundary conditions"} : Finset String) := by
    rw [Finset.disjoint_singleton_right]
    simp only [fluxCats, List.nodup_cons, List.mem_cons, List.not_mem_nil, or_false, not_or] at hp
    simp only [stageCats, Finset.mem_insert, Finset.mem_singleton, not_or]
    exact ⟨fun e => hp.2.1.2.2 e.symm, fun e => hp.2.2.1.2 e.symm, fun e => hp.2.2.2.1 e.symm⟩
  have l : ∀ {α : Type} (x : Except PyErr α), Spends clock (stageCats pre) (TM.lift x : TM K α) := fun x =>
    Spends.only hclock (Only.lift ∅ x) (Finset.disjoint_empty_right _)
  have b : ∀ {α : Type} (c : String) (x : Except PyErr α), c ∈ stageCats pre →
      Spends clock (stageCats pre) (bracket clock c (TM.lift x : TM K α)) := fun c x hc =>
    Spends.inside hclock (Balanced.lift x) hc (Only.lift ∅ x) (Finset.disjoint_empty_right _)
  exact (l _).bind fun _ => (Spends.only hclock (timedPrimitives_only ..) d).bind fun _ => (l _).bind fun _ =>
    (b _ _ (by simp [stageCats])).bind fun _ => (b _ _ (by simp [stageCats])).bind fun _ =>
    (b _ _ (by simp [stageCats])).bind fun _ =>
    Spends.only hclock (Only.pure ∅ _) (Finset.disjoint_empty_right _)

theorem timedHydrofluxes_nested (pre : String) (hp : (fluxCats pre).Nodup) (t : K) (junk : Ix → V)
    (mem : Fin 3 → Arr V) (p : Fin 3 → ℕ) (slope : Option (V → V → V)) (u : Arr V) :
    Nested (pre ++ "hydrofluxes") (stageCats pre) (timedHydrofluxes clock S t junk mem p slope pre u) := by
  have h2 : pre ++ "hydrofluxes" ∉ fluxInner pre := by
    simp only [fluxCats, List.nodup_cons, List.mem_cons, List.not_mem_nil, or_false, not_or] at hp
    simp only [fluxInner, stageCats, Finset.mem_union, Finset.mem_insert, Finset.mem_singleton, not_or]
    exact ⟨⟨hp.1.1, hp.1.2.1, hp.1.2.2.1⟩, hp.1.2.2.2⟩
  rw [timedHydrofluxes_eq]
  exact Nested.around hclock (fluxBody_balanced ..) (fun h => h2 (Finset.mem_union_left _ h))
    (fluxBody_only ..) h2 (fluxBody_spends hclock S pre hp t junk mem p slope u)

/-- Which categories enclose which: the time of the first is at least the sum of the others. -/
def enclosures : List (String × Finset String) :=
  [("(high-order) hydrofluxes", {"(high-order) conservative interpolation", "(high-order) riemann solver",
      "(high-order) transverse reconstruction"}),
   ("(fallback scheme) hydrofluxes", {"(fallback scheme) conservative interpolation",
      "(fallback scheme) riemann solver", "(fallback scheme) transverse reconstruction"}),
   ("(fallback scheme)", {"(fallback scheme) troubled cell detection", "(fallback scheme) hydrofluxes"})]

theorem timedFallback_nested (L : Limiting K V) (t : K) (junk : ℕ → Ix → V) (u : Arr V) (F : Fin 3 → Arr V)
    (troubled : Arr Bool) : Nested "(fallback scheme) hydrofluxes" (stageCats "(fallback scheme) ")
      (timedFallback clock S L t junk u F troubled) := by
  unfold timedFallback
  have n : ∀ {α : Type} (m : TM K α), Only ∅ m → Nested "(fallback scheme) hydrofluxes"
      (stageCats "(fallback scheme) ") m := fun m h => Nested.only h (Finset.disjoint_empty_right _) (by simp)
  refine Nested.ite (Nested.bind ?_ fun _ => (n _ (Only.lift _ _)).bind fun _ => n _ (Only.lift _ _))
    (n _ (Only.pure _ _))
  have := timedHydrofluxes_nested hclock S "(fallback scheme) " fluxCats_fallback.1 t (junk 3) F (fallbackP S.p)
    L.slope u
  rwa [show "(fallback scheme) " ++ "hydrofluxes" = "(fallback scheme) hydrofluxes" by decide +kernel] at this

theorem timedFallback_spends (L : Limiting K V) (t : K) (junk : ℕ → Ix → V) (u : Arr V) (F : Fin 3 → Arr V)
    (troubled : Arr Bool) :
    Spends clock {"(fallback scheme) troubled cell detection", "(fallback scheme) hydrofluxes"}
      (timedFallback clock S L t junk u F troubled) := by
  unfold timedFallback
  have n : ∀ {α : Type} (m : TM K α), Only ∅ m →
      Spends clock {"(fallback scheme) troubled cell detection", "(fallback scheme) hydrofluxes"} m :=
    fun m h => Spends.only hclock h (Finset.disjoint_empty_right _)
  split
  · refine Spends.bind ?_ fun _ => (n _ (Only.lift _ _)).bind fun _ => n _ (Only.lift _ _)
    rw [timedHydrofluxes_eq]
    exact Spends.inside hclock (fluxBody_balanced ..) (by decide +kernel) (fluxBody_only ..) (by decide +kernel)
  · exact n _ (Only.pure _ _)

theorem reviseBody_spends (L : Limiting K V) (t : K) (junk : ℕ → Ix → V) (u : Arr V) (F : Fin 3 → Arr V)
    (dt : K) : Spends clock {"(fallback scheme) troubled cell detection", "(fallback scheme) hydrofluxes"}
      (reviseBody clock S L t junk u F dt) := by
  have n : ∀ {α : Type} (x : Except PyErr α),
      Spends clock {"(fallback scheme) troubled cell detection", "(fallback scheme) hydrofluxes"}
        (TM.lift x : TM K α) :=
    fun x => Spends.only hclock (Only.lift ∅ x) (Finset.disjoint_empty_right _)
  have d : Disjoint ({"(fallback scheme) troubled cell detection", "(fallback scheme) hydrofluxes"} :
      Finset String) ({"boundary conditions"} : Finset String) := by decide +kernel
  exact (n _).bind fun _ => (n _).bind fun _ => (Spends.only hclock (timedPrimitives_only ..) d).bind fun _ =>
    (Spends.only hclock (timedPrimitives_only ..) d).bind fun _ =>
    (Spends.inside hclock (Balanced.lift _) (by simp) (Only.lift ∅ _) (Finset.disjoint_empty_right _)).bind
    fun _ => timedFallback_spends hclock S L t junk u F _

theorem timedRevise_nested (L : Limiting K V) (t : K) (junk : ℕ → Ix → V) (u : Arr V) (F : Fin 3 → Arr V)
    (dt : K) : ∀ e ∈ enclosures, Nested e.1 e.2 (timedRevise clock S L t junk u F dt) := by
  intro e he
  simp only [enclosures, List.mem_cons, List.not_mem_nil, or_false] at he
  rcases he with rfl | rfl | rfl
  · exact Nested.only (timedRevise_only ..) (by decide +kernel) (by decide +kernel)
  · rw [timedRevise_eq]
    refine Nested.outside (reviseBody_balanced ..) (by decide +kernel) (by decide +kernel) ?_
    have n : ∀ {α : Type} (m : TM K α), Only {"boundary conditions", "(fallback scheme) troubled cell detection"} m →
        Nested "(fallback scheme) hydrofluxes" {"(fallback scheme) conservative interpolation",
          "(fallback scheme) riemann solver", "(fallback scheme) transverse reconstruction"} m :=
      fun m h => Nested.only h (by decide +kernel) (by decide +kernel)
    refine (n _ (Only.lift _ _)).bind fun _ => (n _ (Only.lift _ _)).bind fun _ =>
      (n _ ((timedPrimitives_only ..).mono (by simp))).bind fun _ =>
      (n _ ((timedPrimitives_only ..).mono (by simp))).bind fun _ =>
      (n _ (Only.bracket (Balanced.lift _) (Only.lift _ _) (by simp))).bind fun tr => ?_
    have := timedFallback_nested hclock S L t junk u F (if L.force then tr.map fun _ => true else tr)
    exact this
  · rw [timedRevise_eq]
    exact Nested.around hclock (reviseBody_balanced ..) (by decide +kernel) (reviseBody_only ..)
      (by decide +kernel) (reviseBody_spends hclock S L t junk u F dt)

theorem timedLimit_nested (t : K) (junk : ℕ → Ix → V) (u : Arr V) (F : Fin 3 → Arr V)
    (dt : K) : ∀ e ∈ enclosures, Nested e.1 e.2 (timedLimit clock S t junk u F dt) := by
  unfold timedLimit
  split
  · exact fun e _ => Nested.only (Only.pure ∅ _) (Finset.disjoint_empty_right _) (by simp)
  · exact timedRevise_nested hclock S _ t junk u F dt

theorem timedRHS_nested (junk : ℕ → Ix → V) (mem : Fin 3 → Ix → V) (t t' : K) (u : Ix → V) :
    ∀ e ∈ enclosures, Nested e.1 e.2 (timedRHS clock S junk mem t t' u) := by
  intro e he
  have n : ∀ {α : Type} (m : TM K α), Only ∅ m → Nested e.1 e.2 m := fun m h =>
    Nested.only h (Finset.disjoint_empty_right _) (by simp)
  refine Nested.bind (Nested.bind ?_ fun _ => (n _ (Only.lift _ _)).bind fun _ =>
    Nested.bind (timedLimit_nested hclock S _ _ _ _ _ e he) fun _ => (n _ (Only.lift _ _)).bind fun _ =>
    n _ (Only.pure _ _)) fun _ => n _ (Only.lift _ _)
  simp only [enclosures, List.mem_cons, List.not_mem_nil, or_false] at he
  rcases he with rfl | rfl | rfl
  · exact timedHydrofluxes_nested hclock S "(high-order) " fluxCats_high.1 t (junk 0) (S.mem mem) S.p none ⟨S.n, u⟩
  · exact Nested.only (timedHydrofluxes_only ..) (by decide +kernel) (by decide +kernel)
  · exact Nested.only (timedHydrofluxes_only ..) (by decide +kernel) (by decide +kernel)

/-- The two parts of a right-hand side are never timed together. -/
theorem timedRHS_spends (junk : ℕ → Ix → V) (mem : Fin 3 → Ix → V) (t t' : K) (u : Ix → V) :
    Spends clock {"(high-order) hydrofluxes", "(fallback scheme)"} (timedRHS clock S junk mem t t' u) := by
  have n : ∀ {α : Type} (m : TM K α), Only ∅ m →
      Spends clock {"(high-order) hydrofluxes", "(fallback scheme)"} m := fun m h =>
    Spends.only hclock h (Finset.disjoint_empty_right _)
  refine Spends.bind (Spends.bind ?_ fun _ => (n _ (Only.lift _ _)).bind fun _ =>
    Spends.bind ?_ fun _ => (n _ (Only.lift _ _)).bind fun _ => n _ (Only.pure _ _)) fun _ => n _ (Only.lift _ _)
  · rw [timedHydrofluxes_eq]
    exact Spends.inside hclock (fluxBody_balanced ..) (by decide +kernel) (fluxBody_only ..) (by decide +kernel)
  · unfold timedLimit
    split
    · exact n _ (Only.pure _ _)
    · rw [timedRevise_eq]
      exact Spends.inside hclock (reviseBody_balanced ..) (by decide +kernel) (reviseBody_only ..)
        (by decide +kernel)

end

/-! ## Runs -/

section
variable {U : Type} [AddCommGroup U] [Module K U] {S : Type} {clock : ℕ → K}
  {stp : K → U → Option K → TM K (K × U)} {mk : ODEState K U S → TM K S}

/-- A property of methods that holds of sequences of statements. -/
structure Compositional (C : ∀ {α : Type}, TM K α → Prop) : Prop where
  pure : ∀ {α : Type} (a : α), C (Pure.pure a : TM K α)
  lift : ∀ {α : Type} (x : Except PyErr α), C (TM.lift x : TM K α)
  bind : ∀ {α β : Type} {m : TM K α} {k : α → TM K β}, C m → (∀ a, C (k a)) → C (m >>= k)

variable {C : ∀ {α : Type}, TM K α → Prop} (hC : Compositional C)
include hC

theorem Compositional.stepper {f : K → K → U → TM K (K × U)} (hf : ∀ t t' u, C (f t t' u)) (m : Integrator)
    (t : K) (u : U) (g : Option K) : C (timedStepper f m t u g) := by
  cases m
  · exact hC.bind (hf ..) fun _ => hC.pure _
  · exact hC.bind (hf ..) fun _ => hC.bind (hf ..) fun _ => hC.pure _
  · exact hC.bind (hf ..) fun _ => hC.bind (hf ..) fun _ => hC.bind (hf ..) fun _ => hC.pure _
  · exact hC.bind (hf ..) fun _ => hC.bind (hf ..) fun _ => hC.bind (hf ..) fun _ => hC.bind (hf ..) fun _ =>
      hC.pure _

theorem Compositional.takeSteps (hs : ∀ t u g, C (stp t u g)) (n : ℕ) (st : ODEState K U S) :
    C (timedTakeSteps stp n st) := by
  induction n generalizing st with
  | zero => exact hC.pure _
  | succ n ih => exact hC.bind (hC.bind (hs ..) fun _ => hC.pure _) fun _ => ih _

theorem Compositional.snapshot (hm : ∀ st, C (mk st)) (st : ODEState K U S) : C (timedSnapshot mk st) :=
  hC.bind (hm st) fun _ => hC.pure _

theorem Compositional.loop (hs : ∀ t u g, C (stp t u g)) (hm : ∀ st, C (timedLoopSnapshot clock mk st)) (T : K)
    (logEvery : Bool) (fuel : ℕ) (target : Option K) (ds : List K) (st : ODEState K U S) :
    C (timedLoop clock stp mk T logEvery fuel target ds st) := by
  induction fuel generalizing target ds st with
  | zero => exact hC.pure _
  | succ n ih =>
    unfold timedLoop
    split
    · refine hC.bind (hC.bind (hs ..) fun _ => hC.pure _) fun st1 => ?_
      split
      · refine hC.bind (hm _) fun st2 => ?_
        cases ds with
        | nil => exact ih ..
        | cons d ds =>
          show C (if _ then _ else _)
          split
          · exact ih ..
          · exact ih ..
      · exact ih ..
    · exact hC.pure _

end

theorem comp_balanced : Compositional (K := K) (fun {_} m => Balanced m) :=
  ⟨Balanced.pure, Balanced.lift, Balanced.bind⟩

theorem comp_only (B : Finset String) : Compositional (K := K) (fun {_} m => Only B m) :=
  ⟨Only.pure B, Only.lift B, Only.bind⟩

theorem comp_nested (P : String) (A : Finset String) : Compositional (K := K) (fun {_} m => Nested P A m) :=
  ⟨fun a => Nested.only (Only.pure ∅ a) (Finset.disjoint_empty_right _) (by simp),
   fun a => Nested.only (Only.lift ∅ a) (Finset.disjoint_empty_right _) (by simp), Nested.bind⟩

theorem comp_spends {clock : ℕ → K} (hclock : Monotone clock) (A : Finset String) :
    Compositional (K := K) (fun {_} m => Spends clock A m) :=
  ⟨fun a => Spends.only hclock (Only.pure ∅ a) (Finset.disjoint_empty_right _),
   fun a => Spends.only hclock (Only.lift ∅ a) (Finset.disjoint_empty_right _), Spends.bind⟩

section
variable {U : Type} [AddCommGroup U] [Module K U] {S : Type} {clock : ℕ → K}
  {stp : K → U → Option K → TM K (K × U)} {mk : ODEState K U S → TM K S}

theorem timedIntegrate_cases {fuel : ℕ} {a : IntegrateArgs K S} {st st' : ODEState K U S} {s s' : Clocked K}
    (h : timedIntegrate clock stp mk fuel a st s = (.ok (some st'), s')) :
    (∃ n, timedIntegrateN clock stp mk n st s = (.ok st', s')) ∨ s' = s ∨
      ∃ T target ds, timedMain clock stp mk T a.logEvery fuel target ds st s = (.ok (some st'), s') := by
  cases hT : a.T with
  | none =>
    simp only [timedIntegrate, hT] at h
    obtain ⟨r, s1, e, h⟩ := tm_bind_ok h
    rw [TM.pure_apply, Prod.mk.injEq, Except.ok.injEq, Option.some.injEq] at h
    obtain ⟨rfl, rfl⟩ := h
    exact .inl ⟨_, e⟩
  | some T =>
    cases hl : a.saved with
    | some l =>
      simp only [timedIntegrate, hT, hl] at h
      rw [TM.pure_apply, Prod.mk.injEq] at h
      exact .inr (.inl h.2.symm)
    | none =>
      simp only [timedIntegrate, hT, hl, timedIntegrateT] at h
      cases he : a.exact with
      | false =>
        simp only [he, Bool.false_eq_true, if_false] at h
        exact .inr (.inr ⟨_, _, _, h⟩)
      | true =>
        cases hk : keyTimes a.downbeats T with
        | nil => simp [he, hk, TM.lift] at h
        | cons d ds =>
          simp only [he, hk, if_true] at h
          exact .inr (.inr ⟨_, _, _, h⟩)

theorem integrate_nested {P : String} {A : Finset String} (hs : ∀ t u g, Nested P A (stp t u g))
    (hsb : ∀ t u g, Balanced (stp t u g)) (hmb : ∀ st, Balanced (mk st)) (hm : ∀ st, Nested P A (mk st))
    (hS : "SNAPSHOTS" ∉ A) (hS' : P ≠ "SNAPSHOTS") (hT : "TOTAL" ∉ A) (hT' : P ≠ "TOTAL")
    (fuel : ℕ) (a : IntegrateArgs K S) (st st' : ODEState K U S) (s s' : Clocked K)
    (h : timedIntegrate clock stp mk fuel a st s = (.ok (some st'), s')) :
    cumOf A s' - cumOf A s ≤ s'.timer.cumTime P - s.timer.cumTime P := by
  have snap : ∀ st, Nested P A (bracket clock "SNAPSHOTS" (timedSnapshot mk st)) := fun st =>
    Nested.outside (timedSnapshot_balanced hmb st) hS hS' ((comp_nested P A).snapshot hm st)
  rcases timedIntegrate_cases h with ⟨n, e⟩ | rfl | ⟨T, target, ds, h⟩
  · rw [timedIntegrateN_eq] at e
    refine (Nested.bind (snap _) fun st1 => Nested.bind (Nested.outside ?_ hT hT' ?_) fun st2 =>
      snap _).nested _ _ _ e
    · exact (Balanced.lift _).bind fun _ => timedTakeSteps_balanced hsb _ _
    · exact (comp_nested P A).bind ((comp_nested P A).lift _) fun _ => (comp_nested P A).takeSteps hs _ _
  · rw [sub_self, sub_self]
  · exact (Nested.bind ((comp_nested P A).snapshot hm st) fun _ =>
      Nested.outside (timedLoop_balanced hsb hmb ..) hT hT' ((comp_nested P A).loop hs snap ..)).nested
        _ _ _ (timedMain_eq h)

theorem integrate_total (hclock : Monotone clock) {A B D : Finset String}
    (hs : ∀ t u g, Spends clock A (stp t u g)) (hsb : ∀ t u g, Balanced (stp t u g))
    (hso : ∀ t u g, Only B (stp t u g)) (hmb : ∀ st, Balanced (mk st)) (hmo : ∀ st, Only D (mk st))
    (hD : D ⊆ B) (hS : "SNAPSHOTS" ∉ A) (hT : "TOTAL" ∉ A) (hTB : "TOTAL" ∉ B) (hAD : Disjoint A D)
    (fuel : ℕ) (a : IntegrateArgs K S) (st st' : ODEState K U S) (s s' : Clocked K)
    (h : timedIntegrate clock stp mk fuel a st s = (.ok (some st'), s')) :
    cumOf A s' - cumOf A s ≤ s'.timer.cumTime "TOTAL" - s.timer.cumTime "TOTAL" := by
  have hTD : "TOTAL" ∉ D := fun h => hTB (hD h)
  have so : ∀ st, Only D (timedSnapshot mk st) := (comp_only D).snapshot hmo
  have sb : ∀ st, Balanced (timedSnapshot mk st) := timedSnapshot_balanced hmb
  have n1 : ∀ st, Nested "TOTAL" A (timedSnapshot mk st) := fun st => Nested.only (so st) hAD hTD
  have n2 : ∀ st, Nested "TOTAL" A (bracket clock "SNAPSHOTS" (timedSnapshot mk st)) := fun st =>
    Nested.outside (sb st) hS (by decide) (n1 st)
  have o : ∀ {m : TM K (ODEState K U S)}, Only B m → Only (insert "SNAPSHOTS" B) m := fun h =>
    h.mono (Finset.subset_insert _ _)
  have hT2 : "TOTAL" ∉ insert "SNAPSHOTS" B := by
    rw [Finset.mem_insert, not_or]
    exact ⟨by decide, hTB⟩
  rcases timedIntegrate_cases h with ⟨n, e⟩ | rfl | ⟨T, target, ds, h⟩
  · rw [timedIntegrateN_eq] at e
    refine (Nested.bind (n2 _) fun st1 => Nested.bind
      (Nested.around hclock ?_ hT (B := B) ?_ hTB ?_) fun st2 => n2 _).nested _ _ _ e
    · exact (Balanced.lift _).bind fun _ => timedTakeSteps_balanced hsb _ _
    · exact (Only.lift _ _).bind fun _ => (comp_only B).takeSteps hso _ _
    · exact (comp_spends hclock A).bind ((comp_spends hclock A).lift _) fun _ =>
        (comp_spends hclock A).takeSteps hs _ _
  · rw [sub_self, sub_self]
  · refine (Nested.bind (n1 st) fun _ => Nested.around hclock (timedLoop_balanced hsb hmb ..) hT
      (B := insert "SNAPSHOTS" B) ?_ hT2 ?_).nested _ _ _ (timedMain_eq h)
    · exact (comp_only _).loop (fun t u g => (hso t u g).mono (Finset.subset_insert _ _))
        (fun st => Only.bracket (sb st) ((so st).mono (hD.trans (Finset.subset_insert _ _)))
          (Finset.mem_insert_self _ _)) ..
    · exact (comp_spends hclock A).loop hs
        (fun st => Spends.outside hclock (sb st) hS (Spends.only hclock (so st) hAD)) ..

end

/-- Which categories of a solver enclose which. -/
def allEnclosures : List (String × Finset String) :=
  ("TOTAL", {"(high-order) hydrofluxes", "(fallback scheme)"}) :: enclosures

/-- On a monotone clock every completed run, with any method and options, adds to the time of an
enclosing category at least what it adds to the enclosed ones together. -/
theorem C61_run (clock : ℕ → K) (hclock : Monotone clock) (S : Scheme K V) (junk : ℕ → Ix → V)
    (mem : Fin 3 → Ix → V) (fv : Bool) (fuel : ℕ) (m : Integrator) (a : IntegrateArgs K (Arr V))
    (st st' : ODEState K (Ix → V) (Arr V)) (s s' : Clocked K)
    (h : timedRun clock S junk mem fv fuel m a st s = (.ok (some st'), s')) :
    ∀ e ∈ allEnclosures, (∑ c ∈ e.2, (s'.timer.cumTime c - s.timer.cumTime c)) ≤
      s'.timer.cumTime e.1 - s.timer.cumTime e.1 := by
  intro e he
  rw [Finset.sum_sub_distrib]
  have sb : ∀ t u g, Balanced (timedStepper (timedRHS clock S junk mem) m t u g) :=
    timedStepper_balanced (fun t t' u => timedRHS_balanced clock S junk mem t t' u) m
  have mb : ∀ st, Balanced (timedSolverSnapshot clock S (junk 4) fv st) := fun st =>
    timedPrimitives_balanced clock S st.t (junk 4) S.p (fun _ => 0) ⟨S.n, st.u⟩ fv
  have mo : ∀ st, Only {"boundary conditions"} (timedSolverSnapshot clock S (junk 4) fv st) := fun st =>
    timedPrimitives_only clock S st.t (junk 4) S.p (fun _ => 0) ⟨S.n, st.u⟩ fv
  rcases List.mem_cons.1 he with rfl | he
  · exact integrate_total hclock
      ((comp_spends hclock _).stepper (fun t t' u => timedRHS_spends hclock S junk mem t t' u) m) sb
      ((comp_only _).stepper (fun t t' u => timedRHS_only clock S junk mem t t' u) m) mb mo
      (by decide +kernel) (by decide +kernel) (by decide +kernel) (by decide +kernel) (by decide +kernel)
      fuel a st st' s s' h
  · have side : ∀ e ∈ enclosures, "SNAPSHOTS" ∉ e.2 ∧ e.1 ≠ "SNAPSHOTS" ∧ "TOTAL" ∉ e.2 ∧ e.1 ≠ "TOTAL" ∧
        Disjoint e.2 ({"boundary conditions"} : Finset String) ∧ e.1 ∉ ({"boundary conditions"} : Finset String) := by
      decide +kernel
    obtain ⟨h1, h2, h3, h4, h5, h6⟩ := side e he
    exact integrate_nested
      ((comp_nested _ _).stepper (fun t t' u => timedRHS_nested hclock S junk mem t t' u e he) m) sb mb
      (fun st => Nested.only (mo st) h5 h6) h1 h2 h3 h4 fuel a st st' s s' h

theorem addCat_cum (cs : List String) (t : Timer K) (h : ∀ c, t.cumTime c = 0) :
    ∀ c, (t.addCat cs).1.cumTime c = 0 := by
  induction cs generalizing t with
  | nil => exact h
  | cons x cs ih =>
    unfold Timer.addCat
    split
    · exact h
    · refine ih _ fun c => ?_
      show Function.update _ _ _ _ = _
      by_cases e : c = x
      · rw [e, Function.update_self]
      · rw [Function.update_of_ne e]; exact h c

/-- Hence the report of a new solver after its first run: TOTAL is at least the fluxes and the fallback
scheme together, the flux times are at least their three stages together, and the fallback scheme is at
least its detection and its fluxes together. -/
theorem C61_report (clock : ℕ → K) (hclock : Monotone clock) (S : Scheme K V) (junk : ℕ → Ix → V)
    (mem : Fin 3 → Ix → V) (fv : Bool) (fuel : ℕ) (m : Integrator) (a : IntegrateArgs K (Arr V))
    (st st' : ODEState K (Ix → V) (Arr V)) (ticks : ℕ) (s' : Clocked K)
    (h : timedRun clock S junk mem fv fuel m a st ⟨solverTimer, ticks⟩ = (.ok (some st'), s')) :
    s'.timer.cumTime "(high-order) hydrofluxes" + s'.timer.cumTime "(fallback scheme)" ≤
      s'.timer.cumTime "TOTAL" ∧
    s'.timer.cumTime "(high-order) conservative interpolation" + s'.timer.cumTime "(high-order) riemann solver" +
      s'.timer.cumTime "(high-order) transverse reconstruction" ≤ s'.timer.cumTime "(high-order) hydrofluxes" ∧
    s'.timer.cumTime "(fallback scheme) conservative interpolation" +
      s'.timer.cumTime "(fallback scheme) riemann solver" +
      s'.timer.cumTime "(fallback scheme) transverse reconstruction" ≤
      s'.timer.cumTime "(fallback scheme) hydrofluxes" ∧
    s'.timer.cumTime "(fallback scheme) troubled cell detection" +
      s'.timer.cumTime "(fallback scheme) hydrofluxes" ≤ s'.timer.cumTime "(fallback scheme)" := by
  have z : ∀ c, (solverTimer : Timer K).cumTime c = 0 := by
    unfold solverTimer
    exact addCat_cum _ _ (addCat_cum _ _ fun _ => rfl)
  have k := C61_run clock hclock S junk mem fv fuel m a st st' ⟨solverTimer, ticks⟩ s' h
  simp only [allEnclosures, enclosures, List.forall_mem_cons, z, sub_zero] at k
  obtain ⟨k1, k2, k3, k4, _⟩ := k
  rw [Finset.sum_pair (by decide)] at k1 k4
  rw [Finset.sum_insert (by decide), Finset.sum_pair (by decide), ← add_assoc] at k2 k3
  exact ⟨k1, k2, k3, k4⟩

/-- A monotone clock and a completed run with the limiter at work. -/
example : ∃ st' s', timedRun (fun i => (i : ℚ)) timedLimited (fun _ _ => 0) (fun _ _ => 0) true 3 .ssprk3
    ⟨none, some 2, true, [], false, none⟩ (ODEState.init fun i => i 0) ⟨solverTimer, 0⟩ = (.ok (some st'), s') ∧
    s'.timer.cumTime "(high-order) hydrofluxes" + s'.timer.cumTime "(fallback scheme)" ≤
      s'.timer.cumTime "TOTAL" := by
  obtain ⟨st', s', h⟩ := timedLimited_done
  exact ⟨st', s', h, (C61_report _ Nat.mono_cast _ _ _ _ _ _ _ _ _ _ _ h).1⟩

end FVHOE
