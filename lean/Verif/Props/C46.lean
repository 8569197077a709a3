import Mathlib.Data.Rat.Defs
import Mathlib.Algebra.Order.Ring.Rat
import Mathlib.Tactic.NormNum
import Verif.Proofs.Timed

/-!
C46: the timers are balanced by every solver step, and never get in the way of a run.
-/

set_option linter.unusedSectionVars false

namespace FVHOE

variable {K : Type} [Field K] [LinearOrder K] {V : Type} [AddCommGroup V] [Module K V]

/-! ## Balance -/

theorem timedPrimitives_balanced (clock : ℕ → K) (S : Scheme K V) (t : K) (junk : Ix → V) (p gw : Fin 3 → ℕ)
    (u : Arr V) (fv : Bool) : Balanced (timedPrimitives clock S t junk p gw u fv) :=
  balanced_iff.2 fun s => by
    refine Post.push (Pushed.refl s) fun s h => ?_
    refine Post.call (Balanced.lift _) h fun a s h => ?_
    refine Post.pop h fun s h => ?_
    refine Post.call (Balanced.lift _) h fun a s h => ?_
    split
    · exact Post.lift fun _ _ => h
    · exact Post.pure h

theorem timedHydrofluxes_balanced (clock : ℕ → K) (S : Scheme K V) (t : K) (junk : Ix → V)
    (mem : Fin 3 → Arr V) (p : Fin 3 → ℕ) (slope : Option (V → V → V)) (pre : String) (u : Arr V) :
    Balanced (timedHydrofluxes clock S t junk mem p slope pre u) :=
  balanced_iff.2 fun s => by
    refine Post.push (Pushed.refl s) fun s h => ?_
    refine Post.call (Balanced.lift _) h fun a s h => ?_
    refine Post.call (timedPrimitives_balanced ..) h fun a s h => ?_
    refine Post.call (Balanced.lift _) h fun a s h => ?_
    refine Post.push h fun s h => ?_
    refine Post.call (Balanced.lift _) h fun a s h => ?_
    refine Post.pop h fun s h => ?_
    refine Post.push h fun s h => ?_
    refine Post.call (Balanced.lift _) h fun a s h => ?_
    refine Post.pop h fun s h => ?_
    refine Post.push h fun s h => ?_
    refine Post.call (Balanced.lift _) h fun a s h => ?_
    refine Post.pop h fun s h => ?_
    refine Post.pop h fun s h => ?_
    exact Post.pure h

theorem timedFallback_balanced (clock : ℕ → K) (S : Scheme K V) (L : Limiting K V) (t : K)
    (junk : ℕ → Ix → V) (u : Arr V) (F : Fin 3 → Arr V) (troubled : Arr Bool) :
    Balanced (timedFallback clock S L t junk u F troubled) := by
  unfold timedFallback
  refine Balanced.ite ?_ (Balanced.pure _)
  exact (timedHydrofluxes_balanced ..).bind fun _ => (Balanced.lift _).bind fun _ => Balanced.lift _

theorem timedRevise_balanced (clock : ℕ → K) (S : Scheme K V) (L : Limiting K V) (t : K)
    (junk : ℕ → Ix → V) (u : Arr V) (F : Fin 3 → Arr V) (dt : K) :
    Balanced (timedRevise clock S L t junk u F dt) :=
  balanced_iff.2 fun s => by
    refine Post.push (Pushed.refl s) fun s h => ?_
    refine Post.call (Balanced.lift _) h fun a s h => ?_
    refine Post.call (Balanced.lift _) h fun a s h => ?_
    refine Post.call (timedPrimitives_balanced ..) h fun a s h => ?_
    refine Post.call (timedPrimitives_balanced ..) h fun a s h => ?_
    refine Post.push h fun s h => ?_
    refine Post.call (Balanced.lift _) h fun a s h => ?_
    refine Post.pop h fun s h => ?_
    refine Post.call (timedFallback_balanced ..) h fun a s h => ?_
    refine Post.pop h fun s h => ?_
    exact Post.pure h

theorem timedHydrodynamics_balanced (clock : ℕ → K) (S : Scheme K V) (t : K) (junk : ℕ → Ix → V)
    (mem : Fin 3 → Arr V) (u : Arr V) : Balanced (timedHydrodynamics clock S t junk mem u) := by
  refine (timedHydrofluxes_balanced ..).bind fun _ => (Balanced.lift _).bind fun _ => Balanced.bind ?_
    fun _ => (Balanced.lift _).bind fun _ => Balanced.pure _
  unfold timedLimit
  split
  · exact Balanced.pure _
  · exact timedRevise_balanced ..

/-- Every successful right-hand side leaves exactly the timers running that were running before, since
the same instants, whatever the timer looked like before, for every set of options, limiter, boundary
conditions, state and clock. -/
theorem C46_rhs (clock : ℕ → K) (S : Scheme K V) (junk : ℕ → Ix → V) (mem : Fin 3 → Ix → V) (selfT t : K)
    (u : Ix → V) (s s' : Clocked K) (r : K × (Ix → V))
    (h : timedRHS clock S junk mem selfT t u s = (.ok r, s')) :
    s'.timer.cats = s.timer.cats ∧ s'.timer.startTime = s.timer.startTime :=
  ((timedHydrodynamics_balanced ..).bind fun _ => Balanced.lift _).keeps s r s' h

section
variable {U : Type} [AddCommGroup U] [Module K U] {S : Type}

theorem timedStepper_balanced {f : K → K → U → TM K (K × U)} (hf : ∀ t t' u, Balanced (f t t' u))
    (m : Integrator) (t : K) (u : U) (target : Option K) : Balanced (timedStepper f m t u target) := by
  cases m
  · exact (hf ..).bind fun _ => Balanced.pure _
  · exact (hf ..).bind fun _ => (hf ..).bind fun _ => Balanced.pure _
  · exact (hf ..).bind fun _ => (hf ..).bind fun _ => (hf ..).bind fun _ => Balanced.pure _
  · exact (hf ..).bind fun _ => (hf ..).bind fun _ => (hf ..).bind fun _ => (hf ..).bind fun _ =>
      Balanced.pure _

variable {clock : ℕ → K} {stp : K → U → Option K → TM K (K × U)} {mk : ODEState K U S → TM K S}

theorem timedTakeSteps_balanced (hs : ∀ t u g, Balanced (stp t u g)) (n : ℕ) (st : ODEState K U S) :
    Balanced (timedTakeSteps stp n st) := by
  induction n generalizing st with
  | zero => exact Balanced.pure _
  | succ n ih => exact ((hs ..).bind fun _ => Balanced.pure _).bind fun _ => ih _

theorem timedSnapshot_balanced (hm : ∀ st, Balanced (mk st)) (st : ODEState K U S) :
    Balanced (timedSnapshot mk st) := (hm st).bind fun _ => Balanced.pure _

theorem timedIntegrateN_balanced (hs : ∀ t u g, Balanced (stp t u g)) (hm : ∀ st, Balanced (mk st))
    (n : Option ℕ) (st : ODEState K U S) : Balanced (timedIntegrateN clock stp mk n st) :=
  balanced_iff.2 fun s => by
    refine Post.push (Pushed.refl s) fun s h => ?_
    refine Post.call (timedSnapshot_balanced hm _) h fun a s h => ?_
    refine Post.pop h fun s h => ?_
    refine Post.push h fun s h => ?_
    refine Post.call (Balanced.lift _) h fun a s h => ?_
    refine Post.call (timedTakeSteps_balanced hs _ _) h fun a s h => ?_
    refine Post.pop h fun s h => ?_
    refine Post.push h fun s h => ?_
    refine Post.call (timedSnapshot_balanced hm _) h fun a s h => ?_
    refine Post.pop h fun s h => ?_
    exact Post.pure h

theorem timedLoopSnapshot_balanced (hm : ∀ st, Balanced (mk st)) (st : ODEState K U S) :
    Balanced (timedLoopSnapshot clock mk st) :=
  balanced_iff.2 fun s => by
    refine Post.push (Pushed.refl s) fun s h => ?_
    refine Post.call (timedSnapshot_balanced hm _) h fun a s h => ?_
    refine Post.pop h fun s h => ?_
    exact Post.pure h

theorem timedLoop_balanced (hs : ∀ t u g, Balanced (stp t u g)) (hm : ∀ st, Balanced (mk st)) (T : K)
    (logEvery : Bool) (fuel : ℕ) (target : Option K) (ds : List K) (st : ODEState K U S) :
    Balanced (timedLoop clock stp mk T logEvery fuel target ds st) := by
  induction fuel generalizing target ds st with
  | zero => exact Balanced.pure _
  | succ n ih =>
    unfold timedLoop
    refine Balanced.ite ?_ (Balanced.pure _)
    refine Balanced.bind ((hs ..).bind fun _ => Balanced.pure _) fun st1 => Balanced.ite ?_ (ih ..)
    refine (timedLoopSnapshot_balanced hm _).bind fun st2 => ?_
    split
    · exact ih ..
    · exact Balanced.ite (ih ..) (ih ..)

/-- A run that is over: the result is a state, not the end of the fuel. -/
def Done {α : Type} (m : TM K (Option α)) (s : Clocked K) (r : α) (s' : Clocked K) : Prop := m s = (.ok (some r), s')

theorem timedMain_done (hs : ∀ t u g, Balanced (stp t u g)) (hm : ∀ st, Balanced (mk st)) (T : K)
    (logEvery : Bool) (fuel : ℕ) (target : Option K) (ds : List K) (st : ODEState K U S) (s : Clocked K) :
    Post (timedMain clock stp mk T logEvery fuel target ds st) s
      fun r s' => r.isSome = true → Pushed [] s s' := by
  refine Post.call (timedSnapshot_balanced hm _) (Pushed.refl s) fun a s1 h => ?_
  refine Post.push h fun s2 h => ?_
  refine Post.call (timedLoop_balanced hs hm ..) h fun r s3 h => ?_
  cases r with
  | none => exact Post.pure (by simp)
  | some st2 =>
    refine Post.pop h fun s4 h => ?_
    exact Post.pure fun _ => h

theorem timedIntegrate_done (hs : ∀ t u g, Balanced (stp t u g)) (hm : ∀ st, Balanced (mk st)) (fuel : ℕ)
    (a : IntegrateArgs K S) (st : ODEState K U S) (s : Clocked K) :
    Post (timedIntegrate clock stp mk fuel a st) s fun r s' => r.isSome = true → Pushed [] s s' := by
  unfold timedIntegrate
  split
  · exact Post.call (timedIntegrateN_balanced hs hm _ _) (Pushed.refl s) fun _ s' h => Post.pure fun _ => h
  · split
    · exact Post.pure fun _ => Pushed.refl s
    · unfold timedIntegrateT
      split
      · split
        · exact Post.lift (by simp)
        · exact timedMain_done hs hm _ _ _ _ _ _ _
      · exact timedMain_done hs hm _ _ _ _ _ _ _

end

theorem timedRHS_balanced (clock : ℕ → K) (S : Scheme K V) (junk : ℕ → Ix → V) (mem : Fin 3 → Ix → V)
    (selfT t : K) (u : Ix → V) : Balanced (timedRHS clock S junk mem selfT t u) :=
  ⟨fun s r s' h => C46_rhs clock S junk mem selfT t u s s' r h⟩

/-- Every completed run with any method leaves exactly the timers running that were running before.
(`fuel` bounds the loop; the result `some st'` says that the run came to its end.) -/
theorem C46_run (clock : ℕ → K) (S : Scheme K V) (junk : ℕ → Ix → V) (mem : Fin 3 → Ix → V) (fv : Bool)
    (fuel : ℕ) (m : Integrator) (a : IntegrateArgs K (Arr V)) (st st' : ODEState K (Ix → V) (Arr V))
    (s s' : Clocked K) (h : timedRun clock S junk mem fv fuel m a st s = (.ok (some st'), s')) :
    s'.timer.cats = s.timer.cats ∧ s'.timer.startTime = s.timer.startTime := by
  have := timedIntegrate_done (clock := clock)
    (timedStepper_balanced (fun t t' u => timedRHS_balanced clock S junk mem t t' u) m)
    (fun st => timedPrimitives_balanced clock S st.t (junk 4) S.p (fun _ => 0) ⟨S.n, st.u⟩ fv) fuel a st s
    (some st') s' h rfl
  exact ⟨this.cats, funext fun c => this.other c (by simp)⟩

/-! ## The timers do not change what is computed -/

theorem AgreesAt.congr {α : Type} {m : TM K α} {x y : Except PyErr α} {s : Clocked K} (h : AgreesAt m x s)
    (e : ∀ a, x = .ok a ↔ y = .ok a) : AgreesAt m y s := fun a => (h a).trans (e a)

theorem timedPrimitives_agrees (clock : ℕ → K) (S : Scheme K V) (t : K) (junk : Ix → V) (p gw : Fin 3 → ℕ)
    (u : Arr V) : Agrees ["boundary conditions"] (timedPrimitives clock S t junk p gw u true)
      (primitivesFromConservatives S t junk p gw u) := by
  refine ⟨fun s hs => ?_⟩
  refine AgreesAt.push hs (Pushed.refl s) (by simp) (by simp) fun s h => ?_
  refine AgreesAt.expr fun ubc => ?_
  refine AgreesAt.pop hs h (by simp) fun s h => ?_
  exact AgreesAt.expr fun uc => AgreesAt.lift

theorem forDims_iff {α : Type} {f : Fin 3 → Except PyErr α} {g : Fin 3 → α} :
    forDims f = .ok g ↔ ∀ d, f d = .ok (g d) := by
  unfold forDims
  simp only [except_bind_ok]
  constructor
  · rintro ⟨a, ha, b, hb, c, hc, e⟩
    obtain rfl : ![a, b, c] = g := Except.ok.inj e
    intro d
    match d with
    | 0 => exact ha
    | 1 => exact hb
    | 2 => exact hc
  · intro h
    refine ⟨g 0, h 0, g 1, h 1, g 2, h 2, ?_⟩
    show Except.ok _ = Except.ok _
    congr 1
    funext d
    match d with
    | 0 => rfl
    | 1 => rfl
    | 2 => rfl

/-- Stage by stage or direction by direction: the same fluxes. -/
theorem stages_ok (S : Scheme K V) (p : Fin 3 → ℕ) (slope : Option (V → V → V)) (w : Arr V)
    (mem F : Fin 3 → Arr V) :
    (do
      let W ← forDims (faceStage S p slope w)
      let f ← forDims (riemannStage S W)
      forDims (integralStage S p mem f)) = .ok F ↔ forDims (fluxOrMem S p slope w mem) = .ok F := by
  have key : ∀ d, (do
      let W ← faceStage S p slope w d
      let f ← riemannStage S (fun _ => W) d
      integralStage S p mem (fun _ => f) d) = fluxOrMem S p slope w mem d := by
    intro d
    unfold faceStage riemannStage integralStage fluxOrMem fluxDir
    by_cases ha : S.active d = true
    · simp only [ha, if_true, bind_assoc, pure_bind]
    · simp only [ha]
      rfl
  simp only [except_bind_ok, forDims_iff]
  constructor
  · rintro ⟨W, hW, f, hf, hF⟩ d
    rw [← key d, except_bind_ok]
    refine ⟨W d, hW d, ?_⟩
    rw [except_bind_ok]
    exact ⟨f d, hf d, hF d⟩
  · intro h
    have h1 : ∀ d, ∃ W, faceStage S p slope w d = .ok W ∧ ∃ f, riemannStage S (fun _ => W) d = .ok f ∧
        integralStage S p mem (fun _ => f) d = .ok (F d) := by
      intro d
      have := h d
      rw [← key d, except_bind_ok] at this
      obtain ⟨W, hW, h2⟩ := this
      rw [except_bind_ok] at h2
      exact ⟨W, hW, h2⟩
    choose W hW f hf hF using h1
    exact ⟨W, hW, f, hf, hF⟩

/-- The categories of a flux computation. -/
def fluxCats (pre : String) : List String :=
  [pre ++ "hydrofluxes", pre ++ "conservative interpolation", pre ++ "riemann solver",
   pre ++ "transverse reconstruction", "boundary conditions"]

theorem timedHydrofluxes_agrees (clock : ℕ → K) (S : Scheme K V) (t : K) (junk : Ix → V)
    (mem : Fin 3 → Arr V) (p : Fin 3 → ℕ) (slope : Option (V → V → V)) (pre : String)
    (hp : (fluxCats pre).Nodup) (u : Arr V) :
    Agrees (fluxCats pre) (timedHydrofluxes clock S t junk mem p slope pre u)
      (hydrofluxes S t junk mem p slope u) := by
  refine ⟨fun s hs => ?_⟩
  have n1 : ∀ c ∈ ["boundary conditions"], c ∈ fluxCats pre ∧ c ∉ [pre ++ "hydrofluxes"] := by
    intro c hc
    rw [List.mem_singleton] at hc
    subst hc
    refine ⟨by simp [fluxCats], ?_⟩
    simp only [fluxCats, List.nodup_cons, List.mem_cons] at hp
    simp only [List.mem_singleton]
    exact fun e => hp.1 (by simp [e])
  have n2 : pre ++ "conservative interpolation" ∉ [pre ++ "hydrofluxes"] := by
    simp only [fluxCats, List.nodup_cons, List.mem_cons] at hp
    simp only [List.mem_singleton]
    exact fun e => hp.1 (by simp [e])
  have n3 : pre ++ "riemann solver" ∉ [pre ++ "hydrofluxes"] := by
    simp only [fluxCats, List.nodup_cons, List.mem_cons] at hp
    simp only [List.mem_singleton]
    exact fun e => hp.1 (by simp [e])
  have n4 : pre ++ "transverse reconstruction" ∉ [pre ++ "hydrofluxes"] := by
    simp only [fluxCats, List.nodup_cons, List.mem_cons] at hp
    simp only [List.mem_singleton]
    exact fun e => hp.1 (by simp [e])
  have main : AgreesAt (timedHydrofluxes clock S t junk mem p slope pre u) (do
      (if slope.isSome = true ∧ 1 < max (max (p 0) (p 1)) (p 2) then .error .valueError else .ok ())
      let w ← primitivesFromConservatives S t junk p (fun d => if S.active d then fluxGw p else 0) u
      let dt ← timeStep S w
      let W ← forDims (faceStage S p slope w)
      let f ← forDims (riemannStage S W)
      let F ← forDims (integralStage S p mem f)
      return (dt, F)) s := by
    refine AgreesAt.push hs (Pushed.refl s) (by simp [fluxCats]) (by simp) fun s h => ?_
    refine AgreesAt.expr fun _ => ?_
    refine AgreesAt.call (timedPrimitives_balanced ..) (timedPrimitives_agrees ..) hs h n1 fun w s h => ?_
    refine AgreesAt.expr fun dt => ?_
    refine AgreesAt.push hs h (by simp [fluxCats]) n2 fun s h => ?_
    refine AgreesAt.expr fun W => ?_
    refine AgreesAt.pop hs h (by simp [fluxCats]) fun s h => ?_
    refine AgreesAt.push hs h (by simp [fluxCats]) n3 fun s h => ?_
    refine AgreesAt.expr fun f => ?_
    refine AgreesAt.pop hs h (by simp [fluxCats]) fun s h => ?_
    refine AgreesAt.push hs h (by simp [fluxCats]) n4 fun s h => ?_
    refine AgreesAt.expr fun F => ?_
    refine AgreesAt.pop hs h (by simp [fluxCats]) fun s h => ?_
    refine AgreesAt.pop hs h (by simp [fluxCats]) fun s h => ?_
    exact AgreesAt.pure
  refine main.congr fun r => ?_
  unfold hydrofluxes
  by_cases hc : slope.isSome = true ∧ 1 < max (max (p 0) (p 1)) (p 2)
  · rw [if_pos hc, if_pos hc]
    rfl
  · rw [if_neg hc, if_neg hc]
    show (primitivesFromConservatives .. >>= _) = _ ↔ _
    rw [except_bind_ok, except_bind_ok]
    refine exists_congr fun w => and_congr_right fun _ => ?_
    rw [except_bind_ok, except_bind_ok]
    refine exists_congr fun dt => and_congr_right fun _ => ?_
    rw [except_bind_ok (x := forDims (fluxOrMem S p slope w mem))]
    rw [← bind_assoc, ← bind_assoc, except_bind_ok]
    refine exists_congr fun F => and_congr_left fun _ => ?_
    rw [bind_assoc]
    exact stages_ok S p slope w mem F

/-- The categories used by a right-hand side. -/
theorem fluxCats_high : (fluxCats "(high-order) ").Nodup ∧ fluxCats "(high-order) " ⊆ solverCats := by
  decide +kernel

theorem fluxCats_fallback : (fluxCats "(fallback scheme) ").Nodup ∧
    (∀ c ∈ fluxCats "(fallback scheme) ", c ∈ solverCats ∧ c ∉ ["(fallback scheme)"]) := by
  decide +kernel

theorem timedFallback_agrees (clock : ℕ → K) (S : Scheme K V) (L : Limiting K V) (t : K)
    (junk : ℕ → Ix → V) (u : Arr V) (F : Fin 3 → Arr V) (troubled : Arr Bool) :
    Agrees (fluxCats "(fallback scheme) ") (timedFallback clock S L t junk u F troubled)
      (if anyTrue troubled then do
        let r ← hydrofluxes S t (junk 3) F (fallbackP S.p) L.slope u
        let theta ← L.broadcast troubled
        forDims fun d => blend (theta d) (F d) (r.2 d)
      else .ok F) := by
  refine ⟨fun s hs => ?_⟩
  unfold timedFallback
  split
  · refine AgreesAt.call (timedHydrofluxes_balanced ..) (timedHydrofluxes_agrees _ _ _ _ _ _ _ _
      fluxCats_fallback.1 _) hs (Pushed.refl s) (fun c hc => ⟨hc, by simp⟩) fun r s h => ?_
    exact AgreesAt.expr fun theta => AgreesAt.lift
  · exact AgreesAt.pure

theorem timedRevise_agrees (clock : ℕ → K) (S : Scheme K V) (L : Limiting K V) (t : K)
    (junk : ℕ → Ix → V) (u : Arr V) (F : Fin 3 → Arr V) (dt : K) :
    Agrees solverCats (timedRevise clock S L t junk u F dt) (reviseFluxes S L t junk u F dt) := by
    refine ⟨fun s hs => ?_⟩
    have hb : ∀ c ∈ ["boundary conditions"], c ∈ solverCats ∧ c ∉ ["(fallback scheme)"] := by decide +kernel
    refine AgreesAt.push hs (Pushed.refl s) (by decide +kernel) (by simp) fun s h => ?_
    refine AgreesAt.expr fun dudt => ?_
    refine AgreesAt.expr fun ustar => ?_
    refine AgreesAt.call (timedPrimitives_balanced ..) (timedPrimitives_agrees ..) hs h hb fun w s h => ?_
    refine AgreesAt.call (timedPrimitives_balanced ..) (timedPrimitives_agrees ..) hs h hb fun ws s h => ?_
    refine AgreesAt.push hs h (by decide +kernel) (by decide +kernel) fun s h => ?_
    refine AgreesAt.expr fun tr => ?_
    refine AgreesAt.pop hs h (by decide +kernel) fun s h => ?_
    rw [← bind_pure (ite _ _ _ : Except PyErr (Fin 3 → Arr V))]
    refine AgreesAt.call (timedFallback_balanced ..) (timedFallback_agrees ..) hs h fluxCats_fallback.2
      fun F' s h => ?_
    refine AgreesAt.pop hs h (by decide +kernel) fun s h => ?_
    exact AgreesAt.pure

theorem timedLimit_balanced (clock : ℕ → K) (S : Scheme K V) (t : K) (junk : ℕ → Ix → V) (u : Arr V)
    (F : Fin 3 → Arr V) (dt : K) : Balanced (timedLimit clock S t junk u F dt) := by
  unfold timedLimit
  split
  · exact Balanced.pure _
  · exact timedRevise_balanced ..

theorem timedLimit_agrees (clock : ℕ → K) (S : Scheme K V) (t : K) (junk : ℕ → Ix → V) (u : Arr V)
    (F : Fin 3 → Arr V) (dt : K) :
    Agrees solverCats (timedLimit clock S t junk u F dt) (limitFluxes S t junk u F dt) := by
  unfold timedLimit limitFluxes
  cases S.limiting
  · exact ⟨fun s _ => AgreesAt.pure⟩
  · exact timedRevise_agrees ..

theorem timedHydrodynamics_agrees (clock : ℕ → K) (S : Scheme K V) (t : K) (junk : ℕ → Ix → V)
    (mem : Fin 3 → Arr V) (u : Arr V) :
    Agrees solverCats (timedHydrodynamics clock S t junk mem u) (hydrodynamics S t junk mem u) := by
    refine ⟨fun s hs => ?_⟩
    unfold hydrodynamics solverFluxes
    simp only [bind_assoc, pure_bind]
    refine AgreesAt.call (timedHydrofluxes_balanced ..) (timedHydrofluxes_agrees _ _ _ _ _ _ _ _
      fluxCats_high.1 _) hs (Pushed.refl s) (fun c hc => ⟨fluxCats_high.2 hc, by simp⟩) fun r s h => ?_
    refine AgreesAt.expr fun F => ?_
    refine AgreesAt.call (timedLimit_balanced ..) (timedLimit_agrees ..) hs h (fun c hc => ⟨hc, by simp⟩)
      fun F' s h => ?_
    exact AgreesAt.expr fun dudt => AgreesAt.pure

/-- While the categories of the solver are idle, the right-hand side with its timer calls succeeds
exactly when the computation without them does, and gives the same result: the timer never raises. -/
theorem C46_same_rhs (clock : ℕ → K) (S : Scheme K V) (junk : ℕ → Ix → V) (mem : Fin 3 → Ix → V)
    (selfT t : K) (u : Ix → V) (s : Clocked K) (hs : ∀ c ∈ solverCats, Idle s c) (r : K × (Ix → V)) :
    (timedRHS clock S junk mem selfT t u s).1 = .ok r ↔ solverRHS S junk mem selfT t u = .ok r := by
  refine (AgreesAt.call (timedHydrodynamics_balanced ..) (timedHydrodynamics_agrees ..) hs (Pushed.refl s)
    (fun c hc => ⟨hc, by simp⟩) fun r s h => ?_ : AgreesAt _ _ _) r
  exact AgreesAt.lift

/-! ## Whole runs -/

section
variable {U : Type} [AddCommGroup U] [Module K U] {S : Type}

/-- The outcome of a method as a value or an exception. -/
def Outcome.value : Outcome K U S → Except PyErr (ODEState K U S)
  | (st, none) => .ok st
  | (_, some e) => .error e

/-- The same for a run with bounded fuel. -/
def runValue : Option (Outcome K U S) → Except PyErr (Option (ODEState K U S))
  | none => .ok none
  | some o => (Outcome.value o).map some

theorem stepper_agrees {f : K → K → U → TM K (K × U)} {g : RHS K U} {cs : List String}
    (hb : ∀ t t' u, Balanced (f t t' u)) (ha : ∀ t t' u, Agrees cs (f t t' u) (g t t' u)) (m : Integrator)
    (t : K) (u : U) (target : Option K) :
    Agrees cs (timedStepper f m t u target) (stepper g m t u target) := by
  refine ⟨fun s hs => ?_⟩
  have step : ∀ {β : Type} {k : K × U → TM K β} {y : K × U → Except PyErr β} {s' : Clocked K} (t t' : K) (u : U),
      Pushed [] s s' → (∀ a s'', Pushed [] s s'' → AgreesAt (k a) (y a) s'') →
      AgreesAt (f t t' u >>= k) (g t t' u >>= y) s' := fun t t' u h hk =>
    AgreesAt.call (hb ..) (ha ..) hs h (fun c hc => ⟨hc, by simp⟩) hk
  cases m
  · exact step _ _ _ (Pushed.refl s) fun r s h => AgreesAt.pure
  · exact step _ _ _ (Pushed.refl s) fun r s h => step _ _ _ h fun r s h => AgreesAt.pure
  · exact step _ _ _ (Pushed.refl s) fun r s h => step _ _ _ h fun r s h => step _ _ _ h fun r s h =>
      AgreesAt.pure
  · exact step _ _ _ (Pushed.refl s) fun r s h => step _ _ _ h fun r s h => step _ _ _ h fun r s h =>
      step _ _ _ h fun r s h => AgreesAt.pure

variable {clock : ℕ → K} {stp : K → U → Option K → TM K (K × U)} {mk : ODEState K U S → TM K S}
  {stp' : K → U → Option K → Except PyErr (K × U)} {mk' : ODEState K U S → S} {cs : List String}

theorem takeStep_value (st : ODEState K U S) (target : Option K) :
    Outcome.value (st.takeStep stp' target) = stp' st.t st.u target >>= fun r =>
      .ok { st with t := st.t + r.1, u := r.2, timestamps := st.timestamps ++ [st.t + r.1],
                    stepCount := st.stepCount + 1 } := by
  unfold ODEState.takeStep
  cases stp' st.t st.u target <;> rfl

theorem takeStep_agrees (ha : ∀ t u g, Agrees cs (stp t u g) (stp' t u g)) (st : ODEState K U S)
    (target : Option K) : Agrees cs (timedTakeStep stp st target) (Outcome.value (st.takeStep stp' target)) := by
  refine ⟨fun s hs => ?_⟩
  rw [takeStep_value]
  exact AgreesAt.bind ((ha ..).agrees s hs) fun r s' _ => AgreesAt.pure

theorem takeSteps_value (n : ℕ) (st : ODEState K U S) : Outcome.value (st.takeSteps stp' (n + 1)) =
    Outcome.value (st.takeStep stp' none) >>= fun st1 => Outcome.value (st1.takeSteps stp' n) := by
  conv_lhs => unfold ODEState.takeSteps
  rcases st.takeStep stp' none with ⟨st1, _ | e⟩ <;> rfl

theorem takeStep_balanced (hb : ∀ t u g, Balanced (stp t u g)) (st : ODEState K U S) (target : Option K) :
    Balanced (timedTakeStep stp st target) := (hb ..).bind fun _ => Balanced.pure _

theorem takeSteps_agrees (hb : ∀ t u g, Balanced (stp t u g))
    (ha : ∀ t u g, Agrees cs (stp t u g) (stp' t u g)) (n : ℕ) (st : ODEState K U S) :
    Agrees cs (timedTakeSteps stp n st) (Outcome.value (st.takeSteps stp' n)) := by
  induction n generalizing st with
  | zero => exact ⟨fun s _ => AgreesAt.pure⟩
  | succ n ih =>
    refine ⟨fun s hs => ?_⟩
    rw [takeSteps_value]
    refine AgreesAt.call (takeStep_balanced hb ..) (takeStep_agrees ha ..) hs (Pushed.refl s)
      (fun c hc => ⟨hc, by simp⟩) fun st1 s1 h => ?_
    exact (ih st1).agrees s1 fun c hc => h.idle' (hs c hc) (by simp)

theorem snapshot_agrees (hm : ∀ st, Agrees cs (mk st) (.ok (mk' st))) (st : ODEState K U S) :
    Agrees cs (timedSnapshot mk st) (.ok (st.snapshot mk')) := by
  refine ⟨fun s hs => ?_⟩
  have := AgreesAt.bind ((hm st).agrees s hs) (k := fun x => (pure
    { st with snapshots := st.snapshots ++ [x], snapshotTimes := st.snapshotTimes ++ [st.t] } :
      TM K (ODEState K U S)))
    (y := fun x => .ok { st with snapshots := st.snapshots ++ [x], snapshotTimes := st.snapshotTimes ++ [st.t] })
    fun x s' _ => AgreesAt.pure
  exact this

/-- Two lists of categories without common members, and TOTAL and SNAPSHOTS not in the first. -/
theorem notin_cons {c d : String} {cs : List String} (h : d ∉ cs) (hc : c ∈ cs) : c ∉ [d] := by
  rw [List.mem_singleton]
  exact fun e => h (e ▸ hc)

variable (hb : ∀ t u g, Balanced (stp t u g)) (ha : ∀ t u g, Agrees cs (stp t u g) (stp' t u g))
  (hmb : ∀ st, Balanced (mk st)) (hm : ∀ st, Agrees cs (mk st) (.ok (mk' st)))
  (hT : "TOTAL" ∉ cs) (hS : "SNAPSHOTS" ∉ cs)

include hb ha hmb hm hT hS

theorem integrateN_agrees (n : Option ℕ) (st : ODEState K U S) :
    Agrees (odeCats ++ cs) (timedIntegrateN clock stp mk n st) (Outcome.value (st.integrateN stp' mk' n)) := by
  refine ⟨fun s hs => ?_⟩
  have e : Outcome.value (st.integrateN stp' mk' n) = ((.ok (st.snapshot mk') : Except PyErr _) >>= fun st1 =>
      (match n with | none => .error .typeError | some k => .ok k : Except PyErr ℕ) >>= fun k =>
      Outcome.value (st1.takeSteps stp' k) >>= fun st2 => (.ok (st2.snapshot mk') : Except PyErr _) >>=
      fun st3 => .ok st3) := by
    unfold ODEState.integrateN
    cases n with
    | none => rfl
    | some k =>
      show Outcome.value (match (st.snapshot mk').takeSteps stp' k with
        | (st1, some e) => (st1, some e)
        | (st1, none) => (st1.snapshot mk', none)) =
          (Outcome.value ((st.snapshot mk').takeSteps stp' k) >>= fun st2 => .ok (st2.snapshot mk'))
      rcases (st.snapshot mk').takeSteps stp' k with ⟨st1, _ | e⟩ <;> rfl
  rw [e]
  have us : ∀ c ∈ cs, c ∈ odeCats ++ cs ∧ c ∉ ["SNAPSHOTS"] := fun c hc =>
    ⟨List.mem_append_right _ hc, notin_cons hS hc⟩
  have ut : ∀ c ∈ cs, c ∈ odeCats ++ cs ∧ c ∉ ["TOTAL"] := fun c hc =>
    ⟨List.mem_append_right _ hc, notin_cons hT hc⟩
  refine AgreesAt.push hs (Pushed.refl s) (by simp [odeCats]) (by simp) fun s h => ?_
  refine AgreesAt.call (timedSnapshot_balanced hmb _) (snapshot_agrees hm _) hs h us fun st1 s h => ?_
  refine AgreesAt.pop hs h (by simp [odeCats]) fun s h => ?_
  refine AgreesAt.push hs h (by simp [odeCats]) (by simp) fun s h => ?_
  refine AgreesAt.expr fun k => ?_
  refine AgreesAt.call (timedTakeSteps_balanced hb _ _) (takeSteps_agrees hb ha _ _) hs h ut fun st2 s h => ?_
  refine AgreesAt.pop hs h (by simp [odeCats]) fun s h => ?_
  refine AgreesAt.push hs h (by simp [odeCats]) (by simp) fun s h => ?_
  refine AgreesAt.call (timedSnapshot_balanced hmb _) (snapshot_agrees hm _) hs h us fun st3 s h => ?_
  refine AgreesAt.pop hs h (by simp [odeCats]) fun s h => ?_
  exact AgreesAt.pure

theorem loopSnapshot_agrees (st : ODEState K U S) :
    Agrees ("SNAPSHOTS" :: cs) (timedLoopSnapshot clock mk st) (.ok (st.snapshot mk')) := by
  refine ⟨fun s hs => ?_⟩
  show AgreesAt (timedLoopSnapshot clock mk st) ((.ok (st.snapshot mk') : Except PyErr _) >>= fun st1 => .ok st1) s
  refine AgreesAt.push hs (Pushed.refl s) (by simp) (by simp) fun s h => ?_
  refine AgreesAt.call (timedSnapshot_balanced hmb _) (snapshot_agrees hm _) hs h
    (fun c hc => ⟨List.mem_cons_of_mem _ hc, notin_cons hS hc⟩) fun st1 s h => ?_
  refine AgreesAt.pop hs h (by simp) fun s h => ?_
  exact AgreesAt.pure

theorem loop_value (T : K) (logEvery : Bool) (fuel : ℕ) (target : Option K) (ds : List K)
    (st : ODEState K U S) :
    runValue (ODEState.loop stp' mk' T logEvery (fuel + 1) target ds st) =
      if st.t < T then
        Outcome.value (st.takeStep stp' target) >>= fun st1 =>
        if target = some st1.t ∨ T ≤ st1.t ∨ logEvery = true then
          (.ok (st1.snapshot mk') : Except PyErr _) >>= fun st2 =>
          match ds with
          | [] => runValue (ODEState.loop stp' mk' T logEvery fuel target [] st2)
          | d :: ds => if target = some st1.t then runValue (ODEState.loop stp' mk' T logEvery fuel (some d) ds st2)
            else runValue (ODEState.loop stp' mk' T logEvery fuel target (d :: ds) st2)
        else runValue (ODEState.loop stp' mk' T logEvery fuel target ds st1)
      else .ok (some st) := by
  conv_lhs => unfold ODEState.loop
  by_cases h1 : st.t < T
  · rw [if_pos h1, if_pos h1]
    rcases st.takeStep stp' target with ⟨st1, _ | e⟩
    · show runValue (if _ then _ else _) = if _ then _ else _
      by_cases h2 : target = some st1.t ∨ T ≤ st1.t ∨ logEvery = true
      · rw [if_pos h2, if_pos h2]
        cases ds with
        | nil => rfl
        | cons d ds =>
          show runValue (if _ then _ else _) = if _ then _ else _
          by_cases h3 : target = some st1.t
          · rw [if_pos h3, if_pos h3]
          · rw [if_neg h3, if_neg h3]
      · rw [if_neg h2, if_neg h2]
    · rfl
  · rw [if_neg h1, if_neg h1]
    rfl

theorem loop_agrees (T : K) (logEvery : Bool) (fuel : ℕ) (target : Option K) (ds : List K)
    (st : ODEState K U S) :
    Agrees ("SNAPSHOTS" :: cs) (timedLoop clock stp mk T logEvery fuel target ds st)
      (runValue (ODEState.loop stp' mk' T logEvery fuel target ds st)) := by
  induction fuel generalizing target ds st with
  | zero => exact ⟨fun s _ => AgreesAt.pure⟩
  | succ n ih =>
    refine ⟨fun s hs => ?_⟩
    rw [loop_value hb ha hmb hm hT hS]
    unfold timedLoop
    split
    · refine AgreesAt.call (takeStep_balanced hb ..) (takeStep_agrees ha ..) hs (Pushed.refl s)
        (fun c hc => ⟨List.mem_cons_of_mem _ hc, by simp⟩) fun st1 s1 h => ?_
      split
      · refine AgreesAt.call (timedLoopSnapshot_balanced hmb _)
          (loopSnapshot_agrees hb ha hmb hm hT hS _) hs h (fun c hc => ⟨hc, by simp⟩) fun st2 s2 h => ?_
        cases ds with
        | nil => exact (ih ..).agrees s2 fun c hc => h.idle' (hs c hc) (by simp)
        | cons d ds =>
          show AgreesAt (if _ then _ else _) (if _ then _ else _) s2
          split
          · exact (ih ..).agrees s2 fun c hc => h.idle' (hs c hc) (by simp)
          · exact (ih ..).agrees s2 fun c hc => h.idle' (hs c hc) (by simp)
      · exact (ih ..).agrees s1 fun c hc => h.idle' (hs c hc) (by simp)
    · exact AgreesAt.pure

theorem main_agrees (T : K) (logEvery : Bool) (fuel : ℕ) (target : Option K) (ds : List K)
    (st : ODEState K U S) :
    Agrees (odeCats ++ cs) (timedMain clock stp mk T logEvery fuel target ds st)
      (runValue (ODEState.loop stp' mk' T logEvery fuel target ds (st.snapshot mk'))) := by
  refine ⟨fun s hs => ?_⟩
  have e : runValue (ODEState.loop stp' mk' T logEvery fuel target ds (st.snapshot mk')) =
      ((.ok (st.snapshot mk') : Except PyErr _) >>= fun st1 =>
        runValue (ODEState.loop stp' mk' T logEvery fuel target ds st1) >>= fun r => .ok r) :=
    (bind_pure (runValue (ODEState.loop stp' mk' T logEvery fuel target ds (st.snapshot mk')))).symm
  rw [e]
  refine AgreesAt.call (timedSnapshot_balanced hmb _) (snapshot_agrees hm _) hs (Pushed.refl s)
    (fun c hc => ⟨List.mem_append_right _ hc, by simp⟩) fun st1 s h => ?_
  refine AgreesAt.push hs h (by simp [odeCats]) (by simp) fun s h => ?_
  refine AgreesAt.call (timedLoop_balanced hb hmb ..) (loop_agrees hb ha hmb hm hT hS ..) hs h ?_ fun r s h => ?_
  · intro c hc
    rcases List.mem_cons.1 hc with rfl | hc
    · exact ⟨by simp [odeCats], by simp⟩
    · exact ⟨List.mem_append_right _ hc, notin_cons hT hc⟩
  · cases r with
    | none => exact AgreesAt.pure
    | some st2 =>
      refine AgreesAt.pop hs h (by simp [odeCats]) fun s h => ?_
      exact AgreesAt.pure

theorem integrate_agrees (fuel : ℕ) (a : IntegrateArgs K S) (st : ODEState K U S) :
    Agrees (odeCats ++ cs) (timedIntegrate clock stp mk fuel a st)
      (runValue (st.integrate stp' mk' fuel a)) := by
  unfold timedIntegrate ODEState.integrate
  cases a.T with
  | none =>
    refine ⟨fun s hs => ?_⟩
    show AgreesAt (timedIntegrateN clock stp mk a.n st >>= fun r => pure (some r))
      ((Outcome.value (st.integrateN stp' mk' a.n)).map some) s
    have e : (Outcome.value (st.integrateN stp' mk' a.n)).map some =
        Outcome.value (st.integrateN stp' mk' a.n) >>= fun r => .ok (some r) := by
      cases Outcome.value (st.integrateN stp' mk' a.n) <;> rfl
    rw [e]
    exact AgreesAt.bind ((integrateN_agrees hb ha hmb hm hT hS a.n st).agrees s hs) fun r s' _ => AgreesAt.pure
  | some T =>
    cases a.saved with
    | some l => exact ⟨fun s _ => AgreesAt.pure⟩
    | none =>
      show Agrees _ (timedIntegrateT clock stp mk T a.exact a.downbeats a.logEvery fuel st)
        (runValue (st.integrateT stp' mk' T a.exact a.downbeats a.logEvery fuel))
      unfold timedIntegrateT ODEState.integrateT
      split
      · cases keyTimes a.downbeats T with
        | nil => exact ⟨fun s _ => AgreesAt.lift⟩
        | cons d ds => exact main_agrees hb ha hmb hm hT hS ..
      · exact main_agrees hb ha hmb hm hT hS ..

end

theorem solverCats_total : "TOTAL" ∉ solverCats ∧ "SNAPSHOTS" ∉ solverCats ∧
    "boundary conditions" ∈ solverCats := by
  decide +kernel

/-- On an idle timer a run with its timer calls ends exactly when the run without them does, with the
same final object. The array a snapshot stores is assumed to be computable (`hm`), as in the model
without timer. -/
theorem C46_same_run (clock : ℕ → K) (S : Scheme K V) (junk : ℕ → Ix → V) (mem : Fin 3 → Ix → V)
    (mk : ODEState K (Ix → V) (Arr V) → Arr V)
    (hm : ∀ st, primitivesFromConservatives S st.t (junk 4) S.p (fun _ => 0) ⟨S.n, st.u⟩ = .ok (mk st))
    (fuel : ℕ) (m : Integrator) (a : IntegrateArgs K (Arr V)) (st st' : ODEState K (Ix → V) (Arr V))
    (s : Clocked K) (hs : ∀ c ∈ odeCats ++ solverCats, Idle s c) :
    (timedRun clock S junk mem true fuel m a st s).1 = .ok (some st') ↔
      st.integrate (stepper (solverRHS S junk mem) m) mk fuel a = some (st', none) := by
  have h := (integrate_agrees (clock := clock) (cs := solverCats)
    (timedStepper_balanced (fun t t' u => timedRHS_balanced clock S junk mem t t' u) m)
    (stepper_agrees (fun t t' u => timedRHS_balanced clock S junk mem t t' u)
      (fun t t' u => ⟨fun s hs => C46_same_rhs clock S junk mem t t' u s hs⟩) m)
    (fun st => timedPrimitives_balanced clock S st.t (junk 4) S.p (fun _ => 0) ⟨S.n, st.u⟩ true)
    (fun st => hm st ▸ (timedPrimitives_agrees clock S st.t (junk 4) S.p (fun _ => 0) ⟨S.n, st.u⟩).mono
      (by intro c hc; rw [List.mem_singleton] at hc; exact hc ▸ solverCats_total.2.2))
    solverCats_total.1 solverCats_total.2.1 fuel a st).agrees s hs (some st')
  refine h.trans ?_
  generalize st.integrate (stepper (solverRHS S junk mem) m) mk fuel a = o
  rcases o with _ | ⟨st1, _ | e⟩ <;> simp [runValue, Outcome.value, Except.map]

theorem addCat_ok (cs : List String) (t : Timer K) (hn : cs.Nodup) (hd : ∀ c ∈ cs, c ∉ t.cats)
    (hi : ∀ c, t.startTime c = none) : (t.addCat cs).2 = none ∧ (t.addCat cs).1.cats = t.cats ++ cs ∧
      ∀ c, (t.addCat cs).1.startTime c = none := by
  induction cs generalizing t with
  | nil => exact ⟨rfl, (List.append_nil _).symm, hi⟩
  | cons c cs ih =>
    unfold Timer.addCat
    rw [if_neg (hd c (by simp))]
    rw [List.nodup_cons] at hn
    obtain ⟨h1, h2, h3⟩ := ih ⟨t.cats ++ [c], Function.update t.startTime c none,
        Function.update t.cumTime c 0⟩ hn.2
      (fun x hx h => by
        rcases List.mem_append.1 h with h | h
        · exact hd x (List.mem_cons_of_mem _ hx) h
        · exact hn.1 (List.mem_singleton.1 h ▸ hx))
      (fun x => by
        show Function.update _ _ _ _ = _
        by_cases e : x = c
        · rw [e, Function.update_self]
        · rw [Function.update_of_ne e]; exact hi x)
    refine ⟨h1, ?_, h3⟩
    rw [h2]
    simp

/-- Building a solver adds the listed categories without an error, and all of them are idle. -/
theorem C46_new : ((Timer.empty : Timer K).addCat odeCats).2 = none ∧
    (((Timer.empty : Timer K).addCat odeCats).1.addCat solverCats).2 = none ∧
    (solverTimer : Timer K).cats = odeCats ++ solverCats ∧
    ∀ ticks, ∀ c ∈ odeCats ++ solverCats, Idle (⟨solverTimer, ticks⟩ : Clocked K) c := by
  obtain ⟨h1, h2, h3⟩ := addCat_ok odeCats (Timer.empty : Timer K) (by decide +kernel) (by simp [Timer.empty])
    (fun _ => rfl)
  obtain ⟨k1, k2, k3⟩ := addCat_ok solverCats ((Timer.empty : Timer K).addCat odeCats).1 (by decide +kernel)
    (by rw [h2]; show ∀ c ∈ solverCats, c ∉ [] ++ odeCats; decide +kernel) h3
  rw [h2] at k2
  have k2' : (solverTimer : Timer K).cats = odeCats ++ solverCats := by
    unfold solverTimer
    exact k2
  have k3' : ∀ c, (solverTimer : Timer K).startTime c = none := by
    unfold solverTimer
    exact k3
  refine ⟨h1, k1, k2', fun _ c hc => ⟨?_, k3' c⟩⟩
  show c ∈ (solverTimer : Timer K).cats
  rw [k2']
  exact hc

/-! ## After an exception -/

/-- Success is needed: when the boundary conditions raise during a right-hand side, two timers are left
running, and from then on every right-hand side raises RuntimeError. -/
theorem C46_after_exception (clock : ℕ → K) (S : Scheme K V) (junk : ℕ → Ix → V) (mem : Fin 3 → Ix → V)
    (selfT t : K) (u : Ix → V) (s : Clocked K) (hs : ∀ c ∈ solverCats, Idle s c) (e : PyErr)
    (he : S.bc.apply S.negate ⟨S.n, u⟩
      (fun d => (if S.active d then fluxGw S.p else 0) + 2 * ceilHalf (S.p d)) selfT (junk 0) = .error e) :
    ∃ s', timedRHS clock S junk mem selfT t u s = (.error e, s') ∧
      s'.timer.startTime "(high-order) hydrofluxes" ≠ none ∧ s'.timer.startTime "boundary conditions" ≠ none ∧
      ∀ junk' mem' selfT' t' u',
        timedRHS clock S junk' mem' selfT' t' u' s' = (.error .runtimeError, s') := by
  have hf : "(high-order) hydrofluxes" ∈ solverCats := by decide +kernel
  have hb : "boundary conditions" ∈ solverCats := by decide +kernel
  have ne : "boundary conditions" ≠ "(high-order) hydrofluxes" := by decide +kernel
  have p1 := (Pushed.refl s).start clock (hs _ hf).2
  have i2 : Idle (s.started clock "(high-order) hydrofluxes") "boundary conditions" :=
    p1.idle' (hs _ hb) (by simp [ne])
  have p2 := p1.start clock i2.2
  have hc : ((s.started clock "(high-order) hydrofluxes").started clock "boundary conditions").timer.cats =
    s.timer.cats := p2.cats
  refine ⟨(s.started clock "(high-order) hydrofluxes").started clock "boundary conditions", ?_,
    p2.runs _ (by simp), p2.runs _ (by simp), ?_⟩
  · have h1 : timedHydrofluxes clock S selfT (junk 0) (S.mem mem) S.p none "(high-order) " ⟨S.n, u⟩ s =
        (.error e, (s.started clock "(high-order) hydrofluxes").started clock "boundary conditions") := by
      unfold timedHydrofluxes timedPrimitives
      simp only [TM.bind_apply]
      rw [show "(high-order) " ++ "hydrofluxes" = "(high-order) hydrofluxes" by decide +kernel]
      rw [start_apply, if_neg (not_not.2 (hs _ hf).1), (hs _ hf).2]
      simp only [Option.isSome_none, Bool.false_eq_true, false_and, if_false, TM.lift]
      rw [start_apply, if_neg (not_not.2 i2.1), i2.2]
      simp only [if_true, he]
    unfold timedRHS timedHydrodynamics
    simp only [TM.bind_apply, h1]
  · intro junk' mem' selfT' t' u'
    unfold timedRHS timedHydrodynamics timedHydrofluxes
    simp only [TM.bind_apply]
    rw [show "(high-order) " ++ "hydrofluxes" = "(high-order) hydrofluxes" by decide +kernel]
    obtain ⟨b, hb⟩ := Option.ne_none_iff_exists'.1 (p2.runs "(high-order) hydrofluxes" (by simp))
    rw [start_apply, if_neg (not_not.2 (hc ▸ (hs _ hf).1)), hb]

/-! ## Concrete cases -/

/-- A transport scheme for one variable with free sides on four cells; `kind` is the left side. -/
def timedScheme (kind : BCKind) : Scheme ℚ ℚ where
  n := ![4, 1, 1]
  p := ![1, 0, 0]
  h := ![1, 1, 1]
  prim := id
  riem := fun _ a _ => a
  speed := fun _ _ => 1
  negate := fun _ x => x
  cfl := 1
  fixedDt := some (1 / 2)
  bc := ⟨fun _ s => if s = .l then kind else .free, fun _ _ => .other, none⟩
  limiting := none

/-- The balance theorem applies to a right-hand side that succeeds … -/
example : ∃ r s', timedRHS (fun i => (i : ℚ)) (timedScheme .free) (fun _ _ => 0) (fun _ _ => 0) 0 0
    (fun i => i 0) ⟨solverTimer, 0⟩ = (.ok r, s') := by
  have h : (timedRHS (fun i => (i : ℚ)) (timedScheme .free) (fun _ _ => 0) (fun _ _ => 0) 0 0
    (fun i => i 0) ⟨solverTimer, 0⟩).1.isOk = true := by decide +kernel
  revert h
  rcases timedRHS (fun i => (i : ℚ)) (timedScheme .free) (fun _ _ => 0) (fun _ _ => 0) 0 0
    (fun i => i 0) ⟨solverTimer, 0⟩ with ⟨_ | r, s'⟩
  · exact fun h => absurd h (by simp [Except.isOk, Except.toBool])
  · exact fun _ => ⟨r, s', rfl⟩

/-- The same with the limiter at work in every cell, for a run of two steps of the three-stage method. -/
def timedLimited : Scheme ℚ ℚ :=
  { timedScheme .outflow with
    limiting := some
      { detect := fun _ _ => .ok ⟨![4, 1, 1], fun _ => false⟩
        broadcast := fun _ => .ok fun d => ⟨fun e => if e = d then ![4, 1, 1] e + 1 else ![4, 1, 1] e, fun _ => 1⟩
        force := true
        slope := some fun a b => (a + b) / 2 } }

theorem timedLimited_done : ∃ st' s', timedRun (fun i => (i : ℚ)) timedLimited (fun _ _ => 0) (fun _ _ => 0) true 3 .ssprk3
    ⟨none, some 2, true, [], false, none⟩ (ODEState.init fun i => i 0) ⟨solverTimer, 0⟩ =
      (.ok (some st'), s') := by
  have h : ((timedRun (fun i => (i : ℚ)) timedLimited (fun _ _ => 0) (fun _ _ => 0) true 3 .ssprk3
    ⟨none, some 2, true, [], false, none⟩ (ODEState.init fun i => i 0) ⟨solverTimer, 0⟩).1.toOption.bind
      fun o => o).isSome = true := by
    decide +kernel
  revert h
  rcases timedRun (fun i => (i : ℚ)) timedLimited (fun _ _ => 0) (fun _ _ => 0) true 3 .ssprk3
    ⟨none, some 2, true, [], false, none⟩ (ODEState.init fun i => i 0) ⟨solverTimer, 0⟩ with ⟨_ | _ | r, s'⟩
  · exact fun h => absurd h (by simp [Except.toOption])
  · exact fun h => absurd h (by simp [Except.toOption])
  · exact fun _ => ⟨r, s', rfl⟩

/-- … and the exception theorem to a dirichlet side for which no slab coordinates were given. -/
example : (timedScheme .dirichlet).bc.apply (timedScheme .dirichlet).negate ⟨(timedScheme .dirichlet).n, fun i => i 0⟩
    (fun d => (if (timedScheme .dirichlet).active d then fluxGw (timedScheme .dirichlet).p else 0) +
      2 * ceilHalf ((timedScheme .dirichlet).p d)) 0 (fun _ => 0) = .error .keyError := by
  unfold BC.apply
  rfl

end FVHOE
