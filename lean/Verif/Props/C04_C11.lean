import Verif.Proofs.ODERel
import Verif.Props.C01_C03

/-!
C04 (uniform states are steady), C11 (shapes and uninitialised memory).
-/

set_option linter.unusedSectionVars false

namespace FVHOE

variable {K : Type} [Field K] [LinearOrder K] [IsStrictOrderedRing K]
variable {V : Type} [AddCommGroup V] [Module K V]

/-! ### C04 -/

/-- The sides a uniform state passes through: periodic, free and outflow, wide enough. -/
def OpenSides (S : Scheme K V) (gw : Fin 3 → ℕ) : Prop := ∀ d, S.active d = true →
  (∀ s, S.bc.kind d s = .free ∨ ((S.bc.kind d s = .outflow ∨ S.bc.kind d s = .periodic) ∧ gw d ≤ S.n d)) ∧
  (S.bc.kind d .r = .periodic → S.bc.kind d .l = .periodic)

/-- The continuation of each of these kinds. -/
def openGhost : BCKind → Ghost V
  | .free => .clamp
  | .outflow => .mirror id
  | _ => .wrap

theorem OpenSides.sides {S : Scheme K V} {gw : Fin 3 → ℕ} (h : OpenSides S gw) (hn : ∀ d, 1 ≤ S.n d)
    (h0 : ∀ d, S.active d = false → gw d = 0) (t : K) :
    Sides S gw t (fun d => openGhost (S.bc.kind d .l)) (fun d => openGhost (S.bc.kind d .r)) := by
  have key : ∀ d s, SideSpec S.bc S.negate S.n gw t d s (openGhost (S.bc.kind d s)) := by
    intro d s
    by_cases hd : S.active d = true
    · obtain ⟨h1, h2⟩ := h d hd
      rcases h1 s with e | ⟨e | e, hw⟩
      · rw [e]; exact .free e (hn d)
      · rw [e]; exact .outflow e hw
      · rw [e]
        refine .periodic e ?_ hw (hn d)
        cases s with
        | l => exact e
        | r => exact h2 e
    · exact .inactive (h0 d (by simpa using hd)) _
  exact fun d => ⟨key d .l, key d .r⟩

theorem extAll_open_const (n : Fin 3 → ℕ) (kl kr : Fin 3 → BCKind) (c : V) :
    extAll n (fun d => openGhost (kl d)) (fun d => openGhost (kr d)) (fun _ => c) = fun _ => c := by
  have key : ∀ (m : ℤ) (d : Fin 3) (a b : BCKind),
      extAxis m d (openGhost a) (openGhost b) (fun _ => c) = fun _ => c := by
    intro m d a b
    funext i
    unfold extAxis
    split_ifs
    · cases a <;> rfl
    · cases b <;> rfl
    · rfl
  unfold extAll
  rw [key, key, key]

theorem latPrim_const (prim : V → V) (p : Fin 3 → ℕ) (hp : ∀ d, p d ≤ 8) (c : V) :
    latPrim K prim p (fun _ => c) = fun _ => prim c := by
  have hc : ∀ d (x : V), latC K (p d) d (fun _ => x) = fun _ => x := fun d x =>
    lsweep_const d _ _ (wts_sum (hp d)).2.1 x
  have ht : ∀ d (x : V), latT K (p d) d (fun _ => x) = fun _ => x := fun d x =>
    lsweep_const d _ _ (wts_sum (hp d)).2.2.2 x
  unfold latPrim latCenters
  rw [hc, hc, hc, ht, ht, ht]

theorem latFlux_const (riem : V → V → V) (p : Fin 3 → ℕ) (hp : ∀ d, p d ≤ 8)
    (slope : Option (V → V → V)) (hs : ∀ s, slope = some s → s 0 0 = 0) (d : Fin 3) (c : V) :
    latFlux K riem p slope d (fun _ => c) = fun _ => riem c c := by
  have hc : ∀ d (x : V), latC K (p d) d (fun _ => x) = fun _ => x := fun d x =>
    lsweep_const d _ _ (wts_sum (hp d)).2.1 x
  have hl : ∀ d (x : V), latL K (p d) d (fun _ => x) = fun _ => x := fun d x =>
    lsweep_const d _ _ (wts_sum (hp d)).1 x
  have hr : ∀ d (x : V), latR K (p d) d (fun _ => x) = fun _ => x := fun d x =>
    lsweep_const d _ _ (wts_sum (hp d)).2.2.1 x
  have ht : ∀ d (x : V), latT K (p d) d (fun _ => x) = fun _ => x := fun d x =>
    lsweep_const d _ _ (wts_sum (hp d)).2.2.2 x
  have hL : latFaceL K (p d) d slope (fun _ => c) = fun _ => c := by
    unfold latFaceL
    cases slope with
    | none => exact hl d c
    | some s =>
      have := hs s rfl
      simp only
      split
      · funext i; simp [latSlope, this]
      · exact hl d c
  have hR : latFaceR K (p d) d slope (fun _ => c) = fun _ => c := by
    unfold latFaceR
    cases slope with
    | none => exact hr d c
    | some s =>
      have := hs s rfl
      simp only
      split
      · funext i; simp [latSlope, this]
      · exact hr d c
  unfold latFlux latMid latLine
  rw [hc, hc, hL, hR, ht, ht]

theorem fallbackP_inactive (S : Scheme K V) (d : Fin 3) (h : S.active d = false) :
    fluxWidth S (fallbackP S.p) d = 0 := by
  unfold fluxWidth fallbackP
  rw [h, S.inactive_p d h]
  rfl

theorem latDiv_const (act : Fin 3 → Bool) (h : Fin 3 → K) (F : Fin 3 → V) (i : Ix) :
    latDiv act h (fun d _ => F d) i = 0 := by
  unfold latDiv
  exact Finset.sum_eq_zero fun d _ => by split <;> simp

/-- **C04** (one evaluation). If all cells hold the same state, the sides are periodic, free or
outflow, and the slope limiter, if any, returns zero for zero differences, then the derivative is
exactly zero - whatever the Riemann solver, degrees, detector and spreading. (For a zero density the
code divides by zero; the model's total division makes the statement true but meaningless there.) -/
theorem C04_rhs (S : Scheme K V) (hp : ∀ d, S.p d ≤ 8) (hn : ∀ d, 1 ≤ S.n d)
    (hs : OpenSides S (fluxWidth S S.p))
    (hl : ∀ L, S.limiting = some L → OpenSides S (fluxWidth S (fallbackP S.p)) ∧
      ∀ s, L.slope = some s → s 0 0 = 0)
    (junk : ℕ → Ix → V) (mem : Fin 3 → Ix → V) (t t' : K) (u : Ix → V) (c : V)
    (hu : ∀ i, InCells S.n i → u i = c) (dt : K) (D : Ix → V)
    (h : solverRHS S junk mem t t' u = .ok (dt, D)) : D = 0 := by
  have h1 : ∀ p slope, (∀ d, p d ≤ 8) → (∀ s, slope = some s → s 0 0 = 0) →
      schemeFlux S p slope (fun _ => c) = fun d _ => S.riem d (S.prim c) (S.prim c) := by
    intro p slope hp hs
    funext d
    unfold schemeFlux
    rw [latPrim_const S.prim p hp c, latFlux_const (S.riem d) p hp slope hs]
  have hs0 := hs.sides hn (fluxWidth_inactive S) t
  cases hlim : S.limiting with
  | none =>
    obtain ⟨dt', _, e⟩ := rhs_spec S hlim hp hn t _ _ hs0 junk mem t' u (fun _ => c) hu
    rw [h, extAll_open_const, h1 S.p none hp (by simp)] at e
    cases e
    funext i
    split
    · exact latDiv_const _ _ _ _
    · rfl
  | some L =>
    obtain ⟨hs', hsl⟩ := hl L hlim
    obtain ⟨θ, _, e, _⟩ := rhs_blend S L hlim hp hn t _ _ _ _ hs0
      (hs'.sides hn (fallbackP_inactive S) t) junk mem t' u (fun _ => c) hu dt D h
    rw [e, extAll_open_const, h1 S.p none hp (by simp),
      h1 _ _ (fun d => (fallbackP_le S.p d).trans (by norm_num)) hsl]
    funext i
    split
    · have : blendFlux θ (fun d (_ : Ix) => S.riem d (S.prim c) (S.prim c))
          (fun d _ => S.riem d (S.prim c) (S.prim c)) =
          fun d _ => S.riem d (S.prim c) (S.prim c) := by
        funext d i
        unfold blendFlux
        rw [← add_smul, sub_add_cancel, one_smul]
      rw [this]
      exact latDiv_const _ _ _ _
    · rfl

/-- **C04** A uniform state is never changed, by any integrator, any arguments of `integrate`, any
number of steps, with or without limiting and whatever cells are reported as troubled. -/
theorem C04_uniform_steady (S : Scheme K V) (hp : ∀ d, S.p d ≤ 8) (hn : ∀ d, 1 ≤ S.n d)
    (hs : OpenSides S (fluxWidth S S.p))
    (hl : ∀ L, S.limiting = some L → OpenSides S (fluxWidth S (fallbackP S.p)) ∧
      ∀ s, L.slope = some s → s 0 0 = 0)
    (f : RHS K (Ix → V)) (hf : IsSolverRHS S f) {Sn : Type} (m : Integrator)
    (mk : ODEState K (Ix → V) Sn → Sn) (fuel : ℕ) (a : IntegrateArgs K Sn)
    (st : ODEState K (Ix → V) Sn) (c : V) (hc : ∀ i, InCells S.n i → st.u i = c)
    (out : Outcome K (Ix → V) Sn) (h : st.integrate (stepper f m) mk fuel a = some out) :
    out.1.u = st.u := by
  have := integrate_coset f ⊥ st.u ?_ m mk fuel a st out (by simp) h
  · rwa [Submodule.mem_bot, sub_eq_zero] at this
  · intro s t v dt k hv hk
    rw [Submodule.mem_bot, sub_eq_zero] at hv
    subst hv
    obtain ⟨junk, mem, e⟩ := hf s t st.u
    rw [hk] at e
    rw [Submodule.mem_bot]
    exact C04_rhs S hp hn hs hl junk mem s t st.u c hc dt k e.symm

/-- The two limiters of the code return zero for zero differences. -/
theorem C04_limiters (tiny : K) :
    minmod tiny (0 : K) 0 = 0 ∧ moncen (0 : K) 0 = 0 ∧ centralSlope (0 : K) 0 = 0 := by
  refine ⟨?_, ?_, ?_⟩
  · unfold minmod; simp
  · unfold moncen npSign; simp
  · unfold centralSlope; simp

/-- A setup with all three kinds of sides, HLLC, degree 3, and minmod fallback with every cell forced
to be troubled. -/
noncomputable def openConfig : EulerConfig ℝ 0 where
  gas := airGas
  riem := .hllc
  n := ![12, 9, 1]
  p := ![3, 2, 0]
  h := ![1, 2, 3]
  cfl := 1 / 2
  fixedDt := none
  bc := ⟨fun d s => if d = 0 then .periodic else if s = .l then .free else .outflow,
    fun _ _ => .other, none⟩
  limiting := some ⟨fun w _ => .ok (w.map fun _ => true), fun _ => .ok fun _ => ⟨fun _ => 1, fun _ => 1⟩, true,
    some fun a b i => minmod (1 / 10 ^ 16) (a i) (b i)⟩

example : OpenSides openConfig.scheme (fluxWidth openConfig.scheme openConfig.scheme.p) ∧
    OpenSides openConfig.scheme (fluxWidth openConfig.scheme (fallbackP openConfig.scheme.p)) ∧
    (∀ L, openConfig.scheme.limiting = some L → ∀ s, L.slope = some s → s 0 0 = 0) := by
  have e1 : fluxWidth openConfig.scheme openConfig.scheme.p = ![8, 6, 0] := by decide
  have e2 : fluxWidth openConfig.scheme (fallbackP openConfig.scheme.p) = ![4, 4, 0] := by decide
  refine ⟨?_, ?_, ?_⟩
  · rw [e1]; unfold OpenSides; change ∀ d, _ → (∀ s, _ ∨ _ ∧ _ ≤ (![12, 9, 1] : Fin 3 → ℕ) d) ∧ _
    intro d _
    refine ⟨fun s => ?_, ?_⟩
    · cases s <;> revert d <;> decide
    · revert d; decide
  · rw [e2]; intro d _
    refine ⟨fun s => ?_, ?_⟩
    · cases s <;> revert d <;> decide
    · revert d; decide
  · intro L hL s hs
    cases hL
    cases hs
    funext i
    exact (C04_limiters _).1

/-! ### C11 -/

/-- **C11** Suppose limiting is off, the degrees are at most 8, and the boundary conditions can be
applied at time `t` (to one state `v`, with one content of the memory) with ghost widths that the
cells can fill. Then the right-hand side raises nothing for any state and any content of the
uninitialised ghost memory and of the stored flux arrays; the flux arrays have one more face than
cells along their own axis; step, fluxes and derivative do not depend on those contents. -/
theorem C11_shapes_and_memory (S : Scheme K V) (hlim : S.limiting = none) (hp : ∀ d, S.p d ≤ 8)
    (hn : ∀ d, 1 ≤ S.n d) (t : K) (hF : Fillable S.bc S.n (fluxWidth S S.p))
    (v junk0 : Ix → V) (A : Arr V)
    (hA : S.bc.apply S.negate ⟨S.n, v⟩ (fluxWidth S S.p) t junk0 = .ok A) (u : Ix → V) :
    ∃ (dt : K) (Φ : Fin 3 → Ix → V) (D : Ix → V), ∀ junk mem t', ∃ F,
      solverFluxes S t junk (S.mem mem) ⟨S.n, u⟩ = .ok (dt, F) ∧
      solverRHS S junk mem t t' u = .ok (dt, D) ∧
      (∀ d, (F d).shape = fun e => if e = d then S.n e + 1 else S.n e) ∧
      (∀ d j, S.active d = true → (F d).InB j → (F d).get j = Φ d j) := by
  obtain ⟨gl, gr, hl, hr⟩ := spec_of_ok S.bc S.negate S.n _ t hF v junk0 A hA
  have hs : Sides S (fluxWidth S S.p) t gl gr := fun d => ⟨hl d, hr d⟩
  obtain ⟨dt0, hdt0, e0⟩ := rhs_spec S hlim hp hn t gl gr hs (fun _ _ => 0) (fun _ _ => 0) t u u
    (fun _ _ => rfl)
  refine ⟨dt0, schemeFlux S S.p none (extAll S.n gl gr u), fun i => if InCells S.n i then
    latDiv S.active S.h (schemeFlux S S.p none (extAll S.n gl gr u)) i else 0, fun junk mem t' => ?_⟩
  obtain ⟨dt, hdt, e⟩ := rhs_spec S hlim hp hn t gl gr hs junk mem t' u u (fun _ _ => rfl)
  cases hdt0.unique hdt
  obtain ⟨F, eF, _⟩ := rhs_inv e
  refine ⟨F, eF, e, solverFluxes_shape eF, fun d j hd hj => ?_⟩
  obtain ⟨dt1, F1, e1, _, hF1⟩ := hydrofluxes_spec S S.p hp S.inactive_p hn none (by simp) t gl gr hs
    (junk 0) u u (fun _ _ => rfl) (S.mem mem)
  unfold solverFluxes at eF
  obtain ⟨r1, h1, eF⟩ := bind_ok eF
  rw [e1] at h1
  cases h1
  obtain ⟨F2, h2, eF⟩ := bind_ok eF
  unfold limitFluxes at eF
  rw [hlim] at eF
  cases eF
  obtain ⟨C, eC, rC⟩ := assign_rep (mem d) ((hF1 d).1 hd)
  have h3 := forDims_inv _ _ h2 d
  have h4 : (S.mem mem d).assign (F1 d) = .ok C := eC
  rw [h4] at h3
  cases h3
  have := rC.2 j hj
  rwa [add_zero] at this

/-- **C11** For sides other than dirichlet nothing can go wrong when the boundary conditions are
applied. -/
theorem C11_open_sides (S : Scheme K V) (gw : Fin 3 → ℕ) (t : K) (hn : ∀ d, 1 ≤ S.n d)
    (hk : ∀ d, gw d ≠ 0 →
      (∀ s, S.bc.kind d s = .free ∨ ((S.bc.kind d s = .outflow ∨ S.bc.kind d s = .reflective ∨
        S.bc.kind d s = .periodic) ∧ gw d ≤ S.n d)) ∧
      (S.bc.kind d .r = .periodic → S.bc.kind d .l = .periodic)) :
    Fillable S.bc S.n gw ∧ ∀ v junk, ∃ A, S.bc.apply S.negate ⟨S.n, v⟩ gw t junk = .ok A := by
  refine ⟨fun d hd => ⟨hn d, fun s => ⟨?_, ?_⟩, (hk d hd).2⟩, fun v junk => ?_⟩
  · rcases (hk d hd).1 s with e | ⟨e | e | e, _⟩ <;> rw [e] <;> decide
  · intro h
    rcases (hk d hd).1 s with e | ⟨_, hw⟩
    · rw [e] at h; rcases h with h | h | h <;> cases h
    · exact hw
  · have key : ∀ d s, ∃ G, SideSpec S.bc S.negate S.n gw t d s G := by
      intro d s
      by_cases hd : gw d = 0
      · exact ⟨.clamp, .inactive hd _⟩
      · rcases (hk d hd).1 s with e | ⟨e | e | e, hw⟩
        · exact ⟨_, .free e (hn d)⟩
        · exact ⟨_, .outflow e hw⟩
        · exact ⟨_, .reflective e hw⟩
        · refine ⟨_, .periodic e ?_ hw (hn d)⟩
          cases s with
          | l => exact e
          | r => exact (hk d hd).2 e
    choose G hG using key
    obtain ⟨A, e, _⟩ := apply_spec S.bc S.negate S.n gw t (fun d => G d .l) (fun d => G d .r)
      (fun d => hG d .l) (fun d => hG d .r) v junk
    exact ⟨A, e⟩

example : Fillable exampleConfig.scheme.bc exampleConfig.scheme.n
      (fluxWidth exampleConfig.scheme exampleConfig.scheme.p) ∧
    ∀ v junk, ∃ A, exampleConfig.scheme.bc.apply exampleConfig.scheme.negate
      ⟨exampleConfig.scheme.n, v⟩ (fluxWidth exampleConfig.scheme exampleConfig.scheme.p) 0 junk = .ok A := by
  refine C11_open_sides exampleConfig.scheme _ 0 ?_ ?_
  · intro d; revert d; decide
  · intro d _
    refine ⟨fun s => Or.inr ⟨Or.inr (Or.inr rfl), ?_⟩, fun _ => rfl⟩
    revert d; decide

end FVHOE
