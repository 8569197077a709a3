import Verif.Proofs.Natural

/-!
Change of units: conserved columns mapped by `A`, primitive columns by `B`, fluxes by `Φ`, coordinates by `χ`, times
multiplied by `τ`, derivatives by `σ`.
-/

set_option linter.unusedSectionVars false

namespace FVHOE

variable {K : Type} [Field K] [LinearOrder K]
variable {V : Type} [AddCommGroup V] [Module K V] {V' : Type} [AddCommGroup V'] [Module K V']
variable {α α' : Type}

/-- Boundary values related by a change of units. -/
def BCValue.RelUnits (π : α → α') (χ : Fin 3 → K → K) (τ : K) : BCValue K α → BCValue K α' → Prop
  | .func g, .func g' => ∀ x y z t, g' (x.map (χ 0)) (y.map (χ 1)) (z.map (χ 2)) (t.map (τ * ·)) =
      (g x y z t).map (Arr.map π)
  | .const v, .const v' => v' = π v
  | .other, .other => True
  | _, _ => False

/-- The slab in new coordinates. -/
def Slab.units (χ : Fin 3 → K → K) (s : Slab K) : Slab K := ⟨fun a => (s.coord a).map (χ a)⟩

/-- Boundary conditions related by a change of units. -/
structure BC.RelUnits (π : α → α') (χ : Fin 3 → K → K) (τ : K) (b : BC K α) (b' : BC K α') : Prop where
  kind : b'.kind = b.kind
  slabs : b'.slabs = b.slabs.map fun s d e => (s d e).units χ
  value : ∀ d s, (b.value d s).RelUnits π χ τ (b'.value d s)

theorem setDirichlet_units (π : α → α') (χ : Fin 3 → K → K) (τ : K) (u : Arr α) (v : BCValue K α)
    (v' : BCValue K α') (hv : v.RelUnits π χ τ v') (st : ℕ) (d : Fin 3) (s : Side) (c : Fin 3 → Arr K)
    (t : Option K) :
    setDirichlet (u.map π) v' st d s (fun a => (c a).map (χ a)) (t.map (τ * ·)) =
      (setDirichlet u v st d s c t).map (Arr.map π) := by
  cases v <;> cases v' <;> simp only [BCValue.RelUnits] at hv
  · unfold setDirichlet
    simp only
    rw [hv, map_bind, bind_map]
    congr 1
    funext w
    exact setCut_natural π _ _ _ _ _
  · subst hv
    unfold setDirichlet
    exact setCut_natural π u ((u.cut d (outerCut st s).1 (outerCut st s).2).map fun _ => _) d _ _
  · rfl

theorem trimSlabs_units (χ : Fin 3 → K → K) (sl : Option (Fin 3 → Side → Slab K)) (gw : Fin 3 → ℕ) (d : Fin 3)
    (s : Side) : trimSlabs (sl.map fun s d e => (s d e).units χ) gw d s =
      (trimSlabs sl gw d s).map fun c a => (c a).map (χ a) := by
  cases sl with
  | none => rfl
  | some sl =>
    unfold trimSlabs
    simp only [Option.map]
    have : bufferSize (fun d e => (sl d e).units χ) = bufferSize sl := rfl
    rw [this]
    split_ifs <;> rfl

theorem applySlab_units (π : α → α') (χ : Fin 3 → K → K) (τ : K) (b : BC K α) (b' : BC K α')
    (hb : b.RelUnits π χ τ b') (neg : Fin 3 → α → α) (neg' : Fin 3 → α' → α')
    (hn : ∀ d v, neg' d (π v) = π (neg d v)) (gw : Fin 3 → ℕ) (t : K) (u : Arr α) (sl : Fin 3 × Side) :
    applySlab b' neg' gw (τ * t) (u.map π) sl = (applySlab b neg gw t u sl).map (Arr.map π) := by
  unfold applySlab
  simp only [hb.kind, hb.slabs, trimSlabs_units]
  by_cases h0 : gw sl.1 = 0
  · simp only [if_pos h0]; rfl
  · simp only [if_neg h0]
    cases b.kind sl.1 sl.2 <;> dsimp only
    · rw [map_bind, bind_map]
      congr 1
      funext c
      exact setDirichlet_units π χ τ u _ _ (hb.value _ _) _ _ _ _ (some t)
    · rw [map_bind, bind_map]
      congr 1
      funext c
      exact setDirichlet_units π χ τ u _ _ (hb.value _ _) _ _ _ _ none
    · exact setCut_natural π u (u.cut sl.1 (edgeCut (gw sl.1) sl.2).1 (edgeCut (gw sl.1) sl.2).2) _ _ _
    · exact setSymmetric_natural π u _ _ _ id id fun _ => rfl
    · exact setSymmetric_natural π u _ _ _ _ _ (hn _)
    · split_ifs
      · unfold setPeriodic
        rw [map_bind]
        refine (congrArg (· >>= _) (setCut_natural π u
          (u.cut sl.1 (innerCut (gw sl.1) .r).1 (innerCut (gw sl.1) .r).2) _ _ _)).trans ?_
        rw [bind_map]
        congr 1
        funext w
        exact setCut_natural π w (w.cut sl.1 (innerCut (gw sl.1) .l).1 (innerCut (gw sl.1) .l).2) _ _ _
      · rfl
    · rw [map_bind, bind_map]; rfl
    · rfl
    · rfl

theorem apply_units (π : α → α') (χ : Fin 3 → K → K) (τ : K) (b : BC K α) (b' : BC K α')
    (hb : b.RelUnits π χ τ b') (neg : Fin 3 → α → α) (neg' : Fin 3 → α' → α')
    (hn : ∀ d v, neg' d (π v) = π (neg d v)) (u : Arr α) (gw : Fin 3 → ℕ) (t : K) (junk : Ix → α) :
    b'.apply neg' (u.map π) gw (τ * t) (fun i => π (junk i)) =
      (b.apply neg u gw t junk).map (Arr.map π) := by
  unfold BC.apply
  have : padEmpty (u.map π) gw (fun i => π (junk i)) = (padEmpty u gw junk).map π := by
    unfold padEmpty Arr.map
    simp only
    congr 1
    funext j
    change (if u.InB _ then _ else _) = _
    split_ifs <;> rfl
  rw [this]
  exact foldlM_natural (Arr.map π) _ _ (fun s a => applySlab_units π χ τ b b' hb neg neg' hn gw t s a) _ _

/-- The scheme `S'` is the scheme `S` in other units. -/
structure SchemeUnits (A B Φ : V →ₗ[K] V') (χ : Fin 3 → K → K) (τ σ : K) (S : Scheme K V) (S' : Scheme K V') :
    Prop where
  n : S'.n = S.n
  p : S'.p = S.p
  time : τ * σ = 1
  diff : ∀ d, S.active d = true → ∀ x, (1 / S'.h d) • Φ x = σ • A ((1 / S.h d) • x)
  step : ∀ w, timeStep S' (w.map B) = (timeStep S w).map (τ * ·)
  prim : ∀ v, S'.prim (A v) = B (S.prim v)
  riem : ∀ d, S.active d = true → ∀ v w, S'.riem d (B v) (B w) = Φ (S.riem d v w)
  negate : ∀ d v, S'.negate d (A v) = A (S.negate d v)
  bc : S.bc.RelUnits A χ τ S'.bc
  limiting : LimitingRel B S.limiting S'.limiting

variable {A B Φ : V →ₗ[K] V'} {χ : Fin 3 → K → K} {τ σ : K} {S : Scheme K V} {S' : Scheme K V'}

theorem SchemeUnits.active (H : SchemeUnits A B Φ χ τ σ S S') (d : Fin 3) : S'.active d = S.active d := by
  unfold Scheme.active; rw [H.n, H.p]

theorem primitives_units (H : SchemeUnits A B Φ χ τ σ S S') (t : K) (junk : Ix → V) (p gw : Fin 3 → ℕ) (u : Arr V) :
    primitivesFromConservatives S' (τ * t) (fun i => A (junk i)) p gw (u.map A) =
      (primitivesFromConservatives S t junk p gw u).map (Arr.map B) := by
  unfold primitivesFromConservatives
  rw [apply_units A χ τ S.bc S'.bc H.bc S.negate S'.negate H.negate, bind_map, map_bind]
  congr 1; funext a
  rw [centers_natural, bind_map, map_bind]
  congr 1; funext b
  have : (b.map A).map S'.prim = (b.map S.prim).map B := by
    simp only [Arr.map, H.prim]
  rw [this]
  exact averages_natural B _ _

theorem fluxDir_units (H : SchemeUnits A B Φ χ τ σ S S') (p : Fin 3 → ℕ) (s : Option (V → V → V))
    (s' : Option (V' → V' → V')) (h : SlopeRel B s s') (w : Arr V) (d : Fin 3) (hd : S.active d = true) :
    fluxDir S' p s' (w.map B) d = (fluxDir S p s w d).map (Arr.map Φ) := by
  unfold fluxDir
  rw [interp_natural, bind_map, map_bind]
  congr 1; funext a
  rw [interp_natural, bind_map, map_bind]
  congr 1; funext b
  rw [faceValues_natural B b _ _ s s' h, bind_map, map_bind]
  congr 1; funext lr
  have e : ∀ (X : Arr V) a b, (X.map B).cut d a b = (X.cut d a b).map B := fun _ _ _ => rfl
  simp only [e]
  rw [zip_natural B B Φ (S.riem d) (S'.riem d) (H.riem d hd), bind_map, map_bind]
  congr 1; funext f
  rw [recon_natural, bind_map, map_bind]
  congr 1; funext t1
  rw [recon_natural, bind_map, map_bind]
  congr 1; funext t2
  have ex : ∀ e, excess S' p d e = excess S p d e := by
    intro e; unfold excess; rw [H.active]
  simp only [ex]
  rfl

theorem hydrofluxes_units (H : SchemeUnits A B Φ χ τ σ S S') (t : K) (junk : Ix → V) (mem : Fin 3 → Arr V)
    (p : Fin 3 → ℕ) (s : Option (V → V → V)) (s' : Option (V' → V' → V')) (h : SlopeRel B s s') (u : Arr V) :
    hydrofluxes S' (τ * t) (fun i => A (junk i)) (fun d => (mem d).map Φ) p s' (u.map A) =
      (hydrofluxes S t junk mem p s u).map fun r => (τ * r.1, fun d => (r.2 d).map Φ) := by
  unfold hydrofluxes
  have hs : s'.isSome = s.isSome := by cases s <;> cases s' <;> simp [SlopeRel] at h ⊢
  rw [hs]
  split_ifs
  · rfl
  · have e : (fun d => if S'.active d = true then fluxGw p else 0) =
        fun d => if S.active d = true then fluxGw p else 0 := by
      funext d; rw [H.active]
    rw [e, primitives_units H, bind_map, map_bind]
    congr 1; funext w
    rw [H.step, bind_map, map_bind]
    congr 1; funext dt
    rw [forDims_natural (Arr.map Φ) (fluxOrMem S p s w mem) _ (fun d => ?_), bind_map, map_bind]
    · rfl
    · unfold fluxOrMem
      rw [H.active]
      split_ifs with hd
      · exact fluxDir_units H p s s' h w d hd
      · rfl

theorem eulerEquation_units (H : SchemeUnits A B Φ χ τ σ S S') (F : Fin 3 → Arr V) :
    eulerEquation S' (fun d => (F d).map Φ) = (eulerEquation S F).map (Arr.map (σ • A)) := by
  unfold eulerEquation
  have := foldlM_natural (Option.map (Arr.map (σ • A))) (addTerm S F) (addTerm S' fun d => (F d).map Φ) ?_
    [0, 1, 2] none
  · have e : (none : Option (Arr V')) = Option.map (Arr.map (σ • A)) none := rfl
    rw [e, this, bind_map, map_bind]
    congr 1
    funext r
    cases r with
    | none => simp only [Option.map, Option.getD, Except.map, Arr.map, map_zero, H.n]
    | some A => rfl
  · intro acc d
    unfold addTerm
    rw [H.active]
    split_ifs with hd
    · have e : ∀ (X : Arr V) a b, (X.map Φ).cut d a b = (X.cut d a b).map Φ := fun _ _ _ => rfl
      simp only [e]
      rw [zip_natural Φ Φ (σ • A : V →ₗ[K] V') (fun a b => (-(1 / S.h d)) • (a - b)) _
        (fun a b => by
          rw [neg_smul, ← map_sub, H.diff d hd, neg_smul, map_neg]
          rfl), bind_map, map_bind]
      congr 1; funext diff
      cases acc with
      | none => rfl
      | some X =>
        unfold accumulate
        simp only [Option.map]
        rw [addInPlace_natural]
        cases X.addInPlace diff <;> rfl
    · rfl

theorem reviseFluxes_units (H : SchemeUnits A B Φ χ τ σ S S') (L : Limiting K V) (L' : Limiting K V')
    (hL : LimitingRel B (some L) (some L')) (t : K) (junk : ℕ → Ix → V) (u : Arr V) (F : Fin 3 → Arr V)
    (dt : K) :
    reviseFluxes S' L' (τ * t) (fun k i => A (junk k i)) (u.map A) (fun d => (F d).map Φ) (τ * dt) =
      (reviseFluxes S L t junk u F dt).map fun x d => (x d).map Φ := by
  obtain ⟨h1, h2, h3, h4⟩ := hL
  unfold reviseFluxes
  rw [eulerEquation_units H, bind_map, map_bind]
  congr 1; funext dudt
  rw [zip_natural A (σ • A : V →ₗ[K] V') A (fun x y => x + dt • y) _ (fun x y => by
    rw [map_add, map_smul, LinearMap.smul_apply, smul_smul, mul_right_comm, H.time, one_mul]), bind_map, map_bind]
  congr 1; funext ustar
  have e : (fun d => if S'.active d = true then 3 else 0) =
      fun d => if S.active d = true then 3 else 0 := by
    funext d; rw [H.active]
  simp only [e, H.p]
  rw [primitives_units H, bind_map, map_bind]
  congr 1; funext w
  rw [primitives_units H, bind_map, map_bind]
  congr 1; funext ws
  rw [h1, map_bind]
  congr 1; funext tr
  rw [h3]
  generalize (if L.force = true then tr.map fun _ => true else tr) = tr'
  split_ifs
  · rw [hydrofluxes_units H _ _ _ _ L.slope L'.slope h4, bind_map, map_bind]
    congr 1; funext r
    rw [h2, map_bind]
    congr 1; funext θ
    exact forDims_natural (Arr.map Φ) _ _ fun d => blend_natural Φ _ _ _
  · rfl

theorem solverFluxes_units (H : SchemeUnits A B Φ χ τ σ S S') (t : K) (junk : ℕ → Ix → V) (mem : Fin 3 → Arr V)
    (u : Arr V) : solverFluxes S' (τ * t) (fun k i => A (junk k i)) (fun d => (mem d).map Φ) (u.map A) =
      (solverFluxes S t junk mem u).map fun r => (τ * r.1, fun d => (r.2 d).map Φ) := by
  unfold solverFluxes
  rw [H.p, hydrofluxes_units H t (junk 0) mem S.p none none trivial, bind_map, map_bind]
  congr 1; funext r
  rw [forDims_natural (Arr.map Φ) (fun d => (mem d).assign (r.2 d)) _ (fun d => assign_natural Φ _ _),
    bind_map, map_bind]
  congr 1; funext F
  have : limitFluxes S' (τ * t) (fun k i => A (junk k i)) (u.map A) (fun d => (F d).map Φ) (τ * r.1) =
      (limitFluxes S t junk u F r.1).map fun x d => (x d).map Φ := by
    have hl := H.limiting
    unfold limitFluxes
    cases e1 : S.limiting <;> cases e2 : S'.limiting <;> rw [e1, e2] at hl <;>
      simp only [LimitingRel] at hl
    · rfl
    · exact reviseFluxes_units H _ _ hl t junk u F r.1
  rw [this, bind_map, map_bind]
  rfl

/-- One evaluation in other units; if one raises so does the other. -/
theorem solverRHS_units (H : SchemeUnits A B Φ χ τ σ S S') (junk : ℕ → Ix → V) (mem : Fin 3 → Ix → V) (t t₁ t₂ : K)
    (u : Ix → V) :
    solverRHS S' (fun k i => A (junk k i)) (fun d i => Φ (mem d i)) (τ * t) t₂ (fun i => A (u i)) =
      (solverRHS S junk mem t t₁ u).map fun r => (τ * r.1, fun i => σ • A (r.2 i)) := by
  unfold solverRHS hydrodynamics
  have e : S'.mem (fun d i => Φ (mem d i)) = fun d => (S.mem mem d).map Φ := by
    unfold Scheme.mem Arr.map
    rw [H.n]
  rw [e, H.n]
  have e2 : (⟨S.n, fun i => A (u i)⟩ : Arr V') = (⟨S.n, u⟩ : Arr V).map A := rfl
  rw [e2, solverFluxes_units H]
  simp only [bind_assoc]
  rw [bind_map, map_bind]
  congr 1; funext r
  rw [eulerEquation_units H, bind_map, map_bind]
  congr 1; funext D
  simp only [pure_bind]
  change (if D.shape = S.n then _ else _) = _
  split_ifs
  · simp only [Except.map]
    congr 2
    funext i
    change (if (⟨S.n, u⟩ : Arr V).InB i then _ else _) = _
    split_ifs
    · rfl
    · rw [map_zero, smul_zero]
  · rfl

end FVHOE
