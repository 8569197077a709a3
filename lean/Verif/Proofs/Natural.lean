import Mathlib.Algebra.Module.LinearMap.Defs
import Verif.Model.Solver

/-!
Replacing every column of variables by its image under a linear map commutes with the right-hand side,
when the pointwise physics, the boundary data and the limiter commute with the map.
-/

set_option linter.unusedSectionVars false

namespace FVHOE

variable {K : Type} [Field K] [LinearOrder K]
variable {V : Type} [AddCommGroup V] [Module K V] {V' : Type} [AddCommGroup V'] [Module K V']

theorem map_bind {ε α β γ : Type} (g : β → γ) (x : Except ε α) (f : α → Except ε β) :
    (x >>= f).map g = x >>= fun a => (f a).map g := by
  cases x <;> rfl

theorem bind_map {ε α β γ : Type} (g : α → β) (x : Except ε α) (f : β → Except ε γ) :
    (x.map g >>= f) = x >>= fun a => f (g a) := by
  cases x <;> rfl

theorem foldlM_natural {ε σ τ α : Type} (m : σ → τ) (f : σ → α → Except ε σ) (f' : τ → α → Except ε τ)
    (h : ∀ s a, f' (m s) a = (f s a).map m) (l : List α) (s : σ) :
    l.foldlM f' (m s) = (l.foldlM f s).map m := by
  induction l generalizing s with
  | nil => rfl
  | cons a l ih =>
    rw [List.foldlM_cons, List.foldlM_cons, h, map_bind, bind_map]
    congr 1
    funext s'
    exact ih s'

variable {α β γ α' β' γ' : Type}

theorem zip_natural (π : α → α') (ρ : β → β') (σ : γ → γ') (f : α → β → γ) (f' : α' → β' → γ')
    (h : ∀ a b, f' (π a) (ρ b) = σ (f a b)) (A : Arr α) (B : Arr β) :
    (A.map π).zip f' (B.map ρ) = (A.zip f B).map (Arr.map σ) := by
  unfold Arr.zip
  change (if ∀ d, dimCompat (A.shape d) (B.shape d) then _ else _) = _
  split_ifs
  · simp only [Except.map, Arr.map]
    congr 2
    funext j
    exact h _ _
  · rfl

theorem setCut_natural (π : α → α') (A B : Arr α) (d : Fin 3) (a b : ℤ) :
    (A.map π).setCut d a b (B.map π) = (A.setCut d a b B).map (Arr.map π) := by
  unfold Arr.setCut Arr.setSlice
  by_cases h : broadcastsTo B.shape (Function.update A.shape d
      (sliceStop (A.shape d) (orNone b) - sliceStart (A.shape d) (orNone a)))
  · refine (if_pos h).trans ?_
    simp only [if_pos h, Except.map, Arr.map]
    congr 2
    funext j
    exact (apply_ite π _ _ _).symm
  · refine (if_neg h).trans ?_
    simp only [if_neg h, Except.map]

theorem assign_natural (π : α → α') (A B : Arr α) :
    (A.map π).assign (B.map π) = (A.assign B).map (Arr.map π) := by
  unfold Arr.assign
  change (if broadcastsTo B.shape A.shape then _ else _) = _
  split_ifs <;> rfl

theorem addInPlace_natural (π : V →ₗ[K] V') (A B : Arr V) :
    (A.map π).addInPlace (B.map π) = (A.addInPlace B).map (Arr.map π) := by
  unfold Arr.addInPlace
  change (if broadcastsTo B.shape A.shape then _ else _) = _
  split_ifs
  · simp only [Except.map, Arr.map, map_add]
    rfl
  · rfl

theorem map_map (f : α → β) (g : β → γ) (A : Arr α) : (A.map f).map g = A.map fun x => g (f x) := rfl

/-! ## Boundary conditions -/

/-- Boundary values related by a map. -/
def BCValue.Rel (π : α → α') : BCValue K α → BCValue K α' → Prop
  | .func g, .func g' => ∀ x y z t, g' x y z t = (g x y z t).map (Arr.map π)
  | .const v, .const v' => v' = π v
  | .other, .other => True
  | _, _ => False

/-- Boundary conditions related by a map. -/
structure BC.Rel (π : α → α') (b : BC K α) (b' : BC K α') : Prop where
  kind : b'.kind = b.kind
  slabs : b'.slabs = b.slabs
  value : ∀ d s, (b.value d s).Rel π (b'.value d s)

theorem setDirichlet_natural (π : α → α') (u : Arr α) (v : BCValue K α) (v' : BCValue K α')
    (hv : v.Rel π v') (st : ℕ) (d : Fin 3) (s : Side) (c : Fin 3 → Arr K) (t : Option K) :
    setDirichlet (u.map π) v' st d s c t = (setDirichlet u v st d s c t).map (Arr.map π) := by
  cases v <;> cases v' <;> simp only [BCValue.Rel] at hv
  · unfold setDirichlet
    simp only
    rw [hv, map_bind, bind_map]
    congr 1
    funext w
    exact setCut_natural π _ _ _ _ _
  · subst hv
    unfold setDirichlet
    exact setCut_natural π u ((u.cut d (outerCut st s).1 (outerCut st s).2).map fun _ => _) d _ _
  · rfl

theorem setSymmetric_natural (π : α → α') (u : Arr α) (st : ℕ) (d : Fin 3) (s : Side) (neg : α → α)
    (neg' : α' → α') (hn : ∀ v, neg' (π v) = π (neg v)) :
    setSymmetric (u.map π) st d s neg' = (setSymmetric u st d s neg).map (Arr.map π) := by
  unfold setSymmetric
  rw [map_bind]
  have e := setCut_natural π u ((u.cut d (innerCut st s).1 (innerCut st s).2).flip d) d
    (outerCut st s).1 (outerCut st s).2
  refine (congrArg (· >>= _) e).trans ?_
  rw [bind_map]
  congr 1
  funext w
  have : ((w.map π).cut d (outerCut st s).1 (outerCut st s).2).map neg' =
      ((w.cut d (outerCut st s).1 (outerCut st s).2).map neg).map π := by
    simp only [Arr.cut, Arr.slice, Arr.map, hn]
  rw [this]
  exact setCut_natural π w _ d _ _

theorem applySlab_natural (π : α → α') (b : BC K α) (b' : BC K α') (hb : b.Rel π b')
    (neg : Fin 3 → α → α) (neg' : Fin 3 → α' → α') (hn : ∀ d v, neg' d (π v) = π (neg d v))
    (gw : Fin 3 → ℕ) (t : K) (u : Arr α) (sl : Fin 3 × Side) :
    applySlab b' neg' gw t (u.map π) sl = (applySlab b neg gw t u sl).map (Arr.map π) := by
  unfold applySlab
  simp only [hb.kind, hb.slabs]
  by_cases h0 : gw sl.1 = 0
  · simp only [if_pos h0]; rfl
  · simp only [if_neg h0]
    cases b.kind sl.1 sl.2 <;> dsimp only
    · rw [map_bind]
      congr 1
      funext c
      exact setDirichlet_natural π u _ _ (hb.value _ _) _ _ _ _ _
    · rw [map_bind]
      congr 1
      funext c
      exact setDirichlet_natural π u _ _ (hb.value _ _) _ _ _ _ _
    · exact setCut_natural π u (u.cut sl.1 (edgeCut (gw sl.1) sl.2).1 (edgeCut (gw sl.1) sl.2).2) _ _ _
    · exact setSymmetric_natural π u _ _ _ id id fun _ => rfl
    · exact setSymmetric_natural π u _ _ _ _ _ (hn _)
    · split_ifs
      · unfold setPeriodic
        rw [map_bind]
        refine (congrArg (· >>= _) (setCut_natural π u
          (u.cut sl.1 (innerCut (gw sl.1) .r).1 (innerCut (gw sl.1) .r).2) _ _ _)).trans ?_
        rw [bind_map]
        congr 1
        funext w
        exact setCut_natural π w (w.cut sl.1 (innerCut (gw sl.1) .l).1 (innerCut (gw sl.1) .l).2) _ _ _
      · rfl
    · rw [map_bind]; rfl
    · rfl
    · rfl

theorem apply_natural (π : α → α') (b : BC K α) (b' : BC K α') (hb : b.Rel π b')
    (neg : Fin 3 → α → α) (neg' : Fin 3 → α' → α') (hn : ∀ d v, neg' d (π v) = π (neg d v))
    (u : Arr α) (gw : Fin 3 → ℕ) (t : K) (junk : Ix → α) :
    b'.apply neg' (u.map π) gw t (fun i => π (junk i)) =
      (b.apply neg u gw t junk).map (Arr.map π) := by
  unfold BC.apply
  have : padEmpty (u.map π) gw (fun i => π (junk i)) = (padEmpty u gw junk).map π := by
    unfold padEmpty Arr.map
    simp only
    congr 1
    funext j
    change (if u.InB _ then _ else _) = _
    split_ifs <;> rfl
  rw [this]
  exact foldlM_natural (Arr.map π) _ _ (fun s a => applySlab_natural π b b' hb neg neg' hn gw t s a) _ _

/-! ## Sweeps -/

theorem sweepLoop_natural (π : V →ₗ[K] V') (u : Arr V) (ws : List ℚ) (d : Fin 3) :
    sweepLoop K (u.map π) ws d = (sweepLoop K u ws d).map (Arr.map π) := by
  unfold sweepLoop
  cases symmetricCuts ws.length with
  | nil => rfl
  | cons c cs =>
    dsimp only
    have : ((u.map π).cut d c.1 c.2).zerosLike = (((u.cut d c.1 c.2).zerosLike : Arr V)).map π := by
      simp only [Arr.zerosLike, Arr.map, map_zero]
      rfl
    rw [this]
    refine foldlM_natural (Arr.map π) _ _ (fun s a => ?_) _ _
    have : ((u.map π).cut d a.2.1 a.2.2).map (fun x => (a.1 : K) • x) =
        ((u.cut d a.2.1 a.2.2).map fun x => (a.1 : K) • x).map π := by
      simp only [Arr.cut, Arr.slice, Arr.map, map_smul]
    rw [this]
    exact addInPlace_natural π _ _

theorem interp_natural (π : V →ₗ[K] V') (u : Arr V) (p : ℕ) (d : Fin 3) (pos : String) :
    conservativeInterpolation K (u.map π) p d pos =
      (conservativeInterpolation K u p d pos).map (Arr.map π) := by
  unfold conservativeInterpolation stencilSweep
  rw [map_bind]
  congr 1
  funext ws
  exact sweepLoop_natural π u ws d

theorem recon_natural (π : V →ₗ[K] V') (u : Arr V) (p : ℕ) (d : Fin 3) :
    transverseReconstruction K (u.map π) p d = (transverseReconstruction K u p d).map (Arr.map π) := by
  unfold transverseReconstruction stencilSweep
  rw [map_bind]
  congr 1
  funext ws
  exact sweepLoop_natural π u ws d

theorem centers_natural (π : V →ₗ[K] V') (u : Arr V) (p : Fin 3 → ℕ) :
    interpolateCellCenters K (u.map π) p = (interpolateCellCenters K u p).map (Arr.map π) := by
  unfold interpolateCellCenters
  rw [interp_natural, bind_map, map_bind]
  congr 1; funext a
  rw [interp_natural, bind_map, map_bind]
  congr 1; funext b
  exact interp_natural π b _ _ _

theorem averages_natural (π : V →ₗ[K] V') (u : Arr V) (p : Fin 3 → ℕ) :
    interpolateFvAverages K (u.map π) p = (interpolateFvAverages K u p).map (Arr.map π) := by
  unfold interpolateFvAverages
  rw [recon_natural, bind_map, map_bind]
  congr 1; funext a
  rw [recon_natural, bind_map, map_bind]
  congr 1; funext b
  exact recon_natural π b _ _

/-! ## The right-hand side -/

/-- Slope limiters related by a map. -/
def SlopeRel (π : α → α') : Option (α → α → α) → Option (α' → α' → α') → Prop
  | none, none => True
  | some s, some s' => ∀ a b, s' (π a) (π b) = π (s a b)
  | _, _ => False

/-- Limiters related by a map: the detection only looks at the images. -/
def LimitingRel (π : α → α') : Option (Limiting K α) → Option (Limiting K α') → Prop
  | none, none => True
  | some L, some L' => (∀ w w', L'.detect (w.map π) (w'.map π) = L.detect w w') ∧
      L'.broadcast = L.broadcast ∧ L'.force = L.force ∧ SlopeRel π L.slope L'.slope
  | _, _ => False

/-- The scheme `S'` does to the images under `π` what `S` does to the columns. -/
structure SchemeHom (π : V →ₗ[K] V') (S : Scheme K V) (S' : Scheme K V') : Prop where
  n : S'.n = S.n
  p : S'.p = S.p
  h : S'.h = S.h
  cfl : S'.cfl = S.cfl
  fixedDt : S'.fixedDt = S.fixedDt
  prim : ∀ v, S'.prim (π v) = π (S.prim v)
  riem : ∀ d v w, S'.riem d (π v) (π w) = π (S.riem d v w)
  speed : ∀ k v, S'.speed k (π v) = S.speed k v
  negate : ∀ d v, S'.negate d (π v) = π (S.negate d v)
  bc : S.bc.Rel π S'.bc
  limiting : LimitingRel π S.limiting S'.limiting

variable {π : V →ₗ[K] V'} {S : Scheme K V} {S' : Scheme K V'}

theorem SchemeHom.active (H : SchemeHom π S S') (d : Fin 3) : S'.active d = S.active d := by
  unfold Scheme.active; rw [H.n, H.p]

theorem SchemeHom.ndim (H : SchemeHom π S S') : S'.ndim = S.ndim := by
  unfold Scheme.ndim; simp only [H.active]

theorem primitives_natural (H : SchemeHom π S S') (t : K) (junk : Ix → V) (p gw : Fin 3 → ℕ) (u : Arr V) :
    primitivesFromConservatives S' t (fun i => π (junk i)) p gw (u.map π) =
      (primitivesFromConservatives S t junk p gw u).map (Arr.map π) := by
  unfold primitivesFromConservatives
  rw [apply_natural π S.bc S'.bc H.bc S.negate S'.negate H.negate, bind_map, map_bind]
  congr 1; funext a
  rw [centers_natural, bind_map, map_bind]
  congr 1; funext b
  have : (b.map π).map S'.prim = (b.map S.prim).map π := by
    simp only [Arr.map, H.prim]
  rw [this]
  exact averages_natural π _ _

theorem timeStep_natural (H : SchemeHom π S S') (w : Arr V) : timeStep S' (w.map π) = timeStep S w := by
  unfold timeStep cflDt
  rw [H.fixedDt, H.h, H.cfl, H.ndim]
  simp only [Arr.map, H.speed]

theorem muscl_natural (π : V →ₗ[K] V') (u : Arr V) (d : Fin 3) (s : V → V → V) (s' : V' → V' → V')
    (h : ∀ a b, s' (π a) (π b) = π (s a b)) :
    muscl K (u.map π) d s' = (muscl K u d s).map fun x => (x.1.map π, x.2.map π) := by
  unfold muscl
  simp only
  have e : ∀ a b, (u.map π).cut d a b = (u.cut d a b).map π := fun _ _ => rfl
  simp only [e]
  rw [zip_natural π π π (fun a b => a - b) _ (fun a b => (map_sub π a b).symm), bind_map, map_bind]
  congr 1; funext dl
  rw [zip_natural π π π (fun a b => a - b) _ (fun a b => (map_sub π a b).symm), bind_map, map_bind]
  congr 1; funext dr
  rw [zip_natural π π π s s' h, bind_map, map_bind]
  congr 1; funext sl
  rw [zip_natural π π π (fun a b => a - (1 / 2 : K) • b) _ (fun a b => by rw [map_sub, map_smul]),
    bind_map, map_bind]
  congr 1; funext l
  rw [zip_natural π π π (fun a b => a + (1 / 2 : K) • b) _ (fun a b => by rw [map_add, map_smul]),
    bind_map, map_bind]
  rfl

theorem faceValues_natural (π : V →ₗ[K] V') (u : Arr V) (p : ℕ) (d : Fin 3) (s : Option (V → V → V))
    (s' : Option (V' → V' → V')) (h : SlopeRel π s s') :
    faceValues (K := K) (u.map π) p d s' = (faceValues (K := K) u p d s).map fun x => (x.1.map π, x.2.map π) := by
  have key : (do
      let l ← conservativeInterpolation K (u.map π) p d "l"
      let r ← conservativeInterpolation K (u.map π) p d "r"
      return (l, r) : Except PyErr (Arr V' × Arr V')) = (do
      let l ← conservativeInterpolation K u p d "l"
      let r ← conservativeInterpolation K u p d "r"
      return (l, r) : Except PyErr (Arr V × Arr V)).map fun x => (x.1.map π, x.2.map π) := by
    rw [interp_natural, bind_map, map_bind]
    congr 1; funext l
    rw [interp_natural, bind_map, map_bind]
    rfl
  cases s <;> cases s' <;> simp only [SlopeRel] at h
  · exact key
  · unfold faceValues
    dsimp only
    split_ifs
    · exact muscl_natural π u d _ _ h
    · exact key

theorem fluxDir_natural (H : SchemeHom π S S') (p : Fin 3 → ℕ) (s : Option (V → V → V))
    (s' : Option (V' → V' → V')) (h : SlopeRel π s s') (w : Arr V) (d : Fin 3) :
    fluxDir S' p s' (w.map π) d = (fluxDir S p s w d).map (Arr.map π) := by
  unfold fluxDir
  rw [interp_natural, bind_map, map_bind]
  congr 1; funext a
  rw [interp_natural, bind_map, map_bind]
  congr 1; funext b
  rw [faceValues_natural π b _ _ s s' h, bind_map, map_bind]
  congr 1; funext lr
  have e : ∀ (A : Arr V) a b, (A.map π).cut d a b = (A.cut d a b).map π := fun _ _ _ => rfl
  simp only [e]
  rw [zip_natural π π π (S.riem d) (S'.riem d) (H.riem d), bind_map, map_bind]
  congr 1; funext f
  rw [recon_natural, bind_map, map_bind]
  congr 1; funext t1
  rw [recon_natural, bind_map, map_bind]
  congr 1; funext t2
  have ex : ∀ e, excess S' p d e = excess S p d e := by
    intro e; unfold excess; rw [H.active]
  simp only [ex]
  rfl

theorem forDims_natural {α β : Type} (m : α → β) (f : Fin 3 → Except PyErr α) (f' : Fin 3 → Except PyErr β)
    (h : ∀ d, f' d = (f d).map m) : forDims f' = (forDims f).map fun x d => m (x d) := by
  unfold forDims
  rw [h, bind_map, map_bind]
  congr 1; funext a
  rw [h, bind_map, map_bind]
  congr 1; funext b
  rw [h, bind_map, map_bind]
  congr 1; funext c
  simp only [pure, Except.pure, Except.map]
  congr 1
  funext d
  match d with
  | 0 => rfl
  | 1 => rfl
  | 2 => rfl

theorem hydrofluxes_natural (H : SchemeHom π S S') (t : K) (junk : Ix → V) (mem : Fin 3 → Arr V)
    (p : Fin 3 → ℕ) (s : Option (V → V → V)) (s' : Option (V' → V' → V')) (h : SlopeRel π s s') (u : Arr V) :
    hydrofluxes S' t (fun i => π (junk i)) (fun d => (mem d).map π) p s' (u.map π) =
      (hydrofluxes S t junk mem p s u).map fun r => (r.1, fun d => (r.2 d).map π) := by
  unfold hydrofluxes
  have hs : s'.isSome = s.isSome := by cases s <;> cases s' <;> simp [SlopeRel] at h ⊢
  rw [hs]
  split_ifs
  · rfl
  · have e : (fun d => if S'.active d = true then fluxGw p else 0) =
        fun d => if S.active d = true then fluxGw p else 0 := by
      funext d; rw [H.active]
    rw [e, primitives_natural H, bind_map, map_bind]
    congr 1; funext w
    rw [timeStep_natural H, map_bind]
    congr 1; funext dt
    rw [forDims_natural (Arr.map π) (fluxOrMem S p s w mem) _ (fun d => ?_), bind_map, map_bind]
    · rfl
    · unfold fluxOrMem
      rw [H.active]
      split_ifs
      · exact fluxDir_natural H p s s' h w d
      · rfl

theorem eulerEquation_natural (H : SchemeHom π S S') (F : Fin 3 → Arr V) :
    eulerEquation S' (fun d => (F d).map π) = (eulerEquation S F).map (Arr.map π) := by
  unfold eulerEquation
  have := foldlM_natural (Option.map (Arr.map π)) (addTerm S F) (addTerm S' fun d => (F d).map π) ?_
    [0, 1, 2] none
  · have e : (none : Option (Arr V')) = Option.map (Arr.map π) none := rfl
    rw [e, this, bind_map, map_bind]
    congr 1
    funext r
    cases r with
    | none => simp only [Option.map, Option.getD, Except.map, Arr.map, map_zero, H.n]
    | some A => rfl
  · intro acc d
    unfold addTerm
    rw [H.active]
    split_ifs
    · have e : ∀ (A : Arr V) a b, (A.map π).cut d a b = (A.cut d a b).map π := fun _ _ _ => rfl
      simp only [e]
      rw [zip_natural π π π (fun a b => (-(1 / S.h d)) • (a - b)) _
        (fun a b => by rw [H.h, map_smul, map_sub]), bind_map, map_bind]
      congr 1; funext diff
      cases acc with
      | none => rfl
      | some A =>
        unfold accumulate
        simp only [Option.map]
        rw [addInPlace_natural]
        cases A.addInPlace diff <;> rfl
    · rfl

theorem blend_natural (π : V →ₗ[K] V') (θ : Arr K) (F Fl : Arr V) :
    blend θ (F.map π) (Fl.map π) = (blend θ F Fl).map (Arr.map π) := by
  unfold blend
  have e : θ = θ.map id := rfl
  have z1 := zip_natural id π π (fun (t : K) x => (1 - t) • x) (fun (t : K) x => (1 - t) • x)
    (fun a b => (map_smul π _ _).symm) θ F
  have z2 := zip_natural id π π (fun (t : K) x => t • x) (fun (t : K) x => t • x)
    (fun a b => (map_smul π _ _).symm) θ Fl
  rw [← e] at z1 z2
  rw [z1, bind_map, map_bind]
  congr 1; funext a
  rw [z2, bind_map, map_bind]
  congr 1; funext b
  rw [zip_natural π π π (fun x y => x + y) _ (fun x y => (map_add π x y).symm), bind_map, map_bind]
  congr 1; funext c
  exact assign_natural π F c

theorem reviseFluxes_natural (H : SchemeHom π S S') (L : Limiting K V) (L' : Limiting K V')
    (hL : LimitingRel π (some L) (some L')) (t : K) (junk : ℕ → Ix → V) (u : Arr V) (F : Fin 3 → Arr V)
    (dt : K) : reviseFluxes S' L' t (fun k i => π (junk k i)) (u.map π) (fun d => (F d).map π) dt =
      (reviseFluxes S L t junk u F dt).map fun x d => (x d).map π := by
  obtain ⟨h1, h2, h3, h4⟩ := hL
  unfold reviseFluxes
  rw [eulerEquation_natural H, bind_map, map_bind]
  congr 1; funext dudt
  rw [zip_natural π π π (fun x y => x + dt • y) _ (fun x y => by rw [map_add, map_smul]), bind_map, map_bind]
  congr 1; funext ustar
  have e : (fun d => if S'.active d = true then 3 else 0) =
      fun d => if S.active d = true then 3 else 0 := by
    funext d; rw [H.active]
  simp only [e, H.p]
  rw [primitives_natural H, bind_map, map_bind]
  congr 1; funext w
  rw [primitives_natural H, bind_map, map_bind]
  congr 1; funext ws
  rw [h1, map_bind]
  congr 1; funext tr
  rw [h3]
  generalize (if L.force = true then tr.map fun _ => true else tr) = tr'
  split_ifs
  · rw [hydrofluxes_natural H _ _ _ _ L.slope L'.slope h4, bind_map, map_bind]
    congr 1; funext r
    rw [h2, map_bind]
    congr 1; funext θ
    exact forDims_natural (Arr.map π) _ _ fun d => blend_natural π _ _ _
  · rfl

theorem solverFluxes_natural (H : SchemeHom π S S') (t : K) (junk : ℕ → Ix → V) (mem : Fin 3 → Arr V)
    (u : Arr V) : solverFluxes S' t (fun k i => π (junk k i)) (fun d => (mem d).map π) (u.map π) =
      (solverFluxes S t junk mem u).map fun r => (r.1, fun d => (r.2 d).map π) := by
  unfold solverFluxes
  rw [H.p, hydrofluxes_natural H t (junk 0) mem S.p none none trivial, bind_map, map_bind]
  congr 1; funext r
  rw [forDims_natural (Arr.map π) (fun d => (mem d).assign (r.2 d)) _ (fun d => assign_natural π _ _),
    bind_map, map_bind]
  congr 1; funext F
  have : limitFluxes S' t (fun k i => π (junk k i)) (u.map π) (fun d => (F d).map π) r.1 =
      (limitFluxes S t junk u F r.1).map fun x d => (x d).map π := by
    have hl := H.limiting
    unfold limitFluxes
    cases e1 : S.limiting <;> cases e2 : S'.limiting <;> rw [e1, e2] at hl <;>
      simp only [LimitingRel] at hl
    · rfl
    · exact reviseFluxes_natural H _ _ hl t junk u F r.1
  rw [this, bind_map, map_bind]
  rfl

/-- The right-hand side of `S'` at the image is the image of the right-hand side of `S`; if one raises
so does the other. -/
theorem solverRHS_natural (H : SchemeHom π S S') (junk : ℕ → Ix → V) (mem : Fin 3 → Ix → V) (t t' : K)
    (u : Ix → V) : solverRHS S' (fun k i => π (junk k i)) (fun d i => π (mem d i)) t t' (fun i => π (u i)) =
      (solverRHS S junk mem t t' u).map fun r => (r.1, fun i => π (r.2 i)) := by
  unfold solverRHS hydrodynamics
  have e : S'.mem (fun d i => π (mem d i)) = fun d => (S.mem mem d).map π := by
    unfold Scheme.mem Arr.map
    rw [H.n]
  rw [e, H.n]
  have e2 : (⟨S.n, fun i => π (u i)⟩ : Arr V') = (⟨S.n, u⟩ : Arr V).map π := rfl
  rw [e2, solverFluxes_natural H]
  simp only [bind_assoc]
  rw [bind_map, map_bind]
  congr 1; funext r
  rw [eulerEquation_natural H, bind_map, map_bind]
  congr 1; funext D
  simp only [pure_bind]
  change (if D.shape = S.n then _ else _) = _
  split_ifs
  · simp only [Except.map]
    congr 2
    funext i
    change (if (⟨S.n, u⟩ : Arr V).InB i then _ else _) = _
    split_ifs
    · rfl
    · exact (map_zero π).symm
  · rfl

end FVHOE
