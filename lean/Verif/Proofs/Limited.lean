import Verif.Proofs.Same
import Verif.Proofs.SolverFlux

/-!
Complete evaluation of the right-hand side with limiting, on the lattice.
-/

set_option linter.unusedSectionVars false

namespace FVHOE

variable {K : Type} [Field K] [LinearOrder K] [IsStrictOrderedRing K]
variable {V : Type} [AddCommGroup V] [Module K V]

/-- The array holding `Φ` on the cells widened by `m` layers. -/
def boxArr {α : Type} (n m : Fin 3 → ℕ) (Φ : Ix → α) : Arr α :=
  ⟨fun d => n d + 2 * m d, fun j => Φ fun d => j d - m d⟩

/-- Shape of the flux array of direction `d`. -/
def faceShape (n : Fin 3 → ℕ) (d : Fin 3) : Fin 3 → ℕ := fun e => if e = d then n e + 1 else n e

theorem boxArr_same {n m : Fin 3 → ℕ} {A : Arr V} {Φ : Ix → V}
    (h : MRep A (fun d => n d) (fun d => m d) Φ) : SameArr A (boxArr n m Φ) := by
  refine ⟨?_, fun j hj => ?_⟩
  · funext d
    have := h.1 d
    simp only [boxArr]
    beta_reduce at this
    omega
  · rw [h.2 j hj]
    rfl

theorem blend_eval (theta : Arr K) (F Fl : Arr V) (hs : Fl.shape = F.shape) :
    if broadcastsTo theta.shape F.shape then ∃ C, blend theta F Fl = .ok C
    else blend theta F Fl = .error .valueError := by
  split_ifs with hb
  · have h1 : ∀ d, dimCompat (theta.shape d) (F.shape d) := by
      intro d
      rcases hb d with h | h
      · exact Or.inl h
      · exact Or.inr (Or.inl h)
    have h2 : ∀ d, dimBroadcast (theta.shape d) (F.shape d) = F.shape d := by
      intro d
      unfold dimBroadcast
      split_ifs with h
      · rfl
      · rcases hb d with h' | h'
        · exact h'
        · exact absurd h' h
    unfold blend Arr.zip
    rw [if_pos h1, hs, if_pos h1]
    simp only [bind, Except.bind]
    rw [if_pos (show ∀ d, dimCompat (dimBroadcast (theta.shape d) (F.shape d))
      (dimBroadcast (theta.shape d) (F.shape d)) from fun d => Or.inl rfl)]
    simp only
    unfold Arr.assign
    rw [if_pos]
    · exact ⟨_, rfl⟩
    · intro d
      left
      simp only [h2]
      unfold dimBroadcast
      split_ifs <;> rfl
  · unfold blend Arr.zip
    by_cases h1 : ∀ d, dimCompat (theta.shape d) (F.shape d)
    · rw [if_pos h1, hs, if_pos h1]
      simp only [bind, Except.bind]
      rw [if_pos (show ∀ d, dimCompat (dimBroadcast (theta.shape d) (F.shape d))
        (dimBroadcast (theta.shape d) (F.shape d)) from fun d => Or.inl rfl)]
      simp only
      unfold Arr.assign
      rw [if_neg]
      intro h
      refine hb fun d => ?_
      have h3 := h d
      have h4 := h1 d
      simp only [dimBroadcast] at h3
      unfold dimCompat at h4
      split_ifs at h3 <;> tauto
    · rw [if_neg h1]
      rfl

theorem forDims_error {α : Type} (f : Fin 3 → Except PyErr α) (e : PyErr)
    (h : ∀ d, (∃ a, f d = .ok a) ∨ f d = .error e) (hd : ∃ d, f d = .error e) :
    forDims f = .error e := by
  unfold forDims
  rcases h 0 with ⟨a, h0⟩ | h0 <;> rw [h0]
  · rcases h 1 with ⟨b, h1⟩ | h1 <;> rw [h1]
    · rcases h 2 with ⟨c, h2⟩ | h2 <;> rw [h2]
      · obtain ⟨d, hd⟩ := hd
        match d with
        | 0 => rw [h0] at hd; cases hd
        | 1 => rw [h1] at hd; cases hd
        | 2 => rw [h2] at hd; cases hd
      · rfl
    · rfl
  · rfl

instance (n : Fin 3 → ℕ) (theta : Fin 3 → Arr K) :
    Decidable (∀ d, broadcastsTo (theta d).shape (faceShape n d)) := by infer_instance

/-- What the limited right-hand side computes from the detected troubles: `Fh` and `Fl` are the fluxes
of the scheme and of its fallback. -/
def limitedResult (S : Scheme K V) (L : Limiting K V) (Fh Fl : Fin 3 → Ix → V) (dt : K)
    (tr : Except PyErr (Arr Bool)) : Except PyErr (K × (Ix → V)) := do
  let tr ← tr
  let tr := if L.force then tr.map fun _ => true else tr
  if anyTrue tr then do
    let theta ← L.broadcast tr
    if ∀ d, broadcastsTo (theta d).shape (faceShape S.n d) then
      .ok (dt, fun i => if InCells S.n i then
        latDiv S.active S.h (blendFlux (fun d i => (theta d).get ((theta d).bix i)) Fh Fl) i else 0)
    else .error .valueError
  else .ok (dt, fun i => if InCells S.n i then latDiv S.active S.h Fh i else 0)

theorem limitedResult_same (S : Scheme K V) (L : Limiting K V) (hloc : L.Local)
    (Fh Fl : Fin 3 → Ix → V) (dt : K) {x y : Except PyErr (Arr Bool)} (h : RelE SameArr x y) :
    limitedResult S L Fh Fl dt x = limitedResult S L Fh Fl dt y := by
  refine RelE.eq ?_
  unfold limitedResult
  refine RelE.bind h fun tr tr' htr => ?_
  have hg : SameArr (if L.force = true then tr.map fun _ => true else tr)
      (if L.force = true then tr'.map fun _ => true else tr') := by
    split_ifs
    · exact htr.map _
    · exact htr
  dsimp only
  generalize (if L.force = true then tr.map fun _ => true else tr) = g at hg ⊢
  generalize (if L.force = true then tr'.map fun _ => true else tr') = g' at hg ⊢
  rw [hg.anyTrue]
  split_ifs with ha
  · refine RelE.bind (hloc.broadcast _ _ hg) fun θ θ' hθ => ?_
    have hsh : ∀ d, (θ d).shape = (θ' d).shape := fun d => (hθ d).1
    simp only [hsh]
    split_ifs with hb
    · refine RelE.of_eq ?_
      congr 2
      funext i
      split_ifs with hi
      · refine latDiv_congr S _ _ i hi fun d j _ hj => ?_
        unfold blendFlux
        dsimp only
        rw [(hθ d).bix (n := faceShape S.n d) (by rw [hsh]; exact hb d) (fun e => by
          have := hj e
          unfold faceShape
          by_cases he : e = d
          · subst he
            simp at this ⊢
            omega
          · simpa [he] using this)]
      · rfl
    · exact RelE.of_eq rfl
  · exact RelE.of_eq rfl

/-- The right-hand side with limiting, evaluated completely: the troubles are those detected on the
primitive averages of the state and of the state after an unlimited Euler step. -/
theorem rhs_limited (S : Scheme K V) (L : Limiting K V) (hlim : S.limiting = some L)
    (hloc : L.Local) (hp : ∀ d, S.p d ≤ 8) (hn : ∀ d, 1 ≤ S.n d) (t : K)
    (gl gr gl' gr' gld grd : Fin 3 → Ghost V) (hs : Sides S (fluxWidth S S.p) t gl gr)
    (hs' : Sides S (fluxWidth S (fallbackP S.p)) t gl' gr') (hsd : Sides S (detectWidth S) t gld grd)
    (junk : ℕ → Ix → V) (mem : Fin 3 → Ix → V) (t' : K) (u U : Ix → V)
    (hU : ∀ i, InCells S.n i → u i = U i) :
    ∃ dt, IsDt S S.p (latPrim K S.prim S.p (extAll S.n gl gr U)) dt ∧
      solverRHS S junk mem t t' u = limitedResult S L (schemeFlux S S.p none (extAll S.n gl gr U))
        (schemeFlux S (fallbackP S.p) L.slope (extAll S.n gl' gr' U)) dt
        (L.detect (boxArr S.n (fun d => if S.active d then 3 else 0)
            (latPrim K S.prim S.p (extAll S.n gld grd U)))
          (boxArr S.n (fun d => if S.active d then 3 else 0)
            (latPrim K S.prim S.p (extAll S.n gld grd fun i =>
              U i + dt • latDiv S.active S.h (schemeFlux S S.p none (extAll S.n gl gr U)) i)))) := by
  obtain ⟨dt, F0, e, hdt, hF⟩ := hydrofluxes_spec S S.p hp S.inactive_p hn none (by simp) t gl gr hs
    (junk 0) u U hU (S.mem mem)
  refine ⟨dt, hdt, ?_⟩
  set Φh := schemeFlux S S.p none (extAll S.n gl gr U) with hΦh
  set Φl := schemeFlux S (fallbackP S.p) L.slope (extAll S.n gl' gr' U) with hΦl
  -- the stored fluxes
  have hA : ∀ d, ∃ C, (S.mem mem d).assign (F0 d) = .ok C ∧ C.shape = faceShape S.n d ∧
      (S.active d = true → FaceRep S.n d C (Φh d)) := by
    intro d
    by_cases hd : S.active d = true
    · obtain ⟨C, eC, rC⟩ := assign_rep (mem d) ((hF d).1 hd)
      exact ⟨C, eC, rC.shape, fun _ => rC⟩
    · rw [(hF d).2 (by simpa using hd)]
      unfold Arr.assign
      rw [if_pos (show broadcastsTo (S.mem mem d).shape (S.mem mem d).shape from fun _ => Or.inl rfl)]
      exact ⟨_, rfl, rfl, fun h => absurd h hd⟩
  choose F hFa hFs hFr using hA
  have eF : forDims (fun d => (S.mem mem d).assign (F0 d)) = .ok F := forDims_ok _ _ hFa
  obtain ⟨D1, eD1, rD1⟩ := eulerEquation_spec S F Φh hFr
  have ru : Rep (⟨S.n, u⟩ : Arr V) 0 (fun d => (S.n d : ℤ)) u :=
    ⟨fun d => by simp, fun j _ => by rw [add_zero]⟩
  obtain ⟨us, eus, rus⟩ := rep_zip ru rD1 (fun x y => x + dt • y)
  have hus : us.shape = S.n := by
    funext d
    have := rus.1 d
    simp at this
    exact this
  obtain ⟨w, ew, rw'⟩ := primitives_spec S S.p (fun d => if S.active d then 3 else 0) hp t gld grd
    hsd (junk 1) u U hU
  obtain ⟨ws, ews, rws⟩ := primitives_spec S S.p (fun d => if S.active d then 3 else 0) hp t gld grd
    hsd (junk 2) us.get
    (fun i => U i + dt • latDiv S.active S.h Φh i) (by
      intro i hi
      have := rus.get_at i (fun d => by simpa using hi d)
      rw [sub_zero] at this
      rw [this, hU i hi])
  have hq : (⟨S.n, us.get⟩ : Arr V) = us := by rw [← hus]
  rw [hq] at ews
  rw [← limitedResult_same S L hloc _ _ _
    (hloc.detect _ _ _ _ (boxArr_same rw') (boxArr_same rws))]
  -- the right-hand side in terms of the limiting stage
  have start : solverRHS S junk mem t t' u =
      (reviseFluxes S L t junk ⟨S.n, u⟩ F dt >>= fun F' => eulerEquation S F' >>= fun D =>
        if D.shape = S.n then
          .ok (dt, fun i => if (⟨S.n, u⟩ : Arr V).InB i then D.get i else 0)
        else .error .valueError) := by
    unfold solverRHS hydrodynamics solverFluxes
    simp only [bind_assoc]
    rw [e]
    simp only [bind, Except.bind, pure, Except.pure, eF, limitFluxes, hlim]
  have finish : ∀ (F' : Fin 3 → Arr V) (Φ : Fin 3 → Ix → V),
      (∀ d, S.active d = true → FaceRep S.n d (F' d) (Φ d)) →
      (eulerEquation S F' >>= fun D => if D.shape = S.n then
          .ok (dt, fun i => if (⟨S.n, u⟩ : Arr V).InB i then D.get i else 0)
        else .error .valueError) =
      (.ok (dt, fun i => if InCells S.n i then latDiv S.active S.h Φ i else 0) :
        Except PyErr (K × (Ix → V))) := by
    intro F' Φ h
    obtain ⟨D, eD, rD⟩ := eulerEquation_spec S F' Φ h
    rw [eD]
    have hD : D.shape = S.n := by
      funext d
      have := rD.1 d
      simp at this
      exact this
    simp only [bind, Except.bind, hD, if_true]
    congr 2
    funext i
    by_cases hi : InCells S.n i
    · rw [if_pos hi, if_pos (show (⟨S.n, u⟩ : Arr V).InB i from hi)]
      have := rD.get_at i (fun d => by simpa using hi d)
      rwa [sub_zero] at this
    · rw [if_neg hi, if_neg (show ¬ (⟨S.n, u⟩ : Arr V).InB i from hi)]
  rw [start]
  unfold reviseFluxes limitedResult
  rw [eD1]
  simp only [bind, Except.bind] at eus ⊢
  rw [eus]
  dsimp only
  rw [ew]
  dsimp only
  rw [ews]
  dsimp only
  cases L.detect _ _ with
  | error e => rfl
  | ok tr =>
    dsimp only
    generalize (if L.force = true then tr.map fun _ => true else tr) = g
    by_cases hg : anyTrue g = true
    · rw [if_pos hg, if_pos hg]
      have hin' : ∀ d, S.active d = false → fallbackP S.p d = 0 := by
        intro d hd
        unfold fallbackP
        rw [S.inactive_p d hd]
        rfl
      obtain ⟨dt1, F1, e', _, hF1⟩ := hydrofluxes_spec S (fallbackP S.p)
        (fun d => (fallbackP_le S.p d).trans (by norm_num)) hin' hn L.slope
        (fun _ d => fallbackP_le S.p d) t gl' gr' hs' (junk 3) u U hU F
      rw [e']
      dsimp only
      cases L.broadcast g with
      | error e => rfl
      | ok theta =>
        dsimp only
        have hsh : ∀ d, (F1 d).shape = (F d).shape := by
          intro d
          by_cases hd : S.active d = true
          · rw [((hF1 d).1 hd).shape, hFs d]; rfl
          · rw [(hF1 d).2 (by simpa using hd)]
        have hev := fun d => blend_eval (theta d) (F d) (F1 d) (hsh d)
        simp only [hFs] at hev
        by_cases hb : ∀ d, broadcastsTo (theta d).shape (faceShape S.n d)
        · rw [if_pos hb]
          have : ∀ d, ∃ C, blend (theta d) (F d) (F1 d) = .ok C := by
            intro d
            have := hev d
            rwa [if_pos (hb d)] at this
          choose C hC using this
          rw [forDims_ok _ _ hC]
          refine finish C _ fun d hd => ?_
          have r1 := hFr d hd
          have r2 := (hF1 d).1 hd
          obtain ⟨h1, h2⟩ := blend_ok (hsh d) (hC d)
          refine ⟨fun e => by rw [h1]; exact r1.1 e, fun j hj => ?_⟩
          have hjF : (F d).InB j := by
            intro e
            rw [← h1]
            exact hj e
          rw [h2 j hjF, r1.2 j hjF, r2.2 j (by intro e; rw [hsh]; exact hjF e), add_zero]
          rfl
        · rw [if_neg hb]
          rw [forDims_error _ .valueError]
          · intro d
            have := hev d
            split_ifs at this
            · exact Or.inl this
            · exact Or.inr this
          · by_contra hne
            push_neg at hne
            refine hb fun d => ?_
            by_contra hd
            have := hev d
            rw [if_neg hd] at this
            exact hne d this
    · rw [if_neg hg, if_neg hg]
      exact finish F _ hFr

end FVHOE

