import Mathlib.Algebra.BigOperators.Fin
import Mathlib.Tactic.Abel
import Verif.Proofs.Solver

/-! Refinement of the right-hand side to the lattice: fluxes, time step, divergence. -/

set_option linter.unusedSectionVars false

namespace FVHOE

variable {K : Type} [Field K] [LinearOrder K] [IsStrictOrderedRing K] {V : Type} [AddCommGroup V] [Module K V]

/-- `A` holds `Φ` on the faces of direction `d`. -/
def FaceRep (n : Fin 3 → ℕ) (d : Fin 3) (A : Arr V) (Φ : Ix → V) : Prop :=
  Rep A 0 (fun e => n e + (Pi.single d 1 : Ix) e) Φ

theorem cov3 : ∀ d a b : Fin 3, a ≠ b → a ≠ d → b ≠ d → ∀ e, e = d ∨ e = a ∨ e = b := by decide

theorem ceilHalf_mono {a b : ℕ} (h : a ≤ b) : ceilHalf a ≤ ceilHalf b := by
  unfold ceilHalf; omega

theorem fluxGw_bound (p : Fin 3 → ℕ) (d : Fin 3) :
    ceilHalf (p d) + 1 ≤ fluxGw p ∧ 2 * ceilHalf (p d) ≤ fluxGw p := by
  have h : p d ≤ max (max (p 0) (p 1)) (p 2) := by
    match d with
    | 0 => omega
    | 1 => omega
    | 2 => omega
  have := ceilHalf_mono h
  unfold fluxGw
  simp only
  omega

/-- The margins of the primitive averages entering the flux computation. -/
def gwMargin (S : Scheme K V) (p : Fin 3 → ℕ) : Ix := fun d => if S.active d then (fluxGw p : ℤ) else 0

theorem fluxDir_spec (S : Scheme K V) (p : Fin 3 → ℕ) (hp : ∀ d, p d ≤ 8)
    (hin : ∀ d, S.active d = false → p d = 0) (slope : Option (V → V → V)) (w : Arr V) (W : Ix → V)
    (hw : MRep w (fun d => S.n d) (gwMargin S p) W) (d : Fin 3) (hd : S.active d = true) :
    ∃ F, fluxDir S p slope w d = .ok F ∧ FaceRep S.n d F (latFlux K (S.riem d) p slope d W) := by
  have hb := fluxGw_bound p
  have hm : ∀ e, 2 * (ceilHalf (p e) : ℤ) ≤ gwMargin S p e := by
    intro e
    unfold gwMargin
    split
    · have := (hb e).2; omega
    · rename_i h
      rw [hin e (by simpa using h)]
      simp [ceilHalf]
  have hmd : (ceilHalf (p d) : ℤ) + 1 ≤ gwMargin S p d := by
    unfold gwMargin
    rw [if_pos hd]
    have := (hb d).1
    omega
  have hx : ∀ e, excess S p d e = gwMargin S p e - ceilHalf (p e) - (if e = d then 1 else (ceilHalf (p e) : ℤ)) := by
    intro e
    unfold excess gwMargin
    by_cases he : S.active e = true
    · simp only [he, if_true]
      split <;> ring
    · have he' : S.active e = false := by simpa using he
      have hne : e ≠ d := by rintro rfl; exact he hd
      simp [he', hne, hin e he', ceilHalf]
  generalize gwMargin S p = m at *
  have o : ∃ o1 o2 q1 q2, centerOrder d = (o1, o2) ∧ transverseOrder d = (q1, q2) ∧ o1 ≠ o2 ∧ o1 ≠ d ∧
      o2 ≠ d ∧ q1 ≠ q2 ∧ q1 ≠ d ∧ q2 ≠ d := by
    match d with
    | 0 => exact ⟨_, _, _, _, rfl, rfl, by decide⟩
    | 1 => exact ⟨_, _, _, _, rfl, rfl, by decide⟩
    | 2 => exact ⟨_, _, _, _, rfl, rfl, by decide⟩
  obtain ⟨o1, o2, q1, q2, eo, eq, h12, h1d, h2d, k12, k1d, k2d⟩ := o
  have hm1 := hm o1
  have hm2 := hm o2
  have hm3 := hm q1
  have hm4 := hm q2
  obtain ⟨a, ea, ra⟩ := mrep_ci (K := K) hw (p o1) (hp o1) o1 "c" (by simp) (by omega)
  obtain ⟨b, eb, rb⟩ := mrep_ci (K := K) ra (p o2) (hp o2) o2 "c" (by simp)
    (by simp [h12.symm]; omega)
  obtain ⟨l, r, ef, rl, rr⟩ := mrep_faces (K := K) rb (p d) (hp d) d slope
    (by simp [h1d.symm, h2d.symm]; omega)
  have hcov : ∀ e, e = d ∨ e = o1 ∨ e = o2 := cov3 d o1 o2 h12 h1d h2d
  have hcov' : ∀ e, e = d ∨ e = q1 ∨ e = q2 := cov3 d q1 q2 k12 k1d k2d
  have em : (m - Pi.single o1 (ceilHalf (p o1) : ℤ) - Pi.single o2 (ceilHalf (p o2) : ℤ)
      - Pi.single d (ceilHalf (p d) : ℤ)) = fun e => m e - ceilHalf (p e) := by
    funext e
    rcases hcov e with rfl | rfl | rfl
    · simp [h1d.symm, h2d.symm]
    · simp [h12, h1d]
    · simp [h12.symm, h2d]
  rw [em] at rl rr
  have cr := (rep_cut rr d 0 1 le_rfl (by norm_num) (by beta_reduce; omega)).shift (Pi.single d 1)
  have cl := rep_cut rl d 1 0 (by norm_num) le_rfl (by beta_reduce; omega)
  have cr' : MRep (r.cut d 0 (-1)) (fun e => S.n e + (Pi.single d 1 : Ix) e)
      (fun e => m e - ceilHalf (p e) - (Pi.single d 1 : Ix) e) _ :=
    Rep.congr cr (by funext e; simp only [Pi.add_apply, Pi.single_zero, Pi.zero_apply]; ring)
      (by funext e; simp only [Pi.add_apply, Pi.sub_apply]; ring) (fun _ _ => rfl)
  have cl' : MRep (l.cut d 1 0) (fun e => S.n e + (Pi.single d 1 : Ix) e)
      (fun e => m e - ceilHalf (p e) - (Pi.single d 1 : Ix) e) _ :=
    Rep.congr cl (by funext e; simp only [Pi.add_apply]; ring)
      (by funext e; simp only [Pi.sub_apply, Pi.single_zero, Pi.zero_apply]; ring)
      (fun _ _ => rfl)
  obtain ⟨f, efl, rf⟩ := rep_zip cr' cl' (S.riem d)
  obtain ⟨t1, et1, rt1⟩ := mrep_tr (K := K) rf (p q1) (hp q1) q1 (by simp [k1d]; omega)
  obtain ⟨t2, et2, rt2⟩ := mrep_tr (K := K) rt1 (p q2) (hp q2) q2 (by simp [k2d, k12.symm]; omega)
  have em2 : ((fun e => m e - ceilHalf (p e) - (Pi.single d 1 : Ix) e)
      - Pi.single q1 (ceilHalf (p q1) : ℤ) - Pi.single q2 (ceilHalf (p q2) : ℤ) : Ix) =
      fun e => excess S p d e := by
    funext e
    rw [hx e]
    rcases hcov' e with rfl | rfl | rfl
    · simp [k1d.symm, k2d.symm]
    · simp [k12, k1d]
    · simp [k12.symm, k2d]
  rw [em2] at rt2
  have hx0 : ∀ e, 0 ≤ excess S p d e := by
    intro e
    rw [hx e]
    have := hm e
    split
    · rename_i h; subst h; omega
    · omega
  have hn : ∀ e, (0 : ℤ) ≤ (S.n e : ℤ) + (Pi.single d 1 : Ix) e := by
    intro e
    by_cases h : e = d
    · subst h; simp; omega
    · simp [h]
  have c0 := mrep_cut rt2 0 (excess S p d 0) (hx0 0) (by have := hn 0; omega)
  have c1 := mrep_cut c0 1 (excess S p d 1) (hx0 1) (by have := hn 1; simp at this ⊢; omega)
  have c2 := mrep_cut c1 2 (excess S p d 2) (hx0 2) (by have := hn 2; simp at this ⊢; omega)
  refine ⟨_, ?_, Rep.congr c2 ?_ ?_ (fun _ _ => ?_)⟩
  · unfold fluxDir
    rw [eo, eq]
    simp only [ea]
    change (conservativeInterpolation K a (p o2) o2 "c" >>= _) = _
    rw [eb]
    change (faceValues (K := K) b (p d) d slope >>= _) = _
    rw [ef]
    change ((r.cut d 0 (-1)).zip (S.riem d) (l.cut d 1 0) >>= _) = _
    rw [efl]
    change (transverseReconstruction K f (p q1) q1 >>= _) = _
    rw [et1]
    change (transverseReconstruction K t1 (p q2) q2 >>= _) = _
    rw [et2]
    rfl
  · funext e
    match e with
    | 0 => simp
    | 1 => simp
    | 2 => simp
  · funext e
    match e with
    | 0 => simp
    | 1 => simp
    | 2 => simp
  · unfold latFlux latMid latLine
    rw [eo, eq]
    rfl

theorem timeStep_spec (S : Scheme K V) (p : Fin 3 → ℕ) (hn : ∀ d, 1 ≤ S.n d) (w : Arr V) (W : Ix → V)
    (hw : MRep w (fun d => S.n d) (gwMargin S p) W) :
    ∃ dt, timeStep S w = .ok dt ∧ IsDt S p W dt := by
  unfold timeStep IsDt
  cases hf : S.fixedDt with
  | some x => exact ⟨x, rfl, rfl⟩
  | none =>
    have hg : ∀ d, 0 ≤ gwMargin S p d := by
      intro d; unfold gwMargin; split <;> omega
    have hbox : ∀ j, w.InB j ↔ InDtBox S p (j + fun d => -(gwMargin S p d)) := by
      intro j
      refine forall_congr' fun d => ?_
      have h1 := hw.1 d
      simp only [Pi.add_apply, gwMargin] at *
      constructor <;> intro h <;> constructor <;> omega
    have hne : (indexList w.shape).map (fun j => S.speed S.ndim (w.get j)) ≠ [] := by
      intro h
      rw [List.map_eq_nil_iff] at h
      have : (0 : Ix) ∈ indexList w.shape := by
        rw [mem_indexList]
        intro d
        have h1 := hw.1 d
        have h2 := hn d
        have h3 := hg d
        beta_reduce at h1
        simp only [Pi.zero_apply]
        constructor <;> omega
      rw [h] at this
      cases this
    obtain ⟨m, e, hm, hle⟩ := npMax_spec _ hne
    refine ⟨S.cfl * min (min (S.h 0) (S.h 1)) (S.h 2) / m, ?_, m, ?_, ?_, rfl⟩
    · simp only [cflDt, e]
      rfl
    · obtain ⟨j, hj, hjm⟩ := List.mem_map.1 hm
      have hj' : w.InB j := (mem_indexList _ _).1 hj
      exact ⟨_, (hbox j).1 hj', by rw [← hw.2 j hj', hjm]⟩
    · intro i hi
      have hj' : w.InB (i - fun d => -(gwMargin S p d)) := by
        rw [hbox]; rwa [sub_add_cancel]
      refine hle _ (List.mem_map.2 ⟨i - fun d => -(gwMargin S p d), (mem_indexList _ _).2 hj', ?_⟩)
      rw [hw.2 _ hj', sub_add_cancel]

theorem forDims_ok {α : Type} (f : Fin 3 → Except PyErr α) (g : Fin 3 → α) (h : ∀ d, f d = .ok (g d)) :
    forDims f = .ok g := by
  unfold forDims
  rw [h 0, h 1, h 2]
  change Except.ok _ = _
  congr 1
  funext d
  match d with
  | 0 => rfl
  | 1 => rfl
  | 2 => rfl

theorem forDims_inv {α : Type} (f : Fin 3 → Except PyErr α) (g : Fin 3 → α) (h : forDims f = .ok g) :
    ∀ d, f d = .ok (g d) := by
  unfold forDims at h
  obtain ⟨a, ha, h⟩ := bind_ok h
  obtain ⟨b, hb, h⟩ := bind_ok h
  obtain ⟨c, hc, h⟩ := bind_ok h
  cases h
  intro d
  match d with
  | 0 => exact ha
  | 1 => exact hb
  | 2 => exact hc

/-- Ghost widths requested by the flux computation with degrees `p`. -/
def fluxWidth (S : Scheme K V) (p : Fin 3 → ℕ) : Fin 3 → ℕ := fun d =>
  (if S.active d then fluxGw p else 0) + 2 * ceilHalf (p d)

/-- The sides of the boundary condition continue the state by the ghosts `gl`, `gr`. -/
def Sides (S : Scheme K V) (gw : Fin 3 → ℕ) (t : K) (gl gr : Fin 3 → Ghost V) : Prop :=
  ∀ d, SideSpec S.bc S.negate S.n gw t d .l (gl d) ∧ SideSpec S.bc S.negate S.n gw t d .r (gr d)

theorem primitives_spec (S : Scheme K V) (p gw : Fin 3 → ℕ) (hp : ∀ d, p d ≤ 8) (t : K)
    (gl gr : Fin 3 → Ghost V) (hs : Sides S (fun d => gw d + 2 * ceilHalf (p d)) t gl gr)
    (junk u U : Ix → V) (hU : ∀ i, InCells S.n i → u i = U i) :
    ∃ w, primitivesFromConservatives S t junk p gw ⟨S.n, u⟩ = .ok w ∧
      MRep w (fun d => S.n d) (fun d => gw d) (latPrim K S.prim p (extAll S.n gl gr U)) := by
  obtain ⟨A, eA, rA⟩ := apply_spec S.bc S.negate S.n _ t gl gr (fun d => (hs d).1)
    (fun d => (hs d).2) u junk
  have rA' : MRep A (fun d => S.n d) (fun d => (gw d : ℤ) + 2 * ceilHalf (p d)) (extAll S.n gl gr U) := by
    refine Rep.congr rA ?_ ?_ (fun i hi => extAll_congr S.bc S.negate S.n _ t gl gr
      (fun d => (hs d).1) (fun d => (hs d).2) u U hU i hi)
    · funext d; simp only [padLo]; push_cast; ring
    · funext d; simp only [padHi]; push_cast; ring
  obtain ⟨uc, w, e1, e2, rw'⟩ := mrep_prim (K := K) rA' S.prim p hp (by intro d; beta_reduce; omega)
  refine ⟨w, ?_, MRep.congr rw' rfl (by funext d; ring) (fun _ _ => rfl)⟩
  unfold primitivesFromConservatives
  rw [eA]
  change (interpolateCellCenters K A p >>= _) = _
  rw [e1]
  exact e2

/-- The lattice fluxes of a scheme. -/
def schemeFlux (S : Scheme K V) (p : Fin 3 → ℕ) (slope : Option (V → V → V)) (U : Ix → V) (d : Fin 3) :
    Ix → V := latFlux K (S.riem d) p slope d (latPrim K S.prim p U)

theorem hydrofluxes_spec (S : Scheme K V) (p : Fin 3 → ℕ) (hp : ∀ d, p d ≤ 8)
    (hin : ∀ d, S.active d = false → p d = 0) (hn : ∀ d, 1 ≤ S.n d) (slope : Option (V → V → V))
    (hsl : slope.isSome = true → ∀ d, p d ≤ 1) (t : K) (gl gr : Fin 3 → Ghost V)
    (hs : Sides S (fluxWidth S p) t gl gr) (junk u U : Ix → V) (hU : ∀ i, InCells S.n i → u i = U i)
    (mem : Fin 3 → Arr V) :
    ∃ dt F, hydrofluxes S t junk mem p slope ⟨S.n, u⟩ = .ok (dt, F) ∧
      IsDt S p (latPrim K S.prim p (extAll S.n gl gr U)) dt ∧
      ∀ d, (S.active d = true → FaceRep S.n d (F d) (schemeFlux S p slope (extAll S.n gl gr U) d)) ∧
        (S.active d = false → F d = mem d) := by
  obtain ⟨w, ew, rw'⟩ := primitives_spec S p (fun d => if S.active d then fluxGw p else 0) hp t gl gr hs
    junk u U hU
  have rw'' : MRep w (fun d => S.n d) (gwMargin S p) _ :=
    MRep.congr rw' rfl (by funext d; simp only [gwMargin]; split <;> rfl) (fun _ _ => rfl)
  obtain ⟨dt, edt, hdt⟩ := timeStep_spec S p hn w _ rw''
  have hF : ∀ d, ∃ F, fluxOrMem S p slope w mem d = .ok F ∧
      ((S.active d = true → FaceRep S.n d F (schemeFlux S p slope (extAll S.n gl gr U) d)) ∧
        (S.active d = false → F = mem d)) := by
    intro d
    unfold fluxOrMem
    by_cases h : S.active d = true
    · obtain ⟨F, e, r⟩ := fluxDir_spec S p hp hin slope w _ rw'' d h
      exact ⟨F, by rw [if_pos h]; exact e, fun _ => r, fun h' => by rw [h] at h'; cases h'⟩
    · exact ⟨mem d, by rw [if_neg h], fun h' => absurd h' h, fun _ => rfl⟩
  choose F hF1 hF2 using hF
  refine ⟨dt, F, ?_, hdt, hF2⟩
  unfold hydrofluxes
  rw [if_neg]
  · simp only [ew]
    change (timeStep S w >>= _) = _
    rw [edt]
    change (forDims _ >>= _) = _
    rw [forDims_ok _ F hF1]
    rfl
  · rintro ⟨h1, h2⟩
    have := hsl h1
    have h3 := this 0
    have h4 := this 1
    have h5 := this 2
    omega

/-! ## Divergence -/

/-- The accumulated derivative holds `Ψ` on the cells. -/
def AccRep (n : Fin 3 → ℕ) (acc : Option (Arr V)) (Ψ : Ix → V) : Prop :=
  match acc with
  | none => Ψ = 0
  | some A => Rep A 0 (fun d => n d) Ψ

theorem accRep_some (n : Fin 3 → ℕ) (A : Arr V) (Ψ : Ix → V) :
    AccRep n (some A) Ψ ↔ Rep A 0 (fun d => (n d : ℤ)) Ψ := Iff.rfl

theorem addTerm_spec (S : Scheme K V) (F : Fin 3 → Arr V) (Φ : Fin 3 → Ix → V) (d : Fin 3)
    (hF : S.active d = true → FaceRep S.n d (F d) (Φ d)) (acc : Option (Arr V)) (Ψ : Ix → V)
    (ha : AccRep S.n acc Ψ) :
    ∃ acc', addTerm S F acc d = .ok acc' ∧ AccRep S.n acc' (fun i => Ψ i +
      if S.active d then (-(1 / S.h d)) • (Φ d (i + Pi.single d 1) - Φ d i) else 0) := by
  unfold addTerm
  by_cases h : S.active d = true
  · have r := hF h
    have c1 := (rep_cut r d 1 0 (by norm_num) le_rfl (by simp)).shift (-Pi.single d 1)
    have c0 := rep_cut r d 0 1 le_rfl (by norm_num) (by simp)
    have c1' : Rep ((F d).cut d 1 0) 0 (fun d => (S.n d : ℤ)) (fun i => Φ d (i + Pi.single d 1)) :=
      Rep.congr c1 (by funext e; simp) (by funext e; simp) (fun i _ => by simp)
    have c0' : Rep ((F d).cut d 0 (-1)) 0 (fun d => (S.n d : ℤ)) (Φ d) :=
      Rep.congr c0 (by funext e; simp) (by funext e; simp) (fun i _ => rfl)
    obtain ⟨D, eD, rD⟩ := rep_zip c1' c0' (fun a b : V => (-(1 / S.h d)) • (a - b))
    simp only [h, if_true, eD]
    change ∃ acc', accumulate acc D = _ ∧ _
    cases acc with
    | none =>
      refine ⟨some D, rfl, ?_⟩
      rw [accRep_some]
      refine Rep.congr rD rfl rfl (fun i _ => ?_)
      rw [show Ψ = 0 from ha]
      simp
    | some A =>
      obtain ⟨C, eC, rC⟩ := rep_addInPlace ((accRep_some _ _ _).1 ha) rD
      refine ⟨some C, ?_, (accRep_some _ _ _).2 rC⟩
      simp only [accumulate, eC]
      rfl
  · refine ⟨acc, by rw [if_neg h], ?_⟩
    simp only [h]
    simpa using ha

theorem eulerEquation_spec (S : Scheme K V) (F : Fin 3 → Arr V) (Φ : Fin 3 → Ix → V)
    (hF : ∀ d, S.active d = true → FaceRep S.n d (F d) (Φ d)) :
    ∃ D, eulerEquation S F = .ok D ∧ Rep D 0 (fun d => S.n d) (latDiv S.active S.h Φ) := by
  obtain ⟨a0, e0, r0⟩ := addTerm_spec S F Φ 0 (hF 0) none 0 rfl
  obtain ⟨a1, e1, r1⟩ := addTerm_spec S F Φ 1 (hF 1) a0 _ r0
  obtain ⟨a2, e2, r2⟩ := addTerm_spec S F Φ 2 (hF 2) a1 _ r1
  have e : ([0, 1, 2] : List (Fin 3)).foldlM (addTerm S F) none = .ok a2 := by
    rw [List.foldlM_cons, e0]
    change ([1, 2] : List (Fin 3)).foldlM (addTerm S F) a0 = _
    rw [List.foldlM_cons, e1]
    change ([2] : List (Fin 3)).foldlM (addTerm S F) a1 = _
    rw [List.foldlM_cons, e2]
    rfl
  refine ⟨a2.getD ⟨S.n, fun _ => 0⟩, ?_, ?_⟩
  · unfold eulerEquation
    rw [e]
    rfl
  · have hsum : ∀ i, latDiv S.active S.h Φ i = (0 : Ix → V) i +
      (if S.active 0 then (-(1 / S.h 0)) • (Φ 0 (i + Pi.single 0 1) - Φ 0 i) else 0) +
      (if S.active 1 then (-(1 / S.h 1)) • (Φ 1 (i + Pi.single 1 1) - Φ 1 i) else 0) +
      (if S.active 2 then (-(1 / S.h 2)) • (Φ 2 (i + Pi.single 2 1) - Φ 2 i) else 0) := by
      intro i
      unfold latDiv
      rw [Fin.sum_univ_three]
      simp
    cases a2 with
    | none =>
      refine ⟨fun d => by simp, fun j _ => ?_⟩
      have : _ = (0 : Ix → V) := r2
      rw [hsum]
      simpa using (congrFun this j).symm
    | some A =>
      change Rep A 0 _ _
      exact Rep.congr ((accRep_some _ _ _).1 r2) rfl rfl (fun i _ => (hsum i).symm)

/-! ## The right-hand side -/

/-- The fluxes whose divergence the right-hand side is: those of the scheme, blended with those of
the fallback scheme by weights `θ`. -/
def blendFlux (θ : Fin 3 → Ix → K) (F Fl : Fin 3 → Ix → V) : Fin 3 → Ix → V := fun d i =>
  (1 - θ d i) • F d i + θ d i • Fl d i

theorem faceRep_self (n : Fin 3 → ℕ) (d : Fin 3) (A : Arr V)
    (h : A.shape = fun e => if e = d then n e + 1 else n e) : FaceRep n d A A.get := by
  refine ⟨fun e => ?_, fun j _ => by rw [add_zero]⟩
  rw [h]
  by_cases he : e = d
  · subst he; simp
  · simp [he]

theorem FaceRep.shape {n : Fin 3 → ℕ} {d : Fin 3} {A : Arr V} {Φ : Ix → V} (h : FaceRep n d A Φ) :
    A.shape = fun e => if e = d then n e + 1 else n e := by
  funext e
  have := h.1 e
  by_cases he : e = d
  · subst he
    simp at this ⊢
    omega
  · simp [he] at this ⊢
    omega

theorem assign_ok {α : Type} {A B C : Arr α} (h : A.assign B = .ok C) : C.shape = A.shape := by
  unfold Arr.assign at h
  split at h
  · cases h; rfl
  · cases h

theorem assign_rep {n : Fin 3 → ℕ} {d : Fin 3} (m : Ix → V) {B : Arr V} {Φ : Ix → V}
    (hB : FaceRep n d B Φ) :
    ∃ C, (⟨fun e => if e = d then n e + 1 else n e, m⟩ : Arr V).assign B = .ok C ∧ FaceRep n d C Φ :=
  rep_assign (faceRep_self n d ⟨_, m⟩ rfl).1 hB

theorem zip_ok {α β γ : Type} {A : Arr α} {B : Arr β} {C : Arr γ} {f : α → β → γ}
    (h : A.zip f B = .ok C) : (∀ d, dimCompat (A.shape d) (B.shape d)) ∧
      C = ⟨fun d => dimBroadcast (A.shape d) (B.shape d),
        fun j => f (A.get (A.bix j)) (B.get (B.bix j))⟩ := by
  unfold Arr.zip at h
  split at h
  · rename_i h'
    cases h
    exact ⟨h', rfl⟩
  · cases h

theorem bix_bix {α β : Type} {A : Arr α} {B : Arr β} (j : Ix)
    (h : ∀ d, B.shape d = 1 → A.shape d = 1) : A.bix (B.bix j) = A.bix j := by
  funext d
  unfold Arr.bix
  by_cases ha : A.shape d = 1
  · simp [ha]
  · have hb : B.shape d ≠ 1 := fun hb => ha (h d hb)
    simp [ha, hb]

/-- A successful blend keeps the shape; its entries are convex combinations with the entries of the
(possibly broadcast) weights. -/
theorem blend_ok {theta : Arr K} {F Fl C : Arr V} (hs : Fl.shape = F.shape)
    (h : blend theta F Fl = .ok C) : C.shape = F.shape ∧
      ∀ j, F.InB j → C.get j =
        (1 - theta.get (theta.bix j)) • F.get j + theta.get (theta.bix j) • Fl.get j := by
  unfold blend at h
  obtain ⟨a, ha, h⟩ := bind_ok h
  obtain ⟨b, hb, h⟩ := bind_ok h
  obtain ⟨c, hc, h⟩ := bind_ok h
  obtain ⟨ca, rfl⟩ := zip_ok ha
  obtain ⟨cb, rfl⟩ := zip_ok hb
  obtain ⟨cc, rfl⟩ := zip_ok hc
  unfold Arr.assign at h
  split at h
  · rename_i hbr
    cases h
    refine ⟨rfl, fun j hj => ?_⟩
    have key : ∀ d, theta.shape d = F.shape d ∨ theta.shape d = 1 := by
      intro d
      have h1 := hbr d
      have h2 := ca d
      simp only [hs, dimBroadcast] at h1
      unfold dimCompat at h2
      by_cases h3 : theta.shape d = 1
      · exact Or.inr h3
      · simp only [if_neg h3, ite_self] at h1
        rcases h1 with h1 | h1
        · exact Or.inl h1
        · exact absurd h1 h3
    have hF : F.bix j = j := bix_eq F j hj
    have hj' : Fl.InB j := by
      intro d
      rw [hs]
      exact hj d
    have hFl : Fl.bix j = j := bix_eq Fl j hj'
    have hsh : ∀ d, dimBroadcast (theta.shape d) (F.shape d) = F.shape d := by
      intro d
      unfold dimBroadcast
      rcases key d with h | h
      · rw [h, ite_self]
      · rw [if_pos h]
    have hX : ∀ (X : Arr V), X.shape = F.shape → X.bix j = j := by
      intro X hX
      apply bix_eq
      intro d
      rw [hX]
      exact hj d
    simp only
    rw [hX _ (by funext d; simp only [hs, hsh]; unfold dimBroadcast; simp)]
    rw [hX _ (by funext d; simp only [hsh]), hF, hX _ (by funext d; simp only [hs, hsh]), hFl]
  · cases h

theorem hydrofluxes_mem {S : Scheme K V} {t : K} {junk : Ix → V} {mem : Fin 3 → Arr V}
    {p : Fin 3 → ℕ} {slope : Option (V → V → V)} {u : Arr V} {r : K × (Fin 3 → Arr V)}
    (h : hydrofluxes S t junk mem p slope u = .ok r) (d : Fin 3) (hd : S.active d = false) :
    r.2 d = mem d := by
  unfold hydrofluxes at h
  split at h
  · cases h
  · obtain ⟨w, hw, h⟩ := bind_ok h
    obtain ⟨dt, hdt, h⟩ := bind_ok h
    obtain ⟨F, hF, h⟩ := bind_ok h
    cases h
    have := forDims_inv _ _ hF d
    unfold fluxOrMem at this
    rw [hd] at this
    simpa using this.symm

/-- The stages of a successful revision of the fluxes. -/
theorem reviseFluxes_ok {S : Scheme K V} {L : Limiting K V} {t : K} {junk : ℕ → Ix → V} {u : Arr V}
    {F F' : Fin 3 → Arr V} {dt : K} (h : reviseFluxes S L t junk u F dt = .ok F') :
    ∃ dudt ustar w wstar tr, eulerEquation S F = .ok dudt ∧
      u.zip (fun x y => x + dt • y) dudt = .ok ustar ∧
      primitivesFromConservatives S t (junk 1) S.p (fun d => if S.active d then 3 else 0) u = .ok w ∧
      primitivesFromConservatives S t (junk 2) S.p (fun d => if S.active d then 3 else 0) ustar =
        .ok wstar ∧
      L.detect w wstar = .ok tr ∧
      ((anyTrue (if L.force then tr.map fun _ => true else tr) = false ∧ F' = F) ∨
        (anyTrue (if L.force then tr.map fun _ => true else tr) = true ∧ ∃ r theta,
          hydrofluxes S t (junk 3) F (fallbackP S.p) L.slope u = .ok r ∧
          L.broadcast (if L.force then tr.map fun _ => true else tr) = .ok theta ∧
          ∀ d, blend (theta d) (F d) (r.2 d) = .ok (F' d))) := by
  unfold reviseFluxes at h
  obtain ⟨dudt, h1, h⟩ := bind_ok h
  obtain ⟨ustar, h2, h⟩ := bind_ok h
  obtain ⟨w, h3, h⟩ := bind_ok h
  obtain ⟨wstar, h4, h⟩ := bind_ok h
  obtain ⟨tr, h5, h⟩ := bind_ok h
  refine ⟨dudt, ustar, w, wstar, tr, h1, h2, h3, h4, h5, ?_⟩
  generalize hg : (if L.force = true then Arr.map (fun _ => true) tr else tr) = g at *
  have h' : (if anyTrue g = true then do
      let r ← hydrofluxes S t (junk 3) F (fallbackP S.p) L.slope u
      let theta ← L.broadcast g
      forDims fun d => blend (theta d) (F d) (r.2 d)
    else Except.ok F) = Except.ok F' := h
  by_cases ha : anyTrue g = true
  · rw [if_pos ha] at h'
    obtain ⟨r, h6, h'⟩ := bind_ok h'
    obtain ⟨theta, h7, h'⟩ := bind_ok h'
    exact Or.inr ⟨ha, r, theta, h6, h7, forDims_inv _ _ h'⟩
  · rw [if_neg ha] at h'
    cases h'
    exact Or.inl ⟨by simpa using ha, rfl⟩

/-- A successful flux computation leaves flux arrays of the declared shapes. -/
theorem solverFluxes_shape {S : Scheme K V} {t : K} {junk : ℕ → Ix → V} {mem : Fin 3 → Ix → V}
    {u : Arr V} {r : K × (Fin 3 → Arr V)} (h : solverFluxes S t junk (S.mem mem) u = .ok r) (d : Fin 3) :
    (r.2 d).shape = fun e => if e = d then S.n e + 1 else S.n e := by
  unfold solverFluxes at h
  obtain ⟨r0, hr0, hr⟩ := bind_ok h
  obtain ⟨F, hF, hr⟩ := bind_ok hr
  obtain ⟨F', hF', hr⟩ := bind_ok hr
  cases hr
  have hsF : (F d).shape = fun e => if e = d then S.n e + 1 else S.n e :=
    assign_ok (forDims_inv _ _ hF d)
  unfold limitFluxes at hF'
  split at hF'
  · cases hF'; exact hsF
  · rename_i L _
    obtain ⟨dudt, ustar, w, wstar, tr, _, _, _, _, _, hc⟩ := reviseFluxes_ok hF'
    rcases hc with ⟨_, rfl⟩ | ⟨_, r, theta, _, _, hb⟩
    · exact hsF
    · have := hb d
      unfold blend at this
      obtain ⟨_, _, this⟩ := bind_ok this
      obtain ⟨_, _, this⟩ := bind_ok this
      obtain ⟨_, _, this⟩ := bind_ok this
      rw [assign_ok this, hsF]

/-- A right-hand side that succeeds is the divergence of the flux arrays. -/
theorem rhs_inv {S : Scheme K V} {junk : ℕ → Ix → V} {mem : Fin 3 → Ix → V} {t t' : K} {u : Ix → V}
    {dt : K} {D : Ix → V} (h : solverRHS S junk mem t t' u = .ok (dt, D)) :
    ∃ F, solverFluxes S t junk (S.mem mem) ⟨S.n, u⟩ = .ok (dt, F) ∧
      ∀ Φ : Fin 3 → Ix → V, (∀ d, S.active d = true → FaceRep S.n d (F d) (Φ d)) →
        D = fun i => if InCells S.n i then latDiv S.active S.h Φ i else 0 := by
  unfold solverRHS at h
  obtain ⟨r, hr, h⟩ := bind_ok h
  split at h
  case isFalse => cases h
  cases h
  unfold hydrodynamics at hr
  obtain ⟨r0, hr0, hr⟩ := bind_ok hr
  obtain ⟨D, hD, hr⟩ := bind_ok hr
  cases hr
  refine ⟨r0.2, hr0, fun Φ hΦ => ?_⟩
  obtain ⟨D', eD', rD'⟩ := eulerEquation_spec S r0.2 Φ hΦ
  rw [hD] at eD'
  cases eD'
  funext i
  by_cases hi : InCells S.n i
  · rw [if_pos hi, if_pos (show (⟨S.n, u⟩ : Arr V).InB i from hi)]
    have := rD'.get_at i (fun d => by simpa using hi d)
    rwa [sub_zero] at this
  · rw [if_neg hi, if_neg (show ¬ (⟨S.n, u⟩ : Arr V).InB i from hi)]

/-- Without limiting the right-hand side succeeds and is the divergence of the lattice fluxes. -/
theorem rhs_spec (S : Scheme K V) (hlim : S.limiting = none) (hp : ∀ d, S.p d ≤ 8)
    (hn : ∀ d, 1 ≤ S.n d) (t : K) (gl gr : Fin 3 → Ghost V) (hs : Sides S (fluxWidth S S.p) t gl gr)
    (junk : ℕ → Ix → V) (mem : Fin 3 → Ix → V) (t' : K) (u U : Ix → V)
    (hU : ∀ i, InCells S.n i → u i = U i) :
    ∃ dt, IsDt S S.p (latPrim K S.prim S.p (extAll S.n gl gr U)) dt ∧
      solverRHS S junk mem t t' u = .ok (dt, fun i => if InCells S.n i then
        latDiv S.active S.h (schemeFlux S S.p none (extAll S.n gl gr U)) i else 0) := by
  have hin : ∀ d, S.active d = false → S.p d = 0 := by
    intro d h
    unfold Scheme.active at h
    simp at h
    exact h.2
  obtain ⟨dt, F, e, hdt, hF⟩ := hydrofluxes_spec S S.p hp hin hn none (by simp) t gl gr hs (junk 0) u U
    hU
    (S.mem mem)
  refine ⟨dt, hdt, ?_⟩
  have hA : ∀ d, ∃ C, (S.mem mem d).assign (F d) = .ok C ∧
      (S.active d = true → FaceRep S.n d C (schemeFlux S S.p none (extAll S.n gl gr U) d)) := by
    intro d
    by_cases h : S.active d = true
    · obtain ⟨C, eC, rC⟩ := assign_rep (mem d) ((hF d).1 h)
      exact ⟨C, eC, fun _ => rC⟩
    · obtain ⟨C, eC, rC⟩ := assign_rep (mem d) (faceRep_self S.n d (S.mem mem d) rfl)
      exact ⟨C, by rw [(hF d).2 (by simpa using h)]; exact eC, fun h' => absurd h' h⟩
  choose C hC1 hC2 using hA
  obtain ⟨D, eD, rD⟩ := eulerEquation_spec S C _ hC2
  have hdyn : hydrodynamics S t junk (S.mem mem) ⟨S.n, u⟩ = .ok (dt, D) := by
    have hf : solverFluxes S t junk (S.mem mem) ⟨S.n, u⟩ = .ok (dt, C) := by
      unfold solverFluxes
      rw [e]
      change (forDims _ >>= _) = _
      rw [forDims_ok _ C hC1]
      change (limitFluxes S t junk ⟨S.n, u⟩ C dt >>= _) = _
      unfold limitFluxes
      rw [hlim]
      rfl
    unfold hydrodynamics
    rw [hf]
    change (eulerEquation S C >>= _) = _
    rw [eD]
    rfl
  unfold solverRHS
  rw [hdyn]
  change (if D.shape = S.n then _ else _) = _
  have hsh : D.shape = S.n := by
    funext d
    have := rD.1 d
    simp at this
    exact this
  rw [if_pos hsh]
  congr 2
  funext i
  by_cases hi : InCells S.n i
  · rw [if_pos hi, if_pos (show (⟨S.n, u⟩ : Arr V).InB i from hi)]
    have := rD.get_at i (fun d => by simpa using hi d)
    rwa [sub_zero] at this
  · rw [if_neg hi, if_neg (show ¬ (⟨S.n, u⟩ : Arr V).InB i from hi)]

theorem Scheme.inactive_p (S : Scheme K V) (d : Fin 3) (h : S.active d = false) : S.p d = 0 := by
  unfold Scheme.active at h
  simp at h
  exact h.2

theorem fallbackP_le (p : Fin 3 → ℕ) (d : Fin 3) : fallbackP p d ≤ 1 := by
  unfold fallbackP; split <;> omega

theorem latDiv_congr (S : Scheme K V) (F G : Fin 3 → Ix → V) (i : Ix) (hi : InCells S.n i)
    (h : ∀ d j, S.active d = true → InFaces S.n d j → F d j = G d j) :
    latDiv S.active S.h F i = latDiv S.active S.h G i := by
  unfold latDiv
  refine Finset.sum_congr rfl fun d _ => ?_
  by_cases hd : S.active d = true
  · rw [if_pos hd, if_pos hd, h d _ hd, h d _ hd]
    · intro e
      have := hi e
      by_cases he : e = d
      · subst he; simp; omega
      · simp [he]; omega
    · intro e
      have := hi e
      by_cases he : e = d
      · subst he; simp; omega
      · simp [he]; omega
  · rw [if_neg hd, if_neg hd]

/-- Ghost widths requested by the detector. -/
def detectWidth (S : Scheme K V) : Fin 3 → ℕ := fun d =>
  (if S.active d then 3 else 0) + 2 * ceilHalf (S.p d)

/-- With limiting, a successful right-hand side is the divergence of the scheme's fluxes blended with
those of the fallback scheme, by the weights that the spreading of the detected troubles gives. -/
theorem rhs_blend (S : Scheme K V) (L : Limiting K V) (hlim : S.limiting = some L)
    (hp : ∀ d, S.p d ≤ 8) (hn : ∀ d, 1 ≤ S.n d) (t : K) (gl gr gl' gr' : Fin 3 → Ghost V)
    (hs : Sides S (fluxWidth S S.p) t gl gr)
    (hs' : Sides S (fluxWidth S (fallbackP S.p)) t gl' gr')
    (junk : ℕ → Ix → V) (mem : Fin 3 → Ix → V) (t' : K) (u U : Ix → V)
    (hU : ∀ i, InCells S.n i → u i = U i) (dt : K) (D : Ix → V)
    (h : solverRHS S junk mem t t' u = .ok (dt, D)) :
    ∃ θ : Fin 3 → Ix → K, IsDt S S.p (latPrim K S.prim S.p (extAll S.n gl gr U)) dt ∧
      (D = fun i => if InCells S.n i then
        latDiv S.active S.h (blendFlux θ (schemeFlux S S.p none (extAll S.n gl gr U))
          (schemeFlux S (fallbackP S.p) L.slope (extAll S.n gl' gr' U))) i else 0) ∧
      ∃ w wstar tr, L.detect w wstar = .ok tr ∧
        (∀ gld grd, Sides S (detectWidth S) t gld grd →
          MRep w (fun d => S.n d) (fun d => if S.active d then 3 else 0)
            (latPrim K S.prim S.p (extAll S.n gld grd U)) ∧
          MRep wstar (fun d => S.n d) (fun d => if S.active d then 3 else 0)
            (latPrim K S.prim S.p (extAll S.n gld grd fun i =>
              U i + dt • latDiv S.active S.h (schemeFlux S S.p none (extAll S.n gl gr U)) i))) ∧
        ((anyTrue (if L.force then tr.map fun _ => true else tr) = false ∧ θ = 0) ∨
          (anyTrue (if L.force then tr.map fun _ => true else tr) = true ∧ ∃ theta,
            L.broadcast (if L.force then tr.map fun _ => true else tr) = .ok theta ∧
            θ = fun d i => (theta d).get ((theta d).bix i))) := by
  obtain ⟨dt0, F0, e, hdt, hF⟩ := hydrofluxes_spec S S.p hp S.inactive_p hn none (by simp) t gl gr hs
    (junk 0) u U hU (S.mem mem)
  obtain ⟨F', hr, hfin⟩ := rhs_inv h
  unfold solverFluxes at hr
  obtain ⟨r0, hr0, hr⟩ := bind_ok hr
  rw [e] at hr0
  cases hr0
  obtain ⟨F, hFF, hr⟩ := bind_ok hr
  obtain ⟨F'', hF', hr⟩ := bind_ok hr
  cases hr
  have hR : ∀ d, S.active d = true →
      FaceRep S.n d (F d) (schemeFlux S S.p none (extAll S.n gl gr U) d) := by
    intro d hd
    have h1 := forDims_inv _ _ hFF d
    obtain ⟨C, eC, rC⟩ := assign_rep (mem d) ((hF d).1 hd)
    have h2 : (S.mem mem d).assign (F0 d) = .ok C := eC
    rw [h2] at h1
    cases h1
    exact rC
  unfold limitFluxes at hF'
  rw [hlim] at hF'
  obtain ⟨dudt, ustar, w, wstar, tr, e1, e2, e3, e4, e5, hc⟩ := reviseFluxes_ok hF'
  obtain ⟨D1, eD1, rD1⟩ := eulerEquation_spec S F _ hR
  rw [e1] at eD1
  cases eD1
  have hdet : ∀ gld grd, Sides S (detectWidth S) t gld grd →
          MRep w (fun d => S.n d) (fun d => if S.active d then 3 else 0)
            (latPrim K S.prim S.p (extAll S.n gld grd U)) ∧
          MRep wstar (fun d => S.n d) (fun d => if S.active d then 3 else 0)
            (latPrim K S.prim S.p (extAll S.n gld grd fun i =>
              U i + dt0 • latDiv S.active S.h (schemeFlux S S.p none (extAll S.n gl gr U)) i)) := by
    intro gld grd hsd
    have hm : (fun d => (((if S.active d then 3 else 0 : ℕ)) : ℤ)) =
        fun d => if S.active d then 3 else 0 := by
      funext d; split <;> rfl
    obtain ⟨w', ew', rw'⟩ := primitives_spec S S.p (fun d => if S.active d then 3 else 0) hp t gld grd
      hsd (junk 1) u U hU
    rw [e3] at ew'
    cases ew'
    have ru : Rep (⟨S.n, u⟩ : Arr V) 0 (fun d => (S.n d : ℤ)) u :=
      ⟨fun d => by simp, fun j _ => by rw [add_zero]⟩
    obtain ⟨us, eus, rus⟩ := rep_zip ru rD1 (fun x y => x + dt0 • y)
    rw [e2] at eus
    cases eus
    have hus : ustar.shape = S.n := by
      funext d
      have := rus.1 d
      simp at this
      exact this
    obtain ⟨ws', ews', rws'⟩ := primitives_spec S S.p (fun d => if S.active d then 3 else 0) hp t gld grd
      hsd (junk 2) ustar.get
      (fun i => U i + dt0 • latDiv S.active S.h (schemeFlux S S.p none (extAll S.n gl gr U)) i) (by
        intro i hi
        have := rus.get_at i (fun d => by simpa using hi d)
        rw [sub_zero] at this
        rw [this, hU i hi])
    have hq : (⟨S.n, ustar.get⟩ : Arr V) = ustar := by rw [← hus]
    rw [hq, e4] at ews'
    cases ews'
    exact ⟨MRep.congr rw' rfl hm (fun _ _ => rfl), MRep.congr rws' rfl hm (fun _ _ => rfl)⟩
  have hsR : ∀ d, S.active d = true → (F d).shape = fun e => if e = d then S.n e + 1 else S.n e :=
    fun d hd => (hR d hd).shape
  rcases hc with ⟨hno, rfl⟩ | ⟨hyes, r, theta, e6, e7, hb⟩
  · refine ⟨0, hdt, ?_, w, wstar, tr, e5, hdet, Or.inl ⟨hno, rfl⟩⟩
    refine hfin _ fun d hd => Rep.congr (hR d hd) rfl rfl fun i _ => ?_
    simp [blendFlux]
  · refine ⟨fun d i => (theta d).get ((theta d).bix i), hdt, ?_, w, wstar, tr, e5, hdet,
      Or.inr ⟨hyes, theta, e7, rfl⟩⟩
    have hin' : ∀ d, S.active d = false → fallbackP S.p d = 0 := by
      intro d hd
      unfold fallbackP
      rw [S.inactive_p d hd]
      rfl
    obtain ⟨dt1, F1, e', _, hF1⟩ := hydrofluxes_spec S (fallbackP S.p)
      (fun d => (fallbackP_le S.p d).trans (by norm_num)) hin' hn L.slope
      (fun _ d => fallbackP_le S.p d) t gl' gr' hs' (junk 3) u U hU F
    rw [e'] at e6
    cases e6
    refine hfin _ fun d hd => ?_
    have r1 := hR d hd
    have r2 := (hF1 d).1 hd
    obtain ⟨h1, h2⟩ := blend_ok (by rw [r2.shape, r1.shape]) (hb d)
    refine ⟨fun e => by rw [h1]; exact r1.1 e, fun j hj => ?_⟩
    have hjF : (F d).InB j := by
      intro e
      rw [← h1]
      exact hj e
    have hjF1 : (F1 d).InB j := by
      intro e
      rw [r2.shape, ← r1.shape]
      exact hjF e
    rw [h2 j hjF, r1.2 j hjF]
    have := r2.2 j hjF1
    simp only
    rw [this]
    simp only [blendFlux, add_zero]

theorem IsDt.unique {S : Scheme K V} {p : Fin 3 → ℕ} {W : Ix → V} {dt dt' : K} (h : IsDt S p W dt)
    (h' : IsDt S p W dt') : dt = dt' := by
  unfold IsDt at h h'
  cases hf : S.fixedDt with
  | some x => rw [hf] at h h'; exact h.trans h'.symm
  | none =>
    rw [hf] at h h'
    obtain ⟨m, ⟨i, hi, hm⟩, hle, rfl⟩ := h
    obtain ⟨m', ⟨i', hi', hm'⟩, hle', rfl⟩ := h'
    have : m = m' := le_antisymm (hm ▸ hle' i hi) (hm' ▸ hle i' hi')
    rw [this]

end FVHOE
