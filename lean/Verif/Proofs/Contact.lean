import Verif.Props.C63
import Verif.Props.C05_C07
import Verif.Proofs.LowOrder

/-!
With a Riemann solver that keeps contacts, a gas of uniform velocity and pressure moves its density by a linear scheme.
-/

set_option linter.unusedSectionVars false

namespace FVHOE

variable {K : Type} [Field K] [LinearOrder K] [IsStrictOrderedRing K] {np : ℕ}

/-- The solvers that move a contact as it is. -/
def KeepsContacts (k : RiemannKind) : Prop := k = .hllc ∨ k = .advectionUpwind

theorem hllc_contact (G : Gas K) (hq : IsSqrt G.sqrt) (hfl : 0 < G.csqFloor) (v : Fin 3 → K) (P : K) (x : Fin np → K)
    (d : Fin 3) (rl rr : K) (hs : rl + rr ≠ 0) :
    hllcSample (hllcWaves G d (flowing v P x rl) (flowing v P x rr)) rl
      (hllcWaves G d (flowing v P x rl) (flowing v P x rr)).rStarL
      (hllcWaves G d (flowing v P x rl) (flowing v P x rr)).rStarR rr = (if 0 < v d then rl else rr) ∧
    hllcSample (hllcWaves G d (flowing v P x rl) (flowing v P x rr)) (v d)
      (hllcWaves G d (flowing v P x rl) (flowing v P x rr)).vStar
      (hllcWaves G d (flowing v P x rl) (flowing v P x rr)).vStar (v d) = v d := by
  obtain ⟨wl, hwl⟩ : ∃ wl : State K np, wl = flowing v P x rl := ⟨_, rfl⟩
  obtain ⟨wr, hwr⟩ : ∃ wr : State K np, wr = flowing v P x rr := ⟨_, rfl⟩
  rw [← hwl, ← hwr]
  have l0 : wl .rho = rl := by rw [hwl]; rfl
  have r0 : wr .rho = rr := by rw [hwr]; rfl
  have l1 : wl (.mom d) = v d := by rw [hwl]; rfl
  have r1 : wr (.mom d) = v d := by rw [hwr]; rfl
  have l2 : wl .en = P := by rw [hwl]; rfl
  have r2 : wr .en = P := by rw [hwr]; rfl
  have hc : 0 < max (soundSpeed G wl) (soundSpeed G wr) :=
    lt_of_lt_of_le (soundSpeed_spec G hq hfl wl).1 (le_max_left _ _)
  set c := max (soundSpeed G wl) (soundSpeed G wr) with hcdef
  have c0 : c ≠ 0 := ne_of_gt hc
  have eL : (hllcWaves G d wl wr).Sl = v d - c := by simp [hllcWaves, l1, r1, ← hcdef]
  have eR : (hllcWaves G d wl wr).Sr = v d + c := by simp [hllcWaves, l1, r1, ← hcdef]
  have den : wl .rho * (v d - (v d - c)) + wr .rho * (v d + c - v d) = (wl .rho + wr .rho) * c := by ring
  have den0 : (wl .rho + wr .rho) * c ≠ 0 := mul_ne_zero (by rw [l0, r0]; exact hs) c0
  have ev : (hllcWaves G d wl wr).vStar = v d := by
    simp only [hllcWaves, l1, r1, l2, r2, min_self, max_self, ← hcdef]
    rw [den, div_eq_iff den0]; ring
  have m1 : v d - c - v d ≠ 0 := by simpa using c0
  have m2 : v d + c - v d ≠ 0 := by simpa using c0
  have erL : (hllcWaves G d wl wr).rStarL = rl := by
    change wl .rho * ((hllcWaves G d wl wr).Sl - wl (.mom d)) /
      ((hllcWaves G d wl wr).Sl - (hllcWaves G d wl wr).vStar) = _
    rw [eL, ev, l1, mul_div_assoc, div_self m1, mul_one, l0]
  have erR : (hllcWaves G d wl wr).rStarR = rr := by
    change wr .rho * ((hllcWaves G d wl wr).Sr - wr (.mom d)) /
      ((hllcWaves G d wl wr).Sr - (hllcWaves G d wl wr).vStar) = _
    rw [eR, ev, r1, mul_div_assoc, div_self m2, mul_one, r0]
  unfold hllcSample
  rw [eL, eR, ev, erL, erR]
  constructor
  · by_cases hv : 0 < v d
    · simp only [hv, if_true, gt_iff_lt, ite_self]
    · rw [if_neg (by linarith), if_neg hv, if_neg hv, ite_self]
  · simp only [ite_self]

theorem riemann_contact (G : Gas K) (k : RiemannKind) (hk : KeepsContacts k)
    (hG : k = .hllc → IsSqrt G.sqrt ∧ 0 < G.csqFloor) (v : Fin 3 → K) (P : K) (x : Fin np → K)
    (d : Fin 3) (rl rr : K) (hr : k = .hllc → rl + rr ≠ 0) :
    riemann k G d (flowing v P x rl) (flowing v P x rr) =
      pushed G.gamma v P (if k = .advectionUpwind then 0 else P) d +
        (if 0 < v d then rl else rr) • (v d • carried v x) := by
  obtain ⟨hm, he⟩ := riemann_fluxAt G k hG v P d (flowing v P x rl) (flowing v P x rr) hr ⟨fun _ => rfl, rfl⟩
    ⟨fun _ => rfl, rfl⟩
  have hrho : riemann k G d (flowing v P x rl) (flowing v P x rr) .rho = (if 0 < v d then rl else rr) * v d ∧
      ∀ j, riemann k G d (flowing v P x rl) (flowing v P x rr) (.ps j) = (if 0 < v d then rl else rr) * v d * x j := by
    rcases hk with rfl | rfl
    · obtain ⟨h1, h2⟩ := hllc_contact G (hG rfl).1 (hG rfl).2 v P x d rl rr (hr rfl)
      constructor
      · exact congrArg₂ (· * ·) h1 h2
      · intro j
        change _ * _ * hllcUpwind _ (x j) (x j) = _
        refine (congrArg₂ (· * ·) (congrArg₂ (· * ·) h1 h2)
          (congrArg (fun z => hllcUpwind z (x j) (x j)) h2)).trans ?_
        beta_reduce
        unfold hllcUpwind
        by_cases hv : 0 < v d
        · simp only [gt_iff_lt, hv, if_true]
        · by_cases hv' : v d < 0
          · simp only [gt_iff_lt, hv, hv', if_true, if_false]
          · have : v d = 0 := le_antisymm (not_lt.1 hv) (not_lt.1 hv')
            rw [this]
            simp
    · have key : ∀ a : Var np, riemann .advectionUpwind G d (flowing v P x rl) (flowing v P x rr) a =
          if v d > 0 then computeFluxes (flowing v P x rl) (computeConservatives G.gamma (flowing v P x rl)) d false a
          else if v d < 0 then computeFluxes (flowing v P x rr) (computeConservatives G.gamma (flowing v P x rr)) d false a
          else 0 := fun a => rfl
      constructor
      · rw [key]
        by_cases hv : 0 < v d
        · rw [if_pos hv, if_pos hv]
          simp [computeFluxes, computeConservatives, flowing]
          try ring
        · by_cases hv' : v d < 0
          · rw [if_neg (show ¬ v d > 0 from hv), if_pos hv', if_neg hv]
            simp [computeFluxes, computeConservatives, flowing]
            try ring
          · have : v d = 0 := le_antisymm (not_lt.1 hv) (not_lt.1 hv')
            rw [this]
            simp
      · intro j
        rw [key]
        by_cases hv : 0 < v d
        · rw [if_pos hv, if_pos hv]
          simp [computeFluxes, computeConservatives, flowing]
          try ring
        · by_cases hv' : v d < 0
          · rw [if_neg (show ¬ v d > 0 from hv), if_pos hv', if_neg hv]
            simp [computeFluxes, computeConservatives, flowing]
            try ring
          · have : v d = 0 := le_antisymm (not_lt.1 hv) (not_lt.1 hv')
            rw [this]
            simp
  have hq : fluxPressure k P = if k = .advectionUpwind then 0 else P := by
    rcases hk with rfl | rfl
    · rw [if_neg (by simp)]; rfl
    · rw [if_pos rfl]; rfl
  generalize (if 0 < v d then rl else rr) = ρ at hrho ⊢
  funext a
  cases a with
  | rho => rw [hrho.1]; simp [pushed, carried]
  | mom e => rw [hm e, hrho.1, hq]; simp [pushed, carried]; ring
  | en => rw [he, hrho.1, hq]; simp [pushed, carried]; ring
  | ps j => rw [hrho.2 j]; simp [pushed, carried]; ring

/-! ## The linear scheme -/

/-- The densities at cell centres turned back into averages. -/
def smoothed (K : Type) [Field K] (p : Fin 3 → ℕ) (α : Ix → K) : Ix → K :=
  latT K (p 2) 2 (latT K (p 1) 1 (latT K (p 0) 0 (latCenters K p α)))

/-- The density at the right faces (`b`) or the left faces of the cells in direction `d`. -/
def faceVal (K : Type) [Field K] (p : Fin 3 → ℕ) (d : Fin 3) (b : Bool) (α : Ix → K) : Ix → K :=
  if b = true then latR K (p d) d (latLine K p d (smoothed K p α)) else latL K (p d) d (latLine K p d (smoothed K p α))

/-- The density at face `i` seen from the left cell (`b`) or the right one. -/
def faceDensity (K : Type) [Field K] (p : Fin 3 → ℕ) (d : Fin 3) (b : Bool) (α : Ix → K) (i : Ix) : K :=
  faceVal K p d b α (i - if b = true then Pi.single d 1 else 0)

/-- The density transported through the faces in direction `d`, coming from the left (`b`) or from the right. -/
def transported (K : Type) [Field K] (p : Fin 3 → ℕ) (d : Fin 3) (b : Bool) (α : Ix → K) : Ix → K :=
  latT K (p (transverseOrder d).2) (transverseOrder d).2 (latT K (p (transverseOrder d).1) (transverseOrder d).1
    (faceDensity K p d b α))

theorem latCenters_conserved {p : Fin 3 → ℕ} (hp : ∀ d, p d ≤ 8) (gamma : K) (v : Fin 3 → K) (P : K) (x : Fin np → K)
    (α : Ix → K) : latCenters K p (fun j => conserved gamma (flowing v P x (α j))) =
      fun j => conserved gamma (flowing v P x (latCenters K p α j)) := by
  have hc : ∀ (d : Fin 3) (β : Ix → K), latC K (p d) d (fun j => conserved gamma (flowing v P x (β j))) =
      fun j => conserved gamma (flowing v P x (latC K (p d) d β j)) := by
    intro d β
    simp only [conserved_flowing]
    unfold latC
    rw [lsweep_affine d _ _ (wts_sum (hp d)).2.1]
  unfold latCenters
  rw [hc, hc, hc]

/-- The primitive averages near `i` are those of the flow with the smoothed densities. -/
theorem contact_prim {p : Fin 3 → ℕ} (hp : ∀ d, p d ≤ 8) (gamma : K) (hg : gamma ≠ 1) (v : Fin 3 → K) (P : K)
    (x : Fin np → K) (α : Ix → K) (U : Ix → State K np) (i m : Ix)
    (hU : Agree U (fun j => conserved gamma (flowing v P x (α j))) i (fun d => m d + 2 * ceilHalf (p d)))
    (h0 : ∀ j : Ix, (∀ d, |j d - i d| ≤ m d + ceilHalf (p d)) → latCenters K p α j ≠ 0) :
    Agree (latPrim K (computePrimitives gamma) p U) (fun j => flowing v P x (smoothed K p α j)) i m := by
  have h1 := Agree.prim (K := K) (m := m) (computePrimitives gamma) p hp hU
  have h2 : Agree (fun j => computePrimitives gamma (latCenters K p
      (fun j => conserved gamma (flowing v P x (α j))) j))
      (fun j => flowing v P x (latCenters K p α j)) i (fun d => m d + ceilHalf (p d)) := by
    intro j hj
    dsimp only
    rw [latCenters_conserved hp]
    exact prim_flowing _ hg v P x _ (h0 j hj)
  have h2' := h2.mono (m' := m + Pi.single 2 (ceilHalf (p 2) : ℤ) + Pi.single 1 (ceilHalf (p 1) : ℤ) +
      Pi.single 0 (ceilHalf (p 0) : ℤ)) (fun d => by
    match d with
    | 0 => simp
    | 1 => simp
    | 2 => simp)
  have h3 := ((h2'.trans (K := K) 0 (p 0) (hp 0)).trans (K := K) 1 (p 1) (hp 1)).trans
    (K := K) 2 (p 2) (hp 2)
  have ht : ∀ (d : Fin 3) (β : Ix → K), latT K (p d) d (fun j => flowing v P x (β j)) =
      fun j => flowing v P x (latT K (p d) d β j) := fun d β => lsweep_flowing v P x d _ _ (wts_sum (hp d)).2.2.2 β
  rw [ht, ht, ht] at h3
  intro j hj
  rw [h1 j hj]
  exact h3 j hj

/-- The flux through face `i` of a flow with given densities. -/
theorem contact_flux {p : Fin 3 → ℕ} (hp : ∀ d, p d ≤ 8) (G : Gas K) (k : RiemannKind) (hk : KeepsContacts k)
    (hG : k = .hllc → IsSqrt G.sqrt ∧ 0 < G.csqFloor) (v : Fin 3 → K) (P : K)
    (x : Fin np → K) (d : Fin 3) (α : Ix → K) (i : Ix)
    (hs : ∀ j : Ix, (∀ e, |j e - i e| ≤ if e = d then 0 else (ceilHalf (p e) : ℤ)) →
      faceDensity K p d true α j + faceDensity K p d false α j ≠ 0) :
    latFlux K (riemann k G d) p none d (fun j => flowing v P x (smoothed K p α j)) i =
      pushed G.gamma v P (if k = .advectionUpwind then 0 else P) d +
        transported K p d (decide (0 < v d)) α i • (v d • carried v x) := by
  have hcl : ∀ (e : Fin 3) (β : Ix → K), latC K (p e) e (fun j => flowing v P x (β j)) =
      fun j => flowing v P x (latC K (p e) e β j) := fun e β => lsweep_flowing v P x e _ _ (wts_sum (hp e)).2.1 β
  have hl : ∀ (e : Fin 3) (β : Ix → K), latL K (p e) e (fun j => flowing v P x (β j)) =
      fun j => flowing v P x (latL K (p e) e β j) := fun e β => lsweep_flowing v P x e _ _ (wts_sum (hp e)).1 β
  have hr : ∀ (e : Fin 3) (β : Ix → K), latR K (p e) e (fun j => flowing v P x (β j)) =
      fun j => flowing v P x (latR K (p e) e β j) := fun e β => lsweep_flowing v P x e _ _ (wts_sum (hp e)).2.2.1 β
  have ht : ∀ (e : Fin 3) (b m : State K np) (β : Ix → K), latT K (p e) e (fun j => b + β j • m) =
      fun j => b + latT K (p e) e β j • m := fun e b m β => lsweep_affine e _ _ (wts_sum (hp e)).2.2.2 b m β
  have hmid : Agree (latMid K (riemann k G d) p none d (fun j => flowing v P x (smoothed K p α j))) (fun j =>
      pushed G.gamma v P (if k = .advectionUpwind then 0 else P) d +
        faceDensity K p d (decide (0 < v d)) α j • (v d • carried v x)) i
      (fun e => if e = d then 0 else ceilHalf (p e)) := by
    intro j hj
    unfold latMid latFaceR latFaceL
    dsimp only
    unfold latLine
    rw [hcl, hcl, hl, hr]
    refine (riemann_contact G k hk hG v P x d _ _ fun _ => ?_).trans ?_
    · have := hs j hj
      simpa [faceDensity, faceVal, latLine] using this
    · by_cases hv : 0 < v d
      · simp [faceDensity, faceVal, latLine, hv]
      · simp [faceDensity, faceVal, latLine, hv]
  have h2 := Agree.transverse (K := K) p hp d hmid
  unfold latFlux
  rw [h2, ht, ht]
  rfl

/-- The radius at which the primitive averages enter the fluxes in direction `d` of a cell. -/
def fluxRadius (p : Fin 3 → ℕ) (d : Fin 3) : Ix := fun e => if e = d then (ceilHalf (p e) : ℤ) + 1 else 2 * ceilHalf (p e)

theorem fluxRadius_le (c : EulerConfig K np) (d : Fin 3) (hd : c.scheme.active d = true) (e : Fin 3) :
    fluxRadius c.p d e + 2 * ceilHalf (c.p e) ≤ reach c.scheme e := by
  unfold reach fluxRadius
  change _ ≤ ((if c.scheme.active e then max (3 * ceilHalf (c.p e) + 1) (4 * ceilHalf (c.p e)) else 0 : ℕ) : ℤ)
  by_cases he : e = d
  · subst he
    simp only [hd, if_true]
    push_cast
    omega
  · simp only [if_neg he]
    by_cases ha : c.scheme.active e = true
    · simp only [ha, if_true]
      push_cast
      omega
    · have ha' : c.scheme.active e = false := by simpa using ha
      have : c.p e = 0 := c.scheme.inactive_p e ha'
      simp [ha', this, ceilHalf]

/-- The right-hand side at a cell near which a gas of uniform velocity and pressure has the cell averages `α` of the
density: the density moves by the linear scheme, all else is carried. -/
theorem contact_rhs (c : EulerConfig K np) (hc : TransportSetup c) (hk : KeepsContacts c.riem)
    (v : Fin 3 → K) (P : K) (x : Fin np → K) (α : Ix → K) (i : Ix) (hi : InCells c.n i)
    (h0 : ∀ d, c.scheme.active d = true → ∀ j : Ix, (∀ e, |j e - i e| ≤ fluxRadius c.p d e + ceilHalf (c.p e)) →
      latCenters K c.p α j ≠ 0)
    (hs : ∀ d, c.scheme.active d = true → ∀ y : ℤ, y = 0 ∨ y = 1 → ∀ j : Ix,
      (∀ e, |j e - (i + Pi.single d y : Ix) e| ≤ if e = d then 0 else (ceilHalf (c.p e) : ℤ)) →
      faceDensity K c.p d true α j + faceDensity K c.p d false α j ≠ 0)
    (t t' : K) (gl gr : Fin 3 → Ghost (State K np))
    (hS : Sides c.scheme (fluxWidth c.scheme c.p) t gl gr) (u U : Ix → State K np) (huU : ∀ j, InCells c.n j → u j = U j)
    (hu : ∀ j : Ix, (∀ d, |j d - i d| ≤ reach c.scheme d) →
      extAll c.n gl gr U j = conserved c.gas.gamma (flowing v P x (α j)))
    (junk : ℕ → Ix → State K np) (mem : Fin 3 → Ix → State K np) :
    ∃ dt D, solverRHS c.scheme junk mem t t' u = .ok (dt, D) ∧
      D i = (-∑ d, if c.scheme.active d = true then v d / c.h d *
        (transported K c.p d (decide (0 < v d)) α (i + Pi.single d 1) -
          transported K c.p d (decide (0 < v d)) α i) else 0) • carried v x := by
  obtain ⟨dt, _, e⟩ := rhs_spec c.scheme hc.unlimited hc.degree hc.cells t gl gr hS junk mem t' u U
    huU
  refine ⟨dt, _, e, ?_⟩
  beta_reduce
  rw [if_pos (show InCells c.scheme.n i from hi)]
  unfold latDiv
  rw [← Finset.sum_neg_distrib, Finset.sum_smul]
  refine Finset.sum_congr rfl fun d _ => ?_
  by_cases hd : c.scheme.active d = true
  · rw [if_pos hd, if_pos hd]
    have hU : Agree (extAll c.n gl gr U) (fun j => conserved c.gas.gamma (flowing v P x (α j))) i
        (fun e => reach c.scheme e) := hu
    have hW := contact_prim hc.degree c.gas.gamma hc.gamma v P x α (extAll c.n gl gr U) i (fluxRadius c.p d)
      (hU.mono fun e => fluxRadius_le c d hd e) (h0 d hd)
    have f1 := Agree.flux (K := K) (riemann c.riem c.gas d) c.p hc.degree d 1 (Or.inr rfl) hW
    have f0 := Agree.flux (K := K) (riemann c.riem c.gas d) c.p hc.degree d 0 (Or.inl rfl) hW
    rw [contact_flux hc.degree c.gas c.riem hk hc.sound v P x d α _ (hs d hd 1 (Or.inr rfl))] at f1
    rw [contact_flux hc.degree c.gas c.riem hk hc.sound v P x d α _ (hs d hd 0 (Or.inl rfl)), Pi.single_zero,
      add_zero] at f0
    change (-(1 / c.h d)) • (latFlux K (riemann c.riem c.gas d) c.p none d (latPrim K (computePrimitives c.gas.gamma) c.p
      (extAll c.n gl gr U)) (i + Pi.single d 1) - latFlux K (riemann c.riem c.gas d) c.p none d
      (latPrim K (computePrimitives c.gas.gamma) c.p (extAll c.n gl gr U)) i) = _
    rw [f1, f0]
    module
  · rw [if_neg hd, if_neg hd]
    simp

end FVHOE
