import Verif.Props.C04_C11

/-!
C53 (finite domain of dependence).
-/

set_option linter.unusedSectionVars false

namespace FVHOE

variable {K : Type} [Field K] [LinearOrder K] [IsStrictOrderedRing K]
variable {V : Type} [AddCommGroup V] [Module K V]

/-- Two lattice functions agree on the box of radii `m` around `i`. -/
def Agree (Φ Ψ : Ix → V) (i m : Ix) : Prop := ∀ j : Ix, (∀ d, |j d - i d| ≤ m d) → Φ j = Ψ j

theorem Agree.mono {Φ Ψ : Ix → V} {i m m' : Ix} (h : Agree Φ Ψ i m) (hm : ∀ d, m' d ≤ m d) :
    Agree Φ Ψ i m' := fun j hj => h j fun d => (hj d).trans (hm d)

theorem Agree.sweep {Φ Ψ : Ix → V} {i m : Ix} (d : Fin 3) (r : ℕ) (ws : List ℚ)
    (hl : ws.length ≤ 2 * r + 1) (h : Agree Φ Ψ i (m + Pi.single d (r : ℤ))) :
    Agree (lsweep K d r ws Φ) (lsweep K d r ws Ψ) i m := by
  intro j hj
  refine lsweep_congr d r ws hl Φ Ψ j fun k h1 h2 => h _ fun e => ?_
  have := hj e
  rw [abs_le] at this ⊢
  by_cases he : e = d
  · subst he; simp; constructor <;> omega
  · simp [he]; constructor <;> omega

theorem Agree.center {Φ Ψ : Ix → V} {i m : Ix} (d : Fin 3) (p : ℕ) (hp : p ≤ 8)
    (h : Agree Φ Ψ i (m + Pi.single d (ceilHalf p : ℤ))) : Agree (latC K p d Φ) (latC K p d Ψ) i m :=
  h.sweep d _ _ (wts_c_len hp "c" (by simp)).le

theorem Agree.trans {Φ Ψ : Ix → V} {i m : Ix} (d : Fin 3) (p : ℕ) (hp : p ≤ 8)
    (h : Agree Φ Ψ i (m + Pi.single d (ceilHalf p : ℤ))) : Agree (latT K p d Φ) (latT K p d Ψ) i m :=
  h.sweep d _ _ (wts_t_len hp).le

theorem Agree.prim {Φ Ψ : Ix → V} {i m : Ix} (prim : V → V) (p : Fin 3 → ℕ) (hp : ∀ d, p d ≤ 8)
    (h : Agree Φ Ψ i (fun d => m d + 2 * ceilHalf (p d))) :
    Agree (latPrim K prim p Φ) (latPrim K prim p Ψ) i m := by
  have h' : Agree Φ Ψ i (m + Pi.single 2 (ceilHalf (p 2) : ℤ) + Pi.single 1 (ceilHalf (p 1) : ℤ) +
      Pi.single 0 (ceilHalf (p 0) : ℤ) + Pi.single 2 (ceilHalf (p 2) : ℤ) +
      Pi.single 1 (ceilHalf (p 1) : ℤ) + Pi.single 0 (ceilHalf (p 0) : ℤ)) := by
    refine h.mono fun d => ?_
    match d with
    | 0 => simp; omega
    | 1 => simp; omega
    | 2 => simp; omega
  have hc := ((h'.center (K := K) 0 (p 0) (hp 0)).center (K := K) 1 (p 1) (hp 1)).center (K := K) 2 (p 2) (hp 2)
  have hc' : Agree (fun i => prim (latCenters K p Φ i)) (fun i => prim (latCenters K p Ψ i)) i _ :=
    fun j hj => congrArg prim (hc j hj)
  exact ((hc'.trans (K := K) 0 (p 0) (hp 0)).trans (K := K) 1 (p 1) (hp 1)).trans (K := K) 2 (p 2) (hp 2)

theorem Agree.flux {Φ Ψ : Ix → V} {i : Ix} (riem : V → V → V) (p : Fin 3 → ℕ) (hp : ∀ d, p d ≤ 8)
    (d : Fin 3) (x : ℤ) (hx : x = 0 ∨ x = 1)
    (h : Agree Φ Ψ i (fun e => if e = d then (ceilHalf (p e) : ℤ) + 1 else 2 * ceilHalf (p e))) :
    latFlux K riem p none d Φ (i + Pi.single d x) = latFlux K riem p none d Ψ (i + Pi.single d x) := by
  have o : ∃ o1 o2 q1 q2, centerOrder d = (o1, o2) ∧ transverseOrder d = (q1, q2) ∧ o1 ≠ o2 ∧ o1 ≠ d ∧
      o2 ≠ d ∧ q1 ≠ q2 ∧ q1 ≠ d ∧ q2 ≠ d := by
    match d with
    | 0 => exact ⟨_, _, _, _, rfl, rfl, by decide⟩
    | 1 => exact ⟨_, _, _, _, rfl, rfl, by decide⟩
    | 2 => exact ⟨_, _, _, _, rfl, rfl, by decide⟩
  obtain ⟨o1, o2, q1, q2, eo, eq, h12, h1d, h2d, k12, k1d, k2d⟩ := o
  have hcov := cov3 d o1 o2 h12 h1d h2d
  have hcov' := cov3 d q1 q2 k12 k1d k2d
  -- the line averages agree
  have hline : Agree (latLine K p d Φ) (latLine K p d Ψ) i
      (fun e => if e = d then (ceilHalf (p e) : ℤ) + 1 else ceilHalf (p e)) := by
    unfold latLine
    rw [eo]
    refine Agree.center o2 _ (hp _) (Agree.center o1 _ (hp _) (h.mono fun e => ?_))
    rcases hcov e with rfl | rfl | rfl
    · simp [h1d.symm, h2d.symm]
    · simp [h12, h1d]; omega
    · simp [h12.symm, h2d]; omega
  -- the face fluxes agree
  have hmid : Agree (latMid K riem p none d Φ) (latMid K riem p none d Ψ) (i + Pi.single d x)
      (fun e => if e = d then 0 else ceilHalf (p e)) := by
    intro j hj
    have hjd := hj d
    have hjo : ∀ e, e ≠ d → |j e - i e| ≤ ceilHalf (p e) := by
      intro e he
      have := hj e
      simpa [he] using this
    simp at hjd
    have hjd' : j d = i d + x := by omega
    unfold latMid
    have hface : ∀ (pos : String) (hpos : pos = "l" ∨ pos = "c" ∨ pos = "r") (y : ℤ),
        -1 ≤ x + y → x + y ≤ 1 →
        lsweep K d (ceilHalf (p d)) (wts (conservativeWeights (p d) pos)) (latLine K p d Φ)
          (j + Pi.single d y) =
        lsweep K d (ceilHalf (p d)) (wts (conservativeWeights (p d) pos)) (latLine K p d Ψ)
          (j + Pi.single d y) := by
      intro pos hpos y hy1 hy2
      refine lsweep_congr d _ _ (wts_c_len (hp d) pos hpos).le _ _ _ fun k h1 h2 => hline _ fun e => ?_
      by_cases he : e = d
      · subst he
        simp [hjd']
        rw [abs_le]
        constructor <;> omega
      · simpa [he] using hjo e he
    have hR := hface "r" (by simp) (-1) (by omega) (by omega)
    have hL := hface "l" (by simp) 0 (by omega) (by omega)
    rw [show j + Pi.single d (-1) = j - Pi.single d 1 by rw [Pi.single_neg, sub_eq_add_neg]] at hR
    rw [Pi.single_zero, add_zero] at hL
    exact congrArg₂ riem hR hL
  unfold latFlux
  rw [eq]
  have hm2 : Agree (latMid K riem p none d Φ) (latMid K riem p none d Ψ) (i + Pi.single d x)
      ((0 : Ix) + Pi.single q2 (ceilHalf (p q2) : ℤ) + Pi.single q1 (ceilHalf (p q1) : ℤ)) := by
    refine hmid.mono fun e => ?_
    rcases hcov' e with rfl | rfl | rfl
    · simp [k1d.symm, k2d.symm]
    · simp [k12, k1d]
    · simp [k12.symm, k2d]
  exact (hm2.trans (K := K) q1 (p q1) (hp q1)).trans (K := K) q2 (p q2) (hp q2) _ (by simp)

/-- How far the right-hand side at a cell looks along an axis. -/
def reach (S : Scheme K V) (d : Fin 3) : ℕ :=
  if S.active d then max (3 * ceilHalf (S.p d) + 1) (4 * ceilHalf (S.p d)) else 0

theorem reach_le (S : Scheme K V) (d : Fin 3) : reach S d ≤ fluxWidth S S.p d := by
  have := fluxGw_bound S.p d
  unfold reach fluxWidth
  split <;> omega

/-- `c` is a cell within the reach of `i` along axis `d`, counted around the end of the domain when a
side of that axis is periodic. -/
def NearAxis (S : Scheme K V) (i : Ix) (d : Fin 3) (c : ℤ) : Prop :=
  0 ≤ c ∧ c < S.n d ∧ (|c - i d| ≤ reach S d ∨
    ((∃ s, S.bc.kind d s = .periodic) ∧ ∃ m : ℤ, |c + m * S.n d - i d| ≤ reach S d))

theorem extAxis_near (S : Scheme K V) (t : K) (i : Ix) (hi : InCells S.n i) (d : Fin 3)
    (gl gr : Ghost V) (hl : SideSpec S.bc S.negate S.n (fluxWidth S S.p) t d .l gl)
    (hr : SideSpec S.bc S.negate S.n (fluxWidth S S.p) t d .r gr) (Φ Ψ : Ix → V) (j : Ix)
    (hj : |j d - i d| ≤ reach S d)
    (h : ∀ c, NearAxis S i d c → Φ (Function.update j d c) = Ψ (Function.update j d c)) :
    extAxis (S.n d) d gl gr Φ j = extAxis (S.n d) d gl gr Ψ j := by
  have hw := reach_le S d
  have hid := hi d
  rw [abs_le] at hj
  unfold extAxis
  have hz : fluxWidth S S.p d = 0 → 0 ≤ j d ∧ j d < S.n d := by
    intro h0
    constructor <;> omega
  have hwrap : (∃ s, S.bc.kind d s = .periodic) → 1 ≤ S.n d →
      Φ (Function.update j d (j d % S.n d)) = Ψ (Function.update j d (j d % S.n d)) := by
    intro hper hn
    refine h _ ⟨Int.emod_nonneg _ (by omega), Int.emod_lt_of_pos _ (by omega), Or.inr ⟨hper, j d / S.n d, ?_⟩⟩
    have := Int.emod_add_mul_ediv (j d) (S.n d)
    rw [mul_comm, this, abs_le]
    exact hj
  split_ifs with h1 h2
  · cases hl with
    | free hk hn => exact h 0 ⟨le_rfl, by omega, Or.inl (by rw [abs_le]; constructor <;> omega)⟩
    | outflow hk hn =>
      exact h (-1 - j d) ⟨by omega, by omega, Or.inl (by rw [abs_le]; constructor <;> omega)⟩
    | reflective hk hn =>
      exact congrArg (S.negate d)
        (h (-1 - j d) ⟨by omega, by omega, Or.inl (by rw [abs_le]; constructor <;> omega)⟩)
    | periodic hk hk' hn hn1 => exact hwrap ⟨.l, hk'⟩ hn1
    | const hk v hv hc => rfl
    | func g τ hk hv ψ hc => rfl
    | inactive h0 _ => exact absurd h1 (by have := (hz h0).1; omega)
  · cases hr with
    | free hk hn => exact h _ ⟨by omega, by omega, Or.inl (by rw [abs_le]; constructor <;> omega)⟩
    | outflow hk hn =>
      exact h (2 * (S.n d : ℤ) - 1 - j d) ⟨by omega, by omega, Or.inl (by rw [abs_le]; constructor <;> omega)⟩
    | reflective hk hn =>
      exact congrArg (S.negate d)
        (h (2 * (S.n d : ℤ) - 1 - j d) ⟨by omega, by omega, Or.inl (by rw [abs_le]; constructor <;> omega)⟩)
    | periodic hk hk' hn hn1 => exact hwrap ⟨.r, hk⟩ hn1
    | const hk v hv hc => rfl
    | func g τ hk hv ψ hc => rfl
    | inactive h0 _ => exact absurd h2 (by have := (hz h0).2; omega)
  · have := h (j d) ⟨by omega, by omega, Or.inl (by rw [abs_le]; exact hj)⟩
    simpa using this

/-- **C53** With limiting off, let two states agree on all cells within `reach` of cell `i` in every
direction (counted periodically on periodic axes). Whenever the right-hand side succeeds on both,
their derivatives at cell `i` are equal. The reach is max(3r+1, 4r) with r = ⌈p/2⌉ in an active
direction and 0 in an inactive one. -/
theorem C53_domain_of_dependence (S : Scheme K V) (hlim : S.limiting = none) (hp : ∀ d, S.p d ≤ 8)
    (hn : ∀ d, 1 ≤ S.n d) (hF : Fillable S.bc S.n (fluxWidth S S.p)) (t t' : K) (u v : Ix → V) (i : Ix)
    (hi : InCells S.n i) (h : ∀ c : Ix, (∀ d, NearAxis S i d (c d)) → u c = v c)
    (junk junk' : ℕ → Ix → V) (mem mem' : Fin 3 → Ix → V) (dt dt' : K) (D D' : Ix → V)
    (hD : solverRHS S junk mem t t' u = .ok (dt, D))
    (hD' : solverRHS S junk' mem' t t' v = .ok (dt', D')) : D i = D' i := by
  -- the sides
  obtain ⟨F0, eF0, _⟩ := rhs_inv hD
  unfold solverFluxes at eF0
  obtain ⟨r0, hr0, _⟩ := bind_ok eF0
  unfold hydrofluxes at hr0
  rw [if_neg (by simp)] at hr0
  obtain ⟨w, hw, _⟩ := bind_ok hr0
  unfold primitivesFromConservatives at hw
  obtain ⟨A, hA, _⟩ := bind_ok hw
  obtain ⟨gl, gr, hl, hr⟩ := spec_of_ok S.bc S.negate S.n _ t hF u (junk 0) A hA
  have hs : Sides S (fluxWidth S S.p) t gl gr := fun d => ⟨hl d, hr d⟩
  obtain ⟨_, _, e⟩ := rhs_spec S hlim hp hn t gl gr hs junk mem t' u u (fun _ _ => rfl)
  obtain ⟨_, _, e'⟩ := rhs_spec S hlim hp hn t gl gr hs junk' mem' t' v v (fun _ _ => rfl)
  rw [hD] at e
  rw [hD'] at e'
  cases e
  cases e'
  beta_reduce
  rw [if_pos hi, if_pos hi]
  -- the continued states agree
  have hU : Agree (extAll S.n gl gr u) (extAll S.n gl gr v) i (fun d => reach S d) := by
    intro j hj
    unfold extAll
    refine extAxis_near S t i hi 2 _ _ (hl 2) (hr 2) _ _ j (hj 2) fun c2 h2 => ?_
    refine extAxis_near S t i hi 1 _ _ (hl 1) (hr 1) _ _ _ (by simpa using hj 1) fun c1 h1 => ?_
    refine extAxis_near S t i hi 0 _ _ (hl 0) (hr 0) _ _ _ (by simpa using hj 0) fun c0 h0 => ?_
    refine h _ fun d => ?_
    match d with
    | 0 => simpa using h0
    | 1 => simpa using h1
    | 2 => simpa using h2
  unfold latDiv
  refine Finset.sum_congr rfl fun d _ => ?_
  by_cases hd : S.active d = true
  · rw [if_pos hd, if_pos hd]
    have hW : Agree (latPrim K S.prim S.p (extAll S.n gl gr u)) (latPrim K S.prim S.p (extAll S.n gl gr v)) i
        (fun e => if e = d then (ceilHalf (S.p e) : ℤ) + 1 else 2 * ceilHalf (S.p e)) := by
      refine Agree.prim S.prim S.p hp (hU.mono fun e => ?_)
      unfold reach
      by_cases he : e = d
      · subst he
        simp only [hd, if_true]
        push_cast
        omega
      · simp only [if_neg he]
        by_cases ha : S.active e = true
        · simp only [ha, if_true]
          push_cast
          omega
        · have ha' : S.active e = false := by simpa using ha
          simp [ha', S.inactive_p e ha', ceilHalf]
    have h1 := Agree.flux (K := K) (S.riem d) S.p hp d 1 (Or.inr rfl) hW
    have h0 := Agree.flux (K := K) (S.riem d) S.p hp d 0 (Or.inl rfl) hW
    rw [Pi.single_zero, add_zero] at h0
    unfold schemeFlux
    rw [h1, h0]
  · rw [if_neg hd, if_neg hd]

/-- The reach in the two-dimensional example is 8 and 4 cells; two states that differ at a cell beyond
it satisfy the hypothesis. -/
example : reach openConfig.scheme 0 = 8 ∧ reach openConfig.scheme 1 = 4 ∧
    reach openConfig.scheme 2 = 0 ∧ ¬ NearAxis openConfig.scheme ![3, 0, 0] 1 6 := by
  have e : reach openConfig.scheme 1 = 4 := by decide
  refine ⟨by decide, e, by decide, ?_⟩
  rintro ⟨_, _, h | ⟨⟨s, hs⟩, _⟩⟩
  · rw [e] at h; revert h; decide
  · cases s <;> revert hs <;> decide

end FVHOE
