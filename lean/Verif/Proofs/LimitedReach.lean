import Verif.Props.C53
import Verif.Props.C78

/-!
What the limited rate of change at a cell looks at, piece by piece.
-/

set_option linter.unusedSectionVars false

namespace FVHOE

variable {K : Type} [Field K] [LinearOrder K] [IsStrictOrderedRing K]

section general

variable {V : Type} [AddCommGroup V] [Module K V]

/-- Position `b` along axis `d` lies in the domain, at most `r` cells from position `a`; on an axis with a periodic side the
distance may be taken around the end of the domain. -/
def AxisAway (S : Scheme K V) (d : Fin 3) (r : ℕ) (a b : ℤ) : Prop :=
  0 ≤ b ∧ b < S.n d ∧ ∃ m : ℤ, (m = 0 ∨ ∃ s, S.bc.kind d s = .periodic) ∧ |b + m * S.n d - a| ≤ r

/-- Cell `j` is at most `R d` cells from cell `i` along every axis `d`. -/
def CellsAway (S : Scheme K V) (R : Fin 3 → ℕ) (i j : Ix) : Prop := ∀ d, AxisAway S d (R d) (i d) (j d)

theorem CellsAway.cell {S : Scheme K V} {R : Fin 3 → ℕ} {i j : Ix} (h : CellsAway S R i j) : InCells S.n j :=
  fun d => ⟨(h d).1, (h d).2.1⟩

theorem CellsAway.mono {S : Scheme K V} {R R' : Fin 3 → ℕ} {i j : Ix} (h : CellsAway S R i j) (hR : ∀ d, R d ≤ R' d) :
    CellsAway S R' i j := fun d => by
  obtain ⟨h1, h2, m, h3, h4⟩ := h d
  exact ⟨h1, h2, m, h3, h4.trans (by exact_mod_cast hR d)⟩

theorem CellsAway.trans {S : Scheme K V} {R R' : Fin 3 → ℕ} {i j k : Ix} (h : CellsAway S R i j) (h' : CellsAway S R' j k) :
    CellsAway S (fun d => R d + R' d) i k := fun d => by
  obtain ⟨_, _, m, h3, h4⟩ := h d
  obtain ⟨h1', h2', m', h3', h4'⟩ := h' d
  refine ⟨h1', h2', m + m', ?_, ?_⟩
  · rcases h3 with rfl | h3
    · rcases h3' with rfl | h3'
      · exact Or.inl (add_zero _)
      · exact Or.inr h3'
    · exact Or.inr h3
  · have e : k d + (m + m') * S.n d - i d = (k d + m' * S.n d - j d) + (j d + m * S.n d - i d) := by ring
    rw [e]
    refine (abs_add_le _ _).trans ?_
    push_cast
    linarith

theorem CellsAway.plain {S : Scheme K V} {R : Fin 3 → ℕ} {i j : Ix} (hj : InCells S.n j) (h : ∀ d, |j d - i d| ≤ R d) :
    CellsAway S R i j := fun d => ⟨(hj d).1, (hj d).2, 0, Or.inl rfl, by simpa using h d⟩

theorem extAxis_within (S : Scheme K V) (w : Fin 3 → ℕ) (t : K) (d : Fin 3) (gl gr : Ghost V)
    (hl : SideSpec S.bc S.negate S.n w t d .l gl) (hr : SideSpec S.bc S.negate S.n w t d .r gr) (r : ℕ) (hw : r ≤ w d)
    (a : ℤ) (ha : 0 ≤ a ∧ a < S.n d) (Φ Ψ : Ix → V) (j : Ix) (hj : |j d - a| ≤ r)
    (h : ∀ b, AxisAway S d r a b → Φ (Function.update j d b) = Ψ (Function.update j d b)) :
    extAxis (S.n d) d gl gr Φ j = extAxis (S.n d) d gl gr Ψ j := by
  rw [abs_le] at hj
  have near : ∀ b : ℤ, 0 ≤ b → b < S.n d → -(r : ℤ) ≤ b - a → b - a ≤ r → AxisAway S d r a b :=
    fun b h1 h2 h3 h4 => ⟨h1, h2, 0, Or.inl rfl, by rw [abs_le]; constructor <;> linarith⟩
  unfold extAxis
  have hz : w d = 0 → 0 ≤ j d ∧ j d < S.n d := by
    intro h0
    constructor <;> omega
  have hwrap : (∃ s, S.bc.kind d s = .periodic) → 1 ≤ S.n d →
      Φ (Function.update j d (j d % S.n d)) = Ψ (Function.update j d (j d % S.n d)) := by
    intro hper hn
    refine h _ ⟨Int.emod_nonneg _ (by omega), Int.emod_lt_of_pos _ (by omega), j d / S.n d, Or.inr hper, ?_⟩
    have := Int.emod_add_mul_ediv (j d) (S.n d)
    rw [mul_comm, this, abs_le]
    exact hj
  split_ifs with h1 h2
  · cases hl with
    | free hk hn => exact h 0 (near _ le_rfl (by omega) (by omega) (by omega))
    | outflow hk hn => exact h (-1 - j d) (near _ (by omega) (by omega) (by omega) (by omega))
    | reflective hk hn =>
      exact congrArg (S.negate d) (h (-1 - j d) (near _ (by omega) (by omega) (by omega) (by omega)))
    | periodic hk hk' hn hn1 => exact hwrap ⟨.l, hk'⟩ hn1
    | const hk v hv hc => rfl
    | func g τ hk hv ψ hc => rfl
    | inactive h0 _ => exact absurd h1 (by have := (hz h0).1; omega)
  · cases hr with
    | free hk hn => exact h _ (near _ (by omega) (by omega) (by omega) (by omega))
    | outflow hk hn =>
      exact h (2 * (S.n d : ℤ) - 1 - j d) (near _ (by omega) (by omega) (by omega) (by omega))
    | reflective hk hn =>
      exact congrArg (S.negate d)
        (h (2 * (S.n d : ℤ) - 1 - j d) (near _ (by omega) (by omega) (by omega) (by omega)))
    | periodic hk hk' hn hn1 => exact hwrap ⟨.r, hk⟩ hn1
    | const hk v hv hc => rfl
    | func g τ hk hv ψ hc => rfl
    | inactive h0 _ => exact absurd h2 (by have := (hz h0).2; omega)
  · have := h (j d) (near _ (by omega) (by omega) (by omega) (by omega))
    simpa using this

/-- The continued states agree within `R` of a cell if the states do. -/
theorem extAll_away (S : Scheme K V) (w : Fin 3 → ℕ) (t : K) (gl gr : Fin 3 → Ghost V) (hs : Sides S w t gl gr)
    (R : Fin 3 → ℕ) (hR : ∀ d, R d ≤ w d) (i : Ix) (hi : InCells S.n i) (u v : Ix → V)
    (h : ∀ j, CellsAway S R i j → u j = v j) :
    Agree (extAll S.n gl gr u) (extAll S.n gl gr v) i (fun d => R d) := by
  intro j hj
  unfold extAll
  refine extAxis_within S w t 2 _ _ (hs 2).1 (hs 2).2 _ (hR 2) _ (hi 2) _ _ j (hj 2) fun c2 h2 => ?_
  refine extAxis_within S w t 1 _ _ (hs 1).1 (hs 1).2 _ (hR 1) _ (hi 1) _ _ _ (by simpa using hj 1) fun c1 h1 => ?_
  refine extAxis_within S w t 0 _ _ (hs 0).1 (hs 0).2 _ (hR 0) _ (hi 0) _ _ _ (by simpa using hj 0) fun c0 h0 => ?_
  refine h _ fun d => ?_
  match d with
  | 0 => simpa using h0
  | 1 => simpa using h1
  | 2 => simpa using h2

/-- As `Agree.flux`, with a slope limiter. -/
theorem Agree.slopeFlux {Φ Ψ : Ix → V} {i : Ix} (riem : V → V → V) (p : Fin 3 → ℕ) (hp : ∀ d, p d ≤ 8)
    (slope : Option (V → V → V)) (d : Fin 3) (x : ℤ) (hx : x = 0 ∨ x = 1)
    (h : Agree Φ Ψ i (fun e => if e = d then (ceilHalf (p e) : ℤ) + 1 else 2 * ceilHalf (p e))) :
    latFlux K riem p slope d Φ (i + Pi.single d x) = latFlux K riem p slope d Ψ (i + Pi.single d x) := by
  have o : ∃ o1 o2 q1 q2, centerOrder d = (o1, o2) ∧ transverseOrder d = (q1, q2) ∧ o1 ≠ o2 ∧ o1 ≠ d ∧
      o2 ≠ d ∧ q1 ≠ q2 ∧ q1 ≠ d ∧ q2 ≠ d := by
    match d with
    | 0 => exact ⟨_, _, _, _, rfl, rfl, by decide⟩
    | 1 => exact ⟨_, _, _, _, rfl, rfl, by decide⟩
    | 2 => exact ⟨_, _, _, _, rfl, rfl, by decide⟩
  obtain ⟨o1, o2, q1, q2, eo, eq, h12, h1d, h2d, k12, k1d, k2d⟩ := o
  have hcov := cov3 d o1 o2 h12 h1d h2d
  have hcov' := cov3 d q1 q2 k12 k1d k2d
  have hline : Agree (latLine K p d Φ) (latLine K p d Ψ) i
      (fun e => if e = d then (ceilHalf (p e) : ℤ) + 1 else ceilHalf (p e)) := by
    unfold latLine
    rw [eo]
    refine Agree.center o2 _ (hp _) (Agree.center o1 _ (hp _) (h.mono fun e => ?_))
    rcases hcov e with rfl | rfl | rfl
    · simp [h1d.symm, h2d.symm]
    · simp [h12, h1d]; omega
    · simp [h12.symm, h2d]; omega
  have hmid : Agree (latMid K riem p slope d Φ) (latMid K riem p slope d Ψ) (i + Pi.single d x)
      (fun e => if e = d then 0 else ceilHalf (p e)) := by
    intro j hj
    have hjd := hj d
    have hjo : ∀ e, e ≠ d → |j e - i e| ≤ ceilHalf (p e) := by
      intro e he
      have := hj e
      simpa [he] using this
    simp at hjd
    have hjd' : j d = i d + x := by omega
    have hat : ∀ k : ℤ, -((ceilHalf (p d) : ℤ) + 1) ≤ x + k → x + k ≤ ceilHalf (p d) + 1 →
        latLine K p d Φ (j + Pi.single d k) = latLine K p d Ψ (j + Pi.single d k) := by
      intro k h1 h2
      refine hline _ fun e => ?_
      by_cases he : e = d
      · subst he
        simp [hjd']
        rw [abs_le]
        constructor <;> omega
      · simpa [he] using hjo e he
    have hface : ∀ (pos : String) (hpos : pos = "l" ∨ pos = "c" ∨ pos = "r") (y : ℤ),
        -1 ≤ x + y → x + y ≤ 1 →
        lsweep K d (ceilHalf (p d)) (wts (conservativeWeights (p d) pos)) (latLine K p d Φ)
          (j + Pi.single d y) =
        lsweep K d (ceilHalf (p d)) (wts (conservativeWeights (p d) pos)) (latLine K p d Ψ)
          (j + Pi.single d y) := by
      intro pos hpos y hy1 hy2
      refine lsweep_congr d _ _ (wts_c_len (hp d) pos hpos).le _ _ _ fun k h1 h2 => ?_
      rw [add_assoc, ← Pi.single_add]
      exact hat _ (by omega) (by omega)
    have hR := hface "r" (by simp) (-1) (by omega) (by omega)
    have hL := hface "l" (by simp) 0 (by omega) (by omega)
    have em : j + Pi.single d (-1) = j - Pi.single d 1 := by rw [Pi.single_neg, sub_eq_add_neg]
    rw [em] at hR
    rw [Pi.single_zero, add_zero] at hL
    unfold latMid
    cases slope with
    | none => exact congrArg₂ riem hR hL
    | some s =>
      by_cases hp1 : p d = 1
      · have hc : (ceilHalf (p d) : ℤ) = 1 := by rw [hp1]; rfl
        have a0 := hat 0 (by omega) (by omega)
        have a1 := hat 1 (by omega) (by omega)
        have b1 := hat (-1) (by omega) (by omega)
        have b2 := hat (-2) (by omega) (by omega)
        rw [Pi.single_zero, add_zero] at a0
        rw [em] at b1
        have e2 : j - Pi.single d 1 - Pi.single d 1 = j + Pi.single d (-2) := by
          rw [sub_sub, ← Pi.single_add, sub_eq_add_neg, ← Pi.single_neg]; rfl
        have e3 : j - Pi.single d 1 + Pi.single d 1 = j := sub_add_cancel _ _
        simp only [latFaceR, latFaceL, if_pos hp1, latSlope, e2, e3, a0, a1, b1, b2]
      · simp only [latFaceR, latFaceL, if_neg hp1]
        exact congrArg₂ riem hR hL
  unfold latFlux
  rw [eq]
  have hm2 : Agree (latMid K riem p slope d Φ) (latMid K riem p slope d Ψ) (i + Pi.single d x)
      ((0 : Ix) + Pi.single q2 (ceilHalf (p q2) : ℤ) + Pi.single q1 (ceilHalf (p q1) : ℤ)) := by
    refine hmid.mono fun e => ?_
    rcases hcov' e with rfl | rfl | rfl
    · simp [k1d.symm, k2d.symm]
    · simp [k12, k1d]
    · simp [k12.symm, k2d]
  exact (hm2.trans (K := K) q1 (p q1) (hp q1)).trans (K := K) q2 (p q2) (hp q2) _ (by simp)

/-- How far the fluxes of degrees `p` at the faces of a cell look along an axis. -/
def fluxReach (S : Scheme K V) (p : Fin 3 → ℕ) (d : Fin 3) : ℕ :=
  if S.active d then max (3 * ceilHalf (p d) + 1) (4 * ceilHalf (p d)) else 0

theorem fluxReach_le (S : Scheme K V) (p : Fin 3 → ℕ) (d : Fin 3) : fluxReach S p d ≤ fluxWidth S p d := by
  have := fluxGw_bound p d
  unfold fluxReach fluxWidth
  split <;> omega

theorem faces_within (S : Scheme K V) (p : Fin 3 → ℕ) (hp : ∀ d, p d ≤ 8) (hin : ∀ d, S.active d = false → p d = 0)
    (slope : Option (V → V → V)) (t : K) (gl gr : Fin 3 → Ghost V) (hs : Sides S (fluxWidth S p) t gl gr) (i : Ix)
    (hi : InCells S.n i) (u v : Ix → V) (h : ∀ j, CellsAway S (fluxReach S p) i j → u j = v j) (d : Fin 3)
    (hd : S.active d = true) (x : ℤ) (hx : x = 0 ∨ x = 1) :
    schemeFlux S p slope (extAll S.n gl gr u) d (i + Pi.single d x) =
      schemeFlux S p slope (extAll S.n gl gr v) d (i + Pi.single d x) := by
  have hU := extAll_away S _ t gl gr hs _ (fluxReach_le S p) i hi u v h
  refine Agree.slopeFlux (K := K) (S.riem d) p hp slope d x hx ?_
  refine Agree.prim S.prim p hp (hU.mono fun e => ?_)
  unfold fluxReach
  by_cases he : e = d
  · subst he
    simp only [hd, if_true]
    push_cast
    omega
  · simp only [if_neg he]
    by_cases ha : S.active e = true
    · simp only [ha, if_true]
      push_cast
      omega
    · have ha' : S.active e = false := by simpa using ha
      simp [ha', hin e ha', ceilHalf]

theorem latDiv_faces (S : Scheme K V) (F G : Fin 3 → Ix → V) (i : Ix)
    (h : ∀ d, S.active d = true → ∀ x : ℤ, x = 0 ∨ x = 1 → F d (i + Pi.single d x) = G d (i + Pi.single d x)) :
    latDiv S.active S.h F i = latDiv S.active S.h G i := by
  unfold latDiv
  refine Finset.sum_congr rfl fun d _ => ?_
  by_cases hd : S.active d = true
  · rw [if_pos hd, if_pos hd, h d hd 1 (Or.inr rfl)]
    have := h d hd 0 (Or.inl rfl)
    rw [Pi.single_zero, add_zero] at this
    rw [this]
  · rw [if_neg hd, if_neg hd]

end general

variable {np : ℕ}

/-- In mode "local" the verdict on a cell depends on the values at most three cells away. -/
theorem reported_within (o : DetectOpts K) (hm : o.mode = "local") (dims : List (Fin 3)) (n : Fin 3 → ℕ)
    (W W' U U' : Ix → State K 0) (i : Ix) (h : Agree W U i (fun d => detPad dims d))
    (h' : Agree W' U' i (fun d => detPad dims d)) :
    Reported o dims n W W' i ↔ Reported o dims n U U' i := by
  have gl : ("local" = "global") = False := by decide
  have self : ∀ {A B : Ix → State K 0}, Agree A B i (fun d => detPad dims d) → A i = B i :=
    fun hA => hA i fun d => by simp
  have hnbr : (neighbours dims i).map (fun k => W k) = (neighbours dims i).map fun k => U k := by
    refine List.map_congr_left fun k hk => h k fun d => ?_
    have := (mem_neighbours dims i k).1 hk d
    show |k d - i d| ≤ ((if d ∈ dims then 3 else 0 : ℕ) : ℤ)
    by_cases hd : d ∈ dims
    · rw [if_pos hd] at this ⊢
      push_cast
      omega
    · rw [if_neg hd] at this
      rw [this]
      simp [hd]
  have hmap : ∀ v, (neighbours dims i).map (fun k => W k v) = (neighbours dims i).map fun k => U k v := by
    intro v
    have := congrArg (List.map fun s : State K 0 => s v) hnbr
    simpa [List.map_map] using this
  have elo : ∀ v, nLo dims W i v = nLo dims U i v := fun v => by unfold nLo; rw [hmap v]
  have ehi : ∀ v, nHi dims W i v = nHi dims U i v := fun v => by unfold nHi; rw [hmap v]
  have tlo : ∀ v, tolLo o dims n W i v = tolLo o dims n U i v := fun v => by
    unfold tolLo; simp only [hm, gl, if_false, elo, ehi]
  have thi : ∀ v, tolHi o dims n W i v = tolHi o dims n U i v := fun v => by
    unfold tolHi; simp only [hm, gl, if_false, elo, ehi]
  have hrough : ∀ v, Rough o.sedEps dims W' i v ↔ Rough o.sedEps dims U' i v := by
    intro v
    unfold Rough
    refine exists_congr fun d => and_congr_right fun hd => ?_
    have hat : ∀ k : ℤ, -3 ≤ k → k ≤ 3 → W' (i + Pi.single d k) v = U' (i + Pi.single d k) v := by
      intro k h1 h2
      refine congrFun (h' _ fun e => ?_) v
      by_cases he : e = d
      · subst he
        simp [detPad, hd, abs_le, h1, h2]
      · simp [he]
    have e0 := hat 0 (by omega) (by omega)
    have a1 := hat 1 (by omega) (by omega)
    have a2 := hat 2 (by omega) (by omega)
    have a3 := hat 3 (by omega) (by omega)
    have b1 := hat (-1) (by omega) (by omega)
    have b2 := hat (-2) (by omega) (by omega)
    have b3 := hat (-3) (by omega) (by omega)
    rw [Pi.single_zero, add_zero] at e0
    have es : ∀ j : Ix, j - Pi.single d 1 = j + Pi.single d (-1) := fun j => by
      rw [Pi.single_neg, sub_eq_add_neg]
    have : sedAlong o.sedEps d W' i v = sedAlong o.sedEps d U' i v := by
      unfold sedAlong sedAt cdiff
      simp only [es, add_assoc, ← Pi.single_add]
      norm_num [e0, a1, a2, a3, b1, b2, b3]
    rw [this]
  unfold Reported NadCell NadFlag
  simp only [tlo, thi, hrough, self h']

/-- The primitive values that the detector reads around a cell. -/
theorem seen_within (c : EulerConfig K np) (hp : ∀ d, c.p d ≤ 8) (t : K) (gl gr : Fin 3 → Ghost (State K np))
    (hs : Sides c.scheme (detectWidth c.scheme) t gl gr) (i : Ix) (hi : InCells c.n i) (u v : Ix → State K np)
    (h : ∀ j, CellsAway c.scheme (detectWidth c.scheme) i j → u j = v j) :
    Agree (seenPrim c gl gr u) (seenPrim c gl gr v) i (fun d => detPad c.dims d) := by
  have hU := extAll_away c.scheme _ t gl gr hs _ (fun _ => le_rfl) i hi u v h
  have := Agree.prim (K := K) (m := fun d => (detPad c.dims d : ℤ)) c.scheme.prim c.p hp (hU.mono fun d => by
    rw [detPad_dims]
    unfold detectWidth
    show _ ≤ (((if c.scheme.active d then 3 else 0) + 2 * ceilHalf (c.p d) : ℕ) : ℤ)
    push_cast
    rfl)
  exact fun j hj => congrArg activePart (this j hj)

/-- How far the spreading of the flags reaches from the faces of a cell. -/
def flagReach (o : LimiterOpts K) : ℕ := if o.convex then 3 else 1

/-- Troubled cells close to a cell determine the weights at its faces. -/
theorem theta_within (c : EulerConfig K np) (o : LimiterOpts K) (tr tr' : Arr Bool)
    (hsh : tr.shape = c.n) (hsh' : tr'.shape = c.n) (theta theta' : Fin 3 → Arr K)
    (hb : broadcastTrouble K o.convex c.isPeriodic c.dims tr = .ok theta)
    (hb' : broadcastTrouble K o.convex c.isPeriodic c.dims tr' = .ok theta') (i : Ix) (hi : InCells c.n i)
    (h : ∀ j : Ix, (∀ d, |j d - i d| ≤ flagReach o) → (Troubled tr j ↔ Troubled tr' j)) (d : Fin 3) (hd : d ∈ c.dims)
    (x : ℤ) (hx : x = 0 ∨ x = 1) :
    (theta d).get (i + Pi.single d x) = (theta' d).get (i + Pi.single d x) := by
  have f : InFaces c.n d (i + Pi.single d x) := by
    intro e
    have := hi e
    rw [Pi.add_apply]
    by_cases he : e = d
    · subst he; rw [Pi.single_eq_same, Pi.single_eq_same]; omega
    · rw [Pi.single_eq_of_ne he, Pi.single_eq_of_ne he]; omega
  unfold flagReach at h
  cases hcv : o.convex with
  | false =>
    rw [hcv] at hb hb' h
    obtain ⟨th, h1, h2⟩ := C35_simple (K := K) c.isPeriodic c.dims tr
    rw [hb] at h1
    cases h1
    obtain ⟨th', h1', h2'⟩ := C35_simple (K := K) c.isPeriodic c.dims tr'
    rw [hb'] at h1'
    cases h1'
    obtain ⟨g1, g2⟩ := (h2 d).2 _ (by rw [hsh]; exact f)
    obtain ⟨g1', g2'⟩ := (h2' d).2 _ (by rw [hsh']; exact f)
    have near : ∀ k : ℤ, -1 ≤ x + k → x + k ≤ 1 → (Troubled tr (i + Pi.single d x + Pi.single d k) ↔
        Troubled tr' (i + Pi.single d x + Pi.single d k)) := by
      intro k k1 k2
      refine h _ fun e => ?_
      by_cases he : e = d
      · subst he
        simp [abs_le]
        constructor <;> omega
      · simp [he]
    have n0 := near 0 (by omega) (by omega)
    have n1 := near (-1) (by omega) (by omega)
    rw [Pi.single_zero, add_zero] at n0
    rw [Pi.single_neg, ← sub_eq_add_neg] at n1
    by_cases q : d ∈ c.dims ∧ (Troubled tr (i + Pi.single d x - Pi.single d 1) ∨ Troubled tr (i + Pi.single d x))
    · rw [g1 q, g1' (by rwa [n0, n1] at q)]
    · rw [g2 q, g2' (by rwa [n0, n1] at q)]
  | true =>
    rw [hcv] at hb hb' h
    simp only [if_true] at h
    have hdims : (∃ a, c.dims = [a]) ∨ ∃ a b, c.dims = [a, b] := by
      cases hq : c.dims with
      | nil => rw [hq] at hd; cases hd
      | cons a l =>
        cases l with
        | nil => exact Or.inl ⟨a, rfl⟩
        | cons b l =>
          cases l with
          | nil => exact Or.inr ⟨a, b, rfl⟩
          | cons e l =>
            exfalso
            rw [hq] at hb
            unfold broadcastTrouble at hb
            simp only [if_true, bind, Except.bind] at hb
            cases h1 : allocTrouble (tr.map flag : Arr K) (a :: b :: e :: l) with
            | error x => rw [h1] at hb; cases hb
            | ok A =>
              rw [h1] at hb
              dsimp only at hb
              cases h2 : List.foldlM (wrapTrouble (tr.map flag : Arr K) (a :: b :: e :: l) c.isPeriodic) A
                  [0, 1, 2] with
              | error x => rw [h2] at hb; cases hb
              | ok B =>
                rw [h2] at hb
                dsimp only at hb
                cases l <;> cases hb
    rcases hdims with ⟨a, ha⟩ | ⟨a, b, hab⟩
    · rw [ha] at hb hb' hd
      have hda : d = a := by simpa using hd
      subst hda
      have h1 : ∀ e, e ≠ d → c.n e = 1 := fun e he => dims_cells c e (by rw [ha]; simpa using he)
      rw [(convex_line tr d (by rw [hsh]; exact h1) _ theta hb).2.1 _ (by rw [hsh]; exact f),
        (convex_line tr' d (by rw [hsh']; exact h1) _ theta' hb').2.1 _ (by rw [hsh']; exact f)]
      have lev : ∀ j : Ix, (∀ e, |j e - i e| ≤ 1) → lineLevel K (Troubled tr) d j = lineLevel K (Troubled tr') d j := by
        intro j hj
        refine lineLevel_move _ _ d j j 1 (Or.inl rfl) fun k k1 k2 => ?_
        rw [one_mul]
        refine h _ fun e => ?_
        have := hj e
        rw [abs_le] at this ⊢
        by_cases he : e = d
        · subst he
          simp [off]
          constructor <;> omega
        · simp [off, he]
          constructor <;> omega
      congr 1
      · refine lev _ fun e => ?_
        rw [abs_le]
        by_cases he : e = d
        · subst he; simp [off]; omega
        · simp [off, he]
      · refine lev _ fun e => ?_
        rw [abs_le]
        by_cases he : e = d
        · subst he; simp; omega
        · simp [he]
    · have hlt : a < b := by
        have := dims_sorted c
        rw [hab] at this
        simpa using this
      rw [hab] at hb hb' hd
      have hd' : d = a ∨ d = b := by simpa using hd
      have h1 : ∀ e, e ≠ a → e ≠ b → c.n e = 1 := fun e h5 h6 => dims_cells c e (by rw [hab]; simp [h5, h6])
      rw [(convex_plane tr a b hlt (by rw [hsh]; exact h1) _ theta hb).2.1 d hd' _ (by rw [hsh]; exact f),
        (convex_plane tr' a b hlt (by rw [hsh']; exact h1) _ theta' hb').2.1 d hd' _ (by rw [hsh']; exact f)]
      have lev : ∀ j : Ix, (∀ e, |j e - i e| ≤ 1) →
          planeLevel K (Troubled tr) a b j = planeLevel K (Troubled tr') a b j := by
        intro j hj
        refine planeLevel_move _ _ a b j j 1 1 (Or.inl rfl) (Or.inl rfl) fun k l k1 k2 l1 l2 => ?_
        rw [one_mul, one_mul]
        refine h _ fun e => ?_
        have := hj e
        rw [abs_le] at this ⊢
        by_cases he : e = a
        · subst he
          simp [off, hlt.ne]
          constructor <;> omega
        · by_cases he' : e = b
          · subst he'
            simp [off, hlt.ne']
            constructor <;> omega
          · simp [off, he, he']
            constructor <;> omega
      congr 1
      · refine lev _ fun e => ?_
        rw [abs_le]
        by_cases he : e = d
        · subst he; simp [off]; omega
        · simp [off, he]
      · refine lev _ fun e => ?_
        rw [abs_le]
        by_cases he : e = d
        · subst he; simp; omega
        · simp [he]

end FVHOE
