import Verif.Proofs.Images
import Verif.Model.Limiter

/-! Fluxes through reflective walls, and domains closed by walls and periodic axes. -/

set_option linter.unusedSectionVars false

namespace FVHOE

variable {K : Type} [Field K] [LinearOrder K] [IsStrictOrderedRing K] {np : ℕ}

open Classical in
theorem lsweep_near_mem {V : Type} [AddCommGroup V] [Module K V] (S : Submodule K V) (d : Fin 3) (r : ℕ) (ws : List ℚ)
    (hl : ws.length ≤ 2 * r + 1) (Φ : Ix → V) (i : Ix)
    (h : ∀ k : ℤ, -(r : ℤ) ≤ k → k ≤ r → Φ (i + Pi.single d k) ∈ S) : lsweep K d r ws Φ i ∈ S := by
  rw [lsweep_congr d r ws hl Φ (fun j => if Φ j ∈ S then Φ j else 0) i fun k h1 h2 => by
    rw [if_pos (h k h1 h2)]]
  refine lsweep_mem S d r ws _ (fun j => ?_) i
  split_ifs with hj
  · exact hj
  · exact S.zero_mem

/-- Flux vectors that carry only momentum along axis `d`. -/
def normalOnly (K : Type) [Field K] (np : ℕ) (d : Fin 3) : Submodule K (State K np) where
  carrier := {v | ∀ i, i ≠ .mom d → v i = 0}
  add_mem' := fun ha hb i hi => by simp [ha i hi, hb i hi]
  zero_mem' := fun _ _ => rfl
  smul_mem' := fun c x hx i hi => by simp [hx i hi]

theorem normalOnly_of_mirror {d : Fin 3} {v : State K np} (h : v = -mirrorState d v) : v ∈ normalOnly K np d := by
  intro i hi
  have h1 : v i = -(mirrorState d v i) := congrFun h i
  have h2 : mirrorState d v i = v i := by
    cases i with
    | mom e => exact if_neg fun he => hi (by rw [he])
    | _ => rfl
  rw [h2] at h1
  linarith

/-- A slope function that commutes with looking at the data from the other side. -/
def SlopeMirror (d : Fin 3) (slope : Option (State K np → State K np → State K np)) : Prop :=
  ∀ s, slope = some s → ∀ a b, s (-mirrorState d b) (-mirrorState d a) = -mirrorState d (s a b)

theorem tau_only' (b : Ix) (d : Fin 3) (i : Ix) : tau 1 (only d) b i = Function.update i d (b d - i d) := by
  funext e
  have hs : (1 : Equiv.Perm (Fin 3)).symm e = e := rfl
  unfold tau only
  rw [hs]
  by_cases he : e = d
  · subst he
    simp
  · simp [he]

theorem mirror_sub (d : Fin 3) (v w : State K np) : mirrorState d (v - w) = mirrorState d v - mirrorState d w := by
  rw [← turn_only, ← turn_only, ← turn_only, map_sub]

theorem mirror_smul (d : Fin 3) (c : K) (v : State K np) : mirrorState d (c • v) = c • mirrorState d v := by
  rw [← turn_only, ← turn_only, map_smul]

theorem update_add_single (i : Ix) (d : Fin 3) (x y : ℤ) :
    Function.update i d x + Pi.single d y = Function.update i d (x + y) := by
  funext e
  by_cases he : e = d
  · subst he; simp
  · simp [he]

theorem update_sub_single (i : Ix) (d : Fin 3) (x y : ℤ) :
    Function.update i d x - Pi.single d y = Function.update i d (x - y) := by
  funext e
  by_cases he : e = d
  · subst he; simp
  · simp [he]

/-- The two values at a wall face are mirror images of each other. -/
theorem wall_faces {p : ℕ} (hp : p ≤ 8) (d : Fin 3) (slope : Option (State K np → State K np → State K np))
    (hsl : SlopeMirror d slope) (Ψ : Ix → State K np) (x : ℤ)
    (hΨ : ∀ i, Ψ (Function.update i d (2 * x - 1 - i d)) = mirrorState d (Ψ i)) (j : Ix) (hj : j d = x) :
    latFaceR K p d slope Ψ (j - Pi.single d 1) = mirrorState d (latFaceL K p d slope Ψ j) := by
  have hsym : (fun i => turnState K np 1 (only d) (Ψ (tau 1 (only d) (fun _ => 2 * x - 1) i))) = Ψ := by
    funext i
    rw [tau_only', turn_only, hΨ, mirror_mirror]
  have ho : only d d = true := by simp [only]
  have hlin : latR K p d Ψ (j - Pi.single d 1) = mirrorState d (latL K p d Ψ j) := by
    have := congrFun (latR_tau 1 (only d) (fun _ => 2 * x - 1) (turnState K np 1 (only d)) hp d Ψ) (j - Pi.single d 1)
    rw [hsym, tau_only', turn_only, if_pos ho] at this
    rw [this]
    congr 2
    funext e
    by_cases he : e = d
    · subst he; simp [hj]; ring
    · simp [he]
  unfold latFaceR latFaceL
  cases slope with
  | none => exact hlin
  | some s =>
    dsimp only
    by_cases h1 : p = 1
    · rw [if_pos h1, if_pos h1]
      have e0 : j - Pi.single d 1 = Function.update j d (2 * x - 1 - j d) := by
        rw [hj]
        funext e
        by_cases he : e = d
        · subst he; simp [hj]; ring
        · simp [he]
      have e1 : j - Pi.single d 1 - Pi.single d 1 = Function.update (j + Pi.single d 1) d
          (2 * x - 1 - (j + Pi.single d 1 : Ix) d) := by
        funext e
        by_cases he : e = d
        · subst he; simp [hj]; ring
        · simp [he]
      have q0 : Ψ (j - Pi.single d 1) = mirrorState d (Ψ j) := by rw [e0, hΨ]
      have q1 : Ψ (j - Pi.single d 1 - Pi.single d 1) = mirrorState d (Ψ (j + Pi.single d 1)) := by rw [e1, hΨ]
      have hs : latSlope d s Ψ (j - Pi.single d 1) = -mirrorState d (latSlope d s Ψ j) := by
        unfold latSlope
        rw [← hsl s rfl, sub_add_cancel, q1, q0]
        congr 1
        · rw [mirror_sub]; abel
        · rw [mirror_sub, mirror_mirror]; abel
      rw [hs, q0, mirror_sub, mirror_smul, smul_neg, ← sub_eq_add_neg]
    · rw [if_neg h1, if_neg h1]
      exact hlin

/-- Through a wall face there is a flux of normal momentum only. -/
theorem wall_flux {p : Fin 3 → ℕ} (hp : ∀ e, p e ≤ 8) (d : Fin 3)
    (slope : Option (State K np → State K np → State K np)) (hsl : SlopeMirror d slope)
    (k : RiemannKind) (G : Gas K) (W : Ix → State K np) (x : ℤ)
    (hW : ∀ i, W (Function.update i d (2 * x - 1 - i d)) = mirrorState d (W i)) (j : Ix) (hj : j d = x)
    (hk : k = .llf ∨ (k = .hllc ∧ G.OK ∧
      ∀ i, NearFace p d j i → Physical (latFaceL K (p d) d slope (latLine K p d W) i))) :
    latFlux K (riemann k G d) p slope d W j ∈ normalOnly K np d := by
  have hsym : (fun i => turnState K np 1 (only d) (W (tau 1 (only d) (fun _ => 2 * x - 1) i))) = W := by
    funext i
    rw [tau_only', turn_only, hW, mirror_mirror]
  have hline : ∀ i, latLine K p d W (Function.update i d (2 * x - 1 - i d)) = mirrorState d (latLine K p d W i) := by
    intro i
    have := congrFun (latLine_tau 1 (only d) (fun _ => 2 * x - 1) (turnState K np 1 (only d)) hp d W) i
    rw [hsym, tau_only', turn_only] at this
    change latLine K p d W i = mirrorState d (latLine K p d W _) at this
    rw [this, mirror_mirror]
  have ho : only d d = true := by simp [only]
  have hmid : ∀ i, NearFace p d j i → latMid K (riemann k G d) p slope d W i ∈ normalOnly K np d := by
    intro i hi
    unfold latMid
    rw [wall_faces (hp d) d slope hsl _ x hline i (hi.1.trans hj)]
    generalize hy : latFaceL K (p d) d slope (latLine K p d W) i = y
    refine normalOnly_of_mirror ?_
    have := riemann_match 1 (only d) k G d (mirrorState d y) y fun _ => by
      rcases hk with hk | ⟨hk, hG, hP⟩
      · exact .inl hk
      · have := hP i hi
        rw [hy] at this
        exact .inr ⟨hk, hG, ⟨this.rho, this.press⟩, this⟩
    unfold FluxMatch at this
    rw [if_pos ho, turn_only, turn_only, turn_only, mirror_mirror] at this
    exact this
  obtain ⟨o1, o2, o3⟩ := transverseOrder_ok d
  have hcov := cov3 d _ _ o3 o1 o2
  unfold latFlux latT
  have n1 : d ≠ (transverseOrder d).1 := o1.symm
  have n2 : d ≠ (transverseOrder d).2 := o2.symm
  refine lsweep_near_mem _ _ _ _ (wts_t_len (hp _)).le _ _ fun a ha1 ha2 => ?_
  refine lsweep_near_mem _ _ _ _ (wts_t_len (hp _)).le _ _ fun b hb1 hb2 => hmid _ ⟨?_, fun e he => ?_⟩
  · simp only [Pi.add_apply, Pi.single_eq_of_ne n1, Pi.single_eq_of_ne n2, add_zero]
  · rcases hcov e with rfl | rfl | rfl
    · exact absurd rfl he
    · simp only [Pi.add_apply, Pi.single_eq_same, Pi.single_eq_of_ne o3, add_zero, add_sub_cancel_left]
      rw [abs_le]; constructor <;> omega
    · simp only [Pi.add_apply, Pi.single_eq_same, Pi.single_eq_of_ne o3.symm, add_zero, add_sub_cancel_left]
      rw [abs_le]; constructor <;> omega

/-! ### The slope limiters -/

theorem minmod_neg (tiny : K) (ht : 0 < tiny) (a b : K) : minmod tiny (-a) (-b) = -minmod tiny a b := by
  unfold minmod
  rcases lt_trichotomy a 0 with h | h | h
  · have h1 : -a > 0 := by linarith
    have h2 : ¬ a > 0 := by linarith
    simp only [if_pos h1, if_neg h2]
    by_cases h3 : a < -tiny
    · have h4 : -a > tiny := by linarith
      simp only [if_pos h3, if_pos h4, neg_div_neg_eq]
      ring
    · have h4 : ¬ -a > tiny := by linarith
      simp only [if_neg h3, if_neg h4, neg_div, div_neg]
      ring
  · subst h
    simp
  · have h1 : ¬ -a > 0 := by linarith
    simp only [if_neg h1, if_pos h]
    by_cases h3 : a > tiny
    · have h4 : -a < -tiny := by linarith
      simp only [if_pos h3, if_pos h4, neg_div_neg_eq]
      ring
    · have h4 : ¬ -a < -tiny := by linarith
      simp only [if_neg h3, if_neg h4, neg_div_neg_eq]
      ring

theorem minmod_pos (tiny : K) (ht : 0 < tiny) {a b : K} (ha : 0 < a) (hb : 0 < b) :
    minmod tiny a b = if a ≤ tiny ∧ b ≤ tiny then a * b / tiny else min a b := by
  unfold minmod
  simp only [if_pos (show a > 0 from ha)]
  by_cases h1 : a > tiny
  · have h2 : ¬ (a ≤ tiny ∧ b ≤ tiny) := fun h => by linarith [h.1]
    have h3 : 0 < b / a := div_pos hb ha
    simp only [if_pos h1, if_neg h2]
    by_cases h4 : b / a < 1
    · have : b < a := by rwa [div_lt_one ha] at h4
      simp only [if_pos h4, if_pos (show b / a > 0 from h3), min_eq_right this.le]
      field_simp
    · have : a ≤ b := by rwa [not_lt, one_le_div ha] at h4
      simp only [if_neg h4, if_pos (show (1 : K) > 0 from one_pos), min_eq_left this, one_mul]
  · have h3 : 0 < b / tiny := div_pos hb ht
    simp only [if_neg h1]
    by_cases h4 : b / tiny < 1
    · have : b < tiny := by rwa [div_lt_one ht] at h4
      have h2 : a ≤ tiny ∧ b ≤ tiny := ⟨not_lt.1 h1, this.le⟩
      simp only [if_pos h4, if_pos (show b / tiny > 0 from h3), if_pos h2]
      ring
    · have h5 : tiny ≤ b := by rwa [not_lt, one_le_div ht] at h4
      simp only [if_neg h4, if_pos (show (1 : K) > 0 from one_pos), one_mul]
      by_cases h2 : a ≤ tiny ∧ b ≤ tiny
      · have : b = tiny := le_antisymm h2.2 h5
        rw [if_pos h2, this]
        field_simp
      · rw [if_neg h2, min_eq_left ((not_lt.1 h1).trans h5)]

theorem minmod_opposite (tiny : K) (ht : 0 < tiny) {a b : K} (h : a * b ≤ 0) : minmod tiny a b = 0 := by
  unfold minmod
  rcases lt_trichotomy a 0 with ha | ha | ha
  · have hb : 0 ≤ b := by
      by_contra hb
      nlinarith [mul_pos_of_neg_of_neg ha (not_le.1 hb)]
    have h2 : ¬ a > 0 := by linarith
    simp only [if_neg h2]
    have hd : (if a < -tiny then a else -tiny) < 0 := by split_ifs <;> linarith
    have hr : b / (if a < -tiny then a else -tiny) ≤ 0 := div_nonpos_of_nonneg_of_nonpos hb hd.le
    have h1 : b / (if a < -tiny then a else -tiny) < 1 := lt_of_le_of_lt hr one_pos
    rw [if_pos h1, if_neg (not_lt.2 hr), zero_mul]
  · subst ha; simp
  · have hb : b ≤ 0 := by
      by_contra hb
      nlinarith [mul_pos ha (not_le.1 hb)]
    simp only [if_pos (show a > 0 from ha)]
    have hd : 0 < (if a > tiny then a else tiny) := by split_ifs <;> linarith
    have hr : b / (if a > tiny then a else tiny) ≤ 0 := div_nonpos_of_nonpos_of_nonneg hb hd.le
    have h1 : b / (if a > tiny then a else tiny) < 1 := lt_of_le_of_lt hr one_pos
    rw [if_pos h1, if_neg (not_lt.2 hr), zero_mul]

theorem minmod_comm (tiny : K) (ht : 0 < tiny) (a b : K) : minmod tiny a b = minmod tiny b a := by
  have pos : ∀ a b : K, 0 < a → 0 < b → minmod tiny a b = minmod tiny b a := by
    intro a b ha hb
    rw [minmod_pos tiny ht ha hb, minmod_pos tiny ht hb ha, mul_comm b a, min_comm b a]
    simp only [and_comm]
  by_cases h : a * b ≤ 0
  · rw [minmod_opposite tiny ht h, minmod_opposite tiny ht (by rwa [mul_comm])]
  · rw [not_le, mul_pos_iff] at h
    rcases h with ⟨ha, hb⟩ | ⟨ha, hb⟩
    · exact pos a b ha hb
    · have := pos (-a) (-b) (by linarith) (by linarith)
      rw [minmod_neg tiny ht, minmod_neg tiny ht] at this
      exact neg_injective this

theorem moncen_comm (a b : K) : moncen a b = moncen b a := by
  unfold moncen
  rw [add_comm a b, min_comm |2 * a|, mul_comm a b]

theorem moncen_neg (a b : K) : moncen (-a) (-b) = -moncen a b := by
  have hs : npSign ((1 / 2) * (-a + -b)) = -npSign ((1 / 2) * (a + b)) := by
    rw [show (1 / 2 : K) * (-a + -b) = -(1 / 2 * (a + b)) by ring]
    unfold npSign
    generalize (1 / 2 : K) * (a + b) = c
    rcases lt_trichotomy c 0 with h | h | h
    · rw [if_pos (show -c > 0 by linarith), if_neg (show ¬ c > 0 by linarith), if_pos h, neg_neg]
    · subst h; simp
    · rw [if_neg (show ¬ -c > 0 by linarith), if_pos (show -c < 0 by linarith), if_pos (show c > 0 from h)]
  unfold moncen
  dsimp only
  rw [hs, show (1 / 2 : K) * (-a + -b) = -(1 / 2 * (a + b)) by ring, mul_neg 2 a, mul_neg 2 b, abs_neg, abs_neg, abs_neg,
    neg_mul_neg]
  split_ifs <;> ring

/-- The limiters of the fallback scheme commute with looking from the other side. -/
theorem slopeKind_mirror (tiny : K) (ht : 0 < tiny) (o : Option SlopeKind) (d : Fin 3) :
    SlopeMirror (np := np) d (o.map (SlopeKind.fn tiny)) := by
  have key : ∀ (f : K → K → K), (∀ a b, f a b = f b a) → (∀ a b, f (-a) (-b) = -f a b) → ∀ a b : State K np,
      (fun v => f ((-mirrorState d b) v) ((-mirrorState d a) v)) = -mirrorState d (fun v => f (a v) (b v)) := by
    intro f h1 h2 a b
    funext v
    cases v with
    | mom e =>
      by_cases he : e = d
      · simp only [Pi.neg_apply, mirrorState, if_pos he, neg_neg]
        exact h1 _ _
      · simp only [Pi.neg_apply, mirrorState, if_neg he]
        rw [h2, h1]
    | rho => simp only [Pi.neg_apply, mirrorState]; rw [h2, h1]
    | en => simp only [Pi.neg_apply, mirrorState]; rw [h2, h1]
    | ps i => simp only [Pi.neg_apply, mirrorState]; rw [h2, h1]
  intro s hs a b
  cases o with
  | none => cases hs
  | some k =>
    cases hs
    cases k
    · exact key (minmod tiny) (minmod_comm tiny ht) (minmod_neg tiny ht) a b
    · exact key moncen moncen_comm moncen_neg a b

/-! ### Closed domains -/

/-- Along an axis, the cell whose value is seen at `z`. -/
def foldAx (wall : Bool) (N : ℕ) (z : ℤ) : ℤ :=
  if wall = true then if z % (2 * N : ℤ) < N then z % (2 * N : ℤ) else 2 * N - 1 - z % (2 * N : ℤ) else z % (N : ℤ)

/-- Whether it is seen in the mirror. -/
def flipAx (wall : Bool) (N : ℕ) (z : ℤ) : Bool := wall && decide ((N : ℤ) ≤ z % (2 * N : ℤ))

/-- Whether axis `d` lies between two reflective walls. -/
def EulerConfig.walled (c : EulerConfig K np) (d : Fin 3) : Bool :=
  c.scheme.active d && decide (c.bc.kind d .l = .reflective ∧ c.bc.kind d .r = .reflective)

/-- The state seen on the whole lattice: mirrored at the walls, repeated along the other axes. -/
def boxed (c : EulerConfig K np) (u : Ix → State K np) : Ix → State K np := fun i v =>
  match v with
  | .mom d => if flipAx (c.walled d) (c.n d) (i d) = true then -u (fun e => foldAx (c.walled e) (c.n e) (i e)) (.mom d)
    else u (fun e => foldAx (c.walled e) (c.n e) (i e)) (.mom d)
  | v => u (fun e => foldAx (c.walled e) (c.n e) (i e)) v

theorem foldAx_cell {wall : Bool} {N : ℕ} {z : ℤ} (h0 : 0 ≤ z) (h1 : z < N) : foldAx wall N z = z ∧ flipAx wall N z = false := by
  unfold foldAx flipAx
  rw [Int.emod_eq_of_lt (a := z) (b := 2 * N) h0 (by omega), Int.emod_eq_of_lt h0 h1]
  constructor
  · split_ifs <;> first | rfl | omega
  · simp
    intro _
    exact h1

theorem foldAx_flip {N : ℕ} (hN : 1 ≤ N) (z k : ℤ) :
    foldAx true N (2 * N * k - 1 - z) = foldAx true N z ∧ flipAx true N (2 * N * k - 1 - z) = !flipAx true N z := by
  have e : (2 * N * k - 1 - z) % (2 * N : ℤ) = 2 * N - 1 - z % (2 * N : ℤ) := by
    rw [show 2 * (N : ℤ) * k - 1 - z = (2 * N - 1 - z) + (2 * N) * (k - 1) by ring, Int.add_mul_emod_self_left]
    exact emod_flip (by omega) z
  have h1 := Int.emod_nonneg z (b := (2 * N : ℤ)) (by omega)
  have h2 := Int.emod_lt_of_pos z (b := (2 * N : ℤ)) (by omega)
  unfold foldAx flipAx
  rw [e]
  generalize z % (2 * N : ℤ) = r at *
  constructor
  · simp only [if_true]
    split_ifs <;> omega
  · by_cases h : (N : ℤ) ≤ r
    · have : ¬ (N : ℤ) ≤ 2 * N - 1 - r := by omega
      simp [h, this]
    · have : (N : ℤ) ≤ 2 * N - 1 - r := by omega
      simp [h, this]

theorem boxed_cell (c : EulerConfig K np) (u : Ix → State K np) (i : Ix) (hi : InCells c.n i) : boxed c u i = u i := by
  have h1 : (fun e => foldAx (c.walled e) (c.n e) (i e)) = i := by
    funext e
    exact (foldAx_cell (hi e).1 (hi e).2).1
  funext v
  unfold boxed
  rw [h1]
  cases v with
  | mom d =>
    dsimp only
    rw [(foldAx_cell (hi d).1 (hi d).2).2, if_neg (by simp)]
  | _ => rfl

/-- The seen state is symmetric about every wall. -/
theorem boxed_mirror (c : EulerConfig K np) (hn : ∀ e, 1 ≤ c.n e) (u : Ix → State K np) (d : Fin 3)
    (hd : c.walled d = true) (k : ℤ) (i : Ix) :
    boxed c u (Function.update i d (2 * c.n d * k - 1 - i d)) = mirrorState d (boxed c u i) := by
  obtain ⟨f1, f2⟩ := foldAx_flip (hn d) (i d) k
  have h1 : (fun e => foldAx (c.walled e) (c.n e) (Function.update i d (2 * c.n d * k - 1 - i d) e)) =
      fun e => foldAx (c.walled e) (c.n e) (i e) := by
    funext e
    by_cases he : e = d
    · subst he
      rw [Function.update_self, hd, f1]
    · rw [Function.update_of_ne he]
  funext v
  unfold boxed
  rw [h1]
  cases v with
  | mom e =>
    simp only [mirrorState]
    by_cases he : e = d
    · subst he
      rw [Function.update_self, hd, f2, if_pos rfl]
      cases flipAx true (c.n e) (i e) <;> simp
    · rw [Function.update_of_ne he, if_neg he]
  | _ => rfl

/-- The seen state repeats along the other axes. -/
theorem boxed_period (c : EulerConfig K np) (u : Ix → State K np) (d : Fin 3) (hd : c.walled d = false) (x : ℤ) (i : Ix)
    (hx : x % (c.n d : ℤ) = i d % (c.n d : ℤ)) : boxed c u (Function.update i d x) = boxed c u i := by
  have h1 : (fun e => foldAx (c.walled e) (c.n e) (Function.update i d x e)) =
      fun e => foldAx (c.walled e) (c.n e) (i e) := by
    funext e
    by_cases he : e = d
    · subst he
      rw [Function.update_self, hd]
      unfold foldAx
      rw [if_neg (by simp), if_neg (by simp), hx]
    · rw [Function.update_of_ne he]
  funext v
  unfold boxed
  rw [h1]
  cases v with
  | mom e =>
    dsimp only
    by_cases he : e = d
    · subst he
      rw [Function.update_self, hd]
      rfl
    · rw [Function.update_of_ne he]
  | _ => rfl

/-- Every active axis is periodic or lies between two reflective walls. -/
structure ClosedBox (c : EulerConfig K np) : Prop where
  cells : ∀ d, 1 ≤ c.n d
  degree : ∀ d, c.p d ≤ 8
  closed : ∀ d, c.scheme.active d = true → (∀ s, c.bc.kind d s = .reflective) ∨ (∀ s, c.bc.kind d s = .periodic)

/-- The continuation by the boundary conditions is what is seen. -/
theorem ClosedBox.padded {c : EulerConfig K np} (h : ClosedBox c) (u : Ix → State K np) :
    padded c.scheme (boxed c u) = boxed c u := by
  have key : ∀ d, extAxis (c.n d) d (c.scheme.ghost .l d) (c.scheme.ghost .r d) (boxed c u) = boxed c u := by
    intro d
    have hwrap : c.walled d = false → (∀ s, c.scheme.ghost s d = .wrap) →
        extAxis (c.n d) d (c.scheme.ghost .l d) (c.scheme.ghost .r d) (boxed c u) = boxed c u := by
      intro hw hg
      rw [hg, hg]
      funext i
      unfold extAxis Ghost.left Ghost.right
      dsimp only
      rw [boxed_period c u d hw _ i (Int.emod_emod_of_dvd _ (dvd_refl _)), ite_self, ite_self]
    by_cases ha : c.scheme.active d = true
    · rcases h.closed d ha with hk | hk
      · have hw : c.walled d = true := by simp [EulerConfig.walled, ha, hk]
        have hg : ∀ s, c.scheme.ghost s d = .mirror (negateMom d) := by
          intro s
          unfold Scheme.ghost
          rw [if_pos ha, show c.scheme.bc.kind d s = .reflective from hk s]
          rfl
        rw [hg, hg]
        funext i
        have h0 := boxed_mirror c h.cells u d hw 0 i
        have h1 := boxed_mirror c h.cells u d hw 1 i
        rw [mul_zero, zero_sub] at h0
        rw [mul_one] at h1
        unfold extAxis Ghost.left Ghost.right
        dsimp only
        rw [h0, h1, negateMom_mirror, mirror_mirror, ite_self, ite_self]
      · refine hwrap (by simp [EulerConfig.walled, hk]) fun s => ?_
        unfold Scheme.ghost
        rw [if_pos ha, show c.scheme.bc.kind d s = .periodic from hk s]
        rfl
    · refine hwrap (by simp [EulerConfig.walled, ha]) fun s => ?_
      unfold Scheme.ghost
      rw [if_neg ha]
  unfold FVHOE.padded extAll
  show extAxis (c.n 2) 2 _ _ (extAxis (c.n 1) 1 _ _ (extAxis (c.n 0) 0 _ _ _)) = _
  rw [key, key, key]

theorem ClosedBox.sides {c : EulerConfig K np} (h : ClosedBox c) (w : Fin 3 → ℕ)
    (hw : ∀ d, c.scheme.active d = true → w d ≤ c.n d) : PlainSides c.scheme w := by
  intro d hd
  rcases h.closed d hd with hk | hk
  · exact ⟨fun s => .inr ⟨.inr (.inl (hk s)), hw d hd⟩, fun e => by
      rw [show c.scheme.bc.kind d .r = .reflective from hk .r] at e; cases e⟩
  · exact ⟨fun s => .inr ⟨.inr (.inr (hk s)), hw d hd⟩, fun _ => hk .l⟩

/-- The values at the wall faces are physical. -/
def WallsPhysical (c : EulerConfig K np) (p : Fin 3 → ℕ) (slope : Option (State K np → State K np → State K np))
    (u : Ix → State K np) : Prop :=
  ∀ d, c.walled d = true → ∀ i j, InFaces c.n d i → (i d = 0 ∨ i d = c.n d) → NearFace p d i j →
    Physical (latFaceL K (p d) d slope (latLine K p d (latPrim K c.scheme.prim p (boxed c u))) j)

/-- The numerical flux treats the two sides of a wall alike. -/
def WallSolver (c : EulerConfig K np) (p : Fin 3 → ℕ) (slope : Option (State K np → State K np → State K np))
    (u : Ix → State K np) : Prop :=
  c.riem = .llf ∨ (c.riem = .hllc ∧ c.gas.OK ∧ WallsPhysical c p slope u)

/-- The primitive averages of the seen state are symmetric about every wall. -/
theorem boxed_prim {c : EulerConfig K np} (h : ClosedBox c) {p : Fin 3 → ℕ} (hp : ∀ e, p e ≤ 8) (u : Ix → State K np)
    (d : Fin 3) (hd : c.walled d = true) (k : ℤ) (i : Ix) :
    latPrim K c.scheme.prim p (boxed c u) (Function.update i d (2 * c.n d * k - 1 - i d)) =
      mirrorState d (latPrim K c.scheme.prim p (boxed c u) i) := by
  have hsym : (fun i => turnState K np 1 (only d) (boxed c u (tau 1 (only d) (fun _ => 2 * c.n d * k - 1) i))) =
      boxed c u := by
    funext i
    rw [tau_only', turn_only, boxed_mirror c h.cells u d hd, mirror_mirror]
  have := congrFun (latPrim_tau 1 (only d) (fun _ => 2 * c.n d * k - 1) (turnState K np 1 (only d)) hp c.scheme.prim
    (prim_turn 1 (only d) _) (boxed c u)) i
  rw [hsym, tau_only', turn_only] at this
  change latPrim K c.scheme.prim p (boxed c u) i = mirrorState d (latPrim K c.scheme.prim p (boxed c u) _) at this
  rw [this, mirror_mirror]

/-- Through the two walls of an axis there is a flux of normal momentum only. -/
theorem boxed_wall {c : EulerConfig K np} (h : ClosedBox c) {p : Fin 3 → ℕ} (hp : ∀ e, p e ≤ 8)
    (slope : Option (State K np → State K np → State K np)) (hsl : ∀ d, SlopeMirror d slope) (u : Ix → State K np)
    (hr : WallSolver c p slope u) (d : Fin 3) (hd : c.walled d = true) (i : Ix) (hi : InFaces c.n d i)
    (hw : i d = 0 ∨ i d = c.n d) : schemeFlux c.scheme p slope (boxed c u) d i ∈ normalOnly K np d := by
  have hx : ∃ k : ℤ, i d = c.n d * k := by
    rcases hw with e | e
    · exact ⟨0, by rw [e, mul_zero]⟩
    · exact ⟨1, by rw [e, mul_one]⟩
  obtain ⟨k, hk⟩ := hx
  refine wall_flux hp d slope (hsl d) c.riem c.gas _ (i d) (fun j => ?_) i rfl ?_
  · rw [hk, ← mul_assoc]
    exact boxed_prim h hp u d hd k j
  · rcases hr with e | ⟨e, hG, hP⟩
    · exact .inl e
    · exact .inr ⟨e, hG, fun j hj => hP d hd i j hi hw hj⟩

/-- The fluxes at the two ends of any other axis are the same. -/
theorem boxed_ends (c : EulerConfig K np) (p : Fin 3 → ℕ) (slope : Option (State K np → State K np → State K np))
    (u : Ix → State K np) (d : Fin 3) (hd : c.walled d = false) (i : Ix) :
    schemeFlux c.scheme p slope (boxed c u) d (i + Pi.single d (c.n d : ℤ)) =
      schemeFlux c.scheme p slope (boxed c u) d i := by
  have h1 : (fun i => boxed c u (i + Pi.single d (c.n d : ℤ))) = boxed c u := by
    funext i
    have e : i + Pi.single d (c.n d : ℤ) = Function.update i d (i d + c.n d) := by
      have := update_add_single i d (i d) (c.n d)
      rwa [Function.update_eq_self] at this
    rw [e]
    exact boxed_period c u d hd _ i (by simp)
  have h2 := schemeFlux_shift c.scheme p slope (boxed c u) d (Pi.single d (c.n d : ℤ))
  rw [h1] at h2
  exact (congrFun h2 i).symm

theorem layerSum_mem {V : Type} [AddCommGroup V] [Module K V] (N : Submodule K V) (n : Fin 3 → ℕ) (d : Fin 3) (x : ℤ)
    (f : Ix → V) (h : ∀ i, i d = x → (∀ e, e ≠ d → 0 ≤ i e ∧ i e < (n e : ℤ)) → f i ∈ N) : layerSum n d x f ∈ N := by
  unfold layerSum cellSum
  refine N.sum_mem fun a ha => N.sum_mem fun b hb => N.sum_mem fun c hc => h _ (Function.update_self ..) fun e he => ?_
  rw [Finset.mem_range] at ha hb hc
  rw [Function.update_of_ne he]
  match e with
  | 0 => rw [Function.update_of_ne he] at ha; simpa using ha
  | 1 => rw [Function.update_of_ne he] at hb; simpa using hb
  | 2 => rw [Function.update_of_ne he] at hc; simpa using hc

end FVHOE
