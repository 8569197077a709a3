import Mathlib.Tactic.IntervalCases
import Verif.Proofs.Lattice

/-! The lattice operators commute with exchanging and reversing axes. -/

set_option linter.unusedSectionVars false

namespace FVHOE

variable {K : Type} [Field K] [LinearOrder K] [IsStrictOrderedRing K]
variable {V : Type} [AddCommGroup V] [Module K V]

/-- The lattice point in the original problem belonging to a point `i` of the transformed problem: axis `d` of
the transformed problem is axis `σ d` of the original one, reversed about `b / 2` if `fl d`. -/
def tau (σ : Equiv.Perm (Fin 3)) (fl : Fin 3 → Bool) (b : Ix) (i : Ix) : Ix := fun e =>
  if fl (σ.symm e) = true then b e - i (σ.symm e) else i (σ.symm e)

theorem tau_apply (σ : Equiv.Perm (Fin 3)) (fl : Fin 3 → Bool) (b i : Ix) (d : Fin 3) :
    tau σ fl b i (σ d) = if fl d = true then b (σ d) - i d else i d := by
  unfold tau
  rw [Equiv.symm_apply_apply]

theorem tau_add (σ : Equiv.Perm (Fin 3)) (fl : Fin 3 → Bool) (b i : Ix) (d : Fin 3) (k : ℤ) :
    tau σ fl b (i + Pi.single d k) =
      tau σ fl b i + Pi.single (σ d) (if fl d = true then -k else k) := by
  funext e
  obtain ⟨e, rfl⟩ := σ.surjective e
  rw [Pi.add_apply, tau_apply, tau_apply, Pi.add_apply]
  by_cases h : e = d
  · subst h
    rw [Pi.single_eq_same, Pi.single_eq_same]
    split_ifs <;> ring
  · rw [Pi.single_eq_of_ne h, Pi.single_eq_of_ne (fun hx => h (σ.injective hx))]
    simp

theorem lsweep_tau (σ : Equiv.Perm (Fin 3)) (fl : Fin 3 → Bool) (b : Ix) (M : V →ₗ[K] V) (d : Fin 3) (r : ℕ)
    (ws : List ℚ) (hw : ws.length = 2 * r + 1) (Φ : Ix → V) :
    lsweep K d r ws (fun i => M (Φ (tau σ fl b i))) =
      fun i => M (lsweep K (σ d) r (if fl d = true then ws.reverse else ws) Φ (tau σ fl b i)) := by
  funext i
  rw [lsweep_map]
  unfold lsweep
  by_cases h : fl d = true
  · rw [if_pos h, wsum_reverse, hw, show 1 - -(r : ℤ) - ((2 * r + 1 : ℕ) : ℤ) = -r by push_cast; ring]
    refine wsum_congr _ _ fun k => ?_
    beta_reduce
    rw [tau_add, if_pos h]
  · rw [if_neg h]
    refine wsum_congr _ _ fun k => ?_
    beta_reduce
    rw [tau_add, if_neg h]

theorem wts_c_reverse {p : ℕ} (hp : p ≤ 8) :
    (wts (conservativeWeights p "c")).reverse = wts (conservativeWeights p "c") := by
  interval_cases p <;> decide +kernel

theorem wts_t_reverse {p : ℕ} (hp : p ≤ 8) :
    (wts (transverseWeights p)).reverse = wts (transverseWeights p) := by
  interval_cases p <;> decide +kernel

theorem wts_l_reverse {p : ℕ} (hp : p ≤ 8) :
    (wts (conservativeWeights p "l")).reverse = wts (conservativeWeights p "r") := by
  interval_cases p <;> decide +kernel

theorem wts_r_reverse {p : ℕ} (hp : p ≤ 8) :
    (wts (conservativeWeights p "r")).reverse = wts (conservativeWeights p "l") := by
  interval_cases p <;> decide +kernel

section
variable (σ : Equiv.Perm (Fin 3)) (fl : Fin 3 → Bool) (b : Ix) (M : V →ₗ[K] V)

theorem latC_tau {p : ℕ} (hp : p ≤ 8) (d : Fin 3) (Φ : Ix → V) :
    latC K p d (fun i => M (Φ (tau σ fl b i))) = fun i => M (latC K p (σ d) Φ (tau σ fl b i)) := by
  unfold latC
  rw [lsweep_tau σ fl b M d _ _ (wts_c_len hp _ (by decide)), wts_c_reverse hp, ite_self]

theorem latT_tau {p : ℕ} (hp : p ≤ 8) (d : Fin 3) (Φ : Ix → V) :
    latT K p d (fun i => M (Φ (tau σ fl b i))) = fun i => M (latT K p (σ d) Φ (tau σ fl b i)) := by
  unfold latT
  rw [lsweep_tau σ fl b M d _ _ (wts_t_len hp), wts_t_reverse hp, ite_self]

theorem latL_tau {p : ℕ} (hp : p ≤ 8) (d : Fin 3) (Φ : Ix → V) :
    latL K p d (fun i => M (Φ (tau σ fl b i))) = fun i =>
      M ((if fl d = true then latR K p (σ d) Φ else latL K p (σ d) Φ) (tau σ fl b i)) := by
  unfold latL latR
  rw [lsweep_tau σ fl b M d _ _ (wts_c_len hp _ (by decide)), wts_l_reverse hp]
  by_cases h : fl d = true
  · simp only [if_pos h]
  · simp only [if_neg h]

theorem latR_tau {p : ℕ} (hp : p ≤ 8) (d : Fin 3) (Φ : Ix → V) :
    latR K p d (fun i => M (Φ (tau σ fl b i))) = fun i =>
      M ((if fl d = true then latL K p (σ d) Φ else latR K p (σ d) Φ) (tau σ fl b i)) := by
  unfold latL latR
  rw [lsweep_tau σ fl b M d _ _ (wts_c_len hp _ (by decide)), wts_r_reverse hp]
  by_cases h : fl d = true
  · simp only [if_pos h]
  · simp only [if_neg h]
end

/-! ### Sweeps along different axes commute -/

theorem wsum_comm (ws vs : List ℚ) (s t : ℤ) (f : ℤ → ℤ → V) :
    wsum K ws s (fun a => wsum K vs t fun b => f a b) = wsum K vs t fun b => wsum K ws s fun a => f a b := by
  induction ws generalizing s with
  | nil =>
    simp only [wsum]
    exact (wsum_zero vs t).symm
  | cons w ws ih =>
    simp only [wsum]
    rw [ih, ← wsum_smul, ← wsum_add]

theorem lsweep_comm (d e : Fin 3) (r q : ℤ) (ws vs : List ℚ) (Φ : Ix → V) :
    lsweep K d r ws (lsweep K e q vs Φ) = lsweep K e q vs (lsweep K d r ws Φ) := by
  funext i
  unfold lsweep
  rw [wsum_comm]
  refine wsum_congr _ _ fun a => wsum_congr _ _ fun b => ?_
  rw [add_right_comm]

/-- Three commuting operators in any order. -/
theorem perm_three {α : Type} (T : Fin 3 → α → α) (hT : ∀ d e x, T d (T e x) = T e (T d x))
    (σ : Equiv.Perm (Fin 3)) (x : α) : T (σ 2) (T (σ 1) (T (σ 0) x)) = T 2 (T 1 (T 0 x)) := by
  have h01 : σ 0 ≠ σ 1 := fun h => absurd (σ.injective h) (by decide)
  have h02 : σ 0 ≠ σ 2 := fun h => absurd (σ.injective h) (by decide)
  have h12 : σ 1 ≠ σ 2 := fun h => absurd (σ.injective h) (by decide)
  generalize σ 0 = a at *
  generalize σ 1 = b at *
  generalize σ 2 = c at *
  have a01 := hT 0 1
  have a02 := hT 0 2
  have a12 := hT 1 2
  have : (a = 0 ∧ b = 1 ∧ c = 2) ∨ (a = 0 ∧ b = 2 ∧ c = 1) ∨ (a = 1 ∧ b = 0 ∧ c = 2) ∨ (a = 1 ∧ b = 2 ∧ c = 0) ∨
      (a = 2 ∧ b = 0 ∧ c = 1) ∨ (a = 2 ∧ b = 1 ∧ c = 0) := by
    clear * - h01 h02 h12
    revert h01 h02 h12
    revert a b c
    decide
  rcases this with ⟨rfl, rfl, rfl⟩ | ⟨rfl, rfl, rfl⟩ | ⟨rfl, rfl, rfl⟩ | ⟨rfl, rfl, rfl⟩ | ⟨rfl, rfl, rfl⟩ |
    ⟨rfl, rfl, rfl⟩
  · rfl
  · rw [a12]
  · rw [a01]
  · rw [a02, a01]
  · rw [a02, a12]
  · rw [a12, a02, a01]

/-- Two commuting operators along the axes other than `σ d`. -/
theorem perm_two {α : Type} (T : Fin 3 → α → α) (hT : ∀ d e x, T d (T e x) = T e (T d x))
    (σ : Equiv.Perm (Fin 3)) (o : Fin 3 → Fin 3 × Fin 3)
    (ho : ∀ d, (o d).1 ≠ d ∧ (o d).2 ≠ d ∧ (o d).1 ≠ (o d).2) (d : Fin 3) (x : α) :
    T (σ (o d).2) (T (σ (o d).1) x) = T (o (σ d)).2 (T (o (σ d)).1 x) := by
  obtain ⟨h1, h2, h3⟩ := ho d
  obtain ⟨k1, k2, k3⟩ := ho (σ d)
  have h1' : σ (o d).1 ≠ σ d := fun h => h1 (σ.injective h)
  have h2' : σ (o d).2 ≠ σ d := fun h => h2 (σ.injective h)
  have h3' : σ (o d).1 ≠ σ (o d).2 := fun h => h3 (σ.injective h)
  generalize σ (o d).1 = a at *
  generalize σ (o d).2 = b at *
  generalize (o (σ d)).1 = a' at *
  generalize (o (σ d)).2 = b' at *
  generalize σ d = e at *
  have : (a = a' ∧ b = b') ∨ (a = b' ∧ b = a') := by
    clear * - h1' h2' h3' k1 k2 k3
    revert h1' h2' h3' k1 k2 k3
    exact (by decide : ∀ a b a' b' e : Fin 3, a' ≠ e → b' ≠ e → a' ≠ b' → a ≠ e → b ≠ e → a ≠ b →
      (a = a' ∧ b = b') ∨ (a = b' ∧ b = a')) a b a' b' e |> fun h => by tauto
  rcases this with ⟨rfl, rfl⟩ | ⟨rfl, rfl⟩
  · rfl
  · exact hT _ _ _

theorem latC_comm (p q : ℕ) (d e : Fin 3) (Φ : Ix → V) :
    latC K p d (latC K q e Φ) = latC K q e (latC K p d Φ) := lsweep_comm ..

theorem latT_comm (p q : ℕ) (d e : Fin 3) (Φ : Ix → V) :
    latT K p d (latT K q e Φ) = latT K q e (latT K p d Φ) := lsweep_comm ..

section
variable (σ : Equiv.Perm (Fin 3)) (fl : Fin 3 → Bool) (b : Ix) (M : V →ₗ[K] V) {p : Fin 3 → ℕ}
  (hp : ∀ d, p d ≤ 8)

include hp in
theorem latCenters_tau (Φ : Ix → V) :
    latCenters K (fun d => p (σ d)) (fun i => M (Φ (tau σ fl b i))) =
      fun i => M (latCenters K p Φ (tau σ fl b i)) := by
  unfold latCenters
  rw [latC_tau σ fl b M (hp _), latC_tau σ fl b M (hp _), latC_tau σ fl b M (hp _)]
  have := perm_three (fun d => latC K (V := V) (p d) d) (fun d e x => latC_comm ..) σ Φ
  rw [this]

include hp in
theorem latPrim_tau (prim : V → V) (hprim : ∀ v, prim (M v) = M (prim v)) (Φ : Ix → V) :
    latPrim K prim (fun d => p (σ d)) (fun i => M (Φ (tau σ fl b i))) =
      fun i => M (latPrim K prim p Φ (tau σ fl b i)) := by
  unfold latPrim
  rw [latCenters_tau σ fl b M hp]
  simp only [hprim]
  rw [latT_tau σ fl b M (hp _) (Φ := fun j => prim (latCenters K p Φ j)), latT_tau σ fl b M (hp _),
    latT_tau σ fl b M (hp _)]
  have := perm_three (fun d => latT K (V := V) (p d) d) (fun d e x => latT_comm ..) σ
    (fun i => prim (latCenters K p Φ i))
  rw [this]

theorem centerOrder_ok (d : Fin 3) : (centerOrder d).1 ≠ d ∧ (centerOrder d).2 ≠ d ∧
    (centerOrder d).1 ≠ (centerOrder d).2 := by revert d; decide

theorem transverseOrder_ok (d : Fin 3) : (transverseOrder d).1 ≠ d ∧ (transverseOrder d).2 ≠ d ∧
    (transverseOrder d).1 ≠ (transverseOrder d).2 := by revert d; decide

include hp in
theorem latLine_tau (d : Fin 3) (W : Ix → V) :
    latLine K (fun d => p (σ d)) d (fun i => M (W (tau σ fl b i))) =
      fun i => M (latLine K p (σ d) W (tau σ fl b i)) := by
  unfold latLine
  rw [latC_tau σ fl b M (hp _), latC_tau σ fl b M (hp _)]
  have := perm_two (fun d => latC K (V := V) (p d) d) (fun d e x => latC_comm ..) σ centerOrder centerOrder_ok d W
  rw [this]

/-- The two numerical fluxes at a face with left value `x` and right value `y` correspond. -/
def FluxMatch (flip : Bool) (riem' riem : V → V → V) (x y : V) : Prop :=
  if flip = true then riem' (M y) (M x) = -M (riem x y) else riem' (M x) (M y) = M (riem x y)

/-- The offset for faces: reversed axes exchange left and right faces. -/
def faceOff (d : Fin 3) : Ix := if fl d = true then b + Pi.single (σ d) 1 else b

/-- The map of fluxes in direction `d`. -/
def fluxMap (d : Fin 3) : V →ₗ[K] V := if fl d = true then -M else M

theorem tau_face (d : Fin 3) (i : Ix) :
    tau σ fl (faceOff σ fl b d) i = if fl d = true then tau σ fl b i + Pi.single (σ d) 1 else tau σ fl b i := by
  unfold faceOff
  by_cases h : fl d = true
  · rw [if_pos h, if_pos h]
    funext e
    obtain ⟨e, rfl⟩ := σ.surjective e
    rw [Pi.add_apply, tau_apply, tau_apply, Pi.add_apply]
    by_cases he : e = d
    · subst he
      rw [Pi.single_eq_same, if_pos h, if_pos h]
      ring
    · rw [Pi.single_eq_of_ne (fun hx => he (σ.injective hx))]
      simp
  · rw [if_neg h, if_neg h]

/-- Left and right value at a face. -/
def faceL (K : Type) [Field K] {V : Type} [AddCommGroup V] [Module K V] (p : Fin 3 → ℕ) (d : Fin 3) (W : Ix → V)
    (i : Ix) : V := latR K (p d) d (latLine K p d W) (i - Pi.single d 1)

@[inherit_doc faceL]
def faceR (K : Type) [Field K] {V : Type} [AddCommGroup V] [Module K V] (p : Fin 3 → ℕ) (d : Fin 3) (W : Ix → V)
    (i : Ix) : V := latL K (p d) d (latLine K p d W) i

theorem latMid_face (riem : V → V → V) (p : Fin 3 → ℕ) (d : Fin 3) (W : Ix → V) (i : Ix) :
    latMid K riem p none d W i = riem (faceL K p d W i) (faceR K p d W i) := rfl

include hp in
/-- The face values of the transformed state. -/
theorem face_tau (d : Fin 3) (W : Ix → V) (i : Ix) :
    (faceL K (fun d => p (σ d)) d (fun i => M (W (tau σ fl b i))) i =
      M ((if fl d = true then faceR K p (σ d) W else faceL K p (σ d) W) (tau σ fl (faceOff σ fl b d) i))) ∧
    (faceR K (fun d => p (σ d)) d (fun i => M (W (tau σ fl b i))) i =
      M ((if fl d = true then faceL K p (σ d) W else faceR K p (σ d) W) (tau σ fl (faceOff σ fl b d) i))) := by
  have hs : tau σ fl b (i - Pi.single d 1) = tau σ fl b i - Pi.single (σ d) (if fl d = true then -1 else 1) := by
    rw [sub_eq_add_neg, ← Pi.single_neg, tau_add, sub_eq_add_neg, ← Pi.single_neg]
    split_ifs <;> rfl
  unfold faceL faceR
  rw [latLine_tau σ fl b M hp, latR_tau σ fl b M (hp _), latL_tau σ fl b M (hp _), tau_face]
  beta_reduce
  rw [hs]
  by_cases h : fl d = true
  · simp only [if_pos h]
    rw [Pi.single_neg, sub_neg_eq_add, add_sub_cancel_right]
    exact ⟨by first | trivial | rfl, by first | trivial | rfl⟩
  · simp only [if_neg h]
    exact ⟨by first | trivial | rfl, by first | trivial | rfl⟩

include hp in
theorem latMid_tau (riem' riem : V → V → V) (d : Fin 3) (W : Ix → V) (i : Ix)
    (h : FluxMatch M (fl d) riem' riem (faceL K p (σ d) W (tau σ fl (faceOff σ fl b d) i))
      (faceR K p (σ d) W (tau σ fl (faceOff σ fl b d) i))) :
    latMid K riem' (fun d => p (σ d)) none d (fun i => M (W (tau σ fl b i))) i =
      fluxMap fl M d (latMid K riem p none (σ d) W (tau σ fl (faceOff σ fl b d) i)) := by
  rw [latMid_face, latMid_face, (face_tau σ fl b M hp d W i).1, (face_tau σ fl b M hp d W i).2]
  unfold FluxMatch at h
  unfold fluxMap
  by_cases hf : fl d = true
  · simp only [if_pos hf] at h ⊢
    exact h
  · simp only [if_neg hf] at h ⊢
    exact h

/-- The faces at which the numerical fluxes of direction `d` around face `i` are evaluated. -/
def NearFace (p : Fin 3 → ℕ) (d : Fin 3) (i j : Ix) : Prop :=
  j d = i d ∧ ∀ e, e ≠ d → |j e - i e| ≤ (ceilHalf (p e) : ℤ)

include hp in
theorem latFlux_tau (riem' riem : V → V → V) (d : Fin 3) (W : Ix → V) (i : Ix)
    (h : ∀ j, NearFace p (σ d) (tau σ fl (faceOff σ fl b d) i) j →
      FluxMatch M (fl d) riem' riem (faceL K p (σ d) W j) (faceR K p (σ d) W j)) :
    latFlux K riem' (fun d => p (σ d)) none d (fun i => M (W (tau σ fl b i))) i =
      fluxMap fl M d (latFlux K riem p none (σ d) W (tau σ fl (faceOff σ fl b d) i)) := by
  obtain ⟨o1, o2, o3⟩ := transverseOrder_ok d
  unfold latFlux
  have key : latT K (p (σ (transverseOrder d).2)) (transverseOrder d).2
      (latT K (p (σ (transverseOrder d).1)) (transverseOrder d).1
        (latMid K riem' (fun d => p (σ d)) none d (fun i => M (W (tau σ fl b i))))) i =
      latT K (p (σ (transverseOrder d).2)) (transverseOrder d).2
      (latT K (p (σ (transverseOrder d).1)) (transverseOrder d).1
        (fun i => fluxMap fl M d (latMid K riem p none (σ d) W (tau σ fl (faceOff σ fl b d) i)))) i := by
    unfold latT
    refine lsweep_congr _ _ _ (wts_t_len (hp _)).le _ _ _ fun k hk1 hk2 => ?_
    refine lsweep_congr _ _ _ (wts_t_len (hp _)).le _ _ _ fun l hl1 hl2 => ?_
    refine latMid_tau σ fl b M hp riem' riem d W _ (h _ ?_)
    rw [tau_add, tau_add]
    have n1 : σ d ≠ σ (transverseOrder d).1 := fun hx => o1 (σ.injective hx).symm
    have n2 : σ d ≠ σ (transverseOrder d).2 := fun hx => o2 (σ.injective hx).symm
    have n3 : σ (transverseOrder d).1 ≠ σ (transverseOrder d).2 := fun hx => o3 (σ.injective hx)
    have bnd : ∀ (f : Bool) (x : ℤ) (r : ℕ), -(r : ℤ) ≤ x → x ≤ r → |if f = true then -x else x| ≤ (r : ℤ) := by
      intro f x r h1 h2
      rw [abs_le]
      split_ifs <;> constructor <;> omega
    refine ⟨?_, fun e he => ?_⟩
    · simp only [Pi.add_apply, Pi.single_eq_of_ne n1, Pi.single_eq_of_ne n2, add_zero]
    · have : e = σ (transverseOrder d).1 ∨ e = σ (transverseOrder d).2 := by
        clear * - he n1 n2 n3
        revert n1 n2 n3
        revert he
        generalize σ d = x
        generalize σ (transverseOrder d).1 = y
        generalize σ (transverseOrder d).2 = z
        exact (by decide : ∀ e x y z : Fin 3, e ≠ x → x ≠ y → x ≠ z → y ≠ z → e = y ∨ e = z) e x y z
      rcases this with rfl | rfl
      · simp only [Pi.add_apply, Pi.single_eq_same, Pi.single_eq_of_ne n3, add_zero, add_sub_cancel_left]
        exact bnd _ _ _ hl1 hl2
      · simp only [Pi.add_apply, Pi.single_eq_same, Pi.single_eq_of_ne n3.symm, add_zero, add_sub_cancel_left]
        exact bnd _ _ _ hk1 hk2
  refine key.trans ?_
  rw [latT_tau σ fl (faceOff σ fl b d) (fluxMap fl M d) (hp _)
      (Φ := fun j => latMid K riem p none (σ d) W j),
    latT_tau σ fl (faceOff σ fl b d) (fluxMap fl M d) (hp _)]
  have := perm_two (fun d => latT K (V := V) (p d) d) (fun d e x => latT_comm ..) σ transverseOrder
    transverseOrder_ok d (latMid K riem p none (σ d) W)
  rw [this]

/-- The divergence of the transformed fluxes. -/
theorem latDiv_tau (act : Fin 3 → Bool) (h : Fin 3 → K) (F' F : Fin 3 → Ix → V) (i : Ix)
    (hF : ∀ d, act (σ d) = true → ∀ j, j = i ∨ j = i + Pi.single d 1 →
      F' d j = fluxMap fl M d (F (σ d) (tau σ fl (faceOff σ fl b d) j))) :
    latDiv (fun d => act (σ d)) (fun d => h (σ d)) F' i = M (latDiv act h F (tau σ fl b i)) := by
  unfold latDiv
  rw [map_sum]
  refine Eq.trans ?_ (Equiv.sum_comp σ _)
  refine Finset.sum_congr rfl fun d _ => ?_
  by_cases ha : act (σ d) = true
  · rw [if_pos ha, if_pos ha, hF d ha _ (Or.inl rfl), hF d ha _ (Or.inr rfl), tau_face, tau_face, tau_add]
    unfold fluxMap
    by_cases hf : fl d = true
    · simp only [if_pos hf]
      rw [Pi.single_neg, neg_add_cancel_right, LinearMap.neg_apply, LinearMap.neg_apply, map_smul, map_sub]
      congr 1
      abel
    · simp only [if_neg hf]
      rw [map_smul, map_sub]
  · rw [if_neg ha, if_neg ha, map_zero]
end

end FVHOE
