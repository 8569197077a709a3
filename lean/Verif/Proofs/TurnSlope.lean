import Mathlib.Tactic.FieldSimp
import Verif.Proofs.Turn
import Verif.Model.Limiter

/-! The fallback fluxes, with limited slopes, under exchanging and reversing axes. -/

set_option linter.unusedSectionVars false

namespace FVHOE

variable {K : Type} [Field K] [LinearOrder K] [IsStrictOrderedRing K] {np : ℕ}

/-! ## The slope limiters are symmetric and odd -/

theorem turn_minmod_pos (tiny a b : K) (ha : 0 < a) (hb : 0 < b) :
    minmod tiny a b = a * b / max (max a b) tiny := by
  have hA : (if a > tiny then a else tiny) = max a tiny := by
    split_ifs with h
    · exact (max_eq_left h.le).symm
    · exact (max_eq_right (not_lt.1 h)).symm
  unfold minmod
  simp only [gt_iff_lt, if_pos ha]
  rw [show (if tiny < a then a else tiny) = max a tiny from hA]
  have hm : 0 < max a tiny := lt_of_lt_of_le ha (le_max_left _ _)
  have e : max (max a b) tiny = max (max a tiny) b := by
    rw [max_assoc, max_comm b tiny, ← max_assoc]
  rw [e]
  generalize max a tiny = A at hm ⊢
  have hq : 0 < b / A := div_pos hb hm
  by_cases h : b / A < 1
  · have hl : b < A := by rwa [div_lt_one hm] at h
    rw [if_pos h, if_pos hq, max_eq_left hl.le]
    ring
  · have hl : A ≤ b := by rwa [not_lt, le_div_iff₀ hm, one_mul] at h
    rw [if_neg h, if_pos one_pos, max_eq_right hl]
    field_simp

theorem minmod_nonneg_nonpos (tiny a b : K) (ht : 0 < tiny) (ha : 0 < a) (hb : b ≤ 0) : minmod tiny a b = 0 := by
  unfold minmod
  simp only [gt_iff_lt, if_pos ha]
  have hm : 0 < (if tiny < a then a else tiny) := by split_ifs <;> assumption
  have hq : b / (if tiny < a then a else tiny) ≤ 0 := div_nonpos_of_nonpos_of_nonneg hb hm.le
  generalize b / (if tiny < a then a else tiny) = q at hq
  rw [if_pos (show q < 1 by linarith), if_neg (not_lt.2 hq), zero_mul]

theorem turn_minmod_neg (tiny a b : K) : minmod tiny (-a) (-b) = -minmod tiny a b := by
  rcases lt_trichotomy a 0 with h | h | h
  · unfold minmod
    simp only [gt_iff_lt]
    have h1 : 0 < -a := by linarith
    have h2 : ¬ 0 < a := by linarith
    rw [if_pos h1, if_neg h2]
    have e : (-b) / (if tiny < -a then -a else tiny) = b / (if a < -tiny then a else -tiny) := by
      by_cases h3 : a < -tiny
      · rw [if_pos (by linarith), if_pos h3, neg_div_neg_eq]
      · rw [if_neg (by linarith), if_neg h3, div_neg, neg_div]
    rw [e, mul_neg]
  · subst h
    simp [minmod]
  · unfold minmod
    simp only [gt_iff_lt]
    have h1 : ¬ 0 < -a := by linarith
    rw [if_neg h1, if_pos h]
    have e : (-b) / (if -a < -tiny then -a else -tiny) = b / (if tiny < a then a else tiny) := by
      by_cases h3 : tiny < a
      · rw [if_pos (by linarith), if_pos h3, neg_div_neg_eq]
      · rw [if_neg (by linarith), if_neg h3, div_neg, neg_div, neg_neg]
    rw [e, mul_neg]

theorem minmod_swap (tiny a b : K) (ht : 0 < tiny) : minmod tiny b a = minmod tiny a b := by
  have hz : ∀ a, minmod tiny 0 a = 0 := fun a => by simp [minmod]
  have key : ∀ a b, 0 < a → minmod tiny b a = minmod tiny a b := by
    intro a b ha
    rcases lt_trichotomy b 0 with hb | hb | hb
    · rw [minmod_nonneg_nonpos tiny a b ht ha hb.le]
      have := turn_minmod_neg tiny b a
      rw [minmod_nonneg_nonpos tiny (-b) (-a) ht (by linarith) (by linarith)] at this
      linarith
    · subst hb
      rw [hz, minmod_nonneg_nonpos tiny a 0 ht ha le_rfl]
    · rw [turn_minmod_pos tiny b a hb ha, turn_minmod_pos tiny a b ha hb, mul_comm, max_comm b a]
  rcases lt_trichotomy a 0 with h | h | h
  · have := key (-a) (-b) (by linarith)
    rw [turn_minmod_neg, turn_minmod_neg] at this
    linarith
  · subst h
    rcases lt_trichotomy b 0 with hb | hb | hb
    · have := key (-b) 0 (by linarith)
      have e1 := turn_minmod_neg tiny 0 b
      have e2 := turn_minmod_neg tiny b 0
      rw [neg_zero] at e1 e2
      rw [e1, e2] at this
      linarith
    · rw [hb]
    · exact (key b 0 hb).symm
  · exact key a b h

theorem npSign_neg (x : K) : npSign (-x) = -npSign x := by
  unfold npSign
  simp only [gt_iff_lt]
  split_ifs <;> first | (exfalso; linarith) | simp

theorem turn_moncen_neg (a b : K) : moncen (-a) (-b) = -moncen a b := by
  unfold moncen
  dsimp only
  rw [neg_mul_neg, show (1 / 2 : K) * (-a + -b) = -(1 / 2 * (a + b)) by ring, npSign_neg, abs_neg,
    mul_neg, mul_neg, abs_neg, abs_neg]
  split_ifs
  · ring
  · ring

theorem moncen_swap (a b : K) : moncen b a = moncen a b := by
  unfold moncen
  dsimp only
  rw [mul_comm b a, add_comm b a, min_comm |2 * b|]

/-- A slope limiter that commutes with the map of the values and turns into its negative when the order of the
cells is reversed. -/
structure SlopeTurns {V : Type} [AddCommGroup V] [Module K V] (M : V →ₗ[K] V) (s : V → V → V) : Prop where
  map : ∀ a b, s (M a) (M b) = M (s a b)
  reverse : ∀ a b, s (-b) (-a) = -s a b

theorem slope_turns (σ : Equiv.Perm (Fin 3)) (fl : Fin 3 → Bool) (tiny : K) (ht : 0 < tiny) (k : SlopeKind) :
    SlopeTurns (turnState K np σ fl) (SlopeKind.fn tiny k) := by
  have key : ∀ g : K → K → K, (∀ a b, g (-a) (-b) = -g a b) → (∀ a b, g b a = g a b) →
      SlopeTurns (turnState K np σ fl) (fun (a b : State K np) v => g (a v) (b v)) := by
    intro g hn hs
    refine ⟨fun a b => ?_, fun a b => ?_⟩
    · funext v
      cases v with
      | rho => rfl
      | en => rfl
      | ps j => rfl
      | mom d =>
        simp only [turn_mom]
        split_ifs
        · exact hn _ _
        · rfl
    · funext v
      simp only [Pi.neg_apply]
      rw [hn, hs]
  cases k with
  | minmod => exact key _ (fun a b => turn_minmod_neg tiny a b) fun a b => minmod_swap tiny a b ht
  | moncen => exact key _ turn_moncen_neg moncen_swap

/-! ## Faces and fluxes -/

section
variable {V : Type} [AddCommGroup V] [Module K V]
variable (σ : Equiv.Perm (Fin 3)) (fl : Fin 3 → Bool) (b : Ix) (M : V →ₗ[K] V) {p : Fin 3 → ℕ}
  (hp : ∀ d, p d ≤ 8) (slope : Option (V → V → V)) (hsl : ∀ s, slope = some s → SlopeTurns M s)

theorem tau_sub (i : Ix) (d : Fin 3) (k : ℤ) :
    tau σ fl b (i - Pi.single d k) = tau σ fl b i - Pi.single (σ d) (if fl d = true then -k else k) := by
  rw [sub_eq_add_neg, ← Pi.single_neg, tau_add, sub_eq_add_neg, ← Pi.single_neg]
  split_ifs <;> rfl

theorem latSlope_tau (s : V → V → V) (hs : SlopeTurns M s) (d : Fin 3) (Ψ : Ix → V) (i : Ix) :
    latSlope d s (fun i => M (Ψ (tau σ fl b i))) i =
      if fl d = true then -M (latSlope (σ d) s Ψ (tau σ fl b i)) else M (latSlope (σ d) s Ψ (tau σ fl b i)) := by
  unfold latSlope
  beta_reduce
  rw [tau_sub, tau_add, ← map_sub, ← map_sub, hs.map]
  by_cases h : fl d = true
  · simp only [if_pos h]
    rw [← map_neg, ← hs.reverse, Pi.single_neg, sub_neg_eq_add, neg_sub, neg_sub, ← sub_eq_add_neg]
  · simp only [if_neg h]

include hp hsl in
theorem latFace_tau (d : Fin 3) (Ψ : Ix → V) (i : Ix) :
    (latFaceL K (p (σ d)) d slope (fun i => M (Ψ (tau σ fl b i))) i =
      M ((if fl d = true then latFaceR K (p (σ d)) (σ d) slope Ψ else latFaceL K (p (σ d)) (σ d) slope Ψ)
        (tau σ fl b i))) ∧
    (latFaceR K (p (σ d)) d slope (fun i => M (Ψ (tau σ fl b i))) i =
      M ((if fl d = true then latFaceL K (p (σ d)) (σ d) slope Ψ else latFaceR K (p (σ d)) (σ d) slope Ψ)
        (tau σ fl b i))) := by
  have plain : (latL K (p (σ d)) d (fun i => M (Ψ (tau σ fl b i))) i =
      M ((if fl d = true then latR K (p (σ d)) (σ d) Ψ else latL K (p (σ d)) (σ d) Ψ) (tau σ fl b i))) ∧
      (latR K (p (σ d)) d (fun i => M (Ψ (tau σ fl b i))) i =
      M ((if fl d = true then latL K (p (σ d)) (σ d) Ψ else latR K (p (σ d)) (σ d) Ψ) (tau σ fl b i))) :=
    ⟨congrFun (latL_tau σ fl b M (hp _) d Ψ) i, congrFun (latR_tau σ fl b M (hp _) d Ψ) i⟩
  cases slope with
  | none => exact plain
  | some s =>
    unfold latFaceL latFaceR
    by_cases h1 : p (σ d) = 1
    · simp only [if_pos h1]
      rw [latSlope_tau σ fl b M s (hsl s rfl)]
      by_cases h : fl d = true
      · simp only [if_pos h, map_add, map_sub, map_smul]
        constructor
        · rw [smul_neg, sub_neg_eq_add]
        · rw [smul_neg, sub_eq_add_neg]
      · simp only [if_neg h, map_add, map_sub, map_smul, and_self]
    · simp only [if_neg h1]
      exact plain

/-- Left and right value at a face, with limited slopes. -/
def faceLs (K : Type) [Field K] {V : Type} [AddCommGroup V] [Module K V] (p : Fin 3 → ℕ) (slope : Option (V → V → V))
    (d : Fin 3) (W : Ix → V) (i : Ix) : V := latFaceR K (p d) d slope (latLine K p d W) (i - Pi.single d 1)

@[inherit_doc faceLs]
def faceRs (K : Type) [Field K] {V : Type} [AddCommGroup V] [Module K V] (p : Fin 3 → ℕ) (slope : Option (V → V → V))
    (d : Fin 3) (W : Ix → V) (i : Ix) : V := latFaceL K (p d) d slope (latLine K p d W) i

include hp hsl in
theorem faces_tau (d : Fin 3) (W : Ix → V) (i : Ix) :
    (faceLs K (fun d => p (σ d)) slope d (fun i => M (W (tau σ fl b i))) i =
      M ((if fl d = true then faceRs K p slope (σ d) W else faceLs K p slope (σ d) W)
        (tau σ fl (faceOff σ fl b d) i))) ∧
    (faceRs K (fun d => p (σ d)) slope d (fun i => M (W (tau σ fl b i))) i =
      M ((if fl d = true then faceLs K p slope (σ d) W else faceRs K p slope (σ d) W)
        (tau σ fl (faceOff σ fl b d) i))) := by
  unfold faceLs faceRs
  rw [latLine_tau σ fl b M hp, (latFace_tau σ fl b M hp slope hsl d _ _).2,
    (latFace_tau σ fl b M hp slope hsl d _ _).1, tau_face, tau_sub]
  by_cases h : fl d = true
  · simp only [if_pos h]
    rw [Pi.single_neg, sub_neg_eq_add, add_sub_cancel_right]
    exact ⟨rfl, rfl⟩
  · simp only [if_neg h]
    exact ⟨trivial, trivial⟩

include hp hsl in
theorem latMids_tau (riem' riem : V → V → V) (d : Fin 3) (W : Ix → V) (i : Ix)
    (h : FluxMatch M (fl d) riem' riem (faceLs K p slope (σ d) W (tau σ fl (faceOff σ fl b d) i))
      (faceRs K p slope (σ d) W (tau σ fl (faceOff σ fl b d) i))) :
    latMid K riem' (fun d => p (σ d)) slope d (fun i => M (W (tau σ fl b i))) i =
      fluxMap fl M d (latMid K riem p slope (σ d) W (tau σ fl (faceOff σ fl b d) i)) := by
  change riem' (faceLs K (fun d => p (σ d)) slope d (fun i => M (W (tau σ fl b i))) i)
    (faceRs K (fun d => p (σ d)) slope d (fun i => M (W (tau σ fl b i))) i) =
    fluxMap fl M d (riem (faceLs K p slope (σ d) W (tau σ fl (faceOff σ fl b d) i))
      (faceRs K p slope (σ d) W (tau σ fl (faceOff σ fl b d) i)))
  rw [(faces_tau σ fl b M hp slope hsl d W i).1, (faces_tau σ fl b M hp slope hsl d W i).2]
  unfold FluxMatch at h
  unfold fluxMap
  by_cases hf : fl d = true
  · simp only [if_pos hf] at h ⊢
    exact h
  · simp only [if_neg hf] at h ⊢
    exact h

include hp hsl in
theorem latFluxs_tau (riem' riem : V → V → V) (d : Fin 3) (W : Ix → V) (i : Ix)
    (h : ∀ j, NearFace p (σ d) (tau σ fl (faceOff σ fl b d) i) j →
      FluxMatch M (fl d) riem' riem (faceLs K p slope (σ d) W j) (faceRs K p slope (σ d) W j)) :
    latFlux K riem' (fun d => p (σ d)) slope d (fun i => M (W (tau σ fl b i))) i =
      fluxMap fl M d (latFlux K riem p slope (σ d) W (tau σ fl (faceOff σ fl b d) i)) := by
  obtain ⟨o1, o2, o3⟩ := transverseOrder_ok d
  unfold latFlux
  have key : latT K (p (σ (transverseOrder d).2)) (transverseOrder d).2
      (latT K (p (σ (transverseOrder d).1)) (transverseOrder d).1
        (latMid K riem' (fun d => p (σ d)) slope d (fun i => M (W (tau σ fl b i))))) i =
      latT K (p (σ (transverseOrder d).2)) (transverseOrder d).2
      (latT K (p (σ (transverseOrder d).1)) (transverseOrder d).1
        (fun i => fluxMap fl M d (latMid K riem p slope (σ d) W (tau σ fl (faceOff σ fl b d) i)))) i := by
    unfold latT
    refine lsweep_congr _ _ _ (wts_t_len (hp _)).le _ _ _ fun k hk1 hk2 => ?_
    refine lsweep_congr _ _ _ (wts_t_len (hp _)).le _ _ _ fun l hl1 hl2 => ?_
    refine latMids_tau σ fl b M hp slope hsl riem' riem d W _ (h _ ?_)
    rw [tau_add, tau_add]
    have n1 : σ d ≠ σ (transverseOrder d).1 := fun hx => o1 (σ.injective hx).symm
    have n2 : σ d ≠ σ (transverseOrder d).2 := fun hx => o2 (σ.injective hx).symm
    have n3 : σ (transverseOrder d).1 ≠ σ (transverseOrder d).2 := fun hx => o3 (σ.injective hx)
    have bnd : ∀ (f : Bool) (x : ℤ) (r : ℕ), -(r : ℤ) ≤ x → x ≤ r → |if f = true then -x else x| ≤ (r : ℤ) := by
      intro f x r h1 h2
      rw [abs_le]
      split_ifs <;> constructor <;> omega
    refine ⟨?_, fun e he => ?_⟩
    · simp only [Pi.add_apply, Pi.single_eq_of_ne n1, Pi.single_eq_of_ne n2, add_zero]
    · have : e = σ (transverseOrder d).1 ∨ e = σ (transverseOrder d).2 := by
        clear * - he n1 n2 n3
        revert n1 n2 n3
        revert he
        generalize σ d = x
        generalize σ (transverseOrder d).1 = y
        generalize σ (transverseOrder d).2 = z
        exact (by decide : ∀ e x y z : Fin 3, e ≠ x → x ≠ y → x ≠ z → y ≠ z → e = y ∨ e = z) e x y z
      rcases this with rfl | rfl
      · simp only [Pi.add_apply, Pi.single_eq_same, Pi.single_eq_of_ne n3, add_zero, add_sub_cancel_left]
        exact bnd _ _ _ hl1 hl2
      · simp only [Pi.add_apply, Pi.single_eq_same, Pi.single_eq_of_ne n3.symm, add_zero, add_sub_cancel_left]
        exact bnd _ _ _ hk1 hk2
  refine key.trans ?_
  rw [latT_tau σ fl (faceOff σ fl b d) (fluxMap fl M d) (hp _)
      (Φ := fun j => latMid K riem p slope (σ d) W j),
    latT_tau σ fl (faceOff σ fl b d) (fluxMap fl M d) (hp _)]
  have := perm_two (fun d => latT K (V := V) (p d) d) (fun d e x => latT_comm ..) σ transverseOrder
    transverseOrder_ok d (latMid K riem p slope (σ d) W)
  rw [this]
end

end FVHOE
