import Mathlib.Tactic.Ring
import Verif.Proofs.Arr
import Verif.Proofs.BC
import Verif.Proofs.Weights
import Verif.Proofs.Hydro
import Verif.Spec.Scheme

/-! Refinement of the right-hand side to the lattice. -/

set_option linter.unusedSectionVars false

namespace FVHOE

variable {K : Type} [Field K] [LinearOrder K] {V : Type} [AddCommGroup V] [Module K V]

/-- `A` holds `Φ` on the box of `n` entries per axis extended by margins `m`. -/
def MRep (A : Arr V) (n m : Ix) (Φ : Ix → V) : Prop :=
  Rep A (fun d => -(m d)) (fun d => n d + m d) Φ

theorem MRep.congr {A : Arr V} {n m n' m' : Ix} {Φ Ψ : Ix → V} (h : MRep A n m Φ) (e1 : n = n')
    (e2 : m = m') (e3 : ∀ i, (∀ d, -(m d) ≤ i d ∧ i d < n d + m d) → Φ i = Ψ i) :
    MRep A n' m' Ψ := by
  subst e1; subst e2
  exact Rep.congr h rfl rfl e3

theorem weights_len_c {p : ℕ} (hp : p ≤ 8) (pos : String) (hpos : pos = "l" ∨ pos = "c" ∨ pos = "r") :
    ∃ ws, conservativeWeights p pos = .ok ws ∧ ws.length = 2 * ceilHalf p + 1 := by
  rcases hpos with rfl | rfl | rfl
  · obtain ⟨ws, h1, h2, _⟩ := leftWeights_ok hp
    exact ⟨ws, by simpa [conservativeWeights] using h1, h2⟩
  · obtain ⟨ws, h1, h2, _⟩ := centerWeights_ok hp
    exact ⟨ws, by simpa [conservativeWeights] using h1, h2⟩
  · obtain ⟨ws, h1, h2, _⟩ := leftWeights_ok hp
    exact ⟨ws.reverse, by simp [conservativeWeights, h1, Except.map], by rw [List.length_reverse]; exact h2⟩

theorem weights_len_t {p : ℕ} (hp : p ≤ 8) :
    ∃ ws, transverseWeights p = .ok ws ∧ ws.length = 2 * ceilHalf p + 1 := by
  obtain ⟨ws, h1, h2, _⟩ := transverseWeights_ok hp
  exact ⟨ws, h1, h2⟩

theorem mrep_sweep {A : Arr V} {n m : Ix} {Φ : Ix → V} (h : MRep A n m Φ) (d : Fin 3) (r : ℕ)
    (ws : List ℚ) (hl : ws.length = 2 * r + 1) (hr : 2 * (r : ℤ) ≤ n d + 2 * m d) :
    ∃ B, sweepLoop K A ws d = .ok B ∧ MRep B n (m - Pi.single d (r : ℤ)) (lsweep K d r ws Φ) := by
  obtain ⟨B, e, hB⟩ := rep_sweepLoop (K := K) h d r ws hl (by omega)
  refine ⟨B, e, Rep.congr hB ?_ ?_ (fun _ _ => rfl)⟩
  · funext d'
    simp only [Pi.add_apply, Pi.sub_apply]
    ring
  · funext d'
    simp only [Pi.sub_apply]
    ring

theorem mrep_ci {A : Arr V} {n m : Ix} {Φ : Ix → V} (h : MRep A n m Φ) (p : ℕ) (hp : p ≤ 8)
    (d : Fin 3) (pos : String) (hpos : pos = "l" ∨ pos = "c" ∨ pos = "r")
    (hr : 2 * (ceilHalf p : ℤ) ≤ n d + 2 * m d) :
    ∃ B, conservativeInterpolation K A p d pos = .ok B ∧
      MRep B n (m - Pi.single d (ceilHalf p : ℤ))
        (lsweep K d (ceilHalf p) (wts (conservativeWeights p pos)) Φ) := by
  obtain ⟨ws, h1, h2⟩ := weights_len_c hp pos hpos
  obtain ⟨B, e, hB⟩ := mrep_sweep (K := K) h d (ceilHalf p) ws h2 hr
  refine ⟨B, ?_, ?_⟩
  · unfold conservativeInterpolation stencilSweep sweepWeights
    simp only [h1]
    exact e
  · have : wts (conservativeWeights p pos) = ws := by rw [h1]; rfl
    rw [this]
    exact hB

theorem mrep_tr {A : Arr V} {n m : Ix} {Φ : Ix → V} (h : MRep A n m Φ) (p : ℕ) (hp : p ≤ 8)
    (d : Fin 3) (hr : 2 * (ceilHalf p : ℤ) ≤ n d + 2 * m d) :
    ∃ B, transverseReconstruction K A p d = .ok B ∧
      MRep B n (m - Pi.single d (ceilHalf p : ℤ)) (latT K p d Φ) := by
  obtain ⟨ws, h1, h2⟩ := weights_len_t hp
  obtain ⟨B, e, hB⟩ := mrep_sweep (K := K) h d (ceilHalf p) ws h2 hr
  refine ⟨B, ?_, ?_⟩
  · unfold transverseReconstruction stencilSweep sweepWeights
    simp only [h1]
    exact e
  · have : wts (transverseWeights p) = ws := by rw [h1]; rfl
    unfold latT
    rw [this]
    exact hB

theorem mrep_map {A : Arr V} {n m : Ix} {Φ : Ix → V} (h : MRep A n m Φ) (f : V → V) :
    MRep (A.map f) n m (fun i => f (Φ i)) := rep_map h f

theorem mrep_cut {A : Arr V} {n m : Ix} {Φ : Ix → V} (h : MRep A n m Φ) (d : Fin 3) (x : ℤ)
    (hx : 0 ≤ x) (hx' : 2 * x ≤ n d + 2 * m d) :
    MRep (A.cut d x (-x)) n (m - Pi.single d x) Φ := by
  refine Rep.congr (rep_cut h d x x hx hx (by omega)) ?_ ?_ (fun _ _ => rfl)
  · funext d'
    simp only [Pi.add_apply, Pi.sub_apply]
    ring
  · funext d'
    simp only [Pi.sub_apply]
    ring

/-- Primitive averages. -/
theorem mrep_prim {A : Arr V} {n m : Ix} {Φ : Ix → V} (h : MRep A n m Φ) (prim : V → V)
    (p : Fin 3 → ℕ) (hp : ∀ d, p d ≤ 8) (hr : ∀ d, 4 * (ceilHalf (p d) : ℤ) ≤ n d + 2 * m d) :
    ∃ uc w, interpolateCellCenters K A p = .ok uc ∧ interpolateFvAverages K (uc.map prim) p = .ok w ∧
      MRep w n (fun d => m d - 2 * ceilHalf (p d)) (latPrim K prim p Φ) := by
  have hr0 := hr 0
  have hr1 := hr 1
  have hr2 := hr 2
  obtain ⟨a, ea, ha⟩ := mrep_ci (K := K) h (p 0) (hp 0) 0 "c" (by simp) (by omega)
  obtain ⟨b, eb, hb⟩ := mrep_ci (K := K) ha (p 1) (hp 1) 1 "c" (by simp) (by simp; omega)
  obtain ⟨c, ec, hc⟩ := mrep_ci (K := K) hb (p 2) (hp 2) 2 "c" (by simp) (by simp; omega)
  obtain ⟨x, ex, hx⟩ := mrep_tr (K := K) (mrep_map hc prim) (p 0) (hp 0) 0 (by simp; omega)
  obtain ⟨y, ey, hy⟩ := mrep_tr (K := K) hx (p 1) (hp 1) 1 (by simp; omega)
  obtain ⟨z, ez, hz⟩ := mrep_tr (K := K) hy (p 2) (hp 2) 2 (by simp; omega)
  refine ⟨c, z, ?_, ?_, ?_⟩
  · unfold interpolateCellCenters
    rw [ea]
    change (conservativeInterpolation K a (p 1) 1 "c" >>= _) = _
    rw [eb]
    exact ec
  · unfold interpolateFvAverages
    rw [ex]
    change (transverseReconstruction K x (p 1) 1 >>= _) = _
    rw [ey]
    exact ez
  · refine MRep.congr hz rfl ?_ (fun _ _ => rfl)
    funext d
    match d with
    | 0 => simp; ring
    | 1 => simp; ring
    | 2 => simp; ring

/-- Slope-limited face values. -/
theorem mrep_muscl {A : Arr V} {n m : Ix} {Φ : Ix → V} (h : MRep A n m Φ) (d : Fin 3)
    (s : V → V → V) (hr : 2 ≤ n d + 2 * m d) :
    ∃ l r, muscl K A d s = .ok (l, r) ∧
      MRep l n (m - Pi.single d 1) (fun i => Φ i - (1 / 2 : K) • latSlope d s Φ i) ∧
      MRep r n (m - Pi.single d 1) (fun i => Φ i + (1 / 2 : K) • latSlope d s Φ i) := by
  have c1 := mrep_cut h d 1 (by norm_num) (by omega)
  have c0 : MRep (A.cut d 0 (-2)) n (m - Pi.single d 1) (fun i => Φ (i - Pi.single d 1)) := by
    have := (rep_cut h d 0 2 le_rfl (by norm_num) (by omega)).shift (Pi.single d 1)
    refine Rep.congr this ?_ ?_ (fun _ _ => rfl)
    · funext d'
      by_cases hd : d' = d
      · subst hd; simp; ring
      · simp [hd]
    · funext d'
      by_cases hd : d' = d
      · subst hd; simp; ring
      · simp [hd]
  have c2 : MRep (A.cut d 2 0) n (m - Pi.single d 1) (fun i => Φ (i + Pi.single d 1)) := by
    have := (rep_cut h d 2 0 (by norm_num) le_rfl (by omega)).shift (-Pi.single d 1)
    refine Rep.congr this ?_ ?_ (fun _ _ => by simp)
    · funext d'
      by_cases hd : d' = d
      · subst hd; simp; ring
      · simp [hd]
    · funext d'
      by_cases hd : d' = d
      · subst hd; simp; ring
      · simp [hd]
  obtain ⟨dl, e1, r1⟩ := rep_zip c1 c0 (fun a b : V => a - b)
  obtain ⟨dr, e2, r2⟩ := rep_zip c2 c1 (fun a b : V => a - b)
  obtain ⟨sl, e3, r3⟩ := rep_zip r1 r2 s
  obtain ⟨l, e4, r4⟩ := rep_zip c1 r3 (fun a b : V => a - (1 / 2 : K) • b)
  obtain ⟨r, e5, r5⟩ := rep_zip c1 r3 (fun a b : V => a + (1 / 2 : K) • b)
  refine ⟨l, r, ?_, r4, r5⟩
  unfold muscl
  simp only [e1]
  change ((A.cut d 2 0).zip _ (A.cut d 1 (-1)) >>= _) = _
  rw [e2]
  change (dl.zip s dr >>= _) = _
  rw [e3]
  change ((A.cut d 1 (-1)).zip _ sl >>= _) = _
  rw [e4]
  change ((A.cut d 1 (-1)).zip _ sl >>= _) = _
  rw [e5]
  rfl

theorem mrep_faces {A : Arr V} {n m : Ix} {Φ : Ix → V} (h : MRep A n m Φ) (p : ℕ) (hp : p ≤ 8)
    (d : Fin 3) (slope : Option (V → V → V)) (hr : 2 * (ceilHalf p : ℤ) ≤ n d + 2 * m d) :
    ∃ l r, faceValues (K := K) A p d slope = .ok (l, r) ∧
      MRep l n (m - Pi.single d (ceilHalf p : ℤ)) (latFaceL K p d slope Φ) ∧
      MRep r n (m - Pi.single d (ceilHalf p : ℤ)) (latFaceR K p d slope Φ) := by
  obtain ⟨l, e1, r1⟩ := mrep_ci (K := K) h p hp d "l" (by simp) hr
  obtain ⟨r, e2, r2⟩ := mrep_ci (K := K) h p hp d "r" (by simp) hr
  cases slope with
  | none =>
    refine ⟨l, r, ?_, r1, r2⟩
    unfold faceValues
    simp only [e1]
    change (conservativeInterpolation K A p d "r" >>= _) = _
    rw [e2]
    rfl
  | some s =>
    by_cases hp1 : p = 1
    · subst hp1
      obtain ⟨l, r, e, hl, hr⟩ := mrep_muscl (K := K) h d s (by simpa [ceilHalf] using hr)
      refine ⟨l, r, ?_, ?_, ?_⟩
      · unfold faceValues
        simp only [if_true]
        exact e
      · exact hl
      · exact hr
    · refine ⟨l, r, ?_, ?_, ?_⟩
      · unfold faceValues
        simp only [if_neg hp1, e1]
        change (conservativeInterpolation K A p d "r" >>= _) = _
        rw [e2]
        rfl
      · simp only [latFaceL, if_neg hp1]
        exact r1
      · simp only [latFaceR, if_neg hp1]
        exact r2

end FVHOE
