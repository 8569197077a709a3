import Verif.Proofs.FaceMean
import Verif.Proofs.LipAt

/-!
The steps of the right-hand side on data of a smooth flow.
-/

set_option linter.unusedSectionVars false

namespace FVHOE

open MeasureTheory Set

/-! ### Closeness on the lattice -/

/-- Closer than `ε` on the box of radii `m` around `i`. -/
def CloseNear (Φ Ψ : Ix → ℝ) (i m : Ix) (ε : ℝ) : Prop := ∀ j : Ix, (∀ d, |j d - i d| ≤ m d) → |Φ j - Ψ j| ≤ ε

theorem CloseNear.mono {Φ Ψ : Ix → ℝ} {i m m' : Ix} {ε : ℝ} (h : CloseNear Φ Ψ i m ε) (hm : ∀ d, m' d ≤ m d) :
    CloseNear Φ Ψ i m' ε := fun j hj => h j fun d => (hj d).trans (hm d)

theorem CloseNear.trans {Φ Ψ Ξ : Ix → ℝ} {i m : Ix} {ε δ : ℝ} (h : CloseNear Φ Ψ i m ε) (h' : CloseNear Ψ Ξ i m δ) :
    CloseNear Φ Ξ i m (ε + δ) := fun j hj => (abs_sub_le _ _ _).trans (add_le_add (h j hj) (h' j hj))

theorem CloseNear.bounded {Φ Ψ : Ix → ℝ} {i m : Ix} {ε : ℝ} :
    CloseNear Φ Ψ i m ε ↔ BoundedNear (fun j => 1 * Φ j + (-1) * Ψ j) i m ε := by
  unfold CloseNear BoundedNear
  refine forall_congr' fun j => forall_congr' fun _ => ?_
  beta_reduce
  rw [one_mul, neg_one_mul, ← sub_eq_add_neg]

section

variable {p : Fin 3 → ℕ} (hp : ∀ d, p d ≤ 8) {Φ Ψ : Ix → ℝ} {i m : Ix} {ε : ℝ} (hε : 0 ≤ ε) (d : Fin 3)
include hp hε

theorem CloseNear.c (h : CloseNear Φ Ψ i (m + Pi.single d (ceilHalf (p d) : ℤ)) ε) :
    CloseNear (latC ℝ (p d) d Φ) (latC ℝ (p d) d Ψ) i m (4 / 3 * ε) := by
  rw [CloseNear.bounded] at h ⊢
  have := BoundedNear.c hp hε d h
  unfold latC at this ⊢
  rwa [lsweep_lin] at this

theorem CloseNear.t (h : CloseNear Φ Ψ i (m + Pi.single d (ceilHalf (p d) : ℤ)) ε) :
    CloseNear (latT ℝ (p d) d Φ) (latT ℝ (p d) d Ψ) i m (21 / 20 * ε) := by
  rw [CloseNear.bounded] at h ⊢
  have := BoundedNear.t hp hε d h
  unfold latT at this ⊢
  rwa [lsweep_lin] at this

theorem CloseNear.l (h : CloseNear Φ Ψ i (m + Pi.single d (ceilHalf (p d) : ℤ)) ε) :
    CloseNear (latL ℝ (p d) d Φ) (latL ℝ (p d) d Ψ) i m (11 / 6 * ε) := by
  rw [CloseNear.bounded] at h ⊢
  have := BoundedNear.l hp hε d h
  unfold latL at this ⊢
  rwa [lsweep_lin] at this

theorem CloseNear.r (h : CloseNear Φ Ψ i (m + Pi.single d (ceilHalf (p d) : ℤ)) ε) :
    CloseNear (latR ℝ (p d) d Φ) (latR ℝ (p d) d Ψ) i m (11 / 6 * ε) := by
  rw [CloseNear.bounded] at h ⊢
  have := BoundedNear.r hp hε d h
  unfold latR at this ⊢
  rwa [lsweep_lin] at this

variable {R : Density ℝ} {x₀ h : Fin 3 → ℝ} (hR : R.HasDegree p) (hh : ∀ d, h d ≠ 0)
include hR hh

/-- From averages to the values at the centres. -/
theorem close_centers (H : CloseNear Φ (R.avg x₀ h) i (fun d => m d + ceilHalf (p d)) ε) :
    CloseNear (latCenters ℝ p Φ) (R.stage x₀ h fun _ => .mid) i m (64 / 27 * ε) := by
  rw [CloseNear.bounded] at H ⊢
  have := bounded_centers hp hε H
  rwa [latCenters_lin, centers_exact R x₀ h hp hR hh] at this

/-- The three reconstructions of averages. -/
noncomputable def latAvg (p : Fin 3 → ℕ) {V : Type} [AddCommGroup V] [Module ℝ V] (Φ : Ix → V) : Ix → V :=
  latT ℝ (p 2) 2 (latT ℝ (p 1) 1 (latT ℝ (p 0) 0 Φ))

/-- From the values at the centres to averages. -/
theorem close_averages (H : CloseNear Φ (R.stage x₀ h fun _ => .mid) i (fun d => m d + ceilHalf (p d)) ε) :
    CloseNear (latAvg p Φ) (R.stage x₀ h fun _ => .avg) i m (9261 / 8000 * ε) := by
  have h' := H.mono (m' := m + Pi.single 2 (ceilHalf (p 2) : ℤ) + Pi.single 1 (ceilHalf (p 1) : ℤ) +
      Pi.single 0 (ceilHalf (p 0) : ℤ)) (fun d => by
    match d with
    | 0 => simp
    | 1 => simp
    | 2 => simp)
  have h1 := CloseNear.t hp (by positivity) 2 (CloseNear.t hp (by positivity) 1 (CloseNear.t hp hε 0 h'))
  rw [stage_t R x₀ h hp hR hh _ 0 rfl, stage_t R x₀ h hp hR hh _ 1 (by simp), stage_t R x₀ h hp hR hh _ 2 (by simp)] at h1
  have e : Function.update (Function.update (Function.update (fun _ : Fin 3 => Kind.mid) 0 .avg) 1 .avg) 2 .avg =
      fun _ => .avg := by decide
  rw [e] at h1
  intro j hj
  refine (h1 j hj).trans (le_of_eq ?_)
  ring

/-- From averages to the values along the direction `d`. -/
theorem close_line (H : CloseNear Φ (R.stage x₀ h fun _ => .avg) i
      (fun e => m e + if e = d then 0 else (ceilHalf (p e) : ℤ)) ε) :
    CloseNear (latLine ℝ p d Φ) (R.stage x₀ h fun e => if e = d then .avg else .mid) i m (16 / 9 * ε) := by
  obtain ⟨o1, o2, q1, q2, eo, eq, h12, h1d, h2d, k12, k1d, k2d⟩ := orders d
  have hcov := cov3 d o1 o2 h12 h1d h2d
  have h' := H.mono (m' := m + Pi.single o2 (ceilHalf (p o2) : ℤ) + Pi.single o1 (ceilHalf (p o1) : ℤ)) (fun e => by
    rcases hcov e with rfl | rfl | rfl
    · simp [h1d.symm, h2d.symm]
    · simp [h12, h1d]
    · simp [h12.symm, h2d])
  have h1 := CloseNear.c hp (by positivity) o2 (CloseNear.c hp hε o1 h')
  rw [stage_c R x₀ h hp hR hh _ o1 rfl, stage_c R x₀ h hp hR hh _ o2 (by simp [h12.symm])] at h1
  have e : Function.update (Function.update (fun _ : Fin 3 => Kind.avg) o1 .mid) o2 .mid =
      fun e => if e = d then .avg else .mid := by
    funext e
    rcases hcov e with rfl | rfl | rfl
    · simp [h1d.symm, h2d.symm]
    · simp [h12, h1d]
    · simp [h2d]
  rw [e] at h1
  unfold latLine
  rw [eo]
  intro j hj
  refine (h1 j hj).trans (le_of_eq ?_)
  ring

/-- From the values along `d` to the value at the left face. -/
theorem close_left (H : CloseNear Φ (R.stage x₀ h fun e => if e = d then .avg else .mid) i
    (m + Pi.single d (ceilHalf (p d) : ℤ)) ε) :
    CloseNear (latL ℝ (p d) d Φ) (R.stage x₀ h (faceMid d)) i m (11 / 6 * ε) := by
  have h1 := CloseNear.l hp hε d H
  rw [stage_l R x₀ h hp hR hh _ d (by simp)] at h1
  have hu : Function.update (fun e : Fin 3 => if e = d then Kind.avg else .mid) d .face = faceMid d := by
    funext e
    unfold faceMid
    by_cases he : e = d
    · subst he; simp
    · simp [he]
  rwa [hu] at h1

/-- From the values along `d` to the value at the right face. -/
theorem close_right (H : CloseNear Φ (R.stage x₀ h fun e => if e = d then .avg else .mid) i
    (m + Pi.single d (ceilHalf (p d) : ℤ)) ε) :
    CloseNear (latR ℝ (p d) d Φ) (fun j => R.stage x₀ h (faceMid d) (j + Pi.single d 1)) i m (11 / 6 * ε) := by
  have h1 := CloseNear.r hp hε d H
  have hu : Function.update (fun e : Fin 3 => if e = d then Kind.avg else .mid) d .face = faceMid d := by
    funext e
    unfold faceMid
    by_cases he : e = d
    · subst he; simp
    · simp [he]
  have h2 : latR ℝ (p d) d (R.stage x₀ h fun e => if e = d then .avg else .mid) =
      fun j => R.stage x₀ h (faceMid d) (j + Pi.single d 1) := by
    funext j
    rw [stage_r R x₀ h hp hR hh _ d (by simp), hu]
  rwa [h2] at h1

/-- From the values at the middles of the faces to the averages over them. -/
theorem close_transverse (H : CloseNear Φ (R.stage x₀ h (faceMid d)) i
      (fun e => m e + if e = d then 0 else (ceilHalf (p e) : ℤ)) ε) :
    CloseNear (latT ℝ (p (transverseOrder d).2) (transverseOrder d).2 (latT ℝ (p (transverseOrder d).1)
      (transverseOrder d).1 Φ)) (R.stage x₀ h (faceAvg d)) i m (441 / 400 * ε) := by
  obtain ⟨o1, o2, q1, q2, eo, eq, h12, h1d, h2d, k12, k1d, k2d⟩ := orders d
  have hcov := cov3 d q1 q2 k12 k1d k2d
  have h' := H.mono (m' := m + Pi.single q2 (ceilHalf (p q2) : ℤ) + Pi.single q1 (ceilHalf (p q1) : ℤ)) (fun e => by
    rcases hcov e with rfl | rfl | rfl
    · simp [k1d.symm, k2d.symm]
    · simp [k12, k1d]
    · simp [k12.symm, k2d])
  have h1 := CloseNear.t hp (by positivity) q2 (CloseNear.t hp hε q1 h')
  rw [stage_t R x₀ h hp hR hh _ q1 (by simp [faceMid, k1d]),
    stage_t R x₀ h hp hR hh _ q2 (by simp [faceMid, k2d, k12.symm])] at h1
  have e : Function.update (Function.update (faceMid d) q1 .avg) q2 .avg = faceAvg d := by
    funext e
    unfold faceMid faceAvg
    rcases hcov e with rfl | rfl | rfl
    · simp [k1d.symm, k2d.symm]
    · simp [k12, k1d]
    · simp [k2d]
  rw [e] at h1
  rw [eq]
  intro j hj
  refine (h1 j hj).trans (le_of_eq ?_)
  ring

end

/-! ### Components -/

section

variable {np : ℕ} (v : Var np)

theorem lsweep_comp (d : Fin 3) (r : ℤ) (ws : List ℚ) (Φ : Ix → State ℝ np) :
    (fun j => lsweep ℝ d r ws Φ j v) = lsweep ℝ d r ws fun j => Φ j v :=
  funext fun j => lsweep_map (LinearMap.proj v : State ℝ np →ₗ[ℝ] ℝ) d r ws Φ j

theorem latCenters_comp (p : Fin 3 → ℕ) (Φ : Ix → State ℝ np) :
    (fun j => latCenters ℝ p Φ j v) = latCenters ℝ p fun j => Φ j v := by
  unfold latCenters latC
  rw [lsweep_comp, lsweep_comp, lsweep_comp]

theorem latAvg_comp (p : Fin 3 → ℕ) (Φ : Ix → State ℝ np) : (fun j => latAvg p Φ j v) = latAvg p fun j => Φ j v := by
  unfold latAvg latT
  rw [lsweep_comp, lsweep_comp, lsweep_comp]

theorem latLine_comp (p : Fin 3 → ℕ) (d : Fin 3) (Φ : Ix → State ℝ np) :
    (fun j => latLine ℝ p d Φ j v) = latLine ℝ p d fun j => Φ j v := by
  unfold latLine latC
  rw [lsweep_comp, lsweep_comp]

end

/-! ### The fluxes -/

section

variable {np : ℕ} {c : EulerConfig ℝ np} (hc : TransportSetup c) {x₀ : Fin 3 → ℝ} {i : Ix}
include hc

theorem center_in_stencil {j : Ix} (hj : ∀ e, |j e - i e| ≤ reach c.scheme e) :
    (fun d => x₀ d + ((j d : ℝ) + 1 / 2) * c.h d) ∈ stencilBox c x₀ i :=
  cell_in_stencil c hc.spacing x₀ i j hj ⟨fun d => by have := hc.spacing d; dsimp only; nlinarith, fun d => by
    have := hc.spacing d; dsimp only; nlinarith⟩

theorem face_in_stencil {d : Fin 3} (hd : c.scheme.active d = true) {j : Ix}
    (hj : ∀ e, |j e - i e| ≤ if e = d then 1 else (ceilHalf (c.p e) : ℤ)) :
    (fun e => x₀ e + ((j e : ℝ) + if e = d then 0 else 1 / 2) * c.h e) ∈ stencilBox c x₀ i := by
  intro e
  dsimp only
  have a1 := hj e
  have a2 := fluxRadius_le c d hd e
  unfold fluxRadius at a2
  have hpos := hc.spacing e
  have a4 : |j e - i e| ≤ (reach c.scheme e : ℤ) := by
    by_cases he : e = d
    · simp only [he, if_true] at a1 a2 ⊢
      omega
    · simp only [he, if_false] at a1 a2
      omega
  have a5 : |(j e : ℝ) - i e| ≤ reach c.scheme e := by exact_mod_cast a4
  rw [abs_le] at a5 ⊢
  by_cases he : e = d
  · rw [if_pos he]
    constructor <;> nlinarith
  · rw [if_neg he]
    constructor <;> nlinarith

/-- A polynomial density is within `τ` of `f` on the stencil. -/
def Approx (c : EulerConfig ℝ np) (x₀ : Fin 3 → ℝ) (i : Ix) (τ : ℝ) (f : (Fin 3 → ℝ) → ℝ) : Prop :=
  ∃ R : Density ℝ, R.HasDegree c.p ∧ ∀ x ∈ stencilBox c x₀ i, |f x - R.at x| ≤ τ

/-- The steps of the right-hand side applied to the cell averages of a flow `w` that is close to polynomials: the flux
through a face is close to the mean of the flux `g` over it. -/
theorem flux_close {w g : (Fin 3 → ℝ) → State ℝ np} {d : Fin 3} (hd : c.scheme.active d = true) {τ : ℝ} (hτ : 0 ≤ τ)
    (hu : ∀ v, Continuous fun x => conserved c.gas.gamma (w x) v) (hg : ∀ v, Continuous fun x => g x v)
    (Au : ∀ v, Approx c x₀ i τ fun x => conserved c.gas.gamma (w x) v) (Aw : ∀ v, Approx c x₀ i τ fun x => w x v)
    (Ag : ∀ v, Approx c x₀ i τ fun x => g x v) {δ L δ' L' : ℝ} (hL : 0 ≤ L) (hL' : 0 ≤ L')
    (hP : ∀ x ∈ stencilBox c x₀ i, ∀ s, dist s (conserved c.gas.gamma (w x)) ≤ δ →
      dist (computePrimitives c.gas.gamma s) (w x) ≤ L * dist s (conserved c.gas.gamma (w x)))
    (hF : ∀ x ∈ stencilBox c x₀ i, ∀ a b, dist a (w x) ≤ δ' → dist b (w x) ≤ δ' →
      dist (riemann c.riem c.gas d a b) (g x) ≤ L' * max (dist a (w x)) (dist b (w x)))
    (h1 : 4 * τ ≤ δ) (h2 : (16 * L + 5) * τ ≤ δ') (U : Ix → State ℝ np)
    (hU : ∀ j : Ix, (∀ e, |j e - i e| ≤ reach c.scheme e) → ∀ v, U j v = cellMean x₀ c.h (fun x => conserved c.gas.gamma (w x) v) j)
    (y : ℤ) (hy : y = 0 ∨ y = 1) (v : Var np) :
    |latFlux ℝ (riemann c.riem c.gas d) c.p none d (latPrim ℝ (computePrimitives c.gas.gamma) c.p U) (i + Pi.single d y) v -
      faceMean x₀ c.h d (fun x => g x v) (i + Pi.single d y)| ≤ (2 * (L' * (16 * L + 5) + 1) + 1) * τ := by
  have hh : ∀ d, c.h d ≠ 0 := fun d => (hc.spacing d).ne'
  have hr := fluxRadius_le c d hd
  -- the values of the conserved variables at the centres
  have s1 : ∀ j : Ix, (∀ e, |j e - i e| ≤ fluxRadius c.p d e + ceilHalf (c.p e)) →
      dist (latCenters ℝ c.p U j) (conserved c.gas.gamma (w fun d => x₀ d + ((j d : ℝ) + 1 / 2) * c.h d)) ≤ 4 * τ := by
    intro j hj
    rw [dist_pi_le_iff (by positivity)]
    intro v
    obtain ⟨R, hR, hε⟩ := Au v
    have k1 : CloseNear (fun j => U j v) (R.avg x₀ c.h) i (fun e => (fluxRadius c.p d e + ceilHalf (c.p e)) + ceilHalf (c.p e)) τ := by
      intro j hj
      beta_reduce at hj ⊢
      have hj' : ∀ e, |j e - i e| ≤ reach c.scheme e := fun e => by have := hj e; have := hr e; omega
      rw [hU j hj' v, ← cellMean_density R x₀ c.h hc.spacing]
      exact cellMean_sub_le x₀ c.h hc.spacing (hu v) R.continuous_at fun x hx =>
        hε x (cell_in_stencil c hc.spacing x₀ i j hj' hx)
    have k2 := close_centers hc.degree hτ hR hh (m := fun e => fluxRadius c.p d e + ceilHalf (c.p e)) k1 j hj
    rw [← latCenters_comp, stage_mid_at] at k2
    have k3 := hε _ (center_in_stencil hc (x₀ := x₀) (j := j) fun e => by have := hj e; have := hr e; omega)
    rw [Real.dist_eq]
    rw [abs_le] at k2 k3 ⊢
    constructor <;> linarith [k2.1, k2.2, k3.1, k3.2]
  -- the primitive variables there
  have s2 : ∀ j : Ix, (∀ e, |j e - i e| ≤ fluxRadius c.p d e + ceilHalf (c.p e)) →
      dist (computePrimitives c.gas.gamma (latCenters ℝ c.p U j)) (w fun d => x₀ d + ((j d : ℝ) + 1 / 2) * c.h d) ≤
        4 * L * τ := by
    intro j hj
    have k1 := s1 j hj
    refine (hP _ (center_in_stencil hc fun e => by have := hj e; have := hr e; omega) _ (k1.trans h1)).trans ?_
    nlinarith
  -- the values on both sides of the faces
  have hA : 0 ≤ 4 * L * τ + τ := by positivity
  have s3 : ∀ j : Ix, (∀ e, |j e - i e| ≤ if e = d then 1 else (ceilHalf (c.p e) : ℤ)) →
      dist (latL ℝ (c.p d) d (latLine ℝ c.p d (latPrim ℝ (computePrimitives c.gas.gamma) c.p U)) j)
        (w fun e => x₀ e + ((j e : ℝ) + if e = d then 0 else 1 / 2) * c.h e) ≤ (16 * L + 5) * τ ∧
      ((∀ e, |(j + Pi.single d 1 : Ix) e - i e| ≤ if e = d then 1 else (ceilHalf (c.p e) : ℤ)) →
      dist (latR ℝ (c.p d) d (latLine ℝ c.p d (latPrim ℝ (computePrimitives c.gas.gamma) c.p U)) j)
        (w fun e => x₀ e + (((j + Pi.single d 1 : Ix) e : ℝ) + if e = d then 0 else 1 / 2) * c.h e) ≤ (16 * L + 5) * τ) := by
    intro j hj
    have key : ∀ v, ∃ R : Density ℝ, (∀ x ∈ stencilBox c x₀ i, |w x v - R.at x| ≤ τ) ∧
        |latL ℝ (c.p d) d (latLine ℝ c.p d (latPrim ℝ (computePrimitives c.gas.gamma) c.p U)) j v -
          R.stage x₀ c.h (faceMid d) j| ≤ 4 * (4 * L * τ + τ) ∧
        |latR ℝ (c.p d) d (latLine ℝ c.p d (latPrim ℝ (computePrimitives c.gas.gamma) c.p U)) j v -
          R.stage x₀ c.h (faceMid d) (j + Pi.single d 1)| ≤ 4 * (4 * L * τ + τ) := by
      intro v
      obtain ⟨R, hR, hε⟩ := Aw v
      have k1 : CloseNear (fun j => computePrimitives c.gas.gamma (latCenters ℝ c.p U j) v) (R.stage x₀ c.h fun _ => .mid) i
          (fun e => fluxRadius c.p d e + ceilHalf (c.p e)) (4 * L * τ + τ) := by
        intro j hj
        beta_reduce at hj ⊢
        have a1 := (dist_le_pi_dist _ _ v).trans (s2 j hj)
        have a2 := hε _ (center_in_stencil hc (x₀ := x₀) (j := j) fun e => by have := hj e; have := hr e; omega)
        rw [Real.dist_eq] at a1
        rw [stage_mid_at]
        rw [abs_le] at a1 a2 ⊢
        constructor <;> linarith [a1.1, a1.2, a2.1, a2.2]
      have k2 := close_averages hc.degree hA hR hh (m := fluxRadius c.p d) k1
      have k3 := close_line hc.degree (by positivity) d hR hh
        (m := (fun e => if e = d then 1 else (ceilHalf (c.p e) : ℤ)) + Pi.single d (ceilHalf (c.p d) : ℤ)) (k2.mono fun e => by
          unfold fluxRadius
          by_cases he : e = d
          · subst he; simp; omega
          · simp [he]; omega)
      have k4 := close_left hc.degree (by positivity) d hR hh k3 j hj
      have k5 := close_right hc.degree (by positivity) d hR hh k3 j hj
      have e1 : latLine ℝ c.p d (latAvg c.p fun j => computePrimitives c.gas.gamma (latCenters ℝ c.p U j) v) =
          fun j => latLine ℝ c.p d (latPrim ℝ (computePrimitives c.gas.gamma) c.p U) j v := by
        rw [← latAvg_comp, ← latLine_comp]
        rfl
      rw [e1] at k4 k5
      unfold latL at k4
      unfold latR at k5
      rw [← lsweep_comp] at k4 k5
      refine ⟨R, hε, k4.trans ?_, k5.trans ?_⟩ <;> nlinarith
    refine ⟨?_, fun hj' => ?_⟩
    · rw [dist_pi_le_iff (by positivity)]
      intro v
      obtain ⟨R, hε, k4, -⟩ := key v
      have a2 := hε _ (face_in_stencil hc (x₀ := x₀) hd hj)
      rw [stage_face_at] at k4
      rw [Real.dist_eq]
      rw [abs_le] at k4 a2 ⊢
      constructor <;> linarith [k4.1, k4.2, a2.1, a2.2]
    · rw [dist_pi_le_iff (by positivity)]
      intro v
      obtain ⟨R, hε, -, k4⟩ := key v
      have a2 := hε _ (face_in_stencil hc (x₀ := x₀) hd hj')
      rw [stage_face_at] at k4
      rw [Real.dist_eq]
      rw [abs_le] at k4 a2 ⊢
      constructor <;> linarith [k4.1, k4.2, a2.1, a2.2]
  -- the fluxes at the middles of the faces
  obtain ⟨R, hR, hε⟩ := Ag v
  have hB : 0 ≤ L' * ((16 * L + 5) * τ) + τ := by positivity
  have s4 : CloseNear (fun j => latMid ℝ (riemann c.riem c.gas d) c.p none d
      (latPrim ℝ (computePrimitives c.gas.gamma) c.p U) j v) (R.stage x₀ c.h (faceMid d)) (i + Pi.single d y)
      (fun e => (0 : Ix) e + if e = d then 0 else (ceilHalf (c.p e) : ℤ)) (L' * ((16 * L + 5) * τ) + τ) := by
    intro j hj
    have j1 : ∀ e, |j e - i e| ≤ if e = d then 1 else (ceilHalf (c.p e) : ℤ) := by
      intro e
      have := hj e
      by_cases he : e = d
      · subst he
        simp at this
        simp only [if_true]
        rw [abs_le]
        rcases hy with rfl | rfl <;> constructor <;> omega
      · simpa [he] using this
    have j2 : ∀ e, |(j - Pi.single d 1 : Ix) e - i e| ≤ if e = d then 1 else (ceilHalf (c.p e) : ℤ) := by
      intro e
      have := hj e
      by_cases he : e = d
      · subst he
        simp at this
        simp only [if_true, Pi.sub_apply, Pi.single_eq_same]
        rw [abs_le]
        rcases hy with rfl | rfl <;> constructor <;> omega
      · simpa [he] using this
    have a1 := (s3 j j1).1
    have a2 := (s3 (j - Pi.single d 1) j2).2 (by rwa [sub_add_cancel])
    rw [sub_add_cancel] at a2
    have hm := face_in_stencil hc (x₀ := x₀) hd j1
    have a3 := hF _ hm _ _ (a2.trans h2) (a1.trans h2)
    have a4 := (dist_le_pi_dist _ _ v).trans (a3.trans (mul_le_mul_of_nonneg_left (max_le a2 a1) hL'))
    have a5 := hε _ hm
    rw [stage_face_at]
    rw [Real.dist_eq] at a4
    change |riemann c.riem c.gas d (latR ℝ (c.p d) d _ (j - Pi.single d 1)) (latL ℝ (c.p d) d _ j) v - _| ≤ _
    rw [abs_le] at a4 a5 ⊢
    constructor <;> linarith [a4.1, a4.2, a5.1, a5.2]
  have s5 := close_transverse hc.degree hB d hR hh (m := 0) s4 (i + Pi.single d y) (by simp)
  have s6 : |faceMean x₀ c.h d (fun x => g x v) (i + Pi.single d y) - R.stage x₀ c.h (faceAvg d) (i + Pi.single d y)| ≤ τ := by
    rw [← faceMean_density x₀ c.h hc.spacing]
    refine faceMean_sub_le x₀ c.h hc.spacing d (hg v) R.continuous_at fun z hz => hε _ ?_
    refine cell_in_stencil c hc.spacing x₀ i i (fun e => by simp) ⟨fun e => ?_, fun e => ?_⟩
    · have hpos := hc.spacing d
      rcases eq_or_ne e d with rfl | he
      · unfold onFace
        rw [Fin.insertNth_apply_same]
        rcases hy with rfl | rfl <;> simp <;> linarith
      · obtain ⟨a, rfl⟩ := Fin.exists_succAbove_eq he
        unfold onFace
        rw [Fin.insertNth_apply_succAbove]
        simpa [he] using hz.1 a
    · have hpos := hc.spacing d
      rcases eq_or_ne e d with rfl | he
      · unfold onFace
        rw [Fin.insertNth_apply_same]
        rcases hy with rfl | rfl <;> simp <;> linarith
      · obtain ⟨a, rfl⟩ := Fin.exists_succAbove_eq he
        unfold onFace
        rw [Fin.insertNth_apply_succAbove]
        simpa [he] using hz.2 a
  have e2 : latT ℝ (c.p (transverseOrder d).2) (transverseOrder d).2 (latT ℝ (c.p (transverseOrder d).1) (transverseOrder d).1
      fun j => latMid ℝ (riemann c.riem c.gas d) c.p none d (latPrim ℝ (computePrimitives c.gas.gamma) c.p U) j v)
      (i + Pi.single d y) = latFlux ℝ (riemann c.riem c.gas d) c.p none d
        (latPrim ℝ (computePrimitives c.gas.gamma) c.p U) (i + Pi.single d y) v := by
    unfold latFlux latT
    rw [← lsweep_comp, ← lsweep_comp]
  rw [e2] at s5
  rw [abs_le] at s5 s6 ⊢
  constructor <;> linarith [s5.1, s5.2, s6.1, s6.2]

end

end FVHOE
