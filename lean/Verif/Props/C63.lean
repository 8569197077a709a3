import Verif.Props.C53
import Verif.Props.C19_C22
import Verif.Props.C13_C18

/-!
C63 (order of accuracy): the right-hand side is exact where a density that is a polynomial of the
degrees of the scheme is carried by a uniform flow.
-/

set_option linter.unusedSectionVars false

namespace FVHOE

open Polynomial

variable {K : Type} [Field K] [LinearOrder K] [IsStrictOrderedRing K] {np : ℕ}

/-! ## Specification -/

/-- A function of three coordinates given by a sum of products of one-dimensional polynomials; each
polynomial is given by an antiderivative. -/
structure Density (K : Type) [Field K] where
  ι : Type
  s : Finset ι
  P : ι → Fin 3 → K[X]

/-- The value at a point. -/
noncomputable def Density.at (R : Density K) (x : Fin 3 → K) : K :=
  ∑ a ∈ R.s, ∏ d, (R.P a d).derivative.eval (x d)

/-- The average over cell `i` of the mesh with origin `x₀` and spacings `h`. -/
noncomputable def Density.avg (R : Density K) (x₀ h : Fin 3 → K) (i : Ix) : K :=
  ∑ a ∈ R.s, ∏ d, cellAvg (R.P a d) (x₀ d) (h d) (i d)

/-- The partial derivative in direction `d`. -/
noncomputable def Density.diff (R : Density K) (d : Fin 3) : Density K :=
  ⟨R.ι, R.s, fun a => Function.update (R.P a) d (R.P a d).derivative⟩

/-- The degree in direction `d` is at most `p d`. -/
def Density.HasDegree (R : Density K) (p : Fin 3 → ℕ) : Prop := ∀ a d, (R.P a d).natDegree ≤ p d + 1

/-- A primitive state with velocity `v`, pressure `P`, concentrations `x` and density `r`. -/
def flowing (v : Fin 3 → K) (P : K) (x : Fin np → K) (r : K) : State K np
  | .rho => r
  | .mom d => v d
  | .en => P
  | .ps j => x j

/-- What one unit of mass carries: mass, momentum, kinetic energy, passive masses. -/
def carried (v : Fin 3 → K) (x : Fin np → K) : State K np
  | .rho => 1
  | .mom d => v d
  | .en => (v 0 ^ 2 + v 1 ^ 2 + v 2 ^ 2) / 2
  | .ps j => x j

/-! ## One-dimensional exactness on the lattice -/

/-- What is stored along an axis: averages, centre values, or values at the left face. -/
inductive Kind where
  | avg | mid | face
  deriving DecidableEq

noncomputable def Kind.val (P : K[X]) (x₀ h : K) (k : ℤ) : Kind → K
  | .avg => cellAvg P x₀ h k
  | .mid => cellMid P x₀ h k
  | .face => P.derivative.eval (x₀ + (k : K) * h)

noncomputable def Density.stage (R : Density K) (x₀ h : Fin 3 → K) (κ : Fin 3 → Kind) (i : Ix) : K :=
  ∑ a ∈ R.s, ∏ d, (κ d).val (R.P a d) (x₀ d) (h d) (i d)

theorem stage_line (R : Density K) (x₀ h : Fin 3 → K) (κ : Fin 3 → Kind) (d : Fin 3) (i : Ix) (k : ℤ) :
    R.stage x₀ h κ (i + Pi.single d k) = ∑ a ∈ R.s,
      (∏ e ∈ Finset.univ.erase d, (κ e).val (R.P a e) (x₀ e) (h e) (i e)) •
        (κ d).val (R.P a d) (x₀ d) (h d) (i d + k) := by
  unfold Density.stage
  refine Finset.sum_congr rfl fun a _ => ?_
  rw [← Finset.mul_prod_erase _ _ (Finset.mem_univ d), smul_eq_mul, mul_comm]
  congr 1
  · refine Finset.prod_congr rfl fun e he => ?_
    have : e ≠ d := (Finset.mem_erase.1 he).1
    simp [this]
  · simp

theorem stage_update (R : Density K) (x₀ h : Fin 3 → K) (κ : Fin 3 → Kind) (d : Fin 3) (q : Kind) (i : Ix)
    (k : ℤ) : R.stage x₀ h (Function.update κ d q) (i + Pi.single d k) = ∑ a ∈ R.s,
      (∏ e ∈ Finset.univ.erase d, (κ e).val (R.P a e) (x₀ e) (h e) (i e)) •
        q.val (R.P a d) (x₀ d) (h d) (i d + k) := by
  rw [stage_line]
  refine Finset.sum_congr rfl fun a _ => ?_
  rw [Function.update_self]
  congr 1
  refine Finset.prod_congr rfl fun e he => ?_
  rw [Function.update_of_ne (Finset.mem_erase.1 he).1]

theorem stage_sweep (R : Density K) (x₀ h : Fin 3 → K) (κ : Fin 3 → Kind) (d : Fin 3) (q : Kind) (r : ℤ)
    (ws : List ℚ) (δ : ℤ) (hd : ∀ a k, wsum K ws (-r) (fun l => (κ d).val (R.P a d) (x₀ d) (h d) (k + l)) =
      q.val (R.P a d) (x₀ d) (h d) (k + δ)) (i : Ix) :
    lsweep K d r ws (R.stage x₀ h κ) i = R.stage x₀ h (Function.update κ d q) (i + Pi.single d δ) := by
  unfold lsweep
  rw [stage_update, wsum_congr ws _ (fun k => stage_line R x₀ h κ d i k), wsum_sum]
  refine Finset.sum_congr rfl fun a _ => ?_
  rw [wsum_smul, hd]

theorem line_c {p : ℕ} (hp : p ≤ 8) (pos : Pos) (P : K[X]) (hP : P.natDegree ≤ p + 1) (x₀ h : K)
    (hh : h ≠ 0) (k : ℤ) : wsum K (wts (conservativeWeights p pos.str)) (-(ceilHalf p : ℤ))
      (fun l => cellAvg P x₀ h (k + l)) = P.derivative.eval (x₀ + ((k : K) + 1 / 2 + pos.coord) * h) := by
  obtain ⟨ws, hw, hl, hm⟩ := conservativeWeights_ok hp pos
  have key := exact_of_moments p ws (-(rad p : ℤ)) pos.coord hm P hP (x₀ + ((k : K) + 1 / 2) * h) h hh
  rw [hw]
  change wsum K ws (-(rad p : ℤ)) _ = _
  rw [show x₀ + ((k : K) + 1 / 2 + pos.coord) * h = x₀ + ((k : K) + 1 / 2) * h + pos.coord * h by ring,
    ← key]
  refine wsum_congr _ _ fun l => ?_
  unfold cellAvg
  push_cast
  congr 3 <;> ring

theorem line_t {p : ℕ} (hp : p ≤ 8) (P : K[X]) (hP : P.natDegree ≤ p + 1) (x₀ h : K)
    (hh : h ≠ 0) (k : ℤ) : wsum K (wts (transverseWeights p)) (-(ceilHalf p : ℤ))
      (fun l => cellMid P x₀ h (k + l)) = cellAvg P x₀ h k := by
  obtain ⟨ws, hw, hl, _, hm⟩ := transverseWeights_ok hp
  have key := exact_avg_of_moments p ws (-(rad p : ℤ)) hm P hP (x₀ + ((k : K) + 1 / 2) * h) h hh
  rw [hw]
  change wsum K ws (-(rad p : ℤ)) _ = _
  unfold cellAvg
  rw [show x₀ + ((k : K) + 1) * h = x₀ + ((k : K) + 1 / 2) * h + 1 / 2 * h by ring,
    show x₀ + (k : K) * h = x₀ + ((k : K) + 1 / 2) * h - 1 / 2 * h by ring, ← key]
  refine wsum_congr _ _ fun l => ?_
  unfold cellMid
  push_cast
  congr 1
  ring

variable (R : Density K) (x₀ h : Fin 3 → K) {p : Fin 3 → ℕ}

theorem stage_c (hp : ∀ d, p d ≤ 8) (hR : R.HasDegree p) (hh : ∀ d, h d ≠ 0) (κ : Fin 3 → Kind)
    (d : Fin 3) (hκ : κ d = .avg) :
    latC K (p d) d (R.stage x₀ h κ) = R.stage x₀ h (Function.update κ d .mid) := by
  funext i
  unfold latC
  rw [stage_sweep R x₀ h κ d .mid _ _ 0, Pi.single_zero, add_zero]
  intro a k
  rw [hκ]
  refine (line_c (hp d) .c _ (hR a d) _ _ (hh d) k).trans ?_
  simp [Kind.val, cellMid, Pos.coord]

theorem stage_l (hp : ∀ d, p d ≤ 8) (hR : R.HasDegree p) (hh : ∀ d, h d ≠ 0) (κ : Fin 3 → Kind)
    (d : Fin 3) (hκ : κ d = .avg) :
    latL K (p d) d (R.stage x₀ h κ) = R.stage x₀ h (Function.update κ d .face) := by
  funext i
  unfold latL
  rw [stage_sweep R x₀ h κ d .face _ _ 0, Pi.single_zero, add_zero]
  intro a k
  rw [hκ]
  refine (line_c (hp d) .l _ (hR a d) _ _ (hh d) k).trans ?_
  simp only [Kind.val, Pos.coord]
  congr 1
  push_cast
  ring

theorem stage_r (hp : ∀ d, p d ≤ 8) (hR : R.HasDegree p) (hh : ∀ d, h d ≠ 0) (κ : Fin 3 → Kind)
    (d : Fin 3) (hκ : κ d = .avg) (i : Ix) :
    latR K (p d) d (R.stage x₀ h κ) i = R.stage x₀ h (Function.update κ d .face) (i + Pi.single d 1) := by
  unfold latR
  rw [stage_sweep R x₀ h κ d .face _ _ 1]
  intro a k
  rw [hκ]
  refine (line_c (hp d) .r _ (hR a d) _ _ (hh d) k).trans ?_
  simp only [Kind.val, Pos.coord]
  congr 1
  push_cast
  ring

theorem stage_t (hp : ∀ d, p d ≤ 8) (hR : R.HasDegree p) (hh : ∀ d, h d ≠ 0) (κ : Fin 3 → Kind)
    (d : Fin 3) (hκ : κ d = .mid) :
    latT K (p d) d (R.stage x₀ h κ) = R.stage x₀ h (Function.update κ d .avg) := by
  funext i
  unfold latT
  rw [stage_sweep R x₀ h κ d .avg _ _ 0, Pi.single_zero, add_zero]
  intro a k
  rw [hκ]
  refine (line_t (hp d) _ (hR a d) _ _ (hh d) k).trans ?_
  simp [Kind.val]

/-! ## States that depend on the density in an affine way -/

theorem lsweep_affine {V : Type} [AddCommGroup V] [Module K V] (d : Fin 3) (r : ℤ) (ws : List ℚ)
    (hs : ws.sum = 1) (b m : V) (ρ : Ix → K) :
    lsweep K d r ws (fun i => b + ρ i • m) = fun i => b + lsweep K d r ws ρ i • m := by
  funext i
  unfold lsweep
  rw [wsum_add, wsum_const, hs, Rat.cast_one, one_smul]
  congr 1
  exact (wsum_map ((LinearMap.id : K →ₗ[K] K).smulRight m) ws (-r) fun k => ρ (i + Pi.single d k)).symm

theorem conserved_flowing (gamma : K) (v : Fin 3 → K) (P : K) (x : Fin np → K) (r : K) :
    conserved gamma (flowing v P x r) = (fun | .en => P / (gamma - 1) | _ => 0) + r • carried v x := by
  funext i
  cases i <;> simp [conserved, flowing, carried, totalEnergy]
  ring

theorem flowing_affine (v : Fin 3 → K) (P : K) (x : Fin np → K) (r : K) :
    flowing v P x r = flowing v P x 0 + r • (fun | .rho => 1 | _ => 0 : State K np) := by
  funext i
  cases i <;> simp [flowing]

theorem lsweep_flowing (v : Fin 3 → K) (P : K) (x : Fin np → K) (d : Fin 3) (r : ℤ) (ws : List ℚ)
    (hs : ws.sum = 1) (ρ : Ix → K) :
    lsweep K d r ws (fun i => flowing v P x (ρ i)) = fun i => flowing v P x (lsweep K d r ws ρ i) := by
  have e : (fun i => flowing v P x (ρ i)) = fun i => flowing v P x 0 +
      ρ i • (fun | .rho => 1 | _ => 0 : State K np) := funext fun i => flowing_affine v P x _
  rw [e, lsweep_affine d r ws hs]
  exact funext fun i => (flowing_affine v P x _).symm

/-- Pressure part of the flux of a uniform flow, with the pressure `q` the solver sees. -/
def pushed (gamma : K) (v : Fin 3 → K) (P q : K) (d : Fin 3) : State K np
  | .mom e => if e = d then q else 0
  | .en => v d * (P / (gamma - 1) + q)
  | _ => 0

theorem riemann_flowing (G : Gas K) (k : RiemannKind)
    (hG : k = .hllc → IsSqrt G.sqrt ∧ 0 < G.csqFloor) (v : Fin 3 → K) (P : K) (x : Fin np → K)
    (d : Fin 3) (r : K) (hr : k = .hllc → r ≠ 0) :
    riemann k G d (flowing v P x r) (flowing v P x r) =
      pushed G.gamma v P (if k = .advectionUpwind then 0 else P) d + r • (v d • carried v x) := by
  have he : eulerFlux G.gamma d (flowing v P x r) = pushed G.gamma v P P d + r • (v d • carried v x) := by
    funext i
    cases i <;> simp [eulerFlux, flowing, carried, totalEnergy, pushed] <;> ring
  cases k with
  | advectionUpwind =>
    change FVHOE.advectionUpwind G d _ _ = _
    rw [C15_advection, if_pos rfl]
    funext i
    unfold carriedFlux
    rw [conserved_flowing]
    cases i <;> simp [flowing, carried, pushed] <;> ring
  | llf =>
    change FVHOE.llf G d _ _ = _
    rw [C15_llf, if_neg (by simp), he]
  | hllc =>
    change FVHOE.hllc G d _ _ = _
    rw [C15_hllc G (hG rfl).1 (hG rfl).2 d _ (hr rfl), if_neg (by simp), he]

theorem prim_flowing (gamma : K) (hg : gamma ≠ 1) (v : Fin 3 → K) (P : K) (x : Fin np → K) (r : K)
    (hr : r ≠ 0) : computePrimitives gamma (conserved gamma (flowing v P x r)) = flowing v P x r := by
  have hg : gamma - 1 ≠ 0 := sub_ne_zero.2 hg
  funext i
  cases i <;> simp [computePrimitives, conserved, flowing, totalEnergy, sum3] <;> field_simp
  ring

/-! ## The stages of the right-hand side -/

theorem stage_avg : R.stage x₀ h (fun _ => .avg) = R.avg x₀ h := rfl

theorem centers_flowing (hp : ∀ d, p d ≤ 8) (hR : R.HasDegree p) (hh : ∀ d, h d ≠ 0) (gamma : K)
    (v : Fin 3 → K) (P : K) (x : Fin np → K) :
    latCenters K p (fun j => conserved gamma (flowing v P x (R.avg x₀ h j))) =
      fun j => conserved gamma (flowing v P x (R.stage x₀ h (fun _ => .mid) j)) := by
  have hc : ∀ κ : Fin 3 → Kind, ∀ d, κ d = .avg →
      latC K (p d) d (fun j => conserved gamma (flowing v P x (R.stage x₀ h κ j))) =
      fun j => conserved gamma (flowing v P x (R.stage x₀ h (Function.update κ d .mid) j)) := by
    intro κ d hκ
    simp only [conserved_flowing]
    unfold latC
    rw [lsweep_affine d _ _ (wts_sum (hp d)).2.1]
    funext j
    rw [← stage_c R x₀ h hp hR hh κ d hκ]
    rfl
  unfold latCenters
  rw [← stage_avg, hc _ 0 rfl, hc _ 1 (by simp), hc _ 2 (by simp)]
  have : Function.update (Function.update (Function.update (fun _ : Fin 3 => Kind.avg) 0 .mid) 1 .mid) 2 .mid =
      fun _ => .mid := by decide
  rw [this]

theorem reconstruct_flowing (hp : ∀ d, p d ≤ 8) (hR : R.HasDegree p) (hh : ∀ d, h d ≠ 0)
    (b m : State K np) (κ : Fin 3 → Kind) (d : Fin 3) (hκ : κ d = .mid) :
    latT K (p d) d (fun j => b + R.stage x₀ h κ j • m) =
      fun j => b + R.stage x₀ h (Function.update κ d .avg) j • m := by
  unfold latT
  rw [lsweep_affine d _ _ (wts_sum (hp d)).2.2.2]
  funext j
  rw [← stage_t R x₀ h hp hR hh κ d hκ]
  rfl

theorem averages_flowing (hp : ∀ d, p d ≤ 8) (hR : R.HasDegree p) (hh : ∀ d, h d ≠ 0)
    (v : Fin 3 → K) (P : K) (x : Fin np → K) :
    latT K (p 2) 2 (latT K (p 1) 1 (latT K (p 0) 0
      fun j => flowing v P x (R.stage x₀ h (fun _ => .mid) j))) = fun j => flowing v P x (R.avg x₀ h j) := by
  have e : ∀ r, flowing v P x r = flowing v P x 0 + r • (fun | .rho => 1 | _ => 0 : State K np) :=
    flowing_affine v P x
  have e1 : (fun j => flowing v P x (R.stage x₀ h (fun _ => .mid) j)) = fun j => flowing v P x 0 +
      R.stage x₀ h (fun _ => .mid) j • (fun | .rho => 1 | _ => 0 : State K np) := funext fun j => e _
  rw [e1, reconstruct_flowing R x₀ h hp hR hh _ _ _ 0 rfl,
    reconstruct_flowing R x₀ h hp hR hh _ _ _ 1 (by simp),
    reconstruct_flowing R x₀ h hp hR hh _ _ _ 2 (by simp)]
  have : Function.update (Function.update (Function.update (fun _ : Fin 3 => Kind.mid) 0 .avg) 1 .avg) 2 .avg =
      fun _ => .avg := by decide
  rw [this, stage_avg]
  exact funext fun j => (e _).symm

/-- Values along a face: on the face in direction `d`, at the middle in the others. -/
def faceMid (d : Fin 3) : Fin 3 → Kind := fun e => if e = d then .face else .mid

/-- Averages over a face. -/
def faceAvg (d : Fin 3) : Fin 3 → Kind := fun e => if e = d then .face else .avg

theorem orders (d : Fin 3) : ∃ o1 o2 q1 q2, centerOrder d = (o1, o2) ∧ transverseOrder d = (q1, q2) ∧
    o1 ≠ o2 ∧ o1 ≠ d ∧ o2 ≠ d ∧ q1 ≠ q2 ∧ q1 ≠ d ∧ q2 ≠ d := by
  match d with
  | 0 => exact ⟨_, _, _, _, rfl, rfl, by decide⟩
  | 1 => exact ⟨_, _, _, _, rfl, rfl, by decide⟩
  | 2 => exact ⟨_, _, _, _, rfl, rfl, by decide⟩

theorem faces_flowing (hp : ∀ d, p d ≤ 8) (hR : R.HasDegree p) (hh : ∀ d, h d ≠ 0)
    (v : Fin 3 → K) (P : K) (x : Fin np → K) (riem : State K np → State K np → State K np) (d : Fin 3) :
    latMid K riem p none d (fun j => flowing v P x (R.avg x₀ h j)) = fun j =>
      riem (flowing v P x (R.stage x₀ h (faceMid d) j)) (flowing v P x (R.stage x₀ h (faceMid d) j)) := by
  obtain ⟨o1, o2, q1, q2, eo, eq, h12, h1d, h2d, k12, k1d, k2d⟩ := orders d
  have hcov := cov3 d o1 o2 h12 h1d h2d
  have hc : ∀ κ : Fin 3 → Kind, ∀ d, κ d = .avg →
      latC K (p d) d (fun j => flowing v P x (R.stage x₀ h κ j)) =
      fun j => flowing v P x (R.stage x₀ h (Function.update κ d .mid) j) := by
    intro κ d hκ
    unfold latC
    rw [lsweep_flowing v P x d _ _ (wts_sum (hp d)).2.1, ← stage_c R x₀ h hp hR hh κ d hκ]
    rfl
  have hline : latLine K p d (fun j => flowing v P x (R.avg x₀ h j)) = fun j =>
      flowing v P x (R.stage x₀ h (fun e => if e = d then .avg else .mid) j) := by
    unfold latLine
    rw [eo]
    dsimp only
    rw [← stage_avg, hc _ o1 rfl, hc _ o2 (by simp [h12.symm])]
    have : Function.update (Function.update (fun _ : Fin 3 => Kind.avg) o1 .mid) o2 .mid =
        fun e => if e = d then .avg else .mid := by
      funext e
      rcases hcov e with rfl | rfl | rfl
      · simp [h1d.symm, h2d.symm]
      · simp [h12, h1d]
      · simp [h2d]
    rw [this]
  have hu : Function.update (fun e : Fin 3 => if e = d then Kind.avg else .mid) d .face = faceMid d := by
    funext e
    unfold faceMid
    by_cases he : e = d
    · subst he; simp
    · simp [he]
  funext j
  unfold latMid latFaceR latFaceL
  dsimp only
  rw [hline]
  congr 1
  · unfold latR
    rw [lsweep_flowing v P x d _ _ (wts_sum (hp d)).2.2.1]
    have := stage_r R x₀ h hp hR hh (fun e => if e = d then .avg else .mid) d (by simp) (j - Pi.single d 1)
    unfold latR at this
    dsimp only
    rw [this, hu, sub_add_cancel]
  · unfold latL
    rw [lsweep_flowing v P x d _ _ (wts_sum (hp d)).1]
    have := congrFun (stage_l R x₀ h hp hR hh (fun e => if e = d then .avg else .mid) d (by simp)) j
    unfold latL at this
    dsimp only
    rw [this, hu]

theorem transverse_flowing (hp : ∀ d, p d ≤ 8) (hR : R.HasDegree p) (hh : ∀ d, h d ≠ 0)
    (b m : State K np) (d : Fin 3) :
    latT K (p (transverseOrder d).2) (transverseOrder d).2 (latT K (p (transverseOrder d).1)
      (transverseOrder d).1 fun j => b + R.stage x₀ h (faceMid d) j • m) =
      fun j => b + R.stage x₀ h (faceAvg d) j • m := by
  obtain ⟨o1, o2, q1, q2, eo, eq, h12, h1d, h2d, k12, k1d, k2d⟩ := orders d
  have hcov := cov3 d q1 q2 k12 k1d k2d
  rw [eq]
  dsimp only
  rw [reconstruct_flowing R x₀ h hp hR hh _ _ _ q1 (by simp [faceMid, k1d]),
    reconstruct_flowing R x₀ h hp hR hh _ _ _ q2 (by simp [faceMid, k2d, k12.symm])]
  have : Function.update (Function.update (faceMid d) q1 .avg) q2 .avg = faceAvg d := by
    funext e
    unfold faceMid faceAvg
    rcases hcov e with rfl | rfl | rfl
    · simp [k1d.symm, k2d.symm]
    · simp [k12, k1d]
    · simp [k2d]
  rw [this]

theorem stage_mid_at (j : Ix) : R.stage x₀ h (fun _ => .mid) j =
    R.at fun d => x₀ d + ((j d : K) + 1 / 2) * h d := rfl

theorem stage_face_at (d : Fin 3) (j : Ix) : R.stage x₀ h (faceMid d) j =
    R.at fun e => x₀ e + ((j e : K) + if e = d then 0 else 1 / 2) * h e := by
  unfold Density.stage Density.at faceMid
  refine Finset.sum_congr rfl fun a _ => Finset.prod_congr rfl fun e _ => ?_
  by_cases he : e = d
  · simp [he, Kind.val]
  · simp [he, Kind.val, cellMid]

/-- The difference of the face averages across a cell is the average of the derivative. -/
theorem stage_faces_diff (d : Fin 3) (i : Ix) :
    (1 / h d) * (R.stage x₀ h (faceAvg d) (i + Pi.single d 1) - R.stage x₀ h (faceAvg d) i) =
      (R.diff d).avg x₀ h i := by
  have hu : faceAvg d = Function.update (fun _ => Kind.avg) d .face := by
    funext e
    unfold faceAvg
    by_cases he : e = d
    · subst he; simp
    · simp [he]
  have h0 := stage_update R x₀ h (fun _ => .avg) d .face i 0
  rw [Pi.single_zero, add_zero, add_zero] at h0
  rw [hu, stage_update, h0, ← Finset.sum_sub_distrib, Finset.mul_sum]
  unfold Density.avg Density.diff
  refine Finset.sum_congr rfl fun a _ => ?_
  dsimp only
  rw [← Finset.mul_prod_erase _ _ (Finset.mem_univ d), Function.update_self]
  have : ∏ e ∈ Finset.univ.erase d, cellAvg (Function.update (R.P a) d (R.P a d).derivative e) (x₀ e) (h e) (i e) =
      ∏ e ∈ Finset.univ.erase d, Kind.avg.val (R.P a e) (x₀ e) (h e) (i e) := by
    refine Finset.prod_congr rfl fun e he => ?_
    rw [Function.update_of_ne (Finset.mem_erase.1 he).1]
    rfl
  rw [this]
  simp only [Kind.val, smul_eq_mul, cellAvg]
  push_cast
  ring

/-! ## C63 -/

/-- The configuration C63 speaks of: limiting off, degrees up to 8, cells in every direction, positive
spacings, `γ ≠ 1`, and for hllc a working square root and a positive floor. -/
structure TransportSetup (c : EulerConfig K np) : Prop where
  unlimited : c.limiting = none
  degree : ∀ d, c.p d ≤ 8
  cells : ∀ d, 1 ≤ c.n d
  spacing : ∀ d, 0 < c.h d
  gamma : c.gas.gamma ≠ 1
  sound : c.riem = .hllc → IsSqrt c.gas.sqrt ∧ 0 < c.gas.csqFloor

/-- The density does not vanish in the box that the right-hand side at cell `i` looks at. -/
def NonzeroNear (c : EulerConfig K np) (x₀ : Fin 3 → K) (R : Density K) (i : Ix) : Prop :=
  ∀ x : Fin 3 → K, (∀ d, x₀ d + ((i d : K) - reach c.scheme d) * c.h d ≤ x d ∧
    x d ≤ x₀ d + ((i d : K) + reach c.scheme d + 1) * c.h d) → R.at x ≠ 0

theorem in_stencil {x₀ h : K} (hh : 0 < h) {i j : ℤ} {r : ℕ} {y : K} (h0 : 0 ≤ y) (h1 : y ≤ 1)
    (hlo : i - r ≤ j) (hhi : (j : K) + y ≤ i + r + 1) :
    x₀ + ((i : K) - r) * h ≤ x₀ + ((j : K) + y) * h ∧
      x₀ + ((j : K) + y) * h ≤ x₀ + ((i : K) + r + 1) * h := by
  have e1 : (i : K) - r ≤ j := by exact_mod_cast hlo
  constructor
  · have := mul_le_mul_of_nonneg_right (show (i : K) - r ≤ j + y by linarith) hh.le
    linarith
  · have := mul_le_mul_of_nonneg_right hhi hh.le
    linarith

theorem transport_prim (c : EulerConfig K np) (hc : TransportSetup c) (x₀ : Fin 3 → K)
    (hR : R.HasDegree c.p) (v : Fin 3 → K) (P : K) (x : Fin np → K) (U : Ix → State K np) (i m : Ix)
    (hm : ∀ d, m d + 2 * ceilHalf (c.p d) ≤ reach c.scheme d) (h0 : NonzeroNear c x₀ R i)
    (hU : Agree U (fun j => conserved c.gas.gamma (flowing v P x (R.avg x₀ c.h j))) i
      (fun d => reach c.scheme d)) :
    Agree (latPrim K c.scheme.prim c.p U) (fun j => flowing v P x (R.avg x₀ c.h j)) i m := by
  have hh : ∀ d, c.h d ≠ 0 := fun d => (hc.spacing d).ne'
  have h1 := Agree.prim (K := K) (m := m) c.scheme.prim c.p hc.degree (hU.mono hm)
  have h2 : Agree (fun j => c.scheme.prim (latCenters K c.p
      (fun j => conserved c.gas.gamma (flowing v P x (R.avg x₀ c.h j))) j))
      (fun j => flowing v P x (R.stage x₀ c.h (fun _ => .mid) j)) i (fun d => m d + ceilHalf (c.p d)) := by
    intro j hj
    dsimp only
    rw [centers_flowing R x₀ c.h hc.degree hR hh]
    refine prim_flowing _ hc.gamma v P x _ ?_
    rw [stage_mid_at]
    refine h0 _ fun d => in_stencil (hc.spacing d) (by norm_num) (by norm_num) ?_ ?_
    · have a1 := hj d
      have a2 := hm d
      rw [abs_le] at a1
      dsimp only at a1
      omega
    · have a1 := hj d
      have a2 := hm d
      dsimp only at a1
      rw [abs_le] at a1
      have : j d ≤ i d + reach c.scheme d := by omega
      have : (j d : K) ≤ (i d : K) + reach c.scheme d := by exact_mod_cast this
      linarith
  have h2' := h2.mono (m' := m + Pi.single 2 (ceilHalf (c.p 2) : ℤ) + Pi.single 1 (ceilHalf (c.p 1) : ℤ) +
      Pi.single 0 (ceilHalf (c.p 0) : ℤ)) (fun d => by
    match d with
    | 0 => simp
    | 1 => simp
    | 2 => simp)
  have h3 := ((h2'.trans (K := K) 0 (c.p 0) (hc.degree 0)).trans (K := K) 1 (c.p 1) (hc.degree 1)).trans
    (K := K) 2 (c.p 2) (hc.degree 2)
  rw [averages_flowing R x₀ c.h hc.degree hR hh] at h3
  intro j hj
  rw [h1 j hj]
  exact h3 j hj

theorem Agree.transverse {V : Type} [AddCommGroup V] [Module K V] {Φ Ψ : Ix → V} {i : Ix}
    (p : Fin 3 → ℕ) (hp : ∀ d, p d ≤ 8) (d : Fin 3)
    (h : Agree Φ Ψ i (fun e => if e = d then 0 else ceilHalf (p e))) :
    latT K (p (transverseOrder d).2) (transverseOrder d).2
      (latT K (p (transverseOrder d).1) (transverseOrder d).1 Φ) i =
    latT K (p (transverseOrder d).2) (transverseOrder d).2
      (latT K (p (transverseOrder d).1) (transverseOrder d).1 Ψ) i := by
  obtain ⟨o1, o2, q1, q2, eo, eq, h12, h1d, h2d, k12, k1d, k2d⟩ := orders d
  have hcov := cov3 d q1 q2 k12 k1d k2d
  rw [eq]
  have h2 := h.mono (m' := (0 : Ix) + Pi.single q2 (ceilHalf (p q2) : ℤ) +
      Pi.single q1 (ceilHalf (p q1) : ℤ)) (fun e => by
    rcases hcov e with rfl | rfl | rfl
    · simp [k1d.symm, k2d.symm]
    · simp [k12, k1d]
    · simp [k12.symm, k2d])
  exact (h2.trans (K := K) q1 (p q1) (hp q1)).trans (K := K) q2 (p q2) (hp q2) _ (by simp)

theorem transport_mid (c : EulerConfig K np) (hc : TransportSetup c) (x₀ : Fin 3 → K)
    (i : Ix) (h0 : NonzeroNear c x₀ R i) (d : Fin 3) (y : ℤ) (hy : y = 0 ∨ y = 1) (j : Ix)
    (hj : ∀ e, |j e - (i + Pi.single d y : Ix) e| ≤ if e = d then 0 else (ceilHalf (c.p e) : ℤ)) :
    R.stage x₀ c.h (faceMid d) j ≠ 0 := by
  rw [stage_face_at]
  refine h0 _ fun e => ?_
  have hje := hj e
  by_cases he : e = d
  · subst he
    simp at hje
    have hje' : j e = i e + y := by omega
    refine in_stencil (hc.spacing e) (by simp) (by simp) (by omega) ?_
    rw [hje']
    have hr : 0 ≤ (reach c.scheme e : K) := Nat.cast_nonneg _
    rcases hy with rfl | rfl <;> push_cast <;> simp <;> linarith
  · simp only [Pi.add_apply, Pi.single_eq_of_ne he, add_zero, if_neg he] at hje ⊢
    have hr : ceilHalf (c.p e) ≤ reach c.scheme e := by
      unfold reach
      by_cases ha : c.scheme.active e = true
      · rw [if_pos ha]
        change ceilHalf (c.p e) ≤ max (3 * ceilHalf (c.p e) + 1) _
        omega
      · have := c.scheme.inactive_p e (by simpa using ha)
        change c.p e = 0 at this
        rw [this]
        exact Nat.zero_le _
    rw [abs_le] at hje
    refine in_stencil (hc.spacing e) (by norm_num) (by norm_num) (by omega) ?_
    have : j e ≤ i e + reach c.scheme e := by omega
    have : (j e : K) ≤ (i e : K) + reach c.scheme e := by exact_mod_cast this
    linarith

theorem transport_flux (c : EulerConfig K np) (hc : TransportSetup c) (x₀ : Fin 3 → K)
    (hR : R.HasDegree c.p) (v : Fin 3 → K) (P : K) (x : Fin np → K) (i : Ix) (h0 : NonzeroNear c x₀ R i)
    (d : Fin 3) (y : ℤ) (hy : y = 0 ∨ y = 1) :
    latFlux K (riemann c.riem c.gas d) c.p none d (fun j => flowing v P x (R.avg x₀ c.h j))
        (i + Pi.single d y) =
      pushed c.gas.gamma v P (if c.riem = .advectionUpwind then 0 else P) d +
        R.stage x₀ c.h (faceAvg d) (i + Pi.single d y) • (v d • carried v x) := by
  have hh : ∀ d, c.h d ≠ 0 := fun d => (hc.spacing d).ne'
  have h1 : Agree (latMid K (riemann c.riem c.gas d) c.p none d (fun j => flowing v P x (R.avg x₀ c.h j)))
      (fun j => pushed c.gas.gamma v P (if c.riem = .advectionUpwind then 0 else P) d +
        R.stage x₀ c.h (faceMid d) j • (v d • carried v x)) (i + Pi.single d y)
      (fun e => if e = d then 0 else ceilHalf (c.p e)) := by
    intro j hj
    rw [faces_flowing R x₀ c.h hc.degree hR hh]
    exact riemann_flowing c.gas c.riem hc.sound v P x d _ fun _ =>
      transport_mid R c hc x₀ i h0 d y hy j hj
  have h2 := Agree.transverse (K := K) c.p hc.degree d h1
  rw [transverse_flowing R x₀ c.h hc.degree hR hh _ _ d] at h2
  exact h2

/-- A polynomial density does not vary along an inactive direction. -/
theorem inactive_diff (c : EulerConfig K np) (hR : R.HasDegree c.p) (d : Fin 3)
    (hd : c.scheme.active d = false) (i : Ix) : (R.diff d).avg x₀ h i = 0 := by
  have hp : c.p d = 0 := c.scheme.inactive_p d hd
  unfold Density.avg Density.diff
  refine Finset.sum_eq_zero fun a _ => Finset.prod_eq_zero (Finset.mem_univ d) ?_
  dsimp only
  rw [Function.update_self]
  have h1 : (R.P a d).natDegree ≤ 1 := by have := hR a d; omega
  have h2 : (R.P a d).derivative.natDegree ≤ 0 := by
    have := natDegree_derivative_le (R.P a d)
    omega
  rw [eq_C_of_natDegree_le_zero h2]
  simp [cellAvg]

/-- **C63** Let the state, continued beyond the boundaries, hold within the reach of cell `i` the cell
averages of a gas of uniform velocity `v`, pressure and concentrations, whose density is a polynomial of
degree at most `p d` in direction `d` and does not vanish there. Then the right-hand side at `i` is
exact: `dρ/dt` is minus the cell average of `v · ∇ρ`, and momentum, energy and passive masses change as
carried by it. -/
theorem C63_transport (c : EulerConfig K np) (hc : TransportSetup c) (x₀ : Fin 3 → K)
    (hR : R.HasDegree c.p) (v : Fin 3 → K) (P : K) (x : Fin np → K) (i : Ix) (hi : InCells c.n i)
    (h0 : NonzeroNear c x₀ R i) (t t' : K) (gl gr : Fin 3 → Ghost (State K np))
    (hs : Sides c.scheme (fluxWidth c.scheme c.p) t gl gr) (u : Ix → State K np)
    (hu : ∀ j : Ix, (∀ d, |j d - i d| ≤ reach c.scheme d) →
      extAll c.n gl gr u j = conserved c.gas.gamma (flowing v P x (R.avg x₀ c.h j)))
    (junk : ℕ → Ix → State K np) (mem : Fin 3 → Ix → State K np) :
    ∃ dt D, solverRHS c.scheme junk mem t t' u = .ok (dt, D) ∧
      D i = (-∑ d, v d * (R.diff d).avg x₀ c.h i) • carried v x := by
  obtain ⟨dt, _, e⟩ := rhs_spec c.scheme hc.unlimited hc.degree hc.cells t gl gr hs junk mem t' u u
    (fun _ _ => rfl)
  refine ⟨dt, _, e, ?_⟩
  beta_reduce
  rw [if_pos (show InCells c.scheme.n i from hi)]
  unfold latDiv
  rw [← Finset.sum_neg_distrib, Finset.sum_smul]
  refine Finset.sum_congr rfl fun d _ => ?_
  by_cases hd : c.scheme.active d = true
  · rw [if_pos hd]
    have hW := transport_prim R c hc x₀ hR v P x (extAll c.n gl gr u) i
      (fun e => if e = d then (ceilHalf (c.p e) : ℤ) + 1 else 2 * ceilHalf (c.p e)) (fun e => by
        unfold reach
        change _ ≤ ((if c.scheme.active e then max (3 * ceilHalf (c.p e) + 1) (4 * ceilHalf (c.p e)) else 0 : ℕ) : ℤ)
        by_cases he : e = d
        · subst he
          simp only [hd, if_true]
          push_cast
          omega
        · simp only [if_neg he]
          by_cases ha : c.scheme.active e = true
          · simp only [ha, if_true]
            push_cast
            omega
          · have ha' : c.scheme.active e = false := by simpa using ha
            have : c.p e = 0 := c.scheme.inactive_p e ha'
            simp [ha', this, ceilHalf]) h0 hu
    have f1 := Agree.flux (K := K) (riemann c.riem c.gas d) c.p hc.degree d 1 (Or.inr rfl) hW
    have f0 := Agree.flux (K := K) (riemann c.riem c.gas d) c.p hc.degree d 0 (Or.inl rfl) hW
    rw [transport_flux R c hc x₀ hR v P x i h0 d _ (Or.inr rfl)] at f1
    rw [transport_flux R c hc x₀ hR v P x i h0 d _ (Or.inl rfl), Pi.single_zero, add_zero] at f0
    change (-(1 / c.h d)) • (latFlux K (riemann c.riem c.gas d) c.p none d (latPrim K c.scheme.prim c.p
      (extAll c.n gl gr u)) (i + Pi.single d 1) - latFlux K (riemann c.riem c.gas d) c.p none d
      (latPrim K c.scheme.prim c.p (extAll c.n gl gr u)) i) = _
    rw [f1, f0, ← stage_faces_diff R x₀ c.h d i]
    module
  · rw [if_neg hd, inactive_diff R x₀ c.h c hR d (by simpa using hd) i]
    simp

/-- **C63** in the interior: for a cell whose whole stencil lies inside the domain no condition on the
boundaries is needed, except that the ghost layers can be filled. -/
theorem C63_interior (c : EulerConfig K np) (hc : TransportSetup c) (x₀ : Fin 3 → K)
    (hR : R.HasDegree c.p) (v : Fin 3 → K) (P : K) (x : Fin np → K) (i : Ix)
    (hi : ∀ d, (reach c.scheme d : ℤ) ≤ i d ∧ i d + reach c.scheme d < c.n d)
    (h0 : NonzeroNear c x₀ R i) (hF : Fillable c.bc c.n (fluxWidth c.scheme c.p)) (u : Ix → State K np)
    (hu : ∀ j : Ix, (∀ d, |j d - i d| ≤ reach c.scheme d) →
      u j = conserved c.gas.gamma (flowing v P x (R.avg x₀ c.h j)))
    (junk : ℕ → Ix → State K np) (mem : Fin 3 → Ix → State K np) (t t' dt : K) (D : Ix → State K np)
    (hD : solverRHS c.scheme junk mem t t' u = .ok (dt, D)) :
    D i = (-∑ d, v d * (R.diff d).avg x₀ c.h i) • carried v x := by
  obtain ⟨F0, eF0, _⟩ := rhs_inv hD
  unfold solverFluxes at eF0
  obtain ⟨r0, hr0, _⟩ := bind_ok eF0
  unfold hydrofluxes at hr0
  rw [if_neg (by simp)] at hr0
  obtain ⟨w, hw, _⟩ := bind_ok hr0
  unfold primitivesFromConservatives at hw
  obtain ⟨A, hA, _⟩ := bind_ok hw
  obtain ⟨gl, gr, hl, hr⟩ := spec_of_ok c.bc c.scheme.negate c.n _ t hF u (junk 0) A hA
  obtain ⟨dt', D', e, h⟩ := C63_transport R c hc x₀ hR v P x i
    (fun d => by have := hi d; constructor <;> omega) h0 t t' gl gr (fun d => ⟨hl d, hr d⟩) u
    (fun j hj => by
      rw [← hu j hj]
      have hin : ∀ d, ¬ j d < 0 ∧ ¬ (c.n d : ℤ) ≤ j d := fun d => by
        have h1 := hj d
        have h2 := hi d
        rw [abs_le] at h1
        constructor <;> omega
      unfold extAll extAxis
      simp only [(hin 0).1, (hin 0).2, (hin 1).1, (hin 1).2, (hin 2).1, (hin 2).2, if_false]) junk mem
  rw [hD] at e
  cases e
  exact h

/-- A two-dimensional periodic box with degrees (2, 1) and the llf solver. -/
def carryConfig : EulerConfig ℚ 1 where
  gas := ⟨7 / 5, 0, fun x => x⟩
  riem := .llf
  n := ![12, 11, 1]
  p := ![2, 1, 0]
  h := ![1, 2, 3]
  cfl := 1 / 2
  fixedDt := some 1
  bc := ⟨fun _ _ => .periodic, fun _ _ => .other, none⟩
  limiting := none

/-- The density `1 + x² y`. -/
noncomputable def curved : Density ℚ where
  ι := Bool
  s := Finset.univ
  P := fun a => if a then fun _ => X else ![C (1 / 3) * X ^ 3, C (1 / 2) * X ^ 2, X]

/-- C63 applies to the density `1 + x² y` moving with velocity (3, 1, 2) at cell (6, 5, 0), and the
derivative there is not zero. -/
example : TransportSetup carryConfig ∧ curved.HasDegree carryConfig.p ∧
    (∀ d, (reach carryConfig.scheme d : ℤ) ≤ (![6, 5, 0] : Ix) d ∧
      (![6, 5, 0] : Ix) d + reach carryConfig.scheme d < carryConfig.n d) ∧
    NonzeroNear carryConfig 0 curved ![6, 5, 0] ∧
    Fillable carryConfig.bc carryConfig.n (fluxWidth carryConfig.scheme carryConfig.p) ∧
    -∑ d, (![3, 1, 2] : Fin 3 → ℚ) d * (curved.diff d).avg 0 carryConfig.h ![6, 5, 0] ≠ 0 := by
  have e : ∀ d, reach carryConfig.scheme d = (![4, 4, 0] : Fin 3 → ℕ) d := by decide
  have ew : fluxWidth carryConfig.scheme carryConfig.p = ![4, 4, 0] := by decide
  refine ⟨⟨rfl, by decide, by decide, ?_, ?_, nofun⟩, ?_, ?_, ?_, ?_, ?_⟩
  · intro d; fin_cases d <;> norm_num [carryConfig]
  · norm_num [carryConfig]
  · intro a d
    have h3 : (C (1 / 3 : ℚ) * X ^ 3).natDegree ≤ 3 := natDegree_C_mul_X_pow_le _ _
    have h2 : (C (1 / 2 : ℚ) * X ^ 2).natDegree ≤ 2 := natDegree_C_mul_X_pow_le _ _
    have h1 : (X : ℚ[X]).natDegree ≤ 1 := natDegree_X_le
    cases a
    · fin_cases d
      · exact h3
      · exact h2
      · exact h1
    · exact h1.trans (Nat.le_add_left 1 _)
  · intro d; rw [e]; revert d; decide
  · intro x hx
    have h1 := (hx 1).1
    rw [e] at h1
    have h1' : 0 ≤ x 1 := by
      have : (0 : ℚ) ≤ (0 : Fin 3 → ℚ) 1 + (((![6, 5, 0] : Ix) 1 : ℚ) - ((![4, 4, 0] : Fin 3 → ℕ) 1 : ℕ)) *
          carryConfig.h 1 := by decide +kernel
      exact this.trans h1
    have e1 : curved.at x = 1 + x 0 ^ 2 * x 1 := by
      simp [curved, Density.at, Fin.prod_univ_three]
      ring
    rw [e1]
    have := mul_nonneg (sq_nonneg (x 0)) h1'
    exact ne_of_gt (by linarith)
  · rw [ew]
    have h1 : ∀ d, 1 ≤ carryConfig.n d ∧ (![4, 4, 0] : Fin 3 → ℕ) d ≤ carryConfig.n d := by decide
    exact fun d _ => ⟨(h1 d).1, fun s => ⟨nofun, fun _ => (h1 d).2⟩, fun _ => rfl⟩
  · have e0 : (curved.diff 0).avg 0 carryConfig.h ![6, 5, 0] = 143 := by
      simp [curved, Density.avg, Density.diff, Fin.prod_univ_three, cellAvg, carryConfig]
      norm_num
    have e1 : (curved.diff 1).avg 0 carryConfig.h ![6, 5, 0] = 127 / 3 := by
      simp [curved, Density.avg, Density.diff, Fin.prod_univ_three, cellAvg, carryConfig]
      norm_num
    have e2 : (curved.diff 2).avg 0 carryConfig.h ![6, 5, 0] = 0 := by
      simp [curved, Density.avg, Density.diff, Fin.prod_univ_three, cellAvg, carryConfig]
    rw [Fin.sum_univ_three, e0, e1, e2]
    norm_num

end FVHOE
