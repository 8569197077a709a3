import Verif.Proofs.Dissipate

/-!
The rate of change of the density in a uniform flow as a combination of shifts; it is dissipative, and its norm times the
step size is at most twice the sum of the CFL numbers of the directions.
-/

set_option linter.unusedSectionVars false

namespace FVHOE

section

variable {p : ℕ} (hp : p ≤ 8) (d : Fin 3)
include hp

theorem opE_eq : opE p d = sh d (-(3 * ceilHalf p + 1 : ℕ)) * leval (sh d 1) (listE p) := by
  unfold opE opR opN opT opC sweepOp listE listN
  rw [leval_mul, leval_mul, leval_mul]
  have e : sh d (-((3 * ceilHalf p + 1 : ℕ) : ℤ)) =
      sh d (-1) * (sh d (-(ceilHalf p : ℤ)) * (sh d (-(ceilHalf p : ℤ)) * sh d (-(ceilHalf p : ℤ)))) := by
    rw [← sh_add, ← sh_add, ← sh_add]
    congr 1
    push_cast
    ring
  have h1 : (1 - sh d (-1)) = sh d (-1) * leval (sh d 1) [-1, 1] := by
    simp only [leval, Rat.cast_neg, Rat.cast_one, neg_smul, one_smul, mul_zero, add_zero]
    rw [mul_add, mul_one, sh_neg_mul]
    ring
  rw [e, h1]
  ring

theorem opN_eq : opN p d = sh d (-(2 * ceilHalf p : ℕ)) * leval (sh d 1) (listN p) := by
  unfold opN opT opC sweepOp listN
  rw [leval_mul]
  have e : sh d (-((2 * ceilHalf p : ℕ) : ℤ)) = sh d (-(ceilHalf p : ℤ)) * sh d (-(ceilHalf p : ℤ)) := by
    rw [← sh_add]
    congr 1
    push_cast
    ring
  rw [e]
  ring

theorem adj_sh_leval (k : ℤ) (a : List ℚ) :
    adj (sh d (-k) * leval (sh d 1) a) = sh d (k + 1 - a.length) * leval (sh d 1) a.reverse := by
  rw [map_mul, adj_sh, adj_leval, ← leval_reverse, ← mul_assoc, ← sh_add]
  congr 2
  ring

theorem leval_X (k : ℕ) : leval (sh d 1) (lpow [0, 1] k) = sh d k := by
  rw [leval_pow]
  have : leval (sh d 1) [0, 1] = sh d 1 := by simp [leval]
  rw [this]
  induction k with
  | zero => simp [sh_zero]
  | succ k ih => rw [pow_succ, ih, ← sh_add]; push_cast; rfl

theorem leval_lsub (z : Ops) (a b : List ℚ) : leval z (lsub a b) = leval z a - leval z b := by
  unfold lsub
  rw [leval_add, leval_map]
  simp [sub_eq_add_neg]

theorem sos_opE : OpSos (opE p d + adj (opE p d)) := by
  have hc := checked p hp
  have h := sos_bern d _ hc.posDamp
  rw [bernOp_eq, ← leval_eq _ hc.damp, hc.lenDamp, leval_add, leval] at h
  rw [opE_eq hp, adj_sh_leval hp, hc.lenE]
  convert h using 1
  rw [Rat.cast_zero, zero_smul, zero_add, mul_add, ← mul_assoc, ← sh_add]
  congr 3
  push_cast
  ring

theorem size_opE : OpSos (4 - adj (opE p d) * opE p d) := by
  have hc := checked p hp
  have h := sos_bern d _ hc.posSize
  rw [bernOp_eq, ← leval_eq _ hc.size, hc.lenSize, leval_lsub hp, leval_mul, leval_X hp, leval_mul] at h
  rw [opE_eq hp, adj_sh_leval hp, hc.lenE]
  convert h using 1
  have e1 : leval (sh d 1) [4] = 4 := by
    simp only [leval, mul_zero, add_zero]
    rw [← map_ofNat (algebraMap ℝ Ops) 4, Algebra.algebraMap_eq_smul_one]
    norm_num
  have e2 : sh d (1 - ((6 * ceilHalf p + 2 : ℕ) : ℤ)) * sh d ((6 * ceilHalf p + 1 : ℕ) : ℤ) = 1 := by
    rw [← sh_add, ← sh_zero d]
    congr 1
    push_cast
    ring
  have e3 : sh d (1 - ((6 * ceilHalf p + 2 : ℕ) : ℤ)) =
      sh d (((3 * ceilHalf p + 1 : ℕ) : ℤ) + 1 - ((6 * ceilHalf p + 2 : ℕ) : ℤ)) * sh d (-((3 * ceilHalf p + 1 : ℕ) : ℤ)) := by
    rw [← sh_add]
    congr 1
    push_cast
    ring
  rw [mul_sub, e1]
  linear_combination (-4 : Ops) * e2 + leval (sh d 1) (listE p).reverse * leval (sh d 1) (listE p) * e3

theorem adj_opN : adj (opN p d) = opN p d := by
  have hc := checked p hp
  unfold opN opT opC sweepOp
  rw [map_mul, adj_sh_leval hp, adj_sh_leval hp, hc.symC, hc.symT, hc.lenC, hc.lenT]
  congr 3 <;> · push_cast; ring

theorem size_opN : OpSos (1 - adj (opN p d) * opN p d) := by
  have hc := checked p hp
  have h := sos_bern d _ hc.posMean
  rw [bernOp_eq, ← leval_eq _ hc.mean, hc.lenMean, leval_lsub hp, leval_X hp, leval_mul] at h
  rw [opN_eq hp, adj_sh_leval hp, hc.lenN]
  convert h using 1
  have e2 : sh d (1 - ((4 * ceilHalf p + 1 : ℕ) : ℤ)) * sh d ((4 * ceilHalf p : ℕ) : ℤ) = 1 := by
    rw [← sh_add, ← sh_zero d]
    congr 1
    push_cast
    ring
  have e3 : sh d (1 - ((4 * ceilHalf p + 1 : ℕ) : ℤ)) =
      sh d (((2 * ceilHalf p : ℕ) : ℤ) + 1 - ((4 * ceilHalf p + 1 : ℕ) : ℤ)) * sh d (-((2 * ceilHalf p : ℕ) : ℤ)) := by
    rw [← sh_add]
    congr 1
    push_cast
    ring
  rw [mul_sub, e2, e3]
  ring

theorem adj_opE : adj (opE p d) = -((sh d 1 - 1) * opL p d * opN p d) := by
  have hc := checked p hp
  unfold opE
  rw [map_mul, map_mul, adj_opN hp, map_sub, map_one, adj_sh, neg_neg]
  have : adj (opR p d) = opL p d := by
    unfold opR opL sweepOp
    rw [adj_sh_leval hp, hc.symR, hc.lenR]
    congr 2
    push_cast
    ring
  rw [this]
  ring

end

/-! ## Three directions -/

variable {p : Fin 3 → ℕ}

/-- The transverse smoothing in direction `d`. -/
noncomputable def opS (p : Fin 3 → ℕ) (d : Fin 3) : Ops :=
  opN (p (transverseOrder d).1) (transverseOrder d).1 * opN (p (transverseOrder d).2) (transverseOrder d).2

/-- The difference of the transported densities in direction `d`, for a flow to the right (`b`) or to the left. -/
noncomputable def opG (p : Fin 3 → ℕ) (d : Fin 3) (b : Bool) : Ops :=
  (if b = true then opE (p d) d else adj (opE (p d) d)) * (adj (opS p d) * opS p d)

section

variable (hp : ∀ d, p d ≤ 8) (d : Fin 3) (b : Bool)
include hp

theorem adj_opS : adj (opS p d) = opS p d := by
  unfold opS
  rw [map_mul, adj_opN (hp _), adj_opN (hp _)]

theorem size_opS : OpSos (1 - adj (opS p d) * opS p d) := by
  have h1 := size_opN (hp (transverseOrder d).1) (transverseOrder d).1
  have h2 := size_opN (hp (transverseOrder d).2) (transverseOrder d).2
  have := h1.add (h2.between (opN (p (transverseOrder d).1) (transverseOrder d).1))
  unfold opS
  rw [map_mul]
  convert this using 1
  ring

theorem damp_opG : OpSos (opG p d b + adj (opG p d b)) := by
  have h := (sos_opE (hp d) d).between (opS p d)
  unfold opG
  cases b with
  | true =>
    rw [if_pos rfl, map_mul, map_mul, adj_adj]
    convert h using 1
    ring
  | false =>
    rw [if_neg (by simp), map_mul, map_mul, adj_adj, adj_adj]
    convert h using 1
    ring

theorem size_opG : OpSos (4 - adj (opG p d b) * opG p d b) := by
  have h1 := size_opE (hp d) d
  have h2 := size_opS hp d
  have h3 := (h2.between (opS p d)).add h2
  have e : adj (opG p d b) * opG p d b = adj (opE (p d) d) * opE (p d) d * (adj (opS p d) * opS p d) ^ 2 := by
    unfold opG
    cases b with
    | true => rw [if_pos rfl, map_mul, map_mul, adj_adj]; ring
    | false => rw [if_neg (by simp), map_mul, map_mul, adj_adj, adj_adj]; ring
  rw [e]
  have h4 := (h1.mul_self (y := opS p d) 2).add (h3.smul (c := 4) (by norm_num))
  convert h4 using 1
  rw [show (4 : ℝ) • (adj (opS p d) * opS p d * (1 - adj (opS p d) * opS p d) + (1 - adj (opS p d) * opS p d)) =
    4 * (adj (opS p d) * opS p d * (1 - adj (opS p d) * opS p d) + (1 - adj (opS p d) * opS p d)) from
    (natCast_mul_ops 4 _).symm]
  ring

/-- The sum over the directions with weights `κ`. -/
noncomputable def opA (p : Fin 3 → ℕ) (κ : Fin 3 → ℝ) (b : Fin 3 → Bool) : Ops := -∑ d, κ d • opG p d (b d)

theorem damp_opA (κ : Fin 3 → ℝ) (hκ : ∀ d, 0 ≤ κ d) (b : Fin 3 → Bool) :
    OpSos (-(opA p κ b + adj (opA p κ b))) := by
  have h := OpSos.sum Finset.univ fun d (_ : d ∈ Finset.univ) => (damp_opG hp d (b d)).smul (hκ d)
  convert h using 1
  unfold opA
  rw [map_neg, map_sum, ← neg_add, neg_neg, ← Finset.sum_add_distrib]
  refine Finset.sum_congr rfl fun d _ => ?_
  rw [map_smul, smul_add]

theorem cellSum_mono (n : Fin 3 → ℕ) {f g : Ix → ℝ} (h : ∀ i, InCells n i → f i ≤ g i) : cellSum n f ≤ cellSum n g := by
  have := cellSum_nonneg n (f := fun i => g i - f i) fun i hi => sub_nonneg.2 (h i hi)
  rw [cellSum_sub] at this
  exact sub_nonneg.1 this

theorem size_opA (n : Fin 3 → ℕ) (κ : Fin 3 → ℝ) (hκ : ∀ d, 0 ≤ κ d) (b : Fin 3 → Bool) {α : Ix → ℝ}
    (hα : Cyclic n α) :
    dot n (act (opA p κ b) α) (act (opA p κ b) α) ≤ 4 * (∑ d, κ d) ^ 2 * dot n α α := by
  have h1 : ∀ d, dot n (act (opG p d (b d)) α) (act (opG p d (b d)) α) ≤ 4 * dot n α α := by
    intro d
    refine norm_of_pos ?_ hα
    have := (size_opG hp d (b d)).pos (n := n)
    convert this using 2
    rw [← mul_one (4 : Ops)]
    exact (natCast_mul_ops 4 1).symm
  have h2 : dot n (act (opA p κ b) α) (act (opA p κ b) α) ≤
      cellSum n fun i => (∑ d, κ d) * ∑ d, κ d * (act (opG p d (b d)) α i * act (opG p d (b d)) α i) := by
    refine cellSum_mono hp n fun i _ => ?_
    have e : act (opA p κ b) α i = -∑ d, κ d * act (opG p d (b d)) α i := by
      unfold opA
      rw [act_neg, Pi.neg_apply, map_sum, LinearMap.sum_apply, Finset.sum_apply]
      simp only [map_smul, LinearMap.smul_apply, Pi.smul_apply, smul_eq_mul]
    rw [e, neg_mul_neg, ← pow_two]
    refine Finset.sum_sq_le_sum_mul_sum_of_sq_le_mul _ (fun d _ => hκ d)
      (fun d _ => mul_nonneg (hκ d) (mul_self_nonneg _)) fun d _ => le_of_eq (by ring)
  refine h2.trans ?_
  have e2 : (cellSum n fun i => (∑ d, κ d) * ∑ d, κ d * (act (opG p d (b d)) α i * act (opG p d (b d)) α i)) =
      (∑ d, κ d) * ∑ d, κ d * dot n (act (opG p d (b d)) α) (act (opG p d (b d)) α) := by
    have := cellSum_smul n (∑ d, κ d) fun i => ∑ d, κ d * (act (opG p d (b d)) α i * act (opG p d (b d)) α i)
    simp only [smul_eq_mul] at this
    rw [this, cellSum_finset]
    congr 1
    refine Finset.sum_congr rfl fun d _ => ?_
    exact cellSum_smul n (κ d) fun i => act (opG p d (b d)) α i * act (opG p d (b d)) α i
  have hs : 0 ≤ ∑ d, κ d := Finset.sum_nonneg fun d _ => hκ d
  rw [e2]
  calc (∑ d, κ d) * ∑ d, κ d * dot n (act (opG p d (b d)) α) (act (opG p d (b d)) α)
      ≤ (∑ d, κ d) * ∑ d, κ d * (4 * dot n α α) :=
        mul_le_mul_of_nonneg_left (Finset.sum_le_sum fun d _ => mul_le_mul_of_nonneg_left (h1 d) (hκ d)) hs
    _ = 4 * (∑ d, κ d) ^ 2 * dot n α α := by rw [← Finset.sum_mul]; ring

theorem pos_opA (n : Fin 3 → ℕ) (κ : Fin 3 → ℝ) (hκ : ∀ d, 0 ≤ κ d) (h1 : ∑ d, κ d ≤ 4 / 5) (b : Fin 3 → Bool) :
    OpPos n (64 - 25 * (adj (opA p κ b) * opA p κ b)) := by
  have h0 : 0 ≤ ∑ d, κ d := Finset.sum_nonneg fun d _ => hκ d
  have h : OpPos n ((64 / 25 : ℝ) • 1 - adj (opA p κ b) * opA p κ b) := pos_of_norm fun α hα => by
    refine (size_opA hp n κ hκ b hα).trans (mul_le_mul_of_nonneg_right ?_ (dot_self_nonneg n α))
    nlinarith
  have := h.smul (c := 25) (by norm_num)
  rw [smul_sub, smul_smul] at this
  convert this using 2
  · rw [show (25 : ℝ) * (64 / 25) = ((64 : ℕ) : ℝ) by norm_num, ← natCast_mul_ops, mul_one]
    norm_num
  · exact natCast_mul_ops 25 _

/-- The Runge-Kutta polynomials do not increase the sum of squares. -/
theorem contract3 (n : Fin 3 → ℕ) (κ : Fin 3 → ℝ) (hκ : ∀ d, 0 ≤ κ d) (h1 : ∑ d, κ d ≤ 4 / 5) (b : Fin 3 → Bool)
    {α : Ix → ℝ} (hα : Cyclic n α) :
    dot n (act ((1 / 6 : ℝ) • poly3 (opA p κ b)) α) (act ((1 / 6 : ℝ) • poly3 (opA p κ b)) α) ≤ dot n α α := by
  have h := pos_poly3 (damp_opA hp κ hκ b) (pos_opA hp n κ hκ h1 b)
  have h2 := norm_of_pos (x := poly3 (opA p κ b)) (k := 36) (by
    convert h using 2
    rw [← mul_one (36 : Ops)]
    exact (natCast_mul_ops 36 1).symm) hα
  rw [act_smul, dot_smul, dot_comm, dot_smul]
  linarith

theorem contract4 (n : Fin 3 → ℕ) (κ : Fin 3 → ℝ) (hκ : ∀ d, 0 ≤ κ d) (h1 : ∑ d, κ d ≤ 4 / 5) (b : Fin 3 → Bool)
    {α : Ix → ℝ} (hα : Cyclic n α) :
    dot n (act ((1 / 24 : ℝ) • poly4 (opA p κ b)) α) (act ((1 / 24 : ℝ) • poly4 (opA p κ b)) α) ≤ dot n α α := by
  have h := pos_poly4 (damp_opA hp κ hκ b) (pos_opA hp n κ hκ h1 b)
  have h2 := norm_of_pos (x := poly4 (opA p κ b)) (k := 576) (by
    convert h using 2
    rw [← mul_one (576 : Ops)]
    exact (natCast_mul_ops 576 1).symm) hα
  rw [act_smul, dot_smul, dot_comm, dot_smul]
  linarith

omit hp in
/-- The transported densities. -/
theorem act_opG (hp : ∀ d, p d ≤ 8) (α : Ix → ℝ) (i : Ix) : act (opG p d b) α i = (if b = true then 1 else -1) *
    (transported ℝ p d b α (i + Pi.single d 1) - transported ℝ p d b α i) := by
  have hR : ∀ (q : ℕ) (d : Fin 3) (β : Ix → ℝ), latR ℝ q d β = act (opR q d) β := fun q d β => (act_sweepOp d _ _ β).symm
  have hL : ∀ (q : ℕ) (d : Fin 3) (β : Ix → ℝ), latL ℝ q d β = act (opL q d) β := fun q d β => (act_sweepOp d _ _ β).symm
  have hC : ∀ (q : ℕ) (d : Fin 3) (β : Ix → ℝ), latC ℝ q d β = act (opC q d) β := fun q d β => (act_sweepOp d _ _ β).symm
  have hT : ∀ (q : ℕ) (d : Fin 3) (β : Ix → ℝ), latT ℝ q d β = act (opT q d) β := fun q d β => (act_sweepOp d _ _ β).symm
  have hs : smoothed ℝ p α = act (opN (p 0) 0 * opN (p 1) 1 * opN (p 2) 2) α := by
    unfold smoothed latCenters
    simp only [hC, hT, ← act_mul]
    congr 2
    unfold opN
    ring
  have hf : ∀ β : Ix → ℝ, (fun i => β (i - if b = true then Pi.single d 1 else 0)) =
      act (if b = true then sh d (-1) else 1) β := by
    intro β
    funext i
    cases b with
    | true => simp only [if_true]; rw [act_sh, Pi.single_neg, sub_eq_add_neg]
    | false => simp
  have hv : faceVal ℝ p d b α = act ((if b = true then opR (p d) d else opL (p d) d) * (opC (p (centerOrder d).2)
      (centerOrder d).2 * opC (p (centerOrder d).1) (centerOrder d).1 *
      (opN (p 0) 0 * opN (p 1) 1 * opN (p 2) 2))) α := by
    unfold faceVal latLine
    rw [hs]
    cases b with
    | true => simp only [if_true, hC, hR, ← act_mul, mul_assoc]
    | false => simp only [Bool.false_eq_true, if_false, hC, hL, ← act_mul, mul_assoc]
  have ht : transported ℝ p d b α = act (opT (p (transverseOrder d).2) (transverseOrder d).2 *
      (opT (p (transverseOrder d).1) (transverseOrder d).1 * ((if b = true then sh d (-1) else 1) *
      ((if b = true then opR (p d) d else opL (p d) d) * (opC (p (centerOrder d).2)
      (centerOrder d).2 * opC (p (centerOrder d).1) (centerOrder d).1 *
      (opN (p 0) 0 * opN (p 1) 1 * opN (p 2) 2)))))) α := by
    unfold transported
    rw [show faceDensity ℝ p d b α = fun i => faceVal ℝ p d b α (i - if b = true then Pi.single d 1 else 0) from rfl, hf,
      hv]
    simp only [hT, ← act_mul]
  have hd : ∀ β : Ix → ℝ, β (i + Pi.single d 1) - β i = act (sh d 1 - 1) β i := by
    intro β
    rw [act_sub, Pi.sub_apply, act_sh, act_one]
  have hz := sh_neg_mul d 1
  rw [hd, ht, ← act_mul]
  cases b with
  | true =>
    simp only [if_true, one_mul]
    refine congrArg (fun x => act x α i) ?_
    unfold opG opE
    rw [adj_opS hp, if_pos rfl]
    match d with
    | 0 =>
      simp only [opS, transverseOrder, centerOrder, if_true]
      generalize opR (p 0) 0 = r
      unfold opN
      linear_combination (-(r * opT (p 0) 0 * opC (p 0) 0 * (opT (p 1) 1 * opC (p 1) 1 * opT (p 2) 2 * opC (p 2) 2) ^ 2)) * hz
    | 1 =>
      simp only [opS, transverseOrder, centerOrder, if_true]
      generalize opR (p 1) 1 = r
      unfold opN
      simp only [Fin.reduceEq, if_false]
      linear_combination (-(r * opT (p 1) 1 * opC (p 1) 1 * (opT (p 0) 0 * opC (p 0) 0 * opT (p 2) 2 * opC (p 2) 2) ^ 2)) * hz
    | 2 =>
      simp only [opS, transverseOrder, centerOrder]
      generalize opR (p 2) 2 = r
      unfold opN
      simp only [Fin.reduceEq, if_false]
      linear_combination (-(r * opT (p 2) 2 * opC (p 2) 2 * (opT (p 0) 0 * opC (p 0) 0 * opT (p 1) 1 * opC (p 1) 1) ^ 2)) * hz
  | false =>
    simp only [Bool.false_eq_true, if_false, one_mul, neg_mul]
    rw [← Pi.neg_apply, ← act_neg]
    refine congrArg (fun x => act x α i) ?_
    unfold opG
    rw [adj_opS hp, if_neg (by simp), adj_opE (hp d)]
    match d with
    | 0 =>
      simp only [opS, transverseOrder, centerOrder, if_true]
      unfold opN
      ring
    | 1 =>
      simp only [opS, transverseOrder, centerOrder, if_true]
      unfold opN
      simp only [Fin.reduceEq, if_false]
      ring
    | 2 =>
      simp only [opS, transverseOrder, centerOrder]
      unfold opN
      simp only [Fin.reduceEq, if_false]
      ring

end

end FVHOE
