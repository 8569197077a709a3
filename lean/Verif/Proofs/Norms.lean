import Mathlib.Analysis.Real.Sqrt
import Mathlib.Algebra.Order.BigOperators.Ring.Finset
import Verif.Proofs.UniformFlow

/-!
Root of the sum of squares over the cells, largest value, and what the scheme does to them.
-/

set_option linter.unusedSectionVars false

namespace FVHOE

/-- Root of the sum of squares over the cells. -/
noncomputable def nrm (n : Fin 3 → ℕ) (α : Ix → ℝ) : ℝ := √(dot n α α)

/-- Number of cells. -/
def cellCount (n : Fin 3 → ℕ) : ℕ := n 0 * (n 1 * n 2)

theorem cellSum_triples (n : Fin 3 → ℕ) (f : Ix → ℝ) :
    cellSum n f = ∑ x ∈ Finset.range (n 0) ×ˢ Finset.range (n 1) ×ˢ Finset.range (n 2),
      f ![(x.1 : ℤ), (x.2.1 : ℤ), (x.2.2 : ℤ)] := by
  unfold cellSum
  rw [Finset.sum_product]
  refine Finset.sum_congr rfl fun a _ => ?_
  rw [Finset.sum_product]

theorem nrm_nonneg (n : Fin 3 → ℕ) (α : Ix → ℝ) : 0 ≤ nrm n α := Real.sqrt_nonneg _

theorem nrm_sq (n : Fin 3 → ℕ) (α : Ix → ℝ) : nrm n α ^ 2 = dot n α α := Real.sq_sqrt (dot_self_nonneg n α)

theorem dot_le_nrm (n : Fin 3 → ℕ) (α β : Ix → ℝ) : dot n α β ≤ nrm n α * nrm n β := by
  have h : dot n α β ^ 2 ≤ dot n α α * dot n β β := by
    unfold dot
    rw [cellSum_triples, cellSum_triples, cellSum_triples]
    refine (Finset.sum_mul_sq_le_sq_mul_sq _ _ _).trans (le_of_eq ?_)
    simp only [pow_two]
  have h2 : dot n α β ^ 2 ≤ (nrm n α * nrm n β) ^ 2 := by rwa [mul_pow, nrm_sq, nrm_sq]
  exact (le_abs_self _).trans (abs_le_of_sq_le_sq h2 (mul_nonneg (nrm_nonneg _ _) (nrm_nonneg _ _)))

theorem nrm_add (n : Fin 3 → ℕ) (α β : Ix → ℝ) : nrm n (α + β) ≤ nrm n α + nrm n β := by
  refine Real.sqrt_le_iff.2 ⟨add_nonneg (nrm_nonneg _ _) (nrm_nonneg _ _), ?_⟩
  rw [dot_add, dot_comm, dot_add, dot_comm n (α + β), dot_add, dot_comm n β α]
  have h1 := dot_le_nrm n α β
  have h2 := nrm_sq n α
  have h3 := nrm_sq n β
  nlinarith

theorem nrm_smul (n : Fin 3 → ℕ) (k : ℝ) (α : Ix → ℝ) : nrm n (k • α) = |k| * nrm n α := by
  unfold nrm
  rw [dot_smul, dot_comm, dot_smul, ← mul_assoc, Real.sqrt_mul (mul_self_nonneg k), Real.sqrt_mul_self_eq_abs]

theorem nrm_le_of_sup (n : Fin 3 → ℕ) (α : Ix → ℝ) (ε : ℝ) (hε : 0 ≤ ε) (h : ∀ i, InCells n i → |α i| ≤ ε) :
    nrm n α ≤ √(cellCount n) * ε := by
  refine Real.sqrt_le_iff.2 ⟨mul_nonneg (Real.sqrt_nonneg _) hε, ?_⟩
  rw [mul_pow, Real.sq_sqrt (Nat.cast_nonneg _)]
  have h1 : dot n α α ≤ cellSum n fun _ => ε ^ 2 := by
    have := cellSum_nonneg n (f := fun i => ε ^ 2 - α i * α i) fun i hi => by
      have := sq_le_sq' (by linarith [(abs_le.1 (h i hi)).1]) (abs_le.1 (h i hi)).2
      rw [← pow_two]
      linarith
    rw [cellSum_sub] at this
    unfold dot
    exact sub_nonneg.1 this
  refine h1.trans (le_of_eq ?_)
  rw [cellSum_triples, Finset.sum_const, Finset.card_product, Finset.card_product, Finset.card_range, Finset.card_range,
    Finset.card_range, nsmul_eq_mul]
  rfl

theorem sup_le_nrm (n : Fin 3 → ℕ) (hn : ∀ d, 1 ≤ n d) (α : Ix → ℝ) (hα : Cyclic n α) (j : Ix) : |α j| ≤ nrm n α := by
  refine Real.abs_le_sqrt ?_
  rw [← periodic_wrap n α hα j, dot, cellSum_triples, pow_two]
  have hm : ∀ d, 0 ≤ j d % (n d : ℤ) ∧ j d % (n d : ℤ) < n d := fun d =>
    ⟨Int.emod_nonneg _ (by have := hn d; omega), Int.emod_lt_of_pos _ (by have := hn d; omega)⟩
  have e : (fun d => j d % (n d : ℤ)) = ![(((j 0 % (n 0 : ℤ)).toNat : ℕ) : ℤ), (((j 1 % (n 1 : ℤ)).toNat : ℕ) : ℤ),
      (((j 2 % (n 2 : ℤ)).toNat : ℕ) : ℤ)] := by
    funext d
    match d with
    | 0 => exact (Int.toNat_of_nonneg (hm 0).1).symm
    | 1 => exact (Int.toNat_of_nonneg (hm 1).1).symm
    | 2 => exact (Int.toNat_of_nonneg (hm 2).1).symm
  rw [e]
  refine Finset.single_le_sum (f := fun x : ℕ × ℕ × ℕ => α ![(x.1 : ℤ), (x.2.1 : ℤ), (x.2.2 : ℤ)] *
    α ![(x.1 : ℤ), (x.2.1 : ℤ), (x.2.2 : ℤ)]) (fun x _ => mul_self_nonneg _)
    (a := ((j 0 % (n 0 : ℤ)).toNat, (j 1 % (n 1 : ℤ)).toNat, (j 2 % (n 2 : ℤ)).toNat)) ?_
  simp only [Finset.mem_product, Finset.mem_range]
  have h0 := hm 0
  have h1 := hm 1
  have h2 := hm 2
  omega

/-! ## The rate of change -/

variable {np : ℕ}

section

variable {c : EulerConfig ℝ np} {v : Fin 3 → ℝ} (h : FlowSetup c v) {τ : ℝ} (h0 : 0 ≤ τ)
  (h1 : ∀ d, c.scheme.active d = true → τ * ∑ d, |v d| ≤ 4 / 5 * c.h d)
include h h0 h1

theorem flow_share_nonneg (d : Fin 3) : 0 ≤ share c.scheme.active c.h v τ d := by
  unfold share
  have := h.transport.spacing d
  split_ifs <;> positivity

theorem flow_share_le : ∑ d, share c.scheme.active c.h v τ d ≤ 4 / 5 := by
  obtain ⟨d₀, hd₀⟩ := h.extended
  obtain ⟨m, ⟨e₀, he₀, hm⟩, hmin⟩ : ∃ m, (∃ d, c.scheme.active d = true ∧ m = c.h d) ∧
      ∀ d, c.scheme.active d = true → m ≤ c.h d := by
    obtain ⟨e, he, hme⟩ := Finset.exists_min_image (Finset.univ.filter fun d => c.scheme.active d = true) c.h
      ⟨d₀, by simp [hd₀]⟩
    exact ⟨c.h e, ⟨e, by simpa using he, rfl⟩, fun d hd => hme d (by simp [hd])⟩
  have hm0 : 0 < m := hm ▸ h.transport.spacing e₀
  have hs : ∀ d, share c.scheme.active c.h v τ d ≤ τ * |v d| / m := by
    intro d
    unfold share
    have := h.transport.spacing d
    split_ifs with hd
    · have h3 := hmin d hd
      have h4 : 0 ≤ τ * |v d| := by positivity
      calc _ = τ * |v d| / c.h d := by ring
        _ ≤ τ * |v d| / m := div_le_div_of_nonneg_left h4 hm0 h3
    · positivity
  refine (Finset.sum_le_sum fun d _ => hs d).trans ?_
  rw [← Finset.sum_div, ← Finset.mul_sum, div_le_iff₀ hm0, hm]
  exact h1 e₀ he₀

/-- The sum of squares grows by at most `8/5`. -/
theorem nrm_rate {α : Ix → ℝ} (hα : Cyclic c.n α) : nrm c.n (act (τ • rateOp c v) α) ≤ 8 / 5 * nrm c.n α := by
  have hk := flow_share_nonneg h h0 h1
  have hs := flow_share_le h h0 h1
  have hs0 : 0 ≤ ∑ d, share c.scheme.active c.h v τ d := Finset.sum_nonneg fun d _ => hk d
  rw [smul_rateOp]
  refine Real.sqrt_le_iff.2 ⟨mul_nonneg (by norm_num) (nrm_nonneg _ _), ?_⟩
  refine (size_opA h.transport.degree c.n _ hk _ hα).trans ?_
  rw [mul_pow, nrm_sq]
  refine mul_le_mul_of_nonneg_right ?_ (dot_self_nonneg _ _)
  nlinarith

theorem nrm_poly3 {α : Ix → ℝ} (hα : Cyclic c.n α) :
    nrm c.n (act ((1 / 6 : ℝ) • poly3 (τ • rateOp c v)) α) ≤ nrm c.n α := by
  rw [smul_rateOp]
  exact Real.sqrt_le_sqrt (contract3 h.transport.degree c.n _ (flow_share_nonneg h h0 h1) (flow_share_le h h0 h1) _ hα)

theorem nrm_poly4 {α : Ix → ℝ} (hα : Cyclic c.n α) :
    nrm c.n (act ((1 / 24 : ℝ) • poly4 (τ • rateOp c v)) α) ≤ nrm c.n α := by
  rw [smul_rateOp]
  exact Real.sqrt_le_sqrt (contract4 h.transport.degree c.n _ (flow_share_nonneg h h0 h1) (flow_share_le h h0 h1) _ hα)

/-- Bounded neighbour differences bound the rate of change. -/
theorem sup_rate_diff {α : Ix → ℝ} {ω : ℝ} (hω : 0 ≤ ω)
    (hα : ∀ d, c.scheme.active d = true → ∀ j, |α (j + Pi.single d 1) - α j| ≤ ω) (i : Ix) :
    |act (τ • rateOp c v) α i| ≤ 8 * ω := by
  have hk := flow_share_nonneg h h0 h1
  have hs := flow_share_le h h0 h1
  rw [smul_rateOp, act_opA, abs_neg]
  have hb : ∀ d, |share c.scheme.active c.h v τ d * act (opG c.p d (decide (0 < v d))) α i| ≤
      share c.scheme.active c.h v τ d * (10 * ω) := by
    intro d
    rw [abs_mul, abs_of_nonneg (hk d)]
    by_cases hd : c.scheme.active d = true
    · refine mul_le_mul_of_nonneg_left ?_ (hk d)
      rw [act_opG d _ h.transport.degree, abs_mul]
      have e1 : |if decide (0 < v d) = true then (1 : ℝ) else -1| = 1 := by split_ifs <;> simp
      rw [e1, one_mul]
      have := bounded_transported h.transport.degree (i := i) hω d (decide (0 < v d))
        (α := fun j => 1 * α (j + Pi.single d 1) + (-1) * α j) (fun j _ => by
          beta_reduce
          rw [one_mul, neg_one_mul, ← sub_eq_add_neg]
          exact hα d hd j)
      rw [transported_lin, transported_shift] at this
      beta_reduce at this
      rwa [one_mul, neg_one_mul, ← sub_eq_add_neg] at this
    · unfold share
      rw [if_neg hd, zero_mul, zero_mul]
  refine (Finset.abs_sum_le_sum_abs _ _).trans ((Finset.sum_le_sum fun d _ => hb d).trans ?_)
  rw [← Finset.sum_mul]
  nlinarith

theorem sup_rate {α : Ix → ℝ} {B : ℝ} (hB : 0 ≤ B) (hα : ∀ j, |α j| ≤ B) (i : Ix) :
    |act (τ • rateOp c v) α i| ≤ 16 * B := by
  have := sup_rate_diff h h0 h1 (α := α) (ω := 2 * B) (by linarith) (fun d _ j => by
    have h2 := abs_le.1 (hα (j + Pi.single d 1))
    have h3 := abs_le.1 (hα j)
    rw [abs_le]
    constructor <;> linarith [h2.1, h2.2, h3.1, h3.2]) i
  linarith

end

/-! ## Positive densities -/

/-- Values whose neighbours differ by at most `ω` differ by at most `ω` times the number of steps between them. -/
theorem walk {α : Ix → ℝ} {ω : ℝ} (hα : ∀ d j, |α (j + Pi.single d 1) - α j| ≤ ω) (i j : Ix) :
    |α j - α i| ≤ ω * (|j 0 - i 0| + |j 1 - i 1| + |j 2 - i 2| : ℤ) := by
  have hnat : ∀ (d : Fin 3) (k : ℕ) (j : Ix), |α (j + Pi.single d (k : ℤ)) - α j| ≤ ω * k := by
    intro d k
    induction k with
    | zero => intro j; simp
    | succ k ih =>
      intro j
      have e : j + Pi.single d ((k + 1 : ℕ) : ℤ) = (j + Pi.single d (k : ℤ)) + Pi.single d 1 := by
        rw [add_assoc, ← Pi.single_add]
        push_cast
        rfl
      rw [e]
      have a1 := abs_le.1 (hα d (j + Pi.single d (k : ℤ)))
      have a2 := abs_le.1 (ih j)
      push_cast
      rw [abs_le]
      constructor <;> linarith [a1.1, a1.2, a2.1, a2.2]
  have hint : ∀ (d : Fin 3) (k : ℤ) (j : Ix), |α (j + Pi.single d k) - α j| ≤ ω * (|k| : ℤ) := by
    intro d k j
    rcases le_total 0 k with hk | hk
    · obtain ⟨m, rfl⟩ := Int.eq_ofNat_of_zero_le hk
      simpa using hnat d m j
    · obtain ⟨m, hm⟩ := Int.eq_ofNat_of_zero_le (neg_nonneg.2 hk)
      have hk' : k = -(m : ℤ) := by omega
      subst hk'
      have := hnat d m (j + Pi.single d (-(m : ℤ)))
      rw [add_assoc, ← Pi.single_add, neg_add_cancel, Pi.single_zero, add_zero, abs_sub_comm] at this
      simpa using this
  have e : j = ((i + Pi.single 0 (j 0 - i 0)) + Pi.single 1 (j 1 - i 1)) + Pi.single 2 (j 2 - i 2) := by
    funext d
    match d with
    | 0 => simp
    | 1 => simp
    | 2 => simp
  have a0 := abs_le.1 (hint 0 (j 0 - i 0) i)
  have a1 := abs_le.1 (hint 1 (j 1 - i 1) (i + Pi.single 0 (j 0 - i 0)))
  have a2 := abs_le.1 (hint 2 (j 2 - i 2) ((i + Pi.single 0 (j 0 - i 0)) + Pi.single 1 (j 1 - i 1)))
  rw [← e] at a2
  push_cast at a0 a1 a2 ⊢
  rw [abs_le]
  constructor <;> linarith [a0.1, a0.2, a1.1, a1.2, a2.1, a2.2]

theorem centers_const {p : Fin 3 → ℕ} (hp : ∀ d, p d ≤ 8) (k : ℝ) : latCenters ℝ p (fun _ => k) = fun _ => k := by
  unfold latCenters latC
  rw [lsweep_const 0 _ _ (wts_sum (hp _)).2.1, lsweep_const 1 _ _ (wts_sum (hp _)).2.1,
    lsweep_const 2 _ _ (wts_sum (hp _)).2.1]

theorem face_const {p : Fin 3 → ℕ} (hp : ∀ d, p d ≤ 8) (d : Fin 3) (b : Bool) (k : ℝ) :
    faceVal ℝ p d b (fun _ => k) = fun _ => k := by
  have hs : smoothed ℝ p (fun _ => k) = fun _ => k := by
    unfold smoothed
    rw [centers_const hp]
    unfold latT
    rw [lsweep_const 0 _ _ (wts_sum (hp _)).2.2.2, lsweep_const 1 _ _ (wts_sum (hp _)).2.2.2,
      lsweep_const 2 _ _ (wts_sum (hp _)).2.2.2]
  unfold faceVal latLine
  rw [hs]
  unfold latC
  rw [lsweep_const _ _ _ (wts_sum (hp _)).2.1, lsweep_const _ _ _ (wts_sum (hp _)).2.1]
  unfold latR latL
  rw [lsweep_const _ _ _ (wts_sum (hp _)).1, lsweep_const _ _ _ (wts_sum (hp _)).2.2.1, ite_self]

theorem ceilHalf_le_four {p : ℕ} (hp : p ≤ 8) : ceilHalf p ≤ 4 := by
  unfold ceilHalf
  omega

/-- Densities near a slowly varying positive one have positive interpolated densities. -/
theorem nonvanishing_near {c : EulerConfig ℝ np} (hp : ∀ d, c.p d ≤ 8) {g β : Ix → ℝ} {m ω B : ℝ} (hω0 : 0 ≤ ω) (hB0 : 0 ≤ B)
    (hg : ∀ j, m ≤ g j) (hω : ∀ d j, |g (j + Pi.single d 1) - g j| ≤ ω) (hB : ∀ j, |β j - g j| ≤ B)
    (hm : 324 * ω + 9 * B < m) : Nonvanishing c β := by
  have near : ∀ i j : Ix, (∀ e, |j e - i e| ≤ 12) → |β j - g i| ≤ 36 * ω + B := by
    intro i j hij
    have h1 := walk hω i j
    have h2 : ω * ((|j 0 - i 0| + |j 1 - i 1| + |j 2 - i 2| : ℤ) : ℝ) ≤ ω * 36 := by
      refine mul_le_mul_of_nonneg_left ?_ hω0
      have := hij 0
      have := hij 1
      have := hij 2
      exact_mod_cast (by omega : |j 0 - i 0| + |j 1 - i 1| + |j 2 - i 2| ≤ 36)
    have h3 := abs_le.1 (hB j)
    have h4 := abs_le.1 (h1.trans h2)
    rw [abs_le]
    constructor <;> linarith [h3.1, h3.2, h4.1, h4.2]
  have hε : 0 ≤ 36 * ω + B := by linarith
  have hr : ∀ e, 3 * (ceilHalf (c.p e) : ℤ) ≤ 12 := fun e => by
    have := ceilHalf_le_four (hp e)
    omega
  refine ⟨fun i => ?_, fun d i => ?_⟩
  · have := bounded_centers hp (i := i) (m := 0) hε (α := fun j => 1 * β j + (-1) * g i) (fun j hj => by
      beta_reduce
      rw [one_mul, neg_one_mul, ← sub_eq_add_neg]
      refine near i j fun e => (hj e).trans ?_
      have := hr e
      simp only [Pi.zero_apply]
      omega) i (by simp)
    rw [latCenters_lin, centers_const hp] at this
    beta_reduce at this
    have h1 := hg i
    have := (abs_le.1 this).1
    refine ne_of_gt ?_
    linarith
  · have hface : ∀ b j, 0 < faceVal ℝ c.p d b β j := by
      intro b i
      have := bounded_face hp (i := i) (m := 0) hε d b (α := fun j => 1 * β j + (-1) * g i) (fun j hj => by
        beta_reduce
        rw [one_mul, neg_one_mul, ← sub_eq_add_neg]
        refine near i j fun e => (hj e).trans ?_
        have := hr e
        simp only [Pi.zero_apply]
        omega) i (by simp)
      rw [faceVal_lin, face_const hp] at this
      beta_reduce at this
      have h1 := hg i
      have := (abs_le.1 this).1
      linarith
    exact (add_pos (hface _ _) (hface _ _)).ne'

section

variable {c : EulerConfig ℝ np} {v : Fin 3 → ℝ} (h : FlowSetup c v) {g α : Ix → ℝ} {ω η : ℝ} (hω0 : 0 ≤ ω)
  (hω : ∀ d j, |g (j + Pi.single d 1) - g j| ≤ ω) (hη : ∀ j, |α j - g j| ≤ η)
include h hω0 hω hη

/-- The stages of the steps stay near the densities the step starts from. -/
theorem stages_near (Good : (Ix → ℝ) → Prop)
    (fin : ∀ β : Ix → ℝ, (∀ j, |β j - g j| ≤ 584 * ω + 1169 * η) → Good β) : Good α ∧ ∀ τ, 0 ≤ τ →
    (∀ d, c.scheme.active d = true → τ * ∑ d, |v d| ≤ 4 / 5 * c.h d) →
      Good (act (1 + τ • rateOp c v) α) ∧
      Good (act (1 + (1 / 2 : ℝ) • (τ • rateOp c v)) α) ∧
      Good (act (1 + (1 / 2 : ℝ) • (τ • rateOp c v) + (1 / 4 : ℝ) • ((τ • rateOp c v) * (τ • rateOp c v))) α) ∧
      Good (act (1 + τ • rateOp c v + (1 / 2 : ℝ) • ((τ • rateOp c v) * (τ • rateOp c v)) +
        (1 / 4 : ℝ) • ((τ • rateOp c v) * ((τ • rateOp c v) * (τ • rateOp c v)))) α) := by
  have hη0 : 0 ≤ η := (abs_nonneg _).trans (hη 0)
  refine ⟨fin _ fun j => (hη j).trans (by linarith), fun τ h0 h1 => ?_⟩
  have s1 := fun (β : Ix → ℝ) (B : ℝ) (hB : 0 ≤ B) (hβ : ∀ j, |β j| ≤ B) => sup_rate h h0 h1 (α := β) hB hβ
  have g1 := sup_rate_diff h h0 h1 (α := g) hω0 (fun d _ j => hω d j)
  have e1 := s1 (α - g) η hη0 hη
  generalize τ • rateOp c v = A at s1 g1 e1 ⊢
  have g2 := s1 (act A g) (8 * ω) (by linarith) g1
  have g3 := s1 (act A (act A g)) (128 * ω) (by linarith) (fun j => (g2 j).trans (by linarith))
  have e2 := s1 (act A (α - g)) (16 * η) (by linarith) e1
  have e3 := s1 (act A (act A (α - g))) (256 * η) (by linarith) (fun j => (e2 j).trans (by linarith))
  have split : ∀ j, act A α j = act A g j + act A (α - g) j ∧
      act A (act A α) j = act A (act A g) j + act A (act A (α - g)) j ∧
      act A (act A (act A α)) j = act A (act A (act A g)) j + act A (act A (act A (α - g))) j := by
    intro j
    have e : α = g + (α - g) := by simp
    refine ⟨?_, ?_, ?_⟩
    · conv_lhs => rw [e, act_map_add]
      rfl
    · conv_lhs => rw [e, act_map_add, act_map_add]
      rfl
    · conv_lhs => rw [e, act_map_add, act_map_add, act_map_add]
      rfl
  refine ⟨fin _ fun j => ?_, fin _ fun j => ?_, fin _ fun j => ?_, fin _ fun j => ?_⟩ <;>
  · simp only [act_add, act_one, act_smul, act_mul, Pi.add_apply, Pi.smul_apply, smul_eq_mul]
    obtain ⟨p1, p2, p3⟩ := split j
    have q0 := abs_le.1 (hη j)
    have q1 := abs_le.1 (g1 j)
    have q2 := abs_le.1 (g2 j)
    have q3 := abs_le.1 (g3 j)
    have r1 := abs_le.1 (e1 j)
    have r2 := abs_le.1 (e2 j)
    have r3 := abs_le.1 (e3 j)
    rw [abs_le]
    constructor <;> linarith [q0.1, q0.2, q1.1, q1.2, q2.1, q2.2, q3.1, q3.2, r1.1, r1.2, r2.1, r2.2, r3.1, r3.2]

end

/-! ## One step -/

/-- The integrators of third and fourth order. -/
def HighOrder (k : Integrator) : Prop := k = .ssprk3 ∨ k = .rk4

/-- The polynomial of an integrator. -/
noncomputable def stepOp (k : Integrator) (A : Ops) : Ops := if k = .rk4 then (1 / 24 : ℝ) • poly4 A else (1 / 6 : ℝ) • poly3 A

section

variable {c : EulerConfig ℝ np} {v : Fin 3 → ℝ} (h : FlowSetup c v)
include h

theorem nrm_step {τ : ℝ} (h0 : 0 ≤ τ) (h1 : ∀ d, c.scheme.active d = true → τ * ∑ d, |v d| ≤ 4 / 5 * c.h d)
    (k : Integrator) {α : Ix → ℝ} (hα : Cyclic c.n α) : nrm c.n (act (stepOp k (τ • rateOp c v)) α) ≤ nrm c.n α := by
  unfold stepOp
  split_ifs
  · exact nrm_poly4 h h0 h1 hα
  · exact nrm_poly3 h h0 h1 hα

/-- One step of `ssprk3` or `rk4` from a state near slowly varying densities. -/
theorem flow_step_of {g α : Ix → ℝ} {ω η : ℝ} (hω0 : 0 ≤ ω) (hω : ∀ d j, |g (j + Pi.single d 1) - g j| ≤ ω) (hη : ∀ j, |α j - g j| ≤ η)
    (P : ℝ) (x : Fin np → ℝ) (hα : Cyclic c.n α) (Good : (Ix → ℝ) → Prop)
    (hgood : ∀ β : Ix → ℝ, (∀ j, |β j - g j| ≤ 584 * ω + 1169 * η) → Good β)
    (f : RHS ℝ (Ix → State ℝ np)) (hf : EvalsFlow c v P x Good f) (k : Integrator) (hk : HighOrder k) {Sn : Type}
    (st : ODEState ℝ (Ix → State ℝ np) Sn) (target : Option ℝ) (ht : ∀ g, target = some g → st.t < g)
    (hu : ∀ j, InCells c.n j → st.u j = conserved c.gas.gamma (flowing v P x (α j))) :
    ∃ τ, 0 < τ ∧ (∀ d, c.scheme.active d = true → τ * ∑ d, |v d| ≤ 4 / 5 * c.h d) ∧
      (st.takeStep (stepper f k) target).2 = none ∧ (st.takeStep (stepper f k) target).1.t = st.t + τ ∧
      (st.takeStep (stepper f k) target).1.snapshots = st.snapshots ∧
      ∀ j, InCells c.n j → (st.takeStep (stepper f k) target).1.u j = conserved c.gas.gamma
        (flowing v P x (act (stepOp k (τ • rateOp c v)) α j)) := by
  obtain ⟨n0, hn⟩ := stages_near h hω0 hω hη Good hgood
  obtain ⟨τ, u', e, k1, k2, k3⟩ : ∃ τ u', stepper f k st.t st.u target = .ok (τ, u') ∧ 0 < τ ∧
      (∀ d, c.scheme.active d = true → τ * ∑ d, |v d| ≤ 4 / 5 * c.h d) ∧
      ∀ i, InCells c.n i → u' i = conserved c.gas.gamma (flowing v P x (act (stepOp k (τ • rateOp c v)) α i)) := by
    rcases hk with rfl | rfl
    · obtain ⟨τ, u', r⟩ := flow_ssprk3 h P x α hα st.t target ht st.u hu Good f hf n0 fun τ a b =>
        ⟨(hn τ a b).1, (hn τ a b).2.2.1⟩
      refine ⟨τ, u', ?_⟩
      unfold stepOp
      rw [if_neg (by decide)]
      exact r
    · obtain ⟨τ, u', r⟩ := flow_rk4 h P x α hα st.t target ht st.u hu Good f hf n0 fun τ a b => (hn τ a b).2
      refine ⟨τ, u', ?_⟩
      unfold stepOp
      rw [if_pos rfl]
      exact r
  have hts : st.takeStep (stepper f k) target =
      (⟨st.t + τ, st.timestamps ++ [st.t + τ], st.stepCount + 1, u', st.snapshots, st.snapshotTimes⟩, none) := by
    simp only [ODEState.takeStep, e]
  rw [hts]
  exact ⟨τ, k1, k2, rfl, rfl, rfl, k3⟩

/-- One step of `ssprk3` or `rk4` from a state near a slowly varying positive density. -/
theorem flow_step {g α : Ix → ℝ} {m ω η : ℝ} (hω0 : 0 ≤ ω)
    (hg : ∀ j, m ≤ g j) (hω : ∀ d j, |g (j + Pi.single d 1) - g j| ≤ ω) (hη : ∀ j, |α j - g j| ≤ η)
    (hm : 6000 * ω + 11000 * η < m) (P : ℝ) (x : Fin np → ℝ) (hα : Cyclic c.n α)
    (f : RHS ℝ (Ix → State ℝ np)) (hf : IsSolverRHS c.scheme f) (k : Integrator) (hk : HighOrder k) {Sn : Type}
    (st : ODEState ℝ (Ix → State ℝ np) Sn) (target : Option ℝ) (ht : ∀ g, target = some g → st.t < g)
    (hu : ∀ j, InCells c.n j → st.u j = conserved c.gas.gamma (flowing v P x (α j))) :
    ∃ τ, 0 < τ ∧ (∀ d, c.scheme.active d = true → τ * ∑ d, |v d| ≤ 4 / 5 * c.h d) ∧
      (st.takeStep (stepper f k) target).2 = none ∧ (st.takeStep (stepper f k) target).1.t = st.t + τ ∧
      (st.takeStep (stepper f k) target).1.snapshots = st.snapshots ∧
      ∀ j, InCells c.n j → (st.takeStep (stepper f k) target).1.u j = conserved c.gas.gamma
        (flowing v P x (act (stepOp k (τ • rateOp c v)) α j)) :=
  have hη0 : 0 ≤ η := (abs_nonneg _).trans (hη 0)
  flow_step_of h hω0 hω hη P x hα (Nonvanishing c) (fun _ hβ =>
    nonvanishing_near h.transport.degree hω0 (by linarith) hg hω hβ (by linarith)) f (flow_evals h P x f hf) k hk st target ht hu

end

end FVHOE
