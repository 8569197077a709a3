import Verif.Proofs.Lattice
import Verif.Model.Muscl
import Mathlib.Tactic.NormNum
import Mathlib.Tactic.FieldSimp

/-!
C31 (limited slopes never create new extrema).
-/

set_option linter.unusedSectionVars false

namespace FVHOE

variable {K : Type} [Field K] [LinearOrder K] [IsStrictOrderedRing K]

/-- What a slope limiter must satisfy on the differences `a` (to the left) and `b` (to the right), with
slope at most `k` times either difference: zero at an extremum, and otherwise of the common sign. -/
structure Limited (k a b s : K) : Prop where
  extremum : a * b ≤ 0 → s = 0
  pos : 0 ≤ a → 0 ≤ b → 0 ≤ s ∧ s ≤ k * a ∧ s ≤ k * b
  neg : a ≤ 0 → b ≤ 0 → s ≤ 0 ∧ k * a ≤ s ∧ k * b ≤ s

/-- **C31, minmod** The slope has the sign of the differences, vanishes when they disagree, and is
bounded by both. -/
theorem C31_minmod (tiny : K) (ht : 0 < tiny) (a b : K) : Limited 1 a b (minmod tiny a b) := by
  have key : ∀ D, 0 < D * a ∨ a = 0 → |a| ≤ |D| → 0 < |D| → Limited 1 a b
      ((if (if b / D < 1 then b / D else 1) > 0 then (if b / D < 1 then b / D else 1) else 0) * a) := by
    intro D hDa hD hD0
    rcases hDa with hDa | rfl
    swap
    · refine ⟨fun _ => mul_zero _, fun _ hb => ?_, fun _ hb => ?_⟩
      · rw [mul_zero]; simpa using hb
      · rw [mul_zero]; simpa using hb
    have hDne : D ≠ 0 := abs_pos.1 hD0
    have sq : 0 < D * D := mul_self_pos.2 hDne
    -- sign of the ratio
    have hr : ∀ x, b / D = x → b = x * D := fun x hx => by rw [← hx, div_mul_cancel₀ _ hDne]
    generalize hx : b / D = x
    have hb := hr x hx
    subst hb
    rcases pos_and_pos_or_neg_and_neg_of_mul_pos hDa with ⟨hD1, ha⟩ | ⟨hD1, ha⟩
    · rw [abs_of_pos ha, abs_of_pos hD1] at hD
      constructor
      · intro h
        have : x ≤ 0 := by
          by_contra hx0
          push Not at hx0
          have : 0 < a * (x * D) := mul_pos ha (mul_pos hx0 hD1)
          linarith
        rw [if_pos (by linarith : x < 1), if_neg (by linarith), zero_mul]
      · intro _ hb
        have hx0 : 0 ≤ x := by
          by_contra hx0
          push Not at hx0
          have := mul_neg_of_neg_of_pos hx0 hD1
          linarith
        split_ifs with h1 h2
        · refine ⟨by positivity, ?_, ?_⟩
          · nlinarith
          · nlinarith
        · refine ⟨by simp, by linarith, by linarith⟩
        · push Not at h1
          refine ⟨by linarith, by linarith, by nlinarith⟩
        · rename_i h3
          exact absurd zero_lt_one h3
      · intro h _
        linarith
    · rw [abs_of_neg ha, abs_of_neg hD1] at hD
      constructor
      · intro h
        have : x ≤ 0 := by
          by_contra hx0
          push Not at hx0
          have : 0 < a * (x * D) := mul_pos_of_neg_of_neg ha (mul_neg_of_pos_of_neg hx0 hD1)
          linarith
        rw [if_pos (by linarith : x < 1), if_neg (by linarith), zero_mul]
      · intro h _
        linarith
      · intro _ hb
        have hx0 : 0 ≤ x := by
          by_contra hx0
          push Not at hx0
          have := mul_pos_of_neg_of_neg hx0 hD1
          linarith
        split_ifs with h1 h2
        · refine ⟨by nlinarith, ?_, ?_⟩
          · nlinarith
          · nlinarith
        · refine ⟨by simp, by linarith, by linarith⟩
        · push Not at h1
          refine ⟨by linarith, by linarith, by nlinarith⟩
        · rename_i h3
          exact absurd zero_lt_one h3
  unfold minmod
  refine key _ ?_ ?_ ?_
  · split_ifs with h1 h2 h3
    · left; positivity
    · left; positivity
    · left; exact mul_pos_of_neg_of_neg (by linarith) (by linarith)
    · rcases lt_or_eq_of_le (not_lt.1 h1) with h | h
      · left; exact mul_pos_of_neg_of_neg (by linarith) h
      · right; exact h
  · split_ifs with h1 h2 h3
    · exact le_rfl
    · rw [abs_of_pos h1, abs_of_pos ht]; linarith
    · exact le_rfl
    · rw [abs_of_nonpos (by linarith), abs_of_neg (by linarith : -tiny < 0)]; linarith
  · split_ifs with h1 h2 h3
    · rw [abs_of_pos h1]; exact h1
    · rw [abs_of_pos ht]; exact ht
    · rw [abs_of_neg (by linarith)]; linarith
    · rw [abs_of_neg (by linarith)]; linarith

/-- **C31, minmod** When the left difference is above the threshold 1e-16 in size, the slope is the
smaller of two differences of equal sign. -/
theorem C31_minmod_value (tiny : K) (ht : 0 < tiny) (a b : K) (h : tiny < |a|) (hab : 0 ≤ a * b) :
    |minmod tiny a b| = min |a| |b| := by
  have key : a ≠ 0 → |(if (if b / a < 1 then b / a else 1) > 0 then (if b / a < 1 then b / a else 1)
      else 0) * a| = min |a| |b| := by
    intro ha
    have hb : b = b / a * a := (div_mul_cancel₀ _ ha).symm
    have hx0 : 0 ≤ b / a := by
      rcases lt_or_gt_of_ne ha with h0 | h0
      · exact div_nonneg_of_nonpos (by nlinarith) h0.le
      · exact div_nonneg (by nlinarith) h0.le
    generalize b / a = x at *
    subst hb
    have h1 : |x * a| = x * |a| := by rw [abs_mul, abs_of_nonneg hx0]
    have ha' := abs_pos.2 ha
    rw [abs_mul, h1]
    split_ifs with h1 h2 h3
    · rw [abs_of_nonneg hx0, min_eq_right (by nlinarith)]
    · have : x = 0 := le_antisymm (not_lt.1 h2) hx0
      simp [this]
    · rw [abs_one, one_mul, min_eq_left (by nlinarith)]
    · exact absurd zero_lt_one h3
  unfold minmod
  rcases lt_abs.1 h with h0 | h0
  · simp only [if_pos (ht.trans h0 : a > 0), if_pos (show a > tiny from h0)]
    exact key (by linarith)
  · simp only [if_neg (show ¬ a > 0 by linarith), if_pos (show a < -tiny by linarith)]
    exact key (by linarith)

/-- **C31, moncen** As for minmod, bounded by twice the differences. -/
theorem C31_moncen (a b : K) : Limited 2 a b (moncen a b) := by
  unfold moncen npSign
  constructor
  · intro h
    by_cases h0 : a * b ≥ 0
    · have : a * b = 0 := le_antisymm h h0
      rcases mul_eq_zero.1 this with rfl | rfl <;> simp
    · simp [h0]
  · intro ha hb
    have h0 : a * b ≥ 0 := mul_nonneg ha hb
    simp only [if_pos h0]
    have hc : 0 ≤ 1 / 2 * (a + b) := by positivity
    rw [abs_of_nonneg hc, abs_of_nonneg (by linarith : 0 ≤ 2 * a), abs_of_nonneg (by linarith : 0 ≤ 2 * b)]
    rcases lt_or_eq_of_le hc with h1 | h1
    · rw [if_pos h1, one_mul]
      exact ⟨by positivity, (min_le_left _ _).trans (min_le_left _ _),
        (min_le_left _ _).trans (min_le_right _ _)⟩
    · rw [← h1]
      simp
      exact ⟨ha, hb⟩
  · intro ha hb
    have h0 : a * b ≥ 0 := mul_nonneg_of_nonpos_of_nonpos ha hb
    simp only [if_pos h0]
    have hc : 1 / 2 * (a + b) ≤ 0 := by linarith
    rw [abs_of_nonpos hc, abs_of_nonpos (by linarith : 2 * a ≤ 0), abs_of_nonpos (by linarith : 2 * b ≤ 0)]
    rcases lt_or_eq_of_le hc with h1 | h1
    · rw [if_neg (by linarith), if_pos h1]
      have h2 := (min_le_left (min (-(2 * a)) (-(2 * b))) (-(1 / 2 * (a + b)))).trans (min_le_left _ _)
      have h3 := (min_le_left (min (-(2 * a)) (-(2 * b))) (-(1 / 2 * (a + b)))).trans (min_le_right _ _)
      have h4 : 0 ≤ min (min (-(2 * a)) (-(2 * b))) (-(1 / 2 * (a + b))) :=
        le_min (le_min (by linarith) (by linarith)) (by linarith)
      exact ⟨by linarith, by linarith, by linarith⟩
    · rw [h1]
      simp
      exact ⟨by linarith, by linarith⟩

/-- **C31, moncen** For differences of equal sign the slope is the smallest in size of twice either
difference and their mean. -/
theorem C31_moncen_value (a b : K) (hab : 0 ≤ a * b) :
    |moncen a b| = min (min (2 * |a|) (2 * |b|)) |(a + b) / 2| := by
  have e : (1 / 2 : K) * (a + b) = (a + b) / 2 := by ring
  unfold moncen npSign
  simp only [if_pos (show a * b ≥ 0 from hab), e, abs_mul, abs_two]
  have h0 : 0 ≤ min (min (2 * |a|) (2 * |b|)) |(a + b) / 2| := by positivity
  rw [abs_of_nonneg h0]
  split_ifs with h1 h2
  · simp
  · simp
  · have : (a + b) / 2 = 0 := le_antisymm (not_lt.1 h1) (not_lt.1 h2)
    rw [this]
    simp

/-- **C31** For the limiters minmod and moncen: the interpolation succeeds on every array with at least
two cells along the axis, drops one cell at either end, and in every variable the two face values of a
cell average to its value, lie between it and the neighbour on that side, and both equal it at a local
extremum. -/
theorem C31_muscl (tiny : K) (ht : 0 < tiny) {ι : Type} (u : Arr (ι → K)) (d : Fin 3)
    (hn : 2 ≤ u.shape d) (limiter : String) (hl : limiter = "minmod" ∨ limiter = "moncen") :
    ∃ l r, musclInterpolations tiny u d (some limiter) = .ok (l, r) ∧
      l.shape = Function.update u.shape d (u.shape d - 2) ∧ r.shape = l.shape ∧
      ∀ j, l.InB j → ∀ v,
        let a := u.get j v
        let c := u.get (j + Pi.single d 1) v
        let b := u.get (j + Pi.single d 2) v
        (l.get j v + r.get j v) / 2 = c ∧
        (min a c ≤ l.get j v ∧ l.get j v ≤ max a c) ∧
        (min c b ≤ r.get j v ∧ r.get j v ≤ max c b) ∧
        ((a ≤ c ∧ b ≤ c ∨ c ≤ a ∧ c ≤ b) → l.get j v = c ∧ r.get j v = c) := by
  obtain ⟨s, es, hs⟩ : ∃ s, limiterFn tiny (some limiter) = .ok s ∧ ∀ a b, Limited 2 a b (s a b) := by
    rcases hl with rfl | rfl
    · refine ⟨_, rfl, fun a b => ?_⟩
      obtain ⟨h1, h2, h3⟩ := C31_minmod tiny ht a b
      refine ⟨h1, fun ha hb => ?_, fun ha hb => ?_⟩
      · obtain ⟨x, y, z⟩ := h2 ha hb
        exact ⟨x, by linarith, by linarith⟩
      · obtain ⟨x, y, z⟩ := h3 ha hb
        exact ⟨x, by linarith, by linarith⟩
    · exact ⟨_, rfl, C31_moncen⟩
  have hr : MRep u (fun e => (u.shape e : ℤ)) 0 u.get := ⟨fun e => by simp, fun j _ => by
    congr 1; funext e; simp⟩
  obtain ⟨l, r, e, h1, h2⟩ := mrep_muscl (K := K) hr d (fun a b i => s (a i) (b i)) (by simpa using hn)
  have sh : ∀ A : Arr (ι → K), ∀ Φ, MRep A (fun e => (u.shape e : ℤ)) (0 - Pi.single d 1) Φ →
      A.shape = Function.update u.shape d (u.shape d - 2) := by
    intro A Φ h
    funext e
    have := h.1 e
    by_cases he : e = d
    · subst he
      simp at this ⊢
      omega
    · simp [he] at this ⊢
      omega
  refine ⟨l, r, by unfold musclInterpolations; rw [es]; exact e, sh _ _ h1, (sh _ _ h2).trans (sh _ _ h1).symm, ?_⟩
  intro j hj v
  have hj' : r.InB j := by
    intro e
    have := hj e
    rwa [(sh _ _ h1).trans (sh _ _ h2).symm] at this
  have e1 := congrFun (h1.2 j hj) v
  have e2 := congrFun (h2.2 j hj') v
  have x1 : (j + fun e => -((0 - Pi.single d 1 : Ix) e)) = j + Pi.single d 1 := by
    funext e; simp
  rw [x1] at e1 e2
  have x0 : j + Pi.single d 1 - Pi.single d 1 = j := by simp
  have x2 : j + Pi.single d 1 + Pi.single d 1 = j + Pi.single d 2 := by
    rw [add_assoc, ← Pi.single_add]; norm_num
  simp only [latSlope, x0, x2, Pi.sub_apply, Pi.add_apply, Pi.smul_apply, smul_eq_mul] at e1 e2
  intro a c b
  change l.get j v = c - 1 / 2 * s (c - a) (b - c) at e1
  change r.get j v = c + 1 / 2 * s (c - a) (b - c) at e2
  obtain ⟨q1, q2, q3⟩ := hs (c - a) (b - c)
  have ext : (a ≤ c ∧ b ≤ c ∨ c ≤ a ∧ c ≤ b) → l.get j v = c ∧ r.get j v = c := by
    intro h
    have := q1 (by rcases h with ⟨x, y⟩ | ⟨x, y⟩ <;> nlinarith)
    rw [e1, e2, this]
    simp
  rw [and_comm (a := min a c ≤ _), and_comm (a := min c b ≤ _)]
  refine ⟨by rw [e1, e2]; ring, ?_, ?_, ext⟩
  · rcases le_total a c with h | h <;> rcases le_total c b with h' | h'
    · obtain ⟨x, y, z⟩ := q2 (by linarith) (by linarith)
      rw [min_eq_left h, max_eq_right h, e1]; constructor <;> linarith
    · rw [(ext (Or.inl ⟨h, h'⟩)).1]; exact ⟨le_max_right _ _, min_le_right _ _⟩
    · rw [(ext (Or.inr ⟨h, h'⟩)).1]; exact ⟨le_max_right _ _, min_le_right _ _⟩
    · obtain ⟨x, y, z⟩ := q3 (by linarith) (by linarith)
      rw [min_eq_right h, max_eq_left h, e1]; constructor <;> linarith
  · rcases le_total a c with h | h <;> rcases le_total c b with h' | h'
    · obtain ⟨x, y, z⟩ := q2 (by linarith) (by linarith)
      rw [min_eq_left h', max_eq_right h', e2]; constructor <;> linarith
    · rw [(ext (Or.inl ⟨h, h'⟩)).2]; exact ⟨le_max_left _ _, min_le_left _ _⟩
    · rw [(ext (Or.inr ⟨h, h'⟩)).2]; exact ⟨le_max_left _ _, min_le_left _ _⟩
    · obtain ⟨x, y, z⟩ := q3 (by linarith) (by linarith)
      rw [min_eq_right h', max_eq_left h', e2]; constructor <;> linarith

/-- **C31** Without limiter the face values are those of the degree-1 interpolation. -/
theorem C31_no_limiter (tiny : K) {ι : Type} (u : Arr (ι → K)) (d : Fin 3) (hn : 2 ≤ u.shape d) :
    ∃ l r l' r', musclInterpolations tiny u d none = .ok (l, r) ∧
      conservativeInterpolation K u 1 d "l" = .ok l' ∧ conservativeInterpolation K u 1 d "r" = .ok r' ∧
      l.shape = l'.shape ∧ r.shape = r'.shape ∧
      (∀ j, l.InB j → l.get j = l'.get j) ∧ (∀ j, r.InB j → r.get j = r'.get j) := by
  have hr : MRep u (fun e => (u.shape e : ℤ)) 0 u.get := ⟨fun e => by simp, fun j _ => by
    congr 1; funext e; simp⟩
  obtain ⟨l, r, e, h1, h2⟩ := mrep_muscl (K := K) hr d (fun a b i => centralSlope (a i) (b i))
    (by simpa using hn)
  obtain ⟨l', f1, k1⟩ := mrep_ci (K := K) hr 1 (by norm_num) d "l" (by simp)
    (by simpa [ceilHalf] using hn)
  obtain ⟨r', f2, k2⟩ := mrep_ci (K := K) hr 1 (by norm_num) d "r" (by simp)
    (by simpa [ceilHalf] using hn)
  have hsh : ∀ A B : Arr (ι → K), ∀ Φ Ψ, MRep A (fun e => (u.shape e : ℤ)) (0 - Pi.single d 1) Φ →
      MRep B (fun e => (u.shape e : ℤ)) (0 - Pi.single d 1) Ψ → (∀ i, Φ i = Ψ i) →
      A.shape = B.shape ∧ ∀ j, A.InB j → A.get j = B.get j := by
    intro A B Φ Ψ hA hB hΦ
    have hs : A.shape = B.shape := by
      funext e
      have a := hA.1 e
      have b := hB.1 e
      omega
    refine ⟨hs, fun j hj => ?_⟩
    rw [hA.2 j hj, hB.2 j (fun e => by rw [← hs]; exact hj e), hΦ]
  have wl : wts (conservativeWeights 1 "l") = [1 / 4, 1, -1 / 4] := by decide +kernel
  have wr : wts (conservativeWeights 1 "r") = [-1 / 4, 1, 1 / 4] := by decide +kernel
  have ex : ∀ (i : Ix) (v : ι) (w0 w2 : ℚ),
      lsweep K d (ceilHalf 1) [w0, 1, w2] u.get i v =
        (w0 : K) * u.get (i - Pi.single d 1) v + u.get i v + (w2 : K) * u.get (i + Pi.single d 1) v := by
    intro i v w0 w2
    have c : ((ceilHalf 1 : ℕ) : ℤ) = 1 := by decide
    simp only [lsweep, wsum, c, show (-1 : ℤ) + 1 = 0 from rfl, show (0 : ℤ) + 1 = 1 from rfl,
      Pi.single_zero, add_zero, Pi.single_neg, ← sub_eq_add_neg, Pi.add_apply, Pi.smul_apply,
      smul_eq_mul, Rat.cast_one, one_mul, add_assoc]
  have A1 := hsh l l' _ _ h1 k1 (fun i => by
    funext v
    rw [wl, ex]
    simp only [latSlope, centralSlope, Pi.sub_apply, Pi.smul_apply, smul_eq_mul]
    push_cast
    ring)
  have A2 := hsh r r' _ _ h2 k2 (fun i => by
    funext v
    rw [wr, ex]
    simp only [latSlope, centralSlope, Pi.sub_apply, Pi.add_apply, Pi.smul_apply, smul_eq_mul]
    push_cast
    ring)
  exact ⟨l, r, l', r', e, f1, f2, A1.1, A2.1, A1.2, A2.2⟩

/-- Any other limiter name raises. -/
theorem C31_unknown (tiny : K) {ι : Type} (u : Arr (ι → K)) (d : Fin 3) (limiter : String)
    (h1 : limiter ≠ "minmod") (h2 : limiter ≠ "moncen") :
    musclInterpolations tiny u d (some limiter) = .error .valueError := by
  unfold musclInterpolations limiterFn
  split <;> simp_all <;> rfl

/-- A row of five cells: the slopes are 1 in the second, 0 at the extremum in the third. -/
example : minmod (1 / 10 ^ 16) (1 : ℚ) 2 = 1 ∧ minmod (1 / 10 ^ 16) (2 : ℚ) (-1) = 0 ∧
    moncen (1 : ℚ) 4 = 2 ∧ moncen (-3 : ℚ) (-1) = -2 := by decide +kernel

end FVHOE
