import Mathlib.Tactic.FieldSimp
import Mathlib.Tactic.LinearCombination
import Mathlib.Tactic.Positivity
import Verif.Proofs.Detect

/-!
C39, C40: the smooth-extremum indicator.

The array `boxArr n (detPad dims) C` holds `C` on the cells `[0, n)` and on three more layers at both
sides of every direction in `dims`.
-/

set_option linter.unusedSectionVars false

namespace FVHOE

variable {K : Type} [Field K] [LinearOrder K] [IsStrictOrderedRing K] {ι : Type}

theorem sedCurvature_ne (eps x : K) (he : 0 < eps) : sedCurvature eps x ≠ 0 := by
  unfold sedCurvature
  dsimp only
  split_ifs with h1 h2
  · exact he.ne'
  · exact neg_ne_zero.2 he.ne'
  · intro h0
    rw [h0, abs_zero] at h1
    exact h1 he.le

theorem sedLeft_bounds (dv vL : K) (h : dv ≠ 0) : 0 ≤ sedLeft dv vL ∧ sedLeft dv vL ≤ 1 := by
  have key : 0 ≤ -(if dv < 0 then (if vL > 0 then vL else 0) else (if vL < 0 then vL else 0)) / dv := by
    split_ifs with h1 h2 h2
    · exact div_nonneg_of_nonpos (by linarith) h1.le
    · simp
    · exact div_nonneg (by linarith) (not_lt.1 h1)
    · simp
  unfold sedLeft
  dsimp only
  generalize -(if dv < 0 then (if vL > 0 then vL else 0) else (if vL < 0 then vL else 0)) / dv = a at key
  split_ifs with h1
  · exact ⟨key, h1.le⟩
  · exact ⟨zero_le_one, le_rfl⟩

theorem sedRight_nonneg (eps dv vR aL : K) (h : 0 ≤ aL) : 0 ≤ sedRight eps dv vR aL := by
  have key : 0 ≤ (if dv > 0 then (if vR > 0 then vR else 0) else (if vR < 0 then vR else 0)) / dv := by
    split_ifs with h1 h2 h2
    · exact div_nonneg h2.le h1.le
    · simp
    · exact div_nonneg_of_nonpos h2.le (not_lt.1 h1)
    · simp
  unfold sedRight
  dsimp only
  generalize (if dv > 0 then (if vR > 0 then vR else 0) else (if vR < 0 then vR else 0)) / dv = a at key
  split_ifs <;> first | exact h | exact zero_le_one | exact key

theorem sedPoint_bounds (eps a b c d : K) (he : 0 < eps) :
    0 ≤ sedPoint eps a b c d ∧ sedPoint eps a b c d ≤ 1 := by
  have h := sedLeft_bounds (sedCurvature eps a) (b - c) (sedCurvature_ne eps a he)
  unfold sedPoint
  exact ⟨le_min h.1 (sedRight_nonneg _ _ _ _ h.1), (min_le_left _ _).trans h.2⟩

theorem sedAlong_bounds (eps : K) (he : 0 < eps) (d : Fin 3) (C : Ix → ι → K) (i : Ix) (v : ι) :
    0 ≤ sedAlong eps d C i v ∧ sedAlong eps d C i v ≤ 1 := by
  have h := fun k => sedPoint_bounds eps (cdiff d (cdiff d C) k v) (cdiff d C (k - Pi.single d 1) v)
    (cdiff d C k v) (cdiff d C (k + Pi.single d 1) v) he
  unfold sedAlong sedAt
  exact ⟨le_min (le_min (h _).1 (h _).1) (h _).1, (min_le_right _ _).trans (h _).2⟩

/-- **C39, bounds** In one, two or three dimensions the indicator returned is between 0 and 1. -/
theorem C39_bounds (eps : K) (he : 0 < eps) (dims : List (Fin 3)) (hd : dims.Nodup) (hne : dims ≠ [])
    (n : Fin 3 → ℕ) (C : Ix → ι → K) :
    ∃ A, smoothExtrema eps dims (boxArr n (detPad dims) C) = .ok A ∧ A.shape = n ∧
      ∀ i, InCells n i → ∀ v, 0 ≤ A.get i v ∧ A.get i v ≤ 1 := by
  obtain ⟨A, al, e, r, h⟩ := smoothExtrema_spec eps dims ⟨hd, hne⟩ n C
  refine ⟨A, e, r.at_cell.1, fun i hi v => ?_⟩
  rw [r.at_cell.2 i hi]
  obtain ⟨d, _, hd⟩ := (h i v).1
  rw [hd]
  exact sedAlong_bounds eps he d C i v

/-- Seven values around `i` along `d` lie on a parabola with leading coefficient `c`. -/
def Parabola (C : Ix → ι → K) (d : Fin 3) (i : Ix) (v : ι) (c : K) : Prop :=
  ∃ a b : K, ∀ k : ℤ, -3 ≤ k → k ≤ 3 → C (i + Pi.single d k) v = a + b * k + c * k ^ 2

theorem single_shift (i : Ix) (d : Fin 3) (a b : ℤ) :
    i + Pi.single d a + Pi.single d b = i + Pi.single d (a + b) := by
  rw [add_assoc, ← Pi.single_add]

theorem single_shift' (i : Ix) (d : Fin 3) (a b : ℤ) :
    i + Pi.single d a - Pi.single d b = i + Pi.single d (a - b) := by
  funext e
  simp only [Pi.add_apply, Pi.sub_apply, Pi.single_apply]
  split_ifs <;> ring

theorem sedAt_parabola (eps : K) (he : 0 ≤ eps) (C : Ix → ι → K) (d : Fin 3) (i : Ix) (v : ι) (c : K)
    (h : Parabola C d i v c) (hc : eps < |c|) (k : ℤ) (h1 : -1 ≤ k) (h2 : k ≤ 1) :
    sedAt eps d C (i + Pi.single d k) v = 1 := by
  obtain ⟨a, b, h⟩ := h
  have c0 : c ≠ 0 := by
    rintro rfl
    rw [abs_zero] at hc
    linarith
  have hd : ∀ m : ℤ, -2 ≤ m → m ≤ 2 → cdiff d C (i + Pi.single d m) v = b + 2 * c * m := by
    intro m h3 h4
    unfold cdiff
    rw [single_shift, single_shift', h _ (by omega) (by omega), h _ (by omega) (by omega)]
    push_cast
    ring
  have hdd : cdiff d (cdiff d C) (i + Pi.single d k) v = 2 * c := by
    rw [show cdiff d (cdiff d C) (i + Pi.single d k) v = (1 / 2) * (cdiff d C
      (i + Pi.single d k + Pi.single d 1) v - cdiff d C (i + Pi.single d k - Pi.single d 1) v) from rfl,
      single_shift, single_shift', hd _ (by omega) (by omega), hd _ (by omega) (by omega)]
    push_cast
    ring
  unfold sedAt
  rw [hdd, single_shift, single_shift', hd _ (by omega) (by omega), hd _ (by omega) (by omega),
    hd _ (by omega) (by omega)]
  have ecurv : sedCurvature eps (2 * c) = c := by
    unfold sedCurvature
    dsimp only
    rw [show (1 / 2 : K) * (2 * c) = c by ring, if_neg (not_le.2 hc)]
  unfold sedPoint
  dsimp only
  rw [ecurv]
  have eL : (b + 2 * c * ((k - 1 : ℤ) : K)) - (b + 2 * c * (k : K)) = -(2 * c) := by push_cast; ring
  have eR : (b + 2 * c * ((k + 1 : ℤ) : K)) - (b + 2 * c * (k : K)) = 2 * c := by push_cast; ring
  rw [eL, eR]
  have hdiv : 2 * c / c = 2 := by field_simp
  have hL : sedLeft c (-(2 * c)) = 1 := by
    unfold sedLeft
    dsimp only
    rcases lt_or_gt_of_ne c0 with hneg | hpos
    · rw [if_pos hneg, if_pos (show -(2 * c) > 0 by linarith), neg_neg, hdiv,
        if_neg (by norm_num)]
    · rw [if_neg (not_lt.2 hpos.le), if_pos (show -(2 * c) < 0 by linarith), neg_neg, hdiv,
        if_neg (by norm_num)]
  have hR : sedRight eps c (2 * c) 1 = 1 := by
    unfold sedRight
    dsimp only
    rw [if_neg (not_le.2 hc)]
    rcases lt_or_gt_of_ne c0 with hneg | hpos
    · rw [if_neg (not_lt.2 hneg.le), if_pos (show 2 * c < 0 by linarith), hdiv, if_neg (by norm_num)]
    · rw [if_pos hpos, if_pos (show 2 * c > 0 by linarith), hdiv, if_neg (by norm_num)]
  rw [hL, hR, min_self]

theorem sedAlong_parabola (eps : K) (he : 0 ≤ eps) (C : Ix → ι → K) (d : Fin 3) (i : Ix) (v : ι) (c : K)
    (h : Parabola C d i v c) (hc : eps < |c|) : sedAlong eps d C i v = 1 := by
  have key := sedAt_parabola eps he C d i v c h hc
  unfold sedAlong
  have h0 := key 0 (by omega) (by omega)
  rw [Pi.single_zero, add_zero] at h0
  have hm := key (-1) (by omega) (by omega)
  rw [show i + Pi.single d (-1) = i - Pi.single d 1 by rw [Pi.single_neg, sub_eq_add_neg]] at hm
  rw [key 1 (by omega) (by omega), h0, hm, min_self, min_self]

/-- **C39, parabolas** Where the profile along every direction in `dims` is a parabola with curvature above
the tolerance, the indicator is exactly 1. -/
theorem C39_parabola (eps : K) (he : 0 ≤ eps) (dims : List (Fin 3)) (hd : dims.Nodup) (hne : dims ≠ [])
    (n : Fin 3 → ℕ) (C : Ix → ι → K) :
    ∃ A, smoothExtrema eps dims (boxArr n (detPad dims) C) = .ok A ∧
      ∀ i, InCells n i → ∀ v, (∀ d ∈ dims, ∃ c, Parabola C d i v c ∧ eps < |c|) → A.get i v = 1 := by
  obtain ⟨A, al, e, r, h⟩ := smoothExtrema_spec eps dims ⟨hd, hne⟩ n C
  refine ⟨A, e, fun i hi v hp => ?_⟩
  rw [r.at_cell.2 i hi]
  obtain ⟨d, hd, hx⟩ := (h i v).1
  obtain ⟨c, hpar, hc⟩ := hp d hd
  rw [hx]
  exact sedAlong_parabola eps he C d i v c hpar hc

/-- **C39, consequence** With the relaxation on and no PAD bounds, a cell in which the candidate of every
considered variable is such a parabola is not reported, whatever the neighbours' ranges. -/
theorem C39_not_flagged (o : DetectOpts K) (hsed : o.sed = true) (he : 0 ≤ o.sedEps) (hpad : o.pad = [])
    (dims : List (Fin 3)) (hd : dims.Nodup) (hne : dims ≠ []) (n : Fin 3 → ℕ) (hn : ∀ d, 1 ≤ n d)
    (hm : o.mode = "global" ∨ o.mode = "local")
    (hr : o.rangeType = "relative" ∨ o.rangeType = "absolute") (U C : Ix → State K 0) :
    ∃ D, detectTroubledCells o dims (boxArr n (detPad dims) U) (boxArr n (detPad dims) C) = .ok D ∧
      ∀ i, InCells n i → (∀ v, o.considers v = true → ∀ d ∈ dims, ∃ c, Parabola C d i v c ∧ o.sedEps < |c|) →
        D.trouble.get i = false ∧ D.nadMag.get i = 0 := by
  obtain ⟨D, h1, _, h3⟩ := detect_spec o ⟨hm, hr⟩ dims ⟨hd, hne⟩ n hn U C
  refine ⟨D, h1, fun i hi hp => ?_⟩
  obtain ⟨e1, _, e3, _⟩ := h3 i hi
  have hno : ¬ NadCell o dims n U C i := by
    rintro ⟨v, hv, _, hrough⟩
    obtain ⟨d, hd, hlt⟩ := hrough hsed
    obtain ⟨c, hpar, hc⟩ := hp v hv d hd
    rw [sedAlong_parabola o.sedEps he C d i v c hpar hc] at hlt
    exact lt_irrefl _ hlt
  refine ⟨?_, e3 hno⟩
  rw [← Bool.not_eq_true, e1]
  rintro (h | h)
  · exact hno h
  · rw [hpad] at h
    exact lt_irrefl _ h

/-! ## C40 -/

/-- Half the second difference, as the detector takes it. -/
def halfCurvature (d : Fin 3) (C : Ix → ι → K) (i : Ix) (v : ι) : K :=
  (1 / 8) * (C (i + Pi.single d 2) v - 2 * C i v + C (i - Pi.single d 2) v)

theorem halfCurvature_eq (d : Fin 3) (C : Ix → ι → K) (i : Ix) (v : ι) :
    (1 / 2) * cdiff d (cdiff d C) i v = halfCurvature d C i v := by
  unfold cdiff halfCurvature
  have e1 : i + Pi.single d 1 + Pi.single d 1 = i + Pi.single d 2 := single_shift i d 1 1
  have e2 : i + Pi.single d 1 - Pi.single d 1 = i := add_sub_cancel_right _ _
  have e3 : i - Pi.single d 1 + Pi.single d 1 = i := sub_add_cancel _ _
  have e4 : i - Pi.single d 1 - Pi.single d 1 = i - Pi.single d 2 := by
    rw [sub_sub, ← Pi.single_add]; rfl
  rw [e1, e2, e3, e4]
  ring

theorem sedPoint_reverse (eps a l c r : K) (he : 0 ≤ eps) (h : eps < |(1 / 2) * a|) :
    sedPoint eps a (-r) (-c) (-l) = sedPoint eps a l c r := by
  have ec : sedCurvature eps a = (1 / 2) * a := by
    unfold sedCurvature
    dsimp only
    rw [if_neg (not_le.2 h)]
  unfold sedPoint
  dsimp only
  rw [ec]
  generalize (1 / 2) * a = dv at h
  have d0 : dv ≠ 0 := by
    rintro rfl
    rw [abs_zero] at h
    linarith
  rw [show -r - -c = -(r - c) by ring, show -l - -c = -(l - c) by ring]
  generalize r - c = vR
  generalize l - c = vL
  -- both sides are min 1 (min rawL rawR)
  have hfull : ∀ x y : K, min (sedLeft dv x) (sedRight eps dv y (sedLeft dv x)) =
      min 1 (min (-(if dv < 0 then (if x > 0 then x else 0) else (if x < 0 then x else 0)) / dv)
        ((if dv > 0 then (if y > 0 then y else 0) else (if y < 0 then y else 0)) / dv)) := by
    intro x y
    unfold sedLeft sedRight
    dsimp only
    rw [if_neg (not_le.2 h)]
    generalize -(if dv < 0 then (if x > 0 then x else 0) else (if x < 0 then x else 0)) / dv = A
    generalize (if dv > 0 then (if y > 0 then y else 0) else (if y < 0 then y else 0)) / dv = B
    have m1 : (if A < 1 then A else 1) = min 1 A := by
      rcases lt_or_ge A 1 with hA | hA
      · rw [if_pos hA, min_eq_right hA.le]
      · rw [if_neg (not_lt.2 hA), min_eq_left hA]
    rw [m1]
    have m2 : (if B < min 1 A then B else min 1 A) = min (min 1 A) B := by
      rcases lt_or_ge B (min 1 A) with hB | hB
      · rw [if_pos hB, min_eq_right hB.le]
      · rw [if_neg (not_lt.2 hB), min_eq_left hB]
    rw [m2, ← min_assoc, min_self, min_assoc]
  rw [hfull, hfull]
  congr 1
  have swapL : ∀ y : K, -(if dv < 0 then (if -y > 0 then -y else 0) else (if -y < 0 then -y else 0)) / dv =
      (if dv > 0 then (if y > 0 then y else 0) else (if y < 0 then y else 0)) / dv := by
    intro y
    congr 1
    rcases lt_or_gt_of_ne d0 with hn | hp
    · rw [if_pos hn, if_neg (not_lt.2 hn.le)]
      by_cases hy : y < 0
      · rw [if_pos (show -y > 0 by linarith), if_pos hy, neg_neg]
      · rw [if_neg (show ¬ -y > 0 by linarith), if_neg hy, neg_zero]
    · rw [if_neg (not_lt.2 hp.le), if_pos hp]
      by_cases hy : y > 0
      · rw [if_pos (show -y < 0 by linarith), if_pos hy, neg_neg]
      · rw [if_neg (show ¬ -y < 0 by linarith), if_neg hy, neg_zero]
  have swapR : ∀ x : K, (if dv > 0 then (if -x > 0 then -x else 0) else (if -x < 0 then -x else 0)) / dv =
      -(if dv < 0 then (if x > 0 then x else 0) else (if x < 0 then x else 0)) / dv := by
    intro x
    have := swapL (-x)
    rw [neg_neg] at this
    rw [this]
  rw [swapL, swapR, min_comm]

theorem sedPoint_negate (eps a l c r : K) (he : 0 < eps) (h : a ≠ 0) :
    sedPoint eps (-a) (-l) (-c) (-r) = sedPoint eps a l c r := by
  have ec : sedCurvature eps (-a) = -sedCurvature eps a := by
    unfold sedCurvature
    dsimp only
    rw [show (1 / 2 : K) * -a = -((1 / 2) * a) by ring, abs_neg]
    have h2 : (1 / 2) * a ≠ 0 := mul_ne_zero (by norm_num) h
    split_ifs with h1 h3 h3 h3
    · exact absurd (le_antisymm (by linarith) (by linarith)) h2
    · rw [neg_neg]
    · rfl
    · exfalso; linarith [lt_of_not_ge h3]
    · rfl
  unfold sedPoint
  dsimp only
  rw [ec, show -l - -c = -(l - c) by ring, show -r - -c = -(r - c) by ring]
  have d0 := sedCurvature_ne eps a he
  generalize sedCurvature eps a = dv at d0
  have hL : sedLeft (-dv) (-(l - c)) = sedLeft dv (l - c) := by
    generalize l - c = x
    unfold sedLeft
    dsimp only
    have : -(if -dv < 0 then (if -x > 0 then -x else 0) else (if -x < 0 then -x else 0)) / -dv =
        -(if dv < 0 then (if x > 0 then x else 0) else (if x < 0 then x else 0)) / dv := by
      rw [neg_div_neg_eq, neg_div, ← neg_div]
      congr 1
      rcases lt_or_gt_of_ne d0 with hn | hp
      · rw [if_neg (show ¬ -dv < 0 by linarith), if_pos hn]
        by_cases hx : x > 0
        · rw [if_pos (show -x < 0 by linarith), if_pos hx]
        · rw [if_neg (show ¬ -x < 0 by linarith), if_neg hx, neg_zero]
      · rw [if_pos (show -dv < 0 by linarith), if_neg (show ¬ dv < 0 by linarith)]
        by_cases hx : x < 0
        · rw [if_pos (show -x > 0 by linarith), if_pos hx]
        · rw [if_neg (show ¬ -x > 0 by linarith), if_neg hx, neg_zero]
    rw [this]
  have hR : ∀ A, sedRight eps (-dv) (-(r - c)) A = sedRight eps dv (r - c) A := by
    intro A
    generalize r - c = y
    unfold sedRight
    dsimp only
    have : (if -dv > 0 then (if -y > 0 then -y else 0) else (if -y < 0 then -y else 0)) / -dv =
        (if dv > 0 then (if y > 0 then y else 0) else (if y < 0 then y else 0)) / dv := by
      rw [div_neg, ← neg_div]
      congr 1
      rcases lt_or_gt_of_ne d0 with hn | hp
      · rw [if_pos (show -dv > 0 by linarith), if_neg (show ¬ dv > 0 by linarith)]
        by_cases hx : y < 0
        · rw [if_pos (show -y > 0 by linarith), if_pos hx, neg_neg]
        · rw [if_neg (show ¬ -y > 0 by linarith), if_neg hx, neg_zero]
      · rw [if_neg (show ¬ -dv > 0 by linarith), if_pos hp]
        by_cases hx : y > 0
        · rw [if_pos (show -y < 0 by linarith), if_pos hx, neg_neg]
        · rw [if_neg (show ¬ -y < 0 by linarith), if_neg hx, neg_zero]
    rw [this, abs_neg]
  rw [hL, hR]

/-- Position `i` reflected along `d` in a line of `m` cells. -/
def flipped (m : ℤ) (d : Fin 3) (i : Ix) : Ix := fun e => if e = d then m - 1 - i e else i e

theorem flipped_add (m : ℤ) (d : Fin 3) (i : Ix) (k : ℤ) :
    flipped m d (i + Pi.single d k) = flipped m d i - Pi.single d k := by
  funext e
  simp only [flipped, Pi.add_apply, Pi.sub_apply, Pi.single_apply]
  split_ifs <;> ring

theorem flipped_sub (m : ℤ) (d : Fin 3) (i : Ix) (k : ℤ) :
    flipped m d (i - Pi.single d k) = flipped m d i + Pi.single d k := by
  funext e
  simp only [flipped, Pi.add_apply, Pi.sub_apply, Pi.single_apply]
  split_ifs <;> ring

theorem sedAlong_flip (eps : K) (he : 0 ≤ eps) (m : ℤ) (d : Fin 3) (C : Ix → ι → K) (i : Ix) (v : ι)
    (h : ∀ k : ℤ, -1 ≤ k → k ≤ 1 → eps < |halfCurvature d C (flipped m d i + Pi.single d k) v|) :
    sedAlong eps d (fun j => C (flipped m d j)) i v = sedAlong eps d C (flipped m d i) v := by
  have c1 : ∀ j, cdiff d (fun j => C (flipped m d j)) j v = -cdiff d C (flipped m d j) v := by
    intro j
    unfold cdiff
    dsimp only
    rw [flipped_add, flipped_sub]
    ring
  have c2 : ∀ j, cdiff d (cdiff d fun j => C (flipped m d j)) j v = cdiff d (cdiff d C) (flipped m d j) v := by
    intro j
    rw [show cdiff d (cdiff d fun j => C (flipped m d j)) j v = (1 / 2) * (cdiff d (fun j => C (flipped m d j))
      (j + Pi.single d 1) v - cdiff d (fun j => C (flipped m d j)) (j - Pi.single d 1) v) from rfl,
      c1, c1, flipped_add, flipped_sub]
    rw [show cdiff d (cdiff d C) (flipped m d j) v = (1 / 2) * (cdiff d C (flipped m d j + Pi.single d 1) v -
      cdiff d C (flipped m d j - Pi.single d 1) v) from rfl]
    ring
  have key : ∀ j, eps < |halfCurvature d C (flipped m d j) v| →
      sedAt eps d (fun j => C (flipped m d j)) j v = sedAt eps d C (flipped m d j) v := by
    intro j hj
    unfold sedAt
    rw [c1, c1, c1, c2, flipped_add, flipped_sub]
    refine sedPoint_reverse eps _ _ _ _ he ?_
    rwa [halfCurvature_eq]
  unfold sedAlong
  rw [key _ (by
      rw [flipped_add, sub_eq_add_neg, ← Pi.single_neg]
      exact h (-1) (by omega) (by omega)), key _ (by
      have := h 0 (by omega) (by omega)
      rwa [Pi.single_zero, add_zero] at this), key _ (by
      rw [flipped_sub]
      exact h 1 (by omega) (by omega)), flipped_add, flipped_sub]
  rw [min_assoc, min_comm, min_comm (sedAt eps d C (flipped m d i) v)]

theorem sedAlong_neg (eps : K) (he : 0 < eps) (d : Fin 3) (C : Ix → ι → K) (i : Ix) (v : ι)
    (h : ∀ k : ℤ, -1 ≤ k → k ≤ 1 → halfCurvature d C (i + Pi.single d k) v ≠ 0) :
    sedAlong eps d (fun j w => -C j w) i v = sedAlong eps d C i v := by
  have c1 : cdiff d (fun j w => -C j w) = fun j w => -cdiff d C j w := by
    funext j w
    unfold cdiff
    ring
  have c2 : cdiff d (cdiff d fun j w => -C j w) = fun j w => -cdiff d (cdiff d C) j w := by
    rw [c1]
    funext j w
    unfold cdiff
    ring
  have key : ∀ j, halfCurvature d C j v ≠ 0 → sedAt eps d (fun j w => -C j w) j v = sedAt eps d C j v := by
    intro j hj
    unfold sedAt
    rw [c2, c1]
    refine sedPoint_negate eps _ _ _ _ he ?_
    intro h0
    rw [← halfCurvature_eq, h0, mul_zero] at hj
    exact hj rfl
  unfold sedAlong
  have hm := h (-1) (by omega) (by omega)
  rw [show i + Pi.single d (-1) = i - Pi.single d 1 by rw [Pi.single_neg, sub_eq_add_neg]] at hm
  have h0 := h 0 (by omega) (by omega)
  rw [Pi.single_zero, add_zero] at h0
  rw [key _ (h 1 (by omega) (by omega)), key _ h0, key _ hm]

/-- **C40, reversal, partial** Reversing the array along the axis of the one-dimensional detector reverses
the indicator at every cell where the curvature exceeds the tolerance in the cell and its two
neighbours. Missing: cells with small curvature, where it fails (`C40_violated`). -/
theorem C40_reversal_partial (eps : K) (he : 0 ≤ eps) (d : Fin 3) (n : Fin 3 → ℕ) (C : Ix → ι → K) :
    ∃ A A', smoothExtrema eps [d] (boxArr n (detPad [d]) C) = .ok A ∧
      smoothExtrema eps [d] (boxArr n (detPad [d]) fun i => C (flipped (n d) d i)) = .ok A' ∧
      ∀ i, InCells n i → ∀ v,
        (∀ k : ℤ, -1 ≤ k → k ≤ 1 → eps < |halfCurvature d C (flipped (n d) d i + Pi.single d k) v|) →
        A'.get i v = A.get (flipped (n d) d i) v := by
  have hd : DimsOK [d] := ⟨by simp, by simp⟩
  obtain ⟨A, al, e, r, h⟩ := smoothExtrema_spec eps [d] hd n C
  obtain ⟨A', al', e', r', h'⟩ := smoothExtrema_spec eps [d] hd n fun i => C (flipped (n d) d i)
  refine ⟨A, A', e, e', fun i hi v hk => ?_⟩
  have hi' : InCells n (flipped (n d) d i) := by
    intro e
    have := hi e
    unfold flipped
    split_ifs with he
    · subst he; omega
    · exact this
  have one : ∀ {Φ : Ix → ι → K} {x : K} {j : Ix},
      IsLeast {x | ∃ d' ∈ [d], x = sedAlong eps d' Φ j v} x → x = sedAlong eps d Φ j v := by
    intro Φ x j hx
    obtain ⟨d', hd', e⟩ := hx.1
    rw [List.mem_singleton.1 hd'] at e
    exact e
  rw [r.at_cell.2 _ hi', r'.at_cell.2 _ hi, one (h _ v), one (h' i v)]
  exact sedAlong_flip eps he (n d) d C i v hk

/-- **C40, negation, partial** Negating the array leaves the indicator of a cell unchanged, in any
dimension, unless the curvature vanishes exactly in the cell or in a neighbour. -/
theorem C40_negation_partial (eps : K) (he : 0 < eps) (dims : List (Fin 3)) (hd : dims.Nodup)
    (hne : dims ≠ []) (n : Fin 3 → ℕ) (C : Ix → ι → K) :
    ∃ A A', smoothExtrema eps dims (boxArr n (detPad dims) C) = .ok A ∧
      smoothExtrema eps dims (boxArr n (detPad dims) fun i v => -C i v) = .ok A' ∧
      ∀ i, InCells n i → ∀ v,
        (∀ d ∈ dims, ∀ k : ℤ, -1 ≤ k → k ≤ 1 → halfCurvature d C (i + Pi.single d k) v ≠ 0) →
        A'.get i v = A.get i v := by
  obtain ⟨A, al, e, r, h⟩ := smoothExtrema_spec eps dims ⟨hd, hne⟩ n C
  obtain ⟨A', al', e', r', h'⟩ := smoothExtrema_spec eps dims ⟨hd, hne⟩ n fun i v => -C i v
  refine ⟨A, A', e, e', fun i hi v hk => ?_⟩
  rw [r.at_cell.2 _ hi, r'.at_cell.2 _ hi]
  refine (h' i v).unique ?_
  have : {x | ∃ d ∈ dims, x = sedAlong eps d (fun i v => -C i v) i v} =
      {x | ∃ d ∈ dims, x = sedAlong eps d C i v} := by
    ext x
    constructor <;> rintro ⟨d, hd, rfl⟩ <;> refine ⟨d, hd, ?_⟩
    · exact sedAlong_neg eps he d C i v (hk d hd)
    · exact (sedAlong_neg eps he d C i v (hk d hd)).symm
  rw [this]
  exact h i v

/-- The cubic x³ on seven cells around one cell. -/
def cubic : Ix → Unit → ℚ := fun i _ => (i 0 : ℚ) ^ 3

/-- **C40 fails** On the cubic the indicator at the inflection point is 0; on the reversed array, which is
the negated one, it is 1. -/
theorem C40_violated :
    (smoothExtrema (1 / 10000000000) [0] (boxArr ![1, 1, 1] (detPad [0]) cubic)).map
      (fun A => A.get 0 ()) = .ok 0 ∧
    (smoothExtrema (1 / 10000000000) [0] (boxArr ![1, 1, 1] (detPad [0]) fun i => cubic (flipped 1 0 i))).map
      (fun A => A.get 0 ()) = .ok 1 ∧
    (fun i => cubic (flipped 1 0 i)) = fun i v => -cubic i v := by
  refine ⟨by decide +kernel, by decide +kernel, ?_⟩
  funext i v
  simp only [cubic, flipped, if_true]
  push_cast
  ring

/-! ## Concrete cases -/

/-- The parabola 3x² + y². -/
def bowl : Ix → Unit → ℚ := fun i _ => 3 * (i 0 : ℚ) ^ 2 + (i 1 : ℚ) ^ 2

example : ∀ i, (∃ c, Parabola bowl 0 i () c ∧ (1 / 10000000000 : ℚ) < |c|) ∧
    ∃ c, Parabola bowl 1 i () c ∧ (1 / 10000000000 : ℚ) < |c| := by
  intro i
  refine ⟨⟨3, ⟨bowl i (), 6 * i 0, fun k _ _ => ?_⟩, by norm_num⟩,
    ⟨1, ⟨bowl i (), 2 * i 1, fun k _ _ => ?_⟩, by norm_num⟩⟩ <;>
  · simp [bowl]
    ring

example : ∀ (i : Ix) (k : ℤ), halfCurvature 0 bowl (i + Pi.single 0 k : Ix) () = 3 := by
  intro i k
  simp [halfCurvature, bowl]
  ring

end FVHOE
