import Mathlib.Tactic.IntervalCases
import Mathlib.Tactic.Linarith
import Mathlib.Analysis.SpecialFunctions.Trigonometric.Basic
import Mathlib.Analysis.SpecialFunctions.Sqrt
import Verif.Spec.Gas
import Verif.Props.C68
import Verif.Proofs.RomainTurn

/-!
C124: the reference solver with hllc keeps gas at rest with uniform pressure exactly as it is, whatever the densities; with
llf it does not.
-/

set_option linter.unusedSectionVars false

namespace FVHOE

open Romain

variable {K : Type} [Field K] [LinearOrder K] [IsStrictOrderedRing K]

/-- Every column of the padded array is a column of the domain. -/
theorem setBC_inside {V : Type} {n : ℕ} (hn : 1 ≤ n) {ty : BCType} (hty : ty = .periodic ∧ 4 ≤ n ∨ ty = .free) (u : ℤ → V)
    (j : ℤ) (h0 : 0 ≤ j) (h1 : j < n + 8) : ∃ j' : ℤ, 4 ≤ j' ∧ j' < n + 4 ∧ setBC n ty u j = u j' := by
  rcases hty with ⟨rfl, h4⟩ | rfl
  · obtain ⟨b1, b2⟩ := behind_range h4 j
    exact ⟨_, b1, b2, setBC_behind h4 u j h0 h1⟩
  · rw [setBC_free hn]
    split_ifs
    · exact ⟨4, by omega, by omega, rfl⟩
    · exact ⟨n + 3, by omega, by omega, rfl⟩
    · exact ⟨j, by omega, by omega, rfl⟩

/-- The flux between two states at rest with the same pressure. -/
theorem hllc_rest (g : K) (hg : 0 < g) (sqrt : K → K) (hq : IsSqrt sqrt) (a b : Col K) (p : K) (hp : 0 < p)
    (ha : 0 < a.r0) (hb : 0 < b.r0) (a1 : a.r1 = 0) (b1 : b.r1 = 0) (a2 : a.r2 = p) (b2 : b.r2 = p) :
    Romain.hllc g sqrt a b = ⟨0, p, 0⟩ := by
  have pa : 0 < g * p / a.r0 := div_pos (mul_pos hg hp) ha
  obtain ⟨c0, c1⟩ := hq _ pa.le
  have hc : 0 < sqrt (g * p / a.r0) := lt_of_le_of_ne c0 fun h => by
    rw [← h, mul_zero] at c1
    exact pa.ne c1
  have hm : 0 < max (sqrt (g * p / a.r0)) (sqrt (g * p / b.r0)) := lt_max_of_lt_left hc
  have hd : a.r0 * max (sqrt (g * p / a.r0)) (sqrt (g * p / b.r0)) + b.r0 * max (sqrt (g * p / a.r0)) (sqrt (g * p / b.r0)) ≠ 0 :=
    (add_pos (mul_pos ha hm) (mul_pos hb hm)).ne'
  rw [← add_mul] at hd
  have e : ∀ m : K, (a.r0 + b.r0) * m ≠ 0 → (a.r0 * m * p + b.r0 * m * p) / (a.r0 * m + b.r0 * m) = p := fun m h => by
    rw [← add_mul, ← add_mul, mul_div_assoc, mul_comm, div_mul_cancel₀ _ h]
  unfold Romain.hllc
  simp only [a1, b1, a2, b2, min_self, max_self, zero_sub, zero_add, sub_neg_eq_add, sub_zero, mul_zero, add_zero,
    sub_self, zero_div, gt_iff_lt, lt_irrefl, if_false, hm, if_true, Left.neg_pos_iff, not_lt.2 hm.le, e _ hd]

/-- Gas at rest with pressure `p` in `n` cells. -/
def AtRest (C : Consts K) (n : ℕ) (p : K) (u : ℕ → Col K) : Prop := ∀ i, i < n → (u i).r1 = 0 ∧ (u i).r2 = p / (C.gamma - 1)

theorem rest_column (C : Consts K) (hg : 1 < C.gamma) {n : ℕ} (hn : 1 ≤ n) {ty : BCType}
    (hty : ty = .periodic ∧ 4 ≤ n ∨ ty = .free) (p : K) (u : ℕ → Col K) (hu : AtRest C n p u) (j : ℤ) (h0 : 0 ≤ j)
    (h1 : j < n + 8) : (primCols C n ty (embed n u) j).r1 = 0 ∧ (primCols C n ty (embed n u) j).r2 = p ∧
      ∃ i, i < n ∧ (primCols C n ty (embed n u) j).r0 = (u i).r0 := by
  obtain ⟨j', b1, b2, e⟩ := setBC_inside hn hty (embed n u) j h0 h1
  obtain ⟨z1, z2⟩ := hu (j' - 4).toNat (by omega)
  have hg0 : C.gamma - 1 ≠ 0 := (sub_pos.2 hg).ne'
  unfold primCols
  rw [e, embed, if_pos ⟨b1, b2⟩]
  refine ⟨by simp [consToPrim, z1], ?_, _, by omega, rfl⟩
  simp only [consToPrim, z1, z2, zero_div]
  rw [zero_pow two_ne_zero, mul_zero, sub_zero, mul_div_cancel₀ _ hg0]

/-- The states at the faces that the solver hands to the Riemann solver have positive density. -/
def DenseFaces (C : Consts K) (n : ℕ) (ty : BCType) (space : ℕ) (u : ℕ → Col K) : Prop :=
  ∀ k : ℤ, 0 ≤ k → k ≤ n →
    0 < (traceCols C.tiny space (primCols C n ty (embed n u)) (markers n ty (primCols C n ty (embed n u))) (k + 3)).1.r0 ∧
    0 < (traceCols C.tiny space (primCols C n ty (embed n u)) (markers n ty (primCols C n ty (embed n u))) (k + 4)).2.r0

theorem rest_rhs (C : Consts K) (hg : 1 < C.gamma) (hq : IsSqrt C.sqrt) {n : ℕ} (hn : 1 ≤ n) {ty : BCType}
    (hty : ty = .periodic ∧ 4 ≤ n ∨ ty = .free) (space : ℕ) (p : K) (hp : 0 < p) (u : ℕ → Col K) (hu : AtRest C n p u)
    (hd : DenseFaces C n ty space u) (r : (ℕ → Col K) × (ℤ → Col K)) (h : rhs C n ty .hllc space u = .ok r) (i : ℕ)
    (hi : i < n) : r.1 i = 0 := by
  obtain ⟨f, hf, ⟨s1, s2⟩, e2, e1⟩ := rhs_ok h
  cases hf
  have flat : ∀ j : ℤ, 2 ≤ j → j ≤ n + 5 →
      ((traceCols C.tiny space r.2 (markers n ty r.2) j).1.r1 = 0 ∧ (traceCols C.tiny space r.2 (markers n ty r.2) j).1.r2 = p) ∧
      ((traceCols C.tiny space r.2 (markers n ty r.2) j).2.r1 = 0 ∧
        (traceCols C.tiny space r.2 (markers n ty r.2) j).2.r2 = p) := by
    intro j g0 g1
    have t1 := trace_flat C.tiny space s1 s2 (rowsOf r.2 1) (rowsOf (markers n ty r.2) 1) j 0 fun k k0 k1 => by
      rw [rowsOf_apply, e2]
      exact (rest_column C hg hn hty p u hu (j + k) (by omega) (by omega)).1
    have t2 := trace_flat C.tiny space s1 s2 (rowsOf r.2 2) (rowsOf (markers n ty r.2) 2) j p fun k k0 k1 => by
      rw [rowsOf_apply, e2]
      exact (rest_column C hg hn hty p u hu (j + k) (by omega) (by omega)).2.1
    exact ⟨⟨congrArg Prod.fst t1, congrArg Prod.fst t2⟩, congrArg Prod.snd t1, congrArg Prod.snd t2⟩
  have face : ∀ k : ℤ, 0 ≤ k → k ≤ n → Romain.hllc C.gamma C.sqrt (traceCols C.tiny space r.2 (markers n ty r.2) (k + 3)).1
      (traceCols C.tiny space r.2 (markers n ty r.2) (k + 4)).2 = ⟨0, p, 0⟩ := by
    intro k k0 k1
    have d := hd k k0 k1
    rw [← e2] at d
    have q := (flat (k + 3) (by omega) (by omega)).1
    have q' := (flat (k + 4) (by omega) (by omega)).2
    exact hllc_rest C.gamma (one_pos.trans hg) C.sqrt hq _ _ p hp d.1 d.2 q.1 q'.1 q.2 q'.2
  rw [e1, slopeOf_eq]
  rw [face (i + 1) (by omega) (by omega), face i (by omega) (by omega), sub_self, smul_zero]

theorem advance_still {f : (ℕ → Col K) → Except PyErr ((ℕ → Col K) × (ℤ → Col K))} {n : ℕ} {u : ℕ → Col K}
    (hf : ∀ v r, (∀ i, i < n → v i = u i) → f v = .ok r → ∀ i, i < n → r.1 i = 0) (time : ℕ) (dt : K) (v k1 v' : ℕ → Col K)
    (hv : ∀ i, i < n → v i = u i) (hk : ∀ i, i < n → k1 i = 0) (h : advance f time dt v k1 = .ok v') :
    ∀ i, i < n → v' i = u i := by
  have move : ∀ (k : ℕ → Col K) (x : K), (∀ i, i < n → k i = 0) → ∀ i, i < n → (v i).add ((k i).smul x) = u i := by
    intro k x h i hi
    rw [add_eq, smul_eq, h i hi, smul_zero, add_zero, hv i hi]
  unfold advance at h
  split at h
  · cases h
    exact move _ _ hk
  · obtain ⟨r2, g2, h⟩ := bind_ok h
    have z2 := hf _ _ (move _ _ hk) g2
    cases h
    exact move _ _ z2
  · obtain ⟨r2, g2, h⟩ := bind_ok h
    have z2 := hf _ _ (move _ _ hk) g2
    obtain ⟨r3, g3, h⟩ := bind_ok h
    have z3 := hf _ _ (move _ _ z2) g3
    cases h
    refine move (fun i => (k1 i).add ((r3.1 i).smul 3)) _ fun i hi => ?_
    rw [add_eq, smul_eq, hk i hi, z3 i hi, smul_zero, add_zero]
  · obtain ⟨r2, g2, h⟩ := bind_ok h
    have z2 := hf _ _ (move _ _ hk) g2
    obtain ⟨r3, g3, h⟩ := bind_ok h
    have z3 := hf _ _ (move _ _ z2) g3
    obtain ⟨r4, g4, h⟩ := bind_ok h
    have z4 := hf _ _ (move _ _ z3) g4
    cases h
    refine move (fun i => (((k1 i).add ((r2.1 i).smul 2)).add ((r3.1 i).smul 2)).add (r4.1 i)) _ fun i hi => ?_
    simp only [add_eq, smul_eq]
    rw [hk i hi, z2 i hi, z3 i hi, z4 i hi, smul_zero, add_zero, add_zero, add_zero]
  · cases h

/-- **C124** (hllc) Gas at rest with uniform pressure, whatever its densities: every state of a run with hllc is the first one,
for every order in time and space, if the interpolated densities at the faces are positive. -/
theorem C124_rest (C : Consts K) (hg : 1 < C.gamma) (hq : IsSqrt C.sqrt) (n : ℕ) (hn : 1 ≤ n) (ty : BCType)
    (hty : ty = .periodic ∧ 4 ≤ n ∨ ty = .free) (cfl tend : K) (time space : ℕ) (p : K) (hp : 0 < p) (u : ℕ → Col K)
    (hu : ∀ i, i < n → (u i).r1 = 0 ∧ (u i).r2 = p / (C.gamma - 1))
    (hd : ∀ k : ℤ, 0 ≤ k → k ≤ n →
      0 < (traceCols C.tiny space (primCols C n ty (embed n u)) (markers n ty (primCols C n ty (embed n u))) (k + 3)).1.r0 ∧
      0 < (traceCols C.tiny space (primCols C n ty (embed n u)) (markers n ty (primCols C n ty (embed n u))) (k + 4)).2.r0)
    (fuel : ℕ) (t : K) (l : List (K × (ℕ → Col K))) (h : loop C n cfl tend ty .hllc time space fuel t u = .ok l) :
    ∀ x ∈ l, ∀ i, i < n → x.2 i = u i := by
  have hf : ∀ v r, (∀ i, i < n → v i = u i) → rhs C n ty .hllc space v = .ok r → ∀ i, i < n → r.1 i = 0 := by
    intro v r hv hr
    have e : embed n v = embed n u := by
      funext j
      unfold embed
      split_ifs with hj
      · exact hv _ (by omega)
      · rfl
    refine rest_rhs C hg hq hn hty space p hp v (fun i hi => by rw [hv i hi]; exact hu i hi) ?_ r hr
    unfold DenseFaces
    rw [e]
    exact hd
  suffices key : ∀ (t : K) (v : ℕ → Col K) (l : List (K × (ℕ → Col K))), (∀ i, i < n → v i = u i) →
      loop C n cfl tend ty .hllc time space fuel t v = .ok l → ∀ x ∈ l, ∀ i, i < n → x.2 i = u i from
    key t u l (fun _ _ => rfl) h
  clear h
  induction fuel with
  | zero =>
    intro t v l _ h
    cases h
    simp
  | succ fuel ih =>
    intro t v l hv h
    rw [loop] at h
    split_ifs at h
    · obtain ⟨s, g1, h⟩ := bind_ok h
      obtain ⟨rest, g2, h⟩ := bind_ok h
      cases h
      obtain ⟨r, q1, -, q2⟩ := step_ok g1
      have hs := advance_still hf time s.1 v r.1 s.2 hv (hf v r hv q1) q2
      intro x hx
      rcases List.mem_cons.1 hx with rfl | hx
      · exact hs
      · exact ih _ _ _ hs g2 x hx
    · cases h
      simp

/-- **C124** (first order) At first order in space positive densities are enough. -/
theorem C124_first (C : Consts K) (hg : 1 < C.gamma) (hq : IsSqrt C.sqrt) (n : ℕ) (hn : 1 ≤ n) (ty : BCType)
    (hty : ty = .periodic ∧ 4 ≤ n ∨ ty = .free) (cfl tend : K) (time : ℕ) (p : K) (hp : 0 < p) (u : ℕ → Col K)
    (hu : ∀ i, i < n → 0 < (u i).r0 ∧ (u i).r1 = 0 ∧ (u i).r2 = p / (C.gamma - 1)) (fuel : ℕ) (t : K)
    (l : List (K × (ℕ → Col K))) (h : loop C n cfl tend ty .hllc time 1 fuel t u = .ok l) :
    ∀ x ∈ l, ∀ i, i < n → x.2 i = u i := by
  have dense : ∀ j : ℤ, 0 ≤ j → j < n + 8 → 0 < (primCols C n ty (embed n u) j).r0 := by
    intro j h0 h1
    obtain ⟨-, -, i, hi, e⟩ := rest_column C hg hn hty p u (fun i hi => (hu i hi).2) j h0 h1
    rw [e]
    exact (hu i hi).1
  exact C124_rest C hg hq n hn ty hty cfl tend time 1 p hp u (fun i hi => (hu i hi).2)
    (fun k k0 k1 => ⟨dense (k + 3) (by omega) (by omega), dense (k + 4) (by omega) (by omega)⟩) fuel t l h

theorem theta_unit (tiny : K) (ht : 0 ≤ tiny) (space : ℕ) (u al : ℤ → K) (i : ℤ) :
    0 ≤ theta tiny space u al i ∧ theta tiny space u al i ≤ 1 := by
  unfold theta
  dsimp only
  split_ifs
  · exact ⟨le_min zero_le_one (le_min (div_nonneg (abs_nonneg _) (add_nonneg (abs_nonneg _) ht))
      (div_nonneg (abs_nonneg _) (add_nonneg (abs_nonneg _) ht))), min_le_left _ _⟩
  · exact ⟨zero_le_one, le_rfl⟩

theorem mild_faces (space : ℕ) (hs : 1 ≤ space) (hs' : space ≤ 5) (lo : K) (hlo : 0 < lo) (u : ℤ → K) (i : ℤ)
    (h : ∀ k, -2 ≤ k → k ≤ 2 → lo ≤ u (i + k) ∧ u (i + k) ≤ 4 * lo) : 0 < uleft space u i ∧ 0 < uright space u i := by
  obtain ⟨a1, a2⟩ := h (-2) (by omega) (by omega)
  obtain ⟨b1, b2⟩ := h (-1) (by omega) (by omega)
  obtain ⟨c1, c2⟩ := h 0 (by omega) (by omega)
  obtain ⟨d1, d2⟩ := h 1 (by omega) (by omega)
  obtain ⟨e1, e2⟩ := h 2 (by omega) (by omega)
  rw [← sub_eq_add_neg] at a1 a2 b1 b2
  rw [add_zero] at c1 c2
  interval_cases space <;> simp only [uleft, uright] <;> constructor <;> linarith

theorem mild_trace (tiny : K) (ht : 0 ≤ tiny) (space : ℕ) (hs : 1 ≤ space) (hs' : space ≤ 5) (lo : K) (hlo : 0 < lo)
    (u al : ℤ → K) (i : ℤ) (h : ∀ k, -2 ≤ k → k ≤ 2 → lo ≤ u (i + k) ∧ u (i + k) ≤ 4 * lo) :
    0 < (trace tiny space u al i).1 ∧ 0 < (trace tiny space u al i).2 := by
  obtain ⟨l, r⟩ := mild_faces space hs hs' lo hlo u i h
  obtain ⟨t0, t1⟩ := theta_unit tiny ht space u al i
  have c : 0 < u i := by
    have := (h 0 (by omega) (by omega)).1
    rw [add_zero] at this
    exact hlo.trans_le this
  have mix : ∀ x : K, 0 < x → 0 < theta tiny space u al i * (x - u i) + u i := by
    intro x hx
    have : theta tiny space u al i * (x - u i) + u i = theta tiny space u al i * x + (1 - theta tiny space u al i) * u i := by
      ring
    rw [this]
    rcases t1.lt_or_eq with h | h
    · exact add_pos_of_nonneg_of_pos (mul_nonneg t0 hx.le) (mul_pos (sub_pos.2 h) c)
    · rw [h, one_mul, sub_self, zero_mul, add_zero]
      exact hx
  unfold trace
  split_ifs
  · exact ⟨mix _ l, mix _ r⟩
  · exact ⟨l, r⟩

/-- **C124** (every order) For every order in time and space it is enough that no density exceeds the smallest more than
fourfold. -/
theorem C124_mild (C : Consts K) (hg : 1 < C.gamma) (hq : IsSqrt C.sqrt) (htiny : 0 ≤ C.tiny) (n : ℕ) (hn : 1 ≤ n) (ty : BCType)
    (hty : ty = .periodic ∧ 4 ≤ n ∨ ty = .free) (cfl tend : K) (time space : ℕ) (hs : 1 ≤ space ∧ space ≤ 5) (p lo : K)
    (hp : 0 < p) (hlo : 0 < lo) (u : ℕ → Col K)
    (hu : ∀ i, i < n → (lo ≤ (u i).r0 ∧ (u i).r0 ≤ 4 * lo) ∧ (u i).r1 = 0 ∧ (u i).r2 = p / (C.gamma - 1)) (fuel : ℕ) (t : K)
    (l : List (K × (ℕ → Col K))) (h : loop C n cfl tend ty .hllc time space fuel t u = .ok l) :
    ∀ x ∈ l, ∀ i, i < n → x.2 i = u i := by
  have range : ∀ j : ℤ, 0 ≤ j → j < n + 8 →
      lo ≤ (primCols C n ty (embed n u) j).r0 ∧ (primCols C n ty (embed n u) j).r0 ≤ 4 * lo := by
    intro j h0 h1
    obtain ⟨-, -, i, hi, e⟩ := rest_column C hg hn hty p u (fun i hi => (hu i hi).2) j h0 h1
    rw [e]
    exact (hu i hi).1
  have tr := fun (j : ℤ) (h0 : 2 ≤ j) (h1 : j ≤ n + 5) => mild_trace C.tiny htiny space hs.1 hs.2 lo hlo
    (rowsOf (primCols C n ty (embed n u)) 0) (rowsOf (markers n ty (primCols C n ty (embed n u))) 0) j
    fun k k0 k1 => range (j + k) (by omega) (by omega)
  exact C124_rest C hg hq n hn ty hty cfl tend time space p hp u (fun i hi => (hu i hi).2)
    (fun k k0 k1 => ⟨(tr (k + 3) (by omega) (by omega)).1, (tr (k + 4) (by omega) (by omega)).2⟩) fuel t l h

/-- **C124** (llf, violated) With llf the same does not hold: at first order the density of a cell with an equal left and an
unequal right neighbour starts to change, towards the right neighbour. -/
theorem C124_llf_violated (C : Consts K) (hg : 1 < C.gamma) (hq : IsSqrt C.sqrt) (n : ℕ) (ty : BCType) (p : K) (hp : 0 < p)
    (u : ℕ → Col K) (hu : ∀ i, i < n → 0 < (u i).r0 ∧ (u i).r1 = 0 ∧ (u i).r2 = p / (C.gamma - 1)) (i : ℕ) (h1 : 1 ≤ i)
    (hi : i + 1 < n) (hl : (u (i - 1)).r0 = (u i).r0) (hty : ty = .periodic ∧ 4 ≤ n ∨ ty = .free)
    (r : (ℕ → Col K) × (ℤ → Col K)) (h : rhs C n ty .llf 1 u = .ok r) :
    ((u i).r0 < (u (i + 1)).r0 → 0 < (r.1 i).r0) ∧ ((u (i + 1)).r0 < (u i).r0 → (r.1 i).r0 < 0) := by
  obtain ⟨f, hf, -, e2, e1⟩ := rhs_ok h
  cases hf
  have hg0 : C.gamma - 1 ≠ 0 := (sub_pos.2 hg).ne'
  have col : ∀ k : ℕ, k < n → r.2 ((k : ℤ) + 4) = ⟨(u k).r0, 0, p⟩ := by
    intro k hk
    have : setBC n ty (embed n u) ((k : ℤ) + 4) = u k := by
      have e : embed n u ((k : ℤ) + 4) = u k := by
        rw [embed, if_pos ⟨by omega, by omega⟩]
        congr 1
        omega
      rcases hty with ⟨rfl, h4⟩ | rfl
      · rw [setBC_behind h4 _ _ (by omega) (by omega), ← e, behind, add_sub_cancel_right,
          Int.emod_eq_of_lt (by omega) (by omega), add_comm]
      · rw [setBC_free (by omega), if_neg (by omega), if_neg (by omega), e]
    obtain ⟨-, z1, z2⟩ := hu k hk
    rw [e2, primCols, this]
    simp only [consToPrim, z1, z2, zero_div]
    rw [zero_pow two_ne_zero, mul_zero, sub_zero, mul_div_cancel₀ _ hg0]
  have tr : ∀ j : ℤ, traceCols C.tiny 1 r.2 (markers n ty r.2) j = (r.2 j, r.2 j) := fun _ => rfl
  have hn : (0 : K) < n := by
    have : 0 < n := by omega
    exact_mod_cast this
  have pa : 0 < C.gamma * p / (u i).r0 := div_pos (mul_pos (one_pos.trans hg) hp) (hu i (by omega)).1
  obtain ⟨c0, c1⟩ := hq _ pa.le
  have hc : 0 < C.sqrt (C.gamma * p / (u i).r0) := lt_of_le_of_ne c0 fun h => by
    rw [← h, mul_zero] at c1
    exact pa.ne c1
  have hm : 0 < max (C.sqrt (C.gamma * p / (u i).r0)) (C.sqrt (C.gamma * p / (u (i + 1)).r0)) := lt_max_of_lt_left hc
  have key : (r.1 i).r0 = n * (1 / 2) * max (C.sqrt (C.gamma * p / (u i).r0)) (C.sqrt (C.gamma * p / (u (i + 1)).r0)) *
      ((u (i + 1)).r0 - (u i).r0) := by
    have d0 : r.2 ((i : ℤ) + 3) = ⟨(u i).r0, 0, p⟩ := by
      rw [show (i : ℤ) + 3 = ((i - 1 : ℕ) : ℤ) + 4 by omega, col (i - 1) (by omega), hl]
    have d1 := col i (by omega)
    have d2 : r.2 ((i : ℤ) + 1 + 4) = ⟨(u (i + 1)).r0, 0, p⟩ := by
      rw [← col (i + 1) hi]
      push_cast
      rfl
    rw [e1]
    simp only [slopeOf, tr]
    rw [show (i : ℤ) + 1 + 3 = i + 4 by ring, d0, d1, d2]
    simp only [Romain.llf, primToCons, primToFlux, abs_zero, zero_add, mul_zero, sub_self, zero_sub, sub_zero, add_zero]
    field_simp
  rw [key]
  have hpos := mul_pos (mul_pos hn (one_half_pos (α := K))) hm
  exact ⟨fun h => mul_pos hpos (sub_pos.2 h), fun h => mul_neg_of_pos_of_neg hpos (sub_neg.2 h)⟩

/-! ### Cases that meet the hypotheses -/

/-- A run with known arguments returns. -/
theorem reference_returns (C : Consts K) (n : ℕ) (cfl tend : K) (ty : BCType) (rs : Solver) (hrs : rs = .llf ∨ rs = .hllc)
    (time space : ℕ) (ht : 1 ≤ time ∧ time ≤ 4) (hs : 1 ≤ space ∧ space ≤ 5) (fuel : ℕ) :
    ∀ (t : K) (u : ℕ → Col K), ∃ l, loop C n cfl tend ty rs time space fuel t u = .ok l := by
  have hf : ∀ v, ∃ r, rhs C n ty rs space v = .ok r := fun v => (rhs_iff C n ty rs space v).2 ⟨hrs, hs⟩
  induction fuel with
  | zero => exact fun _ _ => ⟨_, rfl⟩
  | succ fuel ih =>
    intro t u
    rw [loop]
    split_ifs
    · obtain ⟨r, hr⟩ := hf u
      obtain ⟨v, hv⟩ := (advance_iff _ hf time (cfl * (1 / (n : K)) / maxSpeed C n r.2) u r.1).2 ht
      obtain ⟨l', e'⟩ := ih (t + cfl * (1 / (n : K)) / maxSpeed C n r.2) v
      simp only [step, hr, hv, e', Except.bind, bind, pure, Except.pure]
      exact ⟨_, rfl⟩
    · exact ⟨_, rfl⟩

/-- The constants of the file over the real numbers. -/
noncomputable def restConsts : Consts ℝ := ⟨14 / 10, 1 / 10 ^ 15, Real.sqrt, Real.sin⟩

theorem restConsts_sqrt : IsSqrt restConsts.sqrt := fun x hx => ⟨Real.sqrt_nonneg x, Real.mul_self_sqrt hx⟩

/-- A dense slab in thin gas of the same pressure: hllc keeps it forever. -/
example (fuel : ℕ) : ∃ l, loop restConsts 100 (8 / 10) 10 .free .hllc 4 1 fuel 0
      (fun i => if 40 ≤ i ∧ i < 60 then ⟨8, 0, 5 / 2⟩ else ⟨1, 0, 5 / 2⟩) = .ok l ∧
    ∀ x ∈ l, (x.2 50).r0 = 8 ∧ (x.2 39).r0 = 1 := by
  obtain ⟨l, h⟩ := reference_returns restConsts 100 (8 / 10) 10 .free .hllc (.inr rfl) 4 1 (by omega) (by omega) fuel 0
    (fun i => if 40 ≤ i ∧ i < 60 then ⟨8, 0, 5 / 2⟩ else ⟨1, 0, 5 / 2⟩)
  refine ⟨l, h, fun x hx => ?_⟩
  have e := C124_first restConsts (by norm_num [restConsts]) restConsts_sqrt 100 (by norm_num) .free (.inr rfl) _ _ 4 1 one_pos _
    (fun i _ => by split_ifs <;> norm_num [restConsts]) fuel 0 l h x hx
  rw [e 50 (by norm_num), e 39 (by norm_num)]
  norm_num

/-- At fifth order with four stages, for a slab three times as dense in a periodic tube. -/
example (fuel : ℕ) : ∃ l, loop restConsts 100 (8 / 10) 10 .periodic .hllc 4 5 fuel 0
      (fun i => if 40 ≤ i ∧ i < 60 then ⟨3, 0, 5 / 2⟩ else ⟨1, 0, 5 / 2⟩) = .ok l ∧
    ∀ x ∈ l, (x.2 50).r0 = 3 ∧ (x.2 39).r0 = 1 := by
  obtain ⟨l, h⟩ := reference_returns restConsts 100 (8 / 10) 10 .periodic .hllc (.inr rfl) 4 5 (by omega) (by omega) fuel 0
    (fun i => if 40 ≤ i ∧ i < 60 then ⟨3, 0, 5 / 2⟩ else ⟨1, 0, 5 / 2⟩)
  refine ⟨l, h, fun x hx => ?_⟩
  have e := C124_mild restConsts (by norm_num [restConsts]) restConsts_sqrt (by norm_num [restConsts]) 100 (by norm_num) .periodic
    (.inl ⟨rfl, by norm_num⟩) _ _ 4 5 (by omega) 1 1 one_pos one_pos _
    (fun i _ => by split_ifs <;> norm_num [restConsts]) fuel 0 l h x hx
  rw [e 50 (by norm_num), e 39 (by norm_num)]
  norm_num

/-- With llf the last thin cell before the slab gains mass from the start. -/
example (r : (ℕ → Col ℝ) × (ℤ → Col ℝ)) (h : rhs restConsts 100 .free .llf 1
      (fun i => if 40 ≤ i ∧ i < 60 then ⟨8, 0, 5 / 2⟩ else ⟨1, 0, 5 / 2⟩) = .ok r) : 0 < (r.1 39).r0 :=
  (C124_llf_violated restConsts (by norm_num [restConsts]) restConsts_sqrt 100 .free 1 one_pos _
    (fun i _ => by split_ifs <;> norm_num [restConsts]) 39 (by norm_num) (by norm_num) (by norm_num) (.inr rfl) r h).1
    (by norm_num)

end FVHOE
