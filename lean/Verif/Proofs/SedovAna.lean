import Mathlib.Analysis.SpecialFunctions.Pow.Deriv
import Mathlib.Analysis.Calculus.Deriv.MeanValue
import Mathlib.Analysis.Calculus.Deriv.Inverse
import Mathlib.Topology.Order.IntermediateValue
import Mathlib.Topology.Order.MonotoneContinuity
import Mathlib.Tactic.FieldSimp
import Mathlib.Tactic.Linarith
import Mathlib.Tactic.IntervalCases
import Verif.Model.SedovAna

/-!
The profile of `examples/sedov.py`: signs of the bases, logarithmic derivatives, the ordinary differential equations, the
radius as a function of the parameter and its inverse.
-/

set_option linter.unusedSectionVars false

namespace FVHOE

namespace SedovAna

/-- The cases in which nothing in `sedovana` divides by zero and the gas is physical. -/
structure Valid (g : ℝ) (n : ℕ) : Prop where
  one : 1 < g
  two : g ≠ 2
  dim1 : 1 ≤ n
  dim3 : n ≤ 3
  seven : n = 3 → g < 7

variable {g : ℝ} {n : ℕ}

theorem Valid.g0 (h : Valid g n) : 0 < g := lt_trans one_pos h.one

theorem Valid.den (h : Valid g n) : 0 < ((n : ℝ) + 2) * (g + 1) - 2 * (2 + n * (g - 1)) := by
  obtain ⟨h1, _, h3, h4, h5⟩ := h
  interval_cases n
  · push_cast; linarith
  · push_cast; linarith
  · have := h5 rfl
    push_cast; linarith

theorem Valid.k (h : Valid g n) : 0 < 2 + (n : ℝ) * (g - 1) := by
  have : (0 : ℝ) ≤ n * (g - 1) := mul_nonneg (Nat.cast_nonneg _) (by linarith [h.one])
  linarith

theorem Valid.s (h : Valid g n) : 0 < 2 * (g - 1) + (n : ℝ) := by
  have : (0 : ℝ) ≤ n := Nat.cast_nonneg _
  linarith [h.one]

theorem vmin_pos (h : Valid g n) : 0 < vmin g n := by
  have := h.g0
  unfold vmin
  positivity

theorem vmin_lt_vmax (h : Valid g n) : vmin g n < vmax g n := by
  have h1 := h.one
  have h0 := h.g0
  unfold vmin vmax
  rw [div_div, div_div, div_lt_div_iff₀ (by positivity) (by positivity)]
  have : (0 : ℝ) < n + 2 := by positivity
  nlinarith

/-- The signs, for a parameter in the range. -/
theorem base_pos (h : Valid g n) {v : ℝ} (h1 : vmin g n < v) (h2 : v ≤ vmax g n) :
    0 < v ∧ 0 < ((n : ℝ) + 2) * g / 2 * v - 1 ∧ 0 < 1 - ((n : ℝ) + 2) / 2 * v ∧ 0 < 1 - (2 + (n : ℝ) * (g - 1)) / 2 * v := by
  have hg := h.g0
  have hg1 := h.one
  have hn : (0 : ℝ) < n + 2 := by positivity
  have hv : 0 < v := lt_trans (vmin_pos h) h1
  unfold vmin at h1
  rw [div_div, div_lt_iff₀ (by positivity)] at h1
  unfold vmax at h2
  rw [div_div, le_div_iff₀ (by positivity)] at h2
  refine ⟨hv, by linarith, ?_, ?_⟩
  · have : v * ((n + 2) * 2) < v * ((n + 2) * (g + 1)) := by
      apply mul_lt_mul_of_pos_left _ hv
      apply mul_lt_mul_of_pos_left _ hn
      linarith
    linarith
  · have : v * (2 * (2 + n * (g - 1))) < v * ((n + 2) * (g + 1)) := mul_lt_mul_of_pos_left (by linarith [h.den]) hv
    linarith

theorem bA_pos (h : Valid g n) {v : ℝ} (hv : 0 < v) : 0 < bA g n v := by
  have := h.g0
  unfold bA
  positivity

theorem bB_pos (h : Valid g n) {v : ℝ} (h1 : vmin g n < v) (h2 : v ≤ vmax g n) : 0 < bB g n v := by
  have := h.g0
  have := h.one
  exact mul_pos (div_pos (by linarith) (by linarith)) (base_pos h h1 h2).2.1

theorem bC_pos (h : Valid g n) {v : ℝ} (h1 : vmin g n < v) (h2 : v ≤ vmax g n) : 0 < bC g n v := by
  have := h.g0
  have := h.one
  exact mul_pos (div_pos (by linarith) (by linarith)) (base_pos h h1 h2).2.2.1

theorem bD_pos (h : Valid g n) {v : ℝ} (h1 : vmin g n < v) (h2 : v ≤ vmax g n) : 0 < bD g n v := by
  have := h.g0
  have := h.den
  exact mul_pos (div_pos (by positivity) this) (base_pos h h1 h2).2.2.2

/-! ### At the shock -/

theorem bases_vmax (h : Valid g n) : bA g n (vmax g n) = 1 ∧ bB g n (vmax g n) = 1 ∧ bC g n (vmax g n) = 1 ∧ bD g n (vmax g n) = 1 := by
  have hg := h.g0
  have hg1 : g - 1 ≠ 0 := by linarith [h.one]
  have hgp : g + 1 ≠ 0 := by linarith
  have hn : (n : ℝ) + 2 ≠ 0 := by positivity
  have hd := h.den.ne'
  unfold bA bB bC bD vmax
  refine ⟨by field_simp, ?_, ?_, ?_⟩
  · field_simp; ring
  · field_simp; ring
  · field_simp
    ring

theorem profile_vmax (h : Valid g n) : r1 g n (vmax g n) = 1 ∧ d1 g n (vmax g n) = 1 ∧ u1 g n (vmax g n) = 1 ∧ p1 g n (vmax g n) = 1 := by
  obtain ⟨hA, hB, hC, hD⟩ := bases_vmax h
  have hr : r1 g n (vmax g n) = 1 := by unfold r1; rw [hA, hB, hD]; simp
  refine ⟨hr, ?_, ?_, ?_⟩
  · unfold d1; rw [hB, hC, hD]; simp
  · unfold u1; rw [hr, mul_one]; exact hA
  · unfold p1; rw [hA, hC, hD]; simp

/-! ### Logarithmic derivatives -/

/-- `L` is the derivative of the logarithm of `f` at `v`. -/
def LogD (f : ℝ → ℝ) (L v : ℝ) : Prop := HasDerivAt f (f v * L) v

theorem LogD.mul {f₁ f₂ : ℝ → ℝ} {L₁ L₂ v : ℝ} (h₁ : LogD f₁ L₁ v) (h₂ : LogD f₂ L₂ v) :
    LogD (fun x => f₁ x * f₂ x) (L₁ + L₂) v := by
  refine HasDerivAt.congr_deriv (HasDerivAt.mul h₁ h₂) ?_
  simp only
  ring

theorem LogD.rpow {f : ℝ → ℝ} {L v : ℝ} (h : LogD f L v) (hf : 0 < f v) (a : ℝ) : LogD (fun x => f x ^ a) (a * L) v := by
  have := HasDerivAt.rpow_const (p := a) h (Or.inl hf.ne')
  unfold LogD
  convert this using 1
  rw [Real.rpow_sub_one hf.ne']
  field_simp

theorem logD_linear (c a b v : ℝ) (h : a + b * v ≠ 0) : LogD (fun x => c * (a + b * x)) (b / (a + b * v)) v := by
  unfold LogD
  have h1 : HasDerivAt (fun x : ℝ => a + b * x) b v := by simpa using ((hasDerivAt_id v).const_mul b).const_add a
  refine HasDerivAt.congr_deriv (h1.const_mul c) ?_
  simp only
  field_simp

variable (g n) in
/-- The logarithmic derivatives of the profile. -/
noncomputable def Lr (v : ℝ) : ℝ := -2 / (2 + n) * (1 / v) + -a2 g n * (((n : ℝ) + 2) * g / 2 / (((n : ℝ) + 2) * g / 2 * v - 1)) +
  -a1 g n * (-((2 + (n : ℝ) * (g - 1)) / 2) / (1 - (2 + (n : ℝ) * (g - 1)) / 2 * v))

variable (g n) in
noncomputable def Ld (v : ℝ) : ℝ := a3 g n * (((n : ℝ) + 2) * g / 2 / (((n : ℝ) + 2) * g / 2 * v - 1)) +
  a5 g * (-(((n : ℝ) + 2) / 2) / (1 - ((n : ℝ) + 2) / 2 * v)) +
  a4 g n * (-((2 + (n : ℝ) * (g - 1)) / 2) / (1 - (2 + (n : ℝ) * (g - 1)) / 2 * v))

variable (g n) in
noncomputable def Lp (v : ℝ) : ℝ := 2 * n / (2 + n) * (1 / v) + (a5 g + 1) * (-(((n : ℝ) + 2) / 2) / (1 - ((n : ℝ) + 2) / 2 * v)) +
  (a4 g n - 2 * a1 g n) * (-((2 + (n : ℝ) * (g - 1)) / 2) / (1 - (2 + (n : ℝ) * (g - 1)) / 2 * v))

theorem logD_bases (h : Valid g n) {v : ℝ} (h1 : vmin g n < v) (h2 : v ≤ vmax g n) :
    LogD (bA g n) (1 / v) v ∧ LogD (bB g n) (((n : ℝ) + 2) * g / 2 / (((n : ℝ) + 2) * g / 2 * v - 1)) v ∧
    LogD (bC g n) (-(((n : ℝ) + 2) / 2) / (1 - ((n : ℝ) + 2) / 2 * v)) v ∧
    LogD (bD g n) (-((2 + (n : ℝ) * (g - 1)) / 2) / (1 - (2 + (n : ℝ) * (g - 1)) / 2 * v)) v := by
  obtain ⟨hv, hb, hc, he⟩ := base_pos h h1 h2
  refine ⟨?_, ?_, ?_, ?_⟩
  · have := logD_linear (((n : ℝ) + 2) * (g + 1) / 4) 0 1 v (by simpa using hv.ne')
    simp only [zero_add, one_mul] at this
    exact this
  · have := logD_linear ((g + 1) / (g - 1)) (-1) (((n : ℝ) + 2) * g / 2) v (by linarith)
    convert this using 2
    · unfold bB; ring
    · ring
  · have := logD_linear ((g + 1) / (g - 1)) 1 (-(((n : ℝ) + 2) / 2)) v (by linarith)
    convert this using 2
    · unfold bC; ring
    · ring
  · have := logD_linear (((n : ℝ) + 2) * (g + 1) / (((n : ℝ) + 2) * (g + 1) - 2 * (2 + n * (g - 1)))) 1
      (-((2 + (n : ℝ) * (g - 1)) / 2)) v (by linarith)
    convert this using 2
    · unfold bD; ring
    · ring

theorem logD_profile (h : Valid g n) {v : ℝ} (h1 : vmin g n < v) (h2 : v ≤ vmax g n) :
    LogD (r1 g n) (Lr g n v) v ∧ LogD (d1 g n) (Ld g n v) v ∧ LogD (p1 g n) (Lp g n v) v := by
  obtain ⟨hA, hB, hC, hD⟩ := logD_bases h h1 h2
  have pA := bA_pos h (base_pos h h1 h2).1
  have pB := bB_pos h h1 h2
  have pC := bC_pos h h1 h2
  have pD := bD_pos h h1 h2
  exact ⟨((hA.rpow pA _).mul (hB.rpow pB _)).mul (hD.rpow pD _), ((hB.rpow pB _).mul (hC.rpow pC _)).mul (hD.rpow pD _),
    ((hA.rpow pA _).mul (hC.rpow pC _)).mul (hD.rpow pD _)⟩

/-! ### The ordinary differential equations -/

theorem rat_Lr (N g v k s b e m a1 a2 : ℝ) (hk : k = 2 + N * (g - 1)) (hs : s = 2 * (g - 1) + N) (hm : m = N + 2)
    (hb : b = m * g / 2 * v - 1) (he : e = 1 - k / 2 * v) (k0 : k ≠ 0) (s0 : s ≠ 0) (m0 : m ≠ 0) (b0 : b ≠ 0) (e0 : e ≠ 0)
    (g0 : g ≠ 0) (v0 : v ≠ 0) (h2 : a2 = (1 - g) / s) (h1 : a1 = m * g / k * (2 * N * (2 - g) / g / m ^ 2 - a2)) :
    -2 / m * (1 / v) + -a2 * (m * g / 2 / b) + -a1 * (-(k / 2) / e) =
      (2 / m - (g + 1) * v + m * g * (g + 1) / 4 * v ^ 2) / (v * b * e) := by
  subst h1 h2
  field_simp
  subst hb he hk hs hm
  ring

theorem rat_mass (N g v k s b c e m a1 a2 a3 a4 a5 L : ℝ) (hk : k = 2 + N * (g - 1)) (hs : s = 2 * (g - 1) + N)
    (hm : m = N + 2) (hb : b = m * g / 2 * v - 1) (hc : c = 1 - m / 2 * v) (he : e = 1 - k / 2 * v)
    (k0 : k ≠ 0) (s0 : s ≠ 0) (m0 : m ≠ 0) (b0 : b ≠ 0) (c0 : c ≠ 0) (e0 : e ≠ 0) (g0 : g ≠ 0) (v0 : v ≠ 0) (g2 : 2 - g ≠ 0) (h2 : a2 = (1 - g) / s)
    (h1 : a1 = m * g / k * (2 * N * (2 - g) / g / m ^ 2 - a2))
    (h3 : a3 = N / s) (h4 : a4 = a1 * m / (2 - g)) (h5 : a5 = -2 / (2 - g))
    (hL : L = (2 / m - (g + 1) * v + m * g * (g + 1) / 4 * v ^ 2) / (v * b * e)) :
    (v - 2 / m) * (a3 * (m * g / 2 / b) + a5 * (-(m / 2) / c) + a4 * (-(k / 2) / e)) + 1 + N * v * L = 0 := by
  have hv : v - 2 / m = - (2 / m) * c := by subst hc; field_simp; ring
  rw [hv]
  subst h4 h1 h2 h3 h5 hL
  field_simp
  subst hb hc he hk hs hm
  ring

theorem rat_energy (N g v k s b c e m a1 a2 a4 a5 L : ℝ) (hk : k = 2 + N * (g - 1)) (hs : s = 2 * (g - 1) + N)
    (hm : m = N + 2) (hb : b = m * g / 2 * v - 1) (hc : c = 1 - m / 2 * v) (he : e = 1 - k / 2 * v)
    (k0 : k ≠ 0) (s0 : s ≠ 0) (m0 : m ≠ 0) (b0 : b ≠ 0) (c0 : c ≠ 0) (e0 : e ≠ 0) (g0 : g ≠ 0) (v0 : v ≠ 0) (g2 : 2 - g ≠ 0) (h2 : a2 = (1 - g) / s)
    (h1 : a1 = m * g / k * (2 * N * (2 - g) / g / m ^ 2 - a2))
    (h4 : a4 = a1 * m / (2 - g)) (h5 : a5 = -2 / (2 - g))
    (hL : L = (2 / m - (g + 1) * v + m * g * (g + 1) / 4 * v ^ 2) / (v * b * e)) :
    (2 * (2 / m) - 2) * L + (v - 2 / m) * (2 * N / m * (1 / v) + (a5 + 1) * (-(m / 2) / c) + (a4 - 2 * a1) * (-(k / 2) / e)) +
      g * (N * v * L + 1) = 0 := by
  have hv : v - 2 / m = - (2 / m) * c := by subst hc; field_simp; ring
  rw [hv]
  subst h4 h1 h2 h5 hL
  field_simp
  subst hb hc he hk hs hm
  ring

theorem rat_momentum (N g v k s b c e m a1 a2 a4 a5 L : ℝ) (hk : k = 2 + N * (g - 1)) (hs : s = 2 * (g - 1) + N)
    (hm : m = N + 2) (hb : b = m * g / 2 * v - 1) (hc : c = 1 - m / 2 * v) (he : e = 1 - k / 2 * v)
    (k0 : k ≠ 0) (s0 : s ≠ 0) (m0 : m ≠ 0) (b0 : b ≠ 0) (c0 : c ≠ 0) (e0 : e ≠ 0) (g0 : g ≠ 0) (v0 : v ≠ 0) (g2 : 2 - g ≠ 0) (h2 : a2 = (1 - g) / s)
    (h1 : a1 = m * g / k * (2 * N * (2 - g) / g / m ^ 2 - a2))
    (h4 : a4 = a1 * m / (2 - g)) (h5 : a5 = -2 / (2 - g))
    (hL : L = (2 / m - (g + 1) * v + m * g * (g + 1) / 4 * v ^ 2) / (v * b * e)) :
    v ^ 2 * L - v * L + v - 2 / m + (g - 1) / 2 * v ^ 2 * c / b *
      (2 * N / m * (1 / v) + (a5 + 1) * (-(m / 2) / c) + (a4 - 2 * a1) * (-(k / 2) / e)) = 0 := by
  subst h4 h1 h2 h5 hL
  field_simp
  subst hb hc he hk hs hm
  ring


/-- The names of the rational identities, at a parameter of the range. -/
theorem Lr_eq (h : Valid g n) {v : ℝ} (h1 : vmin g n < v) (h2 : v ≤ vmax g n) :
    Lr g n v = (2 / ((n : ℝ) + 2) - (g + 1) * v + ((n : ℝ) + 2) * g * (g + 1) / 4 * v ^ 2) /
      (v * (((n : ℝ) + 2) * g / 2 * v - 1) * (1 - (2 + (n : ℝ) * (g - 1)) / 2 * v)) := by
  obtain ⟨hv, hb, hc, he⟩ := base_pos h h1 h2
  have := rat_Lr n g v (2 + (n : ℝ) * (g - 1)) (2 * (g - 1) + (n : ℝ)) _ _ ((n : ℝ) + 2) (a1 g n) (a2 g n) rfl rfl rfl rfl rfl
    h.k.ne' h.s.ne' (by positivity) hb.ne' he.ne' h.g0.ne' hv.ne' rfl rfl
  rw [← this]
  unfold Lr
  rw [add_comm (2 : ℝ) (n : ℝ)]

theorem a5_eq : a5 g = -2 / (2 - g) := by
  unfold a5
  rw [← neg_sub 2 g, div_neg, neg_div]

theorem ode_mass (h : Valid g n) {v : ℝ} (h1 : vmin g n < v) (h2 : v ≤ vmax g n) :
    (v - 2 / ((n : ℝ) + 2)) * Ld g n v + 1 + n * v * Lr g n v = 0 := by
  obtain ⟨hv, hb, hc, he⟩ := base_pos h h1 h2
  exact rat_mass n g v (2 + (n : ℝ) * (g - 1)) (2 * (g - 1) + (n : ℝ)) _ _ _ ((n : ℝ) + 2) (a1 g n) (a2 g n) (a3 g n)
    (a4 g n) (a5 g) _ rfl rfl rfl rfl rfl rfl h.k.ne' h.s.ne' (by positivity) hb.ne' hc.ne' he.ne' h.g0.ne' hv.ne'
    (sub_ne_zero.2 h.two.symm) rfl rfl rfl rfl a5_eq (Lr_eq h h1 h2)

theorem ode_energy (h : Valid g n) {v : ℝ} (h1 : vmin g n < v) (h2 : v ≤ vmax g n) :
    (2 * (2 / ((n : ℝ) + 2)) - 2) * Lr g n v + (v - 2 / ((n : ℝ) + 2)) * Lp g n v + g * (n * v * Lr g n v + 1) = 0 := by
  obtain ⟨hv, hb, hc, he⟩ := base_pos h h1 h2
  have := rat_energy n g v (2 + (n : ℝ) * (g - 1)) (2 * (g - 1) + (n : ℝ)) _ _ _ ((n : ℝ) + 2) (a1 g n) (a2 g n)
    (a4 g n) (a5 g) _ rfl rfl rfl rfl rfl rfl h.k.ne' h.s.ne' (by positivity) hb.ne' hc.ne' he.ne' h.g0.ne' hv.ne'
    (sub_ne_zero.2 h.two.symm) rfl rfl rfl a5_eq (Lr_eq h h1 h2)
  unfold Lp
  rw [add_comm (2 : ℝ) (n : ℝ)]
  exact this

theorem ode_momentum (h : Valid g n) {v : ℝ} (h1 : vmin g n < v) (h2 : v ≤ vmax g n) :
    v ^ 2 * Lr g n v - v * Lr g n v + v - 2 / ((n : ℝ) + 2) + (g - 1) / 2 * v ^ 2 * (1 - ((n : ℝ) + 2) / 2 * v) /
      (((n : ℝ) + 2) * g / 2 * v - 1) * Lp g n v = 0 := by
  obtain ⟨hv, hb, hc, he⟩ := base_pos h h1 h2
  have := rat_momentum n g v (2 + (n : ℝ) * (g - 1)) (2 * (g - 1) + (n : ℝ)) _ _ _ ((n : ℝ) + 2) (a1 g n) (a2 g n)
    (a4 g n) (a5 g) _ rfl rfl rfl rfl rfl rfl h.k.ne' h.s.ne' (by positivity) hb.ne' hc.ne' he.ne' h.g0.ne' hv.ne'
    (sub_ne_zero.2 h.two.symm) rfl rfl rfl a5_eq (Lr_eq h h1 h2)
  unfold Lp
  rw [add_comm (2 : ℝ) (n : ℝ)]
  exact this

/-! ### The profile -/

theorem r1_pos (h : Valid g n) {v : ℝ} (h1 : vmin g n < v) (h2 : v ≤ vmax g n) : 0 < r1 g n v := by
  have pA := bA_pos h (base_pos h h1 h2).1
  have pB := bB_pos h h1 h2
  have pD := bD_pos h h1 h2
  unfold r1
  positivity

theorem d1_pos (h : Valid g n) {v : ℝ} (h1 : vmin g n < v) (h2 : v ≤ vmax g n) : 0 < d1 g n v := by
  have pB := bB_pos h h1 h2
  have pC := bC_pos h h1 h2
  have pD := bD_pos h h1 h2
  unfold d1
  positivity

theorem p1_pos (h : Valid g n) {v : ℝ} (h1 : vmin g n < v) (h2 : v ≤ vmax g n) : 0 < p1 g n v := by
  have pA := bA_pos h (base_pos h h1 h2).1
  have pC := bC_pos h h1 h2
  have pD := bD_pos h h1 h2
  unfold p1
  positivity

/-- The first integral. -/
theorem p1_eq (h : Valid g n) {v : ℝ} (h1 : vmin g n < v) (h2 : v ≤ vmax g n) :
    p1 g n v * (8 / ((n : ℝ) + 2) ^ 2 / (g + 1)) = (g - 1) / 2 * v ^ 2 * (1 - ((n : ℝ) + 2) / 2 * v) /
      (((n : ℝ) + 2) * g / 2 * v - 1) * (d1 g n v * ((g + 1) / (g - 1)) * r1 g n v ^ 2) := by
  obtain ⟨hv, hb, hc, he⟩ := base_pos h h1 h2
  have pA := bA_pos h hv
  have pB := bB_pos h h1 h2
  have pC := bC_pos h h1 h2
  have pD := bD_pos h h1 h2
  have hn : (0 : ℝ) < n + 2 := by positivity
  have hs := h.s
  have eA : bA g n v ^ (2 * n / (2 + n) : ℝ) = bA g n v ^ 2 * (bA g n v ^ (-2 / (2 + n) : ℝ)) ^ 2 := by
    rw [← Real.rpow_natCast, ← Real.rpow_natCast, ← Real.rpow_mul pA.le, ← Real.rpow_add pA]
    congr 1
    have : (2 + (n : ℝ)) ≠ 0 := by positivity
    push_cast
    field_simp
    ring
  have eB : bB g n v ^ a3 g n * (bB g n v ^ (-a2 g n)) ^ 2 = bB g n v := by
    rw [← Real.rpow_natCast, ← Real.rpow_mul pB.le, ← Real.rpow_add pB]
    conv_rhs => rw [← Real.rpow_one (bB g n v)]
    congr 1
    unfold a3 a2
    push_cast
    field_simp
    ring
  have eC : bC g n v ^ (a5 g + 1) = bC g n v ^ a5 g * bC g n v := Real.rpow_add_one pC.ne' _
  have eD : bD g n v ^ (a4 g n - 2 * a1 g n) = bD g n v ^ a4 g n * (bD g n v ^ (-a1 g n)) ^ 2 := by
    rw [← Real.rpow_natCast, ← Real.rpow_mul pD.le, ← Real.rpow_add pD]
    congr 1
    push_cast
    ring
  have key : p1 g n v * bB g n v = bA g n v ^ 2 * bC g n v * (d1 g n v * r1 g n v ^ 2) := by
    conv_lhs => rw [← eB]
    unfold p1 d1 r1
    rw [eA, eC, eD]
    ring
  have hg1 : 0 < g - 1 := by linarith [h.one]
  have hgp : 0 < g + 1 := by linarith [h.g0]
  have hp : p1 g n v = bA g n v ^ 2 * bC g n v / bB g n v * (d1 g n v * r1 g n v ^ 2) := by
    field_simp
    linarith [key]
  rw [hp]
  generalize d1 g n v = dd
  generalize r1 g n v = rr
  unfold bA bB bC
  generalize hbb : ((n : ℝ) + 2) * g / 2 * v - 1 = b at *
  generalize 1 - ((n : ℝ) + 2) / 2 * v = c at *
  field_simp
  ring

theorem Lr_pos (h : Valid g n) {v : ℝ} (h1 : vmin g n < v) (h2 : v ≤ vmax g n) : 0 < Lr g n v := by
  obtain ⟨hv, hb, hc, he⟩ := base_pos h h1 h2
  rw [Lr_eq h h1 h2]
  refine div_pos ?_ (by positivity)
  have hm : (0 : ℝ) < n + 2 := by positivity
  have hg := h.one
  have e : 2 / ((n : ℝ) + 2) - (g + 1) * v + ((n : ℝ) + 2) * g * (g + 1) / 4 * v ^ 2 =
      2 / ((n : ℝ) + 2) * (1 - ((n : ℝ) + 2) * (g + 1) / 4 * v) ^ 2 +
        ((n : ℝ) + 2) * (g + 1) * (g - 1) / 8 * v ^ 2 := by
    field_simp
    ring
  rw [e]
  have : 0 < ((n : ℝ) + 2) * (g + 1) * (g - 1) / 8 * v ^ 2 := by
    have : 0 < g - 1 := by linarith
    positivity
  positivity

theorem r1_vmin (h : Valid g n) : r1 g n (vmin g n) = 0 := by
  have hg := h.g0
  have hB : bB g n (vmin g n) = 0 := by
    unfold bB vmin
    have : (n : ℝ) + 2 ≠ 0 := by positivity
    field_simp
    ring
  have ha : -a2 g n ≠ 0 := by
    unfold a2
    exact neg_ne_zero.2 (div_ne_zero (by linarith [h.one]) h.s.ne')
  unfold r1
  rw [hB, Real.zero_rpow ha]
  ring

theorem r1_continuous (h : Valid g n) : ContinuousOn (r1 g n) (Set.Icc (vmin g n) (vmax g n)) := by
  have hg := h.g0
  have hd := h.den
  unfold r1
  refine ContinuousOn.mul (ContinuousOn.mul ?_ ?_) ?_
  · refine ContinuousOn.rpow_const (by unfold bA; fun_prop) fun v hv => Or.inl ?_
    exact (bA_pos h (lt_of_lt_of_le (vmin_pos h) hv.1)).ne'
  · refine ContinuousOn.rpow_const (by unfold bB; fun_prop) fun v hv => Or.inr ?_
    unfold a2
    rw [← neg_div]
    exact div_nonneg (by linarith [h.one]) h.s.le
  · refine ContinuousOn.rpow_const (by unfold bD; fun_prop) fun v hv => Or.inl ?_
    rcases eq_or_lt_of_le hv.1 with rfl | hlt
    · unfold bD vmin
      have hm : (0 : ℝ) < n + 2 := by positivity
      refine (mul_pos (by positivity) ?_).ne'
      have : (2 + (n : ℝ) * (g - 1)) / 2 * (2 / (n + 2) / g) = (2 + (n : ℝ) * (g - 1)) / ((n + 2) * g) := by field_simp
      rw [this, sub_pos, div_lt_one (by positivity)]
      have : (0 : ℝ) ≤ n := Nat.cast_nonneg _
      have h1n : (1 : ℝ) ≤ n := by exact_mod_cast h.dim1
      linarith [h.one]
    · exact (bD_pos h hlt hv.2).ne'

theorem r1_strictMono (h : Valid g n) : StrictMonoOn (r1 g n) (Set.Icc (vmin g n) (vmax g n)) := by
  refine strictMonoOn_of_deriv_pos (convex_Icc _ _) (r1_continuous h) fun v hv => ?_
  rw [interior_Icc] at hv
  have := (logD_profile h hv.1 hv.2.le).1
  rw [HasDerivAt.deriv this]
  exact mul_pos (r1_pos h hv.1 hv.2.le) (Lr_pos h hv.1 hv.2.le)

/-! ### The parameter as a function of the radius -/

variable (g n) in
/-- The parameter with a given radius. -/
noncomputable def vOf (x : ℝ) : ℝ := Function.invFunOn (r1 g n) (Set.Ioc (vmin g n) (vmax g n)) x

theorem r1_image (h : Valid g n) : r1 g n '' Set.Ioc (vmin g n) (vmax g n) = Set.Ioc 0 1 := by
  have hlt := vmin_lt_vmax h
  apply Set.Subset.antisymm
  · rintro _ ⟨v, hv, rfl⟩
    refine ⟨r1_pos h hv.1 hv.2, ?_⟩
    rw [← (profile_vmax h).1]
    exact (r1_strictMono h).monotoneOn ⟨hv.1.le, hv.2⟩ ⟨hlt.le, le_rfl⟩ hv.2
  · have := intermediate_value_Ioc hlt.le (r1_continuous h)
    rwa [r1_vmin h, (profile_vmax h).1] at this

theorem vOf_spec (h : Valid g n) {x : ℝ} (hx : x ∈ Set.Ioc (0 : ℝ) 1) :
    vOf g n x ∈ Set.Ioc (vmin g n) (vmax g n) ∧ r1 g n (vOf g n x) = x := by
  rw [← r1_image h] at hx
  exact ⟨Function.invFunOn_mem hx, Function.invFunOn_eq hx⟩

theorem vOf_r1 (h : Valid g n) {v : ℝ} (hv : v ∈ Set.Ioc (vmin g n) (vmax g n)) : vOf g n (r1 g n v) = v := by
  have hx : r1 g n v ∈ Set.Ioc (0 : ℝ) 1 := by rw [← r1_image h]; exact ⟨v, hv, rfl⟩
  obtain ⟨h1, h2⟩ := vOf_spec h hx
  exact (r1_strictMono h).injOn ⟨h1.1.le, h1.2⟩ ⟨hv.1.le, hv.2⟩ h2

theorem vOf_one (h : Valid g n) : vOf g n 1 = vmax g n := by
  have := vOf_r1 h ⟨vmin_lt_vmax h, le_rfl⟩
  rwa [(profile_vmax h).1] at this

theorem vOf_strictMono (h : Valid g n) : StrictMonoOn (vOf g n) (Set.Ioc 0 1) := by
  intro y hy z hz hyz
  obtain ⟨hy1, hy2⟩ := vOf_spec h hy
  obtain ⟨hz1, hz2⟩ := vOf_spec h hz
  by_contra hc
  have := (r1_strictMono h).monotoneOn ⟨hz1.1.le, hz1.2⟩ ⟨hy1.1.le, hy1.2⟩ (not_lt.1 hc)
  rw [hy2, hz2] at this
  exact absurd hyz (not_lt.2 this)

theorem vOf_image (h : Valid g n) : vOf g n '' Set.Ioc 0 1 = Set.Ioc (vmin g n) (vmax g n) := by
  apply Set.Subset.antisymm
  · rintro _ ⟨y, hy, rfl⟩
    exact (vOf_spec h hy).1
  · intro v hv
    refine ⟨r1 g n v, ?_, vOf_r1 h hv⟩
    rw [← r1_image h]
    exact ⟨v, hv, rfl⟩

theorem vOf_inside (h : Valid g n) {x : ℝ} (hx : x ∈ Set.Ioo (0 : ℝ) 1) : vOf g n x < vmax g n := by
  rw [← vOf_one h]
  exact vOf_strictMono h ⟨hx.1, hx.2.le⟩ ⟨one_pos, le_rfl⟩ hx.2

theorem vOf_continuousAt (h : Valid g n) {x : ℝ} (hx : x ∈ Set.Ioo (0 : ℝ) 1) : ContinuousAt (vOf g n) x := by
  refine continuousAt_of_monotoneOn_of_image_mem_nhds (s := Set.Ioc 0 1) (vOf_strictMono h).monotoneOn
    (Ioc_mem_nhds hx.1 hx.2) ?_
  rw [vOf_image h]
  exact Ioc_mem_nhds (vOf_spec h ⟨hx.1, hx.2.le⟩).1.1 (vOf_inside h hx)

theorem vOf_continuous_one (h : Valid g n) : ContinuousWithinAt (vOf g n) (Set.Iic 1) 1 := by
  refine continuousWithinAt_left_of_monotoneOn_of_image_mem_nhdsWithin (s := Set.Ioc 0 1) (vOf_strictMono h).monotoneOn
    (Ioc_mem_nhdsLE one_pos) ?_
  rw [vOf_image h, vOf_one h]
  exact Ioc_mem_nhdsLE (vmin_lt_vmax h)

theorem vOf_hasDerivAt (h : Valid g n) {x : ℝ} (hx : x ∈ Set.Ioo (0 : ℝ) 1) :
    HasDerivAt (vOf g n) (1 / (x * Lr g n (vOf g n x))) x := by
  obtain ⟨h1, h2⟩ := vOf_spec h ⟨hx.1, hx.2.le⟩
  have hd : HasDerivAt (r1 g n) (x * Lr g n (vOf g n x)) (vOf g n x) := by
    have := (logD_profile h h1.1 h1.2).1
    unfold LogD at this
    rwa [h2] at this
  rw [one_div]
  refine HasDerivAt.of_local_left_inverse (vOf_continuousAt h hx) hd
    (mul_pos hx.1 (Lr_pos h h1.1 h1.2)).ne' ?_
  filter_upwards [Ioo_mem_nhds hx.1 hx.2] with y hy
  exact (vOf_spec h ⟨hy.1, hy.2.le⟩).2

/-- A profile as a function of the radius. -/
theorem profile_hasDerivAt (h : Valid g n) {f : ℝ → ℝ} {L x : ℝ} (hx : x ∈ Set.Ioo (0 : ℝ) 1)
    (hf : LogD f L (vOf g n x)) :
    HasDerivAt (fun y => f (vOf g n y)) (f (vOf g n x) * L / (x * Lr g n (vOf g n x))) x := by
  have := HasDerivAt.comp x hf (vOf_hasDerivAt h hx)
  refine HasDerivAt.congr_deriv this ?_
  ring

/-! ### The similarity variable -/

/-- The radius in units of the radius `c t ^ δ` of the shock. -/
theorem sim_deriv (c δ x t : ℝ) (hc : 0 < c) (ht : 0 < t) :
    HasDerivAt (fun y : ℝ => y / (c * t ^ δ)) (1 / (c * t ^ δ)) x ∧
    HasDerivAt (fun s : ℝ => x / (c * s ^ δ)) (-δ * (x / (c * t ^ δ)) / t) t := by
  have hp : 0 < t ^ δ := Real.rpow_pos_of_pos ht δ
  constructor
  · simpa using (hasDerivAt_id x).div_const (c * t ^ δ)
  · have h1 : HasDerivAt (fun s : ℝ => c * s ^ δ) (c * (δ * t ^ (δ - 1))) t :=
      (Real.hasDerivAt_rpow_const (Or.inl ht.ne')).const_mul c
    have h2 := (hasDerivAt_const t x).div h1 (by positivity)
    refine HasDerivAt.congr_deriv h2 ?_
    rw [Real.rpow_sub_one ht.ne']
    field_simp
    ring

end SedovAna

end FVHOE
