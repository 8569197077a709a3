import Mathlib.Tactic.Linarith
import Mathlib.Tactic.Ring
import Mathlib.Tactic.Positivity
import Mathlib.Tactic.FieldSimp
import Mathlib.Tactic.NormNum
import Mathlib.Tactic.Zify
import Mathlib.Algebra.Order.Archimedean.Basic
import Mathlib.Data.Nat.Log
import Mathlib.Algebra.Order.Round
import Mathlib.Algebra.Order.Field.Power
import Verif.Model.FloatTime

/-!
Rounding to a binary floating-point format: the result is a nearest number of the format, rounding is monotone, the
difference of numbers within a factor of two is exact.
-/

namespace FVHOE

theorem binade_spec {x : ℚ} (hx : x ≠ 0) : (2 : ℚ) ^ binade x ≤ |x| ∧ |x| < 2 ^ (binade x + 1) := by
  have hn : x.num.natAbs ≠ 0 := by simpa using hx
  have hd : x.den ≠ 0 := x.den_nz
  have hxe : |x| = (x.num.natAbs : ℚ) / (x.den : ℚ) := by
    conv_lhs => rw [← Rat.num_div_den x]
    rw [abs_div, Nat.abs_cast, ← Int.cast_abs, Int.abs_eq_natAbs, Int.cast_natCast]
  have hdp : (0 : ℚ) < x.den := by exact_mod_cast Nat.pos_of_ne_zero hd
  set a := Nat.log2 x.num.natAbs with ha
  set b := Nat.log2 x.den with hb
  have ha1 : ((2 : ℚ) ^ a) ≤ x.num.natAbs := by exact_mod_cast Nat.log2_self_le hn
  have ha2 : (x.num.natAbs : ℚ) < (2 : ℚ) ^ (a + 1) := by exact_mod_cast Nat.lt_log2_self
  have hb1 : ((2 : ℚ) ^ b) ≤ x.den := by exact_mod_cast Nat.log2_self_le hd
  have hb2 : (x.den : ℚ) < (2 : ℚ) ^ (b + 1) := by exact_mod_cast Nat.lt_log2_self
  have h2 : (2 : ℚ) ≠ 0 := by norm_num
  have pb : (0 : ℚ) < 2 ^ b := by positivity
  have hup : |x| < 2 ^ ((a : ℤ) - b + 1) := by
    rw [hxe, div_lt_iff₀ hdp, show (a : ℤ) - b + 1 = ((a + 1 : ℕ) : ℤ) - (b : ℤ) by push_cast; ring, zpow_sub₀ h2,
      zpow_natCast, zpow_natCast]
    have : (2 : ℚ) ^ (a + 1) ≤ 2 ^ (a + 1) / 2 ^ b * x.den := by
      rw [div_mul_eq_mul_div, le_div_iff₀ pb]
      exact mul_le_mul_of_nonneg_left hb1 (by positivity)
    linarith
  have hlo : (2 : ℚ) ^ ((a : ℤ) - b - 1) ≤ |x| := by
    rw [hxe, le_div_iff₀ hdp, show (a : ℤ) - b - 1 = (a : ℤ) - ((b + 1 : ℕ) : ℤ) by push_cast; ring, zpow_sub₀ h2,
      zpow_natCast, zpow_natCast]
    have pb1 : (0 : ℚ) < 2 ^ (b + 1) := by positivity
    have : (2 : ℚ) ^ a / 2 ^ (b + 1) * x.den ≤ 2 ^ a := by
      rw [div_mul_eq_mul_div, div_le_iff₀ pb1]
      exact mul_le_mul_of_nonneg_left hb2.le (by positivity)
    linarith
  unfold binade
  simp only
  rw [← ha, ← hb]
  split
  · rename_i h
    exact ⟨h, hup⟩
  · rename_i h
    refine ⟨hlo, ?_⟩
    have : (a : ℤ) - b - 1 + 1 = a - b := by ring
    rw [this]
    exact not_le.1 h

theorem roundEven_near (x : ℚ) : |(roundEven x : ℚ) - x| ≤ 1 / 2 := by
  have h1 := Int.floor_le x
  have h2 := Int.lt_floor_add_one x
  unfold roundEven
  rw [abs_le]
  split
  · constructor <;> linarith
  · rename_i h
    split
    · push_cast
      constructor <;> linarith
    · rename_i h'
      split
      · constructor <;> linarith
      · push_cast
        constructor <;> linarith

/-- No integer is nearer. -/
theorem roundEven_le (x : ℚ) (m : ℤ) : |(roundEven x : ℚ) - x| ≤ |(m : ℚ) - x| := by
  by_cases h : m = roundEven x
  · rw [h]
  · have h1 : (1 : ℚ) ≤ |(m : ℚ) - roundEven x| := by
      have : (1 : ℤ) ≤ |m - roundEven x| := Int.one_le_abs (sub_ne_zero.2 h)
      exact_mod_cast this
    have h2 := roundEven_near x
    have h3 : |(m : ℚ) - roundEven x| ≤ |(m : ℚ) - x| + |(roundEven x : ℚ) - x| := by
      rw [show (m : ℚ) - roundEven x = (m - x) - (roundEven x - x) by ring]
      exact abs_sub _ _
    linarith

/-- An even integer at a distance of up to a half is the result. -/
theorem roundEven_even (x : ℚ) (m : ℤ) (hm : m % 2 = 0) (h : |x - m| ≤ 1 / 2) : roundEven x = m := by
  have h1 := Int.floor_le x
  have h2 := Int.lt_floor_add_one x
  rw [abs_le] at h
  have h3 : ⌊x⌋ = m ∨ ⌊x⌋ = m - 1 := by
    have a1 : (⌊x⌋ : ℚ) < m + 1 := by linarith
    have a2 : (m : ℚ) < ⌊x⌋ + 2 := by linarith
    have a1 : ⌊x⌋ < m + 1 := by exact_mod_cast a1
    have a2 : m < ⌊x⌋ + 2 := by exact_mod_cast a2
    omega
  unfold roundEven
  rcases h3 with h3 | h3
  · rw [h3]
    split
    · rfl
    · rename_i g
      split
      · rename_i g'
        linarith
      · rfl
  · rw [h3]
    push_cast
    split
    · rename_i g
      linarith
    · split
      · ring
      · rw [if_neg (by omega)]
        ring

/-- A number of the format. -/
def Format.Has (F : Format) (x : ℚ) : Prop := ∃ m e : ℤ, x = m * 2 ^ e ∧ |m| ≤ 2 ^ F.p ∧ F.emin ≤ e

theorem Format.has_zero (F : Format) : F.Has 0 := ⟨0, F.emin, by simp, by simp, le_rfl⟩

theorem Format.lastBit_ge (F : Format) (x : ℚ) : F.emin ≤ F.lastBit x := le_max_right _ _

theorem two_zpow_pos (e : ℤ) : (0 : ℚ) < 2 ^ e := by positivity

theorem Format.abs_le_lastBit (F : Format) {x : ℚ} (hx : x ≠ 0) : |x| < 2 ^ F.p * 2 ^ F.lastBit x := by
  refine lt_of_lt_of_le (binade_spec hx).2 ?_
  rw [← zpow_natCast, ← zpow_add₀ (by norm_num)]
  refine zpow_le_zpow_right₀ (by norm_num) ?_
  have := le_max_left (binade x + 1 - F.p) F.emin
  unfold Format.lastBit
  omega

theorem Format.fl_has (F : Format) (x : ℚ) : F.Has (F.fl x) := by
  refine ⟨roundEven (x / 2 ^ F.lastBit x), F.lastBit x, rfl, ?_, F.lastBit_ge x⟩
  by_cases hx : x = 0
  · subst hx
    rw [zero_div, roundEven_even 0 0 (by norm_num) (by norm_num)]
    simp
  have h1 := F.abs_le_lastBit hx
  have hg := two_zpow_pos (F.lastBit x)
  have h2 : |x / 2 ^ F.lastBit x| < 2 ^ F.p := by
    rw [abs_div, abs_of_pos hg, div_lt_iff₀ hg]
    exact h1
  have h3 := roundEven_near (x / 2 ^ F.lastBit x)
  set y := x / 2 ^ F.lastBit x
  have h4 : |(roundEven y : ℚ)| < 2 ^ F.p + 1 := by
    have : |(roundEven y : ℚ)| ≤ |(roundEven y : ℚ) - y| + |y| := by
      have := abs_add_le ((roundEven y : ℚ) - y) y
      simpa using this
    linarith
  have h5 : |roundEven y| < 2 ^ F.p + 1 := by exact_mod_cast h4
  omega

/-- Rounding errs by at most half of the last bit. -/
theorem Format.fl_near (F : Format) (x : ℚ) : |F.fl x - x| ≤ 1 / 2 * 2 ^ F.lastBit x := by
  have hg := two_zpow_pos (F.lastBit x)
  have h := roundEven_near (x / 2 ^ F.lastBit x)
  have e : F.fl x - x = (roundEven (x / 2 ^ F.lastBit x) - x / 2 ^ F.lastBit x) * 2 ^ F.lastBit x := by
    unfold Format.fl
    field_simp
  rw [e, abs_mul, abs_of_pos hg]
  exact mul_le_mul_of_nonneg_right h hg.le

/-- No multiple of the last bit is nearer. -/
theorem Format.fl_le_grid (F : Format) (x : ℚ) (m : ℤ) : |F.fl x - x| ≤ |m * 2 ^ F.lastBit x - x| := by
  have hg := two_zpow_pos (F.lastBit x)
  have h := roundEven_le (x / 2 ^ F.lastBit x) m
  have e (k : ℤ) : (k : ℚ) * 2 ^ F.lastBit x - x = (k - x / 2 ^ F.lastBit x) * 2 ^ F.lastBit x := by field_simp
  unfold Format.fl
  rw [e, e, abs_mul, abs_mul, abs_of_pos hg]
  exact mul_le_mul_of_nonneg_right h hg.le

/-- A multiple of a power of two is a multiple of every smaller one. -/
theorem zpow_multiple (m : ℤ) {e f : ℤ} (h : f ≤ e) : ∃ k : ℤ, (m : ℚ) * 2 ^ e = k * 2 ^ f := by
  obtain ⟨n, rfl⟩ := Int.le.dest h
  refine ⟨m * 2 ^ n, ?_⟩
  rw [zpow_add₀ (by norm_num)]
  push_cast
  rw [zpow_natCast]
  ring

/-- No number of the format is nearer. -/
theorem Format.fl_le (F : Format) (hp : 1 ≤ F.p) (x : ℚ) {y : ℚ} (hy : F.Has y) : |F.fl x - x| ≤ |y - x| := by
  obtain ⟨m, e, rfl, hm, he⟩ := hy
  by_cases hc : F.lastBit x ≤ e
  · obtain ⟨k, hk⟩ := zpow_multiple m hc
    rw [hk]
    exact F.fl_le_grid x k
  · have hb : F.lastBit x = binade x + 1 - F.p := by
      unfold Format.lastBit at hc ⊢
      rcases max_cases (binade x + 1 - (F.p : ℤ)) F.emin with h | h
      · exact h.1
      · rw [h.1] at hc
        omega
    by_cases hx : x = 0
    · subst hx
      have : F.fl 0 = 0 := by
        unfold Format.fl
        rw [zero_div, roundEven_even 0 0 (by norm_num) (by norm_num)]
        simp
      rw [this, sub_zero, abs_zero]
      exact abs_nonneg _
    have hs := (binade_spec hx).1
    set L : ℚ := 2 ^ binade x with hL
    have hyL : |(m : ℚ) * 2 ^ e| ≤ L := by
      rw [abs_mul, abs_of_pos (two_zpow_pos e)]
      have h1 : (|m| : ℚ) ≤ 2 ^ F.p := by exact_mod_cast hm
      have h2 : (2 : ℚ) ^ F.p * 2 ^ e ≤ L := by
        rw [hL, ← zpow_natCast, ← zpow_add₀ (by norm_num)]
        refine zpow_le_zpow_right₀ (by norm_num) ?_
        omega
      refine le_trans (mul_le_mul_of_nonneg_right h1 (two_zpow_pos e).le) h2
    have hLg : ∃ k : ℤ, L = k * 2 ^ F.lastBit x := by
      have := zpow_multiple 1 (show F.lastBit x ≤ binade x by omega)
      simpa [hL] using this
    obtain ⟨k, hk⟩ := hLg
    rcases lt_or_gt_of_ne hx with hneg | hpos
    · have h1 := F.fl_le_grid x (-k)
      have h2 : ((-k : ℤ) : ℚ) * 2 ^ F.lastBit x = -L := by rw [hk]; push_cast; ring
      rw [h2] at h1
      refine le_trans h1 ?_
      rw [abs_of_neg hneg] at hs
      have := neg_le_of_abs_le hyL
      rw [abs_of_nonneg (by linarith), abs_of_nonneg (by linarith)]
      linarith
    · have h1 := F.fl_le_grid x k
      rw [← hk] at h1
      refine le_trans h1 ?_
      rw [abs_of_pos hpos] at hs
      have := le_of_abs_le hyL
      rw [abs_of_nonpos (by linarith), abs_of_nonpos (by linarith)]
      linarith

/-- Numbers of the format are kept. -/
theorem Format.fl_eq (F : Format) (hp : 1 ≤ F.p) {x : ℚ} (hx : F.Has x) : F.fl x = x := by
  have := F.fl_le hp x hx
  rw [sub_self, abs_zero] at this
  exact sub_eq_zero.1 (abs_nonpos_iff.1 this)

/-- Rounding is monotone. -/
theorem Format.fl_mono (F : Format) (hp : 1 ≤ F.p) {x y : ℚ} (h : x ≤ y) : F.fl x ≤ F.fl y := by
  rcases eq_or_lt_of_le h with rfl | h
  · exact le_rfl
  by_contra hc
  have hc : F.fl y < F.fl x := not_le.1 hc
  have h1 := F.fl_le hp x (F.fl_has y)
  have h2 := F.fl_le hp y (F.fl_has x)
  generalize F.fl x = a at *
  generalize F.fl y = b at *
  rcases le_total a x with ha | ha
  · rw [abs_of_nonpos (by linarith : b - y ≤ 0), abs_of_nonpos (by linarith : a - y ≤ 0)] at h2
    linarith
  · rcases le_total b y with hb | hb
    · rw [abs_of_nonneg (by linarith : 0 ≤ a - x)] at h1
      rw [abs_of_nonpos (by linarith : b - y ≤ 0)] at h2
      rcases le_total b x with hbx | hbx
      · rw [abs_of_nonpos (by linarith : b - x ≤ 0)] at h1
        rcases le_total a y with hay | hay
        · rw [abs_of_nonpos (by linarith : a - y ≤ 0)] at h2
          linarith
        · rw [abs_of_nonneg (by linarith : 0 ≤ a - y)] at h2
          linarith
      · rw [abs_of_nonneg (by linarith : 0 ≤ b - x)] at h1
        linarith
    · rw [abs_of_nonneg (by linarith : 0 ≤ b - y)] at h2
      rw [abs_of_nonneg (by linarith : 0 ≤ a - x)] at h1
      rw [abs_of_nonneg (by linarith : 0 ≤ b - x)] at h1
      linarith

/-- The difference of two numbers within a factor of two is a number of the format. -/
theorem Format.has_sub (F : Format) {x y : ℚ} (hx : F.Has x) (hy : F.Has y) (h1 : y / 2 ≤ x) (h2 : x ≤ 2 * y) :
    F.Has (x - y) := by
  obtain ⟨m, e, rfl, hm, he⟩ := hx
  obtain ⟨n, f, rfl, hn, hf⟩ := hy
  have bound (z g : ℚ) (k : ℤ) (hg : 0 < g) (hz : z = k * g) (hk : |k| ≤ 2 ^ F.p) (w : ℤ) (hw : |(w : ℚ) * g| ≤ z) :
      |w| ≤ 2 ^ F.p := by
    have h3 : |(w : ℚ)| * g ≤ |(k : ℚ)| * g := by
      rw [abs_mul, abs_of_pos hg, hz] at hw
      exact le_trans hw (mul_le_mul_of_nonneg_right (le_abs_self _) hg.le)
    have h4 : |(w : ℚ)| ≤ |(k : ℚ)| := le_of_mul_le_mul_right h3 hg
    have h5 : |w| ≤ |k| := by exact_mod_cast h4
    exact le_trans h5 hk
  rcases le_total e f with hef | hef
  · obtain ⟨k, hk⟩ := zpow_multiple n hef
    refine ⟨m - k, e, by rw [hk]; push_cast; ring, ?_, he⟩
    refine bound _ _ m (two_zpow_pos e) rfl hm (m - k) ?_
    rw [show ((m - k : ℤ) : ℚ) * 2 ^ e = m * 2 ^ e - n * 2 ^ f by rw [hk]; push_cast; ring, abs_le]
    constructor <;> linarith
  · obtain ⟨k, hk⟩ := zpow_multiple m hef
    refine ⟨k - n, f, by rw [hk]; push_cast; ring, ?_, hf⟩
    refine bound _ _ n (two_zpow_pos f) rfl hn (k - n) ?_
    rw [show ((k - n : ℤ) : ℚ) * 2 ^ f = m * 2 ^ e - n * 2 ^ f by rw [hk]; push_cast; ring, abs_le]
    constructor <;> linarith

/-! ### Reaching a target -/

/-- A step to a target within a factor of two arrives. -/
theorem Format.hit_near (F : Format) (hp : 1 ≤ F.p) {t T : ℚ} (ht : F.Has t) (hT : F.Has T) (h1 : T / 2 ≤ t) (h2 : t ≤ T) :
    F.fl (t + F.fl (T - t)) = T := by
  have h0 : 0 ≤ T := by linarith
  have hs : F.Has (T - t) := F.has_sub hT ht (by linarith) (by linarith)
  rw [F.fl_eq hp hs, add_sub_cancel, F.fl_eq hp hT]

/-- A step from zero arrives. -/
theorem Format.hit_zero (F : Format) (hp : 1 ≤ F.p) {T : ℚ} (hT : F.Has T) : F.fl (0 + F.fl (T - 0)) = T := by
  rw [sub_zero, zero_add, F.fl_eq hp hT, F.fl_eq hp hT]

theorem binade_mono {x y : ℚ} (hx : 0 < x) (h : x ≤ y) : binade x ≤ binade y := by
  have h1 := (binade_spec hx.ne').1
  have h2 := (binade_spec (lt_of_lt_of_le hx h).ne').2
  rw [abs_of_pos hx] at h1
  rw [abs_of_pos (lt_of_lt_of_le hx h)] at h2
  have h3 : (2 : ℚ) ^ binade x < 2 ^ (binade y + 1) := by linarith
  have := (zpow_lt_zpow_iff_right₀ (by norm_num : (1 : ℚ) < 2)).1 h3
  omega

theorem binade_eq {x : ℚ} (hx : 0 < x) {k : ℤ} (h1 : (2 : ℚ) ^ k ≤ x) (h2 : x < 2 ^ (k + 1)) : binade x = k := by
  obtain ⟨h3, h4⟩ := binade_spec hx.ne'
  rw [abs_of_pos hx] at h3 h4
  have h5 : (2 : ℚ) ^ k < 2 ^ (binade x + 1) := by linarith
  have h6 : (2 : ℚ) ^ binade x < 2 ^ (k + 1) := by linarith
  have h5 := (zpow_lt_zpow_iff_right₀ (by norm_num : (1 : ℚ) < 2)).1 h5
  have h6 := (zpow_lt_zpow_iff_right₀ (by norm_num : (1 : ℚ) < 2)).1 h6
  omega

theorem Format.lastBit_mono (F : Format) {x y : ℚ} (hx : 0 < x) (h : x ≤ y) : F.lastBit x ≤ F.lastBit y := by
  have := binade_mono hx h
  unfold Format.lastBit
  omega

/-- Rounding of a number near an even multiple of its last bit. -/
theorem Format.fl_even (F : Format) {x : ℚ} {e : ℤ} (he : F.lastBit x = e) (m : ℤ) (hm : m % 2 = 0)
    (h : |x - m * 2 ^ e| ≤ 1 / 2 * 2 ^ e) : F.fl x = m * 2 ^ e := by
  have hg := two_zpow_pos e
  unfold Format.fl
  rw [he, roundEven_even (x / 2 ^ e) m hm]
  rw [show x / 2 ^ e - m = (x - m * 2 ^ e) / 2 ^ e by field_simp, abs_div, abs_of_pos hg, div_le_iff₀ hg]
  exact h

/-- A target that leaves the last bit unused is reached from every earlier time. -/
theorem Format.hit_short (F : Format) (hp : 2 ≤ F.p) {t T : ℚ} (ht : F.Has t) (h0 : 0 ≤ t) (htT : t ≤ T)
    (hT : ∃ n e : ℤ, T = n * 2 ^ e ∧ |n| ≤ 2 ^ (F.p - 1) ∧ F.emin ≤ e) : F.fl (t + F.fl (T - t)) = T := by
  obtain ⟨n, e, hTe, hn, he⟩ := hT
  have hp1 : 1 ≤ F.p := by omega
  have hTF : F.Has T := ⟨n, e, hTe, le_trans hn (pow_le_pow_right₀ (by norm_num) (by omega)), he⟩
  rcases eq_or_lt_of_le h0 with rfl | htpos
  · exact F.hit_zero hp1 hTF
  rcases eq_or_lt_of_le htT with rfl | htT'
  · exact F.hit_near hp1 ht ht (by linarith) le_rfl
  have hTpos : 0 < T := by linarith
  have hd : 0 < T - t := by linarith
  set E := F.lastBit T with hE
  set k := binade T with hk
  obtain ⟨hk1, hk2⟩ := binade_spec hTpos.ne'
  rw [abs_of_pos hTpos, ← hk] at hk1 hk2
  by_cases hcase : E = F.emin
  · -- everything is a multiple of the least number
    obtain ⟨m, f, hm1, hm2, hm3⟩ := ht
    obtain ⟨a, ha⟩ := zpow_multiple n he
    obtain ⟨b, hb⟩ := zpow_multiple m hm3
    have hs : F.Has (T - t) := by
      refine ⟨a - b, F.emin, by rw [hTe, hm1, ha, hb]; push_cast; ring, ?_, le_rfl⟩
      have hlt := F.abs_le_lastBit hTpos.ne'
      rw [← hE, hcase, abs_of_pos hTpos] at hlt
      have hg := two_zpow_pos F.emin
      have h1 : ((a - b : ℤ) : ℚ) * 2 ^ F.emin = T - t := by rw [hTe, hm1, ha, hb]; push_cast; ring
      have h2 : ((a - b : ℤ) : ℚ) * 2 ^ F.emin < 2 ^ F.p * 2 ^ F.emin := by rw [h1]; linarith
      have h3 : ((a - b : ℤ) : ℚ) < 2 ^ F.p := lt_of_mul_lt_mul_right h2 hg.le
      have h4 : (0 : ℚ) < ((a - b : ℤ) : ℚ) := by
        rw [← h1] at hd
        exact pos_of_mul_pos_left hd hg.le
      have h3 : a - b < 2 ^ F.p := by exact_mod_cast h3
      have h4 : 0 < a - b := by exact_mod_cast h4
      rw [abs_of_pos h4]
      exact h3.le
    rw [F.fl_eq hp1 hs, add_sub_cancel, F.fl_eq hp1 hTF]
  have hEk : E = k + 1 - F.p ∧ F.emin < E := by
    have : E = max (k + 1 - F.p) F.emin := rfl
    omega
  obtain ⟨hEk, hEm⟩ := hEk
  have hg := two_zpow_pos E
  -- the target is an even multiple of its last bit
  obtain ⟨M, hM, hMe⟩ : ∃ M : ℤ, T = M * 2 ^ E ∧ M % 2 = 0 := by
    have hle : (2 : ℚ) ^ k ≤ 2 ^ ((F.p : ℤ) - 1 + e) := by
      refine le_trans hk1 ?_
      rw [hTe, zpow_add₀ (by norm_num)]
      refine mul_le_mul_of_nonneg_right ?_ (two_zpow_pos e).le
      have h1 : (n : ℚ) ≤ 2 ^ (F.p - 1) := by exact_mod_cast le_trans (le_abs_self n) hn
      have h2 : ((F.p : ℤ) - 1) = ((F.p - 1 : ℕ) : ℤ) := by omega
      rw [h2, zpow_natCast]
      exact h1
    have hle := (zpow_le_zpow_iff_right₀ (by norm_num : (1 : ℚ) < 2)).1 hle
    rcases eq_or_lt_of_le (show E ≤ e by omega) with heq | hlt
    · refine ⟨n, by rw [hTe, heq], ?_⟩
      have h1 : (2 : ℚ) ^ (F.p - 1) * 2 ^ e ≤ n * 2 ^ e := by
        rw [← hTe]
        refine le_trans (le_of_eq ?_) hk1
        rw [← zpow_natCast, ← zpow_add₀ (by norm_num)]
        congr 1
        omega
      have h2 : (2 : ℚ) ^ (F.p - 1) ≤ n := le_of_mul_le_mul_right h1 (two_zpow_pos e)
      have h2 : (2 : ℤ) ^ (F.p - 1) ≤ n := by exact_mod_cast h2
      have h3 := le_trans (le_abs_self n) hn
      have h4 : n = 2 ^ (F.p - 1) := le_antisymm h3 h2
      rw [h4, show F.p - 1 = (F.p - 2) + 1 by omega, pow_succ]
      omega
    · obtain ⟨j, hj⟩ := zpow_multiple n (show E + 1 ≤ e by omega)
      refine ⟨j * 2, ?_, by omega⟩
      rw [hTe, hj, zpow_add₀ (by norm_num)]
      push_cast
      ring
  set d := F.fl (T - t) with hdd
  have hnear : |d - (T - t)| ≤ 1 / 2 * 2 ^ F.lastBit (T - t) := F.fl_near _
  have hx : |(t + d) - T| ≤ 1 / 2 * 2 ^ F.lastBit (T - t) := by
    rw [show t + d - T = d - (T - t) by ring]
    exact hnear
  have hbit : F.lastBit (T - t) ≤ E := F.lastBit_mono hd (by linarith)
  have hxE : |(t + d) - T| ≤ 1 / 2 * 2 ^ E := by
    refine le_trans hx ?_
    have := zpow_le_zpow_right₀ (by norm_num : (1 : ℚ) ≤ 2) hbit
    linarith
  have h2E : (2 : ℚ) ^ k = 2 ^ (F.p - 1) * 2 ^ E := by
    rw [← zpow_natCast, ← zpow_add₀ (by norm_num)]
    congr 1
    omega
  have h1p : (1 : ℚ) ≤ 2 ^ (F.p - 1) := one_le_pow₀ (by norm_num)
  have hxpos : 0 < t + d := by
    rw [abs_le] at hxE
    nlinarith [hxE.1]
  set x := t + d with hxx
  rw [abs_le] at hxE
  -- the binade of the sum
  have hup : x < 2 ^ (k + 1) := by
    have h1 : (M : ℚ) * 2 ^ E < 2 ^ F.p * 2 ^ E := by
      rw [← hM]
      refine lt_of_lt_of_le hk2 (le_of_eq ?_)
      rw [← zpow_natCast, ← zpow_add₀ (by norm_num)]
      congr 1
      omega
    have h2 : (M : ℚ) < 2 ^ F.p := lt_of_mul_lt_mul_right h1 hg.le
    have h2 : M < 2 ^ F.p := by exact_mod_cast h2
    have h3 : (M : ℚ) + 1 ≤ 2 ^ F.p := by exact_mod_cast h2
    have h4 : (2 : ℚ) ^ (k + 1) = 2 ^ F.p * 2 ^ E := by
      rw [← zpow_natCast, ← zpow_add₀ (by norm_num)]
      congr 1
      omega
    rw [h4]
    nlinarith [hxE.2]
  by_cases hlow : (2 : ℚ) ^ k ≤ x
  · have hb : binade x = k := binade_eq hxpos hlow hup
    have he : F.lastBit x = E := by
      unfold Format.lastBit
      rw [hb]
      omega
    rw [F.fl_even he M hMe (by rw [← hM, abs_le]; exact hxE), ← hM]
  · -- the target is a power of two and the sum lies below it
    have hlow : x < 2 ^ k := not_le.1 hlow
    have hTk : T = 2 ^ k := by
      have h1 : (M : ℚ) * 2 ^ E < (2 ^ (F.p - 1) + 1) * 2 ^ E := by
        rw [← hM, add_mul, ← h2E]
        linarith [hxE.1]
      have h2 : (M : ℚ) < 2 ^ (F.p - 1) + 1 := lt_of_mul_lt_mul_right h1 hg.le
      have h3 : (2 : ℚ) ^ (F.p - 1) * 2 ^ E ≤ M * 2 ^ E := by rw [← hM, ← h2E]; exact hk1
      have h4 : (2 : ℚ) ^ (F.p - 1) ≤ M := le_of_mul_le_mul_right h3 hg
      have h2 : M < 2 ^ (F.p - 1) + 1 := by exact_mod_cast h2
      have h4 : (2 : ℤ) ^ (F.p - 1) ≤ M := by exact_mod_cast h4
      have h5 : M = 2 ^ (F.p - 1) := by omega
      rw [hM, h5, h2E]
      push_cast
      ring
    have hbd : binade (T - t) ≤ k - 1 := by
      obtain ⟨h1, _⟩ := binade_spec hd.ne'
      rw [abs_of_pos hd] at h1
      have h2 : (2 : ℚ) ^ binade (T - t) < 2 ^ k := by linarith
      have := (zpow_lt_zpow_iff_right₀ (by norm_num : (1 : ℚ) < 2)).1 h2
      omega
    have hbit' : F.lastBit (T - t) ≤ E - 1 := by
      unfold Format.lastBit
      omega
    have hhalf : (2 : ℚ) ^ E = 2 * 2 ^ (E - 1) := by
      rw [zpow_sub₀ (by norm_num), zpow_one]
      ring
    have hx' : |x - T| ≤ 1 / 2 * 2 ^ (E - 1) := by
      refine le_trans hx ?_
      have := zpow_le_zpow_right₀ (by norm_num : (1 : ℚ) ≤ 2) hbit'
      linarith
    have hkh : (2 : ℚ) ^ k = 2 * 2 ^ (k - 1) := by
      rw [zpow_sub₀ (by norm_num), zpow_one]
      ring
    have hb : binade x = k - 1 := by
      refine binade_eq hxpos ?_ (by rw [sub_add_cancel]; exact hlow)
      rw [abs_le] at hx'
      have h1 : (2 : ℚ) ^ (E - 1) ≤ 2 ^ (k - 1) := zpow_le_zpow_right₀ (by norm_num) (by omega)
      have h2 := two_zpow_pos (E - 1)
      linarith [hx'.1]
    have he : F.lastBit x = E - 1 := by
      unfold Format.lastBit
      rw [hb]
      omega
    have hT2 : T = ((2 * M : ℤ) : ℚ) * 2 ^ (E - 1) := by
      rw [hM, hhalf]
      push_cast
      ring
    rw [F.fl_even he (2 * M) (by omega) (by rw [← hT2]; exact hx'), ← hT2]

end FVHOE
