import Mathlib.Tactic.FieldSimp
import Mathlib.Tactic.Positivity
import Mathlib.Tactic.LinearCombination
import Verif.Proofs.FirstOrder
import Verif.Props.C41_C44

/-!
Convex cones of states kept by the llf and hllc fluxes at degree zero.
-/

set_option linter.unusedSectionVars false

namespace FVHOE

variable {K : Type} [Field K] [LinearOrder K] [IsStrictOrderedRing K] {np : ℕ}

/-- The pressure belonging to conserved densities. -/
def pressureOf (gamma : K) (u : State K np) : K :=
  (gamma - 1) * (u .en - (u (.mom 0) ^ 2 + u (.mom 1) ^ 2 + u (.mom 2) ^ 2) / (2 * u .rho))

/-- Positive density and pressure. -/
def Positive (gamma : K) (u : State K np) : Prop := 0 < u .rho ∧ 0 < pressureOf gamma u

theorem prim_press (γ : K) (u : State K np) : computePrimitives γ u .en = pressureOf γ u := by
  simp only [computePrimitives, pressureOf, sum3]
  ring

theorem Positive.physical {γ : K} {u : State K np} (h : Positive γ u) : Physical (computePrimitives γ u) :=
  ⟨h.1, by rw [prim_press]; exact h.2.le⟩

theorem Positive.conserved {γ : K} (hγ : 1 < γ) {u : State K np} (h : Positive γ u) :
    conserved γ (computePrimitives γ u) = u := by
  rw [← conservatives_eq]
  exact C14_conservative_round_trip γ hγ.ne' u h.1.ne'

theorem sq_div_add_le (a b r s : K) (hr : 0 < r) (hs : 0 < s) :
    (a + b) ^ 2 / (2 * (r + s)) ≤ a ^ 2 / (2 * r) + b ^ 2 / (2 * s) := by
  rw [div_add_div _ _ (by positivity) (by positivity), div_le_div_iff₀ (by positivity) (by positivity)]
  nlinarith [mul_nonneg (mul_nonneg hr.le hs.le) (sq_nonneg (a * s - b * r)), sq_nonneg (a * s - b * r),
    mul_pos hr hs, add_pos hr hs]

theorem pressure_pos {γ : K} (hγ : 1 < γ) (u : State K np) : 0 < pressureOf γ u ↔
    u (.mom 0) ^ 2 / (2 * u .rho) + u (.mom 1) ^ 2 / (2 * u .rho) + u (.mom 2) ^ 2 / (2 * u .rho) < u .en := by
  have hg : 0 < γ - 1 := by linarith
  unfold pressureOf
  rw [mul_pos_iff_of_pos_left hg, sub_pos, add_div, add_div]

theorem positive_cone {γ : K} (hγ : 1 < γ) : IsCone (Positive γ : State K np → Prop) := by
  constructor
  · rintro a b ⟨ha, ha'⟩ ⟨hb, hb'⟩
    refine ⟨add_pos ha hb, ?_⟩
    rw [pressure_pos hγ] at ha' hb' ⊢
    simp only [Pi.add_apply]
    have h0 := sq_div_add_le (a (.mom 0)) (b (.mom 0)) _ _ ha hb
    have h1 := sq_div_add_le (a (.mom 1)) (b (.mom 1)) _ _ ha hb
    have h2 := sq_div_add_le (a (.mom 2)) (b (.mom 2)) _ _ ha hb
    linarith
  · rintro r a hr ⟨ha, ha'⟩
    refine ⟨mul_pos hr ha, ?_⟩
    have : pressureOf γ (r • a) = r * pressureOf γ a := by
      simp only [pressureOf, Pi.smul_apply, smul_eq_mul]
      field_simp
    rw [this]
    exact mul_pos hr ha'

/-- The passive scalar `j` per mass lies between `lo` and `hi`. -/
def Within (j : Fin np) (lo hi : K) (u : State K np) : Prop :=
  lo * u .rho ≤ u (.ps j) ∧ u (.ps j) ≤ hi * u .rho

theorem within_cone (j : Fin np) (lo hi : K) :
    IsCone fun u : State K np => 0 < u .rho ∧ Within j lo hi u := by
  constructor
  · rintro a b ⟨ha, h1, h2⟩ ⟨hb, h3, h4⟩
    refine ⟨add_pos ha hb, ?_, ?_⟩ <;> simp only [Pi.add_apply] <;> linarith
  · rintro r a hr ⟨ha, h1, h2⟩
    refine ⟨mul_pos hr ha, ?_, ?_⟩ <;> simp only [Pi.smul_apply, smul_eq_mul]
    · have := mul_le_mul_of_nonneg_left h1 hr.le; linarith
    · have := mul_le_mul_of_nonneg_left h2 hr.le; linarith

theorem IsCone.and {C D : State K np → Prop} (h : IsCone C) (h' : IsCone D) : IsCone fun u => C u ∧ D u :=
  ⟨fun a b ha hb => ⟨h.add _ _ ha.1 hb.1, h'.add _ _ ha.2 hb.2⟩,
    fun r a hr ha => ⟨h.smul _ _ hr ha.1, h'.smul _ _ hr ha.2⟩⟩

/-! ## llf -/

/-- What a convex cone needs for llf: it holds what streams out of a state at less than the fastest speed. -/
def StreamSafe (G : Gas K) (C : State K np → Prop) : Prop := ∀ u, C u → ∀ d s, frontSpeed G d u ≤ s →
  C (u - (1 / s) • eulerFlux G.gamma d (computePrimitives G.gamma u)) ∧
  C (u + (1 / s) • eulerFlux G.gamma d (computePrimitives G.gamma u))

theorem frontSpeed_pos {G : Gas K} (hG : G.OK) (d : Fin 3) (u : State K np) : 0 < frontSpeed G d u := by
  unfold frontSpeed
  have := (soundSpeed_spec G hG.sqrt hG.floor (computePrimitives G.gamma u)).1
  positivity

theorem llf_eq (G : Gas K) (hG : G.OK) (d : Fin 3) (a b : State K np) (ha : Positive G.gamma a)
    (hb : Positive G.gamma b) :
    riemann .llf G d (computePrimitives G.gamma a) (computePrimitives G.gamma b) =
      (1 / 2 : K) • (eulerFlux G.gamma d (computePrimitives G.gamma a) +
        eulerFlux G.gamma d (computePrimitives G.gamma b)) -
      ((1 / 2 : K) * max (frontSpeed G d a) (frontSpeed G d b)) • (b - a) := by
  funext i
  simp only [riemann, llf, fluxes_eq]
  rw [conservatives_eq, conservatives_eq, ha.conserved hG.gamma, hb.conserved hG.gamma]
  rfl

theorem llf_safe (G : Gas K) (hG : G.OK) (C : State K np → Prop) (hC : IsCone C)
    (hp : ∀ u, C u → Positive G.gamma u) (hw : StreamSafe G C) : HalfSafe G .llf C C 1 := by
  intro d
  refine ⟨fun a => (1 / 2 : K) • eulerFlux G.gamma d (computePrimitives G.gamma a), fun a b l ha hb hl h1 h2 => ?_⟩
  rw [llf_eq G hG d a b (hp a ha) (hp b hb)]
  obtain ⟨s, hs⟩ : ∃ s, s = max (frontSpeed G d a) (frontSpeed G d b) := ⟨_, rfl⟩
  have hs0 : 0 < s := by rw [hs]; exact lt_max_of_lt_left (frontSpeed_pos hG d a)
  have hls : l * s ≤ 1 := by
    rw [hs]
    rcases max_choice (frontSpeed G d a) (frontSpeed G d b) with h | h <;> rw [h] <;> assumption
  have hls0 : 0 ≤ l * s := by positivity
  rw [← hs]
  have hsb := (hw b hb d s (by rw [hs]; exact le_max_right _ _)).1
  have hsa := (hw a ha d s (by rw [hs]; exact le_max_left _ _)).2
  constructor
  · have := hC.comb (r := 1 / 2 - l * s / 2) (s := l * s / 2) (by linarith) (by linarith) (by norm_num) ha hsb
    convert this using 1
    have e : (l * s / 2) • ((1 / s) • eulerFlux G.gamma d (computePrimitives G.gamma b)) =
        (l / 2) • eulerFlux G.gamma d (computePrimitives G.gamma b) := by
      rw [smul_smul]; congr 1; field_simp
    rw [smul_sub (l * s / 2), e]
    module
  · have := hC.comb (r := 1 / 2 - l * s / 2) (s := l * s / 2) (by linarith) (by linarith) (by norm_num) hb hsa
    convert this using 1
    have e : (l * s / 2) • ((1 / s) • eulerFlux G.gamma d (computePrimitives G.gamma a)) =
        (l / 2) • eulerFlux G.gamma d (computePrimitives G.gamma a) := by
      rw [smul_smul]; congr 1; field_simp
    rw [smul_add (l * s / 2), e]
    module

/-- The scalar inequality behind positivity: what streams out keeps a positive pressure. -/
theorem stream_ineq (r p v c g s x : K) (hr : 0 < r) (hp : 0 < p) (hc : 0 < c) (hg : 1 < g)
    (hcs : g * p ≤ r * c ^ 2) (hx : x * s = 1 ∨ x * s = -1) (hs : |v| + c ≤ s) :
    0 < 1 - x * v ∧ 0 < (1 - x * v) * (p / (g - 1)) - (x * p) ^ 2 / (2 * (r * (1 - x * v))) := by
  have hs0 : 0 < s := by have := abs_nonneg v; linarith
  have hv := abs_le.1 (show |v| ≤ s - c by linarith)
  have hg1 : 0 < g - 1 := by linarith
  have key : x ^ 2 * s ^ 2 = 1 := by rcases hx with h | h <;> rw [← mul_pow, h] <;> ring
  have ha : c ≤ s * (1 - x * v) := by
    rcases hx with h | h
    · have : s * (1 - x * v) = s - v := by linear_combination (-v) * h
      linarith
    · have : s * (1 - x * v) = s + v := by linear_combination (-v) * h
      linarith
  have ha0 : 0 < 1 - x * v := by
    by_contra hneg
    have := mul_nonpos_of_nonneg_of_nonpos hs0.le (not_lt.1 hneg)
    linarith
  refine ⟨ha0, ?_⟩
  obtain ⟨a, hadef⟩ : ∃ a, a = 1 - x * v := ⟨_, rfl⟩
  rw [← hadef] at ha ha0 ⊢
  rw [sub_pos, div_lt_iff₀ (by positivity), mul_pow]
  have h1 : c ^ 2 ≤ s ^ 2 * a ^ 2 := by
    rw [← mul_pow]
    exact pow_le_pow_left₀ hc.le ha 2
  have h2 : g * p ≤ r * (s ^ 2 * a ^ 2) := hcs.trans (mul_le_mul_of_nonneg_left h1 hr.le)
  have h3 : x ^ 2 * (g * p) ≤ r * a ^ 2 := by
    have := mul_le_mul_of_nonneg_left h2 (sq_nonneg x)
    have e : x ^ 2 * (r * (s ^ 2 * a ^ 2)) = r * a ^ 2 := by linear_combination r * a ^ 2 * key
    linarith
  have hx0 : 0 < x ^ 2 := by
    refine lt_of_le_of_ne (sq_nonneg x) fun h => ?_
    rw [← h] at key
    simp at key
  have h4 : x ^ 2 * p * (g - 1) < 2 * (r * a ^ 2) := by
    have h5 : 0 < x ^ 2 * p := mul_pos hx0 hp
    nlinarith
  have h6 : a * (p / (g - 1)) * (2 * (r * a)) = 2 * (r * a ^ 2) * p / (g - 1) := by
    field_simp
  rw [h6, lt_div_iff₀ hg1]
  nlinarith

theorem positive_stream (G : Gas K) (hG : G.OK) (u : State K np) (hu : Positive G.gamma u) (d : Fin 3) (s x : K)
    (hs : frontSpeed G d u ≤ s) (hx : x * s = 1 ∨ x * s = -1) :
    0 < 1 - x * computePrimitives G.gamma u (.mom d) ∧
    Positive G.gamma (u - x • eulerFlux G.gamma d (computePrimitives G.gamma u)) := by
  obtain ⟨w, hw⟩ : ∃ w, w = computePrimitives G.gamma u := ⟨_, rfl⟩
  have hcons : conserved G.gamma w = u := by rw [hw]; exact hu.conserved hG.gamma
  have hc := soundSpeed_spec G hG.sqrt hG.floor w
  have hr : 0 < w .rho := by rw [hw]; exact hu.1
  have hp : 0 < w .en := by rw [hw, prim_press]; exact hu.2
  have hcs : G.gamma * w .en ≤ w .rho * soundSpeed G w ^ 2 := by
    have : G.gamma * w .en / w .rho ≤ soundSpeed G w ^ 2 := by rw [hc.2]; exact le_max_left _ _
    rw [div_le_iff₀ hr] at this
    linarith
  have hs' : |w (.mom d)| + soundSpeed G w ≤ s := by rw [hw]; exact hs
  obtain ⟨h1, h2⟩ := stream_ineq _ _ (w (.mom d)) _ G.gamma s x hr hp hc.1 hG.gamma hcs hx hs'
  rw [← hw]
  refine ⟨h1, ?_⟩
  rw [← hcons]
  have hg1 : G.gamma - 1 ≠ 0 := by have := hG.gamma; linarith
  have hrho : (conserved G.gamma w - x • eulerFlux G.gamma d w) .rho = w .rho * (1 - x * w (.mom d)) := by
    simp only [Pi.sub_apply, Pi.smul_apply, smul_eq_mul, conserved, eulerFlux]
    ring
  refine ⟨by rw [hrho]; exact mul_pos hr h1, ?_⟩
  rw [pressure_pos hG.gamma, hrho]
  obtain ⟨a, hadef⟩ : ∃ a, a = 1 - x * w (.mom d) := ⟨_, rfl⟩
  rw [← hadef] at h1 h2 ⊢
  have hmom : ∀ e, (conserved G.gamma w - x • eulerFlux G.gamma d w) (.mom e) =
      w .rho * w (.mom e) * a - (if e = d then x * w .en else 0) := by
    intro e
    simp only [Pi.sub_apply, Pi.smul_apply, smul_eq_mul, conserved, eulerFlux, hadef]
    split_ifs <;> ring
  have hen : (conserved G.gamma w - x • eulerFlux G.gamma d w) .en =
      totalEnergy G.gamma w * a - x * w (.mom d) * w .en := by
    simp only [Pi.sub_apply, Pi.smul_apply, smul_eq_mul, conserved, eulerFlux, hadef]
    ring
  rw [hmom, hmom, hmom, hen]
  unfold totalEnergy
  have k : ∀ v y : K, (w .rho * v * a - y) ^ 2 / (2 * (w .rho * a)) =
      w .rho * v ^ 2 / 2 * a - v * y + y ^ 2 / (2 * (w .rho * a)) := by
    intro v y
    field_simp
    ring
  rw [k, k, k]
  match d with
  | 0 => simp; simp at h2; linarith
  | 1 => simp; simp at h2; linarith
  | 2 => simp; simp at h2; linarith

theorem one_div_cases {s : K} (hs : 0 < s) : 1 / s * s = 1 ∧ -(1 / s) * s = -1 := by
  constructor
  · field_simp
  · field_simp

theorem positive_streamSafe (G : Gas K) (hG : G.OK) : StreamSafe G (Positive G.gamma : State K np → Prop) := by
  intro u hu d s hs
  have hs0 := (frontSpeed_pos hG d u).trans_le hs
  refine ⟨(positive_stream G hG u hu d s _ hs (.inl (one_div_cases hs0).1)).2, ?_⟩
  have := (positive_stream G hG u hu d s _ hs (.inr (one_div_cases hs0).2)).2
  rwa [neg_smul, sub_neg_eq_add] at this

theorem within_stream (G : Gas K) (j : Fin np) (lo hi : K) (u : State K np) (hu : Positive G.gamma u)
    (hw : Within j lo hi u) (d : Fin 3) (x : K) (hx : 0 < 1 - x * computePrimitives G.gamma u (.mom d)) :
    Within j lo hi (u - x • eulerFlux G.gamma d (computePrimitives G.gamma u)) := by
  have hr := hu.1
  have e1 : (u - x • eulerFlux G.gamma d (computePrimitives G.gamma u)) .rho =
      u .rho * (1 - x * computePrimitives G.gamma u (.mom d)) := by
    simp only [Pi.sub_apply, Pi.smul_apply, smul_eq_mul, eulerFlux]
    simp only [computePrimitives]
    ring
  have e2 : (u - x • eulerFlux G.gamma d (computePrimitives G.gamma u)) (.ps j) =
      u (.ps j) * (1 - x * computePrimitives G.gamma u (.mom d)) := by
    simp only [Pi.sub_apply, Pi.smul_apply, smul_eq_mul, eulerFlux]
    simp only [computePrimitives]
    field_simp
  unfold Within
  rw [e1, e2, ← mul_assoc, ← mul_assoc]
  exact ⟨mul_le_mul_of_nonneg_right hw.1 hx.le, mul_le_mul_of_nonneg_right hw.2 hx.le⟩

theorem within_streamSafe (G : Gas K) (hG : G.OK) (j : Fin np) (lo hi : K) :
    StreamSafe G (fun u : State K np => Positive G.gamma u ∧ 0 < u .rho ∧ Within j lo hi u) := by
  rintro u ⟨hu, hr, hw⟩ d s hs
  have hs0 := (frontSpeed_pos hG d u).trans_le hs
  have h1 := positive_stream G hG u hu d s _ hs (.inl (one_div_cases hs0).1)
  have h2 := positive_stream G hG u hu d s _ hs (.inr (one_div_cases hs0).2)
  have k1 := within_stream G j lo hi u hu hw d _ h1.1
  have k2 := within_stream G j lo hi u hu hw d _ h2.1
  rw [neg_smul, sub_neg_eq_add] at h2 k2
  exact ⟨⟨h1.2, h1.2.1, k1⟩, h2.2, h2.2.1, k2⟩

/-! ## hllc -/

/-- The waves of the hllc solver between two conserved states. -/
structure Fan (G : Gas K) (d : Fin 3) (a b : State K np) where
  Sl : K
  s : K
  Sr : K
  ul : State K np
  ur : State K np
  hl : Sl < s
  hr : s < Sr
  /-- The outer waves are not faster than the two fronts together. -/
  slow : -(frontSpeed G d a + frontSpeed G d b) ≤ Sl ∧ Sr ≤ frontSpeed G d a + frontSpeed G d b
  jump : eulerFlux G.gamma d (computePrimitives G.gamma b) + Sr • (ur - b) =
    eulerFlux G.gamma d (computePrimitives G.gamma a) + Sl • (ul - a) + s • (ur - ul)
  flux : let F := riemann .hllc G d (computePrimitives G.gamma a) (computePrimitives G.gamma b)
    (0 ≤ Sl → F = eulerFlux G.gamma d (computePrimitives G.gamma a)) ∧
    (Sl ≤ 0 → 0 ≤ s → F = eulerFlux G.gamma d (computePrimitives G.gamma a) + Sl • (ul - a)) ∧
    (s ≤ 0 → 0 ≤ Sr → F = eulerFlux G.gamma d (computePrimitives G.gamma b) + Sr • (ur - b)) ∧
    (Sr ≤ 0 → F = eulerFlux G.gamma d (computePrimitives G.gamma b))

theorem Fan.safe {G : Gas K} {d : Fin 3} {a b : State K np} (w : Fan G d a b) {C : State K np → Prop} (hC : IsCone C)
    (ha : C a) (hb : C b) (hul : C w.ul) (hur : C w.ur) {l : K} (hl : 0 ≤ l)
    (h1 : l * frontSpeed G d a ≤ 1 / 4) (h2 : l * frontSpeed G d b ≤ 1 / 4) :
    C ((1 / 2 : K) • a - l • (riemann .hllc G d (computePrimitives G.gamma a) (computePrimitives G.gamma b) -
      eulerFlux G.gamma d (computePrimitives G.gamma a))) ∧
    C ((1 / 2 : K) • b + l • (riemann .hllc G d (computePrimitives G.gamma a) (computePrimitives G.gamma b) -
      eulerFlux G.gamma d (computePrimitives G.gamma b))) := by
  obtain ⟨Sl, s, Sr, ul, ur, hls, hsr, ⟨b1, b2⟩, jump, f1, f2, f3, f4⟩ := w
  dsimp only at hul hur f1 f2 f3 f4
  obtain ⟨F, hF⟩ : ∃ F, F = riemann .hllc G d (computePrimitives G.gamma a) (computePrimitives G.gamma b) := ⟨_, rfl⟩
  rw [← hF] at f1 f2 f3 f4 ⊢
  clear hF
  generalize eulerFlux G.gamma d (computePrimitives G.gamma a) = fa at *
  generalize eulerFlux G.gamma d (computePrimitives G.gamma b) = fb at *
  have m1 : -(1 / 2) ≤ l * Sl := by have := mul_le_mul_of_nonneg_left b1 hl; linarith
  have m2 : l * Sr ≤ 1 / 2 := by have := mul_le_mul_of_nonneg_left b2 hl; linarith
  have m3 : 0 ≤ l * (s - Sl) := mul_nonneg hl (by linarith)
  have m4 : 0 ≤ l * (Sr - s) := mul_nonneg hl (by linarith)
  have jump' : fb - fa = Sl • (ul - a) + s • (ur - ul) + Sr • (b - ur) := by
    have : fb = (fb + Sr • (ur - b)) - Sr • (ur - b) := by abel
    rw [this, jump]
    module
  have half : (0 : K) < 1 / 2 := by norm_num
  have comb4 : ∀ (p q r t : K) (x y z w : State K np), 0 ≤ p → 0 ≤ q → 0 ≤ r → 0 ≤ t → p + q + r + t = 1 / 2 →
      C x → C y → C z → C w → C (p • x + q • y + r • z + t • w) := by
    intro p q r t x y z w hp hq hr ht hsum hx hy hz hw
    rcases hp.lt_or_eq with hp | rfl
    · exact hC.add_nonneg ht (hC.add_nonneg hr (hC.add_nonneg hq (hC.smul _ _ hp hx) hy) hz) hw
    rcases hq.lt_or_eq with hq | rfl
    · rw [zero_smul, zero_add]
      exact hC.add_nonneg ht (hC.add_nonneg hr (hC.smul _ _ hq hy) hz) hw
    rcases hr.lt_or_eq with hr | rfl
    · rw [zero_smul, zero_smul, zero_add, zero_add]
      exact hC.add_nonneg ht (hC.smul _ _ hr hz) hw
    · rw [zero_smul, zero_smul, zero_smul, zero_add, zero_add, zero_add]
      exact hC.smul _ _ (by linarith) hw
  rcases le_total 0 Sl with c1 | c1
  · have e := f1 c1
    have k0 := mul_nonneg hl c1
    constructor
    · rw [e, sub_self, smul_zero, sub_zero]
      exact hC.smul _ _ half ha
    · have := comb4 (l * Sl) (l * (s - Sl)) (l * (Sr - s)) (1 / 2 - l * Sr) a ul ur b k0 m3 m4 (by linarith) (by ring)
        ha hul hur hb
      convert this using 1
      rw [e, show fa - fb = -(fb - fa) by abel, jump']
      module
  rcases le_total 0 s with c2 | c2
  · have e := f2 c1 c2
    have k0 := mul_nonneg hl c2
    have k1 := mul_nonpos_of_nonneg_of_nonpos hl c1
    constructor
    · have := comb4 (1 / 2 + l * Sl) (-(l * Sl)) 0 0 a ul ur b (by linarith) (by linarith) le_rfl le_rfl (by ring)
        ha hul hur hb
      convert this using 1
      rw [e]
      module
    · have := comb4 0 (l * s) (l * (Sr - s)) (1 / 2 - l * Sr) a ul ur b le_rfl k0 m4 (by linarith) (by ring)
        ha hul hur hb
      convert this using 1
      rw [e, show fa + Sl • (ul - a) - fb = Sl • (ul - a) - (fb - fa) by abel, jump']
      module
  rcases le_total 0 Sr with c3 | c3
  · have e := f3 c2 c3
    have k0 := mul_nonneg hl c3
    have k1 := mul_nonpos_of_nonneg_of_nonpos hl c2
    constructor
    · have := comb4 (1 / 2 + l * Sl) (l * (s - Sl)) (-(l * s)) 0 a ul ur b (by linarith) m3 (by linarith) le_rfl
        (by ring) ha hul hur hb
      convert this using 1
      rw [e, jump]
      module
    · have := comb4 0 0 (l * Sr) (1 / 2 - l * Sr) a ul ur b le_rfl le_rfl k0 (by linarith) (by ring) ha hul hur hb
      convert this using 1
      rw [e]
      module
  · have e := f4 c3
    have k1 := mul_nonpos_of_nonneg_of_nonpos hl c3
    constructor
    · have := comb4 (1 / 2 + l * Sl) (l * (s - Sl)) (l * (Sr - s)) (-(l * Sr)) a ul ur b (by linarith) m3 m4
        (by linarith) (by ring) ha hul hur hb
      convert this using 1
      rw [e, jump']
      module
    · rw [e, sub_self, smul_zero, add_zero]
      exact hC.smul _ _ half hb

/-- Behind the wave: what the contact carries along, and the pressure. -/
theorem jump_star (γ : K) (d : Fin 3) (w : State K np) (S s : K) (hw : w .rho ≠ 0) (h1 : S - w (.mom d) ≠ 0)
    (h2 : S - s ≠ 0) (P : K) (hP : P = w .en + w .rho * (S - w (.mom d)) * (s - w (.mom d))) :
    jumpFlux γ d w S s = s • starState γ d w S s +
      fun | .mom e => if e = d then P else 0 | .en => P * s | _ => 0 := by
  rw [jumpFlux_closed γ d w S s hw h1 h2 P hP]
  funext i
  cases i with
  | rho => simp only [Pi.add_apply, Pi.smul_apply, smul_eq_mul, starState]; ring
  | mom e =>
    simp only [Pi.add_apply, Pi.smul_apply, smul_eq_mul, starState]
    split_ifs <;> ring
  | en =>
    simp only [Pi.add_apply, Pi.smul_apply, smul_eq_mul, starState]
    rw [hP]
    field_simp
    ring
  | ps j => simp only [Pi.add_apply, Pi.smul_apply, smul_eq_mul, starState]; ring

theorem star_positive {γ : K} (hγ : 1 < γ) (d : Fin 3) (w : State K np) (S s : K) (hr : 0 < w .rho) (hp : 0 < w .en)
    (hS : γ * w .en ≤ w .rho * (S - w (.mom d)) ^ 2) (hrho : 0 < starState γ d w S s .rho) :
    Positive γ (starState γ d w S s) := by
  refine ⟨hrho, ?_⟩
  have hS0 : S - w (.mom d) ≠ 0 := by
    intro h
    rw [h] at hS
    have : 0 < γ * w .en := mul_pos (by linarith) hp
    simp at hS
    linarith
  obtain ⟨r, hrdef⟩ : ∃ r, r = w .rho * (S - w (.mom d)) / (S - s) := ⟨_, rfl⟩
  have hrho' : 0 < r := by rw [hrdef]; exact hrho
  have hg : 0 < γ - 1 := by linarith
  obtain ⟨k, hk⟩ : ∃ k, k = w .en / (w .rho * (S - w (.mom d))) := ⟨_, rfl⟩
  have hkk : k ^ 2 * γ ≤ w .en / w .rho := by
    rw [hk, div_pow, div_mul_eq_mul_div, div_le_div_iff₀ (by positivity) hr]
    have := mul_le_mul_of_nonneg_left hS (mul_pos hp hr).le
    calc _ = w .en * w .rho * (γ * w .en) := by ring
      _ ≤ _ := this
      _ = _ := by ring
  have hq : 0 < w .en / w .rho := by positivity
  have key : 0 < (s - w (.mom d)) ^ 2 / 2 + (s - w (.mom d)) * k + w .en / w .rho / (γ - 1) := by
    have h1 : w .en / w .rho / γ < w .en / w .rho / (γ - 1) := by
      exact div_lt_div_of_pos_left hq hg (by linarith)
    have h2 : k ^ 2 ≤ w .en / w .rho / γ := by rw [le_div_iff₀ (by linarith)]; exact hkk
    have h3 := sq_nonneg (s - w (.mom d) + k)
    have h4 := sq_nonneg k
    nlinarith
  have e : pressureOf γ (starState γ d w S s) = (γ - 1) * (r *
      ((s - w (.mom d)) ^ 2 / 2 + (s - w (.mom d)) * k + w .en / w .rho / (γ - 1))) := by
    unfold pressureOf
    congr 1
    simp only [starState, ← hrdef, ← hk, totalEnergy]
    have hr0 := hrho'.ne'
    have hr1 := hr.ne'
    match d with
    | 0 => simp; field_simp; ring
    | 1 => simp; field_simp; ring
    | 2 => simp; field_simp; ring
  rw [e]
  exact mul_pos hg (mul_pos hrho' key)

theorem exists_fan (G : Gas K) (hG : G.OK) (d : Fin 3) (a b : State K np) (ha : Positive G.gamma a)
    (hb : Positive G.gamma b) : ∃ w : Fan G d a b, Positive G.gamma w.ul ∧ Positive G.gamma w.ur ∧
      (∃ r, 0 < r ∧ w.ul .rho = r * a .rho ∧ ∀ j, w.ul (.ps j) = r * a (.ps j)) ∧
      (∃ r, 0 < r ∧ w.ur .rho = r * b .rho ∧ ∀ j, w.ur (.ps j) = r * b (.ps j)) := by
  obtain ⟨wl, hwl⟩ : ∃ w, w = computePrimitives G.gamma a := ⟨_, rfl⟩
  obtain ⟨wr, hwr⟩ : ∃ w, w = computePrimitives G.gamma b := ⟨_, rfl⟩
  have hl : Physical wl := by rw [hwl]; exact ha.physical
  have hr : Physical wr := by rw [hwr]; exact hb.physical
  have hpl : 0 < wl .en := by rw [hwl, prim_press]; exact ha.2
  have hpr : 0 < wr .en := by rw [hwr, prim_press]; exact hb.2
  have ca : conserved G.gamma wl = a := by rw [hwl]; exact ha.conserved hG.gamma
  have cb : conserved G.gamma wr = b := by rw [hwr]; exact hb.conserved hG.gamma
  obtain ⟨cl, hcl⟩ : ∃ c, c = soundSpeed G wl := ⟨_, rfl⟩
  obtain ⟨cr, hcr⟩ : ∃ c, c = soundSpeed G wr := ⟨_, rfl⟩
  have sl := soundSpeed_spec G hG.sqrt hG.floor wl
  have sr := soundSpeed_spec G hG.sqrt hG.floor wr
  rw [← hcl] at sl
  rw [← hcr] at sr
  have isl : IsSoundSpeed G wl cl := ⟨sl.1.le, sl.2⟩
  have isr : IsSoundSpeed G wr cr := ⟨sr.1.le, sr.2⟩
  obtain ⟨hc, hcL, hcR⟩ := cmax_bounds G hG wl wr hl hr cl cr isl isr
  obtain ⟨-, -, -, b4, b5, b1, b2, r1, r2, dpos⟩ := C17_wellposed G hG d wl wr hl hr cl cr isl isr
  have hflux := C17_flux G hG d wl wr hl hr cl cr isl isr
  obtain ⟨Sl, hSl⟩ : ∃ S, S = davisL d wl wr cl cr := ⟨_, rfl⟩
  obtain ⟨Sr, hSr⟩ : ∃ S, S = davisR d wl wr cl cr := ⟨_, rfl⟩
  rw [← hSl, ← hSr] at b4 b5 r1 r2 hflux dpos
  rw [← hSl] at b1
  rw [← hSr] at b2
  dsimp only at hflux
  obtain ⟨s, hs⟩ : ∃ s, s = contactSpeed d wl wr Sl Sr := ⟨_, rfl⟩
  rw [← hs] at b4 b5 r1 r2 hflux
  have hsmul : s * (wl .rho * (wl (.mom d) - Sl) + wr .rho * (Sr - wr (.mom d))) =
      wl .rho * (wl (.mom d) - Sl) * wl (.mom d) + wr .rho * (Sr - wr (.mom d)) * wr (.mom d) + wl .en - wr .en := by
    have n1 : wl .rho * (Sl - wl (.mom d)) - wr .rho * (Sr - wr (.mom d)) ≠ 0 := by
      intro h; exact dpos.ne' (by linear_combination (-1) * h)
    rw [contactSpeed, eq_div_iff n1] at hs
    linear_combination (-1) * hs
  have jl := jump_star G.gamma d wl Sl s hl.rho.ne' (sub_ne_zero.2 b1.ne) (sub_ne_zero.2 b4.ne)
    (wl .en + wl .rho * (Sl - wl (.mom d)) * (s - wl (.mom d))) rfl
  have jr := jump_star G.gamma d wr Sr s hr.rho.ne' (sub_ne_zero.2 b2.ne') (sub_ne_zero.2 b5.ne')
    (wl .en + wl .rho * (Sl - wl (.mom d)) * (s - wl (.mom d))) (by linear_combination (-1) * hsmul)
  have el : jumpFlux G.gamma d wl Sl s = eulerFlux G.gamma d wl + Sl • (starState G.gamma d wl Sl s - a) := by
    rw [← ca]; rfl
  have er : jumpFlux G.gamma d wr Sr s = eulerFlux G.gamma d wr + Sr • (starState G.gamma d wr Sr s - b) := by
    rw [← cb]; rfl
  have fl : frontSpeed G d a = |wl (.mom d)| + cl := by rw [hcl, hwl]; rfl
  have fr : frontSpeed G d b = |wr (.mom d)| + cr := by rw [hcr, hwr]; rfl
  have vl := abs_le.1 (le_refl |wl (.mom d)|)
  have vr := abs_le.1 (le_refl |wr (.mom d)|)
  have al := abs_nonneg (wl (.mom d))
  have ar := abs_nonneg (wr (.mom d))
  have pos_l := sl.1
  have pos_r := sr.1
  refine ⟨⟨Sl, s, Sr, starState G.gamma d wl Sl s, starState G.gamma d wr Sr s, b4, b5, ?_, ?_, ?_⟩, ?_, ?_, ?_, ?_⟩
  · rw [fl, fr, hSl, hSr, davisL, davisR]
    constructor
    · rcases min_choice (wl (.mom d)) (wr (.mom d)) with h | h <;> rcases max_choice cl cr with h' | h' <;>
        rw [h, h'] <;> linarith
    · rcases max_choice (wl (.mom d)) (wr (.mom d)) with h | h <;> rcases max_choice cl cr with h' | h' <;>
        rw [h, h'] <;> linarith
  · rw [← hwl, ← hwr, ← el, ← er, jl, jr]
    module
  · rw [← hwl, ← hwr, ← el, ← er]
    exact hflux
  · refine star_positive hG.gamma d wl Sl s hl.rho hpl (hcL.trans ?_) r1
    refine mul_le_mul_of_nonneg_left ?_ hl.rho.le
    have : max cl cr ≤ wl (.mom d) - Sl := by
      rw [hSl, davisL]; have := min_le_left (wl (.mom d)) (wr (.mom d)); linarith
    rw [← neg_sub, neg_sq]
    exact pow_le_pow_left₀ hc.le this 2
  · refine star_positive hG.gamma d wr Sr s hr.rho hpr (hcR.trans ?_) r2
    refine mul_le_mul_of_nonneg_left ?_ hr.rho.le
    have : max cl cr ≤ Sr - wr (.mom d) := by
      rw [hSr, davisR]; have := le_max_right (wl (.mom d)) (wr (.mom d)); linarith
    exact pow_le_pow_left₀ hc.le this 2
  · refine ⟨(Sl - wl (.mom d)) / (Sl - s), div_pos_of_neg_of_neg (sub_neg.2 b1) (sub_neg.2 b4), ?_, fun j => ?_⟩
    · dsimp only; rw [← ca]; simp only [starState, conserved]; ring
    · dsimp only; rw [← ca]; simp only [starState, conserved]; ring
  · refine ⟨(Sr - wr (.mom d)) / (Sr - s), div_pos (sub_pos.2 b2) (sub_pos.2 b5), ?_, fun j => ?_⟩
    · dsimp only; rw [← cb]; simp only [starState, conserved]; ring
    · dsimp only; rw [← cb]; simp only [starState, conserved]; ring

theorem hllc_safe (G : Gas K) (hG : G.OK) (C : State K np → Prop) (hC : IsCone C)
    (hp : ∀ u, C u → Positive G.gamma u)
    (hstar : ∀ u v, C u → Positive G.gamma v → (∃ r, 0 < r ∧ v .rho = r * u .rho ∧ ∀ j, v (.ps j) = r * u (.ps j)) → C v) :
    HalfSafe G .hllc C C (1 / 4) := by
  intro d
  refine ⟨fun a => eulerFlux G.gamma d (computePrimitives G.gamma a), fun a b l ha hb hl h1 h2 => ?_⟩
  obtain ⟨w, w1, w2, w3, w4⟩ := exists_fan G hG d a b (hp a ha) (hp b hb)
  exact w.safe hC ha hb (hstar a _ ha w1 w3) (hstar b _ hb w2 w4) hl h1 h2

/-- The contact moves slower than the fastest front. -/
theorem contact_slow (rl rr pl pr vl vr cl cr g A B M s : K) (hpl : 0 ≤ pl) (hpr : 0 ≤ pr)
    (hrl : 0 < rl) (hrr : 0 < rr) (hcl : 0 < cl) (hcr : 0 < cr) (hg : 1 < g) (hl : g * pl ≤ rl * cl ^ 2)
    (hr : g * pr ≤ rr * cr ^ 2) (hA : rl * cl ≤ A) (hB : rr * cr ≤ B) (h1 : |vl| + cl ≤ M) (h2 : |vr| + cr ≤ M)
    (hs : s * (A + B) = A * vl + B * vr + pl - pr) : s < M ∧ -s < M := by
  have a1 := abs_le.1 (le_refl |vl|)
  have a2 := abs_le.1 (le_refl |vr|)
  have hA0 : 0 < A := (mul_pos hrl hcl).trans_le hA
  have hB0 : 0 < B := (mul_pos hrr hcr).trans_le hB
  have key : ∀ x : K, cl ≤ x → pl ≤ A * x := fun x hx => by
    have := mul_le_mul hA hx hcl.le hA0.le
    nlinarith
  have key' : ∀ x : K, cr ≤ x → pr ≤ B * x := fun x hx => by
    have := mul_le_mul hB hx hcr.le hB0.le
    nlinarith
  have hAB : 0 < A + B := by linarith
  constructor
  · refine lt_of_mul_lt_mul_right ?_ hAB.le
    rw [hs]
    have := key (M - vl) (by linarith)
    have : 0 < B * (M - vr) := mul_pos hB0 (by linarith)
    linarith
  · refine lt_of_mul_lt_mul_right ?_ hAB.le
    have := key' (M + vr) (by linarith)
    have : 0 < A * (M + vl) := mul_pos hA0 (by linarith)
    linarith

theorem carried_slow (v s S M : K) (hs : 0 ≤ s) (hS : S ≤ 0) (h2 : S < s) (h3 : v < M) (h4 : s < M) :
    s * (v - S) / (s - S) < M := by
  have hd : 0 < s - S := by linarith
  rw [div_lt_iff₀ hd]
  rcases le_total s v with c3 | c3
  · have h1 : 0 ≤ (v - s) * -S := mul_nonneg (by linarith) (by linarith)
    have h2 : v * (s - S) < M * (s - S) := mul_lt_mul_of_pos_right h3 hd
    linarith
  · have h1 : s * (v - S) ≤ s * (s - S) := mul_le_mul_of_nonneg_left (by linarith) hs
    have h2 : s * (s - S) < M * (s - S) := mul_lt_mul_of_pos_right h4 hd
    linarith

/-- The hllc solver carries mass and passive scalars together, from the side the contact comes from, slower than the
fastest front. -/
theorem hllc_mass (G : Gas K) (hG : G.OK) (d : Fin 3) (a b : State K np) (ha : Positive G.gamma a)
    (hb : Positive G.gamma b) (F : State K np)
    (hF : F = riemann .hllc G d (computePrimitives G.gamma a) (computePrimitives G.gamma b)) :
    ∃ q : K, (0 ≤ q ∧ q < max (frontSpeed G d a) (frontSpeed G d b) ∧ F .rho = q * a .rho ∧
        ∀ j, F (.ps j) = q * a (.ps j)) ∨
      (q ≤ 0 ∧ -q < max (frontSpeed G d a) (frontSpeed G d b) ∧ F .rho = q * b .rho ∧
        ∀ j, F (.ps j) = q * b (.ps j)) := by
  obtain ⟨wl, hwl⟩ : ∃ w, w = computePrimitives G.gamma a := ⟨_, rfl⟩
  obtain ⟨wr, hwr⟩ : ∃ w, w = computePrimitives G.gamma b := ⟨_, rfl⟩
  have hl : Physical wl := by rw [hwl]; exact ha.physical
  have hr : Physical wr := by rw [hwr]; exact hb.physical
  have ca : conserved G.gamma wl = a := by rw [hwl]; exact ha.conserved hG.gamma
  have cb : conserved G.gamma wr = b := by rw [hwr]; exact hb.conserved hG.gamma
  obtain ⟨cl, hcl⟩ : ∃ c, c = soundSpeed G wl := ⟨_, rfl⟩
  obtain ⟨cr, hcr⟩ : ∃ c, c = soundSpeed G wr := ⟨_, rfl⟩
  have sl := soundSpeed_spec G hG.sqrt hG.floor wl
  have sr := soundSpeed_spec G hG.sqrt hG.floor wr
  rw [← hcl] at sl
  rw [← hcr] at sr
  have isl : IsSoundSpeed G wl cl := ⟨sl.1.le, sl.2⟩
  have isr : IsSoundSpeed G wr cr := ⟨sr.1.le, sr.2⟩
  obtain ⟨-, -, -, b4, b5, b1, b2, -, -, dpos⟩ := C17_wellposed G hG d wl wr hl hr cl cr isl isr
  have hflux := C17_flux G hG d wl wr hl hr cl cr isl isr
  obtain ⟨Sl, hSl⟩ : ∃ S, S = davisL d wl wr cl cr := ⟨_, rfl⟩
  obtain ⟨Sr, hSr⟩ : ∃ S, S = davisR d wl wr cl cr := ⟨_, rfl⟩
  rw [← hSl, ← hSr] at b4 b5 hflux dpos
  rw [← hSl] at b1
  rw [← hSr] at b2
  dsimp only at hflux
  obtain ⟨s, hs⟩ : ∃ s, s = contactSpeed d wl wr Sl Sr := ⟨_, rfl⟩
  rw [← hs] at b4 b5 hflux
  have hF' : F = hllc G d wl wr := by rw [hF, hwl, hwr]; rfl
  rw [← hF'] at hflux
  have fl : frontSpeed G d a = |wl (.mom d)| + cl := by rw [hcl, hwl]; rfl
  have fr : frontSpeed G d b = |wr (.mom d)| + cr := by rw [hcr, hwr]; rfl
  obtain ⟨M, hM⟩ : ∃ M, M = max (frontSpeed G d a) (frontSpeed G d b) := ⟨_, rfl⟩
  rw [← hM]
  have M1 : |wl (.mom d)| + cl ≤ M := by rw [hM, ← fl]; exact le_max_left _ _
  have M2 : |wr (.mom d)| + cr ≤ M := by rw [hM, ← fr]; exact le_max_right _ _
  have vl := abs_le.1 (le_refl |wl (.mom d)|)
  have vr := abs_le.1 (le_refl |wr (.mom d)|)
  have pos_l := sl.1
  have pos_r := sr.1
  have hsmul : s * (wl .rho * (wl (.mom d) - Sl) + wr .rho * (Sr - wr (.mom d))) =
      wl .rho * (wl (.mom d) - Sl) * wl (.mom d) + wr .rho * (Sr - wr (.mom d)) * wr (.mom d) + wl .en - wr .en := by
    have n1 : wl .rho * (Sl - wl (.mom d)) - wr .rho * (Sr - wr (.mom d)) ≠ 0 := by
      intro h; exact dpos.ne' (by linear_combination (-1) * h)
    rw [contactSpeed, eq_div_iff n1] at hs
    linear_combination (-1) * hs
  have gl : G.gamma * wl .en ≤ wl .rho * cl ^ 2 := by
    have : G.gamma * wl .en / wl .rho ≤ cl ^ 2 := by rw [sl.2]; exact le_max_left _ _
    rw [div_le_iff₀ hl.rho] at this
    linarith
  have gr : G.gamma * wr .en ≤ wr .rho * cr ^ 2 := by
    have : G.gamma * wr .en / wr .rho ≤ cr ^ 2 := by rw [sr.2]; exact le_max_left _ _
    rw [div_le_iff₀ hr.rho] at this
    linarith
  have hSM := contact_slow (wl .rho) (wr .rho) (wl .en) (wr .en) (wl (.mom d)) (wr (.mom d)) cl cr G.gamma
    (wl .rho * (wl (.mom d) - Sl)) (wr .rho * (Sr - wr (.mom d))) M s hl.press hr.press hl.rho hr.rho pos_l pos_r
    hG.gamma gl gr
    (mul_le_mul_of_nonneg_left (by
      rw [hSl, davisL]
      have := min_le_left (wl (.mom d)) (wr (.mom d)); have := le_max_left cl cr; linarith) hl.rho.le)
    (mul_le_mul_of_nonneg_left (by
      rw [hSr, davisR]
      have := le_max_right (wl (.mom d)) (wr (.mom d)); have := le_max_right cl cr; linarith) hr.rho.le)
    M1 M2 hsmul
  obtain ⟨f1, f2, f3, f4⟩ := hflux
  rcases le_total 0 Sl with c1 | c1
  · refine ⟨wl (.mom d), .inl ⟨by linarith, by linarith, ?_, fun j => ?_⟩⟩ <;> rw [f1 c1, ← ca] <;>
      simp only [eulerFlux, conserved] <;> ring
  rcases le_total 0 s with c2 | c2
  · have hd : 0 < s - Sl := by linarith
    refine ⟨s * (wl (.mom d) - Sl) / (s - Sl), .inl ⟨?_, ?_, ?_, fun j => ?_⟩⟩
    · exact div_nonneg (mul_nonneg c2 (by linarith)) hd.le
    · exact carried_slow _ _ _ _ c2 c1 b4 (by linarith) hSM.1
    all_goals
      rw [f2 c1 c2, ← ca, jumpFlux_closed G.gamma d wl Sl s hl.rho.ne' (sub_ne_zero.2 b1.ne) (sub_ne_zero.2 b4.ne) _ rfl]
      simp only [conserved]
      have := sub_ne_zero.2 b4.ne
      have := hd.ne'
      field_simp
      ring
  rcases le_total 0 Sr with c3 | c3
  · have hd : 0 < Sr - s := by linarith
    refine ⟨s * (Sr - wr (.mom d)) / (Sr - s), .inr ⟨?_, ?_, ?_, fun j => ?_⟩⟩
    · exact div_nonpos_of_nonpos_of_nonneg (mul_nonpos_of_nonpos_of_nonneg c2 (by linarith)) hd.le
    · have := carried_slow (-wr (.mom d)) (-s) (-Sr) M (by linarith) (by linarith) (by linarith) (by linarith) hSM.2
      rwa [show -(s * (Sr - wr (.mom d)) / (Sr - s)) = -s * (-wr (.mom d) - -Sr) / (-s - -Sr) by
        rw [← neg_div]; congr 1 <;> ring]
    all_goals
      rw [f3 c2 c3, ← cb, jumpFlux_closed G.gamma d wr Sr s hr.rho.ne' (sub_ne_zero.2 b2.ne') (sub_ne_zero.2 b5.ne') _ rfl]
      simp only [conserved]
      have := hd.ne'
      field_simp
  · refine ⟨wr (.mom d), .inr ⟨by linarith, by linarith, ?_, fun j => ?_⟩⟩ <;> rw [f4 c3, ← cb] <;>
      simp only [eulerFlux, conserved] <;> ring

theorem hllc_within (G : Gas K) (hG : G.OK) (j : Fin np) (lo hi : K) :
    HalfSafe G .hllc (fun u : State K np => Positive G.gamma u ∧ Within j lo hi u)
      (fun u => 0 < u .rho ∧ Within j lo hi u) (1 / 2) := by
  intro d
  refine ⟨fun _ => 0, fun a b l ha hb hl h1 h2 => ?_⟩
  obtain ⟨F, hF⟩ : ∃ F, F = riemann .hllc G d (computePrimitives G.gamma a) (computePrimitives G.gamma b) := ⟨_, rfl⟩
  obtain ⟨q, hq⟩ := hllc_mass G hG d a b ha.1 hb.1 F hF
  rw [← hF, sub_zero]
  have small : ∀ x : K, x < max (frontSpeed G d a) (frontSpeed G d b) → l * x < 1 / 2 := by
    intro x hx
    rcases hl.lt_or_eq with hl | rfl
    · have h3 : l * max (frontSpeed G d a) (frontSpeed G d b) ≤ 1 / 2 := by
        rcases max_choice (frontSpeed G d a) (frontSpeed G d b) with h | h <;> rw [h] <;> assumption
      exact (mul_lt_mul_of_pos_left hx hl).trans_le h3
    · rw [zero_mul]; norm_num
  have comb : ∀ (x y : K) (v w z : State K np), 0 < x → 0 ≤ y → (Positive G.gamma v ∧ Within j lo hi v) →
      (Positive G.gamma w ∧ Within j lo hi w) → z .rho = x * v .rho + y * w .rho →
      z (.ps j) = x * v (.ps j) + y * w (.ps j) → 0 < z .rho ∧ Within j lo hi z := by
    intro x y v w z hx hy hv hw e1 e2
    have hv1 := hv.1.1
    have hw1 := hw.1.1
    refine ⟨by rw [e1]; positivity, ?_⟩
    unfold Within
    rw [e1, e2]
    have k1 := mul_le_mul_of_nonneg_left hv.2.1 hx.le
    have k2 := mul_le_mul_of_nonneg_left hv.2.2 hx.le
    have k3 := mul_le_mul_of_nonneg_left hw.2.1 hy
    have k4 := mul_le_mul_of_nonneg_left hw.2.2 hy
    constructor <;> linarith
  rcases hq with ⟨q0, qM, e1, e2⟩ | ⟨q0, qM, e1, e2⟩
  · have := small q qM
    have q1 := mul_nonneg hl q0
    constructor
    · refine comb (1 / 2 - l * q) 0 a b _ (by linarith) le_rfl ha hb ?_ ?_ <;>
        simp only [Pi.sub_apply, Pi.smul_apply, smul_eq_mul, e1, e2] <;> ring
    · refine comb (1 / 2) (l * q) b a _ (by norm_num) q1 hb ha ?_ ?_ <;>
        simp only [Pi.add_apply, Pi.smul_apply, smul_eq_mul, e1, e2, sub_zero] <;> ring
  · have := small (-q) qM
    have q1 := mul_nonpos_of_nonneg_of_nonpos hl q0
    constructor
    · refine comb (1 / 2) (-(l * q)) a b _ (by norm_num) (by linarith) ha hb ?_ ?_ <;>
        simp only [Pi.sub_apply, Pi.smul_apply, smul_eq_mul, e1, e2] <;> ring
    · refine comb (1 / 2 + l * q) 0 b a _ (by linarith) le_rfl hb ha ?_ ?_ <;>
        simp only [Pi.add_apply, Pi.smul_apply, smul_eq_mul, e1, e2, sub_zero] <;> ring

end FVHOE
