import Verif.Proofs.Float
import Verif.Proofs.FloatLoop
import Verif.Props.C01_C03
import Verif.Model.FloatStep

/-!
Rounding errors of the flux divergence and of the steppers, cell by cell, and the drift of a functional over a run.
-/

set_option linter.unusedSectionVars false

namespace FVHOE

/-! ### One operation -/

/-- A number of size at most `X` is rounded with an error of at most `2 ^ (-p) X`, if `X` is not below the normal range. -/
theorem Format.fl_err (F : Format) (hp : 1 ≤ F.p) {x X : ℚ} (hx : |x| ≤ X) (hX : (2 : ℚ) ^ (F.emin - 1 + F.p) ≤ X) :
    |F.fl x - x| ≤ 2 ^ (-(F.p : ℤ)) * X := by
  have h2 : (2 : ℚ) ≠ 0 := by norm_num
  have hX0 : 0 ≤ X := le_trans (abs_nonneg _) hx
  by_cases h0 : x = 0
  · rw [h0, F.fl_eq hp F.has_zero]
    simp only [sub_zero, abs_zero]
    positivity
  · refine (F.fl_near x).trans ?_
    have e : ∀ k : ℤ, (1 / 2 : ℚ) * 2 ^ k = 2 ^ (-(F.p : ℤ)) * 2 ^ (k - 1 + F.p) := by
      intro k
      rw [← zpow_add₀ h2, show -(F.p : ℤ) + (k - 1 + F.p) = k + (-1) by ring, zpow_add₀ h2]
      norm_num
      ring
    rw [e]
    refine mul_le_mul_of_nonneg_left ?_ (by positivity)
    unfold Format.lastBit
    rcases max_choice (binade x + 1 - (F.p : ℤ)) F.emin with h | h
    · rw [h, show binade x + 1 - (F.p : ℤ) - 1 + F.p = binade x by ring]
      exact (binade_spec h0).1.trans hx
    · rw [h]
      exact hX

/-- Rounding with relative error `ε` for numbers bounded by at least `τ`. -/
structure Rounds (fl : ℚ → ℚ) (ε τ : ℚ) : Prop where
  err : ∀ x X, |x| ≤ X → τ ≤ X → |fl x - x| ≤ ε * X
  pos : 0 ≤ ε
  small : ε ≤ 1 / 1024
  tiny : 0 < τ

theorem Format.rounds (F : Format) (hp : 10 ≤ F.p) : Rounds F.fl (2 ^ (-(F.p : ℤ))) (2 ^ (F.emin - 1 + F.p)) where
  err := fun _ _ hx hX => F.fl_err (by omega) hx hX
  pos := by positivity
  small := by
    have : (2 : ℚ) ^ (-(F.p : ℤ)) ≤ 2 ^ (-10 : ℤ) := zpow_le_zpow_right₀ (by norm_num) (by omega)
    refine this.trans (by norm_num)
  tiny := by positivity

variable {fl : ℚ → ℚ} {ε τ : ℚ}

theorem Rounds.both (h : Rounds fl ε τ) {x X : ℚ} (hx : |x| ≤ X) (hX : τ ≤ X) :
    |fl x - x| ≤ ε * X ∧ |fl x| ≤ |x| + ε * X := by
  have h1 := h.err x X hx hX
  refine ⟨h1, ?_⟩
  have := abs_add_le x (fl x - x)
  rw [add_sub_cancel] at this
  linarith

theorem Rounds.size (h : Rounds fl ε τ) {x X : ℚ} (hx : |x| ≤ X) (hX : τ ≤ X) : |fl x| ≤ 1.001 * X := by
  have h1 := (h.both hx hX).2
  have h0 : 0 < X := h.tiny.trans_le hX
  have : ε * X ≤ 1 / 1024 * X := mul_le_mul_of_nonneg_right h.small h0.le
  linarith

/-! ### The flux divergence -/

/-- One flux difference. -/
theorem Rounds.diff (H : Rounds fl ε τ) {a b M h : ℚ} (ha : |a| ≤ M) (hb : |b| ≤ M) (hh : 0 < h) (h1 : τ ≤ 1 / h)
    (h2 : τ ≤ M) (h3 : τ ≤ M / h) :
    |fl (-fl (1 / h) * fl (a - b)) - -fl (1 / h) * (a - b)| ≤ 4.02 * ε * (M / h) ∧
      |fl (-fl (1 / h) * fl (a - b))| ≤ 2.01 * (M / h) := by
  have hM : 0 < M := H.tiny.trans_le h2
  have hε := H.pos
  have hε' := H.small
  have hv : |1 / h| ≤ 1 / h := (abs_of_pos (by positivity)).le
  have hinv := H.size hv h1
  have hd : |a - b| ≤ 2 * M := (abs_sub a b).trans (by linarith)
  obtain ⟨e1, _⟩ := H.both hd (by linarith)
  have s1 := H.size hd (by linarith)
  set v := fl (1 / h)
  set δ := fl (a - b)
  have hr : 0 < M / h := by positivity
  have hvM : |v| * M ≤ 1.001 * (M / h) := by
    calc |v| * M ≤ 1.001 * (1 / h) * M := mul_le_mul_of_nonneg_right hinv hM.le
      _ = _ := by ring
  have hp : |-v * δ| ≤ 2.005 * (M / h) := by
    rw [abs_mul, abs_neg]
    calc |v| * |δ| ≤ |v| * (1.001 * (2 * M)) := mul_le_mul_of_nonneg_left s1 (abs_nonneg _)
      _ = 2.002 * (|v| * M) := by ring
      _ ≤ 2.002 * (1.001 * (M / h)) := by linarith
      _ ≤ _ := by linarith
  obtain ⟨e2, _⟩ := H.both hp (by linarith)
  have s2 := H.size hp (by linarith)
  refine ⟨?_, s2.trans (by linarith)⟩
  have e3 : |-v * δ - -v * (a - b)| ≤ 2.002 * (ε * (M / h)) := by
    rw [← mul_sub, abs_mul, abs_neg]
    calc |v| * |δ - (a - b)| ≤ |v| * (ε * (2 * M)) := mul_le_mul_of_nonneg_left e1 (abs_nonneg _)
      _ = 2 * ε * (|v| * M) := by ring
      _ ≤ 2 * ε * (1.001 * (M / h)) := mul_le_mul_of_nonneg_left hvM (by linarith)
      _ = _ := by ring
  have := abs_sub_le (fl (-v * δ)) (-v * δ) (-v * (a - b))
  have hεr : 0 ≤ ε * (M / h) := mul_nonneg hε hr.le
  have e4 : ε * (2.005 * (M / h)) = 2.005 * (ε * (M / h)) := by ring
  rw [e4] at e2
  linarith

/-- Adding a term to the accumulated sum, or not. -/
theorem Rounds.accumulate (H : Rounds fl ε τ) (act : Bool) {s S t T r ρ α β α' β' : ℚ}
    (hs : |s - S| ≤ α * (ε * ρ)) (hs' : |s| ≤ β * ρ) (hρ : 0 ≤ ρ)
    (ht : act = true → |t - T| ≤ 4.02 * ε * r ∧ |t| ≤ 2.01 * r ∧ τ ≤ r)
    (hβ : 0 ≤ β) (hβm : β ≤ 2.03) (h1 : α + 2.03 ≤ α') (h2 : 6.05 ≤ α') (h3 : 1.001 * β ≤ β')
    (h4 : 2.015 ≤ β') :
    |(if act then fl (s + t) else s) - (S + if act then T else 0)| ≤ α' * (ε * (ρ + if act then r else 0)) ∧
      |if act then fl (s + t) else s| ≤ β' * (ρ + if act then r else 0) := by
  have hερ : 0 ≤ ε * ρ := mul_nonneg H.pos hρ
  cases act with
  | false =>
    simp only [Bool.false_eq_true, if_false, add_zero]
    refine ⟨hs.trans (mul_le_mul_of_nonneg_right (by linarith) hερ), hs'.trans (mul_le_mul_of_nonneg_right (by linarith) hρ)⟩
  | true =>
    obtain ⟨t1, t2, t3⟩ := ht rfl
    simp only [if_true]
    have hr : 0 < r := H.tiny.trans_le t3
    have hX : |s + t| ≤ β * ρ + 2.01 * r := (abs_add_le s t).trans (by linarith)
    have hβρ : 0 ≤ β * ρ := mul_nonneg hβ hρ
    obtain ⟨e, _⟩ := H.both hX (by linarith)
    have sz := H.size hX (by linarith)
    have hεr : 0 ≤ ε * r := mul_nonneg H.pos hr.le
    constructor
    · have a1 := abs_sub_le (fl (s + t)) (s + t) (S + T)
      have a2 : |s + t - (S + T)| ≤ |s - S| + |t - T| := by
        rw [show s + t - (S + T) = (s - S) + (t - T) by ring]
        exact abs_add_le _ _
      have a3 : ε * (β * ρ + 2.01 * r) = β * (ε * ρ) + 2.01 * (ε * r) := by ring
      have a4 : β * (ε * ρ) ≤ 2.03 * (ε * ρ) := mul_le_mul_of_nonneg_right hβm hερ
      have a5 : (α + 2.03) * (ε * ρ) ≤ α' * (ε * ρ) := mul_le_mul_of_nonneg_right h1 hερ
      have a6 : 6.05 * (ε * r) ≤ α' * (ε * r) := mul_le_mul_of_nonneg_right h2 hεr
      have a7 : 4.02 * ε * r = 4.02 * (ε * r) := by ring
      have a8 : α' * (ε * (ρ + r)) = α' * (ε * ρ) + α' * (ε * r) := by ring
      rw [a8]
      rw [a3] at e
      rw [a7] at t1
      have a9 : (α + 2.03) * (ε * ρ) = α * (ε * ρ) + 2.03 * (ε * ρ) := by ring
      linarith
    · have a1 : 1.001 * β * ρ ≤ β' * ρ := mul_le_mul_of_nonneg_right h3 hρ
      have a2 : 2.015 * r ≤ β' * r := mul_le_mul_of_nonneg_right h4 hr.le
      linarith

variable {W : Type}

/-- Sum over the active directions. -/
def activeSum (act : Fin 3 → Bool) (x : Fin 3 → ℚ) : ℚ := ∑ d, if act d then x d else 0

/-- The divergence with the rounded reciprocal of the mesh size and exact sums and products. -/
def scaledDiv (fl : ℚ → ℚ) (act : Fin 3 → Bool) (h : Fin 3 → ℚ) (F : Fin 3 → FState W) : FState W := fun w i =>
  activeSum act fun d => -fl (1 / h d) * (F d w (i + Pi.single d 1) - F d w i)

theorem Rounds.divergence (H : Rounds fl ε τ) (act : Fin 3 → Bool) (h : Fin 3 → ℚ) (F : Fin 3 → FState W) (w : W) (i : Ix)
    (M : Fin 3 → ℚ) (hF : ∀ d, act d = true → |F d w (i + Pi.single d 1)| ≤ M d ∧ |F d w i| ≤ M d)
    (hh : ∀ d, act d = true → 0 < h d ∧ τ ≤ 1 / h d ∧ τ ≤ M d ∧ τ ≤ M d / h d) :
    |roundedEulerEquation fl act h F w i - scaledDiv fl act h F w i| ≤ 10.2 * (ε * activeSum act fun d => M d / h d) ∧
      |roundedEulerEquation fl act h F w i| ≤ 2.04 * activeSum act fun d => M d / h d := by
  have hterm (d : Fin 3) : act d = true →
      |roundedDiff fl (h d) d (F d) w i - -fl (1 / h d) * (F d w (i + Pi.single d 1) - F d w i)| ≤ 4.02 * ε * (M d / h d) ∧
      |roundedDiff fl (h d) d (F d) w i| ≤ 2.01 * (M d / h d) ∧ τ ≤ M d / h d := by
    intro hd
    obtain ⟨a, b, c, e⟩ := hh d hd
    obtain ⟨p, q⟩ := H.diff (hF d hd).1 (hF d hd).2 a b c e
    exact ⟨p, q, e⟩
  have hr (d : Fin 3) : 0 ≤ if act d then M d / h d else 0 := by
    split
    · rename_i hd
      exact (H.tiny.trans_le (hh d hd).2.2.2).le
    · exact le_rfl
  have s0 := H.accumulate (act 0) (s := 0) (S := 0) (ρ := 0) (α := 0) (β := 0) (α' := 6.05) (β' := 2.015) (by simp)
    (by simp) le_rfl (hterm 0) (by norm_num) (by norm_num) (by norm_num) (by norm_num) (by norm_num) (by norm_num)
  have s1 := H.accumulate (act 1) (α' := 8.1) (β' := 2.02) s0.1 s0.2 (by have := hr 0; linarith) (hterm 1)
    (by norm_num) (by norm_num) (by norm_num) (by norm_num) (by norm_num) (by norm_num)
  have s2 := H.accumulate (act 2) (α' := 10.2) (β' := 2.04) s1.1 s1.2 (by have := hr 0; have := hr 1; linarith) (hterm 2)
    (by norm_num) (by norm_num) (by norm_num) (by norm_num) (by norm_num) (by norm_num)
  have e1 : ∀ x : Fin 3 → ℚ, activeSum act x =
      (0 + if act 0 then x 0 else 0) + (if act 1 then x 1 else 0) + if act 2 then x 2 else 0 := by
    intro x
    simp [activeSum, Fin.sum_univ_three]
  have e2 : roundedEulerEquation fl act h F w i =
      if act 2 then fl ((if act 1 then fl ((if act 0 then fl (0 + roundedDiff fl (h 0) 0 (F 0) w i) else 0) +
        roundedDiff fl (h 1) 1 (F 1) w i) else if act 0 then fl (0 + roundedDiff fl (h 0) 0 (F 0) w i) else 0) +
        roundedDiff fl (h 2) 2 (F 2) w i) else if act 1 then fl ((if act 0 then fl (0 + roundedDiff fl (h 0) 0 (F 0) w i)
        else 0) + roundedDiff fl (h 1) 1 (F 1) w i) else if act 0 then fl (0 + roundedDiff fl (h 0) 0 (F 0) w i) else 0 := by
    unfold roundedEulerEquation
    cases h0 : act 0 <;> cases h1 : act 1 <;> cases h2 : act 2 <;> simp [FState.plus, h0, h1, h2]
  rw [e2, scaledDiv, e1, e1]
  exact s2

/-- The exact divergence adds up to nothing when the fluxes through opposite sides agree. -/
theorem cellSum_scaledDiv (n : Fin 3 → ℕ) (act : Fin 3 → Bool) (h : Fin 3 → ℚ) (F : Fin 3 → FState W) (w : W)
    (hends : ∀ d, act d = true → ∀ i : Ix, (∀ e, e ≠ d → 0 ≤ i e ∧ i e < n e) →
      F d w (Function.update i d (n d : ℤ)) = F d w (Function.update i d 0)) :
    cellSum n (scaledDiv fl act h F w) = 0 := by
  unfold scaledDiv activeSum
  rw [cellSum_finset]
  refine Finset.sum_eq_zero fun d _ => ?_
  by_cases hd : act d = true
  · simp only [hd, if_true]
    have := cellSum_smul (K := ℚ) n (-fl (1 / h d)) fun i => F d w (i + Pi.single d 1) - F d w i
    simp only [smul_eq_mul] at this
    rw [this, cellSum_telescope]
    have : layerSum n d (n d) (F d w) = layerSum n d 0 (F d w) := by
      unfold layerSum
      refine cellSum_congr _ _ _ fun i hi => hends d hd i fun e he => ?_
      have := hi e
      rwa [Function.update_of_ne he] at this
    rw [this]
    simp
  · simp only [hd]
    simp [cellSum]

/-- A sum over cells of numbers bounded by `b`. -/
theorem cellSum_abs_le (n : Fin 3 → ℕ) (f : Ix → ℚ) (b : ℚ) (h : ∀ i, InCells n i → |f i| ≤ b) :
    |cellSum n f| ≤ ((n 0 * n 1 * n 2 : ℕ) : ℚ) * b := by
  unfold cellSum
  have e : ((n 0 * n 1 * n 2 : ℕ) : ℚ) * b = ∑ _a ∈ Finset.range (n 0), ∑ _b ∈ Finset.range (n 1),
      ∑ _c ∈ Finset.range (n 2), b := by
    simp only [Finset.sum_const, Finset.card_range, nsmul_eq_mul]
    push_cast
    ring
  rw [e]
  refine (Finset.abs_sum_le_sum_abs _ _).trans (Finset.sum_le_sum fun a ha => ?_)
  refine (Finset.abs_sum_le_sum_abs _ _).trans (Finset.sum_le_sum fun c hc => ?_)
  refine (Finset.abs_sum_le_sum_abs _ _).trans (Finset.sum_le_sum fun k hk => ?_)
  rw [Finset.mem_range] at ha hc hk
  refine h _ fun d => ?_
  fin_cases d <;> simp <;> omega

/-! ### The steppers, in one cell -/

/-- A number with its error. -/
def WithError (x y e s : ℚ) : Prop := |x - y| ≤ e ∧ |x| ≤ s

theorem WithError.mono {x y e s e' s' : ℚ} (h : WithError x y e s) (he : e ≤ e') (hs : s ≤ s') : WithError x y e' s' :=
  ⟨h.1.trans he, h.2.trans hs⟩

/-- A rounded sum. -/
theorem Rounds.add (H : Rounds fl ε τ) {x y e s x' y' e' s' : ℚ} (h : WithError x y e s) (h' : WithError x' y' e' s')
    (ht : τ ≤ s + s') : WithError (fl (x + x')) (y + y') (e + e' + ε * (s + s')) (s + s' + ε * (s + s')) := by
  have hx : |x + x'| ≤ s + s' := (abs_add_le _ _).trans (add_le_add h.2 h'.2)
  obtain ⟨a, b⟩ := H.both hx ht
  refine ⟨?_, b.trans (by linarith)⟩
  have c := abs_sub_le (fl (x + x')) (x + x') (y + y')
  have d : |x + x' - (y + y')| ≤ e + e' := by
    rw [show x + x' - (y + y') = (x - y) + (x' - y') by ring]
    exact (abs_add_le _ _).trans (add_le_add h.1 h'.1)
  linarith

/-- A rounded product with a number of size at most `c`; `X` is a bound for the product not below `τ`. -/
theorem Rounds.mul (H : Rounds fl ε τ) {x y e s c C X : ℚ} (hc : |c| ≤ C) (h : WithError x y e s) (hX : C * s ≤ X) (ht : τ ≤ X) :
    WithError (fl (c * x)) (c * y) (C * e + ε * X) (C * s + ε * X) := by
  have hx : |c * x| ≤ C * s := by
    rw [abs_mul]
    exact mul_le_mul hc h.2 (abs_nonneg _) (le_trans (abs_nonneg _) hc)
  obtain ⟨a, b⟩ := H.both (hx.trans hX) ht
  refine ⟨?_, b.trans (by linarith)⟩
  have d := abs_sub_le (fl (c * x)) (c * x) (c * y)
  have e' : |c * x - c * y| ≤ C * e := by
    rw [← mul_sub, abs_mul]
    exact mul_le_mul hc h.1 (abs_nonneg _) (le_trans (abs_nonneg _) hc)
  linarith

section cell

variable (H : Rounds fl ε τ) {u dt B R D : ℚ} (hu : |u| ≤ B) (hdt : |dt| ≤ D) (hB : τ ≤ B) (hR : τ ≤ R)
include H hu hdt hB hR

/-- `dt * k`. -/
theorem Rounds.scaled {k k' : ℚ} (hk : WithError k k' (10.2 * (ε * R)) (2.04 * R)) :
    WithError (fl (dt * k)) (dt * k') (ε * (12.3 * (D * R) + B)) (2.05 * (D * R) + 0.001 * B) := by
  have hD : 0 ≤ D := (abs_nonneg _).trans hdt
  have hA : 0 ≤ D * R := mul_nonneg hD (H.tiny.trans_le hR).le
  have hBp : 0 ≤ B := (H.tiny.trans_le hB).le
  have f1 : 0 ≤ ε * (D * R) := mul_nonneg H.pos hA
  have f2 : 0 ≤ ε * B := mul_nonneg H.pos hBp
  have f3 := mul_le_mul_of_nonneg_right H.small hA
  have f4 := mul_le_mul_of_nonneg_right H.small hBp
  refine (H.mul (X := 2.04 * (D * R) + B) hdt hk (by linarith) (by linarith)).mono ?_ ?_ <;> linarith

/-- The stepper of `euler`. -/
theorem Rounds.euler {k k' : ℚ} (hk : WithError k k' (10.2 * (ε * R)) (2.04 * R)) :
    WithError (fl (u + fl (dt * k))) (u + dt * k') (ε * (15 * (D * R) + 3 * B)) (2.1 * (D * R) + 1.1 * B) := by
  have hD : 0 ≤ D := (abs_nonneg _).trans hdt
  have hA : 0 ≤ D * R := mul_nonneg hD (H.tiny.trans_le hR).le
  have hBp : 0 ≤ B := (H.tiny.trans_le hB).le
  have f1 : 0 ≤ ε * (D * R) := mul_nonneg H.pos hA
  have f2 : 0 ≤ ε * B := mul_nonneg H.pos hBp
  have f3 := mul_le_mul_of_nonneg_right H.small hA
  have f4 := mul_le_mul_of_nonneg_right H.small hBp
  have n0 : WithError u u 0 B := ⟨by simp, hu⟩
  refine (H.add n0 (H.scaled hu hdt hB hR hk) (by linarith)).mono ?_ ?_ <;> linarith

/-- The stepper of `ssprk2`. -/
theorem Rounds.ssprk2 {k0 k0' k1 k1' : ℚ} (h0 : WithError k0 k0' (10.2 * (ε * R)) (2.04 * R))
    (h1 : WithError k1 k1' (10.2 * (ε * R)) (2.04 * R)) :
    |fl (fl (1 / 2 * u) + fl (1 / 2 * fl (fl (u + fl (dt * k0)) + fl (dt * k1)))) -
      (1 / 2 * u + 1 / 2 * (u + dt * k0' + dt * k1'))| ≤ ε * (25 * (D * R) + 6 * B) := by
  have hD : 0 ≤ D := (abs_nonneg _).trans hdt
  have hA : 0 ≤ D * R := mul_nonneg hD (H.tiny.trans_le hR).le
  have hBp : 0 ≤ B := (H.tiny.trans_le hB).le
  have f1 : 0 ≤ ε * (D * R) := mul_nonneg H.pos hA
  have f2 : 0 ≤ ε * B := mul_nonneg H.pos hBp
  have f3 := mul_le_mul_of_nonneg_right H.small hA
  have f4 := mul_le_mul_of_nonneg_right H.small hBp
  have hhalf : |(1 / 2 : ℚ)| ≤ 1 / 2 := by norm_num
  have n0 : WithError u u 0 B := ⟨by simp, hu⟩
  have a1 := H.add (H.euler hu hdt hB hR h0) (H.scaled hu hdt hB hR h1) (by linarith)
  have a2 := a1.mono (e' := ε * (31.7 * (D * R) + 5.2 * B)) (s' := 4.2 * (D * R) + 1.2 * B) (by linarith) (by linarith)
  have a3 := (H.mul (X := 2.1 * (D * R) + B) hhalf a2 (by linarith) (by linarith)).mono
    (e' := ε * (18 * (D * R) + 3.6 * B)) (s' := 2.2 * (D * R) + 0.7 * B) (by linarith) (by linarith)
  have a4 := (H.mul (X := B) hhalf n0 (by linarith) (by linarith)).mono (e' := ε * B) (s' := 0.6 * B) (by linarith)
    (by linarith)
  exact (H.add a4 a3 (by linarith)).1.trans (by linarith)

/-- The factor `(1 / 6) * dt`. -/
theorem Rounds.sixth (hτ : τ ≤ 1 / 6) (hDτ : τ ≤ D) : |fl (fl (1 / 6) * dt)| ≤ 0.17 * D := by
  have hD : 0 ≤ D := (abs_nonneg _).trans hdt
  have h1 := H.size (x := 1 / 6) (X := 1 / 6) (by norm_num) hτ
  have h2 : |fl (1 / 6) * dt| ≤ 0.169 * D := by
    rw [abs_mul]
    exact mul_le_mul (h1.trans (by norm_num)) hdt (abs_nonneg _) (by norm_num)
  have h3 := H.err _ D (h2.trans (by linarith)) hDτ
  have h4 := abs_add_le (fl (1 / 6) * dt) (fl (fl (1 / 6) * dt) - fl (1 / 6) * dt)
  rw [add_sub_cancel] at h4
  have h5 := mul_le_mul_of_nonneg_right H.small hD
  linarith

/-- The end of the steppers of `ssprk3` and `rk4`. -/
theorem Rounds.last {c x y : ℚ} (hc : |c| ≤ 0.17 * D) (hx : WithError x y (105 * (ε * R)) (13.2 * R)) :
    |fl (u + fl (c * x)) - (u + c * y)| ≤ ε * (25 * (D * R) + 6 * B) := by
  have hD : 0 ≤ D := (abs_nonneg _).trans hdt
  have hA : 0 ≤ D * R := mul_nonneg hD (H.tiny.trans_le hR).le
  have hBp : 0 ≤ B := (H.tiny.trans_le hB).le
  have f1 : 0 ≤ ε * (D * R) := mul_nonneg H.pos hA
  have f2 : 0 ≤ ε * B := mul_nonneg H.pos hBp
  have f3 := mul_le_mul_of_nonneg_right H.small hA
  have f4 := mul_le_mul_of_nonneg_right H.small hBp
  have n0 : WithError u u 0 B := ⟨by simp, hu⟩
  have a1 := (H.mul (X := 2.25 * (D * R) + B) hc hx (by linarith) (by linarith)).mono
    (e' := ε * (20.2 * (D * R) + B)) (s' := 2.26 * (D * R) + 0.001 * B) (by linarith) (by linarith)
  exact (H.add n0 a1 (by linarith)).1.trans (by linarith)

omit hu hdt hB in
/-- `k0 + k1 + 4 * k2`. -/
theorem Rounds.sum3 {k0 k0' k1 k1' k2 k2' : ℚ} (h0 : WithError k0 k0' (10.2 * (ε * R)) (2.04 * R))
    (h1 : WithError k1 k1' (10.2 * (ε * R)) (2.04 * R)) (h2 : WithError k2 k2' (10.2 * (ε * R)) (2.04 * R)) :
    WithError (fl (fl (k0 + k1) + fl (4 * k2))) (k0' + k1' + 4 * k2') (105 * (ε * R)) (13.2 * R) := by
  have hRp : 0 ≤ R := (H.tiny.trans_le hR).le
  have f1 : 0 ≤ ε * R := mul_nonneg H.pos hRp
  have f3 := mul_le_mul_of_nonneg_right H.small hRp
  have a1 := (H.add h0 h1 (by linarith)).mono (e' := 24.5 * (ε * R)) (s' := 4.09 * R) (by linarith) (by linarith)
  have a2 := (H.mul (C := 4) (c := 4) (X := 8.16 * R) (by norm_num) h2 (by linarith) (by linarith)).mono
    (e' := 49 * (ε * R)) (s' := 8.17 * R) (by linarith) (by linarith)
  exact (H.add a1 a2 (by linarith)).mono (by linarith) (by linarith)

omit hu hdt hB in
/-- `k0 + 2 * k1 + 2 * k2 + k3`. -/
theorem Rounds.sum4 {k0 k0' k1 k1' k2 k2' k3 k3' : ℚ} (h0 : WithError k0 k0' (10.2 * (ε * R)) (2.04 * R))
    (h1 : WithError k1 k1' (10.2 * (ε * R)) (2.04 * R)) (h2 : WithError k2 k2' (10.2 * (ε * R)) (2.04 * R))
    (h3 : WithError k3 k3' (10.2 * (ε * R)) (2.04 * R)) :
    WithError (fl (fl (fl (k0 + fl (2 * k1)) + fl (2 * k2)) + k3)) (k0' + 2 * k1' + 2 * k2' + k3') (105 * (ε * R)) (13.2 * R) := by
  have hRp : 0 ≤ R := (H.tiny.trans_le hR).le
  have f1 : 0 ≤ ε * R := mul_nonneg H.pos hRp
  have f3 := mul_le_mul_of_nonneg_right H.small hRp
  have d (k k' : ℚ) (h : WithError k k' (10.2 * (ε * R)) (2.04 * R)) :=
    (H.mul (C := 2) (c := 2) (X := 4.08 * R) (by norm_num) h (by linarith) (by linarith)).mono
    (e' := 24.5 * (ε * R)) (s' := 4.09 * R) (by linarith) (by linarith)
  have a1 := (H.add h0 (d _ _ h1) (by linarith)).mono (e' := 41 * (ε * R)) (s' := 6.14 * R) (by linarith) (by linarith)
  have a2 := (H.add a1 (d _ _ h2) (by linarith)).mono (e' := 76 * (ε * R)) (s' := 10.25 * R) (by linarith) (by linarith)
  exact (H.add a2 h3 (by linarith)).mono (by linarith) (by linarith)

end cell

/-! ### Runs -/

/-- The change of a functional over a run is at most the number of steps times its change in one step. -/
theorem loopWith_drift {K U S : Type} [Field K] [LinearOrder K] [IsStrictOrderedRing K] (A : ClockOps K) (prop : Proposal K U)
    (mk : ODEState K U S → S) (T : K) (logEvery : Bool) (Good Tgt : K → Prop) (hok : StepsOK A prop Good Tgt) (φ : U → ℚ)
    (b : ℚ)
    (hstep : ∀ t u dt go g u', Good t → t < g → Tgt g → prop t u = .ok (dt, go) →
      go (hitTargetWith A t dt (some g)) = .ok u' → |φ u' - φ u| ≤ b) (fuel : ℕ) :
    ∀ (g : K) (ds : List K) (st : ODEState K U S) (out : Outcome K U S),
      (g :: ds).Pairwise (· < ·) → (∀ d ∈ g :: ds, Tgt d) → Good st.t → st.t < g → T ∈ g :: ds →
      ODEState.loopWith A prop mk T logEvery fuel (some g) ds st = some out →
      ∃ N : ℕ, out.1.stepCount = st.stepCount + N ∧ |φ out.1.u - φ st.u| ≤ N * b := by
  induction fuel with
  | zero => intro g ds st out _ _ _ _ _ h; simp [ODEState.loopWith] at h
  | succ fuel ih =>
    intro g ds st out hsort htgt hgood hlt hT h
    have hgT : g ≤ T := by
      rcases List.mem_cons.1 hT with h1 | h1
      · exact le_of_eq h1.symm
      · exact le_of_lt (List.rel_of_pairwise_cons hsort h1)
    have htT : st.t < T := lt_of_lt_of_le hlt hgT
    unfold ODEState.loopWith at h
    simp only [htT, if_true] at h
    unfold ODEState.takeStepWith at h
    cases hs : prop st.t st.u with
    | error e =>
      simp only [hs, Option.some.injEq] at h
      subst h
      exact ⟨0, by simp⟩
    | ok r =>
     obtain ⟨dt, go⟩ := r
     simp only [hs] at h
     cases hs' : go (hitTargetWith A st.t dt (some g)) with
     | error e =>
       simp only [hs', Option.some.injEq] at h
       subst h
       exact ⟨0, by simp⟩
     | ok u' =>
      simp only [hs'] at h
      obtain ⟨hgood1, hlt1, hle1⟩ := hok _ _ _ _ g hgood hlt (htgt g (by simp)) hs
      have hdrift := hstep _ _ _ _ g _ hgood hlt (htgt g (by simp)) hs hs'
      set t1 := A.add st.t (hitTargetWith A st.t dt (some g)) with ht1
      set st1 : ODEState K U S :=
        { st with t := t1, u := u', timestamps := st.timestamps ++ [t1],
                  stepCount := st.stepCount + 1 } with hst1
      have fin (st2 : ODEState K U S) (e1 : st2.stepCount = st.stepCount + 1) (e2 : st2.u = u')
          (hN : ∃ N : ℕ, out.1.stepCount = st2.stepCount + N ∧ |φ out.1.u - φ st2.u| ≤ N * b) :
          ∃ N : ℕ, out.1.stepCount = st.stepCount + N ∧ |φ out.1.u - φ st.u| ≤ N * b := by
        obtain ⟨N, h1, h2⟩ := hN
        refine ⟨N + 1, by omega, ?_⟩
        rw [e2] at h2
        have := abs_sub_le (φ out.1.u) (φ u') (φ st.u)
        push_cast
        linarith
      by_cases hg : t1 = g
      · have hcond : some g = some st1.t ∨ T ≤ st1.t ∨ logEvery = true := by
          left; simp [hst1, hg]
        rw [if_pos hcond] at h
        by_cases hTg : T = g
        · have hnot : ¬ (st1.snapshot mk).t < T := by simp [ODEState.snapshot, hst1, hg, hTg]
          have hout : out = (st1.snapshot mk, none) := by
            cases fuel with
            | zero => cases ds <;> simp [ODEState.loopWith] at h
            | succ fuel =>
              cases ds with
              | nil =>
                rw [loopWith_stop _ _ _ _ _ _ _ _ _ hnot] at h
                simpa using h.symm
              | cons d ds =>
                have hgs : some g = some t1 := by rw [hg]
                simp only [hgs, if_true] at h
                rw [loopWith_stop _ _ _ _ _ _ _ _ _ hnot] at h
                simpa using h.symm
          refine fin (st1.snapshot mk) rfl rfl ⟨0, by simp [hout]⟩
        · cases ds with
          | nil => exact absurd (by simpa using hT) hTg
          | cons d ds =>
            have hgs : some g = some t1 := by rw [hg]
            simp only [hgs, if_true] at h
            have hT' : T ∈ d :: ds := by
              rcases List.mem_cons.1 hT with h1 | h1
              · exact absurd h1 hTg
              · exact h1
            have hlt' : (st1.snapshot mk).t < d := by
              simp only [ODEState.snapshot, hst1, hg]
              exact List.rel_of_pairwise_cons hsort (by simp)
            exact fin (st1.snapshot mk) rfl rfl (ih d ds (st1.snapshot mk) out (List.pairwise_cons.1 hsort).2
              (fun x hx => htgt x (by simp [List.mem_cons.1 hx])) hgood1 hlt' hT' h)
      · have hltg : t1 < g := lt_of_le_of_ne hle1 hg
        have hne : ¬ (some g = some t1) := by simp [Ne.symm hg]
        by_cases hc : some g = some st1.t ∨ T ≤ st1.t ∨ logEvery = true
        · rw [if_pos hc] at h
          refine fin (st1.snapshot mk) rfl rfl (ih g ds (st1.snapshot mk) out hsort htgt hgood1 hltg hT ?_)
          cases ds with
          | nil => exact h
          | cons d ds => simpa only [hne, if_false] using h
        · rw [if_neg hc] at h
          exact fin st1 rfl rfl (ih g ds st1 out hsort htgt hgood1 hltg hT h)

end FVHOE
