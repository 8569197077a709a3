import Verif.Props.C102
import Verif.Props.C104
import Verif.Proofs.Hydro

/-!
C109: rounding errors do not make the density negative: first-order llf steps in floating-point arithmetic.
-/

set_option linter.unusedSectionVars false

namespace FVHOE

variable {np : ℕ} {fl : ℚ → ℚ} {ε : ℚ}

/-- Every result is rounded with a relative error of at most `ε`. -/
def RelFl (fl : ℚ → ℚ) (ε : ℚ) : Prop := ∀ x, |fl x - x| ≤ ε * |x|

namespace RelFl

theorem le (H : RelFl fl ε) (h1 : ε ≤ 1) {x C : ℚ} (hC : 0 ≤ C) (hx : x ≤ C) : fl x ≤ (1 + ε) * C := by
  have h := abs_le.1 (H x)
  have h0 : 0 ≤ ε := by
    by_contra hc
    have := (abs_nonneg _).trans (H 1)
    rw [abs_one, mul_one] at this
    exact hc this
  rcases le_total 0 x with hx0 | hx0
  · rw [abs_of_nonneg hx0] at h
    nlinarith
  · rw [abs_of_nonpos hx0] at h
    have : 0 ≤ (1 + ε) * C := by positivity
    nlinarith

theorem ge (H : RelFl fl ε) (h1 : ε ≤ 1) {x C : ℚ} (hC : 0 ≤ C) (hx : -C ≤ x) : -((1 + ε) * C) ≤ fl x := by
  have h := abs_le.1 (H x)
  have h0 : 0 ≤ ε := by
    by_contra hc
    have := (abs_nonneg _).trans (H 1)
    rw [abs_one, mul_one] at this
    exact hc this
  rcases le_total 0 x with hx0 | hx0
  · rw [abs_of_nonneg hx0] at h
    have : 0 ≤ (1 + ε) * C := by positivity
    nlinarith
  · rw [abs_of_nonpos hx0] at h
    nlinarith

theorem low (H : RelFl fl ε) {x : ℚ} (hx : 0 ≤ x) : (1 - ε) * x ≤ fl x := by
  have h := abs_le.1 (H x)
  rw [abs_of_nonneg hx] at h
  linarith

theorem nonneg (H : RelFl fl ε) : 0 ≤ ε := by
  have := (abs_nonneg _).trans (H 1)
  rwa [abs_one, mul_one] at this

end RelFl

/-- The numerical flux of a carried quantity with values `a`, `b` and velocities `vl`, `vr` of at most the speed `s`. -/
def faceFlux (fl : ℚ → ℚ) (s vl vr a b : ℚ) : ℚ :=
  fl (fl (1 / 2 * fl (fl (vl * a) + fl (vr * b))) - fl (fl (1 / 2 * s) * fl (b - a)))

theorem faceFlux_err (H : RelFl fl ε) (hε : ε ≤ 1 / 100000) {s vl vr a b : ℚ} (ha : 0 ≤ a) (hb : 0 ≤ b) (hl : |vl| ≤ s)
    (hr : |vr| ≤ s) :
    |faceFlux fl s vl vr a b - (1 / 2 * (vl * a + vr * b) - 1 / 2 * s * (b - a))| ≤ 5 * ε * (s * (a + b)) := by
  have h0 := H.nonneg
  have hs : 0 ≤ s := (abs_nonneg _).trans hl
  obtain ⟨σ, hσ⟩ : ∃ σ, σ = s * (a + b) := ⟨_, rfl⟩
  have hσ0 : 0 ≤ σ := by rw [hσ]; positivity
  have hsa : 0 ≤ s * a := by positivity
  have hsb : 0 ≤ s * b := by positivity
  have hsum : s * a + s * b = σ := by rw [hσ]; ring
  have hεσ : 0 ≤ ε * σ := by positivity
  have hεσ' : ε * (ε * σ) ≤ 1 / 100000 * (ε * σ) := mul_le_mul_of_nonneg_right hε hεσ
  have ea : |vl * a| ≤ s * a := by rw [abs_mul, abs_of_nonneg ha]; exact mul_le_mul_of_nonneg_right hl ha
  have eb : |vr * b| ≤ s * b := by rw [abs_mul, abs_of_nonneg hb]; exact mul_le_mul_of_nonneg_right hr hb
  -- the two fluxes
  obtain ⟨p, hp⟩ : ∃ p, p = fl (vl * a) := ⟨_, rfl⟩
  obtain ⟨q, hq⟩ : ∃ q, q = fl (vr * b) := ⟨_, rfl⟩
  have e1 : |p - vl * a| ≤ ε * (s * a) := by rw [hp]; exact (H _).trans (mul_le_mul_of_nonneg_left ea h0)
  have e2 : |q - vr * b| ≤ ε * (s * b) := by rw [hq]; exact (H _).trans (mul_le_mul_of_nonneg_left eb h0)
  have h12 : ε * (s * a) + ε * (s * b) = ε * σ := by rw [← hsum]; ring
  have e12 : |(p + q) - (vl * a + vr * b)| ≤ ε * σ := by
    rw [abs_le] at e1 e2 ⊢
    constructor <;> linarith [e1.1, e1.2, e2.1, e2.2]
  have m12 : |vl * a + vr * b| ≤ σ := (abs_add_le _ _).trans (by linarith)
  have m12' : |p + q| ≤ σ + ε * σ := by
    rw [abs_le] at e12 m12 ⊢
    constructor <;> linarith [e12.1, e12.2, m12.1, m12.2]
  obtain ⟨S, hS⟩ : ∃ S, S = fl (p + q) := ⟨_, rfl⟩
  have e3 : |S - (p + q)| ≤ ε * (σ + ε * σ) := by rw [hS]; exact (H _).trans (mul_le_mul_of_nonneg_left m12' h0)
  have e3' : |S - (vl * a + vr * b)| ≤ 2.001 * (ε * σ) := by
    rw [abs_le] at e3 e12 ⊢
    constructor <;> linarith [e3.1, e3.2, e12.1, e12.2]
  have hεs : ε * σ ≤ 1 / 100000 * σ := mul_le_mul_of_nonneg_right hε hσ0
  have m3 : |1 / 2 * S| ≤ 0.501 * σ := by
    rw [abs_le] at e3' m12 ⊢
    constructor <;> linarith [e3'.1, e3'.2, m12.1, m12.2]
  obtain ⟨A, hA⟩ : ∃ A, A = fl (1 / 2 * S) := ⟨_, rfl⟩
  have e4 : |A - 1 / 2 * S| ≤ ε * (0.501 * σ) := by rw [hA]; exact (H _).trans (mul_le_mul_of_nonneg_left m3 h0)
  have e4' : |A - 1 / 2 * (vl * a + vr * b)| ≤ 1.51 * (ε * σ) := by
    rw [abs_le] at e3' e4 ⊢
    constructor <;> linarith [e3'.1, e3'.2, e4.1, e4.2]
  -- the dissipation
  obtain ⟨B, hB⟩ : ∃ B, B = fl (1 / 2 * s) := ⟨_, rfl⟩
  have e5 : |B - 1 / 2 * s| ≤ ε * (1 / 2 * s) := by
    rw [hB]
    have := H (1 / 2 * s)
    rwa [abs_of_nonneg (show 0 ≤ 1 / 2 * s by positivity)] at this
  have m5 : |b - a| ≤ a + b := abs_le.2 ⟨by linarith, by linarith⟩
  obtain ⟨D, hD⟩ : ∃ D, D = fl (b - a) := ⟨_, rfl⟩
  have e6 : |D - (b - a)| ≤ ε * (a + b) := by rw [hD]; exact (H _).trans (mul_le_mul_of_nonneg_left m5 h0)
  have hab : 0 ≤ a + b := by linarith
  have m6 : |D| ≤ 1.001 * (a + b) := by
    have hεab : ε * (a + b) ≤ 1 / 100000 * (a + b) := mul_le_mul_of_nonneg_right hε hab
    rw [abs_le] at e6 m5 ⊢
    constructor <;> linarith [e6.1, e6.2, m5.1, m5.2]
  have e7 : |B * D - 1 / 2 * s * (b - a)| ≤ 1.001 * (ε * σ) := by
    have x1 : |(B - 1 / 2 * s) * D| ≤ ε * (1 / 2 * s) * (1.001 * (a + b)) := by
      rw [abs_mul]
      exact mul_le_mul e5 m6 (abs_nonneg _) (by positivity)
    have x2 : |1 / 2 * s * (D - (b - a))| ≤ 1 / 2 * s * (ε * (a + b)) := by
      rw [abs_mul, abs_of_nonneg (show 0 ≤ 1 / 2 * s by positivity)]
      exact mul_le_mul_of_nonneg_left e6 (by positivity)
    have x3 : ε * (1 / 2 * s) * (1.001 * (a + b)) = 1.001 / 2 * (ε * σ) := by rw [hσ]; ring
    have x4 : 1 / 2 * s * (ε * (a + b)) = 1 / 2 * (ε * σ) := by rw [hσ]; ring
    rw [x3] at x1
    rw [x4] at x2
    have x5 : B * D - 1 / 2 * s * (b - a) = (B - 1 / 2 * s) * D + 1 / 2 * s * (D - (b - a)) := by ring
    rw [x5]
    refine (abs_add_le _ _).trans ?_
    linarith
  have m7 : |1 / 2 * s * (b - a)| ≤ 1 / 2 * σ := by
    rw [abs_mul, abs_of_nonneg (show 0 ≤ 1 / 2 * s by positivity), hσ]
    calc 1 / 2 * s * |b - a| ≤ 1 / 2 * s * (a + b) := mul_le_mul_of_nonneg_left m5 (by positivity)
      _ = _ := by ring
  have m7' : |B * D| ≤ 0.501 * σ := by
    rw [abs_le] at e7 m7 ⊢
    constructor <;> linarith [e7.1, e7.2, m7.1, m7.2]
  obtain ⟨Q, hQ⟩ : ∃ Q, Q = fl (B * D) := ⟨_, rfl⟩
  have e8 : |Q - B * D| ≤ ε * (0.501 * σ) := by rw [hQ]; exact (H _).trans (mul_le_mul_of_nonneg_left m7' h0)
  have e8' : |Q - 1 / 2 * s * (b - a)| ≤ 1.51 * (ε * σ) := by
    rw [abs_le] at e7 e8 ⊢
    constructor <;> linarith [e7.1, e7.2, e8.1, e8.2]
  -- the difference
  have e9 : |(A - Q) - (1 / 2 * (vl * a + vr * b) - 1 / 2 * s * (b - a))| ≤ 3.02 * (ε * σ) := by
    rw [abs_le] at e4' e8' ⊢
    constructor <;> linarith [e4'.1, e4'.2, e8'.1, e8'.2]
  have m9 : |A - Q| ≤ 1.01 * σ := by
    rw [abs_le] at e9 m12 m7 ⊢
    constructor <;> linarith [e9.1, e9.2, m12.1, m12.2, m7.1, m7.2]
  have e10 := (H (A - Q)).trans (mul_le_mul_of_nonneg_left m9 h0)
  have hF : faceFlux fl s vl vr a b = fl (A - Q) := by
    rw [hA, hS, hp, hq, hQ, hB, hD, faceFlux]
  rw [hF, ← hσ]
  rw [abs_le] at e10 e9 ⊢
  constructor <;> linarith [e10.1, e10.2, e9.1, e9.2]

/-- What leaves a cell through its two faces along one direction is at most a multiple of what is in it, if the sound speeds of
the neighbours are not drowned by the rounding errors. -/
theorem outflow_le (H : RelFl fl ε) (hε : ε ≤ 1 / 100000) {s s' v v₁ v₂ a a₁ a₂ : ℚ} (ha : 0 ≤ a) (h1 : 0 ≤ a₁) (h2 : 0 ≤ a₂)
    (hv : |v| ≤ s) (hv' : |v| ≤ s') (hv₁ : |v₁| + 10 * ε * s ≤ s) (hv₂ : |v₂| + 10 * ε * s' ≤ s') :
    faceFlux fl s' v v₂ a a₂ - faceFlux fl s v₁ v a₁ a ≤ (1 / 2 + 5 * ε) * (s + s') * a := by
  have h0 := H.nonneg
  have hs : 0 ≤ s := (abs_nonneg _).trans hv
  have hs' : 0 ≤ s' := (abs_nonneg _).trans hv'
  have w1 : |v₁| ≤ s := by have : 0 ≤ 10 * ε * s := by positivity
                           linarith
  have w2 : |v₂| ≤ s' := by have : 0 ≤ 10 * ε * s' := by positivity
                            linarith
  have f1 := (abs_le.1 (faceFlux_err H hε ha h2 hv' w2)).2
  have f2 := (abs_le.1 (faceFlux_err H hε h1 ha w1 hv)).1
  have n1 : 0 ≤ (s + v₁ - 10 * ε * s) * a₁ := mul_nonneg (by have := neg_abs_le v₁; linarith) h1
  have n2 : 0 ≤ (s' - v₂ - 10 * ε * s') * a₂ := mul_nonneg (by have := le_abs_self v₂; linarith) h2
  nlinarith

/-! ### The scheme -/

theorem llf_carried (G : Gas ℚ) (d : Fin 3) (wl wr : State ℚ np) (x : Var np) (hx : x = .rho ∨ ∃ j, x = .ps j) :
    roundedLlf fl G d wl wr x = faceFlux fl (max (fl (|wl (.mom d)| + roundedSoundSpeed fl G wl))
      (fl (|wr (.mom d)| + roundedSoundSpeed fl G wr))) (wl (.mom d)) (wr (.mom d))
      (roundedConservatives fl G.gamma wl x) (roundedConservatives fl G.gamma wr x) := by
  rcases hx with rfl | ⟨j, rfl⟩ <;> rfl

theorem free_averages (H : KeepsFl fl) (c : RoundedConfig) (hp : ∀ d, c.p d = 0) (a : FState (Var np)) (ha : AllRounded fl a) :
    (c.scheme fl np).primAverages fl a = fun x i => roundedPrimitives fl c.gas.gamma (fun y => a y i) x := by
  unfold RoundedScheme.primAverages
  have hp' : (c.scheme fl np).p = c.p := rfl
  simp only [hp', hp, interp_zero H _ "c" (.inl rfl), trans_zero H, ha.eq]
  have hr : AllRounded fl fun x i => roundedPrimitives fl c.gas.gamma (fun y => a y i) x := fun x i => by
    cases x with
    | rho => exact ha _ _
    | mom d => exact H.idem _
    | en => exact H.idem _
    | ps j => exact H.idem _
  show flArr fl (flArr fl (flArr fl fun x i => roundedPrimitives fl c.gas.gamma (fun y => a y i) x)) = _
  rw [hr.eq, hr.eq, hr.eq]

theorem free_flux (H : KeepsFl fl) (c : RoundedConfig) (hp : ∀ d, c.p d = 0) (hr : c.riem = .llf) (d : Fin 3) (a : FState (Var np))
    (ha : AllRounded fl a) : (c.scheme fl np).flux fl d a =
      fun x i => roundedLlf fl c.gas d (fun y => a y (i - Pi.single d 1)) (fun y => a y i) x := by
  unfold RoundedScheme.flux
  have hp' : (c.scheme fl np).p = c.p := rfl
  simp only [hp', hp, interp_zero H _ "c" (.inl rfl), interp_zero H _ "l" (.inr (.inl rfl)), interp_zero H _ "r" (.inr (.inr rfl)),
    trans_zero H, ha.eq]
  have hl : AllRounded fl fun x i => roundedLlf fl c.gas d (fun y => a y (i - Pi.single d 1)) (fun y => a y i) x := fun x i => H.idem _
  have e : (fun x i => (c.scheme fl np).riem d (fun y => a y (i - Pi.single d 1)) (fun y => a y i) x) =
      fun x i => roundedLlf fl c.gas d (fun y => a y (i - Pi.single d 1)) (fun y => a y i) x := by
    show (fun x i => roundedRiemann fl c.riem c.gas d (fun y => a y (i - Pi.single d 1)) (fun y => a y i) x) = _
    rw [hr]
    rfl
  rw [e, hl.eq, hl.eq]

/-- The primitive variables of a cell. -/
def cellPrim (fl : ℚ → ℚ) (c : RoundedConfig) (u : FState (Var np)) (i : Ix) : State ℚ np :=
  roundedPrimitives fl c.gas.gamma fun y => u y i

/-- The conditions on a set-up: degree zero, llf, automatic steps. -/
structure FirstRounded (c : RoundedConfig) : Prop where
  degree : ∀ d, c.p d = 0
  riem : c.riem = .llf
  fixedDt : c.fixedDt = none
  cells : ∀ d, 0 < c.n d
  spacing : ∀ d, 0 < c.h d
  extended : 1 ≤ c.ndim
  cfl : 0 < c.cfl

/-- The conditions on a state: rounded numbers, positive density, positive sound speeds, none of which is smaller than `16 ε` times
the largest signal speed. -/
structure Audible (fl : ℚ → ℚ) (ε : ℚ) (c : RoundedConfig) (u : FState (Var np)) : Prop where
  rounded : ∀ x i, InCells c.n i → fl (u x i) = u x i
  density : ∀ i, InCells c.n i → 0 < u .rho i
  sound : ∀ i, InCells c.n i → 0 < roundedSoundSpeed fl c.gas (cellPrim fl c u i)
  audible : ∀ i j, InCells c.n i → InCells c.n j →
    16 * ε * roundedSpeed fl c.gas c.ndim (cellPrim fl c u j) ≤ roundedSoundSpeed fl c.gas (cellPrim fl c u i)

theorem speed_ge (H : RelFl fl ε) (hε : ε ≤ 1 / 100000) (G : Gas ℚ) {n : ℕ} (hn : 1 ≤ n) (w : State ℚ np)
    (hc : 0 < roundedSoundSpeed fl G w) :
    (1 - 3 * ε) * (|w (.mom 0)| + |w (.mom 1)| + |w (.mom 2)| + n * roundedSoundSpeed fl G w) ≤ roundedSpeed fl G n w := by
  have h0 := H.nonneg
  obtain ⟨x, hx⟩ : ∃ x, x = |w (.mom 0)| := ⟨_, rfl⟩
  obtain ⟨y, hy⟩ : ∃ y, y = |w (.mom 1)| := ⟨_, rfl⟩
  obtain ⟨z, hz⟩ : ∃ z, z = |w (.mom 2)| := ⟨_, rfl⟩
  obtain ⟨k, hk⟩ : ∃ k, k = (n : ℚ) * roundedSoundSpeed fl G w := ⟨_, rfl⟩
  have x0 : 0 ≤ x := by rw [hx]; exact abs_nonneg _
  have y0 : 0 ≤ y := by rw [hy]; exact abs_nonneg _
  have z0 : 0 ≤ z := by rw [hz]; exact abs_nonneg _
  have k0 : 0 ≤ k := by rw [hk]; positivity
  have a1 := H.low (add_nonneg x0 y0)
  have p1 : 0 ≤ fl (x + y) := le_trans (mul_nonneg (by linarith) (add_nonneg x0 y0)) a1
  have a2 := H.low (add_nonneg p1 z0)
  have a3 := H.low k0
  have p2 : 0 ≤ fl (fl (x + y) + z) := le_trans (mul_nonneg (by linarith) (add_nonneg p1 z0)) a2
  have p3 : 0 ≤ fl k := le_trans (mul_nonneg (by linarith) k0) a3
  have a4 := H.low (add_nonneg p2 p3)
  show (1 - 3 * ε) * (|w (.mom 0)| + |w (.mom 1)| + |w (.mom 2)| + n * roundedSoundSpeed fl G w) ≤
    fl (fl (fl (|w (.mom 0)| + |w (.mom 1)|) + |w (.mom 2)|) + fl (n * roundedSoundSpeed fl G w))
  rw [← hx, ← hy, ← hz, ← hk]
  have q : 0 ≤ 1 - ε := by linarith
  have b1 : (1 - ε) * ((1 - ε) * (x + y) + z) ≤ fl (fl (x + y) + z) :=
    le_trans (mul_le_mul_of_nonneg_left (by linarith) q) a2
  have b2 : (1 - ε) * ((1 - ε) * ((1 - ε) * (x + y) + z) + (1 - ε) * k) ≤ fl (fl (fl (x + y) + z) + fl k) :=
    le_trans (mul_le_mul_of_nonneg_left (by linarith) q) a4
  refine le_trans ?_ b2
  have e1 : 1 - 3 * ε ≤ (1 - ε) ^ 3 := by nlinarith [mul_nonneg h0 h0, mul_nonneg (mul_nonneg h0 h0) (show 0 ≤ 3 - ε by linarith)]
  have e2 : (1 - ε) ^ 3 ≤ (1 - ε) ^ 2 := pow_le_pow_of_le_one q (by linarith) (by norm_num)
  nlinarith [mul_le_mul_of_nonneg_right e1 (add_nonneg x0 y0), mul_le_mul_of_nonneg_right (e1.trans e2) z0,
    mul_le_mul_of_nonneg_right (e1.trans e2) k0]

/-- A sum of rounded terms is at worst the sum of the worst terms, rounded as often. -/
theorem euler_ge (H : RelFl fl ε) (hε : ε ≤ 1 / 100000) (act : Fin 3 → Bool) (h : Fin 3 → ℚ) (F : Fin 3 → FState (Var np)) (x : Var np)
    (i : Ix) {E : ℚ} (hE : 0 ≤ E) (hF : ∀ d, -E ≤ roundedDiff fl (h d) d (F d) x i) :
    ∀ (l : List (Fin 3)) (out : FState (Var np)) (n : ℕ), -((1 + ε) ^ n * (n * E)) ≤ out x i →
      -((1 + ε) ^ (n + l.countP act) * ((n + l.countP act : ℕ) * E)) ≤
        (l.foldl (fun dudt d => if act d then dudt.plus fl (roundedDiff fl (h d) d (F d)) else dudt) out) x i := by
  have h0 := H.nonneg
  intro l
  induction l with
  | nil => intro out n ho; simpa using ho
  | cons d l ih =>
    intro out n ho
    rw [List.foldl_cons, List.countP_cons]
    by_cases hd : act d = true
    · rw [if_pos hd, if_pos hd]
      have e : n + (l.countP act + 1) = (n + 1) + l.countP act := by omega
      rw [e]
      refine ih _ (n + 1) ?_
      have g : (1 : ℚ) ≤ (1 + ε) ^ n := one_le_pow₀ (by linarith)
      have hx : -((1 + ε) ^ n * (((n + 1 : ℕ) : ℚ) * E)) ≤ out x i + roundedDiff fl (h d) d (F d) x i := by
        have := hF d
        push_cast
        nlinarith
      have := H.ge (by linarith) (by positivity) hx
      have e2 : (1 + ε) ^ (n + 1) * (((n + 1 : ℕ) : ℚ) * E) = (1 + ε) * ((1 + ε) ^ n * (((n + 1 : ℕ) : ℚ) * E)) := by ring
      rw [e2]
      exact this
    · rw [if_neg hd, if_neg hd]
      exact ih _ n ho

/-- What the cells of a periodic array hold is what they hold after wrapping around. -/
theorem wrap_prim (c : RoundedConfig) (u : FState (Var np)) (i : Ix) :
    cellPrim fl c (wrapAround c.n u) i = cellPrim fl c u fun d => i d % (c.n d : ℤ) := rfl

theorem speed_pieces (w : State ℚ np) (d : Fin 3) : |w (.mom d)| ≤ |w (.mom 0)| + |w (.mom 1)| + |w (.mom 2)| := by
  have h0 := abs_nonneg (w (.mom 0))
  have h1 := abs_nonneg (w (.mom 1))
  have h2 := abs_nonneg (w (.mom 2))
  fin_cases d <;> simp <;> linarith

/-- The speed of a face. -/
def faceSpeed (fl : ℚ → ℚ) (G : Gas ℚ) (d : Fin 3) (wl wr : State ℚ np) : ℚ :=
  max (fl (|wl (.mom d)| + roundedSoundSpeed fl G wl)) (fl (|wr (.mom d)| + roundedSoundSpeed fl G wr))

theorem faceSpeed_bounds (H : RelFl fl ε) (hε : ε ≤ 1 / 100000) (G : Gas ℚ) {n : ℕ} (hn : 1 ≤ n) (d : Fin 3) {m : ℚ}
    {wl wr : State ℚ np} (hl : 0 < roundedSoundSpeed fl G wl) (hr : 0 < roundedSoundSpeed fl G wr)
    (ml : roundedSpeed fl G n wl ≤ m) (mr : roundedSpeed fl G n wr ≤ m) (al : 16 * ε * m ≤ roundedSoundSpeed fl G wl)
    (ar : 16 * ε * m ≤ roundedSoundSpeed fl G wr) :
    faceSpeed fl G d wl wr ≤ (1 + 5 * ε) * m ∧ |wl (.mom d)| + 10 * ε * faceSpeed fl G d wl wr ≤ faceSpeed fl G d wl wr ∧
      |wr (.mom d)| + 10 * ε * faceSpeed fl G d wl wr ≤ faceSpeed fl G d wl wr := by
  have h0 := H.nonneg
  have one : ∀ w : State ℚ np, 0 < roundedSoundSpeed fl G w → roundedSpeed fl G n w ≤ m → 16 * ε * m ≤ roundedSoundSpeed fl G w →
      |w (.mom d)| + roundedSoundSpeed fl G w ≤ (1 + 3.5 * ε) * m ∧
      fl (|w (.mom d)| + roundedSoundSpeed fl G w) ≤ (1 + 5 * ε) * m ∧
      |w (.mom d)| ≤ (1 - 10 * ε) * fl (|w (.mom d)| + roundedSoundSpeed fl G w) := by
    intro w hc hm ha
    have v0 := abs_nonneg (w (.mom d))
    have hq := speed_ge H hε G hn w hc
    have hp := speed_pieces w d
    obtain ⟨v, hv⟩ : ∃ v, v = |w (.mom d)| := ⟨_, rfl⟩
    obtain ⟨k, hk⟩ : ∃ k, k = roundedSoundSpeed fl G w := ⟨_, rfl⟩
    rw [← hv] at hp v0 ⊢
    rw [← hk] at hc ha hq ⊢
    have hn' : (1 : ℚ) ≤ n := by exact_mod_cast hn
    have hnk : k ≤ n * k := by nlinarith
    have b1 : (1 - 3 * ε) * (v + k) ≤ m := by
      refine le_trans (mul_le_mul_of_nonneg_left ?_ (by linarith)) (hq.trans hm)
      linarith
    have m0 : 0 ≤ m := le_trans (mul_nonneg (by linarith) (by linarith)) b1
    have b2 : v + k ≤ (1 + 3.5 * ε) * m := by
      have : (1 + 3.5 * ε) * ((1 - 3 * ε) * (v + k)) ≤ (1 + 3.5 * ε) * m := mul_le_mul_of_nonneg_left b1 (by positivity)
      have e : (1 : ℚ) ≤ (1 + 3.5 * ε) * (1 - 3 * ε) := by nlinarith
      have : (v + k) ≤ (1 + 3.5 * ε) * (1 - 3 * ε) * (v + k) := le_mul_of_one_le_left (by linarith) e
      linarith
    have b3 := H.le (by linarith) (by linarith) (le_refl (v + k))
    have b4 := H.low (show 0 ≤ v + k by linarith)
    refine ⟨b2, ?_, ?_⟩
    · refine b3.trans (le_trans (mul_le_mul_of_nonneg_left b2 (by linarith)) ?_)
      rw [← mul_assoc]
      refine mul_le_mul_of_nonneg_right ?_ m0
      nlinarith
    · have b5 : (1 - 10 * ε) * ((1 - ε) * (v + k)) ≤ (1 - 10 * ε) * fl (v + k) := mul_le_mul_of_nonneg_left b4 (by linarith)
      refine le_trans ?_ b5
      have e : 1 - 11 * ε ≤ (1 - 10 * ε) * (1 - ε) := by nlinarith
      have b6 : (1 - 11 * ε) * (v + k) ≤ (1 - 10 * ε) * (1 - ε) * (v + k) := mul_le_mul_of_nonneg_right e (by linarith)
      have b7 : 11 * ε * (v + k) ≤ 11 * ε * ((1 + 3.5 * ε) * m) := mul_le_mul_of_nonneg_left b2 (by linarith)
      have em : 0 ≤ ε * m := mul_nonneg h0 m0
      have eem : ε * (ε * m) ≤ 1 / 100000 * (ε * m) := mul_le_mul_of_nonneg_right hε em
      nlinarith
  obtain ⟨-, a1, a2⟩ := one wl hl ml al
  obtain ⟨-, b1, b2⟩ := one wr hr mr ar
  have q : 0 ≤ 1 - 10 * ε := by linarith
  refine ⟨max_le a1 b1, ?_, ?_⟩
  · have := mul_le_mul_of_nonneg_left (le_max_left (fl (|wl (.mom d)| + roundedSoundSpeed fl G wl))
      (fl (|wr (.mom d)| + roundedSoundSpeed fl G wr))) q
    unfold faceSpeed
    linarith
  · have := mul_le_mul_of_nonneg_left (le_max_right (fl (|wl (.mom d)| + roundedSoundSpeed fl G wl))
      (fl (|wr (.mom d)| + roundedSoundSpeed fl G wr))) q
    unfold faceSpeed
    linarith

/-- The step of the code: at most a little longer than `CFL * h / m` for the largest signal speed `m`. -/
theorem size_le (H : RelFl fl ε) (K : KeepsFl fl) (hε : ε ≤ 1 / 100000) (c : RoundedConfig) (hc : FirstRounded c) {u : FState (Var np)}
    (hu : Audible fl ε c u) {dt : ℚ} (hdt : (c.scheme fl np).size fl ((c.scheme fl np).primAverages fl (wrapAround c.n u)) = .ok dt) :
    ∃ m : ℚ, 0 < m ∧ (∃ j, InCells c.n j ∧ m = roundedSpeed fl c.gas c.ndim (cellPrim fl c u j)) ∧
      (∀ i, InCells c.n i → roundedSpeed fl c.gas c.ndim (cellPrim fl c u i) ≤ m) ∧
      dt ≤ (1 + ε) ^ 2 * (c.cfl * min (min (c.h 0) (c.h 1)) (c.h 2)) / m ∧ 0 ≤ dt := by
  have h0 := H.nonneg
  have hr : AllRounded fl (wrapAround c.n u) := fun x i => hu.rounded x _ (mod_inCells c.n hc.cells i)
  rw [free_averages K c hc.degree _ hr] at hdt
  unfold RoundedScheme.size at hdt
  rw [show (c.scheme fl np).fixedDt = none from hc.fixedDt] at hdt
  obtain ⟨m, h1, h2, h3⟩ := npMax_spec ((indexList c.n).map fun i => roundedSpeed fl c.gas c.ndim
    (cellPrim fl c (wrapAround c.n u) i)) (by
      intro h
      have : (fun _ => 0 : Ix) ∈ indexList c.n := (mem_indexList _ _).2 fun d => ⟨le_refl _, by have := hc.cells d; show (0 : ℤ) < _; omega⟩
      rw [List.map_eq_nil_iff] at h
      rw [h] at this
      exact absurd this List.not_mem_nil)
  have hm : npMax ((indexList (c.scheme fl np).n).map fun i => (c.scheme fl np).speed fun y =>
      roundedPrimitives fl c.gas.gamma (fun y => wrapAround c.n u y i) y) = .ok m := h1
  simp only [hm, Bind.bind, Except.bind, Pure.pure, Except.pure, Except.ok.injEq] at hdt
  have same : ∀ i, InCells c.n i → cellPrim fl c (wrapAround c.n u) i = cellPrim fl c u i := fun i hi => by
    unfold cellPrim
    congr 1
    funext y
    exact wrapAround_cell c.n u y i hi
  obtain ⟨j, hj, hjm⟩ := List.mem_map.1 h2
  have hj' : InCells c.n j := (mem_indexList _ _).1 hj
  have hmax : ∀ i, InCells c.n i → roundedSpeed fl c.gas c.ndim (cellPrim fl c u i) ≤ m := fun i hi => by
    rw [← same i hi]
    exact h3 _ (List.mem_map.2 ⟨i, (mem_indexList _ _).2 hi, rfl⟩)
  have hm0 : 0 < m := by
    have hs := hu.sound j hj'
    have := speed_ge H hε c.gas hc.extended _ hs
    rw [same j hj'] at hjm
    rw [← hjm]
    refine lt_of_lt_of_le (mul_pos (by linarith) ?_) this
    have hn : (1 : ℚ) ≤ c.ndim := by exact_mod_cast hc.extended
    have : 0 < (c.ndim : ℚ) * roundedSoundSpeed fl c.gas (cellPrim fl c u j) := mul_pos (by linarith) hs
    positivity
  refine ⟨m, hm0, ⟨j, hj', by rw [← hjm, same j hj']⟩, hmax, ?_⟩
  have hmin : 0 < min (min (c.h 0) (c.h 1)) (c.h 2) := lt_min (lt_min (hc.spacing 0) (hc.spacing 1)) (hc.spacing 2)
  have x0 : 0 ≤ c.cfl * min (min (c.h 0) (c.h 1)) (c.h 2) := (mul_pos hc.cfl hmin).le
  have e1 := H.le (by linarith) x0 (le_refl _)
  have e2 : fl (c.cfl * min (min (c.h 0) (c.h 1)) (c.h 2)) / m ≤ (1 + ε) * (c.cfl * min (min (c.h 0) (c.h 1)) (c.h 2)) / m :=
    div_le_div_of_nonneg_right e1 hm0.le
  have e3 := H.le (by linarith) (by positivity) e2
  have e4 : 0 ≤ fl (c.cfl * min (min (c.h 0) (c.h 1)) (c.h 2)) / m :=
    div_nonneg (le_trans (mul_nonneg (by linarith) x0) (H.low x0)) hm0.le
  rw [← hdt]
  refine ⟨e3.trans (le_of_eq ?_), le_trans (mul_nonneg (by linarith) e4) (H.low e4)⟩
  ring

theorem size_nonneg (H : RelFl fl ε) (K : KeepsFl fl) (hε : ε ≤ 1 / 100000) (c : RoundedConfig) (hc : FirstRounded c) {u : FState (Var np)}
    (hu : Audible fl ε c u) {dt : ℚ} (hdt : (c.scheme fl np).size fl ((c.scheme fl np).primAverages fl (wrapAround c.n u)) = .ok dt) :
    0 ≤ dt := by
  obtain ⟨m, m0, -, -, -, h⟩ := size_le H K hε c hc hu hdt
  exact h

/-- What a cell loses in a step, in units of what it holds: `q` is a carried quantity (density or amount of a passive scalar). -/
theorem carried_step (H : RelFl fl ε) (K : KeepsFl fl) (hε : ε ≤ 1 / 100000) (c : RoundedConfig) (hc : FirstRounded c)
    (hcfl : c.cfl * c.ndim ≤ 999 / 1000) {u : FState (Var np)} (hu : Audible fl ε c u) (x : Var np) (hx : x = .rho ∨ ∃ j, x = .ps j)
    (hq : ∀ i, InCells c.n i → 0 ≤ u x i) {s t dt : ℚ} {k : FState (Var np)} (hk : (c.scheme fl np).rhs fl s t u = .ok (dt, k))
    {τ : ℚ} (h1 : 0 ≤ τ) (h2 : τ ≤ dt) (i : Ix) (hi : InCells c.n i) : -(9995 / 10000 * u x i) ≤ k.times fl τ x i := by
  have h0 := H.nonneg
  obtain ⟨hdt, rfl⟩ := RoundedScheme.rhs_ok fl _ hk
  obtain ⟨m, m0, ⟨j, hj, hjm⟩, hmax, hle, -⟩ := size_le H K hε c hc hu hdt
  have hr : AllRounded fl (wrapAround c.n u) := fun x i => hu.rounded x _ (mod_inCells c.n hc.cells i)
  obtain ⟨w, hw⟩ : ∃ w : Ix → State ℚ np, w = cellPrim fl c (wrapAround c.n u) := ⟨_, rfl⟩
  have cellw : ∀ l, w l = cellPrim fl c u fun d => l d % (c.n d : ℤ) := fun l => by rw [hw]; exact wrap_prim c u l
  have inw : ∀ l : Ix, InCells c.n fun d => l d % (c.n d : ℤ) := mod_inCells c.n hc.cells
  have hmw : ∀ l, roundedSpeed fl c.gas c.ndim (w l) ≤ m := fun l => by rw [cellw]; exact hmax _ (inw l)
  have hcw : ∀ l, 0 < roundedSoundSpeed fl c.gas (w l) := fun l => by rw [cellw]; exact hu.sound _ (inw l)
  have haw : ∀ l, 16 * ε * m ≤ roundedSoundSpeed fl c.gas (w l) := fun l => by rw [cellw, hjm]; exact hu.audible _ _ (inw l) hj
  -- what the cells hold according to the Riemann solver
  obtain ⟨q, hqd⟩ : ∃ q : Ix → ℚ, q = fun l => roundedConservatives fl c.gas.gamma (w l) x := ⟨_, rfl⟩
  have hqs : ∀ l, 0 ≤ q l ∧ q l ≤ (1 + ε) ^ 2 * wrapAround c.n u x l := by
    intro l
    have hu0 : 0 ≤ wrapAround c.n u x l := hq _ (inw l)
    have hρ : 0 < wrapAround c.n u .rho l := hu.density _ (inw l)
    rcases hx with rfl | ⟨p, rfl⟩
    · have e : q l = wrapAround c.n u .rho l := by rw [hqd, hw]; rfl
      rw [e]
      refine ⟨hu0, ?_⟩
      have : (1 : ℚ) ≤ (1 + ε) ^ 2 := one_le_pow₀ (by linarith)
      nlinarith
    · have e : q l = fl (wrapAround c.n u .rho l * fl (wrapAround c.n u (.ps p) l / wrapAround c.n u .rho l)) := by rw [hqd, hw]; rfl
      have y0 : 0 ≤ wrapAround c.n u (.ps p) l / wrapAround c.n u .rho l := div_nonneg hu0 hρ.le
      have y1 := H.le (by linarith) y0 (le_refl _)
      have y2 := H.low y0
      have y3 : 0 ≤ fl (wrapAround c.n u (.ps p) l / wrapAround c.n u .rho l) := le_trans (mul_nonneg (by linarith) y0) y2
      have y4 : wrapAround c.n u .rho l * fl (wrapAround c.n u (.ps p) l / wrapAround c.n u .rho l) ≤
          (1 + ε) * wrapAround c.n u (.ps p) l := by
        refine le_trans (mul_le_mul_of_nonneg_left y1 hρ.le) (le_of_eq ?_)
        field_simp
      rw [e]
      refine ⟨le_trans (mul_nonneg (by linarith) (mul_nonneg hρ.le y3)) (H.low (mul_nonneg hρ.le y3)), ?_⟩
      refine (H.le (by linarith) (by positivity) y4).trans (le_of_eq ?_)
      ring
  obtain ⟨Q, hQ⟩ : ∃ Q, Q = u x i := ⟨_, rfl⟩
  have hQ0 : 0 ≤ Q := by rw [hQ]; exact hq i hi
  have hqi : q i ≤ (1 + ε) ^ 2 * Q := by
    have := (hqs i).2
    rwa [wrapAround_cell c.n u x i hi, ← hQ] at this
  have hflux : ∀ d l, (c.scheme fl np).flux fl d ((c.scheme fl np).primAverages fl (wrapAround c.n u)) x l =
      faceFlux fl (faceSpeed fl c.gas d (w (l - Pi.single d 1)) (w l)) (w (l - Pi.single d 1) (.mom d)) (w l (.mom d))
        (q (l - Pi.single d 1)) (q l) := by
    intro d l
    have hra : AllRounded fl fun (x : Var np) i => roundedPrimitives fl c.gas.gamma (fun y => wrapAround c.n u y i) x := fun x i => by
      cases x with
      | rho => exact hr _ _
      | mom d => exact K.idem _
      | en => exact K.idem _
      | ps j => exact K.idem _
    rw [free_averages K c hc.degree _ hr, free_flux K c hc.degree hc.riem d _ hra]
    dsimp only
    rw [llf_carried c.gas d _ _ x hx, hqd, hw]
    rfl
  have hmin : 0 < min (min (c.h 0) (c.h 1)) (c.h 2) := lt_min (lt_min (hc.spacing 0) (hc.spacing 1)) (hc.spacing 2)
  obtain ⟨hm, hhm⟩ : ∃ hm, hm = min (min (c.h 0) (c.h 1)) (c.h 2) := ⟨_, rfl⟩
  rw [← hhm] at hle hmin
  have hminle : ∀ d, hm ≤ c.h d := by
    intro d
    rw [hhm]
    fin_cases d
    · exact (min_le_left _ _).trans (min_le_left _ _)
    · exact (min_le_left _ _).trans (min_le_right _ _)
    · exact min_le_right _ _
  obtain ⟨D, hD⟩ : ∃ D, D = (1 + 20 * ε) * (m * Q) := ⟨_, rfl⟩
  have hmQ : 0 ≤ m * Q := mul_nonneg m0.le hQ0
  have hD0 : 0 ≤ D := by rw [hD]; positivity
  have hout : ∀ d, (c.scheme fl np).flux fl d ((c.scheme fl np).primAverages fl (wrapAround c.n u)) x (i + Pi.single d 1) -
      (c.scheme fl np).flux fl d ((c.scheme fl np).primAverages fl (wrapAround c.n u)) x i ≤ D := by
    intro d
    rw [hflux, hflux, add_sub_cancel_right]
    obtain ⟨a1, a2, a3⟩ := faceSpeed_bounds H hε c.gas hc.extended d (hcw (i - Pi.single d 1)) (hcw i) (hmw _) (hmw _) (haw _) (haw _)
    obtain ⟨b1, b2, b3⟩ := faceSpeed_bounds H hε c.gas hc.extended d (hcw i) (hcw (i + Pi.single d 1)) (hmw _) (hmw _) (haw _) (haw _)
    have s1 : 0 ≤ faceSpeed fl c.gas d (w (i - Pi.single d 1)) (w i) := by
      have := abs_nonneg (w i (.mom d))
      nlinarith
    have s2 : 0 ≤ faceSpeed fl c.gas d (w i) (w (i + Pi.single d 1)) := by
      have := abs_nonneg (w i (.mom d))
      nlinarith
    have es1 : 0 ≤ 10 * ε * faceSpeed fl c.gas d (w (i - Pi.single d 1)) (w i) := by positivity
    have es2 : 0 ≤ 10 * ε * faceSpeed fl c.gas d (w i) (w (i + Pi.single d 1)) := by positivity
    refine (outflow_le H hε (hqs _).1 (hqs _).1 (hqs _).1 (by linarith) (by linarith) a2 b3).trans ?_
    rw [hD]
    have f1 : (1 / 2 + 5 * ε) * (faceSpeed fl c.gas d (w (i - Pi.single d 1)) (w i) + faceSpeed fl c.gas d (w i) (w (i + Pi.single d 1))) ≤
        (1 / 2 + 5 * ε) * (2 * ((1 + 5 * ε) * m)) := mul_le_mul_of_nonneg_left (by linarith) (by positivity)
    refine (mul_le_mul f1 hqi (hqs _).1 (by positivity)).trans ?_
    have f2 : (1 / 2 + 5 * ε) * (2 * (1 + 5 * ε)) * (1 + ε) ^ 2 ≤ 1 + 20 * ε := by
      have g1 : ε * ε ≤ 1 / 100000 * ε := mul_le_mul_of_nonneg_right hε h0
      have g2 : (1 / 2 + 5 * ε) * (2 * (1 + 5 * ε)) ≤ 1 + 16 * ε := by nlinarith
      have g3 : (1 + ε) ^ 2 ≤ 1 + 2.1 * ε := by nlinarith
      refine (mul_le_mul g2 g3 (by positivity) (by positivity)).trans ?_
      nlinarith
    calc _ = (1 / 2 + 5 * ε) * (2 * (1 + 5 * ε)) * (1 + ε) ^ 2 * (m * Q) := by ring
      _ ≤ _ := mul_le_mul_of_nonneg_right f2 hmQ
  -- the terms of the sum
  obtain ⟨E, hE⟩ : ∃ E, E = (1 + ε) ^ 3 * (D / hm) := ⟨_, rfl⟩
  have hE0 : 0 ≤ E := by rw [hE]; positivity
  have hterm : ∀ d, -E ≤ roundedDiff fl (c.h d) d ((c.scheme fl np).flux fl d ((c.scheme fl np).primAverages fl
      (wrapAround c.n u))) x i := by
    intro d
    have e1 := H.le (by linarith) hD0 (hout d)
    have hd := hc.spacing d
    have r0 : 0 ≤ 1 / c.h d := by positivity
    have r1 := H.le (by linarith) r0 (le_refl _)
    have r2 : 0 ≤ fl (1 / c.h d) := le_trans (mul_nonneg (by linarith) r0) (H.low r0)
    have r3 : 1 / c.h d ≤ 1 / hm := one_div_le_one_div_of_le hmin (hminle d)
    have r4 : fl (1 / c.h d) ≤ (1 + ε) * (1 / hm) := r1.trans (mul_le_mul_of_nonneg_left r3 (by linarith))
    have e2 : -((1 + ε) * (1 / hm) * ((1 + ε) * D)) ≤ -fl (1 / c.h d) *
        fl ((c.scheme fl np).flux fl d ((c.scheme fl np).primAverages fl (wrapAround c.n u)) x (i + Pi.single d 1) -
          (c.scheme fl np).flux fl d ((c.scheme fl np).primAverages fl (wrapAround c.n u)) x i) := by
      rw [neg_mul, neg_le_neg_iff]
      refine (mul_le_mul_of_nonneg_left e1 r2).trans (mul_le_mul_of_nonneg_right r4 (by positivity))
    have e3 := H.ge (by linarith) (by positivity) e2
    refine le_trans (le_of_eq ?_) e3
    rw [hE]
    ring
  have hsum := euler_ge H hε c.active c.h (fun d => (c.scheme fl np).flux fl d ((c.scheme fl np).primAverages fl (wrapAround c.n u)))
    x i hE0 hterm [0, 1, 2] (fun _ _ => 0) 0 (by simp)
  rw [Nat.zero_add] at hsum
  have hsum' : -((1 + ε) ^ c.ndim * ((c.ndim : ℚ) * E)) ≤ roundedEulerEquation fl (c.scheme fl np).active (c.scheme fl np).h
      (fun d => (c.scheme fl np).flux fl d ((c.scheme fl np).primAverages fl (wrapAround c.n u))) x i := hsum
  have hnd : c.ndim ≤ 3 := List.countP_le_length
  have hp3 : (1 + ε) ^ c.ndim ≤ (1 + ε) ^ 3 := pow_le_pow_right₀ (by linarith) hnd
  have hnE : 0 ≤ (c.ndim : ℚ) * E := by positivity
  have hsum2 : -((1 + ε) ^ 3 * ((c.ndim : ℚ) * E)) ≤ roundedEulerEquation fl (c.scheme fl np).active (c.scheme fl np).h
      (fun d => (c.scheme fl np).flux fl d ((c.scheme fl np).primAverages fl (wrapAround c.n u))) x i := by
    have := mul_le_mul_of_nonneg_right hp3 hnE
    linarith
  have hstep := mul_le_mul_of_nonneg_left hsum2 h1
  have hτ : τ ≤ (1 + ε) ^ 2 * (c.cfl * hm) / m := h2.trans hle
  have hstep2 : -((1 + ε) ^ 2 * (c.cfl * hm) / m * ((1 + ε) ^ 3 * ((c.ndim : ℚ) * E))) ≤ τ *
      roundedEulerEquation fl (c.scheme fl np).active (c.scheme fl np).h
      (fun d => (c.scheme fl np).flux fl d ((c.scheme fl np).primAverages fl (wrapAround c.n u))) x i := by
    have := mul_le_mul_of_nonneg_right hτ (show 0 ≤ (1 + ε) ^ 3 * ((c.ndim : ℚ) * E) by positivity)
    linarith
  have hc0 := hc.cfl
  have hfin := H.ge (by linarith) (by positivity) hstep2
  refine le_trans ?_ hfin
  rw [neg_le_neg_iff, ← hQ]
  have e : (1 + ε) * ((1 + ε) ^ 2 * (c.cfl * hm) / m * ((1 + ε) ^ 3 * ((c.ndim : ℚ) * E))) =
      (1 + ε) ^ 9 * (1 + 20 * ε) * (c.cfl * c.ndim) * Q := by
    rw [hE, hD]
    field_simp
  rw [e]
  refine mul_le_mul_of_nonneg_right ?_ hQ0
  have g1 : (1 + ε) ^ 9 ≤ (1 + 1 / 100000) ^ 9 := pow_le_pow_left₀ (by linarith) (by linarith) 9
  have g2 : (1 + ε) ^ 9 * (1 + 20 * ε) ≤ (1 + 1 / 100000) ^ 9 * (1 + 20 / 100000) :=
    mul_le_mul g1 (by linarith) (by positivity) (by positivity)
  have g3 := mul_le_mul g2 hcfl (by positivity) (by positivity)
  refine g3.trans ?_
  norm_num

/-! ### The property -/

/-- **C109** (density). First-order llf steps in floating-point arithmetic with relative rounding errors of at most `ε ≤ 10⁻⁵` and
`ndim * CFL ≤ 0.999`: every step up to the one the code chooses leaves all densities positive, as long as no sound speed is
smaller than `16 ε` times the largest signal speed. -/
theorem C109_density (H : RelFl fl ε) (K : KeepsFl fl) (hε : ε ≤ 1 / 100000) (c : RoundedConfig) (hc : FirstRounded c)
    (hcfl : c.cfl * c.ndim ≤ 999 / 1000) {u : FState (Var np)} (hu : Audible fl ε c u) {s t dt : ℚ} {k : FState (Var np)}
    (hk : (c.scheme fl np).rhs fl s t u = .ok (dt, k)) {τ : ℚ} (h1 : 0 ≤ τ) (h2 : τ ≤ dt) (i : Ix) (hi : InCells c.n i) :
    0 < (u.plus fl (k.times fl τ)) .rho i := by
  have hρ := hu.density i hi
  have h := carried_step H K hε c hc hcfl hu .rho (.inl rfl) (fun j hj => (hu.density j hj).le) hk h1 h2 i hi
  have hp : 0 < u .rho i + k.times fl τ .rho i := by linarith
  exact lt_of_lt_of_le (mul_pos (by linarith) hp) (H.low hp.le)

/-- **C109** (passive scalars). Amounts that are nowhere negative stay so. -/
theorem C109_scalar (H : RelFl fl ε) (K : KeepsFl fl) (hε : ε ≤ 1 / 100000) (c : RoundedConfig) (hc : FirstRounded c)
    (hcfl : c.cfl * c.ndim ≤ 999 / 1000) {u : FState (Var np)} (hu : Audible fl ε c u) (j : Fin np)
    (hj : ∀ i, InCells c.n i → 0 ≤ u (.ps j) i) {s t dt : ℚ} {k : FState (Var np)}
    (hk : (c.scheme fl np).rhs fl s t u = .ok (dt, k)) {τ : ℚ} (h1 : 0 ≤ τ) (h2 : τ ≤ dt) (i : Ix) (hi : InCells c.n i) :
    0 ≤ (u.plus fl (k.times fl τ)) (.ps j) i := by
  have h := carried_step H K hε c hc hcfl hu (.ps j) (.inr ⟨j, rfl⟩) hj hk h1 h2 i hi
  have h0 := hj i hi
  have hp : 0 ≤ u (.ps j) i + k.times fl τ (.ps j) i := by linarith
  exact le_trans (mul_nonneg (by linarith) hp) (H.low hp)

/-- **C109** (steps of the code). `take_step` of the explicit Euler method towards a time that is not over: if it succeeds, all densities are
positive and no amount of a passive scalar is negative. -/
theorem C109_step {S : Type} (H : RelFl fl ε) (K : KeepsFl fl) (hε : ε ≤ 1 / 100000) (c : RoundedConfig) (hc : FirstRounded c)
    (hcfl : c.cfl * c.ndim ≤ 999 / 1000) (A : ClockOps ℚ) (target : Option ℚ) (st : ODEState ℚ (FState (Var np)) S)
    (hu : Audible fl ε c st.u) (hps : ∀ j i, InCells c.n i → 0 ≤ st.u (.ps j) i) (ht : ∀ T, target = some T → 0 ≤ A.sub T st.t)
    (hok : (st.takeStepWith A (roundedProposal fl ((c.scheme fl np).rhs fl) .euler) target).2 = none) (i : Ix) (hi : InCells c.n i) :
    0 < (st.takeStepWith A (roundedProposal fl ((c.scheme fl np).rhs fl) .euler) target).1.u .rho i ∧
      ∀ j, 0 ≤ (st.takeStepWith A (roundedProposal fl ((c.scheme fl np).rhs fl) .euler) target).1.u (.ps j) i := by
  unfold ODEState.takeStepWith roundedProposal at hok ⊢
  cases hk : (c.scheme fl np).rhs fl st.t st.t st.u with
  | error e => simp [hk, Bind.bind, Except.bind] at hok
  | ok r =>
    obtain ⟨dt, k⟩ := r
    simp only [Bind.bind, Except.bind, Pure.pure, Except.pure]
    have hdt0 : 0 ≤ dt := by
      obtain ⟨hdt, -⟩ := RoundedScheme.rhs_ok fl _ hk
      exact size_nonneg H K hε c hc hu hdt
    have hτ : 0 ≤ hitTargetWith A st.t dt target ∧ hitTargetWith A st.t dt target ≤ dt := by
      unfold hitTargetWith
      cases target with
      | none => exact ⟨hdt0, le_refl _⟩
      | some T =>
        dsimp only
        split
        · rename_i hlt
          exact ⟨ht T rfl, hlt.le⟩
        · exact ⟨hdt0, le_refl _⟩
    exact ⟨C109_density H K hε c hc hcfl hu hk hτ.1 hτ.2 i hi, fun j => C109_scalar H K hε c hc hcfl hu j (hps j) hk hτ.1 hτ.2 i hi⟩

/-- **C109** (the time step). Rounded as it is, the step obeys the condition of Courant, Friedrichs and Lewy in every cell up to a factor
`1 + 6 ε`. -/
theorem C109_cfl (H : RelFl fl ε) (K : KeepsFl fl) (hε : ε ≤ 1 / 100000) (c : RoundedConfig) (hc : FirstRounded c) {u : FState (Var np)}
    (hu : Audible fl ε c u) {s t dt : ℚ} {k : FState (Var np)} (hk : (c.scheme fl np).rhs fl s t u = .ok (dt, k)) (i : Ix)
    (hi : InCells c.n i) (d : Fin 3) :
    dt * (|cellPrim fl c u i (.mom 0)| + |cellPrim fl c u i (.mom 1)| + |cellPrim fl c u i (.mom 2)| +
      c.ndim * roundedSoundSpeed fl c.gas (cellPrim fl c u i)) ≤ (1 + 6 * ε) * c.cfl * c.h d := by
  have h0 := H.nonneg
  obtain ⟨hdt, -⟩ := RoundedScheme.rhs_ok fl _ hk
  have hd0 := size_nonneg H K hε c hc hu hdt
  obtain ⟨m, m0, -, hmax, hle, -⟩ := size_le H K hε c hc hu hdt
  have hmin : min (min (c.h 0) (c.h 1)) (c.h 2) ≤ c.h d := by
    fin_cases d
    · exact (min_le_left _ _).trans (min_le_left _ _)
    · exact (min_le_left _ _).trans (min_le_right _ _)
    · exact min_le_right _ _
  have hq := (speed_ge H hε c.gas hc.extended _ (hu.sound i hi)).trans (hmax i hi)
  obtain ⟨q, hqd⟩ : ∃ q, q = |cellPrim fl c u i (.mom 0)| + |cellPrim fl c u i (.mom 1)| + |cellPrim fl c u i (.mom 2)| +
      c.ndim * roundedSoundSpeed fl c.gas (cellPrim fl c u i) := ⟨_, rfl⟩
  rw [← hqd] at hq ⊢
  have hch : 0 ≤ c.cfl * c.h d := (mul_pos hc.cfl (hc.spacing d)).le
  have e1 : dt * m ≤ (1 + ε) ^ 2 * (c.cfl * c.h d) := by
    rw [le_div_iff₀ m0] at hle
    exact hle.trans (mul_le_mul_of_nonneg_left (mul_le_mul_of_nonneg_left hmin hc.cfl.le) (by positivity))
  have e2 : dt * ((1 - 3 * ε) * q) ≤ (1 + ε) ^ 2 * (c.cfl * c.h d) := (mul_le_mul_of_nonneg_left hq hd0).trans e1
  have g : (1 + ε) ^ 2 ≤ (1 - 3 * ε) * (1 + 6 * ε) := by nlinarith
  have e3 : (1 - 3 * ε) * (dt * q) ≤ (1 - 3 * ε) * ((1 + 6 * ε) * c.cfl * c.h d) := by
    calc _ = dt * ((1 - 3 * ε) * q) := by ring
      _ ≤ _ := e2
      _ ≤ (1 - 3 * ε) * (1 + 6 * ε) * (c.cfl * c.h d) := mul_le_mul_of_nonneg_right g hch
      _ = _ := by ring
  exact le_of_mul_le_mul_left e3 (by linarith)

/-- **C109** (the machine). Rounding to `p` bits to nearest has relative errors of at most `2⁻ᵖ` and keeps the numbers of the format; so the
theorems above hold in double precision (`p = 53`, `ε = 2⁻⁵³`) as long as no result is subnormal, and in single precision. -/
theorem C109_machine (p : ℕ) (hp : 1 ≤ p) : RelFl (freeFl p) ((1 / 2) ^ p) ∧ KeepsFl (freeFl p) := by
  constructor
  · intro x
    by_cases hx : x = 0
    · subst hx
      have : roundEven 0 = 0 := by decide +kernel
      simp [freeFl, this]
    obtain ⟨b1, b2⟩ := binade_spec hx
    unfold freeFl
    obtain ⟨e, he⟩ : ∃ e : ℤ, e = binade x + 1 - p := ⟨_, rfl⟩
    rw [← he]
    have hpos : (0 : ℚ) < 2 ^ e := by positivity
    have h := roundEven_near (x / 2 ^ e)
    have e1 : (roundEven (x / 2 ^ e) : ℚ) * 2 ^ e - x = (roundEven (x / 2 ^ e) - x / 2 ^ e) * 2 ^ e := by
      rw [sub_mul, div_mul_cancel₀ _ hpos.ne']
    rw [e1, abs_mul, abs_of_pos hpos]
    refine (mul_le_mul_of_nonneg_right h hpos.le).trans ?_
    have e2 : (1 : ℚ) / 2 * 2 ^ e = (1 / 2) ^ p * 2 ^ binade x := by
      rw [he, zpow_sub₀ two_ne_zero, zpow_add₀ two_ne_zero, zpow_one, zpow_natCast, one_div, inv_pow]
      field_simp
    rw [e2]
    exact mul_le_mul_of_nonneg_left b1 (by positivity)
  · have wide (x y : ℚ) : ∃ F : Format, F.p = p ∧ F.fl x = freeFl p x ∧ F.fl y = freeFl p y := by
      refine ⟨⟨p, min (binade x + 1 - p) (binade y + 1 - p)⟩, rfl, ?_, ?_⟩
      · refine C102_normal ⟨p, _⟩ x ?_
        by_cases hx : x = 0
        · exact .inl hx
        · refine .inr (le_trans (zpow_le_zpow_right₀ (by norm_num) ?_) (binade_spec hx).1)
          have := min_le_left (binade x + 1 - p) (binade y + 1 - p)
          dsimp only
          omega
      · refine C102_normal ⟨p, _⟩ y ?_
        by_cases hy : y = 0
        · exact .inl hy
        · refine .inr (le_trans (zpow_le_zpow_right₀ (by norm_num) ?_) (binade_spec hy).1)
          have := min_le_right (binade x + 1 - p) (binade y + 1 - p)
          dsimp only
          omega
    constructor
    · intro x
      obtain ⟨F, hF, h1, h2⟩ := wide x (freeFl p x)
      rw [← h2]
      refine F.fl_eq (by omega) ?_
      rw [← h1]
      exact F.fl_has x
    · have : roundEven 0 = 0 := by decide +kernel
      simp [freeFl, this]
    · have hb : binade 1 = 0 := by decide +kernel
      have h1 : (1 : ℚ) / 2 ^ ((0 : ℤ) + 1 - p) = ((2 ^ (p - 1) : ℤ) : ℚ) := by
        have e : ((0 : ℤ) + 1 - p) = -((p - 1 : ℕ) : ℤ) := by omega
        rw [e, zpow_neg, zpow_natCast]
        push_cast
        simp
      have hint (m : ℤ) : roundEven (m : ℚ) = m := by
        have := roundEven_le (m : ℚ) m
        rw [sub_self, abs_zero] at this
        exact_mod_cast sub_eq_zero.1 (abs_nonpos_iff.1 this)
      unfold freeFl
      rw [hb, h1, hint]
      have e : ((0 : ℤ) + 1 - p) = -((p - 1 : ℕ) : ℤ) := by omega
      rw [e, zpow_neg, zpow_natCast]
      push_cast
      exact mul_inv_cancel₀ (by positivity)

/-! ### A gas too fast for its sound -/

/-- Four cells with CFL number 0.8; the squares of sound speeds are at least `2⁻³⁴`. -/
def coldConfig (sqrt : ℚ → ℚ) : RoundedConfig where
  gas := { gamma := freeFl 53 (7 / 5), sqrt := sqrt, csqFloor := 1 / 2 ^ 34 }
  riem := .llf
  n := ![4, 1, 1]
  active := ![true, false, false]
  h := ![1 / 4, 1, 1]
  p := fun _ => 0
  cfl := freeFl 53 (4 / 5)
  fixedDt := none

/-- A nearly empty cell between streams that leave it at the speed `2⁶⁴`. -/
def coldCell (i : ℤ) : State ℚ 0
  | .rho => if i = 1 then (1 + 1 / 2 ^ 52) / 2 ^ 53 else 1
  | .mom d => if d = 0 then (if i = 0 then -2 ^ 64 else if i = 1 then 2 ^ 64 * ((1 + 1 / 2 ^ 52) / 2 ^ 53) else 2 ^ 64) else 0
  | .en => if i = 1 then 2 ^ 127 * ((1 + 1 / 2 ^ 52) / 2 ^ 53) else 2 ^ 127
  | .ps j => j.elim0

def coldGas : FState (Var 0) := fun x i => coldCell (i 0) x

theorem coldCell_rounded : ∀ (i : ℤ), 0 ≤ i → i < 4 → ∀ x : Var 0, freeFl 53 (coldCell i x) = coldCell i x := by
  have h : ∀ i ∈ ([0, 1, 2, 3] : List ℤ), freeFl 53 (coldCell i .rho) = coldCell i .rho ∧ freeFl 53 (coldCell i .en) = coldCell i .en ∧
      ∀ d : Fin 3, freeFl 53 (coldCell i (.mom d)) = coldCell i (.mom d) := by decide +kernel
  intro i h0 h4 x
  have hi : i ∈ ([0, 1, 2, 3] : List ℤ) := by
    have : i = 0 ∨ i = 1 ∨ i = 2 ∨ i = 3 := by omega
    rcases this with rfl | rfl | rfl | rfl <;> simp
  obtain ⟨h1, h2, h3⟩ := h i hi
  cases x with
  | rho => exact h1
  | en => exact h2
  | mom d => exact h3 d
  | ps j => exact j.elim0

/-- The sound speed of all cells is the smallest one. -/
theorem coldCell_sound (sqrt : ℚ → ℚ) (hs : sqrt (1 / 2 ^ 34) = 1 / 2 ^ 17) (i : ℤ) (h0 : 0 ≤ i) (h4 : i < 4) :
    roundedSoundSpeed (freeFl 53) (coldConfig sqrt).gas (roundedPrimitives (freeFl 53) (coldConfig sqrt).gas.gamma (coldCell i)) =
      1 / 2 ^ 17 := by
  have h : ∀ i ∈ ([0, 1, 2, 3] : List ℤ), ¬ freeFl 53 (freeFl 53 (freeFl 53 (7 / 5) *
      roundedPrimitives (freeFl 53) (freeFl 53 (7 / 5)) (coldCell i) .en) /
      roundedPrimitives (freeFl 53) (freeFl 53 (7 / 5)) (coldCell i) .rho) > 1 / 2 ^ 34 := by decide +kernel
  have hi : i ∈ ([0, 1, 2, 3] : List ℤ) := by
    have : i = 0 ∨ i = 1 ∨ i = 2 ∨ i = 3 := by omega
    rcases this with rfl | rfl | rfl | rfl <;> simp
  exact (congrArg sqrt (if_neg (h i hi))).trans hs

/-- **C109** (why the sound must be heard). In double precision, with the default CFL number in one dimension, there are densities that are all positive
and momenta and energies, such that the step of the code gives a negative density: the sound speeds are positive, but too small to change the velocities
they are added to. -/
theorem C109_cold_violated (sqrt : ℚ → ℚ) (hs : sqrt (1 / 2 ^ 34) = 1 / 2 ^ 17) :
    FirstRounded (coldConfig sqrt) ∧ (coldConfig sqrt).cfl * (coldConfig sqrt).ndim ≤ 999 / 1000 ∧
    (∀ x i, InCells (coldConfig sqrt).n i → freeFl 53 (coldGas x i) = coldGas x i) ∧
    (∀ i, 0 < coldGas .rho i) ∧
    (∀ i, InCells (coldConfig sqrt).n i → 0 < roundedSoundSpeed (freeFl 53) (coldConfig sqrt).gas (cellPrim (freeFl 53) (coldConfig sqrt) coldGas i)) ∧
    ∃ dt k, ((coldConfig sqrt).scheme (freeFl 53) 0).rhs (freeFl 53) 0 0 coldGas = .ok (dt, k) ∧
      (coldGas.plus (freeFl 53) (k.times (freeFl 53) dt)) .rho ![1, 0, 0] < 0 := by
  have K := (C109_machine 53 (by norm_num)).2
  have hn : ∀ d, 0 < (coldConfig sqrt).n d := (by decide : ∀ d, 0 < (![4, 1, 1] : Fin 3 → ℕ) d)
  have hnd : (coldConfig sqrt).ndim = 1 := rfl
  have hR : ∀ x i, InCells (coldConfig sqrt).n i → freeFl 53 (coldGas x i) = coldGas x i := fun x i hi =>
    coldCell_rounded _ (hi 0).1 (hi 0).2 x
  have hr : AllRounded (freeFl 53) (wrapAround (coldConfig sqrt).n coldGas) := fun x i => hR x _ (mod_inCells _ hn i)
  have hS : ∀ i, InCells (coldConfig sqrt).n i → roundedSoundSpeed (freeFl 53) (coldConfig sqrt).gas
      (cellPrim (freeFl 53) (coldConfig sqrt) coldGas i) = 1 / 2 ^ 17 := fun i hi => coldCell_sound sqrt hs _ (hi 0).1 (hi 0).2
  refine ⟨⟨fun _ => rfl, rfl, rfl, hn, fun d => by fin_cases d <;> simp [coldConfig], hnd.ge, (by decide +kernel : 0 < freeFl 53 (4 / 5))⟩, ?_, hR, fun i => ?_,
    fun i hi => by rw [hS i hi]; norm_num, ?_⟩
  · rw [hnd]
    have : freeFl 53 (4 / 5) * ((1 : ℕ) : ℚ) ≤ 999 / 1000 := by decide +kernel
    exact this
  · show (0 : ℚ) < if i 0 = 1 then (1 + 1 / 2 ^ 52) / 2 ^ 53 else 1
    split <;> norm_num
  -- the time step
  obtain ⟨w, hw⟩ : ∃ w : Ix → State ℚ 0, w = cellPrim (freeFl 53) (coldConfig sqrt) (wrapAround (coldConfig sqrt).n coldGas) := ⟨_, rfl⟩
  have hsw : ∀ l, roundedSoundSpeed (freeFl 53) (coldConfig sqrt).gas (w l) = 1 / 2 ^ 17 := fun l => by
    rw [hw, wrap_prim]
    exact hS _ (mod_inCells _ hn l)
  have hsp : ∀ l, roundedSpeed (freeFl 53) (coldConfig sqrt).gas (coldConfig sqrt).ndim (w l) = freeFl 53 (roundedSum3 (freeFl 53)
      (fun d => |w l (.mom d)|) + freeFl 53 ((1 : ℕ) * (1 / 2 ^ 17))) := fun l => by
    unfold roundedSpeed
    rw [hsw, hnd]
  have hlist : npMax ((indexList (coldConfig sqrt).n).map fun l => roundedSpeed (freeFl 53) (coldConfig sqrt).gas (coldConfig sqrt).ndim (w l)) =
      .ok (2 ^ 64) := by
    simp only [hsp]
    rw [hw]
    have : npMax ((indexList ![4, 1, 1]).map fun l => freeFl 53 (roundedSum3 (freeFl 53)
      (fun d => |freeFl 53 (wrapAround ![4, 1, 1] coldGas (.mom d) l / wrapAround ![4, 1, 1] coldGas .rho l)|) +
        freeFl 53 ((1 : ℕ) * (1 / 2 ^ 17)))) = .ok (2 ^ 64) := by decide +kernel
    exact this
  have hsize : ((coldConfig sqrt).scheme (freeFl 53) 0).size (freeFl 53) (((coldConfig sqrt).scheme (freeFl 53) 0).primAverages (freeFl 53)
      (wrapAround (coldConfig sqrt).n coldGas)) = .ok (freeFl 53 (freeFl 53 (freeFl 53 (4 / 5) * (1 / 4)) / 2 ^ 64)) := by
    rw [free_averages K _ (fun _ => rfl) _ hr]
    unfold RoundedScheme.size
    have e : npMax ((indexList ((coldConfig sqrt).scheme (freeFl 53) 0).n).map fun i => ((coldConfig sqrt).scheme (freeFl 53) 0).speed fun y =>
      roundedPrimitives (freeFl 53) (coldConfig sqrt).gas.gamma (fun y => wrapAround (coldConfig sqrt).n coldGas y i) y) = .ok (2 ^ 64) := by
      rw [← hlist, hw]
      rfl
    have hm : min (min (((coldConfig sqrt).scheme (freeFl 53) 0).h 0) (((coldConfig sqrt).scheme (freeFl 53) 0).h 1))
        (((coldConfig sqrt).scheme (freeFl 53) 0).h 2) = 1 / 4 := (by decide +kernel : min (min ((![1 / 4, 1, 1] : Fin 3 → ℚ) 0) ((![1 / 4, 1, 1] : Fin 3 → ℚ) 1))
        ((![1 / 4, 1, 1] : Fin 3 → ℚ) 2) = 1 / 4)
    rw [hm]
    simp only [e, Bind.bind, Except.bind, Pure.pure, Except.pure]
    rfl
  refine ⟨_, _, by
    unfold RoundedScheme.rhs
    simp only [Bind.bind, Except.bind, Pure.pure, Except.pure]
    rw [show ((coldConfig sqrt).scheme (freeFl 53) 0).n = (coldConfig sqrt).n from rfl, hsize], ?_⟩
  -- the fluxes through the two faces
  have hflux : ∀ l, ((coldConfig sqrt).scheme (freeFl 53) 0).flux (freeFl 53) 0 (((coldConfig sqrt).scheme (freeFl 53) 0).primAverages (freeFl 53)
      (wrapAround (coldConfig sqrt).n coldGas)) .rho l =
      faceFlux (freeFl 53) (max (freeFl 53 (|w (l - Pi.single 0 1) (.mom 0)| + 1 / 2 ^ 17)) (freeFl 53 (|w l (.mom 0)| + 1 / 2 ^ 17)))
        (w (l - Pi.single 0 1) (.mom 0)) (w l (.mom 0)) (w (l - Pi.single 0 1) .rho) (w l .rho) := by
    intro l
    have hra : AllRounded (freeFl 53) fun (x : Var 0) i => roundedPrimitives (freeFl 53) (coldConfig sqrt).gas.gamma
        (fun y => wrapAround (coldConfig sqrt).n coldGas y i) x := fun x i => by
      cases x with
      | rho => exact hr _ _
      | mom d => exact K.idem _
      | en => exact K.idem _
      | ps j => exact K.idem _
    have h1 := hsw (l - Pi.single 0 1)
    have h2 := hsw l
    rw [hw] at h1 h2
    rw [free_averages K _ (fun _ => rfl) _ hr, free_flux K _ (fun _ => rfl) rfl 0 _ hra]
    dsimp only
    rw [llf_carried _ 0 _ _ .rho (.inl rfl), hw]
    have e1 : roundedSoundSpeed (freeFl 53) (coldConfig sqrt).gas (fun y => roundedPrimitives (freeFl 53) (coldConfig sqrt).gas.gamma
      (fun y => wrapAround (coldConfig sqrt).n coldGas y (l - Pi.single 0 1)) y) = 1 / 2 ^ 17 := h1
    have e2 : roundedSoundSpeed (freeFl 53) (coldConfig sqrt).gas (fun y => roundedPrimitives (freeFl 53) (coldConfig sqrt).gas.gamma
      (fun y => wrapAround (coldConfig sqrt).n coldGas y l) y) = 1 / 2 ^ 17 := h2
    rw [e1, e2]
    rfl
  have hk : roundedEulerEquation (freeFl 53) ((coldConfig sqrt).scheme (freeFl 53) 0).active ((coldConfig sqrt).scheme (freeFl 53) 0).h
      (fun d => ((coldConfig sqrt).scheme (freeFl 53) 0).flux (freeFl 53) d (((coldConfig sqrt).scheme (freeFl 53) 0).primAverages (freeFl 53)
      (wrapAround (coldConfig sqrt).n coldGas))) .rho ![1, 0, 0] = freeFl 53 (0 + freeFl 53 (-freeFl 53 (1 / (1 / 4)) * freeFl 53 (
        ((coldConfig sqrt).scheme (freeFl 53) 0).flux (freeFl 53) 0 (((coldConfig sqrt).scheme (freeFl 53) 0).primAverages (freeFl 53)
      (wrapAround (coldConfig sqrt).n coldGas)) .rho (![1, 0, 0] + Pi.single 0 1) - ((coldConfig sqrt).scheme (freeFl 53) 0).flux (freeFl 53) 0
        (((coldConfig sqrt).scheme (freeFl 53) 0).primAverages (freeFl 53) (wrapAround (coldConfig sqrt).n coldGas)) .rho ![1, 0, 0]))) := rfl
  show freeFl 53 (coldGas .rho ![1, 0, 0] + freeFl 53 (_ * roundedEulerEquation (freeFl 53) ((coldConfig sqrt).scheme (freeFl 53) 0).active
    ((coldConfig sqrt).scheme (freeFl 53) 0).h (fun d => ((coldConfig sqrt).scheme (freeFl 53) 0).flux (freeFl 53) d
    (((coldConfig sqrt).scheme (freeFl 53) 0).primAverages (freeFl 53) (wrapAround (coldConfig sqrt).n coldGas))) .rho ![1, 0, 0])) < 0
  have hv : ∀ l d, w l (.mom d) = freeFl 53 (coldCell (l 0 % 4) (.mom d) / coldCell (l 0 % 4) .rho) := fun l d => by rw [hw]; rfl
  have hρ : ∀ l, w l .rho = coldCell (l 0 % 4) .rho := fun l => by rw [hw]; rfl
  have i1 : (![1, 0, 0] + Pi.single 0 1 : Ix) 0 % 4 = 2 := by decide
  have i2 : (![1, 0, 0] : Ix) 0 % 4 = 1 := by decide
  have i3 : (![1, 0, 0] - Pi.single 0 1 : Ix) 0 % 4 = 0 := by decide
  rw [hk, hflux, hflux, add_sub_cancel_right]
  simp only [hv, hρ, i1, i2, i3]
  decide +kernel

/-! ### Example -/

/-- Four cells in double precision; a crude square root. -/
def fourConfig : RoundedConfig :=
  ⟨⟨freeFl 53 (7 / 5), 1 / 2 ^ 34, fun x => if 1 < x then 1 else 1 / 2⟩, .llf, ![4, 1, 1], ![true, false, false], ![1 / 4, 1, 1], fun _ => 0,
    freeFl 53 (4 / 5), none⟩

/-- Sod's two gases, one of whose cells moves, with a passive scalar. -/
def fourGas : FState (Var 1) := fun x i => match x with
  | .rho => if i 0 < 2 then 1 else 1 / 8
  | .mom d => if d = 0 ∧ i 0 = 0 then 1 / 16 else 0
  | .en => if i 0 < 2 then 5 / 2 else 1 / 4
  | .ps _ => 1 / 2

theorem fourGas_cells : ∀ l ∈ indexList fourConfig.n, (∀ x ∈ ([.rho, .mom 0, .mom 1, .mom 2, .en, .ps 0] : List (Var 1)),
    freeFl 53 (fourGas x l) = fourGas x l) ∧ 0 < fourGas .rho l ∧
    1 / 2 ≤ roundedSoundSpeed (freeFl 53) fourConfig.gas (cellPrim (freeFl 53) fourConfig fourGas l) ∧
    roundedSpeed (freeFl 53) fourConfig.gas fourConfig.ndim (cellPrim (freeFl 53) fourConfig fourGas l) ≤ 2 := by decide +kernel

example : FirstRounded fourConfig ∧ fourConfig.cfl * fourConfig.ndim ≤ 999 / 1000 ∧ Audible (freeFl 53) ((1 / 2) ^ 53) fourConfig fourGas ∧
    ((1 / 2 : ℚ) ^ 53 ≤ 1 / 100000) ∧ (∀ i, 0 ≤ fourGas (.ps 0) i) ∧ fourGas .rho ![0, 0, 0] ≠ fourGas .rho ![2, 0, 0] ∧
    cellPrim (freeFl 53) fourConfig fourGas ![0, 0, 0] (.mom 0) ≠ 0 := by
  have hn : ∀ d, 0 < fourConfig.n d := (by decide : ∀ d, 0 < (![4, 1, 1] : Fin 3 → ℕ) d)
  have key := fourGas_cells
  have hh : ∀ d, 0 < fourConfig.h d := (by decide +kernel : ∀ d, 0 < (![1 / 4, 1, 1] : Fin 3 → ℚ) d)
  refine ⟨⟨fun _ => rfl, rfl, rfl, hn, hh, by decide, (by decide +kernel : 0 < freeFl 53 (4 / 5))⟩,
    by decide +kernel, ⟨fun x i hi => ?_, fun i hi => (key i ((mem_indexList _ _).2 hi)).2.1, fun i hi => ?_, fun i j hi hj => ?_⟩, by norm_num,
    fun i => by show (0 : ℚ) ≤ 1 / 2; norm_num, by decide +kernel, by decide +kernel⟩
  · have h := (key i ((mem_indexList _ _).2 hi)).1
    cases x with
    | rho => exact h _ (by simp)
    | en => exact h _ (by simp)
    | mom d => exact h _ (by fin_cases d <;> simp)
    | ps j => exact h _ (by fin_cases j; simp)
  · exact lt_of_lt_of_le (by norm_num) (key i ((mem_indexList _ _).2 hi)).2.2.1
  · have h1 := (key i ((mem_indexList _ _).2 hi)).2.2.1
    have h2 := (key j ((mem_indexList _ _).2 hj)).2.2.2
    refine le_trans (mul_le_mul_of_nonneg_left h2 (by positivity)) (le_trans ?_ h1)
    norm_num

end FVHOE
