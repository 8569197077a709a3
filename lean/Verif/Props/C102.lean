import Verif.Proofs.FloatUnits
import Verif.Props.C98_link
import Verif.Props.C99
import Verif.Model.Euler

/-!
C102. Units that differ by powers of two change no bit.

The scheme of `Verif/Model/FloatHydro.lean` rounds after every operation of the conversions, the Riemann solvers, the stencil
sweeps, the step size and the integrators. Exponents are unbounded: `C102_normal` says when this is the arithmetic of the
machine, `C102_underflow_violated` what happens otherwise.
-/

set_option linter.unusedSectionVars false

namespace FVHOE

variable {S : Type} {np : ℕ}

/-! ### Rounding and powers of two -/

theorem binade_unique {x : ℚ} {k : ℤ} (h1 : (2 : ℚ) ^ k ≤ |x|) (h2 : |x| < 2 ^ (k + 1)) : binade x = k := by
  have hx : x ≠ 0 := by
    rintro rfl
    rw [abs_zero] at h1
    exact absurd h1 (not_le.2 (by positivity))
  obtain ⟨e1, e2⟩ := binade_spec hx
  have a := (zpow_lt_zpow_iff_right₀ (by norm_num : (1 : ℚ) < 2)).1 (e1.trans_lt h2)
  have b := (zpow_lt_zpow_iff_right₀ (by norm_num : (1 : ℚ) < 2)).1 (h1.trans_lt e2)
  omega

theorem binade_scale (k : ℤ) {x : ℚ} (hx : x ≠ 0) : binade (2 ^ k * x) = binade x + k := by
  obtain ⟨e1, e2⟩ := binade_spec hx
  have hk : (0 : ℚ) < 2 ^ k := by positivity
  refine binade_unique ?_ ?_ <;> rw [abs_mul, abs_of_pos hk]
  · rw [zpow_add₀ (by norm_num), mul_comm]
    exact mul_le_mul_of_nonneg_left e1 hk.le
  · rw [show binade x + k + 1 = k + (binade x + 1) by ring, zpow_add₀ (by norm_num)]
    exact mul_lt_mul_of_pos_left e2 hk

/-- Rounding to `p` bits commutes with factors that are powers of two. -/
theorem freeFl_scales (p : ℕ) : Scales (freeFl p) := by
  intro k x
  by_cases hx : x = 0
  · subst hx
    have : roundEven 0 = 0 := by decide +kernel
    simp [freeFl, this]
  unfold freeFl
  rw [binade_scale k hx, show binade x + k + 1 - (p : ℤ) = k + (binade x + 1 - p) by ring, zpow_add₀ (by norm_num),
    mul_div_mul_left _ _ (two_zpow_ne k)]
  ring

/-- So does the rounded square root, when the factor is an even power. -/
theorem freeSqrt_scales (p : ℕ) (k : ℤ) (x : ℚ) : freeSqrt p (2 ^ (k + k) * x) = 2 ^ k * freeSqrt p x := by
  by_cases hx : 0 < x
  swap
  · have : ¬ 0 < 2 ^ (k + k) * x := fun h => hx (pos_of_mul_pos_right h (by positivity))
    simp [freeSqrt, hx, this]
  have hx' : 0 < 2 ^ (k + k) * x := by positivity
  unfold freeSqrt
  simp only [if_pos hx, if_pos hx']
  have e : binade (2 ^ (k + k) * x) / 2 = k + binade x / 2 := by
    rw [binade_scale _ hx.ne']
    omega
  have e2 : (2 : ℚ) ^ (k + k) * x / 2 ^ (k + binade x / 2 + (k + binade x / 2)) = x / 2 ^ (binade x / 2 + binade x / 2) := by
    rw [show k + binade x / 2 + (k + binade x / 2) = (k + k) + (binade x / 2 + binade x / 2) by ring,
      zpow_add₀ (by norm_num) (k + k) (binade x / 2 + binade x / 2), mul_div_mul_left _ _ (two_zpow_ne _)]
  rw [e, e2, show k + binade x / 2 + 1 - (p : ℤ) = k + (binade x / 2 + 1 - p) by ring,
    zpow_add₀ (by norm_num) k (binade x / 2 + 1 - p), mul_left_comm]

/-- `freeSqrt` is the square root up to half a unit in the last place. -/
theorem freeSqrt_near (p : ℕ) (hp : 1 ≤ p) (x : ℚ) (hx : 0 < x) : ∃ (m : ℕ) (e : ℤ), freeSqrt p x = m * 2 ^ e ∧
    2 ^ (p - 1) ≤ m ∧ m ≤ 2 ^ p ∧ ((m - 1 / 2) * 2 ^ e) ^ 2 ≤ x ∧ x ≤ ((m + 1 / 2) * 2 ^ e) ^ 2 := by
  obtain ⟨e1, e2⟩ := binade_spec hx.ne'
  rw [abs_of_pos hx] at e1 e2
  set k := binade x / 2 with hk
  set q := x / 2 ^ (k + k) * 4 ^ (p - 1) with hq
  set r := Nat.sqrt ⌊q⌋₊ with hr
  set e : ℤ := k + 1 - p with he
  have h4 : (4 : ℚ) ^ (p - 1) = 2 ^ ((p - 1 : ℤ) + (p - 1)) := by
    rw [show (4 : ℚ) = 2 ^ (2 : ℤ) by norm_num, ← zpow_natCast, ← zpow_mul, Nat.cast_sub hp]
    congr 1
    push_cast
    ring
  have hxq : x = q * (2 ^ e) ^ 2 := by
    rw [hq, h4, div_mul_eq_mul_div, ← zpow_natCast, ← zpow_mul, eq_comm, div_mul_eq_mul_div, div_eq_iff (two_zpow_ne _), mul_assoc,
      ← zpow_add₀ (by norm_num)]
    congr 2
    rw [he]
    push_cast
    ring
  have hlow : (4 : ℚ) ^ (p - 1) ≤ q := by
    rw [hq]
    refine le_mul_of_one_le_left (by positivity) ?_
    rw [one_le_div (by positivity)]
    exact (zpow_le_zpow_right₀ (by norm_num) (by omega)).trans e1
  have hhigh : q < 4 * 4 ^ (p - 1) := by
    rw [hq]
    refine mul_lt_mul_of_pos_right ?_ (by positivity)
    rw [div_lt_iff₀ (by positivity), show (4 : ℚ) = 2 ^ (2 : ℤ) by norm_num, ← zpow_add₀ (by norm_num)]
    exact e2.trans_le (zpow_le_zpow_right₀ (by norm_num) (by omega))
  have hq0 : 0 ≤ q := le_trans (by positivity) hlow
  have f1 : ((r : ℚ)) ^ 2 ≤ q := by
    have h := Nat.sqrt_le' ⌊q⌋₊
    have h' := Nat.floor_le hq0
    refine le_trans ?_ h'
    exact_mod_cast h
  have f2 : q < ((r : ℚ) + 1) ^ 2 := by
    have h := Nat.lt_succ_sqrt' ⌊q⌋₊
    have h2 : ⌊q⌋₊ + 1 ≤ (r + 1) ^ 2 := h
    have h' := Nat.lt_floor_add_one q
    refine lt_of_lt_of_le h' ?_
    exact_mod_cast h2
  have g1 : 2 ^ (p - 1) ≤ r := by
    rw [hr, Nat.le_sqrt']
    refine Nat.le_floor ?_
    push_cast
    rw [← pow_mul, mul_comm, pow_mul]
    norm_num at hlow ⊢
    exact hlow
  have g2 : r < 2 ^ p := by
    rw [hr, Nat.sqrt_lt']
    refine (Nat.floor_lt hq0).2 ?_
    obtain ⟨p', rfl⟩ : ∃ p', p = p' + 1 := ⟨p - 1, by omega⟩
    push_cast
    rw [← pow_mul, mul_comm, pow_mul]
    norm_num at hhigh ⊢
    rw [pow_succ']
    exact hhigh
  have g3 : (1 : ℚ) ≤ r := by
    have : 1 ≤ r := le_trans Nat.one_le_two_pow g1
    exact_mod_cast this
  have hs : freeSqrt p x = ((if q < (r + 1 / 2) ^ 2 then r else if (r + 1 / 2 : ℚ) ^ 2 < q then r + 1 else if r % 2 = 0 then r
      else r + 1 : ℕ) : ℚ) * 2 ^ e := by
    unfold freeSqrt
    simp only [if_pos hx]
    rfl
  have he2 : (0 : ℚ) ≤ (2 ^ e) ^ 2 := by positivity
  have down (h : q ≤ (r + 1 / 2) ^ 2) : ∃ (m : ℕ) (e' : ℤ), (r : ℚ) * 2 ^ e = m * 2 ^ e' ∧ 2 ^ (p - 1) ≤ m ∧ m ≤ 2 ^ p ∧
      ((m - 1 / 2) * 2 ^ e') ^ 2 ≤ x ∧ x ≤ ((m + 1 / 2) * 2 ^ e') ^ 2 := by
    refine ⟨r, e, rfl, g1, g2.le, ?_, ?_⟩ <;> rw [hxq, mul_pow]
    · exact mul_le_mul_of_nonneg_right (by nlinarith) he2
    · exact mul_le_mul_of_nonneg_right h he2
  have up (h : (r + 1 / 2) ^ 2 ≤ q) : ∃ (m : ℕ) (e' : ℤ), ((r + 1 : ℕ) : ℚ) * 2 ^ e = m * 2 ^ e' ∧ 2 ^ (p - 1) ≤ m ∧ m ≤ 2 ^ p ∧
      ((m - 1 / 2) * 2 ^ e') ^ 2 ≤ x ∧ x ≤ ((m + 1 / 2) * 2 ^ e') ^ 2 := by
    refine ⟨r + 1, e, rfl, by omega, g2, ?_, ?_⟩ <;> rw [hxq, mul_pow] <;> push_cast
    · exact mul_le_mul_of_nonneg_right (by nlinarith) he2
    · exact mul_le_mul_of_nonneg_right (by nlinarith) he2
  rw [hs]
  split_ifs with h1 h2 h3
  · exact down h1.le
  · exact up h2.le
  · exact down (not_lt.1 h2)
  · exact up (not_lt.1 h1)

/-- **C102** (range). As long as a result is not subnormal, rounding without bounds on the exponent is the rounding of the
format. -/
theorem C102_normal (F : Format) (x : ℚ) (hx : x = 0 ∨ (2 : ℚ) ^ (F.emin + F.p - 1) ≤ |x|) : F.fl x = freeFl F.p x := by
  rcases hx with rfl | hx
  · have : roundEven 0 = 0 := by decide +kernel
    simp [freeFl, Format.fl, this]
  have h0 : x ≠ 0 := by
    rintro rfl
    rw [abs_zero] at hx
    exact absurd hx (not_le.2 (by positivity))
  have h1 := (zpow_lt_zpow_iff_right₀ (by norm_num : (1 : ℚ) < 2)).1 (hx.trans_lt (binade_spec h0).2)
  have : F.lastBit x = binade x + 1 - F.p := max_eq_left (by omega)
  unfold Format.fl freeFl
  rw [this]

/-! ### Steps and runs -/

section
variable {fl : ℚ → ℚ} (H : Scales fl) (c : RoundedConfig)
  (hs : ∀ (k : ℤ) (x : ℚ), c.gas.sqrt (2 ^ (k + k) * x) = 2 ^ k * c.gas.sqrt x) {a b : ℤ} (l : ℤ) {e : Fin np → ℤ}
include H hs

/-- Calling the right-hand side in other units. -/
theorem call_units {R : FState (Var np) → FState (Var np) → Prop} (s' t' s t : ℚ) {u' u : FState (Var np)}
    (h : ArrUnits (consUnit a b e) u' u) (G' G : ℚ × FState (Var np) → Except PyErr (FState (Var np)))
    (hG : ∀ x y, ArrUnits (fun v => consUnit a b e v - (l - b)) x.2 y.2 → ExRel R (G' x) (G y)) :
    ExRel R ((((c.units b l).scheme fl np).rhs fl s' t' u').bind G') (((c.scheme fl np).rhs fl s t u).bind G) := by
  cases h1 : (c.scheme fl np).rhs fl s t u with
  | error er =>
    rw [rhs_units_error c l s' t' s t h1]
    exact rfl
  | ok r =>
    obtain ⟨dt, k⟩ := r
    obtain ⟨k', e1, e2⟩ := rhs_units H c hs l h s' t' s t h1
    rw [e1]
    exact hG _ _ e2

/-- A step in other units. -/
theorem proposal_units (m : Integrator) (t' t : ℚ) (u' u : FState (Var np)) (h : ArrUnits (consUnit a b e) u' u) :
    ExRel (fun x y => InUnit (l - b) x.1 y.1 ∧ ∀ dt' dt, InUnit (l - b) dt' dt → ExRel (ArrUnits (consUnit a b e)) (x.2 dt') (y.2 dt))
      (roundedProposal fl (((c.units b l).scheme fl np).rhs fl) m t' u') (roundedProposal fl ((c.scheme fl np).rhs fl) m t u) := by
  unfold roundedProposal
  cases h1 : (c.scheme fl np).rhs fl t t u with
  | error er =>
    rw [rhs_units_error c l t' t' t t h1]
    exact rfl
  | ok r =>
    obtain ⟨dt0, k0⟩ := r
    obtain ⟨k0', e1, hk0⟩ := rhs_units H c hs l h t' t' t t h1
    rw [e1]
    refine ⟨rfl, fun dt' dt hdt => ?_⟩
    -- a multiple of the time derivative, with a factor that is a time
    have inc {k' k : FState (Var np)} (hk : ArrUnits (fun v => consUnit a b e v - (l - b)) k' k) {x' x : ℚ}
        (hx : InUnit (l - b) x' x) : ArrUnits (consUnit a b e) (k'.times fl x') (k.times fl x) :=
      hk.times H hx fun v => by omega
    have mul {c' : Var np → ℤ} {k' k : FState (Var np)} (hk : ArrUnits c' k' k) (x : ℚ) :
        ArrUnits c' (k'.times fl x) (k.times fl x) := hk.times H (InUnit.self x) fun v => by omega
    have frac (x : ℚ) : InUnit (l - b) (fl (x * dt')) (fl (x * dt)) :=
      (((InUnit.self x).mul hdt).round H).cast (by omega)
    cases m with
    | euler => exact h.plus H (inc hk0 hdt)
    | ssprk2 =>
      refine call_units H c hs l _ _ _ _ (h.plus H (inc hk0 hdt)) _ _ fun x y hxy => ?_
      exact (mul h _).plus H (mul ((h.plus H (inc hk0 hdt)).plus H (inc hxy hdt)) _)
    | ssprk3 =>
      refine call_units H c hs l _ _ _ _ (h.plus H (inc hk0 hdt)) _ _ fun x y hxy => ?_
      refine call_units H c hs l _ _ _ _ ((h.plus H (inc hk0 (frac _))).plus H (inc hxy (frac _))) _ _ fun x' y' hxy' => ?_
      exact h.plus H (inc ((hk0.plus H hxy).plus H (mul hxy' _)) (frac _))
    | rk4 =>
      refine call_units H c hs l _ _ _ _ (h.plus H (inc hk0 (frac _))) _ _ fun x y hxy => ?_
      refine call_units H c hs l _ _ _ _ (h.plus H (inc hxy (frac _))) _ _ fun x' y' hxy' => ?_
      refine call_units H c hs l _ _ _ _ (h.plus H (inc hxy' hdt)) _ _ fun x'' y'' hxy'' => ?_
      exact h.plus H (inc (((hk0.plus H (mul hxy _)).plus H (mul hxy' _)).plus H hxy'') (frac _))

end

/-- Times are added and subtracted with rounding. -/
def roundOps (fl : ℚ → ℚ) : ClockOps ℚ := ⟨fun x y => fl (x + y), fun x y => fl (x - y)⟩

/-- Two solvers whose clocks and records show the same times in units that differ by the factor `2 ^ τ`. -/
structure UnitRun {U : Type} (τ : ℤ) (R : U → U → Prop) (Q : S → S → Prop) (a' a : ODEState ℚ U S) : Prop where
  t : a'.t = 2 ^ τ * a.t
  timestamps : a'.timestamps = a.timestamps.map (2 ^ τ * ·)
  stepCount : a'.stepCount = a.stepCount
  snapshotTimes : a'.snapshotTimes = a.snapshotTimes.map (2 ^ τ * ·)
  snapshots : List.Forall₂ Q a'.snapshots a.snapshots
  u : R a'.u a.u

theorem hitTarget_units {fl : ℚ → ℚ} (H : Scales fl) {τ : ℤ} {t' t dt' dt : ℚ} (ht : InUnit τ t' t) (hdt : InUnit τ dt' dt)
    (tg : Option ℚ) : InUnit τ (hitTargetWith (roundOps fl) t' dt' (tg.map (2 ^ τ * ·))) (hitTargetWith (roundOps fl) t dt tg) := by
  cases tg with
  | none => exact hdt
  | some x =>
    have h1 : InUnit τ (fl (2 ^ τ * x - t')) (fl (x - t)) := (InUnit.sub (rfl : InUnit τ (2 ^ τ * x) x) ht).round H
    exact InUnit.ite (h1.lt_iff hdt) h1 hdt

theorem loopWith_units {U : Type} {fl : ℚ → ℚ} (H : Scales fl) (prop' prop : Proposal ℚ U) (mk' mk : ODEState ℚ U S → S) (τ : ℤ)
    (T : ℚ) (logEvery : Bool) (R : U → U → Prop) (Q : S → S → Prop) (hmk : ∀ x' x, UnitRun τ R Q x' x → Q (mk' x') (mk x))
    (hstep : ∀ t' t u' u, InUnit τ t' t → R u' u →
      ExRel (fun x y => InUnit τ x.1 y.1 ∧ ∀ dt' dt, InUnit τ dt' dt → ExRel R (x.2 dt') (y.2 dt)) (prop' t' u') (prop t u))
    (fuel : ℕ) :
    ∀ (target : Option ℚ) (ds : List ℚ) (a' a : ODEState ℚ U S) (out : Outcome ℚ U S), UnitRun τ R Q a' a →
      ODEState.loopWith (roundOps fl) prop mk T logEvery fuel target ds a = some out →
      ∃ out', ODEState.loopWith (roundOps fl) prop' mk' (2 ^ τ * T) logEvery fuel (target.map (2 ^ τ * ·)) (ds.map (2 ^ τ * ·)) a' =
        some out' ∧ out'.2 = out.2 ∧ UnitRun τ R Q out'.1 out.1 := by
  induction fuel with
  | zero => intro tg ds a' a out _ h; simp [ODEState.loopWith] at h
  | succ fuel ih =>
    intro tg ds a' a out hab h
    have hT : InUnit τ (2 ^ τ * T) T := rfl
    have ht : InUnit τ a'.t a.t := hab.t
    unfold ODEState.loopWith at h ⊢
    by_cases htT : a.t < T
    swap
    · rw [if_neg htT] at h
      rw [if_neg fun h' => htT ((ht.lt_iff hT).1 h')]
      simp only [Option.some.injEq] at h
      subst h
      exact ⟨_, rfl, rfl, hab⟩
    rw [if_pos htT] at h
    rw [if_pos ((ht.lt_iff hT).2 htT)]
    unfold ODEState.takeStepWith at h ⊢
    have hr := hstep a'.t a.t a'.u a.u ht hab.u
    cases hs : prop a.t a.u with
    | error e =>
      rw [hs] at hr
      cases hs' : prop' a'.t a'.u with
      | ok r => rw [hs'] at hr; exact hr.elim
      | error e' =>
        rw [hs'] at hr
        have hr : e' = e := hr
        simp only [hs, Option.some.injEq] at h
        subst h hr
        exact ⟨_, rfl, rfl, hab⟩
    | ok r =>
      rw [hs] at hr
      cases hs' : prop' a'.t a'.u with
      | error e' => rw [hs'] at hr; exact hr.elim
      | ok r' =>
        rw [hs'] at hr
        obtain ⟨dt0, go⟩ := r
        obtain ⟨dt0', go'⟩ := r'
        obtain ⟨hdt, hgo⟩ : InUnit τ dt0' dt0 ∧ ∀ dt' dt, InUnit τ dt' dt → ExRel R (go' dt') (go dt) := hr
        simp only [hs] at h ⊢
        have hd := hitTarget_units H ht hdt tg
        set δ := hitTargetWith (roundOps fl) a.t dt0 tg with hδ
        set δ' := hitTargetWith (roundOps fl) a'.t dt0' (tg.map (2 ^ τ * ·)) with hδ'
        have hg := hgo _ _ hd
        cases hu : go δ with
        | error e =>
          rw [hu] at hg
          cases hu' : go' δ' with
          | ok r => rw [hu'] at hg; exact hg.elim
          | error e' =>
            rw [hu'] at hg
            have hg : e' = e := hg
            simp only [hu, Option.some.injEq] at h
            subst h hg
            exact ⟨_, rfl, rfl, hab⟩
        | ok u1 =>
          rw [hu] at hg
          cases hu' : go' δ' with
          | error e' => rw [hu'] at hg; exact hg.elim
          | ok u1' =>
            rw [hu'] at hg
            have hg : R u1' u1 := hg
            simp only [hu] at h ⊢
            have hn : InUnit τ ((roundOps fl).add a'.t δ') ((roundOps fl).add a.t δ) := (ht.add hd).round H
            set n := (roundOps fl).add a.t δ with hnn
            set n' := (roundOps fl).add a'.t δ' with hnn'
            have h1 : UnitRun τ R Q
                { a' with t := n', u := u1', timestamps := a'.timestamps ++ [n'], stepCount := a'.stepCount + 1 }
                { a with t := n, u := u1, timestamps := a.timestamps ++ [n], stepCount := a.stepCount + 1 } :=
              ⟨hn, by
                simp only [hab.timestamps, List.map_append, List.map_cons, List.map_nil]
                rw [show n' = 2 ^ τ * n from hn], by simp [hab.stepCount], hab.snapshotTimes, hab.snapshots, hg⟩
            have h2 (x' x : ODEState ℚ U S) (hx : UnitRun τ R Q x' x) : UnitRun τ R Q (x'.snapshot mk') (x.snapshot mk) :=
              ⟨hx.t, hx.timestamps, hx.stepCount, by simp [ODEState.snapshot, hx.snapshotTimes, hx.t],
                List.rel_append hx.snapshots (.cons (hmk _ _ hx) .nil), hx.u⟩
            have ec : (tg.map (2 ^ τ * ·) = some n') ↔ tg = some n := by
              cases tg with
              | none => simp
              | some x =>
                have hxu : InUnit τ (2 ^ τ * x) x := rfl
                simpa using hxu.eq_iff hn
            have eT : 2 ^ τ * T ≤ n' ↔ T ≤ n := hT.le_iff hn
            by_cases hc : tg = some n ∨ T ≤ n ∨ logEvery = true
            · rw [if_pos hc] at h
              rw [if_pos (by rwa [ec, eT])]
              cases ds with
              | nil => exact ih _ _ _ _ _ (h2 _ _ h1) h
              | cons d ds =>
                simp only [List.map_cons] at h ⊢
                by_cases hc' : tg = some n
                · rw [if_pos hc'] at h
                  rw [if_pos (by rwa [ec])]
                  exact ih _ _ _ _ _ (h2 _ _ h1) h
                · rw [if_neg hc'] at h
                  rw [if_neg (by rwa [ec])]
                  exact ih _ _ _ _ _ (h2 _ _ h1) h
            · rw [if_neg hc] at h
              rw [if_neg (by rwa [ec, eT])]
              exact ih _ _ _ _ _ h1 h

/-- **C102**. A run in floating-point arithmetic, and the same run in units of density, velocity, length and of every passive
scalar that differ by powers of two `2 ^ a`, `2 ^ b`, `2 ^ l`, `2 ^ e j` (so momenta by `2 ^ (a + b)`, energies and pressures by
`2 ^ (a + 2 b)`, times by `2 ^ (l - b)`): if the one returns, so does the other, with the same exception if any and the same number
of steps; all times, the final state and all snapshots agree bit by bit up to the factors. This holds for all degrees, all Riemann
solvers, all integrators and all requested times, and for every rounding that does not depend on the exponent. -/
theorem C102_run (fl : ℚ → ℚ) (H : ∀ (k : ℤ) (x : ℚ), fl (2 ^ k * x) = 2 ^ k * fl x) (c : RoundedConfig)
    (hs : ∀ (k : ℤ) (x : ℚ), c.gas.sqrt (2 ^ (k + k) * x) = 2 ^ k * c.gas.sqrt x) (a b l : ℤ) (e : Fin np → ℤ) (m : Integrator)
    (mk' mk : ODEState ℚ (FState (Var np)) S → S) (Q : S → S → Prop)
    (hmk : ∀ x' x : ODEState ℚ (FState (Var np)) S, x'.t = 2 ^ (l - b) * x.t →
      (∀ v i, x'.u v i = 2 ^ consUnit a b e v * x.u v i) → Q (mk' x') (mk x))
    (T : ℚ) (downbeats : List ℚ) (logEvery : Bool) (fuel : ℕ) (u' u : FState (Var np)) (out : Outcome ℚ (FState (Var np)) S)
    (hu : ∀ v i, u' v i = 2 ^ consUnit a b e v * u v i)
    (hrun : (ODEState.init u).integrateWith (roundOps fl) (roundedProposal fl ((c.scheme fl np).rhs fl) m) mk T downbeats logEvery
      fuel = some out) :
    ∃ out', (ODEState.init u').integrateWith (roundOps fl) (roundedProposal fl (((c.units b l).scheme fl np).rhs fl) m) mk'
        (2 ^ (l - b) * T) (downbeats.map (2 ^ (l - b) * ·)) logEvery fuel = some out' ∧
      out'.2 = out.2 ∧ out'.1.t = 2 ^ (l - b) * out.1.t ∧ out'.1.timestamps = out.1.timestamps.map (2 ^ (l - b) * ·) ∧
      out'.1.stepCount = out.1.stepCount ∧ out'.1.snapshotTimes = out.1.snapshotTimes.map (2 ^ (l - b) * ·) ∧
      List.Forall₂ Q out'.1.snapshots out.1.snapshots ∧ ∀ v i, out'.1.u v i = 2 ^ consUnit a b e v * out.1.u v i := by
  have h0 : UnitRun (S := S) (l - b) (ArrUnits (consUnit a b e)) Q (ODEState.init u') (ODEState.init u) :=
    ⟨by simp [ODEState.init], by simp [ODEState.init], rfl, rfl, .nil, hu⟩
  have hmk' (x' x : ODEState ℚ (FState (Var np)) S) (hx : UnitRun (l - b) (ArrUnits (consUnit a b e)) Q x' x) : Q (mk' x') (mk x) :=
    hmk x' x hx.t hx.u
  have hτ : (0 : ℚ) < 2 ^ (l - b) := by positivity
  have hsort : List.insertionSort (· ≤ ·) (0 :: (downbeats.map (2 ^ (l - b) * ·) ++ [2 ^ (l - b) * T])).dedup =
      (List.insertionSort (· ≤ ·) (0 :: (downbeats ++ [T])).dedup).map (2 ^ (l - b) * ·) := by
    have h := List.map_insertionSort (r := (· ≤ ·)) (s := (· ≤ ·)) (f := fun x : ℚ => 2 ^ (l - b) * x)
      (l := (0 :: (downbeats ++ [T])).dedup) fun a _ b _ => (mul_le_mul_iff_right₀ hτ).symm
    rw [h, ← List.dedup_map_of_injective (mul_right_injective₀ hτ.ne')]
    simp
  unfold ODEState.integrateWith at hrun ⊢
  rw [hsort, ← List.map_tail]
  cases hl : (List.insertionSort (· ≤ ·) (0 :: (downbeats ++ [T])).dedup).tail with
  | nil =>
    rw [hl] at hrun
    simp only [Option.some.injEq] at hrun
    subst hrun
    exact ⟨_, rfl, rfl, h0.t, h0.timestamps, h0.stepCount, h0.snapshotTimes, h0.snapshots, h0.u⟩
  | cons d ds =>
    rw [hl] at hrun
    obtain ⟨out', h1, h2, h3⟩ := loopWith_units H _ _ mk' mk (l - b) T logEvery (ArrUnits (consUnit a b e)) Q hmk'
      (fun t' t u' u _ h => proposal_units H c hs l m t' t u' u h) fuel (some d) ds ((ODEState.init u').snapshot mk')
      ((ODEState.init u).snapshot mk) out
      ⟨h0.t, h0.timestamps, h0.stepCount, by simp [ODEState.snapshot, ODEState.init], .cons (hmk' _ _ h0) .nil, h0.u⟩ hrun
    exact ⟨out', h1, h2, h3.t, h3.timestamps, h3.stepCount, h3.snapshotTimes, h3.snapshots, h3.u⟩

/-- **C102** (doubles). The rounding of the machine, with 53 bits and no bounds on the exponent, is such a rounding, and so is that
of the square root. -/
theorem C102_doubles : (∀ (k : ℤ) (x : ℚ), freeFl 53 (2 ^ k * x) = 2 ^ k * freeFl 53 x) ∧
    ∀ (k : ℤ) (x : ℚ), freeSqrt 53 (2 ^ (k + k) * x) = 2 ^ k * freeSqrt 53 x :=
  ⟨freeFl_scales 53, freeSqrt_scales 53⟩

/-! ### What the model computes when nothing is rounded -/

theorem roundedFluxes_id (w u : State ℚ np) (d : Fin 3) (pr : Bool) : roundedFluxes id w u d pr = computeFluxes w u d pr := by
  funext i
  cases i <;> rfl

theorem roundedConservatives_id (γ : ℚ) (w : State ℚ np) : roundedConservatives id γ w = computeConservatives γ w := by
  funext i
  cases i <;> rfl

/-- **C102** (link). Without rounding the conversions, Riemann solvers and signal speeds are those of the other theorems, so that the
right-hand side is that of the solver (C98_solver). -/
theorem C102_exact (c : EulerConfig ℚ np) : c.scheme.withRounding =
    RoundedConfig.scheme id ⟨c.gas, c.riem, c.n, c.scheme.active, c.h, c.p, c.cfl, c.fixedDt⟩ np := by
  have h1 : (computePrimitives c.gas.gamma : State ℚ np → State ℚ np) = roundedPrimitives id c.gas.gamma := by
    funext u i
    cases i <;> rfl
  have h2 : (fun d => riemann c.riem c.gas d : Fin 3 → State ℚ np → State ℚ np → State ℚ np) = roundedRiemann id c.riem c.gas := by
    funext d wl wr
    cases c.riem with
    | advectionUpwind =>
      unfold roundedRiemann riemann roundedUpwind advectionUpwind
      simp only [roundedFluxes_id, roundedConservatives_id]
    | llf =>
      unfold roundedRiemann riemann roundedLlf llf
      simp only [roundedFluxes_id, roundedConservatives_id]
      rfl
    | hllc =>
      funext i
      cases i <;> rfl
  unfold Scheme.withRounding RoundedConfig.scheme EulerConfig.scheme
  simp only [h1, h2]
  rfl

/-! ### Where it ends -/

/-- **C102** (underflow). With the least exponent of doubles the bits do depend on the units: a mass flux of `15 / 2 ^ 1080` is lost,
in units that differ by `2 ^ 540` it is exact. -/
theorem C102_underflow_violated : ∃ (G : Gas ℚ) (w' w : State ℚ 0), (∀ v, double.Has (w' v) ∧ double.Has (w v)) ∧
    (∀ v, w' v = 2 ^ primUnit 540 540 (fun _ => 0) v * w v) ∧
    roundedRiemann double.fl .advectionUpwind (gasUnits 540 G) 0 w' w' .rho ≠
      2 ^ (540 + 540 : ℤ) * roundedRiemann double.fl .advectionUpwind G 0 w w .rho := by
  refine ⟨⟨7 / 5, 0, freeSqrt 53⟩, fun v => match v with | .rho => 3 | .mom _ => 5 | _ => 0,
    fun v => match v with | .rho => 3 / 2 ^ 540 | .mom _ => 5 / 2 ^ 540 | _ => 0, ?_, ?_, ?_⟩
  · intro v
    cases v with
    | rho => exact ⟨⟨3, 0, by norm_num, by decide, by decide⟩, ⟨3, -540, by simp [div_eq_mul_inv], by decide, by decide⟩⟩
    | mom d => exact ⟨⟨5, 0, by norm_num, by decide, by decide⟩, ⟨5, -540, by simp [div_eq_mul_inv], by decide, by decide⟩⟩
    | en => exact ⟨double.has_zero, double.has_zero⟩
    | ps j => exact j.elim0
  · intro v
    cases v with
    | rho => exact (mul_div_cancel₀ (3 : ℚ) (two_zpow_ne 540)).symm
    | mom d => exact (mul_div_cancel₀ (5 : ℚ) (two_zpow_ne 540)).symm
    | en => norm_num
    | ps j => exact j.elim0
  · decide +kernel

/-- **C102** (other factors). Factors that are not powers of two do change bits: the mass flux of a gas of density 321 and velocity
28059810762433, in units of density that differ by the factor 10. -/
theorem C102_ten_violated : ∃ (G : Gas ℚ) (w' w : State ℚ 0), (∀ v, double.Has (w' v) ∧ double.Has (w v)) ∧
    (w' .rho = 10 * w .rho ∧ w' .en = 10 * w .en ∧ ∀ d, w' (.mom d) = w (.mom d)) ∧
    roundedRiemann (freeFl 53) .advectionUpwind G 0 w' w' .rho ≠ 10 * roundedRiemann (freeFl 53) .advectionUpwind G 0 w w .rho := by
  refine ⟨⟨7 / 5, 0, freeSqrt 53⟩, fun v => match v with | .rho => 3210 | .mom _ => 28059810762433 | _ => 0,
    fun v => match v with | .rho => 321 | .mom _ => 28059810762433 | _ => 0, ?_, ?_, ?_⟩
  · intro v
    cases v with
    | rho => exact ⟨⟨3210, 0, by norm_num, by decide, by decide⟩, ⟨321, 0, by norm_num, by decide, by decide⟩⟩
    | mom d => exact ⟨⟨28059810762433, 0, by norm_num, by decide, by decide⟩, ⟨28059810762433, 0, by norm_num, by decide, by decide⟩⟩
    | en => exact ⟨double.has_zero, double.has_zero⟩
    | ps j => exact j.elim0
  · exact ⟨by norm_num, by norm_num, fun _ => rfl⟩
  · decide +kernel

/-- Two cells of gas with densities 1 and 2 that moves to the right. -/
def twoGases : FState (Var 0) := fun v i => match v with
  | .rho => if i 0 = 0 then 1 else 2
  | .mom d => if d = 0 then (if i 0 = 0 then 1 else 2) else 0
  | .en => if i 0 = 0 then 3 else 7 / 2
  | .ps j => j.elim0

/-- The solver for it: degree 1 and upwinding, with steps of a third. -/
def twoGasesConfig : RoundedConfig :=
  ⟨⟨7 / 5, 0, freeSqrt 53⟩, .advectionUpwind, ![2, 1, 1], ![true, false, false], ![1 / 2, 1, 1], ![1, 0, 0], 4 / 5, some (1 / 3)⟩

/-- The hypotheses hold for it, a step is taken, and it changes the state: in units of density 8 times, of velocity 4 times and of
length 2 times smaller the final densities are 8 times larger bit by bit. -/
example : ∃ out out' : Outcome ℚ (FState (Var 0)) Unit,
    (ODEState.init twoGases).integrateWith (roundOps (freeFl 53)) (roundedProposal (freeFl 53)
      ((twoGasesConfig.scheme (freeFl 53) 0).rhs (freeFl 53)) .euler) (fun _ => ()) (1 / 64) [] false 3 = some out ∧
    (ODEState.init fun v i => 2 ^ consUnit 3 2 (fun _ => 0) v * twoGases v i).integrateWith (roundOps (freeFl 53))
      (roundedProposal (freeFl 53) (((twoGasesConfig.units 2 1).scheme (freeFl 53) 0).rhs (freeFl 53)) .euler) (fun _ => ())
      (2 ^ (1 - 2 : ℤ) * (1 / 64)) [] false 3 = some out' ∧
    out.1.u .rho 0 ≠ 1 ∧ out'.1.u .rho 0 = 2 ^ (3 : ℤ) * out.1.u .rho 0 := by
  have h : ∃ out, (ODEState.init twoGases : ODEState ℚ (FState (Var 0)) Unit).integrateWith (roundOps (freeFl 53)) (roundedProposal
      (freeFl 53) ((twoGasesConfig.scheme (freeFl 53) 0).rhs (freeFl 53)) .euler) (fun _ => ()) (1 / 64) [] false 3 = some out ∧
      out.1.u .rho 0 ≠ 1 := by
    have : ((ODEState.init twoGases : ODEState ℚ (FState (Var 0)) Unit).integrateWith (roundOps (freeFl 53)) (roundedProposal
      (freeFl 53) ((twoGasesConfig.scheme (freeFl 53) 0).rhs (freeFl 53)) .euler) (fun _ => ()) (1 / 64) [] false 3).any
      (fun out => decide (out.1.u .rho 0 ≠ 1)) = true := by decide +kernel
    cases hr : ((ODEState.init twoGases : ODEState ℚ (FState (Var 0)) Unit).integrateWith (roundOps (freeFl 53)) (roundedProposal
      (freeFl 53) ((twoGasesConfig.scheme (freeFl 53) 0).rhs (freeFl 53)) .euler) (fun _ => ()) (1 / 64) [] false 3) with
    | none => rw [hr] at this; cases this
    | some out => rw [hr] at this; exact ⟨out, rfl, of_decide_eq_true this⟩
  obtain ⟨out, h1, h2⟩ := h
  obtain ⟨out', h3, -, -, -, -, -, -, h4⟩ := C102_run (freeFl 53) C102_doubles.1 twoGasesConfig C102_doubles.2 3 2 1 (fun _ => 0) .euler
    (fun _ => ()) (fun _ => ()) (fun _ _ => True) (fun _ _ _ _ => trivial) (1 / 64) [] false 3 _ twoGases out (fun _ _ => rfl) h1
  exact ⟨out, out', h1, h3, h2, h4 .rho 0⟩

end FVHOE
