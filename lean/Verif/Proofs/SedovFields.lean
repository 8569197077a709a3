import Verif.Proofs.SedovSamples
import Verif.Props.C92_spec

/-!
The similarity solution behind the samples of `examples/sedov.py`, and the samples on it.
-/

set_option linter.unusedSectionVars false

namespace FVHOE

open SedovAna

section fields

variable (g : ℝ) (n : ℕ) (c rho0 : ℝ)

noncomputable def fieldR (t : ℝ) : ℝ := c * t ^ (2 / ((n : ℝ) + 2))
noncomputable def fieldD (x t : ℝ) : ℝ := d1 g n (vOf g n (x / fieldR n c t)) * ((g + 1) / (g - 1)) * rho0
noncomputable def fieldU (x t : ℝ) : ℝ := x / t * vOf g n (x / fieldR n c t)
noncomputable def fieldP (x t : ℝ) : ℝ :=
  p1 g n (vOf g n (x / fieldR n c t)) * (8 / ((n : ℝ) + 2) ^ 2 / (g + 1)) * rho0 * (fieldR n c t / t) ^ 2

end fields

variable {g : ℝ} {n : ℕ} {c rho0 : ℝ}

theorem fieldR_pos (hc : 0 < c) {t : ℝ} (ht : 0 < t) : 0 < fieldR n c t := mul_pos hc (Real.rpow_pos_of_pos ht _)

theorem fieldR_deriv {t : ℝ} (ht : 0 < t) : HasDerivAt (fieldR n c) (2 / ((n : ℝ) + 2) * fieldR n c t / t) t := by
  have h1 : HasDerivAt (fun s : ℝ => c * s ^ (2 / ((n : ℝ) + 2))) (c * (2 / ((n : ℝ) + 2) * t ^ (2 / ((n : ℝ) + 2) - 1))) t :=
    (Real.hasDerivAt_rpow_const (Or.inl ht.ne')).const_mul c
  refine HasDerivAt.congr_deriv h1 ?_
  rw [Real.rpow_sub_one ht.ne']
  unfold fieldR
  ring

theorem field_euler (h : Valid g n) (hc : 0 < c) {x t : ℝ} (ht : 0 < t) (hx : 0 < x) (hxR : x < fieldR n c t) :
    RadialEuler g n (fieldD g n c rho0) (fieldU g n c) (fieldP g n c rho0) x t := by
  have hR := fieldR_pos (n := n) hc ht
  have hξ : x / fieldR n c t ∈ Set.Ioo (0 : ℝ) 1 := ⟨div_pos hx hR, (div_lt_one hR).2 hxR⟩
  obtain ⟨hv, hr⟩ := vOf_spec h ⟨hξ.1, hξ.2.le⟩
  set ξ := x / fieldR n c t with hξd
  set v := vOf g n ξ with hvd
  have hL := Lr_pos h hv.1 hv.2
  obtain ⟨_, lD, lP⟩ := logD_profile h hv.1 hv.2
  have dV := vOf_hasDerivAt h hξ
  have dD := profile_hasDerivAt h hξ lD
  have dP := profile_hasDerivAt h hξ lP
  obtain ⟨sx, st⟩ := sim_deriv c (2 / ((n : ℝ) + 2)) x t hc ht
  have sx : HasDerivAt (fun y : ℝ => y / fieldR n c t) (1 / fieldR n c t) x := sx
  have st : HasDerivAt (fun s : ℝ => x / fieldR n c s) (-(2 / ((n : ℝ) + 2)) * ξ / t) t := st
  rw [← hvd] at dV dD dP
  have e1 := ode_mass h hv.1 hv.2
  have e2 := ode_momentum h hv.1 hv.2
  have e3 := ode_energy h hv.1 hv.2
  have e4 := p1_eq h hv.1 hv.2
  rw [hr] at e4
  have hxe : x = ξ * fieldR n c t := by rw [hξd]; field_simp
  have hξ0 := hξ.1
  set κd := (g + 1) / (g - 1) with hκd
  set κp := 8 / ((n : ℝ) + 2) ^ 2 / (g + 1) with hκp
  set δ := 2 / ((n : ℝ) + 2) with hδ
  set R := fieldR n c t with hRd
  have tD : HasDerivAt (fun s => fieldD g n c rho0 x s) (d1 g n v * Ld g n v / (ξ * Lr g n v) * (-δ * ξ / t) * κd * rho0) t :=
    ((HasDerivAt.comp (h₂ := fun y => d1 g n (vOf g n y)) t dD st).mul_const κd).mul_const rho0
  have xD : HasDerivAt (fun y => fieldD g n c rho0 y t) (d1 g n v * Ld g n v / (ξ * Lr g n v) * (1 / R) * κd * rho0) x :=
    ((HasDerivAt.comp (h₂ := fun y => d1 g n (vOf g n y)) x dD sx).mul_const κd).mul_const rho0
  have tU : HasDerivAt (fun s => fieldU g n c x s) (-x / t ^ 2 * v + x / t * (1 / (ξ * Lr g n v) * (-δ * ξ / t))) t := by
    have h1 : HasDerivAt (fun s : ℝ => x / s) (-x / t ^ 2) t := by
      have := (hasDerivAt_const t x).div (hasDerivAt_id t) ht.ne'
      refine HasDerivAt.congr_deriv this ?_
      simp
    exact h1.mul (HasDerivAt.comp t dV st)
  have xU : HasDerivAt (fun y => fieldU g n c y t) (1 / t * v + x / t * (1 / (ξ * Lr g n v) * (1 / R))) x :=
    ((hasDerivAt_id x).div_const t).mul (HasDerivAt.comp x dV sx)
  have tP : HasDerivAt (fun s => fieldP g n c rho0 x s)
      (p1 g n v * Lp g n v / (ξ * Lr g n v) * (-δ * ξ / t) * κp * rho0 * (R / t) ^ 2 +
        p1 g n v * κp * rho0 * (2 * (R / t) * ((δ - 1) * R / t ^ 2))) t := by
    have h1 : HasDerivAt (fun s : ℝ => fieldR n c s / s) ((δ - 1) * R / t ^ 2) t := by
      have := (fieldR_deriv (n := n) (c := c) ht).div (hasDerivAt_id t) ht.ne'
      refine HasDerivAt.congr_deriv this ?_
      rw [← hδ, ← hRd]
      simp only [id]
      field_simp
    have h2 := h1.pow 2
    refine HasDerivAt.congr_deriv ((((HasDerivAt.comp (h₂ := fun y => p1 g n (vOf g n y)) t dP st).mul_const κp).mul_const rho0).mul h2) ?_
    simp [← hRd, ← hξd, ← hvd]
  have xP : HasDerivAt (fun y => fieldP g n c rho0 y t)
      (p1 g n v * Lp g n v / (ξ * Lr g n v) * (1 / R) * κp * rho0 * (R / t) ^ 2) x :=
    (((HasDerivAt.comp (h₂ := fun y => p1 g n (vOf g n y)) x dP sx).mul_const κp).mul_const rho0).mul_const _
  refine ⟨_, _, _, _, _, _, tD, xD, tU, xU, tP, xP, ?_, ?_, ?_⟩
  · show _ + x / t * v * _ + d1 g n v * κd * rho0 * (_ + (n - 1) * (x / t * v) / x) = 0
    rw [hxe]
    have : d1 g n v * Ld g n v / (ξ * Lr g n v) * (-δ * ξ / t) * κd * rho0 +
        ξ * R / t * v * (d1 g n v * Ld g n v / (ξ * Lr g n v) * (1 / R) * κd * rho0) +
        d1 g n v * κd * rho0 * (1 / t * v + ξ * R / t * (1 / (ξ * Lr g n v) * (1 / R)) + (n - 1) * (ξ * R / t * v) / (ξ * R)) =
        d1 g n v * κd * rho0 / (t * Lr g n v) * ((v - δ) * Ld g n v + 1 + n * v * Lr g n v) := by
      field_simp
      ring
    rw [this, e1, mul_zero]
  · show d1 g n v * κd * rho0 * (_ + x / t * v * _) + _ = 0
    rw [hxe]
    have : p1 g n v * Lp g n v / (ξ * Lr g n v) * (1 / R) * κp * rho0 * (R / t) ^ 2 =
        Lp g n v / (ξ * Lr g n v) * (1 / R) * rho0 * (R / t) ^ 2 * (p1 g n v * κp) := by ring
    rw [this, e4]
    set q := (g - 1) / 2 * v ^ 2 * (1 - ((n : ℝ) + 2) / 2 * v) / (((n : ℝ) + 2) * g / 2 * v - 1)
    have : d1 g n v * κd * rho0 * (-(ξ * R) / t ^ 2 * v + ξ * R / t * (1 / (ξ * Lr g n v) * (-δ * ξ / t)) +
          ξ * R / t * v * (1 / t * v + ξ * R / t * (1 / (ξ * Lr g n v) * (1 / R)))) +
        Lp g n v / (ξ * Lr g n v) * (1 / R) * rho0 * (R / t) ^ 2 * (q * (d1 g n v * κd * ξ ^ 2)) =
        d1 g n v * κd * rho0 * ξ * R / (t ^ 2 * Lr g n v) *
          (v ^ 2 * Lr g n v - v * Lr g n v + v - δ + q * Lp g n v) := by
      field_simp
      ring
    rw [this, e2, mul_zero]
  · show _ + x / t * v * _ + g * (p1 g n v * κp * rho0 * (R / t) ^ 2) * (_ + (n - 1) * (x / t * v) / x) = 0
    rw [hxe]
    have : p1 g n v * Lp g n v / (ξ * Lr g n v) * (-δ * ξ / t) * κp * rho0 * (R / t) ^ 2 +
          p1 g n v * κp * rho0 * (2 * (R / t) * ((δ - 1) * R / t ^ 2)) +
        ξ * R / t * v * (p1 g n v * Lp g n v / (ξ * Lr g n v) * (1 / R) * κp * rho0 * (R / t) ^ 2) +
        g * (p1 g n v * κp * rho0 * (R / t) ^ 2) *
          (1 / t * v + ξ * R / t * (1 / (ξ * Lr g n v) * (1 / R)) + (n - 1) * (ξ * R / t * v) / (ξ * R)) =
        p1 g n v * κp * rho0 * (R / t) ^ 2 / (t * Lr g n v) *
          ((2 * δ - 2) * Lr g n v + (v - δ) * Lp g n v + g * (n * v * Lr g n v + 1)) := by
      field_simp
      ring
    rw [this, e3, mul_zero]

theorem field_shock (h : Valid g n) (hc : 0 < c) {t : ℝ} (ht : 0 < t) :
    fieldD g n c rho0 (fieldR n c t) t = (g + 1) / (g - 1) * rho0 ∧
    fieldU g n c (fieldR n c t) t = vmax g n * (fieldR n c t / t) ∧
    fieldP g n c rho0 (fieldR n c t) t = 8 / ((n : ℝ) + 2) ^ 2 / (g + 1) * rho0 * (fieldR n c t / t) ^ 2 := by
  have hR := fieldR_pos (n := n) hc ht
  have e : vOf g n (fieldR n c t / fieldR n c t) = vmax g n := by rw [div_self hR.ne', vOf_one h]
  obtain ⟨_, e2, _, e4⟩ := profile_vmax h
  unfold fieldD fieldU fieldP
  rw [e, e2, e4]
  refine ⟨by ring, by ring, by ring⟩

theorem field_jump (h : Valid g n) (hc : 0 < c) {t : ℝ} (ht : 0 < t) :
    JumpConditions g (2 / ((n : ℝ) + 2) * fieldR n c t / t) (fieldD g n c rho0 (fieldR n c t) t)
      (fieldU g n c (fieldR n c t) t) (fieldP g n c rho0 (fieldR n c t) t) rho0 := by
  obtain ⟨e1, e2, e3⟩ := field_shock (rho0 := rho0) h hc ht
  have h1 : g - 1 ≠ 0 := by linarith [h.one]
  have h2 : g + 1 ≠ 0 := by linarith [h.one]
  have h3 : (n : ℝ) + 2 ≠ 0 := by positivity
  have h4 := ht.ne'
  unfold JumpConditions
  rw [e1, e2, e3]
  unfold vmax
  set R := fieldR n c t
  refine ⟨?_, ?_, ?_⟩ <;> · field_simp; ring

theorem field_left (h : Valid g n) (hc : 0 < c) {t : ℝ} (ht : 0 < t) :
    ContinuousWithinAt (fun x => fieldD g n c rho0 x t) (Set.Iic (fieldR n c t)) (fieldR n c t) ∧
    ContinuousWithinAt (fun x => fieldU g n c x t) (Set.Iic (fieldR n c t)) (fieldR n c t) ∧
    ContinuousWithinAt (fun x => fieldP g n c rho0 x t) (Set.Iic (fieldR n c t)) (fieldR n c t) := by
  have hR := fieldR_pos (n := n) hc ht
  have hV : ContinuousWithinAt (fun x => vOf g n (x / fieldR n c t)) (Set.Iic (fieldR n c t)) (fieldR n c t) := by
    have h1 : ContinuousWithinAt (fun x : ℝ => x / fieldR n c t) (Set.Iic (fieldR n c t)) (fieldR n c t) :=
      (continuous_id.div_const _).continuousWithinAt
    have h2 := vOf_continuous_one h
    rw [← div_self hR.ne'] at h2
    refine ContinuousWithinAt.comp (t := Set.Iic (fieldR n c t / fieldR n c t)) h2 h1 ?_
    intro x hx
    exact div_le_div_of_nonneg_right hx hR.le
  have hm : vOf g n (fieldR n c t / fieldR n c t) = vmax g n := by rw [div_self hR.ne', vOf_one h]
  obtain ⟨_, lD, lP⟩ := logD_profile h (vmin_lt_vmax h) le_rfl
  have cD : ContinuousAt (d1 g n) (vOf g n (fieldR n c t / fieldR n c t)) := by rw [hm]; exact HasDerivAt.continuousAt lD
  have cP : ContinuousAt (p1 g n) (vOf g n (fieldR n c t / fieldR n c t)) := by rw [hm]; exact HasDerivAt.continuousAt lP
  have kD := ContinuousAt.comp_continuousWithinAt (f := fun x => vOf g n (x / fieldR n c t)) cD hV
  have kP := ContinuousAt.comp_continuousWithinAt (f := fun x => vOf g n (x / fieldR n c t)) cP hV
  refine ⟨(kD.mul continuousWithinAt_const).mul continuousWithinAt_const, ?_,
    ((kP.mul continuousWithinAt_const).mul continuousWithinAt_const).mul continuousWithinAt_const⟩
  exact (continuous_id.div_const t).continuousWithinAt.mul hV

theorem field_pos (h : Valid g n) (hc : 0 < c) (hr : 0 < rho0) {x t : ℝ} (ht : 0 < t) (hx : 0 < x) (hxR : x ≤ fieldR n c t) :
    0 < fieldD g n c rho0 x t ∧ 0 < fieldU g n c x t ∧ 0 < fieldP g n c rho0 x t := by
  have hR := fieldR_pos (n := n) hc ht
  obtain ⟨hv, _⟩ := vOf_spec h ⟨div_pos hx hR, (div_le_one hR).2 hxR⟩
  have h1 : 0 < g - 1 := by linarith [h.one]
  have h2 : 0 < g + 1 := by linarith [h.one]
  have := d1_pos h hv.1 hv.2
  have := p1_pos h hv.1 hv.2
  have := (base_pos h hv.1 hv.2).1
  unfold fieldD fieldU fieldP
  refine ⟨by positivity, by positivity, by positivity⟩

/-! ### The samples lie on the fields -/

theorem shellEnergy_from (κ : ℝ) (l : List Sample) : ∀ prev, shellEnergy g κ n prev l =
    (List.zipWith (fun s v => s.d * s.u * s.u / 2 * (v * κ)) l (shellsFrom n prev (l.map Sample.r))).sum +
    (List.zipWith (fun s v => s.p / (g - 1) * (v * κ)) l (shellsFrom n prev (l.map Sample.r))).sum := by
  induction l with
  | nil => intro _; simp [shellEnergy]
  | cons s l ih =>
    intro prev
    simp only [shellEnergy, ih, List.map_cons, shellsFrom, List.zipWith_cons_cons, List.sum_cons]
    ring

theorem shellEnergy_eq (hn : 1 ≤ n) (κ : ℝ) (l : List Sample) : shellEnergy g κ n 0 l = energySum g κ n l := by
  rw [shellEnergy_from]
  have : shellsFrom n 0 (l.map Sample.r) = shells n (l.map Sample.r) := by
    cases l with
    | nil => rfl
    | cons s l => simp [shells, shellsFrom, zero_pow (show n ≠ 0 by omega)]
  rw [this]
  rfl

theorem ballConst_ok (h : Valid g n) : ∃ κ, ballConst n = .ok κ ∧ 0 < κ := by
  obtain ⟨_, _, h3, h4, _⟩ := h
  have := Real.pi_pos
  interval_cases n
  · exact ⟨2, rfl, by norm_num⟩
  · exact ⟨_, rfl, this⟩
  · exact ⟨_, rfl, by positivity⟩

theorem rescaled_fine (h : Valid g n) {s : Sample} (hs : Fine s) : Fine (rescaled g n s) := by
  obtain ⟨a, b, c, d⟩ := hs
  have h1 : 0 < g - 1 := by linarith [h.one]
  have h2 : 0 < g + 1 := by linarith [h.one]
  exact ⟨a, by simp only [rescaled]; positivity, by simp only [rescaled]; positivity, by simp only [rescaled]; positivity⟩

theorem rescaled_energy_pos (h : Valid g n) {n1 n2 : ℕ} (hn : 1 ≤ n1) {κ : ℝ} (hκ : 0 < κ) :
    0 < energySum g κ n ((regions g n n1 n2).map (rescaled g n)) := by
  have h1 : 0 < g - 1 := by linarith [h.one]
  have h2 : 0 < g + 1 := by linarith [h.one]
  have hf : ∀ s ∈ (regions g n n1 n2).map (rescaled g n), Fine s := by
    intro s hs
    obtain ⟨s', hs', rfl⟩ := List.mem_map.1 hs
    exact rescaled_fine h (regions_fine h hn s' hs')
  have hsort : ((regions g n n1 n2).map (rescaled g n)).Pairwise (fun s s' => s.r ≤ s'.r) :=
    List.pairwise_map.2 (regions_sorted h hn)
  have hhead : ∃ s l, regions g n n1 n2 = s :: l ∧ 0 < s.p := by
    unfold regions
    cases n2 with
    | zero =>
      obtain ⟨m, rfl⟩ : ∃ m, n1 = m + 1 := ⟨n1 - 1, by omega⟩
      simp only [List.range_zero, List.map_nil, List.nil_append, List.range_succ_eq_map, List.map_cons, List.cons_append]
      exact ⟨_, _, rfl, (outer_fine h (by omega)).2⟩
    | succ m =>
      rw [List.range_succ_eq_map]
      simp only [List.map_cons, List.cons_append]
      exact ⟨_, _, rfl, (inner_fine h hn (by omega)).2.1⟩
  obtain ⟨s, l, e, hp⟩ := hhead
  rw [e, List.map_cons] at hf hsort ⊢
  refine energySum_pos h.one κ hκ _ _ hf ?_ hsort
  simp only [rescaled]
  positivity

/-- The call returns the regions scaled by `c` and powers of the time. -/
theorem sedovRduP_ok (h : Valid g n) {n1 n2 : ℕ} (hn : 1 ≤ n1) {e0 : ℝ} (he : 0 < e0) (hr : 0 < rho0) :
    ∃ κ c, ballConst n = .ok κ ∧ 0 < κ ∧ 0 < c ∧
      c ^ (n + 2) * rho0 * energySum g κ n ((regions g n n1 n2).map (rescaled g n)) = e0 ∧
      ∀ t, 0 < t → sedovRduP n t g e0 rho0 n1 n2 = .ok (((regions g n n1 n2).map (rescaled g n)).map fun s =>
        ⟨s.r * fieldR n c t, s.d * rho0, s.u * (fieldR n c t / t), s.p * (rho0 * (fieldR n c t / t) ^ 2)⟩) := by
  obtain ⟨κ, hκ, k0⟩ := ballConst_ok h
  have hE := rescaled_energy_pos (n2 := n2) h hn k0
  set l0 := (regions g n n1 n2).map (rescaled g n) with hl0
  set E := energySum g κ n l0 with hEd
  have hm : (n : ℝ) + 2 ≠ 0 := by positivity
  have hm' : (2 : ℝ) + n ≠ 0 := by positivity
  have hq : 0 < e0 / rho0 := div_pos he hr
  have hchi : 0 < E ^ (-1 / (2 + n) : ℝ) := Real.rpow_pos_of_pos hE _
  have hk : 0 < (e0 / rho0) ^ (1 / (n + 2) : ℝ) := Real.rpow_pos_of_pos hq _
  refine ⟨κ, E ^ (-1 / (2 + n) : ℝ) * (e0 / rho0) ^ (1 / (n + 2) : ℝ), hκ, k0, mul_pos hchi hk, ?_, ?_⟩
  · rw [mul_pow, ← Real.rpow_natCast, ← Real.rpow_natCast, ← Real.rpow_mul hE.le, ← Real.rpow_mul hq.le]
    push_cast
    rw [show -1 / (2 + (n : ℝ)) * (n + 2) = -1 by field_simp; ring, show 1 / ((n : ℝ) + 2) * (n + 2) = 1 by field_simp,
      Real.rpow_neg_one, Real.rpow_one, ← hEd]
    field_simp
  · intro t ht
    have hg := h.one
    have hden := h.den
    have hana : sedovana g n n1 n2 = .ok (l0.map fun s => ⟨s.r * E ^ (-1 / (2 + n) : ℝ), s.d,
        s.u * E ^ (-1 / (2 + n) : ℝ), s.p * (E ^ (-1 / (2 + n) : ℝ)) ^ 2⟩) := by
      unfold sedovana
      have c1 : ¬ (g + 1 = 0 ∨ g = 0 ∨ 2 * (g - 1) + n = 0 ∨ 2 + n * (g - 1) = 0 ∨ 2 - g = 0 ∨ g - 1 = 0 ∨
          (n + 2) * (g + 1) - 2 * (2 + n * (g - 1)) = 0) := by
        rintro (e | e | e | e | e | e | e)
        · linarith
        · linarith
        · exact h.s.ne' e
        · exact h.k.ne' e
        · exact h.two (by linarith)
        · linarith
        · exact hden.ne' e
      rw [if_neg c1, if_neg (by omega), hκ]
      rfl
    unfold sedovRduP
    rw [hana]
    show (if rho0 = 0 ∨ t = 0 then _ else _) = _
    rw [if_neg (by rintro (e | e) <;> linarith)]
    simp only [pure, Except.pure, List.map_map]
    congr 1
    apply List.map_congr_left
    intro s _
    have hT : fieldR n (E ^ (-1 / (2 + n) : ℝ) * (e0 / rho0) ^ (1 / (n + 2) : ℝ)) t / t =
        E ^ (-1 / (2 + n) : ℝ) * (e0 / rho0) ^ (1 / (n + 2) : ℝ) * t ^ (-n / (n + 2) : ℝ) := by
      unfold fieldR
      rw [mul_div_assoc, ← Real.rpow_sub_one ht.ne']
      congr 2
      field_simp
      ring
    simp only [Function.comp]
    rw [hT]
    have e2 : (e0 / rho0) ^ (2 / (n + 2) : ℝ) = ((e0 / rho0) ^ (1 / (n + 2) : ℝ)) ^ 2 := by
      rw [← Real.rpow_natCast, ← Real.rpow_mul hq.le]
      congr 1
      push_cast
      ring
    have e3 : t ^ (-2 * n / (n + 2) : ℝ) = (t ^ (-n / (n + 2) : ℝ)) ^ 2 := by
      rw [← Real.rpow_natCast, ← Real.rpow_mul ht.le]
      congr 1
      push_cast
      ring
    rw [e2, e3]
    unfold fieldR
    refine congr (congr (congr (congrArg Sample.mk ?_) rfl) ?_) ?_ <;> ring

theorem regions_length {n1 n2 : ℕ} : (regions g n n1 n2).length = n1 + n2 + 2 := by
  unfold regions
  simp
  omega

theorem regions_outer {n1 n2 i : ℕ} (hi : i < n1) : (regions g n n1 n2)[n2 + i]? = some (outer g n n1 i) := by
  unfold regions
  rw [List.getElem?_append_left (by simp; omega), List.getElem?_append_right (by simp)]
  simp [hi]

theorem regions_ahead {n1 n2 : ℕ} : (regions g n n1 n2)[n2 + n1]? = some ⟨rMax g n n1, 1 / ((g + 1) / (g - 1)), 0, 0⟩ ∧
    (regions g n n1 n2)[n2 + n1 + 1]? = some ⟨rMax g n n1 + 1000, 1 / ((g + 1) / (g - 1)), 0, 0⟩ := by
  unfold regions
  constructor
  · rw [List.getElem?_append_right (by simp)]
    simp
  · rw [List.getElem?_append_right (by simp)]
    simp [show n2 + n1 + 1 - (n2 + n1) = 1 by omega]

end FVHOE
