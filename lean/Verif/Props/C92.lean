import Verif.Proofs.SedovFields

/-!
C92. The analytical Sedov solution of `examples/sedov.py` is a solution.
-/

namespace FVHOE

open SedovAna

/-- The gas and the number of dimensions for which the formulas are meant. -/
theorem valid_of {g : ℝ} {n : ℕ} (hg : 1 < g) (hg2 : g ≠ 2) (hn : n = 1 ∨ n = 2 ∨ n = 3) (h7 : n = 3 → g < 7) : Valid g n :=
  ⟨hg, hg2, by omega, by omega, h7⟩

/-- There are fields of radius and time, behind a front at `c t^(2/(n+2))`, that solve the Euler equations with planar,
cylindrical or spherical symmetry at every point behind the front, are positive, reach the front with a limit and meet the
jump conditions there for the speed of the front and gas at rest with density `rho0` and no pressure ahead. At every
time the call returns `n1 + n2 + 2` samples: from number `n2` on `n1` lie on the fields, at increasing radii, the last of
them on the front; the last two hold the gas ahead, on the front and far ahead of it. -/
theorem C92_solution (g : ℝ) (n : ℕ) (hg : 1 < g) (hg2 : g ≠ 2) (hn : n = 1 ∨ n = 2 ∨ n = 3) (h7 : n = 3 → g < 7)
    (e0 rho0 : ℝ) (he : 0 < e0) (hr : 0 < rho0) (n1 n2 : ℕ) (hn1 : 1 ≤ n1) :
    ∃ (c : ℝ) (ρ w P : ℝ → ℝ → ℝ), 0 < c ∧
      (∀ x t, 0 < t → 0 < x → x ≤ c * t ^ (2 / ((n : ℝ) + 2)) → 0 < ρ x t ∧ 0 < w x t ∧ 0 < P x t) ∧
      (∀ x t, 0 < t → 0 < x → x < c * t ^ (2 / ((n : ℝ) + 2)) → RadialEuler g n ρ w P x t) ∧
      (∀ t, 0 < t → ∀ f ∈ [ρ, w, P], ContinuousWithinAt (fun x => f x t) (Set.Iic (c * t ^ (2 / ((n : ℝ) + 2))))
        (c * t ^ (2 / ((n : ℝ) + 2)))) ∧
      (∀ t, 0 < t → ∃ s, HasDerivAt (fun t : ℝ => c * t ^ (2 / ((n : ℝ) + 2))) s t ∧
        JumpConditions g s (ρ (c * t ^ (2 / ((n : ℝ) + 2))) t) (w (c * t ^ (2 / ((n : ℝ) + 2))) t)
          (P (c * t ^ (2 / ((n : ℝ) + 2))) t) rho0) ∧
      ∀ t, 0 < t → ∃ l : List Sample, sedovRduP n t g e0 rho0 n1 n2 = .ok l ∧ l.length = n1 + n2 + 2 ∧
        (∀ i < n1, ∃ s, l[n2 + i]? = some s ∧ 0 < s.r ∧ s.r ≤ c * t ^ (2 / ((n : ℝ) + 2)) ∧
          s.d = ρ s.r t ∧ s.u = w s.r t ∧ s.p = P s.r t) ∧
        (∀ i j, i < j → j < n1 → ∀ s s', l[n2 + i]? = some s → l[n2 + j]? = some s' → s.r < s'.r) ∧
        (∀ s, l[n2 + n1 - 1]? = some s → s.r = c * t ^ (2 / ((n : ℝ) + 2))) ∧
        l[n2 + n1]? = some ⟨c * t ^ (2 / ((n : ℝ) + 2)), rho0, 0, 0⟩ ∧
        l[n2 + n1 + 1]? = some ⟨1001 * (c * t ^ (2 / ((n : ℝ) + 2))), rho0, 0, 0⟩ := by
  have h := valid_of hg hg2 hn h7
  obtain ⟨κ, c, _, _, hc, _, hcall⟩ := sedovRduP_ok (n2 := n2) h hn1 he hr
  have hg1 : g - 1 ≠ 0 := by linarith
  have hgp : g + 1 ≠ 0 := by linarith
  have hm : (n : ℝ) + 2 ≠ 0 := by positivity
  refine ⟨c, fieldD g n c rho0, fieldU g n c, fieldP g n c rho0, hc, ?_, ?_, ?_, ?_, ?_⟩
  · exact fun x t ht hx hxR => field_pos h hc hr ht hx hxR
  · exact fun x t ht hx hxR => field_euler h hc ht hx hxR
  · intro t ht f hf
    obtain ⟨a, b, d⟩ := field_left (rho0 := rho0) h hc ht
    simp only [List.mem_cons, List.not_mem_nil, or_false] at hf
    rcases hf with rfl | rfl | rfl
    · exact a
    · exact b
    · exact d
  · exact fun t ht => ⟨_, fieldR_deriv ht, field_jump h hc ht⟩
  · intro t ht
    have hR : 0 < fieldR n c t := fieldR_pos hc ht
    have hsome : ∀ i < n1, ((List.map (fun s : Sample => (⟨s.r * fieldR n c t, s.d * rho0, s.u * (fieldR n c t / t),
        s.p * (rho0 * (fieldR n c t / t) ^ 2)⟩ : Sample)) ((regions g n n1 n2).map (rescaled g n))))[n2 + i]? =
        some ⟨r1 g n (vAt g n n1 i) * fieldR n c t, d1 g n (vAt g n n1 i) * (g + 1) / (g - 1) * rho0,
          u1 g n (vAt g n n1 i) * 4 / (n + 2) / (g + 1) * (fieldR n c t / t),
          p1 g n (vAt g n n1 i) * 8 / (n + 2) ^ 2 / (g + 1) * (rho0 * (fieldR n c t / t) ^ 2)⟩ := by
      intro i hi
      rw [List.getElem?_map, List.getElem?_map, regions_outer hi]
      rfl
    refine ⟨_, hcall t ht, by simp [regions_length], ?_, ?_, ?_, ?_, ?_⟩
    · intro i hi
      obtain ⟨a, b⟩ := vAt_spec h hi
      have hx : r1 g n (vAt g n n1 i) ∈ Set.Ioc (0 : ℝ) 1 := by rw [← r1_image h]; exact ⟨_, ⟨a, b⟩, rfl⟩
      have hv : vOf g n (r1 g n (vAt g n n1 i) * fieldR n c t / fieldR n c t) = vAt g n n1 i := by
        rw [mul_div_assoc, div_self hR.ne', mul_one, vOf_r1 h ⟨a, b⟩]
      refine ⟨_, hsome i hi, mul_pos hx.1 hR, ?_, ?_, ?_, ?_⟩
      · exact mul_le_of_le_one_left hR.le hx.2
      · simp only [fieldD, hv]; ring
      · simp only [fieldU, hv, u1]; field_simp
      · simp only [fieldP, hv]; ring
    · intro i j hij hj s s' hs hs'
      rw [hsome i (by omega)] at hs
      rw [hsome j hj] at hs'
      cases hs
      cases hs'
      exact mul_lt_mul_of_pos_right (r1_lt h hij hj) hR
    · intro s hs
      rw [show n2 + n1 - 1 = n2 + (n1 - 1) by omega, hsome (n1 - 1) (by omega)] at hs
      cases hs
      show r1 g n (vAt g n n1 (n1 - 1)) * fieldR n c t = _
      rw [vAt_last hn1, (profile_vmax h).1, one_mul]
      rfl
    · rw [List.getElem?_map, List.getElem?_map, regions_ahead.1]
      simp only [Option.map_some, rescaled, rMax_eq h hn1]
      have : 1 / ((g + 1) / (g - 1)) * (g + 1) / (g - 1) * rho0 = rho0 := by field_simp
      rw [this]
      simp [fieldR]
    · rw [List.getElem?_map, List.getElem?_map, regions_ahead.2]
      simp only [Option.map_some, rescaled, rMax_eq h hn1]
      have : 1 / ((g + 1) / (g - 1)) * (g + 1) / (g - 1) * rho0 = rho0 := by field_simp
      rw [this]
      norm_num [fieldR]

/-- Volume of the ball of radius one in one, two and three dimensions. -/
noncomputable def unitBall : ℕ → ℝ
  | 1 => 2
  | 2 => Real.pi
  | _ => 4 / 3 * Real.pi

/-- The energy of the samples, summed over the shells between their radii, is the energy `e0` of the explosion, at every
time, for any numbers of samples. Radii are positive and do not decrease, densities are positive, velocities and pressures
are not negative. -/
theorem C92_energy (g : ℝ) (n : ℕ) (hg : 1 < g) (hg2 : g ≠ 2) (hn : n = 1 ∨ n = 2 ∨ n = 3) (h7 : n = 3 → g < 7)
    (e0 rho0 : ℝ) (he : 0 < e0) (hr : 0 < rho0) (n1 n2 : ℕ) (hn1 : 1 ≤ n1) (t : ℝ) (ht : 0 < t) :
    ∃ l : List Sample, sedovRduP n t g e0 rho0 n1 n2 = .ok l ∧ shellEnergy g (unitBall n) n 0 l = e0 ∧
      l.Pairwise (fun s s' => s.r ≤ s'.r) ∧ ∀ s ∈ l, 0 < s.r ∧ 0 < s.d ∧ 0 ≤ s.u ∧ 0 ≤ s.p := by
  have h := valid_of hg hg2 hn h7
  obtain ⟨κ, c, hκ, _, hc, hE, hcall⟩ := sedovRduP_ok (n2 := n2) h hn1 he hr
  have hR : 0 < fieldR n c t := fieldR_pos hc ht
  have hu : unitBall n = κ := by
    rcases hn with rfl | rfl | rfl
    · cases hκ; rfl
    · cases hκ; rfl
    · cases hκ
      show 4 / 3 * Real.pi = 4 * Real.pi / 3
      ring
  have hT : fieldR n c t ^ n * (fieldR n c t / t) ^ 2 = c ^ (n + 2) := by
    have e1 : (t ^ (2 / ((n : ℝ) + 2))) ^ (n + 2) = t ^ 2 := by
      rw [← Real.rpow_natCast, ← Real.rpow_mul ht.le, ← Real.rpow_natCast]
      congr 1
      push_cast
      have : (n : ℝ) + 2 ≠ 0 := by positivity
      field_simp
    rw [div_pow, ← mul_div_assoc, ← pow_add]
    unfold fieldR
    rw [mul_pow, e1]
    field_simp
  refine ⟨_, hcall t ht, ?_, ?_, ?_⟩
  · rw [shellEnergy_eq h.dim1, hu, energySum_scale κ (fieldR n c t) rho0 (fieldR n c t / t) _ rfl, ← hE, ← hT]
    ring
  · rw [List.pairwise_map, List.pairwise_map]
    refine (regions_sorted h hn1).imp ?_
    intro s s' hs
    exact mul_le_mul_of_nonneg_right hs hR.le
  · intro s hs
    obtain ⟨s', hs', rfl⟩ := List.mem_map.1 hs
    obtain ⟨s'', hs'', rfl⟩ := List.mem_map.1 hs'
    obtain ⟨a, b, d, e⟩ := rescaled_fine h (regions_fine h hn1 s'' hs'')
    exact ⟨mul_pos a hR, mul_pos b hr, by positivity, by positivity⟩

/-- What the call does for other arguments: `gamma = 2` and `gamma = 1` divide by zero in any number of dimensions, so does
`gamma = 7` in three, although a blast wave exists for 2 and 7; no outer point is an index error; a number of dimensions other
than one, two, three is a value error. -/
theorem C92_errors (n n1 n2 : ℕ) (t g e0 rho0 : ℝ) :
    (g = 1 ∨ g = 2 ∨ (n = 3 ∧ g = 7) → sedovRduP n t g e0 rho0 n1 n2 = .error .zeroDivisionError) ∧
    (1 < g → g ≠ 2 → 1 ≤ n → n ≤ 3 → (n = 3 → g < 7) → sedovRduP n t g e0 rho0 0 n2 = .error .indexError) ∧
    (1 < g → g < 2 → 4 ≤ n → 1 ≤ n1 → (n + 2) * (g + 1) - 2 * (2 + n * (g - 1)) ≠ 0 →
      sedovRduP n t g e0 rho0 n1 n2 = .error .valueError) := by
  refine ⟨?_, ?_, ?_⟩
  · intro hcase
    have : sedovana g n n1 n2 = .error .zeroDivisionError := by
      unfold sedovana
      rw [if_pos]
      rcases hcase with rfl | rfl | ⟨rfl, rfl⟩
      · right; right; right; right; right; left; norm_num
      · right; right; right; right; left; norm_num
      · right; right; right; right; right; right; norm_num
    unfold sedovRduP
    rw [this]
    rfl
  · intro h1 h2 h3 h4 h5
    have h : Valid g n := ⟨h1, h2, h3, h4, h5⟩
    have : sedovana g n 0 n2 = .error .indexError := by
      unfold sedovana
      rw [if_neg, if_pos rfl]
      rintro (e | e | e | e | e | e | e)
      · linarith
      · linarith
      · exact h.s.ne' e
      · exact h.k.ne' e
      · exact h2 (by linarith)
      · linarith
      · exact h.den.ne' e
    unfold sedovRduP
    rw [this]
    rfl
  · intro h1 h2 h3 h4 h5
    have : sedovana g n n1 n2 = .error .valueError := by
      unfold sedovana
      rw [if_neg, if_neg (by omega)]
      · obtain ⟨m, rfl⟩ : ∃ m, n = m + 4 := ⟨n - 4, by omega⟩
        rfl
      · have hp : (0 : ℝ) ≤ n * (g - 1) := mul_nonneg (Nat.cast_nonneg _) (by linarith)
        have hq : (0 : ℝ) ≤ n := Nat.cast_nonneg _
        rintro (e | e | e | e | e | e | e)
        · linarith
        · linarith
        · linarith
        · linarith
        · linarith
        · linarith
        · exact h5 e
    unfold sedovRduP
    rw [this]
    rfl

open Filter Topology in
/-- The samples of the inner region continue the profile to the centre with its own limiting behaviour there: towards the
centre, where the radius of the profile vanishes, its pressure, the ratio of its velocity to its radius and the ratio of
its density to the power `n/(g-1)` of its radius have positive limits, and in every inner sample these three have the
values they have in the first outer sample. -/
theorem C92_inner (g : ℝ) (n : ℕ) (hg : 1 < g) (hg2 : g ≠ 2) (hn : n = 1 ∨ n = 2 ∨ n = 3) (h7 : n = 3 → g < 7) :
    (Tendsto (r1 g n) (𝓝[>] vmin g n) (𝓝 0) ∧
      (∃ c > 0, Tendsto (fun v => d1 g n v / r1 g n v ^ (n / (g - 1) : ℝ)) (𝓝[>] vmin g n) (𝓝 c)) ∧
      (∃ c > 0, Tendsto (fun v => u1 g n v / r1 g n v) (𝓝[>] vmin g n) (𝓝 c)) ∧
      ∃ c > 0, Tendsto (p1 g n) (𝓝[>] vmin g n) (𝓝 c)) ∧
    ∀ n1 n2 j, 1 ≤ n1 → j < n2 → let s := inner g n n1 n2 j; let o := outer g n n1 0
      s.r = o.r * ((j + 1 / 2) / n2) ∧ s.d / s.r ^ (n / (g - 1) : ℝ) = o.d / o.r ^ (n / (g - 1) : ℝ) ∧
        s.u / s.r = o.u / o.r ∧ s.p = o.p := by
  have h := valid_of hg hg2 hn h7
  have hmem : ∀ᶠ v in 𝓝[>] vmin g n, vmin g n < v ∧ v ≤ vmax g n := by
    filter_upwards [Ioc_mem_nhdsGT (vmin_lt_vmax h)] with v hv using hv
  have hmin := vmin_pos h
  have hn0 : (0 : ℝ) < n + 2 := by positivity
  have h1n : (1 : ℝ) ≤ n := by exact_mod_cast h.dim1
  have hgp := h.g0
  have hA : 0 < bA g n (vmin g n) := bA_pos h hmin
  have hC : 0 < bC g n (vmin g n) := by
    unfold bC vmin
    refine mul_pos (div_pos (by linarith) (by linarith)) ?_
    have : ((n : ℝ) + 2) / 2 * (2 / (n + 2) / g) = 1 / g := by field_simp
    rw [this, sub_pos, div_lt_one hgp]
    exact hg
  have hD : 0 < bD g n (vmin g n) := by
    have := h.den
    unfold bD vmin
    refine mul_pos (by positivity) ?_
    have : (2 + (n : ℝ) * (g - 1)) / 2 * (2 / (n + 2) / g) = (2 + (n : ℝ) * (g - 1)) / ((n + 2) * g) := by field_simp
    rw [this, sub_pos, div_lt_one (by positivity)]
    linarith
  have cA : ∀ a : ℝ, Tendsto (fun v => bA g n v ^ a) (𝓝[>] vmin g n) (𝓝 (bA g n (vmin g n) ^ a)) := fun a =>
    ((show Continuous (bA g n) by unfold bA; fun_prop).continuousAt.rpow_const (Or.inl hA.ne')).tendsto.mono_left nhdsWithin_le_nhds
  have cC : ∀ a : ℝ, Tendsto (fun v => bC g n v ^ a) (𝓝[>] vmin g n) (𝓝 (bC g n (vmin g n) ^ a)) := fun a =>
    ((show Continuous (bC g n) by unfold bC; fun_prop).continuousAt.rpow_const (Or.inl hC.ne')).tendsto.mono_left nhdsWithin_le_nhds
  have cD : ∀ a : ℝ, Tendsto (fun v => bD g n v ^ a) (𝓝[>] vmin g n) (𝓝 (bD g n (vmin g n) ^ a)) := fun a =>
    ((show Continuous (bD g n) by unfold bD; fun_prop).continuousAt.rpow_const (Or.inl hD.ne')).tendsto.mono_left nhdsWithin_le_nhds
  refine ⟨⟨?_, ?_, ?_, ?_⟩, ?_⟩
  · have k := (r1_continuous h).continuousWithinAt (Set.left_mem_Icc.2 (vmin_lt_vmax h).le)
    unfold ContinuousWithinAt at k
    rw [r1_vmin h] at k
    exact k.mono_left (nhdsWithin_le_of_mem (mem_of_superset (Ioc_mem_nhdsGT (vmin_lt_vmax h)) Set.Ioc_subset_Icc_self))
  · refine ⟨_, ?_, (((cC (a5 g)).mul (cD (a4 g n))).mul ((cA (2 / (2 + n) * (n / (g - 1)))).mul
      (cD (a1 g n * (n / (g - 1)))))).congr' ?_⟩
    · positivity
    · filter_upwards [hmem] with v hv
      have qA := bA_pos h (lt_trans hmin hv.1)
      have qB := bB_pos h hv.1 hv.2
      have qD := bD_pos h hv.1 hv.2
      have e1 : -a2 g n * (n / (g - 1)) = a3 g n := by
        unfold a2 a3
        have := h.s.ne'
        have : g - 1 ≠ 0 := by linarith
        field_simp
        ring
      unfold d1 r1
      rw [Real.mul_rpow (by positivity) (by positivity), Real.mul_rpow (by positivity) (by positivity), ← Real.rpow_mul qA.le,
        ← Real.rpow_mul qB.le, ← Real.rpow_mul qD.le, e1, neg_div, neg_mul, neg_mul, Real.rpow_neg qA.le, Real.rpow_neg qD.le]
      have p1 : bB g n v ^ a3 g n ≠ 0 := by positivity
      have p2 : bA g n v ^ (2 / (2 + n) * (n / (g - 1)) : ℝ) ≠ 0 := by positivity
      have p3 : bD g n v ^ (a1 g n * (n / (g - 1))) ≠ 0 := by positivity
      field_simp
  · refine ⟨(n + 2) * (g + 1) / 4 * vmin g n, by positivity, ?_⟩
    have k : Tendsto (fun v : ℝ => (n + 2) * (g + 1) / 4 * v) (𝓝[>] vmin g n) (𝓝 ((n + 2) * (g + 1) / 4 * vmin g n)) :=
      (show Continuous fun v : ℝ => (n + 2) * (g + 1) / 4 * v by fun_prop).continuousAt.tendsto.mono_left nhdsWithin_le_nhds
    refine k.congr' ?_
    filter_upwards [hmem] with v hv
    unfold u1
    rw [mul_div_cancel_right₀ _ (r1_pos h hv.1 hv.2).ne']
  · refine ⟨_, ?_, ((cA (2 * n / (2 + n))).mul (cC (a5 g + 1))).mul (cD (a4 g n - 2 * a1 g n))⟩
    positivity
  · intro n1 n2 j hn1 hj
    have hv := vAt_spec h (i := 0) (show 0 < n1 by omega)
    have hr := r1_pos h hv.1 hv.2
    have hn2 : (0 : ℝ) < n2 := by exact_mod_cast (show 0 < n2 by omega)
    have hq : (0 : ℝ) < ((j : ℝ) + 1 / 2) / n2 := by positivity
    have e : (inner g n n1 n2 j).r = r1 g n (vAt g n n1 0) * (((j : ℝ) + 1 / 2) / n2) := by
      show r1 g n (vAt g n n1 0) * ((j : ℝ) + 1 / 2) / n2 = _
      ring
    have ed : (inner g n n1 n2 j).d = d1 g n (vAt g n n1 0) * (((j : ℝ) + 1 / 2) / n2) ^ (n / (g - 1) : ℝ) := by
      show d1 g n (vAt g n n1 0) * (r1 g n (vAt g n n1 0) * ((j : ℝ) + 1 / 2) / n2 / r1 g n (vAt g n n1 0)) ^ (n / (g - 1) : ℝ) = _
      congr 2
      field_simp
    have eu : (inner g n n1 n2 j).u = u1 g n (vAt g n n1 0) * (((j : ℝ) + 1 / 2) / n2) := by
      show u1 g n (vAt g n n1 0) * (r1 g n (vAt g n n1 0) * ((j : ℝ) + 1 / 2) / n2) / r1 g n (vAt g n n1 0) = _
      field_simp
    refine ⟨e, ?_, ?_, mul_one _⟩
    · rw [e, ed, Real.mul_rpow hr.le hq.le]
      exact mul_div_mul_right _ _ (Real.rpow_pos_of_pos hq _).ne'
    · rw [e, eu]
      exact mul_div_mul_right _ _ hq.ne'

/-- Air, spherical, the arguments of the notebooks. -/
example : ∃ l : List Sample, sedovRduP 3 (1 / 10) (7 / 5) 1 1 1000 1000 = .ok l ∧
    shellEnergy (7 / 5) (unitBall 3) 3 0 l = 1 := by
  obtain ⟨l, a, b, _⟩ := C92_energy (7 / 5) 3 (by norm_num) (by norm_num) (by norm_num) (by norm_num) 1 1 one_pos one_pos
    1000 1000 (by norm_num) (1 / 10) (by norm_num)
  exact ⟨l, a, b⟩

/-- A monatomic gas, cylindrical. -/
example := C92_solution (5 / 3) 2 (by norm_num) (by norm_num) (by norm_num) (by norm_num) (1 / 4) 1 (by norm_num) one_pos
  5 3 (by norm_num)

/-- Four dimensions. -/
example : sedovRduP 4 1 (7 / 5) 1 1 3 3 = .error .valueError :=
  (C92_errors 4 3 3 1 (7 / 5) 1 1).2.2 (by norm_num) (by norm_num) (by norm_num) (by norm_num) (by norm_num)

end FVHOE
