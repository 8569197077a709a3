import Verif.Proofs.SedovAna

/-!
The arrays of `examples/sedov.py`: order of the radii, signs, and the sum of the energy.
-/

set_option linter.unusedSectionVars false

namespace FVHOE

namespace SedovAna

variable {g : ℝ} {n : ℕ}

/-! ### The parameters -/

theorem vAt_spec (h : Valid g n) {n1 i : ℕ} (hi : i < n1) : vmin g n < vAt g n n1 i ∧ vAt g n n1 i ≤ vmax g n := by
  have hlt := vmin_lt_vmax h
  have hn1 : (0 : ℝ) < n1 := by exact_mod_cast Nat.pos_of_ne_zero (by omega)
  have hp : (0 : ℝ) < (10 : ℝ) ^ (-10 * (1 - ((i : ℝ) + 1) / n1)) := Real.rpow_pos_of_pos (by norm_num) _
  have hle : (10 : ℝ) ^ (-10 * (1 - ((i : ℝ) + 1) / n1)) ≤ 1 := by
    apply Real.rpow_le_one_of_one_le_of_nonpos (by norm_num)
    have : ((i : ℝ) + 1) / n1 ≤ 1 := by
      rw [div_le_one hn1]
      exact_mod_cast hi
    linarith
  unfold vAt
  constructor
  · have := mul_pos hp (sub_pos.2 hlt)
    linarith
  · have := mul_le_mul_of_nonneg_right hle (sub_pos.2 hlt).le
    linarith

theorem vAt_lt (h : Valid g n) {n1 i j : ℕ} (hij : i < j) (hj : j < n1) : vAt g n n1 i < vAt g n n1 j := by
  have hlt := vmin_lt_vmax h
  have hn1 : (0 : ℝ) < n1 := by exact_mod_cast Nat.pos_of_ne_zero (by omega)
  unfold vAt
  have : (10 : ℝ) ^ (-10 * (1 - ((i : ℝ) + 1) / n1)) < (10 : ℝ) ^ (-10 * (1 - ((j : ℝ) + 1) / n1)) := by
    apply Real.rpow_lt_rpow_of_exponent_lt (by norm_num)
    have : ((i : ℝ) + 1) / n1 < ((j : ℝ) + 1) / n1 := by
      apply div_lt_div_of_pos_right _ hn1
      have : (i : ℝ) < j := by exact_mod_cast hij
      linarith
    linarith
  have := mul_lt_mul_of_pos_right this (sub_pos.2 hlt)
  linarith

theorem vAt_last {n1 : ℕ} (hn : 1 ≤ n1) : vAt g n n1 (n1 - 1) = vmax g n := by
  have hn1 : (n1 : ℝ) ≠ 0 := by positivity
  unfold vAt
  rw [Nat.cast_sub hn]
  have : -10 * (1 - ((n1 : ℝ) - (1 : ℕ) + 1) / n1) = 0 := by
    push_cast
    field_simp
    ring
  rw [this, Real.rpow_zero]
  ring

theorem rMax_eq (h : Valid g n) {n1 : ℕ} (hn : 1 ≤ n1) : rMax g n n1 = 1 := by
  have hle : ∀ i < n1, r1 g n (vAt g n n1 i) ≤ 1 := by
    intro i hi
    obtain ⟨a, b⟩ := vAt_spec h hi
    have : r1 g n (vAt g n n1 i) ∈ Set.Ioc (0 : ℝ) 1 := by rw [← r1_image h]; exact ⟨_, ⟨a, b⟩, rfl⟩
    exact this.2
  have hup : ∀ l : List ℝ, (∀ x ∈ l, x ≤ 1) → l.foldr max (r1 g n (vAt g n n1 0)) ≤ 1 := by
    intro l
    induction l with
    | nil => intro _; exact hle 0 (by omega)
    | cons x l ih =>
      intro hl
      exact max_le (hl x (by simp)) (ih fun y hy => hl y (by simp [hy]))
  have hlow : ∀ (l : List ℝ) (x : ℝ), x ∈ l → x ≤ l.foldr max (r1 g n (vAt g n n1 0)) := by
    intro l x
    induction l with
    | nil => intro hx; cases hx
    | cons y l ih =>
      intro hx
      rcases List.mem_cons.1 hx with rfl | hx
      · exact le_max_left _ _
      · exact le_trans (ih hx) (le_max_right _ _)
  refine le_antisymm (hup _ ?_) (hlow _ 1 ?_)
  · intro x hx
    obtain ⟨i, hi, rfl⟩ := List.mem_map.1 hx
    exact hle i (List.mem_range.1 hi)
  · refine List.mem_map.2 ⟨n1 - 1, List.mem_range.2 (by omega), ?_⟩
    rw [vAt_last hn, (profile_vmax h).1]

/-! ### The samples -/

/-- What all samples have. -/
def Fine (s : Sample) : Prop := 0 < s.r ∧ 0 < s.d ∧ 0 ≤ s.u ∧ 0 ≤ s.p

theorem outer_fine (h : Valid g n) {n1 i : ℕ} (hi : i < n1) : Fine (outer g n n1 i) ∧ 0 < (outer g n n1 i).p := by
  obtain ⟨a, b⟩ := vAt_spec h hi
  have hr := r1_pos h a b
  have hv := (base_pos h a b).1
  have hg := h.g0
  refine ⟨⟨hr, d1_pos h a b, ?_, (p1_pos h a b).le⟩, p1_pos h a b⟩
  show 0 ≤ u1 g n _
  unfold u1
  positivity

theorem inner_fine (h : Valid g n) {n1 n2 j : ℕ} (hn : 1 ≤ n1) (hj : j < n2) :
    Fine (inner g n n1 n2 j) ∧ 0 < (inner g n n1 n2 j).p ∧ (inner g n n1 n2 j).r < r1 g n (vAt g n n1 0) := by
  obtain ⟨⟨a, b, c, _⟩, e⟩ := outer_fine h (show 0 < n1 by omega)
  simp only [outer] at a b c e
  have hn2 : (0 : ℝ) < n2 := by exact_mod_cast Nat.pos_of_ne_zero (by omega)
  have hr : 0 < r1 g n (vAt g n n1 0) * ((j : ℝ) + 1 / 2) / n2 := by positivity
  refine ⟨⟨hr, ?_, ?_, ?_⟩, ?_, ?_⟩
  · exact mul_pos b (Real.rpow_pos_of_pos (div_pos hr a) _)
  · exact div_nonneg (mul_nonneg c hr.le) a.le
  · show 0 ≤ p1 g n (vAt g n n1 0) * 1
    linarith
  · show 0 < p1 g n (vAt g n n1 0) * 1
    linarith
  · show r1 g n (vAt g n n1 0) * ((j : ℝ) + 1 / 2) / n2 < _
    rw [div_lt_iff₀ hn2]
    apply mul_lt_mul_of_pos_left _ a
    have : (j : ℝ) + 1 ≤ n2 := by exact_mod_cast hj
    linarith

theorem regions_fine (h : Valid g n) {n1 n2 : ℕ} (hn : 1 ≤ n1) : ∀ s ∈ regions g n n1 n2, Fine s := by
  have hg := h.g0
  have hg1 := h.one
  intro s hs
  unfold regions at hs
  rw [rMax_eq h hn] at hs
  simp only [List.mem_append, List.mem_map, List.mem_range, List.mem_cons, List.not_mem_nil, or_false] at hs
  have hd : 0 < 1 / ((g + 1) / (g - 1)) := one_div_pos.2 (div_pos (by linarith) (by linarith))
  rcases hs with (⟨j, hj, rfl⟩ | ⟨i, hi, rfl⟩) | rfl | rfl
  · exact (inner_fine h hn hj).1
  · exact (outer_fine h hi).1
  · exact ⟨by norm_num, hd, le_rfl, le_rfl⟩
  · exact ⟨by norm_num, hd, le_rfl, le_rfl⟩

theorem r1_lt (h : Valid g n) {n1 i j : ℕ} (hij : i < j) (hj : j < n1) :
    r1 g n (vAt g n n1 i) < r1 g n (vAt g n n1 j) := by
  obtain ⟨a, b⟩ := vAt_spec h (lt_trans hij hj)
  obtain ⟨a', b'⟩ := vAt_spec h hj
  exact r1_strictMono h ⟨a.le, b⟩ ⟨a'.le, b'⟩ (vAt_lt h hij hj)

theorem regions_sorted (h : Valid g n) {n1 n2 : ℕ} (hn : 1 ≤ n1) :
    (regions g n n1 n2).Pairwise (fun s s' => s.r ≤ s'.r) := by
  unfold regions
  rw [rMax_eq h hn]
  have hone : ∀ i < n1, r1 g n (vAt g n n1 i) ≤ 1 := by
    intro i hi
    obtain ⟨a, b⟩ := vAt_spec h hi
    have : r1 g n (vAt g n n1 i) ∈ Set.Ioc (0 : ℝ) 1 := by rw [← r1_image h]; exact ⟨_, ⟨a, b⟩, rfl⟩
    exact this.2
  have hfirst : ∀ i < n1, r1 g n (vAt g n n1 0) ≤ r1 g n (vAt g n n1 i) := by
    intro i hi
    rcases Nat.eq_zero_or_pos i with rfl | h0
    · exact le_rfl
    · exact (r1_lt h h0 hi).le
  rw [List.pairwise_append, List.pairwise_append]
  refine ⟨⟨?_, ?_, ?_⟩, ?_, ?_⟩
  · rw [List.pairwise_map]
    refine List.Pairwise.imp_of_mem ?_ (List.pairwise_lt_range (n := n2))
    intro i j hi hj hij
    have hn2 : (0 : ℝ) < n2 := by exact_mod_cast Nat.pos_of_ne_zero (by have := List.mem_range.1 hj; omega)
    show r1 g n (vAt g n n1 0) * ((i : ℝ) + 1 / 2) / n2 ≤ r1 g n (vAt g n n1 0) * ((j : ℝ) + 1 / 2) / n2
    have := (outer_fine h (show 0 < n1 by omega)).1.1
    simp only [outer] at this
    have hij : (i : ℝ) < j := by exact_mod_cast hij
    gcongr
  · rw [List.pairwise_map]
    refine List.Pairwise.imp_of_mem ?_ (List.pairwise_lt_range (n := n1))
    intro i j hi hj hij
    exact (r1_lt h hij (List.mem_range.1 hj)).le
  · intro s hs s' hs'
    obtain ⟨j, hj, rfl⟩ := List.mem_map.1 hs
    obtain ⟨i, hi, rfl⟩ := List.mem_map.1 hs'
    exact le_trans (inner_fine h hn (List.mem_range.1 hj)).2.2.le (hfirst i (List.mem_range.1 hi))
  · simp
  · intro s hs s' hs'
    have h1 : s.r ≤ 1 := by
      rcases List.mem_append.1 hs with hs | hs
      · obtain ⟨j, hj, rfl⟩ := List.mem_map.1 hs
        exact le_trans (inner_fine h hn (List.mem_range.1 hj)).2.2.le (hone 0 (by omega))
      · obtain ⟨i, hi, rfl⟩ := List.mem_map.1 hs
        exact hone i (List.mem_range.1 hi)
    simp only [List.mem_cons, List.not_mem_nil, or_false] at hs'
    rcases hs' with rfl | rfl
    · exact h1
    · simp only
      linarith

/-! ### Shells and energy -/

theorem shellsFrom_scale (a : ℝ) (l : List ℝ) : ∀ prev, shellsFrom n (prev * a) (l.map (· * a)) = (shellsFrom n prev l).map (· * a ^ n) := by
  induction l with
  | nil => intro _; rfl
  | cons r l ih =>
    intro prev
    simp only [List.map_cons, shellsFrom, ih, List.cons.injEq, and_true]
    rw [mul_pow, mul_pow]
    ring

theorem shells_scale (a : ℝ) (l : List ℝ) : shells n (l.map (· * a)) = (shells n l).map (· * a ^ n) := by
  cases l with
  | nil => rfl
  | cons r l => simp only [List.map_cons, shells, shellsFrom_scale, mul_pow]

theorem zipWith_scale (f f' : Sample → ℝ → ℝ) (φ : Sample → Sample) (a q : ℝ) (hf : ∀ s v, f' (φ s) (v * a) = q * f s v)
    (l : List Sample) : ∀ vs : List ℝ,
    (List.zipWith f' (l.map φ) (vs.map (· * a))).sum = q * (List.zipWith f l vs).sum := by
  induction l with
  | nil => intro vs; simp
  | cons s l ih =>
    intro vs
    cases vs with
    | nil => simp
    | cons v vs =>
      simp only [List.map_cons, List.zipWith_cons_cons, List.sum_cons, ih, hf]
      ring

/-- The energy of rescaled samples. -/
theorem energySum_scale (c a b w q : ℝ) (hq : b * w ^ 2 = q) (l : List Sample) :
    energySum g c n (l.map fun s => ⟨s.r * a, s.d * b, s.u * w, s.p * q⟩) = a ^ n * q * energySum g c n l := by
  unfold energySum
  have e : (l.map fun s => (⟨s.r * a, s.d * b, s.u * w, s.p * q⟩ : Sample)).map Sample.r = (l.map Sample.r).map (· * a) := by
    simp [List.map_map, Function.comp_def]
  rw [e, shells_scale, zipWith_scale (fun s v => s.d * s.u * s.u / 2 * (v * c)) _ _ (a ^ n) (a ^ n * q),
    zipWith_scale (fun s v => s.p / (g - 1) * (v * c)) _ _ (a ^ n) (a ^ n * q)]
  · ring
  · intro s v
    simp only
    ring
  · intro s v
    simp only
    rw [← hq]
    ring

theorem shellsFrom_nonneg (l : List ℝ) : ∀ prev, 0 ≤ prev → (prev :: l).Pairwise (· ≤ ·) → ∀ v ∈ shellsFrom n prev l, 0 ≤ v := by
  induction l with
  | nil => intro _ _ _ v hv; cases hv
  | cons r l ih =>
    intro prev h0 hp v hv
    have hle : prev ≤ r := List.rel_of_pairwise_cons hp (by simp)
    simp only [shellsFrom, List.mem_cons] at hv
    rcases hv with rfl | hv
    · exact sub_nonneg.2 (pow_le_pow_left₀ h0 hle n)
    · exact ih r (le_trans h0 hle) (List.pairwise_cons.1 hp).2 v hv

theorem zipWith_nonneg (f : Sample → ℝ → ℝ) (l : List Sample) : ∀ vs : List ℝ, (∀ s ∈ l, ∀ v ∈ vs, 0 ≤ f s v) →
    0 ≤ (List.zipWith f l vs).sum := by
  induction l with
  | nil => intro vs _; simp
  | cons s l ih =>
    intro vs h
    cases vs with
    | nil => simp
    | cons v vs =>
      simp only [List.zipWith_cons_cons, List.sum_cons]
      exact add_nonneg (h s (by simp) v (by simp)) (ih vs fun s' hs' v' hv' => h s' (by simp [hs']) v' (by simp [hv']))

theorem energySum_pos (hg : 1 < g) (c : ℝ) (hc : 0 < c) (s : Sample) (l : List Sample) (hf : ∀ x ∈ s :: l, Fine x)
    (hp : 0 < s.p) (hs : (s :: l).Pairwise (fun x y => x.r ≤ y.r)) : 0 < energySum g c n (s :: l) := by
  have h0 := hf s (by simp)
  have hg1 : 0 < g - 1 := by linarith
  have hsh : ∀ v ∈ shellsFrom n s.r (l.map Sample.r), 0 ≤ v := by
    apply shellsFrom_nonneg _ _ h0.1.le
    rw [← List.map_cons, List.pairwise_map]
    exact hs
  have hr : 0 < s.r ^ n := pow_pos h0.1 n
  unfold energySum
  simp only [List.map_cons, shells, List.zipWith_cons_cons, List.sum_cons]
  have e1 : 0 ≤ s.d * s.u * s.u / 2 * (s.r ^ n * c) := by
    have := h0.2.1.le
    have := h0.2.2.1
    positivity
  have e2 : 0 < s.p / (g - 1) * (s.r ^ n * c) := by positivity
  have e3 := zipWith_nonneg (fun s v => s.d * s.u * s.u / 2 * (v * c)) l (shellsFrom n s.r (l.map Sample.r)) (by
    intro x hx v hv
    obtain ⟨_, a, b, _⟩ := hf x (by simp [hx])
    have := hsh v hv
    have := a.le
    positivity)
  have e4 := zipWith_nonneg (fun s v => s.p / (g - 1) * (v * c)) l (shellsFrom n s.r (l.map Sample.r)) (by
    intro x hx v hv
    obtain ⟨_, a, b, d⟩ := hf x (by simp [hx])
    have := hsh v hv
    positivity)
  linarith

end SedovAna

end FVHOE
