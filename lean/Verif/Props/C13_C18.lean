import Mathlib.Analysis.Real.Sqrt
import Verif.Proofs.Hydro

/-!
C13 (time step), C14 (conversions), C15 (consistency), C16 (mirror symmetry), C17 (HLLC), C18
(upwinding).
-/

set_option linter.unusedSectionVars false

namespace FVHOE

variable {K : Type} [Field K] [LinearOrder K] [IsStrictOrderedRing K] {np : ℕ}

/-! ## C13 -/

/-- C13. For a non-empty array, positive floor, spacing and CFL number and at least one dimension,
`hydro_dt` returns a positive step with `dt (|vx| + |vy| + |vz| + ndim c) ≤ CFL h` in every cell, and
equality in some cell; `c` is the floored sound speed of the cell. -/
theorem C13_cfl (G : Gas K) (hG : IsSqrt G.sqrt) (hf : 0 < G.csqFloor) (w : Arr (State K np))
    (hne : ∀ d, 0 < w.shape d) (h CFL : K) (hh : 0 < h) (hC : 0 < CFL) (ndim : ℕ) (hn : 1 ≤ ndim) :
    ∃ dt, hydroDt G w h ndim CFL = .ok dt ∧ 0 < dt ∧
      (∀ j, w.InB j → ∀ c, IsSoundSpeed G (w.get j) c →
        dt * (|w.get j (.mom 0)| + |w.get j (.mom 1)| + |w.get j (.mom 2)| + ndim * c) ≤ CFL * h) ∧
      ∃ j, w.InB j ∧ ∀ c, IsSoundSpeed G (w.get j) c →
        dt * (|w.get j (.mom 0)| + |w.get j (.mom 1)| + |w.get j (.mom 2)| + ndim * c) = CFL * h := by
  have hnn : (1 : K) ≤ (ndim : K) := by exact_mod_cast hn
  have hpos : ∀ v : State K np, 0 < signalSpeed G ndim v := by
    intro v
    have h1 := (soundSpeed_spec G hG hf v).1
    have h2 : 0 < (ndim : K) * soundSpeed G v := mul_pos (lt_of_lt_of_le one_pos hnn) h1
    have a0 := abs_nonneg (v (.mom 0))
    have a1 := abs_nonneg (v (.mom 1))
    have a2 := abs_nonneg (v (.mom 2))
    simp only [signalSpeed, sum3]
    linarith
  have hl : ((indexList w.shape).map fun j => signalSpeed G ndim (w.get j)) ≠ [] := by
    have : (0 : Ix) ∈ indexList w.shape := by
      rw [mem_indexList]
      intro d
      have := hne d
      simp only [Pi.zero_apply]
      omega
    intro hn
    rw [List.map_eq_nil_iff] at hn
    rw [hn] at this
    exact absurd this (List.not_mem_nil)
  obtain ⟨m, e, hm, hle⟩ := npMax_spec _ hl
  obtain ⟨j0, hj0, e0⟩ := List.mem_map.1 hm
  have hmpos : 0 < m := by rw [← e0]; exact hpos _
  refine ⟨CFL * h / m, ?_, by positivity, ?_, j0, (mem_indexList _ _).1 hj0, ?_⟩
  · unfold hydroDt
    rw [e]
    rfl
  · intro j hj c hc
    rw [soundSpeed_unique G hG hf _ c hc]
    have := hle (signalSpeed G ndim (w.get j))
      (List.mem_map.2 ⟨j, (mem_indexList _ _).2 hj, rfl⟩)
    have hs : |w.get j (.mom 0)| + |w.get j (.mom 1)| + |w.get j (.mom 2)| +
        ndim * soundSpeed G (w.get j) = signalSpeed G ndim (w.get j) := by
      simp only [signalSpeed, sum3]
    rw [hs]
    calc CFL * h / m * signalSpeed G ndim (w.get j) ≤ CFL * h / m * m :=
          mul_le_mul_of_nonneg_left this (by positivity)
      _ = CFL * h := by field_simp
  · intro c hc
    rw [soundSpeed_unique G hG hf _ c hc]
    have hs : |w.get j0 (.mom 0)| + |w.get j0 (.mom 1)| + |w.get j0 (.mom 2)| +
        ndim * soundSpeed G (w.get j0) = m := by
      rw [← e0]
      simp only [signalSpeed, sum3]
    rw [hs]
    field_simp

/-- An empty array makes `hydro_dt` raise. -/
theorem C13_empty (G : Gas K) (w : Arr (State K np)) (d : Fin 3) (hd : w.shape d = 0) (h CFL : K)
    (ndim : ℕ) : hydroDt G w h ndim CFL = .error .valueError := by
  have : indexList w.shape = [] := by
    rw [List.eq_nil_iff_forall_not_mem]
    intro j hj
    have := (mem_indexList _ _).1 hj d
    omega
  unfold hydroDt
  rw [this]
  rfl

/-- Real numbers with the usual root, and a gas meeting the hypotheses used in this file. -/
noncomputable def airGas : Gas ℝ := ⟨7 / 5, 1 / 100, Real.sqrt⟩

theorem airGas_sqrt : IsSqrt airGas.sqrt :=
  fun _ hx => ⟨Real.sqrt_nonneg _, Real.mul_self_sqrt hx⟩

theorem airGas_speed (w : State ℝ np) : IsSoundSpeed airGas w (soundSpeed airGas w) :=
  ⟨(soundSpeed_spec airGas airGas_sqrt (by norm_num [airGas]) w).1.le,
    (soundSpeed_spec airGas airGas_sqrt (by norm_num [airGas]) w).2⟩

/-- The hypotheses of C13 are met by air at rest on a 4 × 1 × 1 mesh. -/
example : ∃ dt, hydroDt airGas (⟨![4, 1, 1], fun _ _ => 1⟩ : Arr (State ℝ 0)) (1 / 4) 1 (4 / 5) =
    .ok dt ∧ 0 < dt :=
  let ⟨dt, h1, h2, _⟩ := C13_cfl airGas airGas_sqrt (by norm_num [airGas])
    (⟨![4, 1, 1], fun _ _ => 1⟩ : Arr (State ℝ 0)) (by decide) (1 / 4) (4 / 5) (by norm_num)
    (by norm_num) 1 (le_refl 1)
  ⟨dt, h1, h2⟩

/-! ## C14 -/

/-- C14 (one way). Converting a primitive state with non-zero density to conserved densities, which
are the physical ones, and back returns it. -/
theorem C14_primitive_round_trip (gamma : K) (hg : gamma ≠ 1) (w : State K np) (hw : w .rho ≠ 0) :
    computeConservatives gamma w = conserved gamma w ∧
      computePrimitives gamma (computeConservatives gamma w) = w := by
  refine ⟨conservatives_eq gamma w, ?_⟩
  have hg' : gamma - 1 ≠ 0 := sub_ne_zero.2 hg
  funext i
  cases i <;> simp only [computePrimitives, computeConservatives, sum3] <;> field_simp
  ring

/-- C14 (the other way). -/
theorem C14_conservative_round_trip (gamma : K) (hg : gamma ≠ 1) (u : State K np)
    (hu : u .rho ≠ 0) : computeConservatives gamma (computePrimitives gamma u) = u := by
  have hg' : gamma - 1 ≠ 0 := sub_ne_zero.2 hg
  funext i
  cases i <;> simp only [computePrimitives, computeConservatives, sum3] <;> field_simp
  ring

/-- C14 is about states like this one, with one passive scalar. -/
example : computePrimitives (7 / 5 : ℚ) (computeConservatives (7 / 5)
    (fun | .rho => 2 | .mom d => (d : ℕ) | .en => 3 | .ps _ => 5 : State ℚ 1)) =
    fun | .rho => 2 | .mom d => (d : ℕ) | .en => 3 | .ps _ => 5 :=
  (C14_primitive_round_trip _ (by norm_num) _ (by norm_num)).2

/-! ## C16 (llf) and C15 (llf, advection) -/

/-- C15 for llf. -/
theorem C15_llf (G : Gas K) (d : Fin 3) (w : State K np) : llf G d w w = eulerFlux G.gamma d w := by
  funext i
  unfold llf
  simp only [fluxes_eq]
  ring

/-- C15 for advection. -/
theorem C15_advection (G : Gas K) (d : Fin 3) (w : State K np) :
    advectionUpwind G d w w = carriedFlux G.gamma d w := by
  funext i
  unfold advectionUpwind
  simp only [fluxes_noP_eq]
  split
  · rfl
  · split
    · rfl
    · rename_i h1 h2
      have : w (.mom d) = 0 := le_antisymm (not_lt.1 h1) (not_lt.1 h2)
      simp [carriedFlux, this]

theorem soundSpeed_mirror (G : Gas K) (d : Fin 3) (w : State K np) :
    soundSpeed G (mirrorState d w) = soundSpeed G w := rfl

theorem totalEnergy_mirror (gamma : K) (d : Fin 3) (w : State K np) :
    totalEnergy gamma (mirrorState d w) = totalEnergy gamma w := by
  fin_cases d <;> simp [totalEnergy, mirrorState]

theorem conserved_mirror (gamma : K) (d : Fin 3) (w : State K np) :
    conserved gamma (mirrorState d w) = mirrorState d (conserved gamma w) := by
  funext i
  cases i with
  | rho => rfl
  | mom e =>
    simp only [conserved, mirrorState]
    split <;> ring
  | en => simp only [conserved, mirrorState, totalEnergy_mirror]
  | ps j => rfl

theorem eulerFlux_mirror (gamma : K) (d : Fin 3) (w : State K np) :
    eulerFlux gamma d (mirrorState d w) = fun i => - mirrorState d (eulerFlux gamma d w) i := by
  funext i
  cases i with
  | rho => simp [eulerFlux, mirrorState]
  | mom e =>
    by_cases h : e = d
    · simp [eulerFlux, mirrorState, h]
    · simp [eulerFlux, mirrorState, h]
  | en =>
    simp only [eulerFlux, totalEnergy_mirror]
    simp [mirrorState, eulerFlux]
  | ps j => simp [eulerFlux, mirrorState]

/-- C16 for llf, for every pair of states: exchanging the states and mirroring them negates the
mirrored flux, that is every component except the normal momentum one. -/
theorem C16_llf (G : Gas K) (d : Fin 3) (wl wr : State K np) :
    llf G d (mirrorState d wr) (mirrorState d wl) = fun i => - mirrorState d (llf G d wl wr) i := by
  have habs : ∀ w : State K np, |mirrorState d w (.mom d)| = |w (.mom d)| := by
    intro w
    simp [mirrorState]
  funext i
  unfold llf
  simp only [fluxes_eq]
  simp only [conservatives_eq, eulerFlux_mirror, conserved_mirror, soundSpeed_mirror, habs]
  rw [max_comm (|wr (.mom d)| + _)]
  cases i with
  | mom e =>
    simp only [mirrorState]
    split <;> ring
  | rho => simp only [mirrorState]; ring
  | en => simp only [mirrorState]; ring
  | ps j => simp only [mirrorState]; ring

/-! ## C17 -/

/-- A gas with a genuine square root, a positive floor and `gamma > 1`. -/
structure Gas.OK (G : Gas K) : Prop where
  sqrt : IsSqrt G.sqrt
  floor : 0 < G.csqFloor
  gamma : 1 < G.gamma

/-- A physical state: positive density, non-negative pressure. -/
structure Physical (w : State K np) : Prop where
  rho : 0 < w .rho
  press : 0 ≤ w .en

/-- Contact speed for outer speeds `Sl`, `Sr` (Toro 10.70). -/
def contactSpeed (d : Fin 3) (wl wr : State K np) (Sl Sr : K) : K :=
  (wr .en - wl .en + wl .rho * wl (.mom d) * (Sl - wl (.mom d))
    - wr .rho * wr (.mom d) * (Sr - wr (.mom d))) /
    (wl .rho * (Sl - wl (.mom d)) - wr .rho * (Sr - wr (.mom d)))

/-- The HLLC star state next to `w` behind the wave of speed `S`, contact speed `s` (Toro 10.73). -/
def starState (gamma : K) (d : Fin 3) (w : State K np) (S s : K) : State K np :=
  let r := w .rho * (S - w (.mom d)) / (S - s)
  fun
  | .rho => r
  | .mom e => r * (if e = d then s else w (.mom e))
  | .en => r * (totalEnergy gamma w / w .rho +
      (s - w (.mom d)) * (s + w .en / (w .rho * (S - w (.mom d)))))
  | .ps j => r * w (.ps j)

/-- Rankine-Hugoniot flux across the wave of speed `S`. -/
def jumpFlux (gamma : K) (d : Fin 3) (w : State K np) (S s : K) : State K np :=
  fun i => eulerFlux gamma d w i + S * (starState gamma d w S s i - conserved gamma w i)

/-- The outer wave speeds. -/
def davisL (d : Fin 3) (wl wr : State K np) (cl cr : K) : K := min (wl (.mom d)) (wr (.mom d)) - max cl cr
/-- The outer wave speeds. -/
def davisR (d : Fin 3) (wl wr : State K np) (cl cr : K) : K := max (wl (.mom d)) (wr (.mom d)) + max cl cr

/-- The scalar inequalities behind C17. -/
theorem contact_bracket (rl rr pl pr vl vr c g : K) (hrl : 0 < rl) (hrr : 0 < rr) (hpl : 0 ≤ pl)
    (hpr : 0 ≤ pr) (hc : 0 < c) (hg : 1 < g) (hl : g * pl ≤ rl * c ^ 2) (hr : g * pr ≤ rr * c ^ 2) :
    let Sl := min vl vr - c
    let Sr := max vl vr + c
    let s := (pr - pl + rl * vl * (Sl - vl) - rr * vr * (Sr - vr)) / (rl * (Sl - vl) - rr * (Sr - vr))
    Sl < vl ∧ vr < Sr ∧ rl * (Sl - vl) - rr * (Sr - vr) < 0 ∧ Sl < s ∧ s < Sr := by
  intro Sl Sr s
  have a1 : c ≤ vl - Sl := by have := min_le_left vl vr; simp only [Sl]; linarith
  have a2 : c ≤ vr - Sl := by have := min_le_right vl vr; simp only [Sl]; linarith
  have b1 : c ≤ Sr - vl := by have := le_max_left vl vr; simp only [Sr]; linarith
  have b2 : c ≤ Sr - vr := by have := le_max_right vl vr; simp only [Sr]; linarith
  have hden : rl * (Sl - vl) - rr * (Sr - vr) < 0 := by
    have h1 : 0 < rl * (vl - Sl) := mul_pos hrl (by linarith)
    have h2 : 0 < rr * (Sr - vr) := mul_pos hrr (by linarith)
    linarith
  have key1 : ∀ x y : K, c ≤ x → c ≤ y → c ^ 2 ≤ x * y := by
    intro x y hx hy
    rw [pow_two]
    exact mul_le_mul hx hy (le_of_lt hc) (by linarith)
  have q1 : rl * c ^ 2 ≤ rl * ((vl - Sl) * (vl - Sl)) := mul_le_mul_of_nonneg_left (key1 _ _ a1 a1) hrl.le
  have q2 : rr * c ^ 2 ≤ rr * ((Sr - vr) * (vr - Sl)) := mul_le_mul_of_nonneg_left (key1 _ _ b2 a2) hrr.le
  have q3 : rl * c ^ 2 ≤ rl * ((vl - Sl) * (Sr - vl)) := mul_le_mul_of_nonneg_left (key1 _ _ a1 b1) hrl.le
  have q4 : rr * c ^ 2 ≤ rr * ((Sr - vr) * (Sr - vr)) := mul_le_mul_of_nonneg_left (key1 _ _ b2 b2) hrr.le
  have hc2 : 0 < c ^ 2 := by positivity
  have p1 : 0 < rl * c ^ 2 := mul_pos hrl hc2
  have p2 : 0 < rr * c ^ 2 := mul_pos hrr hc2
  have g1 : pl ≤ g * pl := le_mul_of_one_le_left hpl hg.le
  have g2 : pr ≤ g * pr := le_mul_of_one_le_left hpr hg.le
  refine ⟨by linarith, by linarith, hden, ?_, ?_⟩
  · rw [lt_div_iff_of_neg hden]
    have : pr - pl + rl * vl * (Sl - vl) - rr * vr * (Sr - vr) -
        Sl * (rl * (Sl - vl) - rr * (Sr - vr)) =
        pr - pl - rl * ((vl - Sl) * (vl - Sl)) - rr * ((Sr - vr) * (vr - Sl)) := by ring
    linarith
  · rw [div_lt_iff_of_neg hden]
    have : pr - pl + rl * vl * (Sl - vl) - rr * vr * (Sr - vr) -
        Sr * (rl * (Sl - vl) - rr * (Sr - vr)) =
        pr - pl + rl * ((vl - Sl) * (Sr - vl)) + rr * ((Sr - vr) * (Sr - vr)) := by ring
    linarith

theorem cmax_bounds (G : Gas K) (hG : G.OK) (wl wr : State K np) (hl : Physical wl)
    (hr : Physical wr) (cl cr : K) (hcl : IsSoundSpeed G wl cl) (hcr : IsSoundSpeed G wr cr) :
    0 < max cl cr ∧ G.gamma * wl .en ≤ wl .rho * (max cl cr) ^ 2 ∧
      G.gamma * wr .en ≤ wr .rho * (max cl cr) ^ 2 := by
  have e1 := soundSpeed_unique G hG.sqrt hG.floor wl cl hcl
  have e2 := soundSpeed_spec G hG.sqrt hG.floor wl
  rw [← e1] at e2
  have aux : ∀ (w : State K np), Physical w → ∀ c m, IsSoundSpeed G w c → c ≤ m →
      G.gamma * w .en ≤ w .rho * m ^ 2 := by
    intro w hw c m hc hm
    have h1 : G.gamma * w .en / w .rho ≤ c ^ 2 := by rw [hc.2]; exact le_max_left _ _
    have h2 : c ^ 2 ≤ m ^ 2 := pow_le_pow_left₀ hc.1 hm 2
    have h3 := le_trans h1 h2
    rw [div_le_iff₀ hw.rho] at h3
    linarith
  exact ⟨lt_of_lt_of_le e2.1 (le_max_left _ _), aux wl hl cl _ hcl (le_max_left _ _),
    aux wr hr cr _ hcr (le_max_right _ _)⟩

/-- C17 (well-posedness). For physical states the outer speeds strictly bracket the contact speed,
the two star densities are positive and no divisor vanishes. -/
theorem C17_wellposed (G : Gas K) (hG : G.OK) (d : Fin 3) (wl wr : State K np) (hl : Physical wl)
    (hr : Physical wr) (cl cr : K) (hcl : IsSoundSpeed G wl cl) (hcr : IsSoundSpeed G wr cr) :
    let Sl := davisL d wl wr cl cr
    let Sr := davisR d wl wr cl cr
    let s := contactSpeed d wl wr Sl Sr
    (hllcWaves G d wl wr).Sl = Sl ∧ (hllcWaves G d wl wr).Sr = Sr ∧
      (hllcWaves G d wl wr).vStar = s ∧
      Sl < s ∧ s < Sr ∧ Sl < wl (.mom d) ∧ wr (.mom d) < Sr ∧
      0 < starState G.gamma d wl Sl s .rho ∧ 0 < starState G.gamma d wr Sr s .rho ∧
      0 < wl .rho * (wl (.mom d) - Sl) + wr .rho * (Sr - wr (.mom d)) := by
  intro Sl Sr s
  obtain ⟨hc, h1, h2⟩ := cmax_bounds G hG wl wr hl hr cl cr hcl hcr
  obtain ⟨b1, b2, b3, b4, b5⟩ := contact_bracket (wl .rho) (wr .rho) (wl .en) (wr .en) (wl (.mom d))
    (wr (.mom d)) (max cl cr) G.gamma hl.rho hr.rho hl.press hr.press hc hG.gamma h1 h2
  have e1 := soundSpeed_unique G hG.sqrt hG.floor wl cl hcl
  have e2 := soundSpeed_unique G hG.sqrt hG.floor wr cr hcr
  have eS : (hllcWaves G d wl wr).Sl = Sl := by simp only [hllcWaves, Sl, davisL, e1, e2]
  have eR : (hllcWaves G d wl wr).Sr = Sr := by simp only [hllcWaves, Sr, davisR, e1, e2]
  refine ⟨eS, eR, ?_, b4, b5, b1, b2, ?_, ?_, ?_⟩
  · have : (hllcWaves G d wl wr).vStar =
        (wl .rho * (wl (.mom d) - (hllcWaves G d wl wr).Sl) * wl (.mom d) +
          wr .rho * ((hllcWaves G d wl wr).Sr - wr (.mom d)) * wr (.mom d) + wl .en - wr .en) /
        (wl .rho * (wl (.mom d) - (hllcWaves G d wl wr).Sl) +
          wr .rho * ((hllcWaves G d wl wr).Sr - wr (.mom d))) := rfl
    rw [this, eS, eR]
    change _ = contactSpeed d wl wr Sl Sr
    unfold contactSpeed
    have n1 : wl .rho * (Sl - wl (.mom d)) - wr .rho * (Sr - wr (.mom d)) ≠ 0 := ne_of_lt b3
    have n2 : wl .rho * (wl (.mom d) - Sl) + wr .rho * (Sr - wr (.mom d)) ≠ 0 := by
      intro h; apply n1; linear_combination (-1) * h
    rw [div_eq_div_iff n2 n1]
    ring
  · change 0 < wl .rho * (Sl - wl (.mom d)) / (Sl - s)
    apply div_pos_of_neg_of_neg
    · exact mul_neg_of_pos_of_neg hl.rho (sub_neg.2 b1)
    · exact sub_neg.2 b4
  · change 0 < wr .rho * (Sr - wr (.mom d)) / (Sr - s)
    apply div_pos
    · exact mul_pos hr.rho (sub_pos.2 b2)
    · exact sub_pos.2 b5
  · have : wl .rho * (Sl - wl (.mom d)) - wr .rho * (Sr - wr (.mom d)) < 0 := b3
    linarith

/-- The Rankine-Hugoniot flux in closed form. -/
theorem jumpFlux_closed (gamma : K) (d : Fin 3) (w : State K np) (S s : K) (hw : w .rho ≠ 0)
    (h1 : S - w (.mom d) ≠ 0) (h2 : S - s ≠ 0) (P : K)
    (hP : P = w .en + w .rho * (S - w (.mom d)) * (s - w (.mom d))) :
    jumpFlux gamma d w S s = fun
      | .rho => w .rho * (S - w (.mom d)) / (S - s) * s
      | .mom e => if e = d then w .rho * (S - w (.mom d)) / (S - s) * s * s + P
          else w .rho * (S - w (.mom d)) / (S - s) * s * w (.mom e)
      | .en => s * (((S - w (.mom d)) * totalEnergy gamma w - w .en * w (.mom d) + P * s) / (S - s) + P)
      | .ps j => w .rho * (S - w (.mom d)) / (S - s) * s * w (.ps j) := by
  subst hP
  funext i
  cases i with
  | rho =>
    simp only [jumpFlux, eulerFlux, starState, conserved]
    field_simp
    ring
  | mom e =>
    by_cases h : e = d
    · subst h
      simp only [jumpFlux, eulerFlux, starState, conserved, if_true]
      field_simp
      ring
    · simp only [jumpFlux, eulerFlux, starState, conserved, if_neg h]
      field_simp
      ring
  | en =>
    simp only [jumpFlux, eulerFlux, starState, conserved]
    field_simp
    ring
  | ps j =>
    simp only [jumpFlux, eulerFlux, starState, conserved]
    field_simp
    ring

/-- C17 (fluxes). For physical states the hllc flux is the flux of the left state if `0 ≤ Sl`, the
Rankine-Hugoniot flux `F_L + Sl (U*_L - U_L)` if `Sl ≤ 0 ≤ s`, `F_R + Sr (U*_R - U_R)` if
`s ≤ 0 ≤ Sr`, and the flux of the right state if `Sr ≤ 0`. -/
theorem C17_flux (G : Gas K) (hG : G.OK) (d : Fin 3) (wl wr : State K np) (hl : Physical wl)
    (hr : Physical wr) (cl cr : K) (hcl : IsSoundSpeed G wl cl) (hcr : IsSoundSpeed G wr cr) :
    let Sl := davisL d wl wr cl cr
    let Sr := davisR d wl wr cl cr
    let s := contactSpeed d wl wr Sl Sr
    (0 ≤ Sl → hllc G d wl wr = eulerFlux G.gamma d wl) ∧
      (Sl ≤ 0 → 0 ≤ s → hllc G d wl wr = jumpFlux G.gamma d wl Sl s) ∧
      (s ≤ 0 → 0 ≤ Sr → hllc G d wl wr = jumpFlux G.gamma d wr Sr s) ∧
      (Sr ≤ 0 → hllc G d wl wr = eulerFlux G.gamma d wr) := by
  intro Sl Sr s
  obtain ⟨eS, eR, es, b4, b5, b1, b2, r1, r2, dpos⟩ :=
    C17_wellposed G hG d wl wr hl hr cl cr hcl hcr
  change (hllcWaves G d wl wr).Sl = Sl at eS
  change (hllcWaves G d wl wr).Sr = Sr at eR
  change (hllcWaves G d wl wr).vStar = s at es
  change Sl < s at b4
  change s < Sr at b5
  change Sl < _ at b1
  change _ < Sr at b2
  change 0 < wl .rho * (wl (.mom d) - Sl) + wr .rho * (Sr - wr (.mom d)) at dpos
  have hs : s = (wl .rho * (wl (.mom d) - Sl) * wl (.mom d) + wr .rho * (Sr - wr (.mom d)) * wr (.mom d)
      + wl .en - wr .en) / (wl .rho * (wl (.mom d) - Sl) + wr .rho * (Sr - wr (.mom d))) := by
    rw [← es, ← eS, ← eR]; rfl
  have hp : (hllcWaves G d wl wr).PStar = (wl .rho * (wl (.mom d) - Sl) * wr .en +
      wr .rho * (Sr - wr (.mom d)) * wl .en + wl .rho * (wl (.mom d) - Sl) *
        (wr .rho * (Sr - wr (.mom d))) * (wl (.mom d) - wr (.mom d))) /
      (wl .rho * (wl (.mom d) - Sl) + wr .rho * (Sr - wr (.mom d))) := by
    rw [← eS, ← eR]; rfl
  set P := (hllcWaves G d wl wr).PStar with hPdef
  have hsmul := hs
  rw [eq_div_iff (ne_of_gt dpos)] at hsmul
  have hpmul := hp
  rw [eq_div_iff (ne_of_gt dpos)] at hpmul
  have hPL : P = wl .en + wl .rho * (Sl - wl (.mom d)) * (s - wl (.mom d)) := by
    apply mul_right_cancel₀ (ne_of_gt dpos)
    rw [hpmul]
    linear_combination (-1) * (wl .rho * (Sl - wl (.mom d))) * hsmul
  have hPR : P = wr .en + wr .rho * (Sr - wr (.mom d)) * (s - wr (.mom d)) := by
    apply mul_right_cancel₀ (ne_of_gt dpos)
    rw [hpmul]
    linear_combination (-1) * (wr .rho * (Sr - wr (.mom d))) * hsmul
  have cL := jumpFlux_closed G.gamma d wl Sl s (ne_of_gt hl.rho) (ne_of_lt (sub_neg.2 b1))
    (ne_of_lt (sub_neg.2 b4)) P hPL
  have cR := jumpFlux_closed G.gamma d wr Sr s (ne_of_gt hr.rho) (ne_of_gt (sub_pos.2 b2))
    (ne_of_gt (sub_pos.2 b5)) P hPR
  have eEl : ∀ w : State K np, computeConservatives G.gamma w .en = totalEnergy G.gamma w := by
    intro w; rw [conservatives_eq]; rfl
  have rL : (hllcWaves G d wl wr).rStarL = wl .rho * (Sl - wl (.mom d)) / (Sl - s) := by
    rw [← eS, ← es]; rfl
  have rR : (hllcWaves G d wl wr).rStarR = wr .rho * (Sr - wr (.mom d)) / (Sr - s) := by
    rw [← eR, ← es]; rfl
  have EL : (hllcWaves G d wl wr).EStarL = ((Sl - wl (.mom d)) * totalEnergy G.gamma wl -
      wl .en * wl (.mom d) + P * s) / (Sl - s) := by
    rw [← eS, ← es, ← eEl]; rfl
  have ER : (hllcWaves G d wl wr).EStarR = ((Sr - wr (.mom d)) * totalEnergy G.gamma wr -
      wr .en * wr (.mom d) + P * s) / (Sr - s) := by
    rw [← eR, ← es, ← eEl]; rfl
  -- the sampled star flux on the left
  have starL : ¬ Sl > 0 → s > 0 → hllc G d wl wr = jumpFlux G.gamma d wl Sl s := by
    intro q1 q2
    rw [cL]
    funext i
    cases i <;> simp only [hllc, hllcSample, eS, es, if_neg q1, if_pos q2, rL, EL, ← hPdef, hllcUpwind]
  have starR : ¬ Sl > 0 → s < 0 → Sr > 0 → hllc G d wl wr = jumpFlux G.gamma d wr Sr s := by
    intro q1 q2 q3
    have q2' : ¬ s > 0 := not_lt.2 q2.le
    rw [cR]
    funext i
    cases i <;> simp only [hllc, hllcSample, eS, es, eR, if_neg q1, if_neg q2', if_pos q2, if_pos q3,
      rR, ER, ← hPdef, hllcUpwind]
  have starZ : s = 0 → hllc G d wl wr = (fun | .mom e => if e = d then P else 0 | _ => 0) ∧
      jumpFlux G.gamma d wl Sl s = (fun | .mom e => if e = d then P else 0 | _ => 0) ∧
      jumpFlux G.gamma d wr Sr s = (fun | .mom e => if e = d then P else 0 | _ => 0) := by
    intro q
    have q1 : ¬ Sl > 0 := by rw [← q]; exact not_lt.2 b4.le
    have q2 : ¬ s > 0 := by rw [q]; exact lt_irrefl _
    have q3 : Sr > 0 := by rw [← q]; exact b5
    refine ⟨?_, ?_, ?_⟩
    · funext i
      cases i <;> simp only [hllc, hllcSample, eS, es, eR, if_neg q1, if_neg q2, if_pos q3, ← hPdef] <;>
        simp [q]
    · rw [cL]
      funext i
      cases i <;> simp [q]
    · rw [cR]
      funext i
      cases i <;> simp [q]
  have supL : Sl > 0 → hllc G d wl wr = eulerFlux G.gamma d wl := by
    intro q
    have hv : wl (.mom d) > 0 := lt_trans q b1
    funext i
    cases i with
    | rho => simp only [hllc, hllcSample, eS, if_pos q, eulerFlux]
    | mom e =>
      simp only [hllc, hllcSample, eS, if_pos q, eulerFlux, hllcUpwind, if_pos hv]
      by_cases h : e = d
      · simp [h]
      · simp [h]
    | en => simp only [hllc, hllcSample, eS, if_pos q, eulerFlux, eEl]
    | ps j => simp only [hllc, hllcSample, eS, if_pos q, eulerFlux, hllcUpwind, if_pos hv]
  have supR : Sr ≤ 0 → hllc G d wl wr = eulerFlux G.gamma d wr := by
    intro q
    have q3 : ¬ Sr > 0 := not_lt.2 q
    have q2 : ¬ s > 0 := not_lt.2 (le_trans b5.le q)
    have q1 : ¬ Sl > 0 := not_lt.2 (le_trans (le_trans b4.le b5.le) q)
    have hv : wr (.mom d) < 0 := lt_of_lt_of_le b2 q
    have hv' : ¬ wr (.mom d) > 0 := not_lt.2 hv.le
    funext i
    cases i with
    | rho => simp only [hllc, hllcSample, eS, es, eR, if_neg q1, if_neg q2, if_neg q3, eulerFlux]
    | mom e =>
      simp only [hllc, hllcSample, eS, es, eR, if_neg q1, if_neg q2, if_neg q3, eulerFlux, hllcUpwind,
        if_neg hv', if_pos hv]
      by_cases h : e = d
      · simp [h]
      · simp [h]
    | en => simp only [hllc, hllcSample, eS, es, eR, if_neg q1, if_neg q2, if_neg q3, eulerFlux, eEl]
    | ps j =>
      simp only [hllc, hllcSample, eS, es, eR, if_neg q1, if_neg q2, if_neg q3, eulerFlux, hllcUpwind,
        if_neg hv', if_pos hv]
  refine ⟨?_, ?_, ?_, supR⟩
  · intro h
    rcases lt_or_eq_of_le h with h | h
    · exact supL h
    · rw [starL (by rw [← h]; exact lt_irrefl _) (by rw [h]; exact b4)]
      funext i
      simp only [jumpFlux, ← h, zero_mul, add_zero]
  · intro h1 h2
    rcases lt_or_eq_of_le h2 with h | h
    · exact starL (not_lt.2 h1) h
    · obtain ⟨z1, z2, z3⟩ := starZ h.symm
      rw [z1, z2]
  · intro h1 h2
    rcases lt_or_eq_of_le h1 with h | h
    · rcases lt_or_eq_of_le h2 with h' | h'
      · exact starR (not_lt.2 (le_trans b4.le h1)) h h'
      · rw [supR (le_of_eq h'.symm)]
        funext i
        simp only [jumpFlux, ← h', zero_mul, add_zero]
    · obtain ⟨z1, z2, z3⟩ := starZ h
      rw [z1, z3]

/-- C17 for Sod's shock tube states. -/
example : ∃ (wl wr : State ℝ 1) (cl cr : ℝ), airGas.OK ∧ Physical wl ∧ Physical wr ∧
    IsSoundSpeed airGas wl cl ∧ IsSoundSpeed airGas wr cr ∧ wl ≠ wr := by
  refine ⟨fun | .mom _ => 0 | _ => 1, fun | .rho => 1 / 8 | .en => 1 / 10 | .mom _ => 0 | .ps _ => 1,
    _, _, ⟨airGas_sqrt, by norm_num [airGas], by norm_num [airGas]⟩, ⟨by norm_num, by norm_num⟩,
    ⟨by norm_num, by norm_num⟩, airGas_speed _, airGas_speed _, ?_⟩
  · intro h
    have := congrFun h .rho
    norm_num at this

/-! ## C15 and C16 for hllc -/

theorem contactSpeed_self (d : Fin 3) (w : State K np) (Sl Sr : K)
    (h : w .rho * (Sl - w (.mom d)) - w .rho * (Sr - w (.mom d)) ≠ 0) :
    contactSpeed d w w Sl Sr = w (.mom d) := by
  unfold contactSpeed
  rw [div_eq_iff h]
  ring

/-- C15 for hllc: with equal states on both sides the hllc flux is the Euler flux, for every state
with non-zero density and every gas with a positive floor and a genuine square root. -/
theorem C15_hllc (G : Gas K) (hG : IsSqrt G.sqrt) (hf : 0 < G.csqFloor) (d : Fin 3) (w : State K np)
    (hw : w .rho ≠ 0) : hllc G d w w = eulerFlux G.gamma d w := by
  obtain ⟨hc, _⟩ := soundSpeed_spec G hG hf w
  set c := soundSpeed G w with hcdef
  have eS : (hllcWaves G d w w).Sl = w (.mom d) - c := by simp [hllcWaves, ← hcdef]
  have eR : (hllcWaves G d w w).Sr = w (.mom d) + c := by simp [hllcWaves, ← hcdef]
  have n1 : c ≠ 0 := ne_of_gt hc
  have es : (hllcWaves G d w w).vStar = w (.mom d) := by
    have : (hllcWaves G d w w).vStar =
      (w .rho * (w (.mom d) - (hllcWaves G d w w).Sl) * w (.mom d) +
          w .rho * ((hllcWaves G d w w).Sr - w (.mom d)) * w (.mom d) + w .en - w .en) /
        (w .rho * (w (.mom d) - (hllcWaves G d w w).Sl) +
          w .rho * ((hllcWaves G d w w).Sr - w (.mom d))) := rfl
    rw [this, eS, eR]
    have : w .rho * (w (.mom d) - (w (.mom d) - c)) + w .rho * (w (.mom d) + c - w (.mom d)) ≠ 0 := by
      have : w .rho * (w (.mom d) - (w (.mom d) - c)) + w .rho * (w (.mom d) + c - w (.mom d)) =
        2 * (w .rho * c) := by ring
      rw [this]
      exact mul_ne_zero two_ne_zero (mul_ne_zero hw n1)
    rw [div_eq_iff this]
    ring
  have ep : (hllcWaves G d w w).PStar = w .en := by
    have : (hllcWaves G d w w).PStar =
      (w .rho * (w (.mom d) - (hllcWaves G d w w).Sl) * w .en +
          w .rho * ((hllcWaves G d w w).Sr - w (.mom d)) * w .en +
          w .rho * (w (.mom d) - (hllcWaves G d w w).Sl) *
            (w .rho * ((hllcWaves G d w w).Sr - w (.mom d))) * (w (.mom d) - w (.mom d))) /
        (w .rho * (w (.mom d) - (hllcWaves G d w w).Sl) +
          w .rho * ((hllcWaves G d w w).Sr - w (.mom d))) := rfl
    rw [this, eS, eR]
    have : w .rho * (w (.mom d) - (w (.mom d) - c)) + w .rho * (w (.mom d) + c - w (.mom d)) ≠ 0 := by
      have : w .rho * (w (.mom d) - (w (.mom d) - c)) + w .rho * (w (.mom d) + c - w (.mom d)) =
        2 * (w .rho * c) := by ring
      rw [this]
      exact mul_ne_zero two_ne_zero (mul_ne_zero hw n1)
    rw [div_eq_iff this]
    ring
  have erL : (hllcWaves G d w w).rStarL = w .rho := by
    have : (hllcWaves G d w w).rStarL = w .rho * ((hllcWaves G d w w).Sl - w (.mom d)) /
      ((hllcWaves G d w w).Sl - (hllcWaves G d w w).vStar) := rfl
    rw [this, es, eS, div_eq_iff (by simpa using n1)]
  have erR : (hllcWaves G d w w).rStarR = w .rho := by
    have : (hllcWaves G d w w).rStarR = w .rho * ((hllcWaves G d w w).Sr - w (.mom d)) /
      ((hllcWaves G d w w).Sr - (hllcWaves G d w w).vStar) := rfl
    rw [this, es, eR, div_eq_iff (by simpa using n1)]
  have eEL : (hllcWaves G d w w).EStarL = computeConservatives G.gamma w .en := by
    have : (hllcWaves G d w w).EStarL = (((hllcWaves G d w w).Sl - w (.mom d)) *
      computeConservatives G.gamma w .en - w .en * w (.mom d) +
        (hllcWaves G d w w).PStar * (hllcWaves G d w w).vStar) /
      ((hllcWaves G d w w).Sl - (hllcWaves G d w w).vStar) := rfl
    rw [this, es, eS, ep, div_eq_iff (by simpa using n1)]
    ring
  have eER : (hllcWaves G d w w).EStarR = computeConservatives G.gamma w .en := by
    have : (hllcWaves G d w w).EStarR = (((hllcWaves G d w w).Sr - w (.mom d)) *
      computeConservatives G.gamma w .en - w .en * w (.mom d) +
        (hllcWaves G d w w).PStar * (hllcWaves G d w w).vStar) /
      ((hllcWaves G d w w).Sr - (hllcWaves G d w w).vStar) := rfl
    rw [this, es, eR, ep, div_eq_iff (by simpa using n1)]
    ring
  have hsame : ∀ x : K, hllcSample (hllcWaves G d w w) x x x x = x := by
    intro x
    simp only [hllcSample, ite_self]
  have hup : ∀ x : K, w (.mom d) * hllcUpwind (w (.mom d)) x x = w (.mom d) * x := by
    intro x
    unfold hllcUpwind
    split
    · rfl
    · split
      · rfl
      · rename_i h1 h2
        rw [le_antisymm (not_lt.1 h1) (not_lt.1 h2)]
        simp
  funext i
  cases i with
  | rho => simp only [hllc, erL, erR, es, hsame, eulerFlux]
  | mom e =>
    simp only [hllc, erL, erR, es, ep, hsame, eulerFlux]
    by_cases h : e = d
    · simp [h]
    · simp only [if_neg h, add_zero, mul_assoc, hup]
  | en =>
    simp only [hllc, es, ep, eEL, eER, hsame, eulerFlux]
    rw [conservatives_eq]
    rfl
  | ps j => simp only [hllc, erL, erR, es, hsame, eulerFlux, mul_assoc, hup]

/-- C15 for a moving state with non-zero density (the density may even be negative). -/
example : hllc airGas 1 (fun _ => 2 : State ℝ 2) (fun _ => 2) = eulerFlux (7 / 5) 1 fun _ => 2 :=
  C15_hllc airGas airGas_sqrt (by norm_num [airGas]) 1 _ (by norm_num)

theorem starState_mirror (gamma : K) (d : Fin 3) (w : State K np) (S s : K) :
    starState gamma d (mirrorState d w) (-S) (-s) = mirrorState d (starState gamma d w S s) := by
  have h1 : (-S - -w (.mom d)) = -(S - w (.mom d)) := by ring
  have h2 : (-S - -s) = -(S - s) := by ring
  have hr : w .rho * (-S - -w (.mom d)) / (-S - -s) = w .rho * (S - w (.mom d)) / (S - s) := by
    rw [h1, h2, mul_neg, neg_div_neg_eq]
  funext i
  cases i with
  | rho => simpa [starState, mirrorState] using hr
  | mom e =>
    by_cases h : e = d
    · simp only [starState, mirrorState, h, if_true]
      rw [hr]
      ring
    · simp only [starState, mirrorState, h, if_true, if_false]
      rw [hr]
  | en =>
    simp only [starState, totalEnergy_mirror]
    simp only [mirrorState, if_true]
    rw [hr, h1, mul_neg, div_neg]
    ring
  | ps j =>
    simp only [starState, mirrorState, if_true]
    rw [hr]

theorem jumpFlux_mirror (gamma : K) (d : Fin 3) (w : State K np) (S s : K) :
    jumpFlux gamma d (mirrorState d w) (-S) (-s) =
      fun i => - mirrorState d (jumpFlux gamma d w S s) i := by
  funext i
  unfold jumpFlux
  rw [eulerFlux_mirror, starState_mirror, conserved_mirror]
  cases i with
  | mom e =>
    simp only [mirrorState]
    split <;> ring
  | rho => simp only [mirrorState]; ring
  | en => simp only [mirrorState]; ring
  | ps j => simp only [mirrorState]; ring

/-- C16 for hllc and physical states. -/
theorem C16_hllc (G : Gas K) (hG : G.OK) (d : Fin 3) (wl wr : State K np) (hl : Physical wl)
    (hr : Physical wr) :
    hllc G d (mirrorState d wr) (mirrorState d wl) = fun i => - mirrorState d (hllc G d wl wr) i := by
  have cs : ∀ w : State K np, IsSoundSpeed G w (soundSpeed G w) := fun w =>
    ⟨(soundSpeed_spec G hG.sqrt hG.floor w).1.le, (soundSpeed_spec G hG.sqrt hG.floor w).2⟩
  have hl' : Physical (mirrorState d wl) := ⟨hl.rho, hl.press⟩
  have hr' : Physical (mirrorState d wr) := ⟨hr.rho, hr.press⟩
  obtain ⟨f1, f2, f3, f4⟩ := C17_flux G hG d wl wr hl hr _ _ (cs wl) (cs wr)
  obtain ⟨g1, g2, g3, g4⟩ := C17_flux G hG d _ _ hr' hl' _ _ (cs (mirrorState d wr)) (cs (mirrorState d wl))
  rw [soundSpeed_mirror, soundSpeed_mirror] at g1 g2 g3 g4
  set Sl := davisL d wl wr (soundSpeed G wl) (soundSpeed G wr) with hSl
  set Sr := davisR d wl wr (soundSpeed G wl) (soundSpeed G wr) with hSr
  have m1 : mirrorState d wl (.mom d) = - wl (.mom d) := by simp [mirrorState]
  have m2 : mirrorState d wr (.mom d) = - wr (.mom d) := by simp [mirrorState]
  have e1 : davisL d (mirrorState d wr) (mirrorState d wl) (soundSpeed G wr) (soundSpeed G wl) = - Sr := by
    rw [hSr]
    unfold davisL davisR
    rw [m1, m2, min_neg_neg, max_comm (soundSpeed G wr), max_comm (wr (.mom d))]
    ring
  have e2 : davisR d (mirrorState d wr) (mirrorState d wl) (soundSpeed G wr) (soundSpeed G wl) = - Sl := by
    rw [hSl]
    unfold davisL davisR
    rw [m1, m2, max_neg_neg, max_comm (soundSpeed G wr), min_comm (wr (.mom d))]
    ring
  rw [e1] at g1 g2 g3
  rw [e2] at g2 g3 g4
  have e3 : contactSpeed d (mirrorState d wr) (mirrorState d wl) (-Sr) (-Sl) =
      - contactSpeed d wl wr Sl Sr := by
    unfold contactSpeed
    rw [m1, m2, ← neg_div]
    have a1 : (mirrorState d wl) .rho = wl .rho := rfl
    have a2 : (mirrorState d wr) .rho = wr .rho := rfl
    have a3 : (mirrorState d wl) .en = wl .en := rfl
    have a4 : (mirrorState d wr) .en = wr .en := rfl
    rw [a1, a2, a3, a4]
    congr 1 <;> ring
  rw [e3] at g2 g3
  set s := contactSpeed d wl wr Sl Sr
  rcases le_total 0 Sl with h | h
  · rw [f1 h, g4 (by linarith), eulerFlux_mirror]
  · rcases le_total 0 s with h' | h'
    · rw [f2 h h', g3 (by linarith) (by linarith), jumpFlux_mirror]
    · rcases le_total 0 Sr with h'' | h''
      · rw [f3 h' h'', g2 (by linarith) (by linarith), jumpFlux_mirror]
      · rw [f4 h'', g1 (by linarith), eulerFlux_mirror]

/-- C16 hypotheses: see the example after C17. The mirror image is not trivial. -/
example : mirrorState 0 (fun _ => 1 : State ℚ 0) ≠ fun _ => 1 := by
  intro h
  have := congrFun h (.mom 0)
  norm_num [mirrorState] at this

/-! ## C18 -/

/-- C18 for hllc. If the flow is supersonic to the right the flux is that of the left state, and if
it is supersonic to the left it is that of the right state. -/
theorem C18_hllc (G : Gas K) (hG : G.OK) (d : Fin 3) (wl wr : State K np) (hl : Physical wl)
    (hr : Physical wr) (cl cr : K) (hcl : IsSoundSpeed G wl cl) (hcr : IsSoundSpeed G wr cr) :
    (0 < wl (.mom d) - max cl cr → 0 < wr (.mom d) - max cl cr →
      hllc G d wl wr = eulerFlux G.gamma d wl) ∧
    (wl (.mom d) + max cl cr < 0 → wr (.mom d) + max cl cr < 0 →
      hllc G d wl wr = eulerFlux G.gamma d wr) := by
  obtain ⟨f1, _, _, f4⟩ := C17_flux G hG d wl wr hl hr cl cr hcl hcr
  refine ⟨fun h1 h2 => f1 ?_, fun h1 h2 => f4 ?_⟩
  · unfold davisL
    rcases min_choice (wl (.mom d)) (wr (.mom d)) with h | h <;> rw [h] <;> linarith
  · unfold davisR
    rcases max_choice (wl (.mom d)) (wr (.mom d)) with h | h <;> rw [h] <;> linarith

/-- C18 for advection. -/
theorem C18_advection (G : Gas K) (d : Fin 3) (wl wr : State K np) :
    (0 < wl (.mom d) → advectionUpwind G d wl wr = carriedFlux G.gamma d wl) ∧
    (wl (.mom d) < 0 → advectionUpwind G d wl wr = carriedFlux G.gamma d wr) ∧
    (wl (.mom d) = 0 → advectionUpwind G d wl wr = 0) := by
  refine ⟨fun h => ?_, fun h => ?_, fun h => ?_⟩
  · funext i
    simp only [advectionUpwind, fluxes_noP_eq, if_pos h]
  · funext i
    have h' : ¬ wl (.mom d) > 0 := not_lt.2 h.le
    simp only [advectionUpwind, fluxes_noP_eq, if_neg h', if_pos h]
  · funext i
    simp [advectionUpwind, h]

/-- C18: supersonic states exist (Mach number above 2 on both sides). -/
example : ∃ (wl wr : State ℝ 0) (cl cr : ℝ), Physical wl ∧ Physical wr ∧
    IsSoundSpeed airGas wl cl ∧ IsSoundSpeed airGas wr cr ∧ wl ≠ wr ∧
    0 < wl (.mom 0) - max cl cr ∧ 0 < wr (.mom 0) - max cl cr := by
  have hs : ∀ w : State ℝ 0, w .en = 1 → w .rho = 1 → soundSpeed airGas w < 3 := by
    intro w h1 h2
    obtain ⟨a, b⟩ := soundSpeed_spec airGas airGas_sqrt (by norm_num [airGas]) w
    rw [h1, h2] at b
    have : max (airGas.gamma * 1 / 1) airGas.csqFloor = 7 / 5 := by norm_num [airGas]
    rw [this] at b
    nlinarith
  refine ⟨fun | .mom _ => 3 | _ => 1, fun | .mom _ => 4 | _ => 1, _, _, ⟨by norm_num, by norm_num⟩,
    ⟨by norm_num, by norm_num⟩, airGas_speed _, airGas_speed _, ?_, ?_, ?_⟩
  · intro h
    have := congrFun h (.mom 0)
    norm_num at this
  · have h1 := hs (fun | .mom _ => 3 | _ => 1) rfl rfl
    have h2 := hs (fun | .mom _ => 4 | _ => 1) rfl rfl
    have := max_lt h1 h2
    simp only []
    linarith
  · have h1 := hs (fun | .mom _ => 3 | _ => 1) rfl rfl
    have h2 := hs (fun | .mom _ => 4 | _ => 1) rfl rfl
    have := max_lt h1 h2
    simp only []
    linarith

end FVHOE
