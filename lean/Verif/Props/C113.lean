import Verif.Proofs.QuietFlow
import Verif.Props.C88
import Verif.Props.C80

/-!
C113: on fine grids the limiter stays out of smooth densities, so that limited runs converge with the order of the scheme.
-/

set_option linter.unusedSectionVars false

namespace FVHOE

variable {np : ℕ}

/-- Some cell average is close to the value at `y`. -/
theorem SmoothFlow.mean_near {c : EulerConfig ℝ np} {q s : ℕ} {r M ℓ H : ℝ} {ρ : (Fin 3 → ℝ) → ℝ}
    (h : SmoothFlow c q s r M ℓ H ρ) (hc : TransportSetup c) (hH : 0 ≤ H) (x₀ y : Fin 3 → ℝ) :
    ∃ i, |cellMean x₀ c.h ρ i - ρ y| ≤ M * H / ℓ := by
  have hv : 0 < ∏ d, c.h d := Finset.prod_pos fun d _ => hc.spacing d
  refine ⟨fun d => ⌊(y d - x₀ d) / c.h d⌋, ?_⟩
  have e : cellMean x₀ c.h (fun _ => ρ y) (fun d => ⌊(y d - x₀ d) / c.h d⌋) = ρ y := by
    rw [cellMean_eq _ _ hc.spacing, MeasureTheory.setIntegral_const, cellBox_vol x₀ c.h hc.spacing, smul_eq_mul]
    field_simp
  rw [← e]
  refine cellMean_sub_le x₀ c.h hc.spacing h.smooth.continuous continuous_const fun z hz => ?_
  let z' : Fin 3 → ℝ := fun d => if c.scheme.active d = true then z d else y d
  have ez : ρ z = ρ (y + (z' - y)) := h.depends _ _ fun d hd => by simp [z', hd]
  have hn : ‖z' - y‖ ≤ H := by
    refine (pi_norm_le_iff_of_nonneg hH).2 fun d => ?_
    rw [Pi.sub_apply, Real.norm_eq_abs]
    by_cases hd : c.scheme.active d = true
    · refine le_trans ?_ (h.width d hd)
      have hp := hc.spacing d
      have a1 := hz.1 d
      have a2 := hz.2 d
      have b1 := Int.floor_le ((y d - x₀ d) / c.h d)
      have b2 := (Int.lt_floor_add_one ((y d - x₀ d) / c.h d)).le
      rw [le_div_iff₀ hp] at b1
      rw [div_le_iff₀ hp] at b2
      beta_reduce at a1 a2
      simp only [z', if_pos hd]
      rw [abs_le]
      constructor <;> linarith
    · simp [z', hd, hH]
  have ht := taylor_remainder (q := 0) (h.smooth.of_le (by norm_cast; omega)) y (z' - y) (M / ℓ ^ 1) H hn
    (fun t _ => h.bound 1 le_rfl (by omega) _)
  simp only [zero_add, Finset.sum_range_one, Nat.factorial_zero, Nat.cast_one, inv_one, one_mul, iteratedFDeriv_zero_apply,
    Nat.factorial_one, pow_one, div_one] at ht
  rw [ez]
  refine ht.trans (le_of_eq ?_)
  ring

theorem SmoothFlow.amplitude {c : EulerConfig ℝ np} {q s : ℕ} {r M ℓ H A : ℝ} {ρ : (Fin 3 → ℝ) → ℝ}
    (h : SmoothFlow c q s r M ℓ H ρ) (hc : TransportSetup c) (hH : 0 ≤ H) (x₀ : Fin 3 → ℝ) (hA : ∃ y z, A ≤ ρ y - ρ z) :
    ∃ i j, A - 2 * (M * H / ℓ) ≤ cellMean x₀ c.h ρ i - cellMean x₀ c.h ρ j := by
  obtain ⟨y, z, hyz⟩ := hA
  obtain ⟨i, hi⟩ := h.mean_near hc hH x₀ y
  obtain ⟨j, hj⟩ := h.mean_near hc hH x₀ z
  refine ⟨i, j, ?_⟩
  have := (abs_le.1 hi).1
  have := (abs_le.1 hj).2
  linarith

/-- **C113, one evaluation** Let the state be a gas of uniform velocity, pressure and concentrations in a periodic box whose
densities deviate by at most `B` from the cell averages of a smooth density `ρ ≥ m`, of derivatives bounded by `M / ℓ^k`, that
varies by at least `A`. If the grid is fine and the deviation small in the sense that `400 M H / ℓ + 160 B < m` and
`24 M H / ℓ + 48 B ≤ ε (A - 146 M H / ℓ - 6 B)`, `ε` being the tolerance of the detector in its default form (NAD relative to the
range over the box), the right-hand side with a-posteriori limiting returns exactly what the one without limiting returns. -/
theorem C113_rhs (c : EulerConfig ℝ np) (v : Fin 3 → ℝ) (h : FlowSetup c v) (hw : WideBox c) (o : LimiterOpts ℝ)
    (ho : GlobalTest o) (x₀ : Fin 3 → ℝ) (ρ : (Fin 3 → ℝ) → ℝ) (q s : ℕ) (r m M ℓ H A B : ℝ)
    (hs : SmoothFlow c q s r M ℓ H ρ) (hm : ∀ y, m ≤ ρ y) (hA : ∃ y z, A ≤ ρ y - ρ z)
    (hpos : 400 * (M * H / ℓ) + 160 * B < m)
    (hfine : 24 * (M * H / ℓ) + 48 * B ≤ o.eps * (A - 146 * (M * H / ℓ) - 6 * B)) (P : ℝ) (hP : 0 ≤ P) (x : Fin np → ℝ)
    (β : Ix → ℝ) (hβ : Cyclic c.n β) (hB : ∀ j, |β j - cellMean x₀ c.h ρ j| ≤ B) (u : Ix → State ℝ np)
    (hu : ∀ j, InCells c.n j → u j = conserved c.gas.gamma (flowing v P x (β j))) (junk : ℕ → Ix → State ℝ np)
    (mem : Fin 3 → Ix → State ℝ np) (t t' : ℝ) :
    solverRHS (c.limited (some o)).scheme junk mem t t' u = solverRHS c.scheme junk mem t t' u := by
  have hc := h.transport
  have hH : 0 ≤ H := by
    obtain ⟨d, hd⟩ := h.extended
    exact (hc.spacing d).le.trans (hs.width d hd)
  have hM := hs.M_nonneg
  have hℓ := hs.scale
  have hω0 : 0 ≤ M * H / ℓ := by positivity
  exact quiet_rhs h ho hw (g := cellMean x₀ c.h ρ) hω0
    (fun j => cellMean_least x₀ c.h hc.spacing hs.smooth.continuous m fun y _ => hm y)
    (fun d j => hs.neighbours hc hH x₀ d j) hB hpos (fun d j => periodic_means hc x₀ hs.depends hs.periodic d j)
    (hs.amplitude hc hH x₀ hA) (hfine.trans (le_of_eq (by ring))) P hP x hβ t t' u hu junk mem

/-- Limited right-hand sides propose positive steps. -/
theorem limited_posDt {c : EulerConfig ℝ np} {v : Fin 3 → ℝ} (h : FlowSetup c v) (hw : WideBox c) {o : LimiterOpts ℝ}
    (ho : GlobalTest o) (f : RHS ℝ (Ix → State ℝ np)) (hf : IsSolverRHS (c.limited (some o)).scheme f) : PosDt f := by
  intro s t u dt k hk
  obtain ⟨junk, mem, e⟩ := hf s t u
  have hc := h.transport
  have hd : c.dims ≠ [] := by
    obtain ⟨d, hd⟩ := h.extended
    exact List.ne_nil_of_mem ((mem_dims c d).2 hd)
  have hin : ∀ d, c.scheme.active d = false → c.p d = 0 := fun d hd => c.scheme.inactive_p d hd
  obtain ⟨dt', tr, k1, k2, -, k4⟩ := limited_rhs c o ho.known hd hc.degree hc.cells s _ _ _ _ _ _ (h.box.sides hc.cells s)
    (wrap_sides h.box hc.cells (fluxWidth c.scheme (fallbackP c.p)) (fun d hd => by
      unfold fluxWidth fallbackP
      rw [hd, hin d hd]
      rfl) (fun d hd => (hw d hd).1) s)
    (wrap_sides h.box hc.cells (detectWidth c.scheme) (fun d hd => by
      unfold detectWidth
      rw [hd, show c.scheme.p d = 0 from hin d hd]
      rfl) (fun d hd => (hw d hd).2) s) junk mem t u
  rw [e, k4] at hk
  obtain ⟨rfl, -⟩ := limitedResult_inv c o _ _ _ _ tr k2 k hk
  exact (h.dt_spec _ _ k1).1

/-- **C113** The limited run of C88: with a-posteriori limiting in its default form switched on, a run with `ssprk3` or `rk4`
from the cell averages of a smooth density `ρ ≥ m` that varies by at least `A`, in a uniform flow, converges with the same bound
as without limiting, if the grid is fine enough for the final time: with `ω = M H / ℓ` and `η = √(number of cells) E T`,
`100000 ω + 200000 η < m` and `30000 ω + 60000 η ≤ ε (A - 4000 ω - 8000 η)`. -/
theorem C113_run (c : EulerConfig ℝ np) (v : Fin 3 → ℝ) (h : FlowSetup c v) (hw : WideBox c) (o : LimiterOpts ℝ)
    (ho : GlobalTest o) (x₀ : Fin 3 → ℝ) (ρ : (Fin 3 → ℝ) → ℝ) (q : ℕ) (r m M ℓ H A T : ℝ) (k : Integrator)
    (hk : HighOrder k) (hs : SmoothFlow c q (order k) r M ℓ H ρ) (hmρ : ∀ y, m ≤ ρ y) (hA : ∃ y z, A ≤ ρ y - ρ z)
    (hpos : 100000 * (M * H / ℓ) + 200000 * (√(c.n 0 * c.n 1 * c.n 2) * flowError v q (order k) r M ℓ H * T) < m)
    (hfine : 30000 * (M * H / ℓ) + 60000 * (√(c.n 0 * c.n 1 * c.n 2) * flowError v q (order k) r M ℓ H * T) ≤
      o.eps * (A - 4000 * (M * H / ℓ) - 8000 * (√(c.n 0 * c.n 1 * c.n 2) * flowError v q (order k) r M ℓ H * T)))
    (P : ℝ) (hP : 0 ≤ P) (x : Fin np → ℝ) (f : RHS ℝ (Ix → State ℝ np)) (hf : IsSolverRHS (c.limited (some o)).scheme f)
    {Sn : Type} (mk : ODEState ℝ (Ix → State ℝ np) Sn → Sn) (fuel : ℕ) (a : IntegrateArgs ℝ Sn) (haT : a.T = some T)
    (ha : a.saved = none) (st : ODEState ℝ (Ix → State ℝ np) Sn) (h0 : st.t = 0) (hT : Ahead a 0)
    (hu : ∀ j, InCells c.n j → st.u j = conserved c.gas.gamma (flowing v P x (cellMean x₀ c.h ρ j)))
    (out : Outcome ℝ (Ix → State ℝ np) Sn) (hrun : st.integrate (stepper f k) mk fuel a = some out) :
    out.2 = none ∧ MeanFollows c x₀ ρ v P x (flowError v q (order k) r M ℓ H) T out.1.t out.1.u ∧
      ∀ s ∈ out.1.snapshots, s ∈ st.snapshots ∨ ∃ st', s = mk st' ∧
        MeanFollows c x₀ ρ v P x (flowError v q (order k) r M ℓ H) T st'.t st'.u := by
  have hc := h.transport
  have hH : 0 ≤ H := by
    obtain ⟨d, hd⟩ := h.extended
    exact (hc.spacing d).le.trans (hs.width d hd)
  have hM := hs.M_nonneg
  have hℓ := hs.scale
  have hω0 : 0 ≤ M * H / ℓ := by positivity
  have hT0 : 0 < T := (hT T haT).1
  have hη0 : 0 ≤ √(c.n 0 * c.n 1 * c.n 2 : ℝ) * flowError v q (order k) r M ℓ H * T := by
    have := sum_abs_nonneg v
    have := hs.radius_nonneg
    unfold flowError
    positivity
  have hev : ∀ t, 0 ≤ t → t < T → EvalsFlow c v P x (fun β => ∀ j, |β j - cellMean x₀ c.h (fun y => ρ (y - t • v)) j| ≤
      584 * (M * H / ℓ) + 1169 * (√(c.n 0 * c.n 1 * c.n 2) * flowError v q (order k) r M ℓ H * T)) f := by
    intro t _ _
    have hst := hs.translate (t • v)
    intro β hβ hB s t' u hu
    obtain ⟨junk, mem, e⟩ := hf s t' u
    have hnv : Nonvanishing c β := nonvanishing_near (g := cellMean x₀ c.h fun y => ρ (y - t • v)) (m := m) hc.degree hω0
      (by linarith) (fun j => cellMean_least x₀ c.h hc.spacing hst.smooth.continuous m (fun y _ => hmρ _))
      (fun d j => hst.neighbours hc hH x₀ d j) hB (by linarith)
    have hA' : ∃ y z, A ≤ ρ (y - t • v) - ρ (z - t • v) := by
      obtain ⟨y, z, hyz⟩ := hA
      exact ⟨y + t • v, z + t • v, by simpa using hyz⟩
    have hε := mul_le_mul_of_nonneg_left (show A - 4000 * (M * H / ℓ) -
      8000 * (√(c.n 0 * c.n 1 * c.n 2) * flowError v q (order k) r M ℓ H * T) ≤ A - 146 * (M * H / ℓ) - 6 * (584 * (M * H / ℓ) +
        1169 * (√(c.n 0 * c.n 1 * c.n 2) * flowError v q (order k) r M ℓ H * T)) by linarith) ho.tolerance
    have hq := C113_rhs c v h hw o ho x₀ _ q _ r m M ℓ H A _ hst (fun y => hmρ _) hA' (by linarith) (by linarith) P hP x β hβ hB u
      hu junk mem s t'
    obtain ⟨dt, D, e', r'⟩ := flow_rhs h P x β hβ hnv s t' u hu junk mem
    exact ⟨dt, D, (e.trans hq).trans e', r'⟩
  exact follows_run c v h x₀ ρ q r m M ℓ H T k hk hs hmρ (by linarith) P x f (limited_posDt h hw ho f hf) hev mk fuel a haT ha st h0
    hT hu out hrun

/-! ## Refining the grid for a sine wave -/

theorem waveTube_wide (N q : ℕ) (hN : 16 ≤ N) (hq : q ≤ 8) : WideBox (waveTube N q) := by
  intro d hd
  rw [waveTube_active N q (by omega)] at hd
  subst hd
  have h4 := ceilHalf_le_four hq
  have ha : (waveTube N q).scheme.active 0 = true := (waveTube_active N q (by omega) 0).2 rfl
  constructor
  · unfold fluxWidth
    rw [if_pos ha]
    show fluxGw (fallbackP (waveTube N q).p) + 2 * ceilHalf (fallbackP (waveTube N q).p 0) ≤ N
    have e : fallbackP (waveTube N q).p = ![if 0 < q then 1 else 0, 0, 0] := by
      funext d
      match d with
      | 0 | 1 | 2 => rfl
    rw [e]
    split_ifs
    · have : fluxGw ![1, 0, 0] + 2 * ceilHalf ((![1, 0, 0] : Fin 3 → ℕ) 0) ≤ 16 := by decide
      omega
    · have : fluxGw ![0, 0, 0] + 2 * ceilHalf ((![0, 0, 0] : Fin 3 → ℕ) 0) ≤ 16 := by decide
      omega
  · unfold detectWidth
    rw [if_pos ha]
    show 3 + 2 * ceilHalf q ≤ N
    omega

/-- **C113, for the sine wave** The density `2 + sin x` in a tube of length `2π` that flows at velocity `w`, on `N` cells at
degree `q` with `ssprk3` or `rk4` and with a-posteriori limiting of tolerance `ε` switched on: if `(200000 (π + K T))² < ε² N`,
`K` being a constant of the degree and the velocity, the run up to `T` does not raise, the density stays positive, the velocity
`w`, and the root mean square error of the density is at most `K T / N^min(q+1, s)`. -/
theorem C113_sine (N q : ℕ) (hq : q ≤ 8) (k : Integrator) (hk : HighOrder k) (w T : ℝ) (hT : 0 < T) (o : LimiterOpts ℝ)
    (ho : GlobalTest o) (he0 : 0 < o.eps) (he1 : o.eps ≤ 1)
    (hN : (200000 * (Real.pi + waveError q (order k) w * T)) ^ 2 < o.eps ^ 2 * N) (f : RHS ℝ (Ix → State ℝ 1))
    (hf : IsSolverRHS ((waveTube N q).limited (some o)).scheme f) (fuel : ℕ) (u : Ix → State ℝ 1)
    (hu : ∀ j, InCells (waveTube N q).n j → u j = conserved (7 / 5)
      (flowing ![w, 0, 0] 1 (fun _ => 1 / 2) (cellMean 0 (waveTube N q).h (fun y => 2 + Real.sin (y 0)) j)))
    (out : Outcome ℝ (Ix → State ℝ 1) Unit)
    (hrun : (ODEState.init u).integrate (stepper f k) (fun _ => ()) fuel ⟨some T, none, true, [], false, none⟩ =
      some out) : out.2 = none ∧
    (∀ i, InCells (waveTube N q).n i → 0 < out.1.u i .rho ∧ out.1.u i (.mom 0) = w * out.1.u i .rho) ∧
    (∑ j ∈ Finset.range N, (out.1.u ![j, 0, 0] .rho -
      cellMean 0 (waveTube N q).h (fun y => 2 + Real.sin (y 0 - T * w)) ![j, 0, 0]) ^ 2) / N ≤
        (waveError q (order k) w * T / (N : ℝ) ^ min (q + 1) (order k)) ^ 2 := by
  have hpi := Real.pi_pos
  have hW : 0 ≤ waveError q (order k) w := by unfold waveError; positivity
  have hWT : 0 ≤ waveError q (order k) w * T := by positivity
  obtain ⟨Z, hZ⟩ : ∃ Z, Z = Real.pi + waveError q (order k) w * T := ⟨_, rfl⟩
  rw [← hZ] at hN
  have hZ2 : 2 ≤ Z := by linarith [Real.two_le_pi]
  have hN0 : (0 : ℝ) < N := by
    by_contra hc
    have : (N : ℝ) = 0 := le_antisymm (not_lt.1 hc) (Nat.cast_nonneg N)
    rw [this, mul_zero] at hN
    exact absurd hN (not_lt.2 (sq_nonneg _))
  have hsq : 200000 * Z < o.eps * √(N : ℝ) := by
    refine lt_of_pow_lt_pow_left₀ 2 (by positivity) ?_
    rw [mul_pow o.eps, Real.sq_sqrt hN0.le]
    exact hN
  have hs0 : 0 < √(N : ℝ) := Real.sqrt_pos.2 hN0
  have hsq1 : 200000 * Z < √(N : ℝ) := hsq.trans_le (mul_le_of_le_one_left hs0.le he1)
  have hss : √(N : ℝ) * √(N : ℝ) = N := Real.mul_self_sqrt hN0.le
  have hN1 : 16 ≤ N := by
    have : (16 : ℝ) ≤ N := by nlinarith
    exact_mod_cast this
  have hN1' : (1 : ℝ) ≤ N := by exact_mod_cast (by omega : 1 ≤ N)
  have hset := waveTube_setup N q hN1 hq ![w, 0, 0]
  have hsm := waveTube_smooth N q (order k) hN1 hq
  have hE := waveError_spec N q (order k) hN1 w
  have hE0 : 0 ≤ flowError ![w, 0, 0] q (order k) (17 * (2 * Real.pi / N)) 1 1 (2 * Real.pi / N) := by
    have := sum_abs_nonneg (![w, 0, 0] : Fin 3 → ℝ)
    unfold flowError
    positivity
  have hA : Ahead (⟨some T, none, true, [], false, none⟩ : IntegrateArgs ℝ Unit) 0 := by
    intro T' hT'
    cases hT'
    exact ⟨hT, fun d hd => by cases hd⟩
  have run := C113_run (waveTube N q) ![w, 0, 0] hset (waveTube_wide N q hN1 hq) o ho 0 _ q _ 1 1 1 _ 2 T k hk hsm
    (fun y => by linarith [Real.neg_one_le_sin (y 0)])
    ⟨fun _ => Real.pi / 2, fun _ => -(Real.pi / 2), by
      rw [Real.sin_neg, Real.sin_pi_div_two]
      norm_num⟩
  obtain ⟨E, hEdef⟩ : ∃ E, E = flowError ![w, 0, 0] q (order k) (17 * (2 * Real.pi / N)) 1 1 (2 * Real.pi / N) := ⟨_, rfl⟩
  rw [← hEdef] at run hE hE0
  have hcnt : ((waveTube N q).n 0 * (waveTube N q).n 1 * (waveTube N q).n 2 : ℝ) = N := by
    show ((N : ℝ) * ((1 : ℕ) : ℝ) * ((1 : ℕ) : ℝ)) = N
    simp
  have hoo : 1 ≤ min (q + 1) (order k) := by unfold order; split_ifs <;> omega
  have hEN : E ≤ waveError q (order k) w / N := by
    refine hE.trans (div_le_div_of_nonneg_left hW hN0 ?_)
    calc (N : ℝ) = (N : ℝ) ^ 1 := (pow_one _).symm
      _ ≤ _ := pow_le_pow_right₀ hN1' hoo
  have hs1 : √(N : ℝ) ≤ N := by
    have : 1 ≤ √(N : ℝ) := Real.one_le_sqrt.2 hN1'
    nlinarith
  have a1 : 2 * Real.pi / N ≤ 2 * Real.pi / √(N : ℝ) := div_le_div_of_nonneg_left (by positivity) hs0 hs1
  have a2 : √(N : ℝ) * E * T ≤ waveError q (order k) w * T / √(N : ℝ) := by
    rw [le_div_iff₀ hs0]
    rw [le_div_iff₀ hN0] at hEN
    have := mul_le_mul_of_nonneg_right hEN hT.le
    calc _ = E * (√(N : ℝ) * √(N : ℝ)) * T := by ring
      _ ≤ _ := by rw [hss]; exact this
  have a3 : 200000 * Z / √(N : ℝ) < o.eps := (div_lt_iff₀ hs0).2 hsq
  have a4 : 200000 * Z / √(N : ℝ) = 100000 * (2 * Real.pi / √(N : ℝ)) + 200000 * (waveError q (order k) w * T / √(N : ℝ)) := by
    rw [hZ]
    ring
  have b1 : 0 ≤ 2 * Real.pi / N := by positivity
  have b2 : 0 ≤ √(N : ℝ) * E * T := by positivity
  obtain ⟨h1, h2, -⟩ := run (by
      rw [hcnt, one_mul, div_one]
      linarith)
    (by
      rw [hcnt, one_mul, div_one]
      have c1 : 30000 * (2 * Real.pi / N) + 60000 * (√(N : ℝ) * E * T) ≤ o.eps * 1 := by linarith
      refine c1.trans (mul_le_mul_of_nonneg_left ?_ he0.le)
      linarith)
    1 zero_le_one (fun _ => 1 / 2) f hf (fun _ => ()) fuel ⟨some T, none, true, [], false, none⟩ rfl rfl (ODEState.init u) rfl hA hu
    out hrun
  have ht : out.1.t = T := by
    have hrun' : (ODEState.init u).integrateT (stepper f k) (fun _ => ()) T true [] false fuel = some (out.1, none) := by
      rw [← h1]
      exact hrun
    exact (C24_exact_output_times f k _ (limited_posDt hset (waveTube_wide N q hN1 hq) ho f hf) T [] false fuel _ _ le_rfl hT
      (fun d hd => by cases hd) hrun').1
  rw [ht] at h2
  exact ⟨h1, sine_follows N q hN1 k w T E hT hE0 hE _ h2⟩

/-- The default options of the solver are of the kind the theorems ask for. -/
theorem defaultLimiter_global : GlobalTest defaultLimiter :=
  ⟨rfl, rfl, rfl, by norm_num [defaultLimiter], Or.inr rfl⟩

/-- With the default options of the solver (tolerance 1/100), at degree 3 with `rk4` up to time 1. -/
example : 0 < defaultLimiter.eps ∧ defaultLimiter.eps ≤ 1 ∧
    (200000 * (Real.pi + waveError 3 (order .rk4) 1 * 1)) ^ 2 < defaultLimiter.eps ^ 2 * ((10 ^ 36 : ℕ) : ℝ) := by
  have h1 := Real.pi_le_four
  have h0 := Real.pi_pos
  have h2 : waveError 3 (order .rk4) 1 * 1 ≤ 16 * 10 ^ 9 := by
    unfold waveError order
    rw [if_pos rfl, abs_one]
    have a1 : (34 * Real.pi) ^ (3 + 1) ≤ (34 * 4) ^ (3 + 1) := pow_le_pow_left₀ (by positivity) (by linarith) _
    have a2 : (2 * Real.pi) ^ 4 ≤ (2 * 4) ^ 4 := pow_le_pow_left₀ (by positivity) (by linarith) _
    norm_num at a1 a2 ⊢
    linarith
  have h3 : 0 ≤ waveError 3 (order .rk4) 1 * 1 := by unfold waveError; positivity
  refine ⟨by norm_num [defaultLimiter], by norm_num [defaultLimiter], ?_⟩
  calc _ ≤ (200000 * (4 + 16 * 10 ^ 9 : ℝ)) ^ 2 := pow_le_pow_left₀ (by positivity) (by linarith) 2
    _ < _ := by norm_num [defaultLimiter]

end FVHOE
