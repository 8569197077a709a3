import Verif.Proofs.Carry
import Verif.Props.C71

/-!
A gas of uniform velocity and pressure in a periodic box: the right-hand side and the steps of `ssprk3` and `rk4` as
combinations of shifts acting on the cell averages of the density.
-/

set_option linter.unusedSectionVars false

namespace FVHOE

variable {np : ℕ}

theorem act_map_add (x : Ops) (α β : Ix → ℝ) : act x (α + β) = act x α + act x β := map_add _ _ _

theorem act_map_smul (x : Ops) (k : ℝ) (α : Ix → ℝ) : act x (k • α) = k • act x α := map_smul _ _ _

/-- The set-up of C87: no limiting, a contact-keeping solver in a periodic box with at least one extended direction, and
steps of CFL number at most `4/5` (the default of the code), or of a fixed size as small. -/
structure FlowSetup (c : EulerConfig ℝ np) (v : Fin 3 → ℝ) : Prop where
  transport : TransportSetup c
  solver : KeepsContacts c.riem
  box : PeriodicBox c
  extended : ∃ d, c.scheme.active d = true
  steps : (c.fixedDt = none ∧ 0 < c.cfl ∧ c.cfl ≤ 4 / 5 ∧ IsSqrt c.gas.sqrt ∧ 0 < c.gas.csqFloor) ∨
    ∃ δ, c.fixedDt = some δ ∧ 0 < δ ∧ ∀ d, c.scheme.active d = true → δ * ∑ d, |v d| ≤ 4 / 5 * c.h d

/-- The interpolated densities do not vanish. -/
def Nonvanishing (c : EulerConfig ℝ np) (α : Ix → ℝ) : Prop :=
  (∀ j, latCenters ℝ c.p α j ≠ 0) ∧
    ∀ d j, faceDensity ℝ c.p d true α j + faceDensity ℝ c.p d false α j ≠ 0

/-- The rate of change of the density. -/
noncomputable def rateOp (c : EulerConfig ℝ np) (v : Fin 3 → ℝ) : Ops :=
  opA c.p (share c.scheme.active c.h v 1) fun d => decide (0 < v d)

theorem smul_rateOp (c : EulerConfig ℝ np) (v : Fin 3 → ℝ) (τ : ℝ) :
    τ • rateOp c v = opA c.p (share c.scheme.active c.h v τ) fun d => decide (0 < v d) := by
  unfold rateOp opA
  rw [smul_neg, Finset.smul_sum]
  congr 1
  refine Finset.sum_congr rfl fun d _ => ?_
  rw [smul_smul]
  congr 1
  unfold share
  split_ifs
  · ring
  · ring

theorem act_opA {p : Fin 3 → ℕ} (κ : Fin 3 → ℝ) (b : Fin 3 → Bool) (α : Ix → ℝ) (i : Ix) :
    act (opA p κ b) α i = -∑ d, κ d * act (opG p d (b d)) α i := by
  unfold opA
  rw [act_neg, Pi.neg_apply, map_sum, LinearMap.sum_apply, Finset.sum_apply]
  simp only [map_smul, LinearMap.smul_apply, Pi.smul_apply, smul_eq_mul]

theorem act_rateOp (c : EulerConfig ℝ np) (hp : ∀ d, c.p d ≤ 8) (v : Fin 3 → ℝ) (α : Ix → ℝ) (i : Ix) :
    act (rateOp c v) α i = -∑ d, if c.scheme.active d = true then v d / c.h d *
        (transported ℝ c.p d (decide (0 < v d)) α (i + Pi.single d 1) -
          transported ℝ c.p d (decide (0 < v d)) α i) else 0 := by
  unfold rateOp
  rw [act_opA]
  congr 1
  refine Finset.sum_congr rfl fun d _ => ?_
  rw [act_opG d _ hp]
  unfold share
  by_cases ha : c.scheme.active d = true
  · rw [if_pos ha, if_pos ha]
    by_cases hv : 0 < v d
    · simp only [hv, decide_true, if_true, abs_of_pos hv]
      ring
    · simp only [hv, decide_false, Bool.false_eq_true, if_false, abs_of_nonpos (not_lt.1 hv)]
      ring
  · rw [if_neg ha, if_neg ha, zero_mul]

section

variable {c : EulerConfig ℝ np} {v : Fin 3 → ℝ} (h : FlowSetup c v)
include h

theorem FlowSetup.ndim_pos : 1 ≤ c.scheme.ndim := by
  rw [c.ndim_eq]
  obtain ⟨d, hd⟩ := h.extended
  refine Finset.card_pos.2 ⟨d, ?_⟩
  simp [Scheme.active, EulerConfig.scheme] at hd
  simp [EulerConfig.directions]
  tauto

theorem min_spacing (d : Fin 3) : 0 < min (min (c.h 0) (c.h 1)) (c.h 2) ∧ min (min (c.h 0) (c.h 1)) (c.h 2) ≤ c.h d := by
  refine ⟨lt_min (lt_min (h.transport.spacing 0) (h.transport.spacing 1)) (h.transport.spacing 2), ?_⟩
  match d with
  | 0 => exact (min_le_left _ _).trans (min_le_left _ _)
  | 1 => exact (min_le_left _ _).trans (min_le_right _ _)
  | 2 => exact min_le_right _ _

/-- The proposed step is positive; if the primitive averages have the velocity `v`, it is small. -/
theorem FlowSetup.dt_spec (W : Ix → State ℝ np) (dt : ℝ) (hdt : IsDt c.scheme c.scheme.p W dt) :
    0 < dt ∧ ((∀ i d, W i (.mom d) = v d) → ∀ d, c.scheme.active d = true → dt * ∑ d, |v d| ≤ 4 / 5 * c.h d) := by
  unfold IsDt at hdt
  rcases h.steps with ⟨hf, h0, h1, hs, hfl⟩ | ⟨δ, hf, h0, h1⟩
  · rw [show c.scheme.fixedDt = none from hf] at hdt
    obtain ⟨m, ⟨i₀, -, hm⟩, -, hdt⟩ := hdt
    have hss := (soundSpeed_spec c.gas hs hfl (W i₀)).1
    have hk : (1 : ℝ) ≤ (c.scheme.ndim : ℝ) := by exact_mod_cast h.ndim_pos
    have hm' : m = |W i₀ (.mom 0)| + |W i₀ (.mom 1)| + |W i₀ (.mom 2)| + (c.scheme.ndim : ℝ) * soundSpeed c.gas (W i₀) := by
      rw [← hm]
      rfl
    have hks := mul_le_mul_of_nonneg_right hk hss.le
    have hm0 : 0 < m := by
      rw [hm']
      have := abs_nonneg (W i₀ (.mom 0))
      have := abs_nonneg (W i₀ (.mom 1))
      have := abs_nonneg (W i₀ (.mom 2))
      linarith
    have hmin := (min_spacing h 0).1
    have hdt' : dt = c.cfl * min (min (c.h 0) (c.h 1)) (c.h 2) / m := hdt
    have hdt0 : 0 < dt := by rw [hdt']; positivity
    refine ⟨hdt0, fun hW d _ => ?_⟩
    have hV : ∑ d, |v d| ≤ m := by
      rw [hm', hW, hW, hW, Fin.sum_univ_three]
      linarith
    calc dt * ∑ d, |v d| ≤ dt * m := mul_le_mul_of_nonneg_left hV hdt0.le
      _ = c.cfl * min (min (c.h 0) (c.h 1)) (c.h 2) := by rw [hdt']; field_simp
      _ ≤ 4 / 5 * min (min (c.h 0) (c.h 1)) (c.h 2) := mul_le_mul_of_nonneg_right h1 hmin.le
      _ ≤ 4 / 5 * c.h d := mul_le_mul_of_nonneg_left (min_spacing h d).2 (by norm_num)
  · rw [show c.scheme.fixedDt = some δ from hf] at hdt
    subst hdt
    exact ⟨h0, fun _ d hd => h1 d hd⟩

theorem FlowSetup.posDt (f : RHS ℝ (Ix → State ℝ np)) (hf : IsSolverRHS c.scheme f) : PosDt f := by
  intro s t u dt k hk
  obtain ⟨junk, mem, e⟩ := hf s t u
  obtain ⟨dt', hdt, e'⟩ := rhs_spec c.scheme h.transport.unlimited h.transport.degree h.transport.cells s _ _
    (h.box.sides h.transport.cells s) junk mem t u u fun _ _ => rfl
  rw [← e, hk] at e'
  cases e'
  exact (h.dt_spec _ _ hdt).1

/-- One evaluation of the right-hand side. -/
theorem flow_rhs (P : ℝ) (x : Fin np → ℝ) (α : Ix → ℝ) (hα : Cyclic c.n α) (h0 : Nonvanishing c α) (t t' : ℝ)
    (u : Ix → State ℝ np) (hu : ∀ j, InCells c.n j → u j = conserved c.gas.gamma (flowing v P x (α j)))
    (junk : ℕ → Ix → State ℝ np) (mem : Fin 3 → Ix → State ℝ np) :
    ∃ dt D, solverRHS c.scheme junk mem t t' u = .ok (dt, D) ∧ 0 < dt ∧
      (∀ d, c.scheme.active d = true → dt * ∑ d, |v d| ≤ 4 / 5 * c.h d) ∧
      ∀ i, InCells c.n i → D i = act (rateOp c v) α i • carried v x := by
  have hc := h.transport
  have hext : extAll c.n (fun _ => .wrap) (fun _ => .wrap)
      (fun j => conserved c.gas.gamma (flowing v P x (α j))) =
      fun j => conserved c.gas.gamma (flowing v P x (α j)) := by
    rw [extAll_wrap c.n hc.cells]
    funext j
    rw [periodic_wrap c.n α hα]
  have hS := h.box.sides hc.cells t
  obtain ⟨dt, D, hdt, e⟩ : ∃ dt D, IsDt c.scheme c.scheme.p (latPrim ℝ c.scheme.prim c.scheme.p
      (extAll c.scheme.n (fun _ => .wrap) (fun _ => .wrap) fun j => conserved c.gas.gamma (flowing v P x (α j)))) dt ∧
      solverRHS c.scheme junk mem t t' u = .ok (dt, D) := by
    obtain ⟨dt, hdt, e⟩ := rhs_spec c.scheme hc.unlimited hc.degree hc.cells t _ _ hS junk mem t' u _ hu
    exact ⟨dt, _, hdt, e⟩
  have key := fun i hi => contact_rhs c hc h.solver v P x α i hi (fun d _ j _ => h0.1 j)
    (fun d _ y _ j _ => h0.2 d j) t t' _ _ hS u _ hu (fun j _ => by rw [hext]) junk mem
  obtain ⟨k1, k2⟩ := h.dt_spec _ _ hdt
  refine ⟨dt, D, e, k1, k2 fun i d => ?_, fun i hi => ?_⟩
  · have := contact_prim hc.degree c.gas.gamma hc.gamma v P x α (extAll c.n (fun _ => .wrap) (fun _ => .wrap)
      (fun j => conserved c.gas.gamma (flowing v P x (α j)))) i 0 (fun j _ => by rw [hext]) (fun j _ => h0.1 j) i
      (by simp)
    change latPrim ℝ (computePrimitives c.gas.gamma) c.p (extAll c.n (fun _ => .wrap) (fun _ => .wrap)
      (fun j => conserved c.gas.gamma (flowing v P x (α j)))) i (.mom d) = _
    rw [this]
    rfl
  · obtain ⟨dt', D', e', hD⟩ := key i hi
    rw [e] at e'
    cases e'
    rw [hD, act_rateOp c hc.degree]

omit h in
/-- On the uniform flows whose densities are `Good`, `f` returns a positive step of admissible length and the linear rate
of change. -/
def EvalsFlow (c : EulerConfig ℝ np) (v : Fin 3 → ℝ) (P : ℝ) (x : Fin np → ℝ) (Good : (Ix → ℝ) → Prop)
    (f : RHS ℝ (Ix → State ℝ np)) : Prop :=
  ∀ α, Cyclic c.n α → Good α → ∀ (t t' : ℝ) (u : Ix → State ℝ np),
    (∀ j, InCells c.n j → u j = conserved c.gas.gamma (flowing v P x (α j))) →
    ∃ dt D, f t t' u = .ok (dt, D) ∧ 0 < dt ∧ (∀ d, c.scheme.active d = true → dt * ∑ d, |v d| ≤ 4 / 5 * c.h d) ∧
      ∀ i, InCells c.n i → D i = act (rateOp c v) α i • carried v x

omit h in
theorem EvalsFlow.mono {P : ℝ} {x : Fin np → ℝ} {G G' : (Ix → ℝ) → Prop} {f : RHS ℝ (Ix → State ℝ np)}
    (hf : EvalsFlow c v P x G f) (hG : ∀ α, G' α → G α) : EvalsFlow c v P x G' f :=
  fun α hα h => hf α hα (hG α h)

theorem flow_evals (P : ℝ) (x : Fin np → ℝ) (f : RHS ℝ (Ix → State ℝ np)) (hf : IsSolverRHS c.scheme f) :
    EvalsFlow c v P x (Nonvanishing c) f := by
  intro α hα h0 t t' u hu
  obtain ⟨junk, mem, e⟩ := hf t t' u
  obtain ⟨dt, D, e', r⟩ := flow_rhs h P x α hα h0 t t' u hu junk mem
  exact ⟨dt, D, e.trans e', r⟩

theorem flow_add (P : ℝ) (x : Fin np → ℝ) (r s : ℝ) :
    conserved c.gas.gamma (flowing v P x r) + s • carried v x = conserved c.gas.gamma (flowing v P x (r + s)) := by
  rw [conserved_flowing, conserved_flowing, add_smul, add_assoc]

/-- One step of `ssprk3`. -/
theorem flow_ssprk3 (P : ℝ) (x : Fin np → ℝ) (α : Ix → ℝ) (hα : Cyclic c.n α) (t : ℝ) (target : Option ℝ)
    (hg : ∀ g, target = some g → t < g)
    (u : Ix → State ℝ np) (hu : ∀ j, InCells c.n j → u j = conserved c.gas.gamma (flowing v P x (α j)))
    (Good : (Ix → ℝ) → Prop) (f : RHS ℝ (Ix → State ℝ np)) (hf : EvalsFlow c v P x Good f)
    (h0 : Good α)
    (h1 : ∀ τ, 0 ≤ τ → (∀ d, c.scheme.active d = true → τ * ∑ d, |v d| ≤ 4 / 5 * c.h d) →
      Good (act (1 + τ • rateOp c v) α) ∧
      Good (act (1 + (1 / 2 : ℝ) • (τ • rateOp c v) + (1 / 4 : ℝ) • ((τ • rateOp c v) * (τ • rateOp c v))) α)) :
    ∃ τ u', stepper f .ssprk3 t u target = .ok (τ, u') ∧ 0 < τ ∧
      (∀ d, c.scheme.active d = true → τ * ∑ d, |v d| ≤ 4 / 5 * c.h d) ∧
      ∀ i, InCells c.n i → u' i = conserved c.gas.gamma (flowing v P x (act ((1 / 6 : ℝ) • poly3 (τ • rateOp c v)) α i)) := by
  obtain ⟨dt, D, e, hdt, hsmall, hD⟩ := hf α hα h0 t t u hu
  obtain ⟨τ, hτ⟩ : ∃ τ, τ = hitTarget t dt target := ⟨_, rfl⟩
  have hτ0 : 0 < τ ∧ τ ≤ dt := by
    rw [hτ]
    cases target with
    | none => exact ⟨hdt, le_rfl⟩
    | some g =>
      refine ⟨hitTarget_pos hdt (hg g rfl), ?_⟩
      simp only [hitTarget]
      split
      · rename_i hlt; exact hlt.le
      · exact le_rfl
  have hV : 0 ≤ ∑ d, |v d| := Finset.sum_nonneg fun d _ => abs_nonneg _
  have hτV : ∀ d, c.scheme.active d = true → τ * ∑ d, |v d| ≤ 4 / 5 * c.h d :=
    fun d hd => (mul_le_mul_of_nonneg_right hτ0.2 hV).trans (hsmall d hd)
  obtain ⟨n1, n2⟩ := h1 τ hτ0.1.le hτV
  generalize hA : τ • rateOp c v = A at n1 n2 ⊢
  have hact : ∀ β i, act A β i = τ * act (rateOp c v) β i := fun β i => by rw [← hA, act_smul]; rfl
  obtain ⟨dt1, D1, e1, -, -, hD1⟩ := hf _ (act_cyclic _ hα) n1 t (t + τ) (u + τ • D) (fun j hj => by
    rw [Pi.add_apply, Pi.smul_apply, hu j hj, hD j hj, smul_smul, flow_add h, act_add, act_one, Pi.add_apply, hact])
  obtain ⟨dt2, D2, e2, -, -, hD2⟩ := hf _ (act_cyclic _ hα) n2 t (t + 1 / 2 * τ)
    (u + (1 / 4 * τ) • D + (1 / 4 * τ) • D1) (fun j hj => by
    simp only [Pi.add_apply, Pi.smul_apply]
    rw [hu j hj, hD j hj, hD1 j hj, smul_smul, smul_smul, flow_add h, flow_add h]
    congr 2
    rw [← hA]
    simp only [act_add, act_one, act_smul, act_mul, Pi.add_apply, Pi.smul_apply, smul_eq_mul, act_map_add, act_map_smul]
    ring)
  refine ⟨τ, u + ((1 / 6 : ℝ) * τ) • (D + D1 + (4 : ℝ) • D2), by simp only [stepper, ssprk3Stepper, bind, Except.bind, pure,
    Except.pure, e, ← hτ, e1, e2], hτ0.1, hτV,
    fun i hi => ?_⟩
  simp only [Pi.add_apply, Pi.smul_apply]
  rw [hu i hi, hD i hi, hD1 i hi, hD2 i hi, smul_smul, ← add_smul, ← add_smul, smul_smul, flow_add h]
  congr 2
  have e6 : (6 : Ops) = (6 : ℝ) • 1 := by rw [← mul_one (6 : Ops)]; exact natCast_mul_ops 6 1
  have e3 : (3 : Ops) = (3 : ℝ) • 1 := by rw [← mul_one (3 : Ops)]; exact natCast_mul_ops 3 1
  unfold poly3
  rw [e6, e3]
  simp only [act_add, act_one, act_smul, act_mul, pow_succ, pow_zero, one_mul, Pi.add_apply, Pi.smul_apply, smul_eq_mul,
    act_map_add, smul_mul_assoc, act_map_smul]
  rw [← hA]
  simp only [act_smul, act_map_smul, Pi.smul_apply, smul_eq_mul]
  ring

/-- One step of `rk4`. -/
theorem flow_rk4 (P : ℝ) (x : Fin np → ℝ) (α : Ix → ℝ) (hα : Cyclic c.n α) (t : ℝ) (target : Option ℝ)
    (hg : ∀ g, target = some g → t < g)
    (u : Ix → State ℝ np) (hu : ∀ j, InCells c.n j → u j = conserved c.gas.gamma (flowing v P x (α j)))
    (Good : (Ix → ℝ) → Prop) (f : RHS ℝ (Ix → State ℝ np)) (hf : EvalsFlow c v P x Good f)
    (h0 : Good α)
    (h1 : ∀ τ, 0 ≤ τ → (∀ d, c.scheme.active d = true → τ * ∑ d, |v d| ≤ 4 / 5 * c.h d) →
      Good (act (1 + (1 / 2 : ℝ) • (τ • rateOp c v)) α) ∧
      Good (act (1 + (1 / 2 : ℝ) • (τ • rateOp c v) + (1 / 4 : ℝ) • ((τ • rateOp c v) * (τ • rateOp c v))) α) ∧
      Good (act (1 + τ • rateOp c v + (1 / 2 : ℝ) • ((τ • rateOp c v) * (τ • rateOp c v)) +
        (1 / 4 : ℝ) • ((τ • rateOp c v) * ((τ • rateOp c v) * (τ • rateOp c v)))) α)) :
    ∃ τ u', stepper f .rk4 t u target = .ok (τ, u') ∧ 0 < τ ∧
      (∀ d, c.scheme.active d = true → τ * ∑ d, |v d| ≤ 4 / 5 * c.h d) ∧
      ∀ i, InCells c.n i → u' i = conserved c.gas.gamma (flowing v P x (act ((1 / 24 : ℝ) • poly4 (τ • rateOp c v)) α i)) := by
  obtain ⟨dt, D, e, hdt, hsmall, hD⟩ := hf α hα h0 t t u hu
  obtain ⟨τ, hτ⟩ : ∃ τ, τ = hitTarget t dt target := ⟨_, rfl⟩
  have hτ0 : 0 < τ ∧ τ ≤ dt := by
    rw [hτ]
    cases target with
    | none => exact ⟨hdt, le_rfl⟩
    | some g =>
      refine ⟨hitTarget_pos hdt (hg g rfl), ?_⟩
      simp only [hitTarget]
      split
      · rename_i hlt; exact hlt.le
      · exact le_rfl
  have hV : 0 ≤ ∑ d, |v d| := Finset.sum_nonneg fun d _ => abs_nonneg _
  have hτV : ∀ d, c.scheme.active d = true → τ * ∑ d, |v d| ≤ 4 / 5 * c.h d :=
    fun d hd => (mul_le_mul_of_nonneg_right hτ0.2 hV).trans (hsmall d hd)
  obtain ⟨n1, n2, n3⟩ := h1 τ hτ0.1.le hτV
  generalize hA : τ • rateOp c v = A at n1 n2 n3 ⊢
  have hact : ∀ β i, act A β i = τ * act (rateOp c v) β i := fun β i => by rw [← hA, act_smul]; rfl
  obtain ⟨dt1, D1, e1, -, -, hD1⟩ := hf _ (act_cyclic _ hα) n1 t (t + 1 / 2 * τ) (u + (1 / 2 * τ) • D)
    (fun j hj => by
    rw [Pi.add_apply, Pi.smul_apply, hu j hj, hD j hj, smul_smul, flow_add h]
    simp only [act_add, act_one, act_smul, Pi.add_apply, Pi.smul_apply, smul_eq_mul, hact, mul_assoc])
  obtain ⟨dt2, D2, e2, -, -, hD2⟩ := hf _ (act_cyclic _ hα) n2 t (t + 1 / 2 * τ)
    (u + (1 / 2 * τ) • D1) (fun j hj => by
    simp only [Pi.add_apply, Pi.smul_apply]
    rw [hu j hj, hD1 j hj, smul_smul, flow_add h]
    congr 2
    rw [← hA]
    simp only [act_add, act_one, act_smul, act_mul, Pi.add_apply, Pi.smul_apply, smul_eq_mul, act_map_add, act_map_smul]
    ring)
  obtain ⟨dt3, D3, e3, -, -, hD3⟩ := hf _ (act_cyclic _ hα) n3 t (t + τ)
    (u + τ • D2) (fun j hj => by
    simp only [Pi.add_apply, Pi.smul_apply]
    rw [hu j hj, hD2 j hj, smul_smul, flow_add h]
    congr 2
    rw [← hA]
    simp only [act_add, act_one, act_smul, act_mul, Pi.add_apply, Pi.smul_apply, smul_eq_mul, act_map_add, act_map_smul]
    ring)
  refine ⟨τ, u + ((1 / 6 : ℝ) * τ) • (D + (2 : ℝ) • D1 + (2 : ℝ) • D2 + D3), by simp only [stepper, rk4Stepper, bind, Except.bind, pure,
    Except.pure, e, ← hτ, e1, e2, e3], hτ0.1, hτV,
    fun i hi => ?_⟩
  simp only [Pi.add_apply, Pi.smul_apply]
  rw [hu i hi, hD i hi, hD1 i hi, hD2 i hi, hD3 i hi, smul_smul, smul_smul, ← add_smul, ← add_smul, ← add_smul, smul_smul,
    flow_add h]
  congr 2
  have e24 : (24 : Ops) = (24 : ℝ) • 1 := by rw [← mul_one (24 : Ops)]; exact natCast_mul_ops 24 1
  have e12 : (12 : Ops) = (12 : ℝ) • 1 := by rw [← mul_one (12 : Ops)]; exact natCast_mul_ops 12 1
  have e4 : (4 : Ops) = (4 : ℝ) • 1 := by rw [← mul_one (4 : Ops)]; exact natCast_mul_ops 4 1
  unfold poly4
  rw [e24, e12, e4]
  rw [← hA]
  simp only [act_add, act_one, act_smul, act_mul, pow_succ, pow_zero, one_mul, Pi.add_apply, Pi.smul_apply, smul_eq_mul,
    act_map_add, smul_mul_assoc, act_map_smul]
  ring

end

end FVHOE
