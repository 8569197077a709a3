import Verif.Props.C117
import Verif.Props.C08
import Verif.Props.C09_C10
import Verif.Props.C67

/-!
C122: the solution of the semi-discrete equations conserves the totals and keeps the symmetries.
-/

set_option linter.unusedSectionVars false

namespace FVHOE

open Topology Set

variable {np : ℕ}

theorem totals_row (n : Fin 3 → ℕ) (f : Ix → State ℝ np) (v : Var np) :
    cellSum n f v = ∑ a ∈ Finset.range (n 0), ∑ b ∈ Finset.range (n 1), ∑ c ∈ Finset.range (n 2),
      f ![(a : ℤ), (b : ℤ), (c : ℤ)] v := by
  simp only [cellSum, Finset.sum_apply]

/-- The totals change at the rate the right-hand side sums to. -/
theorem SemiDiscrete.total {c : EulerConfig ℝ np} {T : ℝ} {y : ℝ → Ix → State ℝ np} (hy : SemiDiscrete c T y) (t : ℝ)
    (ht : t ∈ Icc 0 T) (f : RHS ℝ (Ix → State ℝ np)) (hf : IsSolverRHS c.scheme f) (s s' : ℝ) :
    ∃ dt k, f s s' (y t) = .ok (dt, k) ∧ ∀ v, HasDerivWithinAt (fun s => cellSum c.n (y s) v) (cellSum c.n k v) (Icc 0 T) t := by
  obtain ⟨dt, k, e, hk⟩ := hy.solves t ht f hf s s'
  refine ⟨dt, k, e, fun v => ?_⟩
  simp only [totals_row]
  exact HasDerivWithinAt.fun_sum fun a _ => HasDerivWithinAt.fun_sum fun b _ => HasDerivWithinAt.fun_sum fun d _ => hk _ v

/-- A total whose rate of change vanishes is constant. -/
theorem SemiDiscrete.constant {c : EulerConfig ℝ np} {T : ℝ} {y : ℝ → Ix → State ℝ np} (hy : SemiDiscrete c T y) (v : Var np)
    (h0 : ∀ t ∈ Icc 0 T, ∀ junk mem dt k, solverRHS c.scheme junk mem 0 0 (y t) = .ok (dt, k) → cellSum c.n k v = 0) (t : ℝ)
    (ht : t ∈ Icc 0 T) : cellSum c.n (y t) v = cellSum c.n (y 0) v := by
  have hd : ∀ s ∈ Icc 0 T, HasDerivWithinAt (fun s => cellSum c.n (y s) v) 0 (Icc 0 T) s := by
    intro s hs
    obtain ⟨dt, k, e, hk⟩ := hy.total s hs (fun s t u => solverRHS c.scheme (fun _ => 0) (fun _ _ => 0) s t u)
      (fun s t u => ⟨_, _, rfl⟩) 0 0
    have := hk v
    rwa [h0 s hs _ _ _ _ e] at this
  exact constant_of_derivWithin_zero (f := fun s => cellSum c.n (y s) v) (fun s hs => (hd s hs).differentiableWithinAt)
    (fun s hs => (hd s (Ico_subset_Icc_self hs)).derivWithin (uniqueDiffOn_Icc (hs.1.trans_lt hs.2) s (Ico_subset_Icc_self hs))) t ht

/-- **C122** On a periodic mesh a solution of the semi-discrete equations keeps the total of every conserved variable. -/
theorem C122_total (c : EulerConfig ℝ np) (hc : PeriodicSetup c.scheme) (hlim : c.limiting = none) {T : ℝ}
    {y : ℝ → Ix → State ℝ np} (hy : SemiDiscrete c T y) (t : ℝ) (ht : t ∈ Icc 0 T) : cellSum c.n (y t) = cellSum c.n (y 0) := by
  funext v
  refine hy.constant v (fun t _ junk mem dt k e => ?_) t ht
  have h0 : cellSum c.n k = 0 := C01_rhs c.scheme hc (by simp [EulerConfig.scheme, hlim]) _ _ _ _ _ _ _ e
  rw [h0]
  rfl

/-- C122 (closed domains). Between reflective walls it keeps the totals of mass, energy and passive mass, and of the momenta along
axes without walls. -/
theorem C122_closed (c : EulerConfig ℝ np) (hc : ClosedBox c) (hlim : c.limiting = none)
    (hw : ∀ d, c.scheme.active d = true → fluxWidth c.scheme c.p d ≤ c.n d) {T : ℝ} {y : ℝ → Ix → State ℝ np}
    (hy : SemiDiscrete c T y) (hr : ∀ t ∈ Icc 0 T, WallSolver c c.p none (y t)) (v : Var np)
    (hv : ∀ d, c.walled d = true → v ≠ .mom d) (t : ℝ) (ht : t ∈ Icc 0 T) : cellSum c.n (y t) v = cellSum c.n (y 0) v :=
  hy.constant v (fun t ht _ _ _ _ e => C67_rhs c hc hlim hw _ _ _ _ _ (hr t ht) _ _ e v hv) t ht

/-- Two solutions of an ordinary differential equation with a right-hand side that is Lipschitz near one of them. -/
theorem ode_unique {E : Type*} [NormedAddCommGroup E] [NormedSpace ℝ E] {f : E → E} {x w : ℝ → E} {T : ℝ}
    (hf : ∀ t ∈ Icc 0 T, LipAt f (x t)) (hx : ∀ t ∈ Icc 0 T, HasDerivWithinAt x (f (x t)) (Icc 0 T) t)
    (hw : ∀ t ∈ Icc 0 T, HasDerivWithinAt w (f (w t)) (Icc 0 T) t) (h0 : x 0 = w 0) (t : ℝ) (ht : t ∈ Icc 0 T) : x t = w t := by
  have cx : ContinuousOn x (Icc 0 T) := fun t ht => (hx t ht).continuousWithinAt
  have cw : ContinuousOn w (Icc 0 T) := fun t ht => (hw t ht).continuousWithinAt
  have hcl : IsClosed ({s | x s = w s} ∩ Icc 0 T) := by
    have := (cx.prodMk cw).preimage_isClosed_of_isClosed isClosed_Icc isClosed_diagonal
    rwa [inter_comm] at this
  refine hcl.Icc_subset_of_forall_mem_nhdsWithin (a := 0) (b := T) h0 ?_ ht
  rintro s ⟨hs, hs0, hsT⟩
  have hsI : s ∈ Icc 0 T := ⟨hs0, hsT.le⟩
  obtain ⟨L, U, hU, hL⟩ := hf s hsI
  have hxU : ∀ᶠ r in 𝓝[Icc 0 T] s, x r ∈ U := cx s hsI hU
  have hwU : ∀ᶠ r in 𝓝[Icc 0 T] s, w r ∈ U := cw s hsI (by rw [← show x s = w s from hs]; exact hU)
  obtain ⟨ε, hε, hb⟩ := Metric.mem_nhdsWithin_iff.1 (hxU.and hwU)
  set b := min T (s + ε / 2) with hbd
  have hsb : s < b := lt_min hsT (by linarith)
  have hin : ∀ r ∈ Icc s b, r ∈ Icc 0 T ∧ x r ∈ U ∧ w r ∈ U := by
    intro r hr
    have hrI : r ∈ Icc 0 T := ⟨hs0.trans hr.1, hr.2.trans (min_le_left _ _)⟩
    refine ⟨hrI, hb ⟨?_, hrI⟩⟩
    rw [Metric.mem_ball, Real.dist_eq, abs_of_nonneg (by linarith [hr.1])]
    linarith [hr.2.trans (min_le_right _ _)]
  have hsub : Icc s b ⊆ Icc 0 T := fun r hr => (hin r hr).1
  have right : ∀ {g : ℝ → E} {g' : E} {r : ℝ}, r ∈ Ico s b → HasDerivWithinAt g g' (Icc 0 T) r → HasDerivWithinAt g g' (Ici r) r := by
    intro g g' r hr h
    have hm : Icc r b ∈ 𝓝[≥] r := Icc_mem_nhdsGE hr.2
    exact h.mono_of_mem_nhdsWithin (Filter.mem_of_superset hm fun q hq => hsub ⟨hr.1.trans hq.1, hq.2⟩)
  have he := ODE_solution_unique_of_mem_Icc_right (v := fun _ => f) (s := fun _ => U) (K := L) (a := s) (b := b) (f := x) (g := w)
    (fun _ _ => hL) (cx.mono hsub) (fun r hr => right hr (hx r (hsub (Ico_subset_Icc_self hr))))
    (fun r hr => (hin r (Ico_subset_Icc_self hr)).2.1) (cw.mono hsub)
    (fun r hr => right hr (hw r (hsub (Ico_subset_Icc_self hr)))) (fun r hr => (hin r (Ico_subset_Icc_self hr)).2.2) hs
  refine Filter.mem_of_superset (Ioo_mem_nhdsGT hsb) fun r hr => ?_
  exact he (Ioo_subset_Icc_self hr)

/-- The right-hand side depends on the values in the cells only. -/
theorem SmoothSetup.slopes_cells {c : EulerConfig ℝ np} (h : SmoothSetup c) {u v : Ix → State ℝ np}
    (huv : ∀ i, InCells c.n i → u i = v i) : slopes c u = slopes c v := by
  have hin : ∀ d, c.scheme.active d = false → fluxWidth c.scheme c.p d = 0 := fun d hd => by
    have : c.p d = 0 := c.scheme.inactive_p d hd
    unfold fluxWidth
    simp [hd, this, ceilHalf]
  obtain ⟨D, hD, -⟩ := h.rhs
  obtain ⟨dt, -, e⟩ := rhs_spec c.scheme h.limiting h.degree h.cells 0 _ _ (h.sides.sides h.cells hin 0) (fun _ => 0) (fun _ _ => 0) 0 u v
    huv
  rw [hD] at e
  exact congrArg Prod.snd (Except.ok.inj e)

/-- A motion with the initial values of a solution and the derivatives the right-hand side returns is the solution. -/
theorem SemiDiscrete.only_one {c : EulerConfig ℝ np} (h : SmoothSetup c) {T : ℝ} {z w : ℝ → Ix → State ℝ np} (hz : SemiDiscrete c T z)
    (hw : ∀ t ∈ Icc 0 T, ∀ i, InCells c.n i → ∀ v, HasDerivWithinAt (fun s => w s i v) (FVHOE.slopes c (w t) i v) (Icc 0 T) t)
    (h0 : ∀ i, InCells c.n i → z 0 i = w 0 i) (t : ℝ) (ht : t ∈ Icc 0 T) (i : Ix) (hi : InCells c.n i) : z t i = w t i := by
  have key := ode_unique (f := cellSlopes c (z 0)) (x := fun s => inCells c.n (z s)) (w := fun s => inCells c.n (w s)) (T := T)
    (fun s hs => h.slopes_lip (hz.cells h s hs).2) (fun s hs => (hz.cells h s hs).1) (fun s hs => ?_)
    (funext fun j => h0 j.1 j.2) t ht
  · exact congrFun key ⟨i, hi⟩
  · refine hasDerivWithinAt_pi.2 fun j => hasDerivWithinAt_pi.2 fun v => ?_
    have := hw s hs j.1 j.2 v
    have e : FVHOE.slopes c (glue c.n (z 0) (inCells c.n (w s))) = FVHOE.slopes c (w s) := h.slopes_cells fun q hq => by
      unfold glue inCells
      rw [dif_pos hq]
    unfold cellSlopes
    rw [e]
    exact this

/-- C122 (shifts). On a periodic mesh the solution from shifted data is the shifted solution. -/
theorem C122_shift (c : EulerConfig ℝ np) (h : SmoothSetup c) (hc : PeriodicSetup c.scheme) (s : Ix) {T : ℝ}
    {y z : ℝ → Ix → State ℝ np} (hy : SemiDiscrete c T y) (hz : SemiDiscrete c T z)
    (h0 : ∀ i, InCells c.n i → z 0 i = y 0 fun d => (i d + s d) % c.n d) (t : ℝ) (ht : t ∈ Icc 0 T) (i : Ix) (hi : InCells c.n i) :
    z t i = y t fun d => (i d + s d) % c.n d := by
  refine hz.only_one h (w := fun t i => y t fun d => (i d + s d) % c.n d) (fun r hr j hj v => ?_) h0 t ht i hi
  obtain ⟨D, hD, -⟩ := h.rhs
  obtain ⟨dt, k, k', e, e', hk⟩ := C08_rhs c.scheme hc h.limiting s (fun _ => 0) (fun _ => 0) (fun _ _ => 0) (fun _ _ => 0) 0 0 (y r)
    (fun i => y r fun d => (i d + s d) % c.n d) fun _ _ => rfl
  rw [hD] at e e'
  obtain rfl : FVHOE.slopes c (y r) = k := congrArg Prod.snd (Except.ok.inj e)
  obtain rfl : FVHOE.slopes c _ = k' := congrArg Prod.snd (Except.ok.inj e')
  rw [hk j hj]
  exact hy.slopes h r hr _ v

/-- The states met by a solution are those at which the mirror images of fluxes are fluxes. -/
theorem SemiDiscrete.reversible {c : EulerConfig ℝ np} (h : SmoothSetup c) {T : ℝ} {y : ℝ → Ix → State ℝ np} (hy : SemiDiscrete c T y)
    (ho : ∀ i, ¬InCells c.n i → y 0 i = 0) (σ : Equiv.Perm (Fin 3)) (fl : Fin 3 → Bool) (t : ℝ) (ht : t ∈ Icc 0 T) :
    Reversible fl σ c (y t) := by
  intro d _ hd
  have hr := h.riem
  cases hm : c.riem with
  | llf => exact .inl rfl
  | advectionUpwind => exact absurd hm hr
  | hllc =>
    refine .inr ⟨rfl, h.gas, fun i j hi hj => ?_⟩
    have hcl : clip c.n (y t) = y t := by
      funext q
      unfold clip
      split_ifs with hq
      · rfl
      · rw [hy.outside h t ht q hq, ho q hq]
    rw [hcl]
    have := (hy.sturdy t ht).faces (σ d) hd j fun e => ?_
    · exact ⟨⟨this.1.1, this.1.2.le⟩, ⟨this.2.1, this.2.2.le⟩⟩
    · have h1 := hi e
      unfold midMargin
      by_cases he : e = σ d
      · subst he
        rw [if_pos rfl, hj.1]
        simpa using h1
      · rw [if_neg he]
        have h2 := abs_le.1 (hj.2 e he)
        constructor <;> linarith [h2.1, h2.2, h1.1, h1.2]

/-- C122 (axes). The solution of the problem with axes exchanged and reversed is the solution with axes exchanged and reversed. -/
theorem C122_turn (σ : Equiv.Perm (Fin 3)) (fl : Fin 3 → Bool) (c c' : EulerConfig ℝ np) (h : SmoothSetup c) (h' : SmoothSetup c')
    (hc : Turned σ fl c c') {T : ℝ} {y z : ℝ → Ix → State ℝ np} (hy : SemiDiscrete c T y) (hz : SemiDiscrete c' T z)
    (ho : ∀ i, ¬InCells c.n i → y 0 i = 0)
    (h0 : ∀ i, InCells c'.n i → z 0 i = turnState ℝ np σ fl (y 0 (tau σ fl (lastCell c.n) i)))
    (t : ℝ) (ht : t ∈ Icc 0 T) (i : Ix) (hi : InCells c'.n i) : z t i = turnState ℝ np σ fl (y t (tau σ fl (lastCell c.n) i)) := by
  refine hz.only_one h' (w := fun t i => turnState ℝ np σ fl (y t (tau σ fl (lastCell c.n) i))) (fun r hr j hj v => ?_) h0 t ht i hi
  obtain ⟨D, hD, -⟩ := h.rhs
  obtain ⟨D', hD', -⟩ := h'.rhs
  obtain ⟨dt, k, k', e, e', hk⟩ := turn_rhs hc h.limiting h'.limiting h.degree h.cells h.sides h'.sides (fun _ => 0) (fun _ => 0)
    (fun _ _ => 0) (fun _ _ => 0) 0 0 (y r) (fun i => turnState ℝ np σ fl (y r (tau σ fl (lastCell c.n) i))) (fun _ _ => rfl)
    (hy.reversible h ho σ fl r hr)
  rw [hD] at e
  rw [hD'] at e'
  obtain rfl : FVHOE.slopes c (y r) = k := congrArg Prod.snd (Except.ok.inj e)
  obtain rfl : FVHOE.slopes c' _ = k' := congrArg Prod.snd (Except.ok.inj e')
  rw [hk j hj]
  have q := fun v => hy.slopes h r hr (tau σ fl (lastCell c.n) j) v
  cases v with
  | rho => exact q _
  | en => exact q _
  | ps k => exact q _
  | mom d =>
    simp only [turn_mom]
    split_ifs
    · exact (q _).neg
    · exact q _

/-- C122 (mirror images). The solution from mirrored data, with the boundary conditions at the two ends exchanged, is the mirrored solution. -/
theorem C122_mirror (c : EulerConfig ℝ np) (d : Fin 3) (h : SmoothSetup c) (h' : SmoothSetup (c.mirror d)) {T : ℝ}
    {y z : ℝ → Ix → State ℝ np} (hy : SemiDiscrete c T y) (hz : SemiDiscrete (c.mirror d) T z)
    (ho : ∀ i, ¬InCells c.n i → y 0 i = 0) (h0 : ∀ i, InCells c.n i → z 0 i = mirrorState d (y 0 (mirrorCell c.n d i)))
    (t : ℝ) (ht : t ∈ Icc 0 T) (i : Ix) (hi : InCells c.n i) : z t i = mirrorState d (y t (mirrorCell c.n d i)) := by
  have key : ∀ u v : Ix → State ℝ np, (u, v) ∈ turned ℝ np 1 (only d) c.n ↔ (u, v) ∈ mirrorPair ℝ np c.n d := fun u v => by
    rw [turned_mirrorPair]
  exact (key (y t) (z t)).1 (fun i hi => C122_turn 1 (only d) c (c.mirror d) h h' (mirror_turned c d) hy hz ho
    ((key (y 0) (z 0)).2 h0) t ht i hi) i hi

theorem SemiDiscrete.mono {c : EulerConfig ℝ np} {T T' : ℝ} {y : ℝ → Ix → State ℝ np} (hy : SemiDiscrete c T' y) (h : T ≤ T') :
    SemiDiscrete c T y where
  sturdy t ht := hy.sturdy t ⟨ht.1, ht.2.trans h⟩
  solves t ht f hf s s' := by
    obtain ⟨dt, k, e, hk⟩ := hy.solves t ⟨ht.1, ht.2.trans h⟩ f hf s s'
    exact ⟨dt, k, e, fun i v => (hk i v).mono (Icc_subset_Icc_right h)⟩

theorem cubicTube_periodic : PeriodicSetup cubicTube.scheme where
  cells := by decide
  degree := by decide
  periodic := fun _ _ _ => rfl
  wide := by decide

/-- Air at rest, denser by `a` in cell `j`. -/
noncomputable def denser (j : Ix) (a : ℝ) : Ix → State ℝ 0 := fun i =>
  if InCells cubicTube.n i then (if i = j then Function.update stillAir .rho (1 + a) else stillAir) else 0

theorem bump_near {c : EulerConfig ℝ 0} (h : SmoothSetup c) {u₀ : Ix → State ℝ 0} (hu : Sturdy c (glue c.n u₀ fun _ => stillAir)) :
    ∃ a, 0 < a ∧ ∀ j, Sturdy c (glue c.n u₀ fun i => if i.1 = j then Function.update stillAir .rho (1 + a) else stillAir) := by
  obtain ⟨ε, hε, hb⟩ := Metric.mem_nhds_iff.1 (h.sturdy_near hu)
  refine ⟨ε / 2, by linarith, fun j => hb (a := fun i => if i.1 = j then Function.update stillAir .rho (1 + ε / 2) else stillAir) ?_⟩
  rw [Metric.mem_ball, dist_pi_lt_iff hε]
  intro i
  split_ifs
  · rw [dist_pi_lt_iff hε]
    intro v
    by_cases hv : v = .rho
    · subst hv
      rw [Function.update_self, Real.dist_eq]
      simp only [stillAir]
      rw [add_sub_cancel_left, abs_of_pos (by linarith)]
      linarith
    · rw [Function.update_of_ne hv, dist_self]
      exact hε
  · rw [dist_self]
    exact hε

theorem denser_sturdy : ∃ a, 0 < a ∧ ∀ j, Sturdy cubicTube (denser j a) := by
  have hp : padded cubicTube.scheme (glue cubicTube.n (fun _ => 0) fun _ => stillAir) = padded cubicTube.scheme fun _ => stillAir := by
    have hg : ∀ s, cubicTube.scheme.ghost s = fun _ => .wrap := fun s => by
      funext d
      unfold Scheme.ghost
      split_ifs
      · rfl
      · rfl
    have hc : ∀ d, 1 ≤ cubicTube.scheme.n d := cubicTube_smooth.cells
    unfold padded
    rw [hg, hg, extAll_wrap _ hc, extAll_wrap _ hc]
    funext i
    unfold glue
    refine dif_pos fun d => ?_
    have h1 : (0 : ℤ) < cubicTube.scheme.n d := by exact_mod_cast hc d
    exact ⟨Int.emod_nonneg _ h1.ne', Int.emod_lt_of_pos _ h1⟩
  have hu : Sturdy cubicTube (glue cubicTube.n (fun _ => 0) fun _ => stillAir) := by
    obtain ⟨h1, h2, h3⟩ := stillAir_sturdy
    refine ⟨?_, ?_, ?_⟩
    · rwa [hp]
    · rwa [hp]
    · rwa [hp]
  obtain ⟨a, ha, hs⟩ := bump_near cubicTube_smooth hu
  refine ⟨a, ha, fun j => ?_⟩
  have e : denser j a = glue cubicTube.n (fun _ => 0) fun i => if i.1 = j then Function.update stillAir .rho (1 + a) else stillAir := by
    funext i
    unfold denser glue
    by_cases hi : InCells cubicTube.n i
    · rw [if_pos hi, dif_pos hi]
    · rw [if_neg hi, dif_neg hi]
  rw [e]
  exact hs j

/-- Denser air in the first cell and denser air in the last cell of a periodic tube: mirror images, and shifted by one cell. -/
example : ∃ T y z, 0 < T ∧ SemiDiscrete cubicTube T y ∧ SemiDiscrete (cubicTube.mirror 0) T z ∧ y 0 0 .rho ≠ y 0 (Pi.single 0 1) .rho ∧
    (∀ i, ¬InCells cubicTube.n i → y 0 i = 0) ∧
    (∀ i, InCells cubicTube.n i → z 0 i = mirrorState 0 (y 0 (mirrorCell cubicTube.n 0 i))) ∧
    ∀ i, InCells cubicTube.n i → z 0 i = y 0 fun d => (i d + (Pi.single 0 1 : Ix) d) % cubicTube.n d := by
  obtain ⟨a, ha, hs⟩ := denser_sturdy
  obtain ⟨T, hT, y, y0, hy⟩ := C117_exists _ cubicTube_smooth _ (hs 0)
  obtain ⟨T', hT', z, z0, hz⟩ := C117_exists _ cubicTube_smooth _ (hs (Pi.single 0 19))
  refine ⟨min T T', y, z, lt_min hT hT', hy.mono (min_le_left _ _), hz.mono (min_le_right _ _), ?_, ?_, ?_, ?_⟩
  · have h0 : InCells cubicTube.n 0 := by decide
    have h1 : InCells cubicTube.n (Pi.single 0 1) := by decide
    have hne : (Pi.single 0 1 : Ix) ≠ 0 := by decide
    rw [y0]
    unfold denser
    rw [if_pos h0, if_pos rfl, if_pos h1, if_neg hne, Function.update_self]
    simp only [stillAir]
    linarith
  · intro i hi
    rw [y0]
    exact if_neg hi
  · intro i hi
    have hm : InCells cubicTube.n (mirrorCell cubicTube.n 0 i) := by
      intro d
      have := hi d
      unfold mirrorCell
      by_cases hd : d = 0
      · subst hd
        rw [Function.update_self]
        omega
      · rw [Function.update_of_ne hd]
        exact this
    have he : mirrorCell cubicTube.n 0 i = 0 ↔ i = Pi.single 0 19 := by
      unfold mirrorCell
      constructor
      · intro h
        funext d
        by_cases hd : d = 0
        · subst hd
          have := congrFun h 0
          rw [Function.update_self] at this
          simp [cubicTube] at this ⊢
          omega
        · have := congrFun h d
          rw [Function.update_of_ne hd] at this
          rw [this, Pi.single_eq_of_ne hd]
          rfl
      · rintro rfl
        funext d
        by_cases hd : d = 0
        · subst hd
          simp [cubicTube]
        · rw [Function.update_of_ne hd, Pi.single_eq_of_ne hd]
          rfl
    have hst : mirrorState 0 stillAir = stillAir := by
      funext v
      cases v <;> simp [mirrorState, stillAir]
    have hsu : mirrorState 0 (Function.update stillAir .rho (1 + a)) = Function.update stillAir .rho (1 + a) := by
      funext v
      cases v <;> simp [mirrorState, stillAir]
    rw [y0, z0]
    unfold denser
    rw [if_pos hi, if_pos hm]
    simp only [he]
    split_ifs
    · exact hsu.symm
    · exact hst.symm
  · intro i hi
    have hm : InCells cubicTube.n fun d => (i d + (Pi.single 0 1 : Ix) d) % cubicTube.n d := fun d => by
      have h1 : (0 : ℤ) < cubicTube.n d := by exact_mod_cast cubicTube_smooth.cells d
      exact ⟨Int.emod_nonneg _ h1.ne', Int.emod_lt_of_pos _ h1⟩
    have he : (fun d => (i d + (Pi.single 0 1 : Ix) d) % (cubicTube.n d : ℤ)) = 0 ↔ i = Pi.single 0 19 := by
      have b0 := hi 0
      have b1 := hi 1
      have b2 := hi 2
      simp [cubicTube] at b0 b1 b2
      constructor
      · intro h
        have := congrFun h 0
        simp [cubicTube] at this
        funext d
        match d with
        | 0 => simp; omega
        | 1 => simp; omega
        | 2 => simp; omega
      · rintro rfl
        funext d
        match d with
        | 0 => simp [cubicTube]
        | 1 => simp [cubicTube]
        | 2 => simp [cubicTube]
    rw [y0, z0]
    unfold denser
    rw [if_pos hi, if_pos hm]
    simp only [he]

/-- The tube of `cubicTube` between two walls, with llf. -/
noncomputable def shutTube : EulerConfig ℝ 0 := { cubicTube with riem := .llf, bc := ⟨fun _ _ => .reflective, fun _ _ => .other, none⟩ }

theorem shutTube_smooth : SmoothSetup shutTube where
  limiting := rfl
  step := .inl ⟨1, rfl, one_pos⟩
  degree := by decide
  cells := by decide
  spacing := cubicTube_smooth.spacing
  gas := cubicTube_smooth.gas
  riem := by decide
  sides := by
    have e : fluxWidth shutTube.scheme shutTube.p = ![8, 0, 0] := by decide
    rw [e]
    intro d _
    refine ⟨fun s => ?_, ?_⟩
    · cases s <;> revert d <;> decide
    · revert d; decide
  extended := by decide

/-- Denser air in the first cell of a tube between walls. -/
example : ∃ T y, 0 < T ∧ SemiDiscrete shutTube T y ∧ y 0 0 .rho ≠ y 0 (Pi.single 0 1) .rho ∧ ClosedBox shutTube ∧
    (∀ d, shutTube.scheme.active d = true → fluxWidth shutTube.scheme shutTube.p d ≤ shutTube.n d) ∧
    ∀ t, WallSolver shutTube shutTube.p none (y t) := by
  have hkeep : ∀ s e, (shutTube.scheme.ghost s e).Keeps fun x => x = stillAir := by
    intro s e
    unfold Scheme.ghost
    split_ifs
    · intro x hx
      subst hx
      funext v
      show negateMom e stillAir v = stillAir v
      cases v <;> simp [negateMom, stillAir]
    · trivial
  have hp : padded shutTube.scheme (fun _ => stillAir) = padded cubicTube.scheme fun _ => stillAir := by
    have h1 : padded shutTube.scheme (fun _ => stillAir) = fun _ => stillAir := funext fun i =>
      extAll_keeps shutTube.n _ _ (fun x => x = stillAir) (hkeep .l) (hkeep .r) _ (fun _ => rfl) i
    have h2 : padded cubicTube.scheme (fun _ => stillAir) = fun _ => stillAir := funext fun i =>
      extAll_keeps cubicTube.n _ _ (fun x => x = stillAir) (fun e => by unfold Scheme.ghost; split_ifs <;> trivial)
        (fun e => by unfold Scheme.ghost; split_ifs <;> trivial) _ (fun _ => rfl) i
    rw [h1, h2]
  have hu : Sturdy shutTube fun _ => stillAir := by
    obtain ⟨h1, h2, h3⟩ := stillAir_sturdy
    rw [← hp] at h1 h2 h3
    exact ⟨h1, h2, h3⟩
  have hg : glue shutTube.n (fun _ => stillAir) (fun _ => stillAir) = fun _ => stillAir := by
    funext i
    unfold glue
    split_ifs <;> rfl
  obtain ⟨a, ha, hs⟩ := bump_near shutTube_smooth (u₀ := fun _ => stillAir) (by rw [hg]; exact hu)
  obtain ⟨T, hT, y, y0, hy⟩ := C117_exists _ shutTube_smooth _ (hs 0)
  refine ⟨T, y, hT, hy, ?_, ⟨by decide, by decide, fun _ _ => .inl fun _ => rfl⟩, by decide, fun _ => .inl rfl⟩
  have h0 : InCells shutTube.n 0 := by decide
  have h1 : InCells shutTube.n (Pi.single 0 1) := by decide
  have hne : (Pi.single 0 1 : Ix) ≠ 0 := by decide
  rw [y0]
  unfold glue
  rw [dif_pos h0, dif_pos h1]
  beta_reduce
  rw [if_pos rfl, if_neg hne, Function.update_self]
  simp only [stillAir]
  linarith

end FVHOE
