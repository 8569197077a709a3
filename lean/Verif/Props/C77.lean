import Verif.Proofs.Contact
import Verif.Proofs.FirstOrder
import Verif.Props.C75
import Verif.Props.C12_C57

/-!
C77: stationary contacts and shear layers.
-/

set_option linter.unusedSectionVars false

namespace FVHOE

variable {K : Type} [Field K] [LinearOrder K] [IsStrictOrderedRing K] {np : ℕ}

/-- Gas of positive density and pressure `P`. -/
def AtPressure (gamma P : K) (u : State K np) : Prop :=
  0 < u .rho ∧ u .en = P / (gamma - 1) + (u (.mom 0) ^ 2 + u (.mom 1) ^ 2 + u (.mom 2) ^ 2) / (2 * u .rho)

/-- A layered flow at uniform pressure: in every direction of the mesh, either nothing varies along it (and it is
not closed by walls), or nothing moves along it. Density, scalars and the velocity along the layers are arbitrary. -/
def Layers (c : EulerConfig K np) (P : K) (u : Ix → State K np) : Prop :=
  (∀ i, InCells c.n i → AtPressure c.gas.gamma P (u i)) ∧
  ∀ d, c.n d ≠ 1 →
    (∀ i, InCells c.n i → u i (.mom d) = 0) ∨
    ((∀ s, c.bc.kind d s ≠ .reflective) ∧ ∀ i, InCells c.n i → u i = u (Function.update i d 0))

theorem AtPressure.prim {gamma P : K} (hg : gamma ≠ 1) {u : State K np} (h : AtPressure gamma P u) :
    computePrimitives gamma u .en = P := by
  obtain ⟨h1, h2⟩ := h
  have : gamma - 1 ≠ 0 := sub_ne_zero.2 hg
  simp only [computePrimitives, sum3]
  rw [h2]
  field_simp
  ring

theorem AtPressure.negate {gamma P : K} {u : State K np} (d : Fin 3) (h : AtPressure gamma P u) :
    AtPressure gamma P (negateMom d u) := by
  obtain ⟨h1, h2⟩ := h
  refine ⟨by simpa [negateMom] using h1, ?_⟩
  have sq : ∀ e, negateMom d u (.mom e) ^ 2 = u (.mom e) ^ 2 := by
    intro e
    unfold negateMom
    split_ifs <;> ring
  rw [sq, sq, sq]
  simpa [negateMom] using h2

/-- The flux between two states at the same pressure without motion across the face is the pressure. -/
theorem riemann_still (G : Gas K) (k : RiemannKind) (hk : KeepsContacts k) (hq : IsSqrt G.sqrt)
    (hfl : 0 < G.csqFloor) (d : Fin 3) (P : K) (wl wr : State K np) (hl : wl (.mom d) = 0) (hr : wr (.mom d) = 0)
    (pl : wl .en = P) (pr : wr .en = P) (rl : 0 < wl .rho) (rr : 0 < wr .rho) :
    riemann k G d wl wr = fun i => if i = .mom d ∧ k = .hllc then P else 0 := by
  have cl := (soundSpeed_spec G hq hfl wl).1
  have cr := (soundSpeed_spec G hq hfl wr).1
  rcases hk with rfl | rfl
  · obtain ⟨cm, hcm⟩ : ∃ cm, cm = max (soundSpeed G wl) (soundSpeed G wr) := ⟨_, rfl⟩
    have hc : 0 < cm := by rw [hcm]; exact lt_max_of_lt_left cl
    have h1 : (hllcWaves G d wl wr).Sl = -cm := by simp [hllcWaves, hl, hr, hcm]
    have h2 : (hllcWaves G d wl wr).Sr = cm := by simp [hllcWaves, hl, hr, hcm]
    have h3 : (hllcWaves G d wl wr).vStar = 0 := by simp [hllcWaves, hl, hr, pl, pr]
    have h4 : (hllcWaves G d wl wr).PStar = P := by
      simp only [hllcWaves, hl, hr, pl, pr, min_self, max_self, ← hcm]
      have : wl .rho * (0 - (0 - cm)) + wr .rho * (0 + cm - 0) ≠ 0 := by
        have := mul_pos rl hc
        have := mul_pos rr hc
        intro h
        linarith
      field_simp
      ring
    have smp : ∀ l sl sr r : K, hllcSample (hllcWaves G d wl wr) l sl sr r = sr := by
      intro l sl sr r
      unfold hllcSample
      rw [h1, h2, h3, if_neg (by linarith), if_neg (by simp), if_pos hc]
    funext i
    simp only [riemann, hllc, smp, h3, h4]
    cases i with
    | rho => simp
    | mom e =>
      by_cases he : e = d
      · subst he; simp
      · simp [he]
    | en => simp
    | ps j => simp
  · funext i
    simp [riemann, advectionUpwind, hl]

/-- **C77** (one evaluation) At first order with the hllc solver (or the upwind solver) the rate of change of a
layered flow at uniform pressure is exactly zero in every cell: contacts and shear layers at rest stay as they are, in any
number of dimensions and with any plain sides. -/
theorem C77_rhs (c : EulerConfig K np) (h : FirstOrder c) (hk : KeepsContacts c.riem) (P : K)
    (junk : ℕ → Ix → State K np) (mem : Fin 3 → Ix → State K np) (t t' : K) (u : Ix → State K np) (hu : Layers c P u) :
    ∃ dt D, solverRHS c.scheme junk mem t t' u = .ok (dt, D) ∧ 0 < dt ∧ ∀ i, InCells c.n i → D i = 0 := by
  have hg : c.gas.gamma ≠ 1 := h.gas.gamma.ne'
  obtain ⟨dt, D, e, hdt, hD⟩ := h.rhs (fun v => AtPressure c.gas.gamma P v ∧
      ∀ d, (∀ i, InCells c.n i → u i (.mom d) = 0) → v (.mom d) = 0)
    (fun d v hv => ⟨hv.1.negate d, fun x hx => by
      unfold negateMom
      split_ifs <;> simp [hv.2 x hx]⟩) junk mem t t' u
    (fun i hi => ⟨hu.1 i hi, fun d hd => hd i hi⟩)
  refine ⟨dt, D, e, hdt, fun i hi => ?_⟩
  obtain ⟨h1, -, h3⟩ := hD i hi
  rw [h3]
  refine Finset.sum_eq_zero fun d _ => ?_
  by_cases hd : c.n d ≠ 1
  · rw [if_pos hd]
    have a0 := h1 d hd i (Or.inl rfl)
    have a1 := h1 d hd (i - Pi.single d 1) (Or.inr (Or.inl rfl))
    have a2 := h1 d hd (i + Pi.single d 1) (Or.inr (Or.inr rfl))
    rcases hu.2 d hd with hz | ⟨hw, hc⟩
    · have still : ∀ v : State K np, (AtPressure c.gas.gamma P v ∧
          ∀ d, (∀ i, InCells c.n i → u i (.mom d) = 0) → v (.mom d) = 0) →
          computePrimitives c.gas.gamma v (.mom d) = 0 ∧ computePrimitives c.gas.gamma v .en = P ∧
          0 < computePrimitives c.gas.gamma v .rho := by
        intro v hv
        refine ⟨?_, hv.1.prim hg, hv.1.1⟩
        show v (.mom d) / v .rho = 0
        rw [hv.2 d hz, zero_div]
      have s0 := still _ a0.1
      have s1 := still _ a1.1
      have s2 := still _ a2.1
      rw [riemann_still c.gas c.riem hk h.gas.sqrt h.gas.floor d P _ _ s0.1 s2.1 s0.2.1 s2.2.1 s0.2.2 s2.2.2,
        riemann_still c.gas c.riem hk h.gas.sqrt h.gas.floor d P _ _ s1.1 s0.1 s1.2.1 s0.2.1 s1.2.2 s0.2.2,
        sub_self, smul_zero]
    · have ha := (h.active d).2 hd
      have hS : DropSetup c.scheme d := ⟨fun e => (h.degree e).le.trans (by omega), h.cells, h.limiting, h.sides,
        fun _ s => hw s⟩
      have sides := h.sides.sides h.cells (fun x hx => DropSetup.inactive x hx rfl) t
      obtain ⟨U, hU⟩ : ∃ U : Ix → State K np, U = fun i => u (Function.update i d 0) := ⟨_, rfl⟩
      have hUc : ConstAlong d U := by
        intro i k
        rw [hU]
        beta_reduce
        congr 1
        funext x
        by_cases h : x = d
        · subst h; simp
        · simp [h]
      have cst := (extAll_drop hUc c.scheme.n c.scheme.n (c.scheme.ghost .l) (c.scheme.ghost .r) (c.scheme.ghost .l)
        (c.scheme.ghost .r) ⟨hS.passes _, hS.passes _, hS.passes _, hS.passes _⟩
        (fun x _ => ⟨rfl, rfl, rfl, c.scheme.ghost_moves _ _, c.scheme.ghost_moves _ _⟩)).2
      have agree : ∀ j : Ix, (∀ e, -(fluxWidth c.scheme c.p e : ℤ) ≤ j e ∧ j e < c.n e + fluxWidth c.scheme c.p e) →
          padded c.scheme u j = extAll c.scheme.n (c.scheme.ghost .l) (c.scheme.ghost .r) U j := fun j hj =>
        extAll_congr c.scheme.bc c.scheme.negate c.scheme.n (fluxWidth c.scheme c.p) t _ _
          (fun d => (sides d).1) (fun d => (sides d).2) u U (fun i hi => by rw [hU]; exact hc i hi) j hj
      have near : ∀ k : ℤ, -1 ≤ k → k ≤ 1 → padded c.scheme u (i + Pi.single d k) = padded c.scheme u i := by
        intro k hk1 hk2
        rw [agree, agree, cst]
        · intro e
          have := hi e
          rw [h.width]
          split_ifs <;> push_cast <;> omega
        · intro e
          have := hi e
          rw [h.width]
          by_cases he : e = d
          · subst he
            rw [if_pos ha]
            simp only [Pi.add_apply, Pi.single_eq_same]
            push_cast
            omega
          · simp only [Pi.add_apply, Pi.single_eq_of_ne he, add_zero]
            split_ifs <;> push_cast <;> omega
      have n1 := near 1 (by omega) le_rfl
      have n2 := near (-1) le_rfl (by omega)
      rw [show i + Pi.single d (-1 : ℤ) = i - Pi.single d 1 by rw [Pi.single_neg, sub_eq_add_neg]] at n2
      rw [n1, n2, sub_self, smul_zero]
  · rw [if_neg hd]

/-- **C77** Through a whole run the layered flow keeps its initial values in every cell, exactly: for each of the
integrators, any arguments of `integrate`, whatever the uninitialised memory holds. -/
theorem C77_run (c : EulerConfig K np) (h : FirstOrder c) (hk : KeepsContacts c.riem) (P : K)
    (f : RHS K (Ix → State K np)) (hf : IsSolverRHS c.scheme f) {Sn : Type} (m : Integrator)
    (mk : ODEState K (Ix → State K np) Sn → Sn) (fuel : ℕ) (a : IntegrateArgs K Sn)
    (st : ODEState K (Ix → State K np) Sn) (h0 : Layers c P st.u) (out : Outcome K (Ix → State K np) Sn)
    (hrun : st.integrate (stepper f m) mk fuel a = some out) (i : Ix) (hi : InCells c.n i) : out.1.u i = st.u i := by
  have key := integrate_coset f (cellsIn c.n (⊥ : Submodule K (State K np))) st.u ?_ m mk fuel a st out
    (by rw [sub_self]; exact Submodule.zero_mem _) hrun
  · have := key i hi
    rw [Submodule.mem_bot] at this
    exact sub_eq_zero.1 this
  · intro s t v dt k hv hkk j hj
    have hvu : ∀ i, InCells c.n i → v i = st.u i := fun i hi => by
      have := hv i hi
      rw [Submodule.mem_bot] at this
      exact sub_eq_zero.1 this
    have hv' : Layers c P v := by
      refine ⟨fun i hi => by rw [hvu i hi]; exact h0.1 i hi, fun d hd => ?_⟩
      rcases h0.2 d hd with hz | ⟨hw, hc⟩
      · exact Or.inl fun i hi => by rw [hvu i hi]; exact hz i hi
      · refine Or.inr ⟨hw, fun i hi => ?_⟩
        have hi' : InCells c.n (Function.update i d 0) := by
          intro x
          have := h.cells x
          by_cases hx : x = d
          · subst hx; simp; omega
          · simp only [Function.update_of_ne hx]
            exact hi x
        rw [hvu i hi, hvu _ hi', hc i hi]
    obtain ⟨junk, mem, q⟩ := hf s t v
    obtain ⟨dt', D, q', -, hD⟩ := C77_rhs c h hk P junk mem s t v hv'
    rw [q, q'] at hkk
    cases hkk
    rw [Submodule.mem_bot]
    exact hD j hj

/-- **C77** (the llf solver does not have this) At first order with the llf solver the gas at rest at uniform pressure loses
mass in every cell whose density is at least that of its neighbours and larger than one of them. -/
theorem C77_llf_smears (c : EulerConfig K np) (h : FirstOrder c) (hk : c.riem = .llf) (P : K)
    (junk : ℕ → Ix → State K np) (mem : Fin 3 → Ix → State K np) (t t' : K) (u : Ix → State K np)
    (hu : ∀ i, InCells c.n i → AtPressure c.gas.gamma P (u i) ∧ ∀ d, u i (.mom d) = 0)
    (i : Ix) (hi : InCells c.n i)
    (hmax : ∀ d, c.n d ≠ 1 → padded c.scheme u (i + Pi.single d 1) .rho ≤ u i .rho ∧
      padded c.scheme u (i - Pi.single d 1) .rho ≤ u i .rho)
    (hone : ∃ d, c.n d ≠ 1 ∧ (padded c.scheme u (i + Pi.single d 1) .rho < u i .rho ∨
      padded c.scheme u (i - Pi.single d 1) .rho < u i .rho)) :
    ∃ dt D, solverRHS c.scheme junk mem t t' u = .ok (dt, D) ∧ D i .rho < 0 := by
  obtain ⟨dt, D, e, hdt, hD⟩ := h.rhs (fun v => AtPressure c.gas.gamma P v ∧ ∀ d, v (.mom d) = 0)
    (fun d v hv => ⟨hv.1.negate d, fun x => by
      unfold negateMom
      split_ifs <;> simp [hv.2 x]⟩) junk mem t t' u hu
  refine ⟨dt, D, e, ?_⟩
  obtain ⟨h1, h2, h3⟩ := hD i hi
  have flux : ∀ (d : Fin 3) (a b : State K np), a (.mom d) = 0 → b (.mom d) = 0 → ∃ s, 0 < s ∧
      riemann c.riem c.gas d (computePrimitives c.gas.gamma a) (computePrimitives c.gas.gamma b) .rho =
        -(s * (b .rho - a .rho)) := by
    intro d a b ha hb
    rw [hk]
    refine ⟨1 / 2 * max (|computePrimitives c.gas.gamma a (.mom d)| + soundSpeed c.gas (computePrimitives c.gas.gamma a))
      (|computePrimitives c.gas.gamma b (.mom d)| + soundSpeed c.gas (computePrimitives c.gas.gamma b)), ?_, ?_⟩
    · have := (soundSpeed_spec c.gas h.gas.sqrt h.gas.floor (computePrimitives c.gas.gamma a)).1
      have h2 := abs_nonneg (computePrimitives c.gas.gamma a (.mom d))
      have : 0 < |computePrimitives c.gas.gamma a (.mom d)| + soundSpeed c.gas (computePrimitives c.gas.gamma a) := by
        linarith
      have := lt_max_of_lt_left this (c := |computePrimitives c.gas.gamma b (.mom d)| +
        soundSpeed c.gas (computePrimitives c.gas.gamma b))
      linarith
    · simp only [riemann, llf, computeFluxes, computeConservatives]
      rw [show computePrimitives c.gas.gamma a (.mom d) = 0 by simp [computePrimitives, ha],
        show computePrimitives c.gas.gamma b (.mom d) = 0 by simp [computePrimitives, hb]]
      simp only [computePrimitives]
      ring
  have term : ∀ d, c.n d ≠ 1 → ∃ s s', 0 < s ∧ 0 < s' ∧
      riemann c.riem c.gas d (computePrimitives c.gas.gamma (padded c.scheme u i))
            (computePrimitives c.gas.gamma (padded c.scheme u (i + Pi.single d 1))) .rho -
          riemann c.riem c.gas d (computePrimitives c.gas.gamma (padded c.scheme u (i - Pi.single d 1)))
            (computePrimitives c.gas.gamma (padded c.scheme u i)) .rho =
        s * (u i .rho - padded c.scheme u (i + Pi.single d 1) .rho) +
          s' * (u i .rho - padded c.scheme u (i - Pi.single d 1) .rho) := by
    intro d hd
    have a0 := h1 d hd i (Or.inl rfl)
    have a1 := h1 d hd (i - Pi.single d 1) (Or.inr (Or.inl rfl))
    have a2 := h1 d hd (i + Pi.single d 1) (Or.inr (Or.inr rfl))
    obtain ⟨s, hs, e1⟩ := flux d _ _ (a0.1.2 d) (a2.1.2 d)
    obtain ⟨s', hs', e2⟩ := flux d _ _ (a1.1.2 d) (a0.1.2 d)
    refine ⟨s, s', hs, hs', ?_⟩
    rw [e1, e2, h2]
    ring
  rw [h3, Finset.sum_apply]
  obtain ⟨d₀, hd₀, hlt⟩ := hone
  refine Finset.sum_neg' (fun d _ => ?_) ⟨d₀, Finset.mem_univ _, ?_⟩
  · by_cases hd : c.n d ≠ 1
    · rw [if_pos hd]
      obtain ⟨s, s', hs, hs', e⟩ := term d hd
      simp only [Pi.smul_apply, Pi.sub_apply, smul_eq_mul]
      rw [e]
      have := h.spacing d
      have h4 := mul_nonneg hs.le (sub_nonneg.2 (hmax d hd).1)
      have h5 := mul_nonneg hs'.le (sub_nonneg.2 (hmax d hd).2)
      have : 0 < 1 / c.h d := by positivity
      have := mul_nonneg this.le (add_nonneg h4 h5)
      linarith
    · rw [if_neg hd]
      rfl
  · rw [if_pos hd₀]
    obtain ⟨s, s', hs, hs', e⟩ := term d₀ hd₀
    simp only [Pi.smul_apply, Pi.sub_apply, smul_eq_mul]
    rw [e]
    have := h.spacing d₀
    have h4 := mul_nonneg hs.le (sub_nonneg.2 (hmax d₀ hd₀).1)
    have h5 := mul_nonneg hs'.le (sub_nonneg.2 (hmax d₀ hd₀).2)
    have hh : 0 < 1 / c.h d₀ := by positivity
    have : 0 < s * (u i .rho - padded c.scheme u (i + Pi.single d₀ 1) .rho) +
          s' * (u i .rho - padded c.scheme u (i - Pi.single d₀ 1) .rho) := by
      rcases hlt with hl | hl
      · have := mul_pos hs (sub_pos.2 hl); linarith
      · have := mul_pos hs' (sub_pos.2 hl); linarith
    have := mul_pos hh this
    linarith

/-- A channel of 6 by 5 cells between two walls in x, periodic in y. -/
noncomputable def channel (k : RiemannKind) : EulerConfig ℝ 1 where
  gas := airGas
  riem := k
  n := ![6, 5, 1]
  p := ![0, 0, 0]
  h := ![1, 1, 1]
  cfl := 1 / 2
  fixedDt := none
  bc := ⟨fun d _ => if d = 0 then .reflective else .periodic, fun _ _ => .other, none⟩
  limiting := none

theorem channel_first (k : RiemannKind) : FirstOrder (channel k) where
  limiting := rfl
  fixedDt := rfl
  degree := by cases k <;> decide
  cells := by cases k <;> decide
  spacing := fun d => by match d with | 0 | 1 | 2 => simp [channel]
  cfl := by simp [channel]
  gas := ⟨airGas_sqrt, by norm_num [channel, airGas], by norm_num [channel, airGas]⟩
  sides := by
    have e : fluxWidth (channel k).scheme (channel k).p = ![1, 1, 0] := by cases k <;> decide
    rw [e]
    intro d _
    refine ⟨fun s => ?_, ?_⟩
    · cases s <;> cases k <;> revert d <;> decide
    · cases k <;> revert d <;> decide
  extended := ⟨0, by cases k <;> decide⟩

/-- Light gas streaming up on the left, heavy gas streaming down on the right. -/
noncomputable def shearState (i : Ix) : State ℝ 1
  | .rho => if i 0 < 3 then 1 else 4
  | .mom d => if d = 1 then if i 0 < 3 then 2 else -4 else 0
  | .en => 1 / (2 / 5) + 2
  | .ps _ => if i 0 < 3 then 1 else 0

/-- The hypotheses of C77 hold for the shear layer in the channel with the hllc solver. -/
example : FirstOrder (channel .hllc) ∧ KeepsContacts (channel .hllc).riem ∧ Layers (channel .hllc) 1 shearState := by
  refine ⟨channel_first _, Or.inl rfl, fun i _ => ⟨?_, ?_⟩, fun d _ => ?_⟩
  · simp only [shearState]; split_ifs <;> norm_num
  · simp only [shearState, channel, airGas]
    by_cases h : i 0 < 3 <;> simp [h] <;> norm_num
  · match d with
    | 0 => exact Or.inl fun i _ => by simp [shearState]
    | 2 => exact Or.inl fun i _ => by simp [shearState]
    | 1 =>
      refine Or.inr ⟨fun s => by simp [channel], fun i _ => ?_⟩
      have : (Function.update i 1 0 : Ix) 0 = i 0 := by simp
      funext v
      cases v <;> simp [shearState]

/-- Those of the statement about llf hold for a heavy column of gas at rest in the same channel. -/
example : ∃ (u : Ix → State ℝ 1) (i : Ix), FirstOrder (channel .llf) ∧ (channel .llf).riem = .llf ∧
    (∀ j, InCells (channel .llf).n j → AtPressure (channel .llf).gas.gamma 1 (u j) ∧ ∀ d, u j (.mom d) = 0) ∧
    InCells (channel .llf).n i ∧
    (∀ d, (channel .llf).n d ≠ 1 → padded (channel .llf).scheme u (i + Pi.single d 1) .rho ≤ u i .rho ∧
      padded (channel .llf).scheme u (i - Pi.single d 1) .rho ≤ u i .rho) ∧
    ∃ d, (channel .llf).n d ≠ 1 ∧ (padded (channel .llf).scheme u (i + Pi.single d 1) .rho < u i .rho ∨
      padded (channel .llf).scheme u (i - Pi.single d 1) .rho < u i .rho) := by
  refine ⟨fun j v => match v with
    | .rho => if j 0 = 2 then 3 else 1
    | .mom _ => 0
    | .en => 1 / (2 / 5)
    | .ps _ => 1, ![2, 2, 0], channel_first _, rfl, fun j _ => ⟨⟨?_, ?_⟩, fun _ => rfl⟩, by decide, ?_, 0, by decide,
      Or.inl ?_⟩
  · simp only; split_ifs <;> norm_num
  · simp only [channel, airGas]; norm_num
  · intro d hd
    have hn : (channel .llf).scheme.n = ![6, 5, 1] := rfl
    match d with
    | 2 => exact absurd rfl hd
    | 0 => rw [padded_cell _ _ _ (by rw [hn]; decide), padded_cell _ _ _ (by rw [hn]; decide)]; norm_num
    | 1 => rw [padded_cell _ _ _ (by rw [hn]; decide), padded_cell _ _ _ (by rw [hn]; decide)]; norm_num
  · have hn : (channel .llf).scheme.n = ![6, 5, 1] := rfl
    rw [padded_cell _ _ _ (by rw [hn]; decide)]
    norm_num

end FVHOE
