import Verif.Proofs.Sides

/-!
C05 (uniform velocity and pressure are preserved), C07 (uniform concentrations stay uniform).
-/

set_option linter.unusedSectionVars false

namespace FVHOE

variable {K : Type} [Field K] [LinearOrder K] [IsStrictOrderedRing K] {np : ℕ}

/-- The limiter acts on every variable separately and gives slope zero for zero differences. -/
def Separate (slope : Option (State K np → State K np → State K np)) : Prop :=
  ∀ s, slope = some s → ∃ φ : K → K → K, φ 0 0 = 0 ∧ s = fun a b i => φ (a i) (b i)

/-- The densities at the cell centres where the scheme of degrees `p` divides by them are not zero. -/
def CentersOK (c : EulerConfig K np) (p : Fin 3 → ℕ) (u : Ix → State K np) : Prop :=
  OnBox (fun d => c.n d) (fun d => gwMargin c.scheme p d + ceilHalf (p d)) (fun v => v .rho ≠ 0)
    (latCenters K p (padded c.scheme u))

/-- The densities on the two sides of every face do not add up to zero (the hllc solver divides by
a multiple of that sum). -/
def FacesOK (c : EulerConfig K np) (p : Fin 3 → ℕ)
    (slope : Option (State K np → State K np → State K np)) (u : Ix → State K np) : Prop :=
  ∀ d, c.scheme.active d = true → ∀ i : Ix, InMid c.n p d i →
    let x := faceStates K p slope d (latPrim K (computePrimitives c.gas.gamma) p (padded c.scheme u)) i
    x.1 .rho + x.2 .rho ≠ 0

/-- The densities met when the right-hand side is evaluated at `u`: not zero at the cell centres, and,
if asked for, no zero sums at the faces. -/
structure NoZero (c : EulerConfig K np) (faces : Prop) (u : Ix → State K np) : Prop where
  centers : CentersOK c c.p u
  sums : faces → FacesOK c c.p none u
  fallback : ∀ L, c.limiting = some L → CentersOK c (fallbackP c.p) u ∧
    (faces → FacesOK c (fallbackP c.p) L.slope u)

/-- No division by a zero density occurs when the right-hand side is evaluated at `u`. -/
def NoZeroDensity (c : EulerConfig K np) (u : Ix → State K np) : Prop := NoZero c (c.riem = .hllc) u

/-- What C05 and C07 assume of the configuration: degrees up to 8, cells in every direction, sides
without prescribed values and wide enough, a limiter that acts variable by variable. -/
structure PlainSetup (c : EulerConfig K np) : Prop where
  degree : ∀ d, c.p d ≤ 8
  cells : ∀ d, 1 ≤ c.n d
  sides : PlainSides c.scheme (fluxWidth c.scheme c.p)
  fallback : ∀ L, c.limiting = some L →
    PlainSides c.scheme (fluxWidth c.scheme (fallbackP c.p)) ∧ Separate L.slope

/-- One evaluation: if the conversion and the numerical flux carry the conditions, the derivative is
in the module of flux differences. -/
theorem euler_closed (c : EulerConfig K np) (hc : PlainSetup c) (Pc Pp : State K np → Prop)
    (Pf : Fin 3 → State K np → Prop) (N : Submodule K (State K np)) (hcA : AffClosed K Pc)
    (hpA : AffClosed K Pp) (hfA : ∀ d, AffClosed K (Pf d)) (hN : ∀ d a b, Pf d a → Pf d b → a - b ∈ N)
    (hrefl : ∀ d s, c.scheme.active d = true → c.bc.kind d s = .reflective →
      ∀ v, Pc v → Pc (negateMom d v))
    (hprim : ∀ v, v .rho ≠ 0 → Pc v → Pp (computePrimitives c.gas.gamma v))
    (faces : Prop) (hslope : ∀ slope, Separate slope → SlopeKeeps K Pp slope)
    (hriem : ∀ d wl wr, (faces → wl .rho + wr .rho ≠ 0) → Pp wl → Pp wr →
      Pf d (riemann c.riem c.gas d wl wr))
    (u : Ix → State K np) (hg : NoZero c faces u) (hu : ∀ i, InCells c.n i → Pc (u i))
    (junk : ℕ → Ix → State K np) (mem : Fin 3 → Ix → State K np) (t t' dt : K) (D : Ix → State K np)
    (h : solverRHS c.scheme junk mem t t' u = .ok (dt, D)) (i : Ix) : D i ∈ N := by
  have h0 : ∀ d, c.scheme.active d = false → fluxWidth c.scheme c.scheme.p d = 0 := by
    intro d hd
    unfold fluxWidth
    rw [hd, c.scheme.inactive_p d hd]
    rfl
  have hk : ∀ s d, (c.scheme.ghost s d).Keeps Pc := fun s d =>
    c.scheme.ghost_keeps Pc s (fun e he hr => hrefl e s he hr) d
  have carries : ∀ p slope, CentersOK c p u → (faces → FacesOK c p slope u) → Separate slope →
      Carries c.scheme Pc Pp Pf p slope (padded c.scheme u) := by
    intro p slope hC hF hS
    exact ⟨fun i hi => hprim _ (hC i hi), hslope slope hS,
      fun d hd i hi => hriem d _ _ (fun e => hF e d hd i hi)⟩
  refine rhs_closed c.scheme Pc Pp Pf N hcA hpA hfA hN hc.degree hc.cells t _ _
    (hc.sides.sides hc.cells h0 t) (hk .l) (hk .r) u hu
    (carries _ _ hg.centers hg.sums (fun s hs => by cases hs)) ?_ junk mem t' dt D h i
  intro L hL
  obtain ⟨f1, f2⟩ := hc.fallback L hL
  obtain ⟨g1, g2⟩ := hg.fallback L hL
  exact ⟨_, _, f1.sides hc.cells (fallbackP_inactive c.scheme) t, hk .l, hk .r, carries _ _ g1 g2 f2⟩

/-! ## C05 -/

/-- The conserved state `u` of a gas that moves with velocity `v` at pressure `P`. -/
def MovesAt (gamma : K) (v : Fin 3 → K) (P : K) (u : State K np) : Prop :=
  (∀ d, u (.mom d) = u .rho * v d) ∧
    u .en = P / (gamma - 1) + u .rho * (v 0 ^ 2 + v 1 ^ 2 + v 2 ^ 2) / 2

/-- The primitive state has velocity `v` and pressure `P`. -/
def PrimAt (v : Fin 3 → K) (P : K) (w : State K np) : Prop := (∀ d, w (.mom d) = v d) ∧ w .en = P

/-- Fluxes through faces normal to `d` between states with velocity `v` and pressure `P`, where `q`
is the pressure the numerical flux sees. -/
def FluxAt (gamma : K) (v : Fin 3 → K) (P q : K) (d : Fin 3) (f : State K np) : Prop :=
  (∀ e, f (.mom e) = f .rho * v e + if e = d then q else 0) ∧
    f .en = f .rho * (v 0 ^ 2 + v 1 ^ 2 + v 2 ^ 2) / 2 + v d * (P / (gamma - 1) + q)

/-- Changes of state that keep velocity and pressure. -/
def moveModule (v : Fin 3 → K) : Submodule K (State K np) where
  carrier := {u | (∀ d, u (.mom d) = u .rho * v d) ∧
    u .en = u .rho * (v 0 ^ 2 + v 1 ^ 2 + v 2 ^ 2) / 2}
  add_mem' := by
    rintro a b ⟨h1, h2⟩ ⟨h3, h4⟩
    refine ⟨fun d => ?_, ?_⟩
    · simp only [Pi.add_apply, h1, h3]; ring
    · simp only [Pi.add_apply, h2, h4]; ring
  zero_mem' := by constructor <;> simp
  smul_mem' := by
    rintro s a ⟨h1, h2⟩
    refine ⟨fun d => ?_, ?_⟩
    · simp only [Pi.smul_apply, smul_eq_mul, h1]; ring
    · simp only [Pi.smul_apply, smul_eq_mul, h2]; ring

theorem movesAt_aff (gamma : K) (v : Fin 3 → K) (P : K) :
    AffClosed K (MovesAt (np := np) gamma v P) := by
  rintro a b c s ⟨a1, a2⟩ ⟨b1, b2⟩ ⟨c1, c2⟩
  refine ⟨fun d => ?_, ?_⟩
  · simp only [Pi.add_apply, Pi.smul_apply, Pi.sub_apply, smul_eq_mul, a1, b1, c1]; ring
  · simp only [Pi.add_apply, Pi.smul_apply, Pi.sub_apply, smul_eq_mul, a2, b2, c2]; ring

theorem primAt_aff (v : Fin 3 → K) (P : K) : AffClosed K (PrimAt (np := np) v P) := by
  rintro a b c s ⟨a1, a2⟩ ⟨b1, b2⟩ ⟨c1, c2⟩
  refine ⟨fun d => ?_, ?_⟩
  · simp only [Pi.add_apply, Pi.smul_apply, Pi.sub_apply, smul_eq_mul, a1, b1, c1]; ring
  · simp only [Pi.add_apply, Pi.smul_apply, Pi.sub_apply, smul_eq_mul, a2, b2, c2]; ring

theorem fluxAt_aff (gamma : K) (v : Fin 3 → K) (P q : K) (d : Fin 3) :
    AffClosed K (FluxAt (np := np) gamma v P q d) := by
  rintro a b c s ⟨a1, a2⟩ ⟨b1, b2⟩ ⟨c1, c2⟩
  refine ⟨fun d => ?_, ?_⟩
  · simp only [Pi.add_apply, Pi.smul_apply, Pi.sub_apply, smul_eq_mul, a1, b1, c1]; ring
  · simp only [Pi.add_apply, Pi.smul_apply, Pi.sub_apply, smul_eq_mul, a2, b2, c2]; ring

theorem primAt_of_movesAt (gamma : K) (hgam : gamma ≠ 1) (v : Fin 3 → K) (P : K) (u : State K np)
    (hr : u .rho ≠ 0) (h : MovesAt gamma v P u) : PrimAt v P (computePrimitives gamma u) := by
  obtain ⟨h1, h2⟩ := h
  have hg : gamma - 1 ≠ 0 := sub_ne_zero.2 hgam
  refine ⟨fun d => ?_, ?_⟩
  · simp only [computePrimitives, h1]; field_simp
  · simp only [computePrimitives, h1, h2, sum3]; field_simp; ring

theorem separate_primAt (v : Fin 3 → K) (P : K) (slope : Option (State K np → State K np → State K np))
    (h : Separate slope) : SlopeKeeps K (PrimAt v P) slope := by
  intro s hs a b c ha hb hc
  obtain ⟨φ, h0, rfl⟩ := h s hs
  refine ⟨⟨fun d => ?_, ?_⟩, ⟨fun d => ?_, ?_⟩⟩ <;>
    simp [ha.1, hb.1, hc.1, ha.2, hb.2, hc.2, h0]

/-- The pressure in the momentum and energy fluxes of each solver: the upwind solver for advection
leaves it out. -/
def fluxPressure (k : RiemannKind) (P : K) : K := match k with
  | .advectionUpwind => 0
  | _ => P

theorem riemann_fluxAt (G : Gas K) (k : RiemannKind)
    (hG : k = .hllc → IsSqrt G.sqrt ∧ 0 < G.csqFloor) (v : Fin 3 → K) (P : K) (d : Fin 3)
    (wl wr : State K np) (hs : k = .hllc → wl .rho + wr .rho ≠ 0) (hl : PrimAt v P wl)
    (hr : PrimAt v P wr) : FluxAt G.gamma v P (fluxPressure k P) d (riemann k G d wl wr) := by
  obtain ⟨l1, l2⟩ := hl
  obtain ⟨r1, r2⟩ := hr
  cases k with
  | advectionUpwind =>
    refine ⟨fun e => ?_, ?_⟩ <;>
      simp only [riemann, advectionUpwind, fluxPressure, computeFluxes, computeConservatives, l1, l2,
        r1, r2, sum3, ite_self, Bool.false_eq_true, false_and, if_false, add_zero]
    · split_ifs <;> ring
    · split_ifs with h1 h2
      · ring
      · ring
      · have : v d = 0 := le_antisymm (not_lt.1 h1) (not_lt.1 h2)
        simp [this]
  | llf =>
    refine ⟨fun e => ?_, ?_⟩
    · simp only [riemann, llf, fluxPressure, computeFluxes, computeConservatives, l1, l2, r1, r2]
      by_cases he : e = d <;> simp [he] <;> ring
    · simp only [riemann, llf, fluxPressure, computeFluxes, computeConservatives, l1, l2, r1, r2, sum3]
      simp
      ring
  | hllc =>
    obtain ⟨hq, hfl⟩ := hG rfl
    have hsum := hs rfl
    have hc : 0 < max (soundSpeed G wl) (soundSpeed G wr) :=
      lt_of_lt_of_le (soundSpeed_spec G hq hfl wl).1 (le_max_left _ _)
    set c := max (soundSpeed G wl) (soundSpeed G wr) with hcdef
    have c0 : c ≠ 0 := ne_of_gt hc
    have eL : (hllcWaves G d wl wr).Sl = v d - c := by simp [hllcWaves, l1, r1, ← hcdef]
    have eR : (hllcWaves G d wl wr).Sr = v d + c := by simp [hllcWaves, l1, r1, ← hcdef]
    have den : wl .rho * (v d - (v d - c)) + wr .rho * (v d + c - v d) = (wl .rho + wr .rho) * c := by ring
    have den0 : (wl .rho + wr .rho) * c ≠ 0 := mul_ne_zero hsum c0
    have ev : (hllcWaves G d wl wr).vStar = v d := by
      simp only [hllcWaves, l1, r1, l2, r2, min_self, max_self, ← hcdef]
      rw [den, div_eq_iff den0]; ring
    have eP : (hllcWaves G d wl wr).PStar = P := by
      simp only [hllcWaves, l1, r1, l2, r2, min_self, max_self, ← hcdef]
      rw [den, div_eq_iff den0]; ring
    have m1 : v d - c - v d ≠ 0 := by simpa using c0
    have m2 : v d + c - v d ≠ 0 := by simpa using c0
    have erL : (hllcWaves G d wl wr).rStarL = wl .rho := by
      change wl .rho * ((hllcWaves G d wl wr).Sl - wl (.mom d)) /
        ((hllcWaves G d wl wr).Sl - (hllcWaves G d wl wr).vStar) = _
      rw [eL, ev, l1, mul_div_assoc, div_self m1, mul_one]
    have erR : (hllcWaves G d wl wr).rStarR = wr .rho := by
      change wr .rho * ((hllcWaves G d wl wr).Sr - wr (.mom d)) /
        ((hllcWaves G d wl wr).Sr - (hllcWaves G d wl wr).vStar) = _
      rw [eR, ev, r1, mul_div_assoc, div_self m2, mul_one]
    have eEL : (hllcWaves G d wl wr).EStarL = computeConservatives G.gamma wl .en := by
      change (((hllcWaves G d wl wr).Sl - wl (.mom d)) * computeConservatives G.gamma wl .en -
        wl .en * wl (.mom d) + (hllcWaves G d wl wr).PStar * (hllcWaves G d wl wr).vStar) /
        ((hllcWaves G d wl wr).Sl - (hllcWaves G d wl wr).vStar) = _
      rw [eL, ev, eP, l1, l2, div_eq_iff m1]; ring
    have eER : (hllcWaves G d wl wr).EStarR = computeConservatives G.gamma wr .en := by
      change (((hllcWaves G d wl wr).Sr - wr (.mom d)) * computeConservatives G.gamma wr .en -
        wr .en * wr (.mom d) + (hllcWaves G d wl wr).PStar * (hllcWaves G d wl wr).vStar) /
        ((hllcWaves G d wl wr).Sr - (hllcWaves G d wl wr).vStar) = _
      rw [eR, ev, eP, r1, r2, div_eq_iff m2]; ring
    have sv : ∀ x, hllcSample (hllcWaves G d wl wr) x x x x = x := by
      intro x; unfold hllcSample; split_ifs <;> rfl
    have hup : ∀ x, v d * hllcUpwind (v d) x x = v d * x := by
      intro x
      unfold hllcUpwind
      split_ifs with h1 h2
      · rfl
      · rfl
      · have : v d = 0 := le_antisymm (not_lt.1 h1) (not_lt.1 h2)
        simp [this]
    refine ⟨fun e => ?_, ?_⟩
    · simp only [riemann, hllc, fluxPressure, l1, l2, r1, r2, ev, eP, sv]
      by_cases he : e = d
      · simp [he]
      · simp only [he, if_false, add_zero, mul_assoc, hup]
    · simp only [riemann, hllc, fluxPressure, l1, l2, r1, r2, ev, eP, sv, erL, erR, eEL, eER]
      unfold hllcSample
      split_ifs <;> simp only [computeConservatives, l1, l2, r1, r2, sum3] <;> ring

/-- What C05 assumes besides `PlainSetup`: `γ ≠ 1`; for hllc a working square root and a positive
floor; no flow through a reflective wall. -/
structure MovesSetup (c : EulerConfig K np) (v : Fin 3 → K) : Prop where
  plain : PlainSetup c
  gamma : c.gas.gamma ≠ 1
  sound : c.riem = .hllc → IsSqrt c.gas.sqrt ∧ 0 < c.gas.csqFloor
  walls : ∀ d s, c.scheme.active d = true → c.bc.kind d s = .reflective → v d = 0

/-- **C05** (one evaluation) Where velocity and pressure are uniform, the right-hand side changes
momentum and energy only as moved by the change of density. -/
theorem C05_rhs (c : EulerConfig K np) (v : Fin 3 → K) (P : K) (hc : MovesSetup c v)
    (u : Ix → State K np) (hg : NoZeroDensity c u) (hu : ∀ i, InCells c.n i → MovesAt c.gas.gamma v P (u i))
    (junk : ℕ → Ix → State K np) (mem : Fin 3 → Ix → State K np) (t t' dt : K) (D : Ix → State K np)
    (h : solverRHS c.scheme junk mem t t' u = .ok (dt, D)) (i : Ix) :
    (∀ d, D i (.mom d) = D i .rho * v d) ∧
      D i .en = D i .rho * (v 0 ^ 2 + v 1 ^ 2 + v 2 ^ 2) / 2 := by
  refine euler_closed c hc.plain (MovesAt c.gas.gamma v P) (PrimAt v P)
    (FluxAt c.gas.gamma v P (fluxPressure c.riem P)) (moveModule v) (movesAt_aff _ _ _) (primAt_aff _ _)
    (fun d => fluxAt_aff _ _ _ _ d) ?_ ?_ (fun x hx => primAt_of_movesAt _ hc.gamma v P x hx) _
    (separate_primAt v P) (fun d wl wr hs => riemann_fluxAt c.gas c.riem hc.sound v P d wl wr hs)
    u hg hu junk mem t t' dt D h i
  · rintro d a b ⟨a1, a2⟩ ⟨b1, b2⟩
    refine ⟨fun e => ?_, ?_⟩
    · simp only [Pi.sub_apply, a1, b1]; ring
    · simp only [Pi.sub_apply, a2, b2]; ring
  · intro d s hd hk x hx
    have hv := hc.walls d s hd hk
    refine ⟨fun e => ?_, ?_⟩
    · by_cases he : e = d
      · subst he; simp [negateMom, hx.1, hv]
      · simp [negateMom, he, hx.1]
    · simp [negateMom, hx.2]

/-- **C05** Uniform velocity and pressure are preserved across density variations, through any number
of steps of any of the integrators, with any limiting, as long as no zero density is met. -/
theorem C05_uniform_velocity_pressure (c : EulerConfig K np) (v : Fin 3 → K) (P : K)
    (hc : MovesSetup c v) (f : RHS K (Ix → State K np)) (hf : IsCheckedRHS c.scheme (NoZeroDensity c) f)
    {Sn : Type} (m : Integrator) (mk : ODEState K (Ix → State K np) Sn → Sn) (fuel : ℕ)
    (a : IntegrateArgs K Sn) (st : ODEState K (Ix → State K np) Sn)
    (h0 : ∀ i, InCells c.n i → MovesAt c.gas.gamma v P (st.u i))
    (out : Outcome K (Ix → State K np) Sn) (h : st.integrate (stepper f m) mk fuel a = some out) :
    ∀ i, InCells c.n i → MovesAt c.gas.gamma v P (out.1.u i) := by
  refine run_closed c.scheme (NoZeroDensity c) _ (moveModule v) ?_ f hf ?_ m mk fuel a st h0 out h
  · rintro a b ⟨a1, a2⟩ ⟨b1, b2⟩
    refine ⟨fun e => ?_, ?_⟩
    · simp only [Pi.add_apply, a1, b1]; ring
    · simp only [Pi.add_apply, a2, b2]; ring
  · intro u hg hu junk mem t t' dt D hD i
    exact C05_rhs c v P hc u hg hu junk mem t t' dt D hD i

/-- The velocity and pressure a user computes from such a state are `v` and `P`. -/
theorem C05_primitives (gamma : K) (hgam : gamma ≠ 1) (v : Fin 3 → K) (P : K) (u : State K np)
    (hr : u .rho ≠ 0) : MovesAt gamma v P u ↔
      (∀ d, computePrimitives gamma u (.mom d) = v d) ∧ computePrimitives gamma u .en = P := by
  refine ⟨primAt_of_movesAt gamma hgam v P u hr, ?_⟩
  rintro ⟨h1, h2⟩
  have hg : gamma - 1 ≠ 0 := sub_ne_zero.2 hgam
  have e : ∀ d, u (.mom d) = u .rho * v d := fun d => by
    have := h1 d
    simp only [computePrimitives] at this
    rw [div_eq_iff hr] at this
    rw [this]; ring
  refine ⟨e, ?_⟩
  simp only [computePrimitives, e, sum3] at h2
  field_simp at h2
  field_simp
  linear_combination h2

/-! ## C07 -/

/-- Conserved states in which the passive scalar `j` has concentration `x`. -/
def concModule (j : Fin np) (x : K) : Submodule K (State K np) where
  carrier := {u | u (.ps j) = x * u .rho}
  add_mem' := by
    intro a b h1 h2
    simp only [Set.mem_setOf_eq] at h1 h2
    simp only [Set.mem_setOf_eq, Pi.add_apply, h1, h2]; ring
  zero_mem' := by simp
  smul_mem' := by
    intro s a h1
    simp only [Set.mem_setOf_eq] at h1
    simp only [Set.mem_setOf_eq, Pi.smul_apply, smul_eq_mul, h1]; ring

theorem submodule_aff {V : Type} [AddCommGroup V] [Module K V] (N : Submodule K V) :
    AffClosed K (fun v => v ∈ N) :=
  fun _ _ _ s ha hb hc => N.add_mem ha (N.smul_mem s (N.sub_mem hb hc))

theorem riemann_conc (G : Gas K) (k : RiemannKind) (d : Fin 3) (j : Fin np) (x : K) (wl wr : State K np)
    (hl : wl (.ps j) = x) (hr : wr (.ps j) = x) : riemann k G d wl wr ∈ concModule j x := by
  change riemann k G d wl wr (.ps j) = x * riemann k G d wl wr .rho
  cases k with
  | advectionUpwind =>
    simp only [riemann, advectionUpwind, computeFluxes, computeConservatives, hl, hr]
    split_ifs <;> ring
  | llf =>
    simp only [riemann, llf, computeFluxes, computeConservatives, hl, hr]
    ring
  | hllc =>
    simp only [riemann, hllc, hl, hr]
    generalize hllcSample (hllcWaves G d wl wr) (wl (.mom d)) _ _ _ = v
    unfold hllcUpwind
    split_ifs with h1 h2
    · ring
    · ring
    · have : v = 0 := le_antisymm (not_lt.1 h1) (not_lt.1 h2)
      simp [this]

/-- **C07** (one evaluation) Where the concentration of the scalar `j` is uniform, its density changes
in proportion to the mass density. -/
theorem C07_rhs (c : EulerConfig K np) (hc : PlainSetup c) (j : Fin np) (x : K)
    (u : Ix → State K np) (hg : NoZero c False u) (hu : ∀ i, InCells c.n i → u i (.ps j) = x * u i .rho)
    (junk : ℕ → Ix → State K np) (mem : Fin 3 → Ix → State K np) (t t' dt : K) (D : Ix → State K np)
    (h : solverRHS c.scheme junk mem t t' u = .ok (dt, D)) (i : Ix) : D i (.ps j) = x * D i .rho := by
  refine euler_closed c hc (fun v => v ∈ concModule j x) (fun w => w (.ps j) = x)
    (fun _ v => v ∈ concModule j x) (concModule j x) (submodule_aff _) ?_ (fun _ => submodule_aff _)
    (fun _ a b ha hb => Submodule.sub_mem _ ha hb) ?_ ?_ False ?_
    (fun d wl wr _ hl hr => riemann_conc c.gas c.riem d j x wl wr hl hr)
    u hg hu junk mem t t' dt D h i
  · intro a b e s ha hb he
    simp [ha, hb, he]
  · intro d s _ _ v hv
    change negateMom d v (.ps j) = x * negateMom d v .rho
    have hv : v (.ps j) = x * v .rho := hv
    simp [negateMom, hv]
  · intro v h0 hv
    have hv : v (.ps j) = x * v .rho := hv
    simp only [computePrimitives, hv]
    field_simp
  · intro slope hs s e a b y ha hb hy
    obtain ⟨φ, h0, rfl⟩ := hs s e
    constructor <;> simp [ha, hb, hy, h0]

/-- **C07** A uniform concentration of a passive scalar stays uniform through any number of steps of any
of the integrators, with any Riemann solver and any limiting, as long as no zero density is met at a
cell centre. -/
theorem C07_uniform_concentration (c : EulerConfig K np) (hc : PlainSetup c) (j : Fin np) (x : K)
    (f : RHS K (Ix → State K np)) (hf : IsCheckedRHS c.scheme (NoZero c False) f)
    {Sn : Type} (m : Integrator) (mk : ODEState K (Ix → State K np) Sn → Sn) (fuel : ℕ)
    (a : IntegrateArgs K Sn) (st : ODEState K (Ix → State K np) Sn)
    (h0 : ∀ i, InCells c.n i → st.u i (.ps j) = x * st.u i .rho)
    (out : Outcome K (Ix → State K np) Sn) (h : st.integrate (stepper f m) mk fuel a = some out) :
    ∀ i, InCells c.n i → out.1.u i (.ps j) = x * out.1.u i .rho :=
  run_closed c.scheme (NoZero c False) (fun v => v ∈ concModule j x) (concModule j x)
    (fun _ _ ha hb => Submodule.add_mem _ ha hb) f hf
    (fun u hg hu junk mem t t' dt D hD i => C07_rhs c hc j x u hg hu junk mem t t' dt D hD i)
    m mk fuel a st h0 out h

/-! ## Densities close to uniform never meet a zero

This gives states satisfying `NoZeroDensity`, so that C05 and C07 are not about nothing. -/

/-- The density differs from 1 by at most `e` everywhere. -/
def Near (e : K) (Φ : Ix → State K np) : Prop := ∀ i, |Φ i .rho - 1| ≤ e

theorem wsum_near (e : K) (ws : List ℚ) (s : ℤ) (f : ℤ → State K np) (h : ∀ k, |f k .rho - 1| ≤ e) :
    |wsum K ws s f .rho - ((ws.sum : ℚ) : K)| ≤ (((ws.map fun w => |w|).sum : ℚ) : K) * e := by
  induction ws generalizing s with
  | nil => simp [wsum]
  | cons w ws ih =>
    have e1 : wsum K (w :: ws) s f .rho - (((w :: ws).sum : ℚ) : K) =
        (w : K) * (f s .rho - 1) + (wsum K ws (s + 1) f .rho - ((ws.sum : ℚ) : K)) := by
      simp only [wsum, Pi.add_apply, Pi.smul_apply, smul_eq_mul, List.sum_cons, Rat.cast_add]
      ring
    rw [e1]
    refine (abs_add_le _ _).trans ?_
    rw [List.map_cons, List.sum_cons, Rat.cast_add, add_mul, Rat.cast_abs, abs_mul]
    exact add_le_add (mul_le_mul_of_nonneg_left (h s) (abs_nonneg _)) (ih (s + 1))

theorem wts_abs {p : ℕ} (hp : p ≤ 8) : ((wts (conservativeWeights p "l")).map fun w => |w|).sum ≤ 3 ∧
    ((wts (conservativeWeights p "c")).map fun w => |w|).sum ≤ 3 ∧
    ((wts (conservativeWeights p "r")).map fun w => |w|).sum ≤ 3 ∧
    ((wts (transverseWeights p)).map fun w => |w|).sum ≤ 3 := by
  interval_cases p <;> decide +kernel

theorem Near.sweep {e : K} {Φ : Ix → State K np} (h : Near e Φ) (d : Fin 3) (r : ℤ) (ws : List ℚ)
    (h1 : ws.sum = 1) (h3 : (ws.map fun w => |w|).sum ≤ 3) : Near (3 * e) (lsweep K d r ws Φ) := by
  intro i
  have := wsum_near e ws (-r) (fun k => Φ (i + Pi.single d k)) (fun k => h _)
  rw [h1, Rat.cast_one] at this
  refine this.trans ?_
  have e0 : 0 ≤ e := (abs_nonneg _).trans (h 0)
  have : (((ws.map fun w => |w|).sum : ℚ) : K) ≤ ((3 : ℚ) : K) := by exact_mod_cast h3
  have h3' : ((3 : ℚ) : K) = 3 := by norm_num
  rw [h3'] at this
  exact mul_le_mul_of_nonneg_right this e0

theorem Near.c {e : K} {Φ : Ix → State K np} (h : Near e Φ) (d : Fin 3) {p : ℕ} (hp : p ≤ 8) :
    Near (3 * e) (latC K p d Φ) := h.sweep d _ _ (wts_sum hp).2.1 (wts_abs hp).2.1

theorem Near.t {e : K} {Φ : Ix → State K np} (h : Near e Φ) (d : Fin 3) {p : ℕ} (hp : p ≤ 8) :
    Near (3 * e) (latT K p d Φ) := h.sweep d _ _ (wts_sum hp).2.2.2 (wts_abs hp).2.2.2

/-- Slopes no larger than the two differences together. -/
def SlopeBounded (slope : Option (State K np → State K np → State K np)) : Prop :=
  ∀ s, slope = some s → ∀ a b : State K np, |s a b .rho| ≤ |a .rho| + |b .rho|

theorem near_slope {e : K} {Φ : Ix → State K np} (h : Near e Φ) (d : Fin 3)
    (s : State K np → State K np → State K np) (hb : ∀ a b : State K np, |s a b .rho| ≤ |a .rho| + |b .rho|)
    (i : Ix) : |latSlope d s Φ i .rho| ≤ 4 * e := by
  have h1 := h (i - Pi.single d 1)
  have h2 := h i
  have h3 := h (i + Pi.single d 1)
  refine (hb _ _).trans ?_
  simp only [Pi.sub_apply]
  rw [abs_le] at h1 h2 h3
  have e1 : |Φ i .rho - Φ (i - Pi.single d 1) .rho| ≤ 2 * e := by rw [abs_le]; constructor <;> linarith
  have e2 : |Φ (i + Pi.single d 1) .rho - Φ i .rho| ≤ 2 * e := by rw [abs_le]; constructor <;> linarith
  linarith

theorem Near.faces {e : K} {Φ : Ix → State K np} (h : Near e Φ) (d : Fin 3) {p : ℕ} (hp : p ≤ 8)
    (slope : Option (State K np → State K np → State K np)) (hb : SlopeBounded slope) :
    Near (3 * e) (latFaceL K p d slope Φ) ∧ Near (3 * e) (latFaceR K p d slope Φ) := by
  have hl : Near (3 * e) (latL K p d Φ) := h.sweep d _ _ (wts_sum hp).1 (wts_abs hp).1
  have hr : Near (3 * e) (latR K p d Φ) := h.sweep d _ _ (wts_sum hp).2.2.1 (wts_abs hp).2.2.1
  cases slope with
  | none => exact ⟨hl, hr⟩
  | some s =>
    unfold latFaceL latFaceR
    dsimp only
    by_cases hp1 : p = 1
    · rw [if_pos hp1, if_pos hp1]
      constructor <;> intro i <;>
        have h1 := h i <;> have h2 := near_slope h d s (hb s rfl) i <;>
        simp only [Pi.sub_apply, Pi.add_apply, Pi.smul_apply, smul_eq_mul] <;>
        rw [abs_le] at h1 h2 ⊢ <;> constructor <;> linarith
    · rw [if_neg hp1, if_neg hp1]; exact ⟨hl, hr⟩

theorem Near.centers {e : K} {Φ : Ix → State K np} (h : Near e Φ) (p : Fin 3 → ℕ) (hp : ∀ d, p d ≤ 8) :
    Near (27 * e) (latCenters K p Φ) := by
  have := ((h.c 0 (hp 0)).c 1 (hp 1)).c 2 (hp 2)
  intro i
  refine (this i).trans (le_of_eq (by ring))

/-- If the densities vary by less than one part in 20000 around 1, no zero density is met. -/
theorem nearly_uniform (c : EulerConfig K np) (hp : ∀ d, c.p d ≤ 8) (faces : Prop)
    (hL : ∀ L, c.limiting = some L → SlopeBounded L.slope) (u : Ix → State K np)
    (hu : Near (1 / 20000) u) : NoZero c faces u := by
  have hΦ : Near (1 / 20000) (padded c.scheme u) := by
    have hk : ∀ s d, (c.scheme.ghost s d).Keeps fun v : State K np => |v .rho - 1| ≤ 1 / 20000 := by
      intro s d
      refine c.scheme.ghost_keeps _ s (fun e _ _ v hv => ?_) d
      change |negateMom e v .rho - 1| ≤ _
      simpa [negateMom] using hv
    exact extAll_keeps _ _ _ _ (hk .l) (hk .r) u hu
  have hC : ∀ p : Fin 3 → ℕ, (∀ d, p d ≤ 8) → CentersOK c p u := by
    intro p hp i _
    have := hΦ.centers p hp i
    intro h0
    rw [h0] at this
    norm_num at this
  have hF : ∀ (p : Fin 3 → ℕ) (slope : Option (State K np → State K np → State K np)), (∀ d, p d ≤ 8) →
      SlopeBounded slope → FacesOK c p slope u := by
    intro p slope hp hb d _ i _
    have h1 : Near (27 * (1 / 20000)) fun i =>
        computePrimitives c.gas.gamma (latCenters K p (padded c.scheme u) i) := hΦ.centers p hp
    have h2 := (((h1.t 0 (hp 0)).t 1 (hp 1)).t 2 (hp 2))
    have h3 := ((h2.c (centerOrder d).1 (hp (centerOrder d).1)).c (centerOrder d).2
      (hp (centerOrder d).2)).faces d (hp d) slope hb
    have key : ∀ x : State K np × State K np,
        |x.1 .rho - 1| ≤ 3 * (3 * (3 * (3 * (3 * (3 * (27 * (1 / 20000))))))) →
        |x.2 .rho - 1| ≤ 3 * (3 * (3 * (3 * (3 * (3 * (27 * (1 / 20000))))))) →
        x.1 .rho + x.2 .rho ≠ 0 := by
      intro x hl hr
      rw [abs_le] at hl hr
      have := hl.1
      have := hr.1
      refine ne_of_gt ?_
      linarith
    exact key (faceStates K p slope d (latPrim K (computePrimitives c.gas.gamma) p (padded c.scheme u)) i)
      (h3.2 (i - Pi.single d 1)) (h3.1 i)
  have hf : ∀ d, fallbackP c.p d ≤ 8 := fun d => (fallbackP_le c.p d).trans (by norm_num)
  exact ⟨hC _ hp, fun _ => hF _ _ hp (fun s hs => by cases hs), fun L hL' =>
    ⟨hC _ hf, fun _ => hF _ _ hf (hL L hL')⟩⟩

theorem minmod_le (tiny : K) (ht : 0 < tiny) (a b : K) : |minmod tiny a b| ≤ |a| := by
  unfold minmod
  dsimp only
  rw [abs_mul]
  refine mul_le_of_le_one_left (abs_nonneg _) ?_
  split_ifs <;> rw [abs_le] <;> constructor <;> linarith

/-- A two-dimensional channel of degree (3, 2) with hllc and minmod limiting everywhere: periodic in
x, reflective walls in y, one passive scalar. -/
noncomputable def channelConfig : EulerConfig ℝ 1 where
  gas := airGas
  riem := .hllc
  n := ![12, 9, 1]
  p := ![3, 2, 0]
  h := ![1, 2, 3]
  cfl := 1 / 2
  fixedDt := none
  bc := ⟨fun d _ => if d = 1 then .reflective else .periodic, fun _ _ => .other, none⟩
  limiting := some ⟨fun w _ => .ok (w.map fun _ => true), fun _ => .ok fun _ => ⟨fun _ => 1, fun _ => 1⟩, true,
    some fun a b i => minmod (1 / 10 ^ 16) (a i) (b i)⟩

theorem channel_plain : PlainSetup channelConfig := by
  have e1 : fluxWidth channelConfig.scheme channelConfig.p = ![8, 6, 0] := by decide
  have e2 : fluxWidth channelConfig.scheme (fallbackP channelConfig.p) = ![4, 4, 0] := by decide
  refine ⟨by decide, by decide, ?_, fun L hL => ?_⟩
  · rw [e1]; intro d _
    refine ⟨fun s => ?_, ?_⟩
    · cases s <;> revert d <;> decide
    · revert d; decide
  · cases hL
    refine ⟨?_, fun s hs => ⟨fun a b => minmod (1 / 10 ^ 16) a b, by simp [minmod], ?_⟩⟩
    · rw [e2]; intro d _
      refine ⟨fun s => ?_, ?_⟩
      · cases s <;> revert d <;> decide
      · revert d; decide
    · cases hs; rfl

/-- C05 and C07 apply to flow along the channel with a density that varies from cell to cell. -/
example : ∃ u : Ix → State ℝ 1, MovesSetup channelConfig ![3, 0, -1] ∧ NoZeroDensity channelConfig u ∧
    NoZero channelConfig False u ∧ (∀ i, MovesAt channelConfig.gas.gamma ![3, 0, -1] 2 (u i)) ∧
    (∀ i, u i (.ps 0) = 7 * u i .rho) ∧ u 0 ≠ u ![1, 0, 0] := by
  let ρ : Ix → ℝ := fun i => if i 0 = 0 then 1 + 1 / 20000 else 1
  have hn : ∀ faces, NoZero channelConfig faces fun i => (fun
      | .rho => ρ i
      | .mom d => ρ i * (![3, 0, -1] : Fin 3 → ℝ) d
      | .en => 2 / (channelConfig.gas.gamma - 1) + ρ i * 10 / 2
      | .ps _ => 7 * ρ i : State ℝ 1) := by
    intro faces
    refine nearly_uniform channelConfig (by decide) faces ?_ _ ?_
    · intro L hL s hs a b
      cases hL; cases hs
      exact (minmod_le _ (by norm_num) _ _).trans (le_add_of_nonneg_right (abs_nonneg _))
    · intro i
      simp only [ρ]
      split_ifs <;> norm_num [abs_le]
  refine ⟨_, ⟨channel_plain, by norm_num [channelConfig, airGas],
    fun _ => ⟨airGas_sqrt, by norm_num [channelConfig, airGas]⟩, ?_⟩, hn _, hn _, fun i => ⟨fun d => rfl, ?_⟩,
    fun i => rfl, ?_⟩
  · intro d s _ h
    have hd : d = 1 := by
      by_contra hd
      simp [channelConfig, hd] at h
    rw [hd]; rfl
  · change _ + ρ i * 10 / 2 = _ + ρ i * (3 ^ 2 + 0 ^ 2 + (-1) ^ 2) / 2
    norm_num
  · intro h
    have := congrFun h .rho
    simp [ρ] at this

end FVHOE
