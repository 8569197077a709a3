import Verif.Proofs.Pair
import Verif.Props.C75
import Verif.Props.C05_C07

/-!
C76: a uniform velocity along a direction in which nothing varies changes nothing else.
-/

set_option linter.unusedSectionVars false

namespace FVHOE

variable {K : Type} [Field K] [LinearOrder K] [IsStrictOrderedRing K] {np : ℕ}

/-- The conserved variables seen from a frame in which everything moves faster by `a` along `e`: the
density and the scalars are the same, the momentum along `e` grows by `a` times the density, the energy by the
kinetic energy that goes with it. -/
def boost (a : K) (e : Fin 3) : State K np →ₗ[K] State K np where
  toFun u
    | .rho => u .rho
    | .mom d => u (.mom d) + if d = e then a * u .rho else 0
    | .en => u .en + a * u (.mom e) + 1 / 2 * a ^ 2 * u .rho
    | .ps j => u (.ps j)
  map_add' u v := by
    funext i
    cases i with
    | rho => rfl
    | mom d => simp only [Pi.add_apply]; split_ifs <;> ring
    | en => simp only [Pi.add_apply]; ring
    | ps j => rfl
  map_smul' s u := by
    funext i
    cases i with
    | rho => rfl
    | mom d => simp only [Pi.smul_apply, smul_eq_mul, RingHom.id_apply]; split_ifs <;> ring
    | en => simp only [Pi.smul_apply, smul_eq_mul, RingHom.id_apply]; ring
    | ps j => rfl

/-- The primitive variables with the velocity along `e` increased by `a`. -/
def faster (a : K) (e : Fin 3) (w : State K np) : State K np
  | .rho => w .rho
  | .mom d => w (.mom d) + if d = e then a else 0
  | .en => w .en
  | .ps j => w (.ps j)

/-- **C76** (what the boost means) Where the density is not zero, the boosted state has the same primitive
variables but for the velocity along `e`, which is larger by `a`. -/
theorem C76_boost (gamma a : K) (e : Fin 3) (u : State K np) (hr : u .rho ≠ 0) :
    computePrimitives gamma (boost a e u) = faster a e (computePrimitives gamma u) := by
  funext i
  cases i with
  | rho => rfl
  | mom d =>
    show (u (.mom d) + if d = e then a * u .rho else 0) / u .rho = u (.mom d) / u .rho + if d = e then a else 0
    split_ifs <;> field_simp
    simp
  | en =>
    have key : ∀ x : Fin 3, x = e → computePrimitives gamma (boost a e u) .en = computePrimitives gamma u .en := by
      rintro x rfl
      simp only [computePrimitives, boost, LinearMap.coe_mk, AddHom.coe_mk, sum3]
      congr 1
      match x with
      | 0 => simp; field_simp; ring
      | 1 => simp; field_simp; ring
      | 2 => simp; field_simp; ring
    exact key e rfl
  | ps j => rfl

theorem conservatives_faster (gamma a : K) (e : Fin 3) (w : State K np) :
    computeConservatives gamma (faster a e w) = boost a e (computeConservatives gamma w) := by
  funext i
  cases i with
  | rho => rfl
  | mom d =>
    show w .rho * (w (.mom d) + if d = e then a else 0) = w .rho * w (.mom d) + if d = e then a * w .rho else 0
    split_ifs <;> ring
  | en =>
    simp only [computeConservatives, boost, LinearMap.coe_mk, AddHom.coe_mk, sum3, faster]
    match e with
    | 0 => simp; ring
    | 1 => simp; ring
    | 2 => simp; ring
  | ps j => rfl

theorem soundSpeed_faster (G : Gas K) (a : K) (e : Fin 3) (w : State K np) :
    soundSpeed G (faster a e w) = soundSpeed G w := rfl

theorem faster_normal (a : K) {d e : Fin 3} (h : d ≠ e) (w : State K np) :
    faster a e w (.mom d) = w (.mom d) := by
  simp [faster, h]

theorem fluxes_faster (a : K) {d e : Fin 3} (h : d ≠ e) (w u : State K np) (b : Bool)
    (hu : u .rho = w .rho) (hm : ∀ c, u (.mom c) = w .rho * w (.mom c)) :
    computeFluxes (faster a e w) (boost a e u) d b = boost a e (computeFluxes w u d b) := by
  funext i
  cases i with
  | rho => simp [computeFluxes, boost, faster, h]
  | mom c =>
    by_cases hc : c = e
    · subst hc
      simp [computeFluxes, boost, faster, h, Ne.symm h, hu]
      ring
    · simp [computeFluxes, boost, faster, h, hc]
  | en =>
    cases b <;> simp [computeFluxes, boost, faster, h, Ne.symm h, hu] <;> ring
  | ps j => simp [computeFluxes, boost, faster, h]

theorem hllc_upwind_sample (W : HllcWaves K) (vl vr : K) (hl : W.Sl ≤ vl) (hr : vr ≤ W.Sr) (x y : K) :
    let v := hllcSample W vl W.vStar W.vStar vr
    v * hllcUpwind v x y = v * hllcSample W x x y y := by
  simp only
  unfold hllcSample hllcUpwind
  by_cases h1 : W.Sl > 0
  · simp only [h1, if_true]
    rw [if_pos (lt_of_lt_of_le h1 hl)]
  · simp only [h1, if_false]
    by_cases h2 : W.vStar > 0
    · simp [h2]
    · simp only [h2, if_false]
      by_cases h3 : W.Sr > 0
      · simp only [h3, if_true, h2, if_false]
        by_cases h4 : W.vStar < 0
        · simp [h4]
        · have : W.vStar = 0 := le_antisymm (not_lt.1 h2) (not_lt.1 h4)
          simp [this]
      · simp only [h3, if_false]
        have : vr ≤ 0 := hr.trans (not_lt.1 h3)
        rcases this.lt_or_eq with h | h
        · simp [h, not_lt.2 h.le]
        · simp [h]

theorem hllc_faster (G : Gas K) (hq : IsSqrt G.sqrt) (hfl : 0 < G.csqFloor) (a : K) {d e : Fin 3} (h : d ≠ e)
    (wl wr : State K np) : hllc G d (faster a e wl) (faster a e wr) = boost a e (hllc G d wl wr) := by
  have cl := (soundSpeed_spec G hq hfl wl).1
  have cr := (soundSpeed_spec G hq hfl wr).1
  obtain ⟨W, hW⟩ : ∃ W, W = hllcWaves G d wl wr := ⟨_, rfl⟩
  have hSl : W.Sl ≤ wl (.mom d) := by
    rw [hW]
    have h1 := min_le_left (wl (.mom d)) (wr (.mom d))
    have h2 := le_max_left (soundSpeed G wl) (soundSpeed G wr)
    show min (wl (.mom d)) (wr (.mom d)) - max (soundSpeed G wl) (soundSpeed G wr) ≤ _
    linarith
  have hSr : wr (.mom d) ≤ W.Sr := by
    rw [hW]
    have h1 := le_max_right (wl (.mom d)) (wr (.mom d))
    have h2 := le_max_left (soundSpeed G wl) (soundSpeed G wr)
    show _ ≤ max (wl (.mom d)) (wr (.mom d)) + max (soundSpeed G wl) (soundSpeed G wr)
    linarith
  have up := hllc_upwind_sample W _ _ hSl hSr
  obtain ⟨W', hW'⟩ : ∃ W', W' = hllcWaves G d (faster a e wl) (faster a e wr) := ⟨_, rfl⟩
  have e1 : W'.Sl = W.Sl := by
    rw [hW, hW']; simp only [hllcWaves, faster_normal a h, soundSpeed_faster]
  have e2 : W'.Sr = W.Sr := by
    rw [hW, hW']; simp only [hllcWaves, faster_normal a h, soundSpeed_faster]
  have e3 : W'.vStar = W.vStar := by
    rw [hW, hW']; simp only [hllcWaves, faster_normal a h, soundSpeed_faster]; rfl
  have e4 : W'.PStar = W.PStar := by
    rw [hW, hW']; simp only [hllcWaves, faster_normal a h, soundSpeed_faster]; rfl
  have e5 : W'.rStarL = W.rStarL := by
    rw [hW, hW']; simp only [hllcWaves, faster_normal a h, soundSpeed_faster]; rfl
  have e6 : W'.rStarR = W.rStarR := by
    rw [hW, hW']; simp only [hllcWaves, faster_normal a h, soundSpeed_faster]; rfl
  have en : ∀ w : State K np, computeConservatives G.gamma (faster a e w) .en =
      computeConservatives G.gamma w .en + w .rho * (a * w (.mom e) + 1 / 2 * a ^ 2) := by
    intro w
    rw [conservatives_faster]
    show computeConservatives G.gamma w .en + a * (w .rho * w (.mom e)) + 1 / 2 * a ^ 2 * w .rho = _
    ring
  have e7 : W'.EStarL = W.EStarL + W.rStarL * (a * wl (.mom e) + 1 / 2 * a ^ 2) := by
    have : W'.EStarL = ((W'.Sl - wl (.mom d)) * computeConservatives G.gamma (faster a e wl) .en -
        wl .en * wl (.mom d) + W'.PStar * W'.vStar) / (W'.Sl - W'.vStar) := by
      rw [hW']; simp only [hllcWaves, faster_normal a h]; rfl
    rw [this, e1, e3, e4, en]
    have h2 : W.EStarL = ((W.Sl - wl (.mom d)) * computeConservatives G.gamma wl .en -
        wl .en * wl (.mom d) + W.PStar * W.vStar) / (W.Sl - W.vStar) := by rw [hW]; rfl
    have h3 : W.rStarL = wl .rho * (W.Sl - wl (.mom d)) / (W.Sl - W.vStar) := by rw [hW]; rfl
    rw [h2, h3]
    ring
  have e8 : W'.EStarR = W.EStarR + W.rStarR * (a * wr (.mom e) + 1 / 2 * a ^ 2) := by
    have : W'.EStarR = ((W'.Sr - wr (.mom d)) * computeConservatives G.gamma (faster a e wr) .en -
        wr .en * wr (.mom d) + W'.PStar * W'.vStar) / (W'.Sr - W'.vStar) := by
      rw [hW']; simp only [hllcWaves, faster_normal a h]; rfl
    rw [this, e2, e3, e4, en]
    have h2 : W.EStarR = ((W.Sr - wr (.mom d)) * computeConservatives G.gamma wr .en -
        wr .en * wr (.mom d) + W.PStar * W.vStar) / (W.Sr - W.vStar) := by rw [hW]; rfl
    have h3 : W.rStarR = wr .rho * (W.Sr - wr (.mom d)) / (W.Sr - W.vStar) := by rw [hW]; rfl
    rw [h2, h3]
    ring
  have smp : ∀ l sl sr r, hllcSample W' l sl sr r = hllcSample W l sl sr r := by
    intro l sl sr r
    unfold hllcSample
    rw [e1, e2, e3]
  have hprod : ∀ x y : K, hllcSample W (wl .rho * x) (W.rStarL * x) (W.rStarR * y) (wr .rho * y) =
      hllcSample W (wl .rho) W.rStarL W.rStarR (wr .rho) * hllcSample W x x y y := by
    intro x y
    unfold hllcSample
    split_ifs <;> rfl
  have hsum : ∀ l sl sr r l' sl' sr' r' : K, hllcSample W (l + l') (sl + sl') (sr + sr') (r + r') =
      hllcSample W l sl sr r + hllcSample W l' sl' sr' r' := by
    intro l sl sr r l' sl' sr' r'
    unfold hllcSample
    split_ifs <;> rfl
  have hlin : ∀ x y : K, hllcSample W (a * x + 1 / 2 * a ^ 2) (a * x + 1 / 2 * a ^ 2) (a * y + 1 / 2 * a ^ 2)
      (a * y + 1 / 2 * a ^ 2) = a * hllcSample W x x y y + 1 / 2 * a ^ 2 := by
    intro x y
    unfold hllcSample
    split_ifs <;> rfl
  obtain ⟨v, hv⟩ : ∃ v, v = hllcSample W (wl (.mom d)) W.vStar W.vStar (wr (.mom d)) := ⟨_, rfl⟩
  obtain ⟨r, hr⟩ : ∃ r, r = hllcSample W (wl .rho) W.rStarL W.rStarR (wr .rho) := ⟨_, rfl⟩
  simp only at up
  rw [← hv] at up
  have hv' : hllcSample W' (faster a e wl (.mom d)) W'.vStar W'.vStar (faster a e wr (.mom d)) = v := by
    rw [smp, e3, faster_normal a h, faster_normal a h, hv]
  have hr' : hllcSample W' (faster a e wl .rho) W'.rStarL W'.rStarR (faster a e wr .rho) = r := by
    rw [smp, e5, e6, hr]; rfl
  funext i
  cases i with
  | rho =>
    show hllcSample (hllcWaves G d _ _) _ _ _ _ * hllcSample (hllcWaves G d _ _) _ _ _ _ =
      hllcSample (hllcWaves G d _ _) _ _ _ _ * hllcSample (hllcWaves G d _ _) _ _ _ _
    rw [← hW, ← hW', hv', hr', ← hv, ← hr]
  | mom c =>
    by_cases hc : c = e
    · subst hc
      have hcd : ¬ c = d := fun x => h x.symm
      simp only [hllc, boost, LinearMap.coe_mk, AddHom.coe_mk, ← hW, ← hW', hv', hr', ← hv, ← hr, if_neg hcd, if_true]
      have : v * hllcUpwind v (faster a c wl (.mom c)) (faster a c wr (.mom c)) =
          v * hllcUpwind v (wl (.mom c)) (wr (.mom c)) + v * a := by
        simp only [faster, if_true]
        rw [up, up, ← mul_add]
        congr 1
        unfold hllcSample
        split_ifs <;> rfl
      rw [mul_assoc, this]
      ring
    · simp only [hllc, boost, LinearMap.coe_mk, AddHom.coe_mk, ← hW, ← hW', hv', hr', ← hv, ← hr, if_neg hc,
        add_zero]
      rw [smp, e4]
      simp only [faster, if_neg hc, add_zero]
  | en =>
    have hed : ¬ e = d := fun x => h x.symm
    simp only [hllc, boost, LinearMap.coe_mk, AddHom.coe_mk, ← hW, ← hW', hv', hr', ← hv, ← hr, if_neg hed]
    rw [smp, smp, e4, e7, e8, en, en, hsum, hprod, hlin]
    have : r * v * hllcUpwind v (wl (.mom e)) (wr (.mom e)) =
        r * (v * hllcSample W (wl (.mom e)) (wl (.mom e)) (wr (.mom e)) (wr (.mom e))) := by
      rw [← up]; ring
    rw [this, ← hr]
    simp only [faster]
    ring
  | ps j =>
    simp only [hllc, boost, LinearMap.coe_mk, AddHom.coe_mk, ← hW, ← hW', hv', hr', ← hv, ← hr]
    simp only [faster]

/-- Numerical fluxes in directions other than `e` are those of the boosted frame. -/
theorem riemann_faster (k : RiemannKind) (G : Gas K) (hG : k = .hllc → IsSqrt G.sqrt ∧ 0 < G.csqFloor) (a : K)
    {d e : Fin 3} (h : d ≠ e) (wl wr : State K np) :
    riemann k G d (faster a e wl) (faster a e wr) = boost a e (riemann k G d wl wr) := by
  have F : ∀ (w : State K np) b, computeFluxes (faster a e w) (computeConservatives G.gamma (faster a e w)) d b =
      boost a e (computeFluxes w (computeConservatives G.gamma w) d b) := by
    intro w b
    rw [conservatives_faster]
    exact fluxes_faster a h w _ b rfl fun _ => rfl
  cases k with
  | hllc => exact hllc_faster G (hG rfl).1 (hG rfl).2 a h wl wr
  | llf =>
    obtain ⟨s, hs⟩ : ∃ s, s = max (|wl (.mom d)| + soundSpeed G wl) (|wr (.mom d)| + soundSpeed G wr) := ⟨_, rfl⟩
    have e1 : ∀ x y : State K np, llf G d x y = (1 / 2 : K) • (computeFluxes x (computeConservatives G.gamma x) d true +
        computeFluxes y (computeConservatives G.gamma y) d true) -
        (1 / 2 * max (|x (.mom d)| + soundSpeed G x) (|y (.mom d)| + soundSpeed G y)) •
          (computeConservatives G.gamma y - computeConservatives G.gamma x) := by
      intro x y
      funext i
      rfl
    show llf G d _ _ = boost a e (llf G d _ _)
    rw [e1, e1, F, F, conservatives_faster, conservatives_faster, faster_normal a h, faster_normal a h,
      soundSpeed_faster, soundSpeed_faster, map_sub, map_smul, map_smul, map_add, map_sub]
  | advectionUpwind =>
    have e1 : ∀ x y : State K np, advectionUpwind G d x y =
        if x (.mom d) > 0 then computeFluxes x (computeConservatives G.gamma x) d false
        else if x (.mom d) < 0 then computeFluxes y (computeConservatives G.gamma y) d false else 0 := by
      intro x y
      funext i
      unfold advectionUpwind
      split_ifs <;> rfl
    show advectionUpwind G d _ _ = boost a e (advectionUpwind G d _ _)
    rw [e1, e1, F, F, faster_normal a h]
    split_ifs <;> simp

theorem negate_boost (a : K) {d e : Fin 3} (h : d ≠ e) (u : State K np) :
    negateMom d (boost a e u) = boost a e (negateMom d u) := by
  funext i
  cases i with
  | rho => simp [negateMom, boost]
  | mom c =>
    by_cases hc : c = e
    · subst hc
      simp [negateMom, boost, Ne.symm h]
    · by_cases hd : c = d
      · subst hd; simp [negateMom, boost, hc]
      · simp [negateMom, boost, hc, hd]
  | en => simp [negateMom, boost, Ne.symm h]
  | ps j => simp [negateMom, boost]

theorem ghost_boost (c : EulerConfig K np) (e : Fin 3) (hS : DropSetup c.scheme e) (a : K) (s : Side) (d : Fin 3) :
    (c.scheme.ghost s d).Follows (boost a e) := by
  unfold Scheme.ghost
  split
  · rename_i hd
    by_cases h : d = e
    · subst h
      have := hS.noWall hd s
      revert this
      show c.bc.kind d s ≠ _ → (sideGhost _ (c.bc.kind d s)).Follows _
      cases c.bc.kind d s <;> intro h' <;> first | exact absurd rfl h' | trivial | exact fun _ => rfl
    · show (sideGhost _ (c.bc.kind d s)).Follows _
      cases c.bc.kind d s <;> first | trivial | exact fun _ => rfl | exact fun v => negate_boost a h v
  · trivial

/-- **C76** (one evaluation) With limiting off, let `u` not vary along `e` on the cells and have no zero density
at the cell centres where the code divides by it. Then the rate of change at the state boosted by `a` along `e` is
the boosted rate of change: both evaluations succeed, densities, pressures, scalars and the other velocities
evolve as without the boost. -/
theorem C76_rhs (c : EulerConfig K np) (e : Fin 3) (hS : DropSetup c.scheme e)
    (hG : c.riem = .hllc → IsSqrt c.gas.sqrt ∧ 0 < c.gas.csqFloor) (a : K)
    (junk junk' : ℕ → Ix → State K np) (mem mem' : Fin 3 → Ix → State K np) (t t' : K) (u u' : Ix → State K np)
    (hu : ∀ i, InCells c.n i → u i = u (Function.update i e 0)) (h0 : CentersOK c c.p u)
    (hu' : ∀ i, InCells c.n i → u' i = boost a e (u i)) :
    ∃ dt dt' D D', solverRHS c.scheme junk mem t t' u = .ok (dt, D) ∧
      solverRHS c.scheme junk' mem' t t' u' = .ok (dt', D') ∧
      (∀ i, InCells c.n i → D' i = boost a e (D i)) ∧
      (∀ i, InCells c.n i → D i = D (Function.update i e 0)) ∧
      (∀ τ, c.fixedDt = some τ → dt = τ ∧ dt' = τ) := by
  obtain ⟨U, hU⟩ : ∃ U : Ix → State K np, U = fun i => u (Function.update i e 0) := ⟨_, rfl⟩
  have hUc : ConstAlong e U := by
    intro i k
    rw [hU]
    beta_reduce
    congr 1
    funext x
    by_cases h : x = e
    · subst h; simp
    · simp [h]
  have sides := hS.sides.sides hS.cells (fun x h => DropSetup.inactive x h rfl) t
  obtain ⟨dt, hdt, q⟩ := rhs_spec c.scheme hS.unlimited hS.degree hS.cells t _ _ sides junk mem t' u U
    (fun i hi => by rw [hU]; exact hu i hi)
  obtain ⟨dt', hdt', q'⟩ := rhs_spec c.scheme hS.unlimited hS.degree hS.cells t _ _ sides junk' mem' t' u'
    (fun i => boost a e (U i)) (fun i hi => by rw [hu' i hi, hU]; exact congrArg _ (hu i hi))
  obtain ⟨-, x2⟩ := extAll_drop hUc c.scheme.n c.scheme.n (c.scheme.ghost .l) (c.scheme.ghost .r) (c.scheme.ghost .l)
    (c.scheme.ghost .r) ⟨hS.passes _, hS.passes _, hS.passes _, hS.passes _⟩
    (fun x _ => ⟨rfl, rfl, rfl, c.scheme.ghost_moves _ _, c.scheme.ghost_moves _ _⟩)
  rw [extAll_comp (boost a e) _ _ _ (ghost_boost c e hS a .l) (ghost_boost c e hS a .r)] at q' hdt'
  have h0' : OnBox (fun d => c.n d) (fun d => gwMargin c.scheme c.p d + ceilHalf (c.p d)) (fun v => v .rho ≠ 0)
      (latCenters K c.p (extAll c.scheme.n (c.scheme.ghost .l) (c.scheme.ghost .r) U)) := by
    have agree : OnBox (fun d => c.n d) (fun d => fluxWidth c.scheme c.p d) (fun x : State K np × State K np => x.1 = x.2)
        (fun i => (padded c.scheme u i, extAll c.scheme.n (c.scheme.ghost .l) (c.scheme.ghost .r) U i)) :=
      fun i hi => extAll_congr c.scheme.bc c.scheme.negate c.scheme.n (fluxWidth c.scheme c.p) t _ _
        (fun d => (sides d).1) (fun d => (sides d).2) u U (fun i hi => by rw [hU]; exact hu i hi) i hi
    have eqA : AffClosed K fun x : State K np × State K np => x.1 = x.2 := by
      intro x y z s hx hy hz
      simp only [Prod.snd_add, Prod.smul_snd, Prod.snd_sub, Prod.fst_add, Prod.smul_fst, Prod.fst_sub, hx, hy, hz]
    have := OnBox.centers (m := fun d => gwMargin c.scheme c.p d + ceilHalf (c.p d)) eqA c.p hS.degree
      (agree.mono fun d => by
        unfold gwMargin fluxWidth
        beta_reduce
        split <;> push_cast <;> omega)
    intro i hi
    have h1 := this i hi
    rw [latCenters_pair] at h1
    simp only at h1
    rw [← h1]
    exact h0 i hi
  generalize extAll c.scheme.n (c.scheme.ghost .l) (c.scheme.ghost .r) U = Φ at *
  have x2' : ConstAlong e fun i => boost a e (Φ i) := x2.map _
  have w2 := (latPrim_drop (K := K) x2 c.scheme.prim c.scheme.p hS.degree).2
  have w2' := (latPrim_drop (K := K) x2' c.scheme.prim c.scheme.p hS.degree).2
  have fc : ∀ d, ConstAlong e (schemeFlux c.scheme c.scheme.p none Φ d) := fun d =>
    latFlux_constAlong (K := K) w2 (c.scheme.riem d) c.scheme.p hS.degree d
  have fc' : ∀ d, ConstAlong e (schemeFlux c.scheme c.scheme.p none (fun i => boost a e (Φ i)) d) := fun d =>
    latFlux_constAlong (K := K) w2' (c.scheme.riem d) c.scheme.p hS.degree d
  have lin : AffClosed K fun x : State K np × State K np => x.2 = boost a e x.1 := by
    intro x y z s hx hy hz
    simp only [Prod.snd_add, Prod.smul_snd, Prod.snd_sub, Prod.fst_add, Prod.smul_fst, Prod.fst_sub, hx, hy, hz,
      map_add, map_smul, map_sub]
  have linP : AffClosed K fun x : State K np × State K np => x.2 = faster a e x.1 := by
    have : ∀ w : State K np, faster a e w = w + fun i => if i = .mom e then a else 0 := by
      intro w
      funext i
      cases i <;> simp [faster]
    intro x y z s hx hy hz
    simp only [this] at hx hy hz ⊢
    simp only [Prod.snd_add, Prod.smul_snd, Prod.snd_sub, Prod.fst_add, Prod.smul_fst, Prod.fst_sub, hx, hy, hz]
    module
  have flux : ∀ d, d ≠ e → c.scheme.active d = true → ∀ i, InFaces c.n d i →
      schemeFlux c.scheme c.scheme.p none (fun i => boost a e (Φ i)) d i =
        boost a e (schemeFlux c.scheme c.scheme.p none Φ d i) := by
    intro d hd ha i hi
    have := schemeFlux_closed c.scheme.pair (fun x => x.2 = boost a e x.1) (fun x => x.2 = faster a e x.1)
      (fun d x => d ≠ e → x.2 = boost a e x.1) lin linP (fun d => ?_) c.scheme.p hS.degree c.scheme.inactive_p none
      (fun i => (Φ i, boost a e (Φ i))) (fun i _ => rfl) ⟨?_, (fun s hs => nomatch hs), ?_⟩ d ha i hi hd
    · rw [schemeFlux_pair] at this
      exact this
    · intro x y z s hx hy hz hd
      exact lin x y z s (hx hd) (hy hd) (hz hd)
    · intro j hj hx
      rw [latCenters_pair] at hx ⊢
      show computePrimitives _ _ = faster a e (computePrimitives _ _)
      simp only at hx ⊢
      rw [hx]
      exact C76_boost _ _ _ _ (h0' j hj)
    · intro d _ j _ x h1 h2 hd
      show riemann _ _ _ _ _ = boost a e (riemann _ _ _ _ _)
      rw [h1, h2]
      exact riemann_faster c.riem c.gas hG a hd _ _
  refine ⟨dt, dt', _, _, q, q', fun i hi => ?_, fun i hi => ?_, ?_⟩
  · refine (if_pos hi).trans (Eq.trans ?_ (congrArg _ (if_pos hi).symm))
    unfold latDiv
    rw [map_sum]
    refine Finset.sum_congr rfl fun d _ => ?_
    by_cases ha : c.scheme.active d = true
    · rw [if_pos ha, if_pos ha, map_smul, map_sub]
      by_cases hd : d = e
      · subst hd
        rw [fc' d i 1, fc d i 1, sub_self, sub_self]
      · rw [flux d hd ha _ fun x => ?_, flux d hd ha _ fun x => ?_] <;>
          have := hi x <;> by_cases he : x = d <;> simp [he] <;> first | (subst he; omega) | omega
    · rw [if_neg ha, if_neg ha, map_zero]
  · have hi' : InCells c.scheme.n (Function.update i e 0) := by
      intro x
      have := hS.cells x
      by_cases h : x = e
      · subst h; simp; omega
      · simp only [Function.update_of_ne h]
        exact hi x
    refine (if_pos hi).trans (Eq.trans ?_ (if_pos hi').symm)
    unfold latDiv
    refine Finset.sum_congr rfl fun d _ => ?_
    rw [(fc d).update i 0]
    have : schemeFlux c.scheme c.scheme.p none Φ d (Function.update i e 0 + Pi.single d 1) =
        schemeFlux c.scheme c.scheme.p none Φ d (i + Pi.single d 1) := by
      rw [← (fc d).update (Function.update i e 0 + Pi.single d 1) 0, ← (fc d).update (i + Pi.single d 1) 0]
      congr 1
      funext x
      by_cases h : x = e
      · subst h; simp
      · simp [h]
    rw [this]
  · intro τ hτ
    unfold IsDt at hdt hdt'
    rw [show c.scheme.fixedDt = some τ from hτ] at hdt hdt'
    exact ⟨hdt, hdt'⟩

/-- The boost does not change which states have a zero density at a centre. -/
theorem centersOK_boost (c : EulerConfig K np) (e : Fin 3) (hS : DropSetup c.scheme e) (a : K)
    (u u' : Ix → State K np) (hu' : ∀ i, InCells c.n i → u' i = boost a e (u i)) :
    CentersOK c c.p u ↔ CentersOK c c.p u' := by
  have sides := hS.sides.sides hS.cells (fun x h => DropSetup.inactive x h rfl) 0
  have lin : AffClosed K fun x : State K np × State K np => x.2 = boost a e x.1 := by
    intro x y z s hx hy hz
    simp only [Prod.snd_add, Prod.smul_snd, Prod.snd_sub, Prod.fst_add, Prod.smul_fst, Prod.fst_sub, hx, hy, hz,
      map_add, map_smul, map_sub]
  have agree : OnBox (fun d => c.n d) (fun d => fluxWidth c.scheme c.p d)
      (fun x : State K np × State K np => x.2 = boost a e x.1)
      (fun i => (padded c.scheme u i, padded c.scheme u' i)) := by
    intro i hi
    have h1 := extAll_congr c.scheme.bc c.scheme.negate c.scheme.n (fluxWidth c.scheme c.p) 0 _ _
      (fun d => (sides d).1) (fun d => (sides d).2) u' (fun i => boost a e (u i)) hu' i hi
    rw [extAll_comp (boost a e) _ _ _ (ghost_boost c e hS a .l) (ghost_boost c e hS a .r)] at h1
    exact h1
  have := OnBox.centers (m := fun d => gwMargin c.scheme c.p d + ceilHalf (c.p d)) lin c.p hS.degree
    (agree.mono fun d => by
      unfold gwMargin fluxWidth
      beta_reduce
      split <;> push_cast <;> omega)
  rw [latCenters_pair] at this
  unfold CentersOK
  constructor <;> intro h i hi <;> have h1 := this i hi <;> simp only at h1
  · rw [h1]; exact h i hi
  · have := h i hi
    rw [h1] at this
    exact this

/-- `x.1` does not vary along `e` on the cells, and `x.2` is `x.1` boosted by `a` along `e`. -/
def boosted (K : Type) [Field K] [LinearOrder K] [IsStrictOrderedRing K] (np : ℕ) (n : Fin 3 → ℕ) (e : Fin 3) (a : K) :
    Submodule K ((Ix → State K np) × (Ix → State K np)) where
  carrier := {x | ∀ i, InCells n i → x.1 i = x.1 (Function.update i e 0) ∧ x.2 i = boost a e (x.1 i)}
  add_mem' := fun ha hb i hi => by
    refine ⟨?_, ?_⟩
    · simp only [Prod.fst_add, Pi.add_apply]; rw [(ha i hi).1, (hb i hi).1]
    · simp only [Prod.fst_add, Prod.snd_add, Pi.add_apply, map_add]; rw [(ha i hi).2, (hb i hi).2]
  zero_mem' := fun i _ => ⟨rfl, by simp⟩
  smul_mem' := fun c x hx i hi => by
    refine ⟨?_, ?_⟩
    · simp only [Prod.smul_fst, Pi.smul_apply]; rw [(hx i hi).1]
    · simp only [Prod.smul_fst, Prod.smul_snd, Pi.smul_apply, map_smul]; rw [(hx i hi).2]

open Classical in
/-- **C76** With limiting off and a prescribed step size, take two runs from states that do not vary along `e`,
the second one boosted by `a` along `e`; a run stops where it would divide by a zero density at a cell
centre. The runs take the same steps at the same times and stop alike, and all stored states and the
final state of the second are those of the first boosted by `a`: for every `a`, each Riemann solver, every degree up
to 8, integrator and arguments of `integrate`, whatever the uninitialised memory holds. -/
theorem C76_run (c : EulerConfig K np) (e : Fin 3) (hS : DropSetup c.scheme e)
    (hG : c.riem = .hllc → IsSqrt c.gas.sqrt ∧ 0 < c.gas.csqFloor) (a τ : K) (hτ : c.fixedDt = some τ)
    (f f' : RHS K (Ix → State K np)) (hf : IsSolverRHS c.scheme f) (hf' : IsSolverRHS c.scheme f') (m : Integrator)
    (fuel : ℕ) (T : Option K) (n : Option ℕ) (exact : Bool) (downbeats : List K) (logEvery : Bool)
    (st st' : ODEState K (Ix → State K np) (Ix → State K np))
    (h : RelState (InRel (boosted K np c.n e a)) (InRel (boosted K np c.n e a)) st st') :
    Option.Rel (RelOut (InRel (boosted K np c.n e a)) (InRel (boosted K np c.n e a)))
      (st.integrate (stepper (fun s t u => if CentersOK c c.p u then f s t u else .error .valueError) m) (·.u) fuel
        ⟨T, n, exact, downbeats, logEvery, none⟩)
      (st'.integrate (stepper (fun s t u => if CentersOK c c.p u then f' s t u else .error .valueError) m) (·.u) fuel
        ⟨T, n, exact, downbeats, logEvery, none⟩) := by
  refine integrate_rel (boosted K np c.n e a) _ _ _ ?_ m _ _ (fun _ _ h => h.u) fuel _ _
    ⟨rfl, rfl, rfl, rfl, rfl, .none⟩ st st' h
  intro s t u u' hu
  have hiff := centersOK_boost c e hS a u u' fun i hi => (hu i hi).2
  by_cases h0 : CentersOK c c.p u
  · simp only [if_pos h0, if_pos (hiff.1 h0)]
    obtain ⟨junk, mem, q⟩ := hf s t u
    obtain ⟨junk', mem', q'⟩ := hf' s t u'
    obtain ⟨dt, dt', D, D', h1, h2, h3, h4, h5⟩ := C76_rhs c e hS hG a junk junk' mem mem' s t u u'
      (fun i hi => (hu i hi).1) h0 (fun i hi => (hu i hi).2)
    obtain ⟨rfl, rfl⟩ := h5 τ hτ
    rw [q, q', h1, h2]
    exact ⟨rfl, fun i hi => ⟨h4 i hi, h3 i hi⟩⟩
  · simp only [if_neg h0, if_neg (fun h => h0 (hiff.2 h))]
    rfl

/-- The hypotheses hold for the strip of C75 (HLLC, degrees 3 and 2) and a boost along y, from x-dependent data. -/
example (u : Ix → State ℝ 1) : DropSetup stripConfig.scheme 1 ∧
    (stripConfig.riem = .hllc → IsSqrt stripConfig.gas.sqrt ∧ 0 < stripConfig.gas.csqFloor) ∧
    RelState (K := ℝ) (InRel (boosted ℝ 1 stripConfig.n 1 7)) (InRel (boosted ℝ 1 stripConfig.n 1 7))
      (ODEState.init fun i => u (Function.update i 1 0)) (ODEState.init fun i => boost 7 1 (u (Function.update i 1 0))) := by
  refine ⟨strip_setup, fun _ => ⟨airGas_sqrt, by norm_num [stripConfig, airGas]⟩, rfl, rfl, rfl, fun i _ => ⟨?_, rfl⟩,
    .nil, rfl⟩
  simp [ODEState.init]

end FVHOE
