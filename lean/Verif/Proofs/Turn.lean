import Verif.Proofs.SymmetryExt
import Verif.Proofs.Refine
import Verif.Proofs.ODERel
import Verif.Props.C13_solver

/-! The solver under exchanging and reversing axes. -/

set_option linter.unusedSectionVars false

namespace FVHOE

variable {K : Type} [Field K] [LinearOrder K] [IsStrictOrderedRing K] {np : ℕ}

/-- The column of variables in the transformed problem: velocity component `d` is component `σ d`, negated when
axis `d` is reversed. -/
def turnState (K : Type) [Field K] (np : ℕ) (σ : Equiv.Perm (Fin 3)) (fl : Fin 3 → Bool) :
    State K np →ₗ[K] State K np where
  toFun v i := match i with
    | .mom d => if fl d = true then -v (.mom (σ d)) else v (.mom (σ d))
    | .rho => v .rho
    | .en => v .en
    | .ps j => v (.ps j)
  map_add' a b := by
    funext i
    cases i with
    | mom d => simp only [Pi.add_apply]; split_ifs <;> ring
    | rho => rfl
    | en => rfl
    | ps j => rfl
  map_smul' c a := by
    funext i
    cases i with
    | mom d => simp only [Pi.smul_apply, smul_eq_mul, RingHom.id_apply]; split_ifs <;> ring
    | rho => rfl
    | en => rfl
    | ps j => rfl

variable (σ : Equiv.Perm (Fin 3)) (fl : Fin 3 → Bool)

@[simp] theorem turn_rho (v : State K np) : turnState K np σ fl v .rho = v .rho := rfl
@[simp] theorem turn_en (v : State K np) : turnState K np σ fl v .en = v .en := rfl
@[simp] theorem turn_ps (v : State K np) (j : Fin np) : turnState K np σ fl v (.ps j) = v (.ps j) := rfl
theorem turn_mom (v : State K np) (d : Fin 3) : turnState K np σ fl v (.mom d) =
    if fl d = true then -v (.mom (σ d)) else v (.mom (σ d)) := rfl

theorem sum3_perm (g : Fin 3 → K) : (sum3 fun d => g (σ d)) = sum3 g := by
  have e : ∀ g : Fin 3 → K, sum3 g = ∑ d, g d := fun g => by rw [Fin.sum_univ_three]; rfl
  rw [e, e]
  exact Equiv.sum_comp σ g

theorem prim_turn (γ : K) (v : State K np) :
    computePrimitives γ (turnState K np σ fl v) = turnState K np σ fl (computePrimitives γ v) := by
  funext i
  cases i with
  | rho => rfl
  | ps j => rfl
  | mom d =>
    simp only [turn_mom, computePrimitives, turn_rho]
    split_ifs
    · rw [neg_div]
    · rfl
  | en =>
    simp only [turn_en, computePrimitives, turn_rho, turn_mom]
    rw [← sum3_perm σ fun d => v (.mom d) * (v (.mom d) / v .rho)]
    congr 4
    funext d
    split_ifs
    · rw [neg_div, neg_mul_neg]
    · rfl

theorem cons_turn (γ : K) (v : State K np) :
    computeConservatives γ (turnState K np σ fl v) = turnState K np σ fl (computeConservatives γ v) := by
  funext i
  cases i with
  | rho => rfl
  | ps j => rfl
  | mom d =>
    simp only [turn_mom, computeConservatives, turn_rho]
    split_ifs
    · rw [mul_neg]
    · rfl
  | en =>
    simp only [turn_en, computeConservatives, turn_rho, turn_mom]
    rw [← sum3_perm σ fun d => v .rho * v (.mom d) * v (.mom d)]
    congr 3
    funext d
    split_ifs
    · ring
    · rfl

theorem sound_turn (G : Gas K) (v : State K np) : soundSpeed G (turnState K np σ fl v) = soundSpeed G v := rfl

theorem speed_turn (G : Gas K) (k : ℕ) (v : State K np) :
    signalSpeed G k (turnState K np σ fl v) = signalSpeed G k v := by
  unfold signalSpeed
  rw [sound_turn, ← sum3_perm σ fun d => |v (.mom d)|]
  congr 2
  funext d
  rw [turn_mom]
  split_ifs
  · rw [abs_neg]
  · rfl

theorem fluxes_turn (w u : State K np) (d : Fin 3) (hd : fl d = false) (b : Bool) :
    computeFluxes (turnState K np σ fl w) (turnState K np σ fl u) d b =
      turnState K np σ fl (computeFluxes w u (σ d) b) := by
  have hm : turnState K np σ fl w (.mom d) = w (.mom (σ d)) := by rw [turn_mom, hd]; rfl
  funext i
  cases i with
  | rho => simp only [computeFluxes, hm, turn_rho]
  | ps j => simp only [computeFluxes, hm, turn_ps]
  | en => simp only [computeFluxes, hm, turn_en]
  | mom e =>
    simp only [computeFluxes, hm, turn_mom, turn_en]
    by_cases he : e = d
    · subst he
      simp [hd]
    · have : ¬ σ e = σ d := fun h => he (σ.injective h)
      simp only [he, this, and_false, if_false]
      split_ifs
      · rw [mul_neg]
      · rfl

theorem hllcWaves_turn (G : Gas K) (d : Fin 3) (hd : fl d = false) (x y : State K np) :
    hllcWaves G d (turnState K np σ fl x) (turnState K np σ fl y) = hllcWaves G (σ d) x y := by
  have hm : ∀ w : State K np, turnState K np σ fl w (.mom d) = w (.mom (σ d)) := fun w => by
    rw [turn_mom, hd]; rfl
  unfold hllcWaves
  simp only [hm, cons_turn, turn_rho, turn_en, sound_turn]

/-- Directions that are not reversed: the numerical fluxes correspond for every solver and all states. -/
theorem riemann_turn (k : RiemannKind) (G : Gas K) (d : Fin 3) (hd : fl d = false) (x y : State K np) :
    riemann k G d (turnState K np σ fl x) (turnState K np σ fl y) = turnState K np σ fl (riemann k G (σ d) x y) := by
  have hm : ∀ w : State K np, turnState K np σ fl w (.mom d) = w (.mom (σ d)) := fun w => by
    rw [turn_mom, hd]; rfl
  cases k with
  | advectionUpwind =>
    simp only [riemann, advectionUpwind, cons_turn, fluxes_turn σ fl _ _ d hd, hm]
    funext i
    cases i with
    | mom e =>
      simp only [turn_mom]
      split_ifs <;> simp
    | rho => rfl
    | en => rfl
    | ps j => rfl
  | llf =>
    simp only [riemann, llf, cons_turn, fluxes_turn σ fl _ _ d hd, hm, sound_turn]
    funext i
    cases i with
    | mom e =>
      simp only [turn_mom]
      split_ifs
      · ring
      · rfl
    | rho => rfl
    | en => rfl
    | ps j => rfl
  | hllc =>
    simp only [riemann, hllc, hllcWaves_turn σ fl G d hd, cons_turn, hm]
    funext i
    cases i with
    | mom e =>
      by_cases he : e = d
      · subst he
        simp [turn_mom, hd]
      · have : ¬ σ e = σ d := fun h => he (σ.injective h)
        simp only [turn_mom, he, this, if_false, turn_rho, turn_en]
        split_ifs
        · unfold hllcUpwind
          split_ifs <;> ring
        · rfl
    | rho => rfl
    | en => rfl
    | ps j => rfl

theorem turn_mirror (d : Fin 3) (hd : fl d = true) (v : State K np) :
    turnState K np σ fl v = mirrorState d (turnState K np σ (Function.update fl d false) v) := by
  funext i
  cases i with
  | rho => rfl
  | en => rfl
  | ps j => rfl
  | mom e =>
    simp only [mirrorState, turn_mom]
    by_cases he : e = d
    · subst he; simp [hd]
    · simp [he]

/-- The numerical fluxes of a reversed direction correspond for llf, and for hllc at physical states. -/
theorem riemann_match (k : RiemannKind) (G : Gas K) (d : Fin 3) (x y : State K np)
    (h : fl d = true → k = .llf ∨ (k = .hllc ∧ G.OK ∧ Physical x ∧ Physical y)) :
    FluxMatch (turnState K np σ fl) (fl d) (riemann k G d) (riemann k G (σ d)) x y := by
  unfold FluxMatch
  by_cases hd : fl d = true
  · rw [if_pos hd]
    have hu : Function.update fl d false d = false := by simp
    have e := riemann_turn σ (Function.update fl d false) k G d hu x y
    rw [turn_mirror σ fl d hd y, turn_mirror σ fl d hd x, turn_mirror σ fl d hd (riemann k G (σ d) x y), ← e]
    rcases h hd with rfl | ⟨rfl, hG, hx, hy⟩
    · exact C16_llf G d _ _
    · exact C16_hllc G hG d _ _ ⟨hx.rho, hx.press⟩ ⟨hy.rho, hy.press⟩
  · rw [if_neg hd]
    exact riemann_turn σ fl k G d (by simpa using hd) x y

/-! ## Configurations -/

/-- The other side. -/
def Side.other : Side → Side
  | .l => .r
  | .r => .l

/-- `c'` is the configuration `c` with axes exchanged by `σ` and reversed by `fl`: axis `d` of `c'` is axis `σ d`
of `c`. -/
structure Turned (c c' : EulerConfig K np) : Prop where
  gas : c'.gas = c.gas
  riem : c'.riem = c.riem
  n : c'.n = fun d => c.n (σ d)
  p : c'.p = fun d => c.p (σ d)
  h : c'.h = fun d => c.h (σ d)
  cfl : c'.cfl = c.cfl
  fixedDt : c'.fixedDt = c.fixedDt
  kind : ∀ d s, c'.bc.kind d s = c.bc.kind (σ d) (if fl d = true then s.other else s)

theorem perm_cases : (σ 0 = 0 ∧ σ 1 = 1 ∧ σ 2 = 2) ∨ (σ 0 = 0 ∧ σ 1 = 2 ∧ σ 2 = 1) ∨
    (σ 0 = 1 ∧ σ 1 = 0 ∧ σ 2 = 2) ∨ (σ 0 = 1 ∧ σ 1 = 2 ∧ σ 2 = 0) ∨ (σ 0 = 2 ∧ σ 1 = 0 ∧ σ 2 = 1) ∨
    (σ 0 = 2 ∧ σ 1 = 1 ∧ σ 2 = 0) := by
  have h01 : σ 0 ≠ σ 1 := fun h => absurd (σ.injective h) (by decide)
  have h02 : σ 0 ≠ σ 2 := fun h => absurd (σ.injective h) (by decide)
  have h12 : σ 1 ≠ σ 2 := fun h => absurd (σ.injective h) (by decide)
  generalize σ 0 = a at *
  generalize σ 1 = b at *
  generalize σ 2 = c at *
  revert h01 h02 h12
  revert a b c
  decide

theorem max_perm {α : Type} [LinearOrder α] (g : Fin 3 → α) :
    max (max (g (σ 0)) (g (σ 1))) (g (σ 2)) = max (max (g 0) (g 1)) (g 2) := by
  rcases perm_cases σ with ⟨a, b, c⟩ | ⟨a, b, c⟩ | ⟨a, b, c⟩ | ⟨a, b, c⟩ | ⟨a, b, c⟩ | ⟨a, b, c⟩ <;>
    rw [a, b, c] <;> simp only [max_assoc, max_comm, max_left_comm]

theorem min_perm {α : Type} [LinearOrder α] (g : Fin 3 → α) :
    min (min (g (σ 0)) (g (σ 1))) (g (σ 2)) = min (min (g 0) (g 1)) (g 2) := by
  rcases perm_cases σ with ⟨a, b, c⟩ | ⟨a, b, c⟩ | ⟨a, b, c⟩ | ⟨a, b, c⟩ | ⟨a, b, c⟩ | ⟨a, b, c⟩ <;>
    rw [a, b, c] <;> simp only [min_assoc, min_comm, min_left_comm]

variable {σ} {fl}

theorem Turned.active {c c' : EulerConfig K np} (h : Turned σ fl c c') (d : Fin 3) :
    c'.scheme.active d = c.scheme.active (σ d) := by
  show (!(c'.n d == 1 && c'.p d == 0)) = (!(c.n (σ d) == 1 && c.p (σ d) == 0))
  rw [h.n, h.p]

theorem Turned.ndim {c c' : EulerConfig K np} (h : Turned σ fl c c') : c'.scheme.ndim = c.scheme.ndim := by
  rw [c'.ndim_eq, c.ndim_eq]
  unfold EulerConfig.directions
  refine Finset.card_bij (fun d _ => σ d) ?_ (fun _ _ _ _ h => σ.injective h) ?_
  · intro d hd
    simp only [Finset.mem_filter, Finset.mem_univ, true_and] at hd ⊢
    rwa [h.n, h.p] at hd
  · intro e he
    obtain ⟨d, rfl⟩ := σ.surjective e
    refine ⟨d, ?_, rfl⟩
    simp only [Finset.mem_filter, Finset.mem_univ, true_and] at he ⊢
    rwa [h.n, h.p]

theorem Turned.gw {c c' : EulerConfig K np} (h : Turned σ fl c c') : fluxGw c'.p = fluxGw c.p := by
  unfold fluxGw
  rw [h.p]
  have := max_perm σ c.p
  simp only [this]

theorem Turned.isDt {c c' : EulerConfig K np} (h : Turned σ fl c c') (W : Ix → State K np) (dt : K)
    (hd : IsDt c.scheme c.p W dt) :
    IsDt c'.scheme c'.p (fun i => turnState K np σ fl (W (tau σ fl (lastCell c.n) i))) dt := by
  unfold IsDt at hd ⊢
  rw [show c'.scheme.fixedDt = c.scheme.fixedDt from h.fixedDt]
  cases hf : c.scheme.fixedDt with
  | some x => rw [hf] at hd; exact hd
  | none =>
    rw [hf] at hd
    obtain ⟨m, ⟨i, hi, hm⟩, hmax, rfl⟩ := hd
    have hsp : ∀ v, c'.scheme.speed c'.scheme.ndim (turnState K np σ fl v) = c.scheme.speed c.scheme.ndim v := by
      intro v
      rw [h.ndim]
      show signalSpeed c'.gas _ _ = signalSpeed c.gas _ _
      rw [h.gas]
      exact speed_turn σ fl _ _ v
    have hbox : ∀ i, InDtBox c'.scheme c'.p i ↔ InDtBox c.scheme c.p (tau σ fl (lastCell c.n) i) := by
      intro i
      unfold InDtBox
      rw [← σ.forall_congr_right (q := fun e => -(if c.scheme.active e = true then (fluxGw c.p : ℤ) else 0) ≤
        tau σ fl (lastCell c.n) i e ∧ tau σ fl (lastCell c.n) i e <
          c.scheme.n e + (if c.scheme.active e = true then (fluxGw c.p : ℤ) else 0))]
      refine forall_congr' fun d => ?_
      rw [h.active, h.gw, tau_apply, show c'.scheme.n d = c.n (σ d) from congrFun h.n d,
        show c.scheme.n (σ d) = c.n (σ d) from rfl]
      unfold lastCell
      generalize (if c.scheme.active (σ d) = true then (fluxGw c.p : ℤ) else 0) = g
      split_ifs
      · omega
      · rfl
    refine ⟨m, ?_, fun j hj => ?_, ?_⟩
    · obtain ⟨j, rfl⟩ := tau_inj σ fl c.n i
      exact ⟨j, (hbox j).2 hi, by rw [hsp, hm]⟩
    · rw [hsp]
      exact hmax _ ((hbox j).1 hj)
    · show _ = c'.cfl * min (min (c'.h 0) (c'.h 1)) (c'.h 2) / m
      rw [h.cfl, h.h]
      have := min_perm σ c.h
      simp only [this]
      rfl

/-- The state with zeros outside the array. -/
def clip (n : Fin 3 → ℕ) (u : Ix → State K np) : Ix → State K np := fun i => if InCells n i then u i else 0

theorem clip_turn {c c' : EulerConfig K np} (h : Turned σ fl c c') (u u' : Ix → State K np)
    (hu : ∀ i, InCells c'.n i → u' i = turnState K np σ fl (u (tau σ fl (lastCell c.n) i))) :
    clip c'.n u' = fun i => turnState K np σ fl (clip c.n u (tau σ fl (lastCell c.n) i)) := by
  funext i
  unfold clip
  by_cases hi : InCells c'.n i
  · rw [if_pos hi, if_pos, hu i hi]
    rw [tau_cells, ← h.n]
    exact hi
  · rw [if_neg hi, if_neg, map_zero]
    rw [tau_cells, ← h.n]
    exact hi

theorem negateMom_turn (d : Fin 3) (v : State K np) :
    negateMom d (turnState K np σ fl v) = turnState K np σ fl (negateMom (σ d) v) := by
  funext i
  cases i with
  | rho => rfl
  | en => rfl
  | ps j => rfl
  | mom e =>
    simp only [negateMom, turn_mom, Var.mom.injEq]
    by_cases he : e = d
    · subst he
      simp only [if_true]
      split_ifs <;> ring
    · have : ¬ σ e = σ d := fun hx => he (σ.injective hx)
      simp only [he, this, if_false]

theorem negateMom_comm (d e : Fin 3) (v : State K np) :
    negateMom d (negateMom e v) = negateMom e (negateMom d v) := by
  funext i
  unfold negateMom
  split_ifs <;> ring

theorem ghost_plain (c : EulerConfig K np) (s : Side) (d : Fin 3) : (c.scheme.ghost s d).Plain := by
  unfold Scheme.ghost
  split
  · cases c.scheme.bc.kind d s <;> exact trivial
  · trivial

theorem ghost_fn (c : EulerConfig K np) (s : Side) (d : Fin 3) :
    (c.scheme.ghost s d).fn = id ∨ (c.scheme.ghost s d).fn = negateMom d := by
  unfold Scheme.ghost
  split
  · cases c.scheme.bc.kind d s <;> first | exact Or.inl rfl | exact Or.inr rfl
  · exact Or.inl rfl

theorem ghost_commutes (c : EulerConfig K np) (s s' : Side) (d e : Fin 3) :
    (c.scheme.ghost s d).Commutes (c.scheme.ghost s' e) := by
  intro v
  rcases ghost_fn c s d with h | h <;> rcases ghost_fn c s' e with h' | h' <;> rw [h, h']
  · rfl
  · rfl
  · exact negateMom_comm d e v

theorem ghost_turn {c c' : EulerConfig K np} (h : Turned σ fl c c') (s : Side) (d : Fin 3) :
    Ghost.Corr (turnState K np σ fl) (c'.scheme.ghost s d)
      (c.scheme.ghost (if fl d = true then s.other else s) (σ d)) := by
  unfold Scheme.ghost
  rw [h.active]
  split
  · rw [show c'.scheme.bc.kind d s = c.scheme.bc.kind (σ d) (if fl d = true then s.other else s) from h.kind d s]
    cases c.scheme.bc.kind (σ d) (if fl d = true then s.other else s) with
    | free => exact .clamp
    | outflow => exact .mirror _ _ fun _ => rfl
    | reflective => exact .mirror _ _ fun v => negateMom_turn d v
    | _ => exact .wrap
  · exact .wrap

theorem padded_turn {c c' : EulerConfig K np} (h : Turned σ fl c c') (hn : ∀ d, 1 ≤ c.n d) (Φ : Ix → State K np) :
    padded c'.scheme (fun i => turnState K np σ fl (Φ (tau σ fl (lastCell c.n) i))) =
      fun i => turnState K np σ fl (padded c.scheme Φ (tau σ fl (lastCell c.n) i)) := by
  unfold padded
  rw [show c'.scheme.n = fun d => c.n (σ d) from h.n]
  refine extAll_tau σ fl c.n _ hn _ _ _ _ (fun d => ?_) (fun d => ?_) (fun d => ⟨ghost_plain .., ghost_plain ..⟩)
    (fun d e => ⟨ghost_commutes _ _ _ _ _, ghost_commutes _ _ _ _ _, ghost_commutes _ _ _ _ _, ghost_commutes _ _ _ _ _⟩) Φ
  · have := ghost_turn h .l d
    split_ifs at this ⊢ <;> exact this
  · have := ghost_turn h .r d
    split_ifs at this ⊢ <;> exact this

/-- The states at which the solver evaluates the fluxes of direction `d` are physical. -/
def FacesPhysical (c : EulerConfig K np) (d : Fin 3) (u : Ix → State K np) : Prop :=
  ∀ i j, InFaces c.n d i → NearFace c.p d i j →
    Physical (faceL K c.p d (latPrim K c.scheme.prim c.p (padded c.scheme (clip c.n u))) j) ∧
    Physical (faceR K c.p d (latPrim K c.scheme.prim c.p (padded c.scheme (clip c.n u))) j)

/-- What the reversed directions need: llf, or hllc at physical states. -/
def Reversible (fl : Fin 3 → Bool) (σ : Equiv.Perm (Fin 3)) (c : EulerConfig K np) (u : Ix → State K np) : Prop :=
  ∀ d, fl d = true → c.scheme.active (σ d) = true → c.riem = .llf ∨ (c.riem = .hllc ∧ c.gas.OK ∧ FacesPhysical c (σ d) u)

theorem face_in {n : Fin 3 → ℕ} {d : Fin 3} {i j : Ix} (hi : InCells (fun d => n (σ d)) i)
    (hj : j = i ∨ j = i + Pi.single d 1) : InFaces n (σ d) (tau σ fl (faceOff σ fl (lastCell n) d) j) := by
  intro e
  obtain ⟨e, rfl⟩ := σ.surjective e
  have h1 := hi e
  beta_reduce at h1
  rw [tau_apply]
  unfold faceOff lastCell
  by_cases he : e = d
  · subst he
    rw [Pi.single_eq_same]
    have : j e = i e ∨ j e = i e + 1 := by rcases hj with rfl | rfl <;> simp
    by_cases hf : fl e = true
    · simp only [if_pos hf, Pi.add_apply, Pi.single_eq_same]
      omega
    · simp only [if_neg hf]
      omega
  · have hne : σ e ≠ σ d := fun h => he (σ.injective h)
    have : j e = i e := by rcases hj with rfl | rfl <;> simp [he]
    rw [Pi.single_eq_of_ne hne]
    by_cases hf : fl d = true
    · simp only [if_pos hf, Pi.add_apply, Pi.single_eq_of_ne hne]
      split_ifs <;> omega
    · simp only [if_neg hf]
      split_ifs <;> omega

/-- One evaluation of the transformed problem. -/
theorem turn_rhs {c c' : EulerConfig K np} (h : Turned σ fl c c') (hl : c.limiting = none) (hl' : c'.limiting = none)
    (hp : ∀ d, c.p d ≤ 8) (hn : ∀ d, 1 ≤ c.n d) (hs : PlainSides c.scheme (fluxWidth c.scheme c.p))
    (hs' : PlainSides c'.scheme (fluxWidth c'.scheme c'.p))
    (junk junk' : ℕ → Ix → State K np) (mem mem' : Fin 3 → Ix → State K np) (t t' : K) (u u' : Ix → State K np)
    (hu : ∀ i, InCells c'.n i → u' i = turnState K np σ fl (u (tau σ fl (lastCell c.n) i)))
    (hr : Reversible fl σ c u) :
    ∃ dt D D', solverRHS c.scheme junk mem t t' u = .ok (dt, D) ∧
      solverRHS c'.scheme junk' mem' t t' u' = .ok (dt, D') ∧
      ∀ i, InCells c'.n i → D' i = turnState K np σ fl (D (tau σ fl (lastCell c.n) i)) := by
  have hin : ∀ (c : EulerConfig K np) d, c.scheme.active d = false → fluxWidth c.scheme c.p d = 0 := by
    intro c d hd
    have hp0 : c.p d = 0 := c.scheme.inactive_p d hd
    simp [fluxWidth, hd, hp0, ceilHalf]
  have hp' : ∀ d, c'.p d ≤ 8 := fun d => by rw [h.p]; exact hp _
  have hn' : ∀ d, 1 ≤ c'.n d := fun d => by rw [h.n]; exact hn _
  obtain ⟨dt, hdt, e⟩ := rhs_spec c.scheme hl hp hn t _ _ (hs.sides hn (hin c) t) junk mem t' u (clip c.n u)
    fun i hi => (if_pos hi).symm
  obtain ⟨dt', hdt', e'⟩ := rhs_spec c'.scheme hl' hp' hn' t _ _ (hs'.sides hn' (hin c') t) junk' mem' t' u'
    (clip c'.n u') fun i hi => (if_pos hi).symm
  have hU : padded c'.scheme (clip c'.n u') =
      fun i => turnState K np σ fl (padded c.scheme (clip c.n u) (tau σ fl (lastCell c.n) i)) := by
    rw [clip_turn h u u' hu, padded_turn h hn]
  have hW : latPrim K c'.scheme.prim c'.p (padded c'.scheme (clip c'.n u')) = fun i => turnState K np σ fl
      (latPrim K c.scheme.prim c.p (padded c.scheme (clip c.n u)) (tau σ fl (lastCell c.n) i)) := by
    rw [hU, h.p, show c'.scheme.prim = c.scheme.prim by
      show computePrimitives c'.gas.gamma = computePrimitives c.gas.gamma
      rw [h.gas]]
    exact latPrim_tau σ fl _ _ hp _ (prim_turn σ fl _) _
  have hd : dt' = dt := by
    have := h.isDt _ _ hdt
    change IsDt c'.scheme c'.p (latPrim K c'.scheme.prim c'.p (padded c'.scheme (clip c'.n u'))) dt' at hdt'
    rw [hW] at hdt'
    exact hdt'.unique this
  subst hd
  refine ⟨_, _, _, e, e', fun i hi => ?_⟩
  have hi2 : InCells c.n (tau σ fl (lastCell c.n) i) := by
    rw [tau_cells, ← h.n]
    exact hi
  rw [if_pos (show InCells c'.scheme.n i from hi), if_pos (show InCells c.scheme.n _ from hi2)]
  have ha : c'.scheme.active = fun d => c.scheme.active (σ d) := funext h.active
  rw [ha, show c'.scheme.h = fun d => c.scheme.h (σ d) from h.h]
  refine latDiv_tau σ fl (lastCell c.n) _ _ _ _ _ i fun d hd j hj => ?_
  have hface := face_in (fl := fl) (σ := σ) (n := c.n) (d := d) (i := i) (j := j) (by rw [← h.n]; exact hi) hj
  change latFlux K (riemann c'.riem c'.gas d) c'.p none d
    (latPrim K c'.scheme.prim c'.p (padded c'.scheme (clip c'.n u'))) j = _
  rw [hW, h.riem, h.gas, h.p]
  refine latFlux_tau σ fl (lastCell c.n) _ hp _ (riemann c.riem c.gas (σ d)) d _ j fun k hk => ?_
  refine riemann_match σ fl _ _ d _ _ fun hfl => ?_
  rcases hr d hfl hd with h1 | ⟨h1, h2, h3⟩
  · exact Or.inl h1
  · exact Or.inr ⟨h1, h2, h3 _ k hface hk⟩

end FVHOE
