import Verif.Props.C99
import Verif.Props.C102

/-!
C104. The names of the axes x and y, bit by bit in floating-point arithmetic.
-/

set_option linter.unusedSectionVars false

namespace FVHOE

variable {np : ℕ} {S : Type} {fl : ℚ → ℚ}

/-- Exchange of x and y. -/
def swDim (d : Fin 3) : Fin 3 := if d = 0 then 1 else if d = 1 then 0 else 2

theorem swDim_swDim (d : Fin 3) : swDim (swDim d) = d := by revert d; decide

theorem swDim_inj {d e : Fin 3} (h : swDim d = swDim e) : d = e := by rw [← swDim_swDim d, h, swDim_swDim]

/-- Exchange of the x and y components. -/
def swVar : Var np → Var np
  | .mom d => .mom (swDim d)
  | v => v

/-- The column of the exchanged axes. -/
def swCol (w : State ℚ np) : State ℚ np := fun v => w (swVar v)

theorem swCol_mom (w : State ℚ np) (d : Fin 3) : swCol w (.mom (swDim d)) = w (.mom d) := by
  show w (.mom (swDim (swDim d))) = _
  rw [swDim_swDim]

theorem swap_sum3 (fl : ℚ → ℚ) (f : Fin 3 → ℚ) : (roundedSum3 fl fun d => f (swDim d)) = roundedSum3 fl f := by
  show fl (fl (f 1 + f 0) + f 2) = fl (fl (f 0 + f 1) + f 2)
  rw [add_comm (f 1)]

theorem swap_primitives (γ : ℚ) (u : State ℚ np) : roundedPrimitives fl γ (swCol u) = swCol (roundedPrimitives fl γ u) := by
  funext v
  cases v with
  | en =>
    show fl (fl (γ - 1) * fl (u .en - fl (1 / 2 * roundedSum3 fl fun d => fl (u (.mom (swDim d)) * fl (u (.mom (swDim d)) / u .rho))))) = _
    rw [swap_sum3 fl fun d => fl (u (.mom d) * fl (u (.mom d) / u .rho))]
    rfl
  | _ => rfl

theorem swap_conservatives (γ : ℚ) (w : State ℚ np) : roundedConservatives fl γ (swCol w) = swCol (roundedConservatives fl γ w) := by
  funext v
  cases v with
  | en =>
    show fl (fl (w .en / fl (γ - 1)) + fl (1 / 2 * roundedSum3 fl fun d => fl (fl (w .rho * w (.mom (swDim d))) * w (.mom (swDim d))))) = _
    rw [swap_sum3 fl fun d => fl (fl (w .rho * w (.mom d)) * w (.mom d))]
    rfl
  | _ => rfl

theorem swap_soundSpeed (G : Gas ℚ) (w : State ℚ np) : roundedSoundSpeed fl G (swCol w) = roundedSoundSpeed fl G w := rfl

theorem swap_speed (G : Gas ℚ) (n : ℕ) (w : State ℚ np) : roundedSpeed fl G n (swCol w) = roundedSpeed fl G n w := by
  show fl ((roundedSum3 fl fun d => |w (.mom (swDim d))|) + _) = _
  rw [swap_sum3 fl fun d => |w (.mom d)|]
  rfl

theorem swap_fluxes (w u : State ℚ np) (d : Fin 3) (pr : Bool) :
    roundedFluxes fl (swCol w) (swCol u) (swDim d) pr = swCol (roundedFluxes fl w u d pr) := by
  funext v
  have hd (f : Fin 3) : (f = swDim d) = (swDim f = d) := by
    apply propext
    constructor
    · rintro rfl; exact swDim_swDim d
    · rintro rfl; exact (swDim_swDim f).symm
  cases v with
  | mom f =>
    show _ = roundedFluxes fl w u d pr (.mom (swDim f))
    simp only [roundedFluxes, swCol_mom, hd]
    rfl
  | rho => simp only [roundedFluxes, swCol_mom]; rfl
  | en => simp only [roundedFluxes, swCol_mom]; rfl
  | ps j => simp only [roundedFluxes, swCol_mom]; rfl

theorem swap_waves (G : Gas ℚ) (d : Fin 3) (wl wr : State ℚ np) :
    roundedWaves fl G (swDim d) (swCol wl) (swCol wr) = roundedWaves fl G d wl wr := by
  unfold roundedWaves
  simp only [swap_conservatives, swCol_mom, swap_soundSpeed]
  rfl

theorem swap_riemann (k : RiemannKind) (G : Gas ℚ) (d : Fin 3) (wl wr : State ℚ np) :
    roundedRiemann fl k G (swDim d) (swCol wl) (swCol wr) = swCol (roundedRiemann fl k G d wl wr) := by
  cases k with
  | advectionUpwind =>
    funext v
    simp only [roundedRiemann, roundedUpwind, swap_conservatives, swap_fluxes, swCol_mom]
    rfl
  | llf =>
    funext v
    simp only [roundedRiemann, roundedLlf, swap_conservatives, swap_fluxes, swCol_mom, swap_soundSpeed]
    rfl
  | hllc =>
    have hd (f : Fin 3) : (f = swDim d) = (swDim f = d) := by
      apply propext
      constructor
      · rintro rfl; exact swDim_swDim d
      · rintro rfl; exact (swDim_swDim f).symm
    funext v
    unfold roundedRiemann roundedHllc
    cases v with
    | mom f =>
      simp only [swap_waves, swap_conservatives, swCol_mom, hd]
      rfl
    | rho => simp only [swap_waves, swap_conservatives, swCol_mom]; rfl
    | en => simp only [swap_waves, swap_conservatives, swCol_mom]; rfl
    | ps j => simp only [swap_waves, swap_conservatives, swCol_mom]; rfl

/-! ### The lattice -/

def swIx (i : Ix) : Ix := fun d => i (swDim d)

theorem swIx_swIx (i : Ix) : swIx (swIx i) = i := funext fun d => by unfold swIx; rw [swDim_swDim]

theorem swIx_add (d : Fin 3) (i : Ix) (k : ℤ) : swIx (i + Pi.single (swDim d) k) = swIx i + Pi.single d k := by
  funext e
  show i (swDim e) + _ = i (swDim e) + _
  by_cases h : e = d
  · subst h; simp
  · rw [Pi.single_eq_of_ne h, Pi.single_eq_of_ne fun h' => h (swDim_inj h')]

theorem swIx_sub (d : Fin 3) (i : Ix) (k : ℤ) : swIx (i - Pi.single (swDim d) k) = swIx i - Pi.single d k := by
  rw [sub_eq_add_neg, ← Pi.single_neg, swIx_add, Pi.single_neg, ← sub_eq_add_neg]

/-- The array of the exchanged axes. -/
def swArr (a : FState (Var np)) : FState (Var np) := fun v i => a (swVar v) (swIx i)

/-- All values are numbers of the format. -/
def AllRounded (fl : ℚ → ℚ) (a : FState (Var np)) : Prop := ∀ v i, fl (a v i) = a v i

/-- Rounding all values. -/
def flArr (fl : ℚ → ℚ) (a : FState (Var np)) : FState (Var np) := fun v i => fl (a v i)

theorem AllRounded.eq {a : FState (Var np)} (h : AllRounded fl a) : flArr fl a = a := funext fun v => funext fun i => h v i

/-- Rounding that keeps zero, one and rounded numbers. -/
structure KeepsFl (fl : ℚ → ℚ) : Prop where
  idem : ∀ x, fl (fl x) = fl x
  zero : fl 0 = 0
  one : fl 1 = 1

theorem roundedSum_rounded (H : KeepsFl fl) (ws : List ℚ) : ∀ (o : ℚ) (k : ℤ) (a : ℤ → ℚ), fl o = o →
    fl (roundedSum fl o ws k a) = roundedSum fl o ws k a := by
  induction ws with
  | nil => intro o k a h; exact h
  | cons c cs ih => intro o k a h; exact ih _ _ _ (H.idem _)

theorem sweep_rounded (H : KeepsFl fl) (d : Fin 3) (r : ℕ) (ws : Except PyErr (List ℚ)) (a : FState (Var np)) :
    AllRounded fl (roundedSweep fl d r ws a) := fun _ _ => roundedSum_rounded H _ _ _ _ H.zero

/-- At degree zero a sweep does nothing but round. -/
theorem interp_zero (H : KeepsFl fl) (d : Fin 3) (pos : String) (h : pos = "c" ∨ pos = "l" ∨ pos = "r") (a : FState (Var np)) :
    roundedInterp fl 0 d pos a = flArr fl a := by
  have hw : conservativeWeights 0 pos = .ok [1] := by rcases h with rfl | rfl | rfl <;> decide +kernel
  funext v i
  unfold roundedInterp roundedSweep
  rw [hw]
  show fl (0 + fl (fl 1 * a v (i + Pi.single d (-((0 : ℕ) : ℤ))))) = fl (a v i)
  rw [H.one, one_mul, zero_add, H.idem]
  simp

theorem trans_zero (H : KeepsFl fl) (d : Fin 3) (a : FState (Var np)) : roundedTrans fl 0 d a = flArr fl a := by
  funext v i
  show fl (0 + fl (fl 1 * a v (i + Pi.single d (-((0 : ℕ) : ℤ))))) = fl (a v i)
  rw [H.one, one_mul, zero_add, H.idem]
  simp

/-- Sweeps along z do not see the names of x and y. -/
theorem swap_sweep (r : ℕ) (ws : Except PyErr (List ℚ)) (a : FState (Var np)) :
    roundedSweep fl 2 r ws (swArr a) = swArr (roundedSweep fl 2 r ws a) := by
  funext v i
  unfold roundedSweep swArr
  have h (k : ℤ) : swIx (i + Pi.single 2 k) = swIx i + Pi.single 2 k := swIx_add 2 i k
  simp only [h]

theorem swap_flArr (a : FState (Var np)) : flArr fl (swArr a) = swArr (flArr fl a) := rfl

/-- The solver for the exchanged axes. -/
def RoundedConfig.swap (c : RoundedConfig) : RoundedConfig :=
  { c with n := fun d => c.n (swDim d), active := fun d => c.active (swDim d), h := fun d => c.h (swDim d) }

section
variable (H : KeepsFl fl) (c : RoundedConfig) (h0 : c.p 0 = 0) (h1 : c.p 1 = 0)
include H h0 h1

theorem swap_primAverages (a : FState (Var np)) :
    (c.swap.scheme fl np).primAverages fl (swArr a) = swArr ((c.scheme fl np).primAverages fl a) := by
  unfold RoundedScheme.primAverages
  have hp' : (c.swap.scheme fl np).p = c.p := rfl
  have hp : (c.scheme fl np).p = c.p := rfl
  simp only [hp, hp', h0, h1, interp_zero H _ "c" (.inl rfl), trans_zero H]
  unfold roundedInterp roundedTrans
  have hm (b : FState (Var np)) : (fun x i => (c.swap.scheme fl np).prim (fun y => swArr b y i) x) =
      swArr fun x i => (c.scheme fl np).prim (fun y => b y i) x := by
    funext x i
    exact congrFun (swap_primitives c.gas.gamma fun y => b y (swIx i)) x
  rw [swap_flArr, swap_flArr, swap_sweep, hm, swap_flArr, swap_flArr, swap_sweep]

omit h0 h1 in
theorem primAverages_rounded (a : FState (Var np)) : AllRounded fl ((c.scheme fl np).primAverages fl a) := by
  unfold RoundedScheme.primAverages roundedTrans
  exact sweep_rounded H _ _ _ _

/-- The flux, when x and y have degree zero. -/
theorem flux_low (a : FState (Var np)) (ha : AllRounded fl a) (d : Fin 3) : (c.scheme fl np).flux fl d a =
    if d = 2 then
      flArr fl (fun x i => roundedRiemann fl c.riem c.gas 2 (fun y => roundedInterp fl (c.p 2) 2 "r" a y (i - Pi.single 2 1))
        (fun y => roundedInterp fl (c.p 2) 2 "l" a y i) x)
    else roundedTrans fl (c.p 2) 2 (flArr fl fun x i => roundedRiemann fl c.riem c.gas d
        (fun y => roundedInterp fl (c.p 2) 2 "c" a y (i - Pi.single d 1)) (fun y => roundedInterp fl (c.p 2) 2 "c" a y i) x) := by
  have hz (pos : String) : flArr fl (roundedInterp fl (c.p 2) 2 pos a) = roundedInterp fl (c.p 2) 2 pos a :=
    (sweep_rounded H _ _ _ _).eq
  have hff (b : FState (Var np)) : flArr fl (flArr fl b) = flArr fl b := funext fun v => funext fun i => H.idem _
  have hp : (c.scheme fl np).p = c.p := rfl
  have hr : (c.scheme fl np).riem = roundedRiemann fl c.riem c.gas := rfl
  have hd : d = 0 ∨ d = 1 ∨ d = 2 := by revert d; decide
  unfold RoundedScheme.flux
  rcases hd with rfl | rfl | rfl
  · rw [if_neg (by decide)]
    simp only [show centerOrder 0 = (2, 1) from rfl, show transverseOrder 0 = (1, 2) from rfl, hp, hr, h0, h1, interp_zero H _ "c" (.inl rfl),
      interp_zero H _ "l" (.inr (.inl rfl)), interp_zero H _ "r" (.inr (.inr rfl)), trans_zero H, hz]
  · rw [if_neg (by decide)]
    simp only [show centerOrder 1 = (0, 2) from rfl, show transverseOrder 1 = (0, 2) from rfl, hp, hr, h0, h1, interp_zero H _ "c" (.inl rfl),
      interp_zero H _ "l" (.inr (.inl rfl)), interp_zero H _ "r" (.inr (.inr rfl)), trans_zero H, hz, ha.eq]
  · rw [if_pos rfl]
    simp only [show centerOrder 2 = (1, 0) from rfl, show transverseOrder 2 = (0, 1) from rfl, hp, hr, h0, h1, interp_zero H _ "c" (.inl rfl),
      trans_zero H, ha.eq, hff]

theorem swap_flux (a : FState (Var np)) (ha : AllRounded fl a) (d : Fin 3) :
    (c.swap.scheme fl np).flux fl (swDim d) (swArr a) = swArr ((c.scheme fl np).flux fl d a) := by
  have ha' : AllRounded fl (swArr a) := fun v i => ha _ _
  rw [flux_low H c h0 h1 a ha d, flux_low H c.swap h0 h1 (swArr a) ha' (swDim d)]
  have hi (pos : String) : roundedInterp fl (c.p 2) 2 pos (swArr a) = swArr (roundedInterp fl (c.p 2) 2 pos a) := swap_sweep _ _ _
  have hc (b b' : FState (Var np)) : (fun x i => roundedRiemann fl c.riem c.gas (swDim d) (fun y => swArr b y (i - Pi.single (swDim d) 1))
      (fun y => swArr b' y i) x) = swArr fun x i => roundedRiemann fl c.riem c.gas d (fun y => b y (i - Pi.single d 1)) (fun y => b' y i) x := by
    funext x i
    show roundedRiemann fl c.riem c.gas (swDim d) (swCol fun y => b y (swIx (i - Pi.single (swDim d) 1))) (swCol fun y => b' y (swIx i)) x = _
    rw [swap_riemann, swIx_sub]
    rfl
  by_cases h : d = 2
  · subst h
    rw [if_pos rfl, if_pos (by decide)]
    show flArr fl (fun x i => roundedRiemann fl c.riem c.gas (swDim 2) (fun y => roundedInterp fl (c.p 2) 2 "r" (swArr a) y
      (i - Pi.single (swDim 2) 1)) (fun y => roundedInterp fl (c.p 2) 2 "l" (swArr a) y i) x) = _
    rw [hi, hi, hc]
    rfl
  · rw [if_neg h, if_neg fun h' => h (swDim_inj (h'.trans rfl))]
    show roundedTrans fl (c.p 2) 2 (flArr fl fun x i => roundedRiemann fl c.riem c.gas (swDim d)
        (fun y => roundedInterp fl (c.p 2) 2 "c" (swArr a) y (i - Pi.single (swDim d) 1))
        (fun y => roundedInterp fl (c.p 2) 2 "c" (swArr a) y i) x) = _
    rw [hi, hc, swap_flArr]
    exact swap_sweep _ _ _

end

theorem swap_diff (h : ℚ) (d : Fin 3) (F : FState (Var np)) : roundedDiff fl h (swDim d) (swArr F) = swArr (roundedDiff fl h d F) := by
  funext v i
  unfold roundedDiff FState.times swArr
  simp only [swIx_add]

theorem swap_equation (H : KeepsFl fl) (act : Fin 3 → Bool) (h : Fin 3 → ℚ) (F F' : Fin 3 → FState (Var np))
    (hF : ∀ d, F' (swDim d) = swArr (F d)) :
    roundedEulerEquation fl (fun d => act (swDim d)) (fun d => h (swDim d)) F' = swArr (roundedEulerEquation fl act h F) := by
  have e0 : F' 0 = swArr (F 1) := hF 1
  have e1 : F' 1 = swArr (F 0) := hF 0
  have e2 : F' 2 = swArr (F 2) := hF 2
  have s0 : swDim 0 = 1 := rfl
  have s1 : swDim 1 = 0 := rfl
  have s2 : swDim 2 = 2 := rfl
  have d0 : roundedDiff fl (h 1) 0 (swArr (F 1)) = swArr (roundedDiff fl (h 1) 1 (F 1)) := swap_diff _ 1 _
  have d1 : roundedDiff fl (h 0) 1 (swArr (F 0)) = swArr (roundedDiff fl (h 0) 0 (F 0)) := swap_diff _ 0 _
  have d2 : roundedDiff fl (h 2) 2 (swArr (F 2)) = swArr (roundedDiff fl (h 2) 2 (F 2)) := swap_diff _ 2 _
  have hr (d : Fin 3) (v : Var np) (i : Ix) : fl (roundedDiff fl (h d) d (F d) v i) = roundedDiff fl (h d) d (F d) v i := H.idem _
  unfold roundedEulerEquation
  simp only [List.foldl_cons, List.foldl_nil, e0, e1, e2, s0, s1, s2, d0, d1, d2]
  funext v i
  unfold FState.plus swArr
  cases act 0 <;> cases act 1 <;> cases act 2 <;> simp [hr, add_comm]

/-! ### Runs -/

/-- `v` is `u` with the axes exchanged. -/
def Swapped (n : Fin 3 → ℕ) (u v : FState (Var np)) : Prop := ∀ w i, InCells n i → v (swVar w) (swIx i) = u w i

theorem swVar_swVar (v : Var np) : swVar (swVar v) = v := by
  cases v with
  | mom d => exact congrArg Var.mom (swDim_swDim d)
  | _ => rfl

theorem swapped_iff {n : Fin 3 → ℕ} (hn : ∀ d, 0 < n d) (u v : FState (Var np)) :
    Swapped n u v ↔ wrapAround (fun d => n (swDim d)) v = swArr (wrapAround n u) := by
  constructor
  · intro h
    funext w i
    have h1 := h (swVar w) _ (mod_inCells n hn (swIx i))
    rw [swVar_swVar] at h1
    show v w _ = u (swVar w) _
    rw [← h1]
    congr 1
    funext d
    show _ = swIx i (swDim d) % _
    unfold swIx
    rw [swDim_swDim]
  · intro h w i hi
    have h1 := congrFun (congrFun h (swVar w)) (swIx i)
    have e : (fun d => swIx i d % (n (swDim d) : ℤ)) = swIx i :=
      funext fun d => Int.emod_eq_of_lt (hi (swDim d)).1 (hi (swDim d)).2
    have e2 : (fun d => swIx (swIx i) d % (n d : ℤ)) = i := by
      rw [swIx_swIx]
      exact funext fun d => Int.emod_eq_of_lt (hi d).1 (hi d).2
    have h2 : v (swVar w) (fun d => swIx i d % (n (swDim d) : ℤ)) = u (swVar (swVar w)) fun d => swIx (swIx i) d % (n d : ℤ) := h1
    rw [e, e2, swVar_swVar] at h2
    exact h2

theorem Swapped.plus {n : Fin 3 → ℕ} {u v u' v' : FState (Var np)} (h : Swapped n u v) (h' : Swapped n u' v') :
    Swapped n (u.plus fl u') (v.plus fl v') := fun w i hi => by
  unfold FState.plus
  rw [h w i hi, h' w i hi]

theorem Swapped.times {n : Fin 3 → ℕ} {u v : FState (Var np)} (a : ℚ) (h : Swapped n u v) :
    Swapped n (u.times fl a) (v.times fl a) := fun w i hi => by
  unfold FState.times
  rw [h w i hi]

/-- The right-hand side for the exchanged axes. -/
theorem swapped_rhs (H : KeepsFl fl) (c : RoundedConfig) (hn : ∀ d, 0 < c.n d) (h0 : c.p 0 = 0) (h1 : c.p 1 = 0)
    (u v : FState (Var np)) (h : Swapped c.n u v) (s' t' : ℚ) :
    ExRel (fun x y => x.1 = y.1 ∧ Swapped c.n x.2 y.2) ((c.scheme fl np).rhs fl s' t' u) ((c.swap.scheme fl np).rhs fl s' t' v) := by
  have hw := (swapped_iff hn u v).1 h
  set a := (c.scheme fl np).primAverages fl (wrapAround c.n u) with ha
  have hv : (c.swap.scheme fl np).primAverages fl (wrapAround c.swap.n v) = swArr a := by
    show (c.swap.scheme fl np).primAverages fl (wrapAround (fun d => c.n (swDim d)) v) = _
    rw [hw, swap_primAverages H c h0 h1]
  have hsize : (c.swap.scheme fl np).size fl (swArr a) = (c.scheme fl np).size fl a := by
    have hd : c.swap.ndim = c.ndim := by
      show List.countP (fun d => c.active (swDim d)) [0, 1, 2] = List.countP c.active [0, 1, 2]
      simp only [List.countP_cons, List.countP_nil, show swDim 0 = 1 from rfl, show swDim 1 = 0 from rfl, show swDim 2 = 2 from rfl]
      omega
    have hh : min (min (c.swap.h 0) (c.swap.h 1)) (c.swap.h 2) = min (min (c.h 0) (c.h 1)) (c.h 2) := by
      show min (min (c.h 1) (c.h 0)) (c.h 2) = _
      rw [min_comm (c.h 1)]
    have hsp (i : Ix) : (c.swap.scheme fl np).speed (fun y => swArr a y i) = (c.scheme fl np).speed fun y => a y (swIx i) := by
      show roundedSpeed fl c.gas c.swap.ndim (swCol fun y => a y (swIx i)) = _
      rw [hd, swap_speed]
      rfl
    have hm : npMax ((indexList (c.swap.scheme fl np).n).map fun i => (c.swap.scheme fl np).speed fun y => swArr a y i) =
        npMax ((indexList (c.scheme fl np).n).map fun i => (c.scheme fl np).speed fun y => a y i) := by
      apply npMax_congr
      intro x
      simp only [List.mem_map, mem_indexList, hsp]
      constructor
      · rintro ⟨i, hi, rfl⟩
        refine ⟨swIx i, fun d => ?_, rfl⟩
        have := hi (swDim d)
        have e : (c.swap.scheme fl np).n (swDim d) = c.n d := congrArg c.n (swDim_swDim d)
        rw [e] at this
        exact this
      · rintro ⟨i, hi, rfl⟩
        exact ⟨swIx i, fun d => hi (swDim d), by rw [swIx_swIx]⟩
    unfold RoundedScheme.size
    rw [hm]
    show (match c.fixedDt with
      | some dt => _
      | none => _) = _
    have hh' : min (min ((c.swap.scheme fl np).h 0) ((c.swap.scheme fl np).h 1)) ((c.swap.scheme fl np).h 2) =
      min (min ((c.scheme fl np).h 0) ((c.scheme fl np).h 1)) ((c.scheme fl np).h 2) := hh
    rw [hh']
    rfl
  unfold RoundedScheme.rhs
  dsimp only
  rw [show (c.swap.scheme fl np).n = c.swap.n from rfl, show (c.scheme fl np).n = c.n from rfl, hv, hsize, ← ha]
  cases (c.scheme fl np).size fl a with
  | error e => exact rfl
  | ok dt =>
    refine ⟨rfl, ?_⟩
    have := swap_equation H c.active c.h (fun d => (c.scheme fl np).flux fl d a) (fun d => (c.swap.scheme fl np).flux fl d (swArr a))
      fun d => swap_flux H c h0 h1 a (primAverages_rounded H c _) d
    intro w i _
    have h2 := congrFun (congrFun this (swVar w)) (swIx i)
    refine Eq.trans h2 ?_
    show roundedEulerEquation fl _ _ _ (swVar (swVar w)) (swIx (swIx i)) = _
    rw [swVar_swVar, swIx_swIx]
    rfl

theorem Format.keeps (F : Format) (hp : 1 ≤ F.p) (he : F.emin ≤ 0) : KeepsFl F.fl where
  idem x := F.fl_eq hp (F.fl_has x)
  zero := F.fl_eq hp F.has_zero
  one := F.fl_eq hp ⟨1, 0, by norm_num, by simpa using one_le_pow₀ (by norm_num : (1 : ℤ) ≤ 2), he⟩

/-- **C104**. Two runs in floating-point arithmetic on periodic domains, one of which is the other with x and y exchanged: numbers of
cells, spacings, active directions, the cells of the initial values and the two components of the momenta. If the degrees along x and y are zero
(with any degree along z) and the one returns, so does the other, with the same exception if any, the same times of all steps and
snapshots, and exactly the same values in the exchanged cells. All formats, Riemann solvers, integrators and requested times are
admitted, and every function in place of the square root. -/
theorem C104_swap (F : Format) (hp : 1 ≤ F.p) (he : F.emin ≤ 0) (c : RoundedConfig) (hn : ∀ d, 0 < c.n d) (h0 : c.p 0 = 0)
    (h1 : c.p 1 = 0) (m : Integrator) (mk : ODEState ℚ (FState (Var np)) S → S) (T : ℚ) (downbeats : List ℚ) (logEvery : Bool) (fuel : ℕ)
    (u v : FState (Var np)) (out : Outcome ℚ (FState (Var np)) S)
    (hu : ∀ i j k : ℤ, InCells c.n ![i, j, k] → v .rho ![j, i, k] = u .rho ![i, j, k] ∧ v .en ![j, i, k] = u .en ![i, j, k] ∧
      v (.mom 0) ![j, i, k] = u (.mom 1) ![i, j, k] ∧ v (.mom 1) ![j, i, k] = u (.mom 0) ![i, j, k] ∧
      v (.mom 2) ![j, i, k] = u (.mom 2) ![i, j, k] ∧ ∀ q, v (.ps q) ![j, i, k] = u (.ps q) ![i, j, k])
    (hrun : (ODEState.init u).integrateWith F.ops (roundedProposal F.fl ((c.scheme F.fl np).rhs F.fl) m) mk T downbeats logEvery
      fuel = some out) :
    ∃ out', (ODEState.init v).integrateWith F.ops (roundedProposal F.fl
        ((RoundedConfig.scheme F.fl ⟨c.gas, c.riem, ![c.n 1, c.n 0, c.n 2], ![c.active 1, c.active 0, c.active 2],
          ![c.h 1, c.h 0, c.h 2], c.p, c.cfl, c.fixedDt⟩ np).rhs F.fl) m) mk T downbeats logEvery fuel = some out' ∧
      out'.2 = out.2 ∧ out'.1.t = out.1.t ∧ out'.1.timestamps = out.1.timestamps ∧ out'.1.snapshotTimes = out.1.snapshotTimes ∧
      ∀ i j k : ℤ, InCells c.n ![i, j, k] → out'.1.u .rho ![j, i, k] = out.1.u .rho ![i, j, k] ∧
        out'.1.u .en ![j, i, k] = out.1.u .en ![i, j, k] ∧
        out'.1.u (.mom 0) ![j, i, k] = out.1.u (.mom 1) ![i, j, k] ∧ out'.1.u (.mom 1) ![j, i, k] = out.1.u (.mom 0) ![i, j, k] ∧
        out'.1.u (.mom 2) ![j, i, k] = out.1.u (.mom 2) ![i, j, k] ∧ ∀ q, out'.1.u (.ps q) ![j, i, k] = out.1.u (.ps q) ![i, j, k] := by
  have H := F.keeps hp he
  have hc : c.swap = ⟨c.gas, c.riem, ![c.n 1, c.n 0, c.n 2], ![c.active 1, c.active 0, c.active 2],
      ![c.h 1, c.h 0, c.h 2], c.p, c.cfl, c.fixedDt⟩ := by
    have h3 {A : Type} (f : Fin 3 → A) : (fun d => f (swDim d)) = ![f 1, f 0, f 2] := by
      funext d
      have : d = 0 ∨ d = 1 ∨ d = 2 := by revert d; decide
      rcases this with rfl | rfl | rfl <;> rfl
    unfold RoundedConfig.swap
    rw [h3, h3, h3]
  have hix (i j k : ℤ) : swIx ![i, j, k] = ![j, i, k] := by
    funext d
    have : d = 0 ∨ d = 1 ∨ d = 2 := by revert d; decide
    rcases this with rfl | rfl | rfl <;> rfl
  have hrel (x y : FState (Var np)) : Swapped c.n x y ↔ ∀ i j k : ℤ, InCells c.n ![i, j, k] → y .rho ![j, i, k] = x .rho ![i, j, k] ∧
      y .en ![j, i, k] = x .en ![i, j, k] ∧ y (.mom 0) ![j, i, k] = x (.mom 1) ![i, j, k] ∧ y (.mom 1) ![j, i, k] = x (.mom 0) ![i, j, k] ∧
      y (.mom 2) ![j, i, k] = x (.mom 2) ![i, j, k] ∧ ∀ q, y (.ps q) ![j, i, k] = x (.ps q) ![i, j, k] := by
    constructor
    · intro h i j k hi
      have h' (w : Var np) := h w _ hi
      simp only [hix] at h'
      exact ⟨h' .rho, h' .en, h' (.mom 1), h' (.mom 0), h' (.mom 2), fun q => h' (.ps q)⟩
    · intro h w i hi
      have ei : i = ![i 0, i 1, i 2] := by
        funext d
        have : d = 0 ∨ d = 1 ∨ d = 2 := by revert d; decide
        rcases this with rfl | rfl | rfl <;> rfl
      rw [ei] at hi ⊢
      obtain ⟨a1, a2, a3, a4, a5, a6⟩ := h _ _ _ hi
      rw [hix]
      cases w with
      | rho => exact a1
      | en => exact a2
      | mom d =>
        have : d = 0 ∨ d = 1 ∨ d = 2 := by revert d; decide
        rcases this with rfl | rfl | rfl
        · exact a4
        · exact a3
        · exact a5
      | ps q => exact a6 q
  rw [← hc]
  simp only [← hrel] at hu ⊢
  unfold ODEState.integrateWith at hrun ⊢
  split at hrun
  · simp only [Option.some.injEq] at hrun
    subst hrun
    exact ⟨_, rfl, rfl, rfl, rfl, rfl, hu⟩
  · obtain ⟨out', h1, h2, h3⟩ := loopWith_inStep F.ops _ _ mk T logEvery (Swapped c.n)
      (roundedProposal_rel F.fl _ _ m _ (fun _ _ _ _ => Swapped.plus) (fun a _ _ => Swapped.times a)
        fun s' t' u v h => swapped_rhs H c hn h0 h1 u v h s' t') fuel _ _ ((ODEState.init u).snapshot mk)
      ((ODEState.init v).snapshot mk) out ⟨rfl, rfl, rfl, rfl, hu⟩ hrun
    exact ⟨out', h1, h2.symm, h3.t.symm, h3.timestamps.symm, h3.snapshotTimes.symm, h3.u⟩

/-! ### Where it ends -/

/-- **C104** (z). Exchanging x and z does change bits: the kinetic energy sums the directions one after the other, and two small
terms get lost next to a large one unless they are added first. -/
theorem C104_xz_violated : ∃ w w' : State ℚ 0, (∀ v, double.Has (w v)) ∧ w' .rho = w .rho ∧ w' .en = w .en ∧ w' (.mom 0) = w (.mom 2) ∧
    w' (.mom 1) = w (.mom 1) ∧ w' (.mom 2) = w (.mom 0) ∧
    roundedConservatives double.fl 2 w' .en ≠ roundedConservatives double.fl 2 w .en := by
  refine ⟨fun v => match v with | .rho => 1 | .mom d => if d = 0 then 1 else 11 / 2 ^ 30 | .en => 1 / 4 | .ps _ => 0,
    fun v => match v with | .rho => 1 | .mom d => if d = 2 then 1 else 11 / 2 ^ 30 | .en => 1 / 4 | .ps _ => 0,
    ?_, rfl, rfl, rfl, rfl, rfl, by decide +kernel⟩
  intro v
  cases v with
  | rho => exact ⟨1, 0, by norm_num, by decide, by decide⟩
  | mom d =>
    by_cases h : d = 0
    · exact ⟨1, 0, by simp [h], by decide, by decide⟩
    · exact ⟨11, -30, by simp [h]; norm_num, by decide, by decide⟩
  | en => exact ⟨1, -2, by norm_num, by decide, by decide⟩
  | ps j => exact j.elim0

/-- **C104** (degree). At degree 2 exchanging x and y changes bits: the sweeps towards the centres of the cells run along x first, then
along y, whatever the axes are called. Without rounding the order does not matter. -/
theorem C104_degree_violated : ∃ a : FState Unit,
    roundedInterp double.fl 2 1 "c" (roundedInterp double.fl 2 0 "c" fun w i => a w (swIx i)) () 0 ≠
      roundedInterp double.fl 2 1 "c" (roundedInterp double.fl 2 0 "c" a) () 0 ∧
    roundedInterp id 2 1 "c" (roundedInterp id 2 0 "c" fun w i => a w (swIx i)) () 0 =
      roundedInterp id 2 1 "c" (roundedInterp id 2 0 "c" a) () 0 :=
  ⟨fun _ i => if i 1 = 1 then (if i 0 = -1 then 2 else 1) else 0, by decide +kernel, by decide +kernel⟩

/-- Two cells side by side along x, with `hllc`; the function in place of the square root is constant. -/
def gasAlongX : RoundedConfig :=
  ⟨⟨7 / 5, 0, fun _ => 1⟩, .hllc, ![2, 1, 1], ![true, false, false], ![1 / 2, 1, 1], ![0, 0, 0], 4 / 5, some (1 / 64)⟩

/-- The gas of C102, along y. -/
def twoGasesY : FState (Var 0) := fun v i => match v with
  | .rho => if i 1 = 0 then 1 else 2
  | .mom d => if d = 1 then (if i 1 = 0 then 1 else 2) else 0
  | .en => if i 1 = 0 then 3 else 7 / 2
  | .ps j => j.elim0

/-- The hypotheses hold, the run along x returns after a step that changes the gas, and so does the run along y. -/
example : ∃ out out' : Outcome ℚ (FState (Var 0)) Unit,
    (ODEState.init twoGases).integrateWith double.ops (roundedProposal double.fl ((gasAlongX.scheme double.fl 0).rhs double.fl) .euler)
      (fun _ => ()) (1 / 64) [] false 3 = some out ∧
    (ODEState.init twoGasesY).integrateWith double.ops (roundedProposal double.fl ((RoundedConfig.scheme double.fl
      ⟨⟨7 / 5, 0, fun _ => 1⟩, .hllc, ![1, 2, 1], ![false, true, false], ![1, 1 / 2, 1], ![0, 0, 0], 4 / 5, some (1 / 64)⟩ 0).rhs
        double.fl) .euler) (fun _ => ()) (1 / 64) [] false 3 = some out' ∧
    out.1.u .rho ![1, 0, 0] ≠ 2 ∧ out'.1.u .rho ![0, 1, 0] = out.1.u .rho ![1, 0, 0] ∧
    out'.1.u (.mom 1) ![0, 1, 0] = out.1.u (.mom 0) ![1, 0, 0] := by
  have h : ∃ out, (ODEState.init twoGases : ODEState ℚ (FState (Var 0)) Unit).integrateWith double.ops (roundedProposal double.fl
      ((gasAlongX.scheme double.fl 0).rhs double.fl) .euler) (fun _ => ()) (1 / 64) [] false 3 = some out ∧ out.1.u .rho ![1, 0, 0] ≠ 2 := by
    have : ((ODEState.init twoGases : ODEState ℚ (FState (Var 0)) Unit).integrateWith double.ops (roundedProposal double.fl
        ((gasAlongX.scheme double.fl 0).rhs double.fl) .euler) (fun _ => ()) (1 / 64) [] false 3).any
      (fun out => decide (out.1.u .rho ![1, 0, 0] ≠ 2)) = true := by decide +kernel
    cases hr : ((ODEState.init twoGases : ODEState ℚ (FState (Var 0)) Unit).integrateWith double.ops (roundedProposal double.fl
        ((gasAlongX.scheme double.fl 0).rhs double.fl) .euler) (fun _ => ()) (1 / 64) [] false 3) with
    | none => rw [hr] at this; cases this
    | some out => rw [hr] at this; exact ⟨out, rfl, of_decide_eq_true this⟩
  obtain ⟨out, e1, e2⟩ := h
  obtain ⟨out', e3, -, -, -, -, e4⟩ := C104_swap double (by decide) (by decide) gasAlongX (by decide) rfl rfl .euler (fun _ => ()) (1 / 64) []
    false 3 twoGases twoGasesY out (fun i j k _ => ⟨rfl, rfl, rfl, rfl, rfl, fun q => q.elim0⟩) e1
  obtain ⟨a1, -, -, a2, -, -⟩ := e4 1 0 0 (by decide)
  exact ⟨out, out', e1, e3, e2, a1, a2⟩

end FVHOE
