import Verif.Model.SnapshotW
import Verif.Props.C01_C03
import Verif.Props.C63

/-!
C85: what the snapshots show. On a periodic domain the density rows of all snapshots of a run have the same sum, the total mass
of the initial data, although they are interpolated to the centres and back; at first order the snapshot is the pointwise conversion of the state;
polynomial fields are shown exactly away from the boundary.
-/

set_option linter.unusedSectionVars false

namespace FVHOE

open Polynomial

variable {K : Type} [Field K] [LinearOrder K] [IsStrictOrderedRing K]
variable {V : Type} [AddCommGroup V] [Module K V] {np : ℕ}

/-- The lattice function a snapshot shows. -/
def latShown (S : Scheme K V) (fv : Bool) (Φ : Ix → V) : Ix → V :=
  if fv then latPrim K S.prim S.p Φ else fun i => S.prim (latCenters K S.p Φ i)

theorem snapshot_spec (S : Scheme K V) (hp : ∀ d, S.p d ≤ 8) (t : K) (fv : Bool)
    (gl gr : Fin 3 → Ghost V) (hs : Sides S (fun d => 0 + (if fv then 2 else 1) * ceilHalf (S.p d)) t gl gr)
    (junk u : Ix → V) :
    ∃ w, snapshotPrimitives S t junk fv u = .ok w ∧ w.shape = S.n ∧
      ∀ i, InCells S.n i → w.get i = latShown S fv (extAll S.n gl gr u) i := by
  obtain ⟨A, eA, rA⟩ := apply_spec S.bc S.negate S.n _ t gl gr (fun d => (hs d).1) (fun d => (hs d).2) u junk
  have rA' : MRep A (fun d => S.n d) (fun d => ((if fv then 2 else 1 : ℕ) : ℤ) * ceilHalf (S.p d)) (extAll S.n gl gr u) := by
    refine Rep.congr rA ?_ ?_ (fun i hi => rfl)
    · funext d; simp only [padLo]; push_cast; ring
    · funext d; simp only [padHi]; push_cast; ring
  have fin : ∀ (w : Arr V) (Ψ : Ix → V), MRep w (fun d => S.n d) (fun _ => 0) Ψ →
      w.shape = S.n ∧ ∀ i, InCells S.n i → w.get i = Ψ i := by
    intro w Ψ h
    have hsh : w.shape = S.n := by
      funext d
      have := h.1 d
      simp only at this
      omega
    refine ⟨hsh, fun i hi => ?_⟩
    rw [h.2 i (fun d => by rw [hsh]; exact hi d)]
    congr 1
    funext d
    simp
  cases fv with
  | true =>
    obtain ⟨uc, w, e1, e2, rw'⟩ := mrep_prim (K := K) rA' S.prim S.p hp (by intro d; simp; omega)
    obtain ⟨f1, f2⟩ := fin w _ (MRep.congr rw' rfl (by funext d; simp) (fun _ _ => rfl))
    refine ⟨w, ?_, f1, f2⟩
    unfold snapshotPrimitives
    rw [eA]
    simp only [bind, Except.bind, e1, if_true]
    exact e2
  | false =>
    simp only [Bool.false_eq_true, if_false, Nat.cast_one, one_mul] at rA'
    obtain ⟨a, ea, ha⟩ := mrep_ci (K := K) rA' (S.p 0) (hp 0) 0 "c" (by simp) (by omega)
    obtain ⟨b, eb, hb⟩ := mrep_ci (K := K) ha (S.p 1) (hp 1) 1 "c" (by simp) (by simp)
    obtain ⟨c, ec, hc⟩ := mrep_ci (K := K) hb (S.p 2) (hp 2) 2 "c" (by simp) (by simp)
    obtain ⟨f1, f2⟩ := fin (c.map S.prim) _ (MRep.congr (mrep_map hc S.prim) rfl (by
      funext d
      match d with
      | 0 => simp
      | 1 => simp
      | 2 => simp) (fun _ _ => rfl))
    refine ⟨c.map S.prim, ?_, f1, f2⟩
    unfold snapshotPrimitives
    rw [eA]
    have ec' : interpolateCellCenters K A S.p = .ok c := by
      unfold interpolateCellCenters
      rw [ea]
      change (conservativeInterpolation K a (S.p 1) 1 "c" >>= _) = _
      rw [eb]
      exact ec
    simp only [bind, Except.bind, ec', Bool.false_eq_true, if_false]
    rfl

/-! ## Sums over a periodic lattice -/

theorem wsum_cellSum (n : Fin 3 → ℕ) (ws : List ℚ) (s : ℤ) (f : Ix → ℤ → V) :
    cellSum n (fun i => FVHOE.wsum K ws s (f i)) = FVHOE.wsum K ws s fun k => cellSum n fun i => f i k := by
  induction ws generalizing s with
  | nil => simp [FVHOE.wsum, cellSum]
  | cons w ws ih =>
    simp only [FVHOE.wsum]
    rw [cellSum_add n (fun i => (w : K) • f i s) (fun i => FVHOE.wsum K ws (s + 1) (f i)), ih,
      cellSum_smul n (w : K) (fun i => f i s)]

theorem cellSum_sub' (n : Fin 3 → ℕ) (f g : Ix → V) :
    cellSum n (fun i => f i - g i) = cellSum n f - cellSum n g := by
  unfold cellSum
  simp only [Finset.sum_sub_distrib]

/-- The sum over a period does not depend on where it starts. -/
theorem cellSum_shift (n : Fin 3 → ℕ) (d : Fin 3) (f : Ix → V) (h : ∀ i, f (i + Pi.single d (n d : ℤ)) = f i) (k : ℤ) :
    cellSum n (fun i => f (i + Pi.single d k)) = cellSum n f := by
  have step : ∀ k : ℤ, cellSum n (fun i => f (i + Pi.single d (k + 1))) = cellSum n (fun i => f (i + Pi.single d k)) := by
    intro k
    obtain ⟨g, hg⟩ : ∃ g : Ix → V, ∀ i, g i = f (i + Pi.single d k) := ⟨_, fun _ => rfl⟩
    have h2 : layerSum n d (n d) g = layerSum n d 0 g := layerSum_periodic n d g fun i => by
      rw [hg, hg, add_right_comm, h]
    have h1 := cellSum_telescope n d g
    rw [h2, sub_self, cellSum_sub', sub_eq_zero] at h1
    have e1 : (fun i : Ix => f (i + Pi.single d (k + 1))) = fun i => g (i + Pi.single d 1) := by
      funext i
      rw [hg, add_assoc, ← Pi.single_add, add_comm 1 k]
    have e2 : (fun i : Ix => f (i + Pi.single d k)) = g := funext fun i => (hg i).symm
    rw [e1, e2]
    exact h1
  induction k with
  | zero => simp
  | succ k ih => rw [step, ih]
  | pred k ih => rw [← ih, ← step, sub_add_cancel]

theorem cellSum_sweep (n : Fin 3 → ℕ) (d : Fin 3) (r : ℤ) (ws : List ℚ) (hw : ws.sum = 1) (f : Ix → V)
    (h : ∀ i, f (i + Pi.single d (n d : ℤ)) = f i) : cellSum n (FVHOE.lsweep K d r ws f) = cellSum n f := by
  unfold FVHOE.lsweep
  rw [wsum_cellSum]
  rw [wsum_congr ws _ (g := fun _ => cellSum n f) fun k => cellSum_shift n d f h k, wsum_const, hw, Rat.cast_one, one_smul]

/-- Repeating along every axis. -/
def Repeats (n : Fin 3 → ℕ) (f : Ix → V) : Prop := ∀ d i, f (i + Pi.single d (n d : ℤ)) = f i

theorem Repeats.sweep {n : Fin 3 → ℕ} {f : Ix → V} (h : Repeats n f) (d : Fin 3) (r : ℤ) (ws : List ℚ) :
    Repeats n (FVHOE.lsweep K d r ws f) := by
  intro e i
  have := congrFun (FVHOE.lsweep_shift (K := K) d r ws f (Pi.single e (n e : ℤ))) i
  rw [← this]
  congr 1
  funext j
  exact h e j

theorem repeats_wrap (n : Fin 3 → ℕ) (u : Ix → V) : Repeats n fun i => u fun d => i d % n d :=
  fun d i => congrFun (wrap_period n u d) i

/-! ## The claims -/

theorem sweep_component (d : Fin 3) (r : ℤ) (ws : List ℚ) (Φ : Ix → State K np) (i : Ix) (v : Var np) :
    FVHOE.lsweep K d r ws Φ i v = FVHOE.lsweep K d r ws (fun i => Φ i v) i :=
  lsweep_map (K := K) (LinearMap.proj v) d r ws Φ i

theorem centers_component (p : Fin 3 → ℕ) (Φ : Ix → State K np) (v : Var np) :
    (fun i => latCenters K p Φ i v) = latCenters K p fun i => Φ i v := by
  unfold latCenters latC
  funext i
  rw [sweep_component]
  congr 1; funext i
  rw [sweep_component]
  congr 1; funext i
  rw [sweep_component]

theorem shown_rho (c : EulerConfig K np) (fv : Bool) (Φ : Ix → State K np) :
    (fun i => latShown c.scheme fv Φ i .rho) =
      if fv then latT K (c.p 2) 2 (latT K (c.p 1) 1 (latT K (c.p 0) 0 (latCenters K c.p fun i => Φ i .rho)))
      else latCenters K c.p fun i => Φ i .rho := by
  cases fv with
  | false => exact centers_component c.p Φ .rho
  | true =>
    simp only [latShown, if_true]
    unfold latPrim latT
    funext i
    rw [sweep_component]
    congr 1; funext i
    rw [sweep_component]
    congr 1; funext i
    rw [sweep_component]
    congr 1
    exact centers_component c.p Φ .rho

theorem shown_total (c : EulerConfig K np) (hp : ∀ d, c.p d ≤ 8) (fv : Bool) (Φ : Ix → State K np) (hΦ : Repeats c.n Φ) :
    cellSum c.n (fun i => latShown c.scheme fv Φ i .rho) = cellSum c.n fun i => Φ i .rho := by
  have h0 : Repeats c.n fun i => Φ i .rho := fun d i => congrFun (hΦ d i) .rho
  have hc : ∀ d, (wts (conservativeWeights (c.p d) "c")).sum = 1 := fun d => (wts_sum (hp d)).2.1
  have ht : ∀ d, (wts (transverseWeights (c.p d))).sum = 1 := fun d => (wts_sum (hp d)).2.2.2
  have h1 := h0.sweep (K := K) 0 (ceilHalf (c.p 0)) (wts (conservativeWeights (c.p 0) "c"))
  have h2 := h1.sweep (K := K) 1 (ceilHalf (c.p 1)) (wts (conservativeWeights (c.p 1) "c"))
  have h3 := h2.sweep (K := K) 2 (ceilHalf (c.p 2)) (wts (conservativeWeights (c.p 2) "c"))
  have h4 := h3.sweep (K := K) 0 (ceilHalf (c.p 0)) (wts (transverseWeights (c.p 0)))
  have h5 := h4.sweep (K := K) 1 (ceilHalf (c.p 1)) (wts (transverseWeights (c.p 1)))
  have hcc : cellSum c.n (latCenters K c.p fun i => Φ i .rho) = cellSum c.n fun i => Φ i .rho := by
    unfold latCenters latC
    rw [cellSum_sweep c.n 2 _ _ (hc 2) _ (h2 2), cellSum_sweep c.n 1 _ _ (hc 1) _ (h1 1),
      cellSum_sweep c.n 0 _ _ (hc 0) _ (h0 0)]
  rw [shown_rho]
  cases fv with
  | false => exact hcc
  | true =>
    simp only [if_true]
    refine Eq.trans ?_ hcc
    exact (cellSum_sweep c.n 2 _ _ (ht 2) _ (h5 2)).trans ((cellSum_sweep c.n 1 _ _ (ht 1) _ (h4 1)).trans
      (cellSum_sweep c.n 0 _ _ (ht 0) _ (h3 0)))

theorem snapshot_sides (S : Scheme K V) (hS : PeriodicSetup S) (fv : Bool) (t : K) :
    Sides S (fun d => 0 + (if fv then 2 else 1) * ceilHalf (S.p d)) t (fun _ => .wrap) (fun _ => .wrap) := by
  have key : ∀ d s, SideSpec S.bc S.negate S.n (fun d => 0 + (if fv then 2 else 1) * ceilHalf (S.p d)) t d s .wrap := by
    intro d s
    by_cases h : S.active d = true
    · refine .periodic (hS.periodic d s h) (hS.periodic d .l h) ?_ (hS.cells d)
      have := hS.wide d
      unfold fluxWidth at this
      split <;> omega
    · have h0 := S.inactive_p d (by simpa using h)
      refine .inactive ?_ _
      rw [h0]
      simp [ceilHalf]
  exact fun d => ⟨key d .l, key d .r⟩

/-- **C85** Taking a snapshot on a periodic domain succeeds for every state, gives an array of the shape of the mesh,
and its density row sums to the sum of the density averages of the state, in both formats. -/
theorem C85_mass (c : EulerConfig K np) (hc : PeriodicSetup c.scheme) (fv : Bool) (t : K) (junk u : Ix → State K np) :
    ∃ w, snapshotPrimitives c.scheme t junk fv u = .ok w ∧ w.shape = c.n ∧
      cellSum c.n (fun i => w.get i .rho) = cellSum c.n fun i => u i .rho := by
  obtain ⟨w, e, hsh, hw⟩ := snapshot_spec c.scheme hc.degree t fv _ _ (snapshot_sides c.scheme hc fv t) junk u
  refine ⟨w, e, hsh, ?_⟩
  rw [cellSum_congr c.n _ _ fun i hi => congrFun (hw i hi) Var.rho]
  have e1 : extAll c.n (fun _ => .wrap) (fun _ => .wrap) u = fun i => u fun d => i d % c.n d :=
    extAll_wrap c.n hc.cells u
  change cellSum c.n (fun i => latShown c.scheme fv (extAll c.n (fun _ => .wrap) (fun _ => .wrap) u) i .rho) = _
  rw [e1, shown_total c hc.degree fv _ (repeats_wrap c.n u)]
  refine cellSum_congr c.n _ _ fun i hi => ?_
  congr 1
  funext d
  exact Int.emod_eq_of_lt (hi d).1 (hi d).2

/-- **C85** All snapshots of a run on a periodic domain without limiting show the same total mass, that of the state the run started from;
whatever the integrator, the arguments of the run and the memory contents. -/
theorem C85_run (c : EulerConfig K np) (hc : PeriodicSetup c.scheme) (hl : c.limiting = none)
    (f : RHS K (Ix → State K np)) (hf : IsSolverRHS c.scheme f) (fv : Bool)
    (mk : ODEState K (Ix → State K np) (StoredSnap K (State K np)) → StoredSnap K (State K np))
    (hmk : IsSolverSnapshot c.scheme fv mk) (m : Integrator) (fuel : ℕ)
    (T : Option K) (n : Option ℕ) (exact : Bool) (downbeats : List K) (logEvery : Bool)
    (st : ODEState K (Ix → State K np) (StoredSnap K (State K np))) (out)
    (h : st.integrate (stepper f m) mk fuel ⟨T, n, exact, downbeats, logEvery, none⟩ = some out) :
    ∃ new, out.1.snapshots = st.snapshots ++ new ∧
      ∀ s ∈ new, cellSum c.n (fun i => s.w.get i .rho) = cellSum c.n fun i => st.u i .rho := by
  have rho : ∀ u : Ix → State K np, cellSum c.n u .rho = cellSum c.n fun i => u i .rho := by
    intro u
    unfold cellSum
    simp only [Finset.sum_apply]
  refine (integrate_preserves (fun s => cellSum c.n s.u = cellSum c.n st.u ∧ ∃ new, s.snapshots = st.snapshots ++ new ∧
    ∀ q ∈ new, cellSum c.n (fun i => q.w.get i .rho) = cellSum c.n fun i => st.u i .rho) ?_ ?_ fuel _ ?_ st out ?_ h).2
  · rintro s target ⟨hs, hq⟩
    unfold ODEState.takeStep
    cases hst : stepper f m s.t s.u target with
    | error e => exact ⟨hs, hq⟩
    | ok r =>
      refine ⟨?_, hq⟩
      let ℓ : (Ix → State K np) →ₗ[K] State K np :=
        { toFun := cellSum c.n
          map_add' := fun x y => cellSum_add c.n x y
          map_smul' := fun a x => cellSum_smul c.n a x }
      have := stepper_sub_mem f (LinearMap.ker ℓ) (fun s t u dt k hk => by
        obtain ⟨junk, mem, e⟩ := hf s t u
        rw [hk] at e
        exact C01_rhs c.scheme hc (show c.scheme.limiting = none from hl) junk mem s t u dt k e.symm) m _ _ _ r.1 r.2 hst
      rw [LinearMap.mem_ker, map_sub, sub_eq_zero] at this
      exact (show cellSum c.n r.2 = cellSum c.n s.u from this).trans hs
  · rintro s ⟨hs, new, h1, h2⟩
    refine ⟨hs, new ++ [mk s], by simp [ODEState.snapshot, h1], ?_⟩
    intro q hq
    rcases List.mem_append.1 hq with hq | hq
    · exact h2 q hq
    · obtain ⟨-, junk, e⟩ := hmk s
      obtain ⟨w, e', -, hw⟩ := C85_mass c hc fv s.t junk s.u
      rw [e] at e'
      cases e'
      rw [List.mem_singleton.1 hq, hw, ← rho, hs, rho]
  · rintro s l hl
    cases hl
  · exact ⟨rfl, [], by simp, by simp⟩

/-! ## Locality and exactness -/

theorem shown_agree (S : Scheme K V) (hp : ∀ d, S.p d ≤ 8) (fv : Bool) {Φ Ψ : Ix → V} {i : Ix}
    (h : Agree Φ Ψ i (fun d => (if fv then 2 else 1) * (ceilHalf (S.p d) : ℤ))) :
    latShown S fv Φ i = latShown S fv Ψ i := by
  cases fv with
  | true =>
    exact Agree.prim (K := K) (m := 0) S.prim S.p hp (h.mono fun d => by simp) i fun d => by simp
  | false =>
    have h' : Agree Φ Ψ i ((0 : Ix) + Pi.single 2 (ceilHalf (S.p 2) : ℤ) +
        Pi.single 1 (ceilHalf (S.p 1) : ℤ) + Pi.single 0 (ceilHalf (S.p 0) : ℤ)) := by
      refine h.mono fun d => ?_
      match d with
      | 0 => simp
      | 1 => simp
      | 2 => simp
    have hc := ((h'.center (K := K) 0 (S.p 0) (hp 0)).center (K := K) 1 (S.p 1) (hp 1)).center (K := K) 2 (S.p 2) (hp 2)
    exact congrArg S.prim (hc i fun d => by simp)

theorem extAll_inside (n : Fin 3 → ℕ) (gl gr : Fin 3 → Ghost V) (u : Ix → V) (i : Ix) (hi : InCells n i) :
    extAll n gl gr u i = u i := by
  have h : ∀ (d : Fin 3) (Φ : Ix → V), extAxis (n d) d (gl d) (gr d) Φ i = Φ i := by
    intro d Φ
    have := hi d
    unfold extAxis
    rw [if_neg (by omega), if_neg (by omega)]
  unfold extAll
  rw [h, h, h]

/-- **C85** At first order (all degrees zero) the snapshot is the conversion of the state to primitive variables, cell by cell,
in both formats, for every kind of boundary condition. -/
theorem C85_first_order (S : Scheme K V) (h0 : ∀ d, S.p d = 0) (fv : Bool) (t : K) (gl gr : Fin 3 → Ghost V)
    (hs : Sides S (fun d => 0 + (if fv then 2 else 1) * ceilHalf (S.p d)) t gl gr) (junk u : Ix → V) :
    ∃ w, snapshotPrimitives S t junk fv u = .ok w ∧ w.shape = S.n ∧ ∀ i, InCells S.n i → w.get i = S.prim (u i) := by
  have hp : ∀ d, S.p d ≤ 8 := fun d => by rw [h0]; omega
  obtain ⟨w, e, hsh, hw⟩ := snapshot_spec S hp t fv gl gr hs junk u
  refine ⟨w, e, hsh, fun i hi => ?_⟩
  rw [hw i hi]
  have hz : ∀ d, (ceilHalf (S.p d) : ℤ) = 0 := fun d => by rw [h0]; rfl
  rw [shown_agree S hp fv (Ψ := fun _ => u i) fun j hj => by
    have : j = i := by
      funext d
      have := hj d
      simp only [hz, mul_zero] at this
      exact sub_eq_zero.1 (abs_eq_zero.1 (le_antisymm this (abs_nonneg _)))
    rw [this, extAll_inside S.n gl gr u i hi]]
  have cs : ∀ (x : V) (d : Fin 3) (r : ℤ) (ws : List ℚ), ws.sum = 1 → FVHOE.lsweep K d r ws (fun _ => x) = fun _ => x := by
    intro x d r ws hws
    funext j
    unfold FVHOE.lsweep
    rw [wsum_const, hws, Rat.cast_one, one_smul]
  have c1 : latCenters K S.p (fun _ => u i) = fun _ => u i := by
    unfold latCenters latC
    rw [cs _ 0 _ _ (wts_sum (hp 0)).2.1, cs _ 1 _ _ (wts_sum (hp 1)).2.1, cs _ 2 _ _ (wts_sum (hp 2)).2.1]
  cases fv with
  | false => simp only [latShown, Bool.false_eq_true, if_false, c1]
  | true =>
    simp only [latShown, if_true]
    unfold latPrim latT
    rw [c1, cs _ 0 _ _ (wts_sum (hp 0)).2.2.2, cs _ 1 _ _ (wts_sum (hp 1)).2.2.2, cs _ 2 _ _ (wts_sum (hp 2)).2.2.2]

theorem shown_centers (p : Fin 3 → ℕ) (hp : ∀ d, p d ≤ 8) (x₀ h : Fin 3 → K) (hh : ∀ d, h d ≠ 0) (R : Density K)
    (hR : R.HasDegree p) : latCenters K p (R.avg x₀ h) = R.stage x₀ h fun _ => .mid := by
  unfold latCenters
  rw [← stage_avg, stage_c R x₀ h hp hR hh _ 0 rfl, stage_c R x₀ h hp hR hh _ 1 (by simp),
    stage_c R x₀ h hp hR hh _ 2 (by simp)]
  have : Function.update (Function.update (Function.update (fun _ : Fin 3 => Kind.avg) 0 .mid) 1 .mid) 2 .mid =
      fun _ => .mid := by decide
  rw [this]

theorem shown_averages (p : Fin 3 → ℕ) (hp : ∀ d, p d ≤ 8) (x₀ h : Fin 3 → K) (hh : ∀ d, h d ≠ 0) (R : Density K)
    (hR : R.HasDegree p) : latT K (p 2) 2 (latT K (p 1) 1 (latT K (p 0) 0 (R.stage x₀ h fun _ => .mid))) = R.avg x₀ h := by
  rw [stage_t R x₀ h hp hR hh _ 0 rfl, stage_t R x₀ h hp hR hh _ 1 (by simp), stage_t R x₀ h hp hR hh _ 2 (by simp)]
  have : Function.update (Function.update (Function.update (fun _ : Fin 3 => Kind.mid) 0 .avg) 1 .avg) 2 .avg =
      fun _ => .avg := by decide
  rw [this, stage_avg]

/-- **C85** Where the conserved variables are polynomials of the degrees of the scheme and the cell is at least the stencil radius
away from the boundary, the centroid snapshot shows the primitive variables of the exact values at the cell centre,
and the averaged snapshot shows the exact density average (twice the radius away). -/
theorem C85_exact (c : EulerConfig K np) (hp : ∀ d, c.p d ≤ 8) (hh : ∀ d, c.h d ≠ 0) (fv : Bool) (t : K)
    (gl gr : Fin 3 → Ghost (State K np))
    (hs : Sides c.scheme (fun d => 0 + (if fv then 2 else 1) * ceilHalf (c.p d)) t gl gr)
    (junk u : Ix → State K np) (x₀ : Fin 3 → K) (R : Var np → Density K) (hR : ∀ v, (R v).HasDegree c.p) (i : Ix)
    (hi : ∀ d, (if fv then 2 else 1) * (ceilHalf (c.p d) : ℤ) ≤ i d ∧
      i d + (if fv then 2 else 1) * (ceilHalf (c.p d) : ℤ) < c.n d)
    (hu : ∀ j, (∀ d, |j d - i d| ≤ (if fv then 2 else 1) * (ceilHalf (c.p d) : ℤ)) → ∀ v, u j v = (R v).avg x₀ c.h j) :
    ∃ w, snapshotPrimitives c.scheme t junk fv u = .ok w ∧
      (fv = false → w.get i = computePrimitives c.gas.gamma fun v =>
        (R v).at fun d => x₀ d + ((i d : K) + 1 / 2) * c.h d) ∧
      (fv = true → w.get i .rho = (R .rho).avg x₀ c.h i) := by
  obtain ⟨w, e, -, hw⟩ := snapshot_spec c.scheme hp t fv gl gr hs junk u
  have hi0 : InCells c.n i := fun d => by
    have := hi d
    cases fv <;> simp at this <;> omega
  have hag : Agree (extAll c.n gl gr u) (fun j v => (R v).avg x₀ c.h j) i
      (fun d => (if fv then 2 else 1) * (ceilHalf (c.scheme.p d) : ℤ)) := by
    intro j hj
    have hj' : InCells c.n j := fun d => by
      have h1 := hj d
      have h2 := hi d
      change |j d - i d| ≤ _ * (ceilHalf (c.p d) : ℤ) at h1
      rw [abs_le] at h1
      cases fv <;> simp at h1 h2 <;> omega
    rw [extAll_inside c.n gl gr u j hj']
    exact funext fun v => hu j hj v
  have hval := (hw i hi0).trans (shown_agree c.scheme hp fv hag)
  have hcen : ∀ j, latCenters K c.p (fun j v => (R v).avg x₀ c.h j) j =
      fun v => (R v).at fun d => x₀ d + ((j d : K) + 1 / 2) * c.h d := by
    intro j
    funext v
    have := congrFun (centers_component c.p (fun j v => (R v).avg x₀ c.h j) v) j
    rw [this]
    exact congrFun (shown_centers c.p hp x₀ c.h hh (R v) (hR v)) j
  refine ⟨w, e, ?_, ?_⟩
  · rintro rfl
    rw [hval]
    exact congrArg (computePrimitives c.gas.gamma) (hcen i)
  · rintro rfl
    rw [hval]
    have := congrFun (shown_rho c true fun j v => (R v).avg x₀ c.h j) i
    simp only [if_true] at this
    rw [this, shown_centers c.p hp x₀ c.h hh (R .rho) (hR .rho), shown_averages c.p hp x₀ c.h hh (R .rho) (hR .rho)]

/-! ## Concrete cases -/

theorem exampleConfig_periodic : PeriodicSetup exampleConfig.scheme := by
  refine ⟨?_, ?_, ?_, ?_⟩ <;> intro d
  all_goals first
    | (intro s _; rfl)
    | (fin_cases d <;> simp [exampleConfig, EulerConfig.scheme, fluxWidth, fluxGw, Scheme.active, ceilHalf])

/-- Such snapshots exist for the two-dimensional set-up of C01 (degrees 3 and 2 on 8 × 9 cells), in both formats. -/
example (fv : Bool) : ∃ mk, IsSolverSnapshot exampleConfig.scheme fv mk := by
  have h : ∀ st : ODEState ℝ (Ix → State ℝ 1) (StoredSnap ℝ (State ℝ 1)), ∃ w,
      snapshotPrimitives exampleConfig.scheme st.t (fun _ => 0) fv st.u = .ok w := fun st => by
    obtain ⟨w, e, -⟩ := C85_mass exampleConfig exampleConfig_periodic fv st.t (fun _ => 0) st.u
    exact ⟨w, e⟩
  choose w hw using h
  exact ⟨fun st => ⟨st.t, w st⟩, fun st => ⟨rfl, _, hw st⟩⟩

/-- A density quadratic in x and linear in y in that set-up: the snapshot of the cell (4, 5) shows its value at the centre. -/
example : ∃ w, snapshotPrimitives exampleConfig.scheme 0 (fun _ => 0) false
    (fun j v => (⟨Unit, {()}, fun _ => ![X ^ 3, X ^ 2, X]⟩ : Density ℝ).avg 0 exampleConfig.h j) = .ok w ∧
    w.get ![4, 5, 0] .rho = 3 * (9 / 2) ^ 2 * (2 * 11) := by
  obtain ⟨w, e, h, -⟩ := C85_exact exampleConfig exampleConfig_periodic.degree
    (by intro d; fin_cases d <;> simp [exampleConfig]) false 0 _ _
    (snapshot_sides exampleConfig.scheme exampleConfig_periodic false 0) (fun _ => 0)
    (fun j v => (⟨Unit, {()}, fun _ => ![X ^ 3, X ^ 2, X]⟩ : Density ℝ).avg 0 exampleConfig.h j) 0
    (fun _ => ⟨Unit, {()}, fun _ => ![X ^ 3, X ^ 2, X]⟩)
    (by
      intro v a d
      fin_cases d <;> simp [exampleConfig])
    ![4, 5, 0]
    (by intro d; fin_cases d <;> simp [exampleConfig, ceilHalf])
    (fun j _ _ => rfl)
  refine ⟨w, e, ?_⟩
  rw [h rfl]
  change (Density.at _ _) = _
  simp [Density.at, Fin.prod_univ_three, exampleConfig]
  norm_num

end FVHOE
