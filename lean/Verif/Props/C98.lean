import Verif.Proofs.FloatFlux
import Verif.Props.C91

/-!
C98. Conservation in floating-point arithmetic.

`Verif/Model/FloatStep.lean` carries out the flux divergence and the four steppers with a rounding after every operation,
in the order of the code. Without rounding they are those of the other theorems (`C98_exact`). With rounding the total of
a conserved variable over a periodic domain is not exactly constant (`C98_not_exact`); its drift is bounded by an explicit
multiple of the rounding unit in every step (`C98_step`) and over whole runs (`C98_run`).
-/

set_option linter.unusedSectionVars false

namespace FVHOE

variable {W : Type}

/-! ### Without rounding -/

/-- **C98** (link). Without rounding, the averages of the primitive variables, the fluxes and the divergence are those of the
scheme on the lattice, and the steppers are the exact ones. -/
theorem C98_exact (P : RoundedScheme W) (d : Fin 3) (a : FState W) (act : Fin 3 → Bool) (h : Fin 3 → ℚ) (F : Fin 3 → FState W) (w : W) (f : RHS ℚ (FState W))
    (m : Integrator) :
    roundedEulerEquation id act h F w = latDiv act h (fun d => F d w) ∧
    roundedProposal id f m = proposal f m ∧
    (P.primAverages id a).cells = latPrim ℚ P.prim P.p a.cells ∧
    (P.flux id d a).cells = latFlux ℚ (P.riem d) P.p none d a.cells := by
  refine ⟨?_, ?_, P.primAverages_id a, P.flux_id d a⟩
  · funext i
    unfold roundedEulerEquation latDiv
    rw [Fin.sum_univ_three]
    cases h0 : act 0 <;> cases h1 : act 1 <;> cases h2 : act 2 <;>
      simp [FState.plus, FState.times, roundedDiff, h0, h1, h2]
  · have e1 : ∀ a b : FState W, a.plus id b = a + b := fun _ _ => rfl
    have e2 : ∀ (c : ℚ) (a : FState W), a.times id c = c • a := fun _ _ => rfl
    funext t u
    unfold roundedProposal proposal
    cases m <;> simp only [e1, e2, id]

/-! ### With rounding -/

/-- What the right-hand side `f` does with one conserved variable `w` on a mesh of `n` cells whenever it returns: the
state is bounded by `B` in the cells, and the time derivative is `euler_equation` of some fluxes that are bounded by
`M d` on the faces and agree on opposite sides of the domain. -/
def PeriodicFluxes (fl : ℚ → ℚ) (n : Fin 3 → ℕ) (act : Fin 3 → Bool) (h : Fin 3 → ℚ) (w : W) (M : Fin 3 → ℚ) (B : ℚ)
    (f : RHS ℚ (FState W)) : Prop :=
  ∀ s t u dt k, f s t u = .ok (dt, k) → (∀ i, InCells n i → |u w i| ≤ B) ∧
    ∃ F : Fin 3 → FState W, k = roundedEulerEquation fl act h F ∧
      ∀ d, act d = true → (∀ i, InFaces n d i → |F d w i| ≤ M d) ∧
        ∀ i : Ix, (∀ e, e ≠ d → 0 ≤ i e ∧ i e < n e) →
          F d w (Function.update i d (n d : ℤ)) = F d w (Function.update i d 0)

/-- The bounds are not below the smallest normal number of the format, and some direction is active. -/
structure NormalScales (F : Format) (act : Fin 3 → Bool) (h : Fin 3 → ℚ) (M : Fin 3 → ℚ) (B D : ℚ) : Prop where
  bits : 10 ≤ F.p
  sixth : (2 : ℚ) ^ (F.emin - 1 + F.p) ≤ 1 / 6
  state : (2 : ℚ) ^ (F.emin - 1 + F.p) ≤ B
  step : (2 : ℚ) ^ (F.emin - 1 + F.p) ≤ D
  mesh : ∀ d, act d = true → 0 < h d ∧ (2 : ℚ) ^ (F.emin - 1 + F.p) ≤ 1 / h d ∧
    (2 : ℚ) ^ (F.emin - 1 + F.p) ≤ M d ∧ (2 : ℚ) ^ (F.emin - 1 + F.p) ≤ M d / h d
  some_active : ∃ d, act d = true

/-- **C98** (one step). With any of the four steppers, a step of size at most `D` changes the total of the variable over
the cells by at most `2 ^ (-p) (25 D R + 6 B)` per cell, where `R` is the sum of `M / h` over the active directions. -/
theorem C98_step (F : Format) (n : Fin 3 → ℕ) (act : Fin 3 → Bool) (h : Fin 3 → ℚ) (w : W) (M : Fin 3 → ℚ) (B D : ℚ)
    (hsc : NormalScales F act h M B D) (f : RHS ℚ (FState W)) (hf : PeriodicFluxes F.fl n act h w M B f) (m : Integrator)
    (t : ℚ) (u u' : FState W) (dt0 dt : ℚ) (go : ℚ → Except PyErr (FState W))
    (hprop : roundedProposal F.fl f m t u = .ok (dt0, go)) (hgo : go dt = .ok u') (hdt : |dt| ≤ D) :
    |cellSum n (u' w) - cellSum n (u w)| ≤ ((n 0 * n 1 * n 2 : ℕ) : ℚ) *
      (2 ^ (-(F.p : ℤ)) * (25 * (D * ∑ d, if act d then M d / h d else 0) + 6 * B)) := by
  have H := F.rounds hsc.bits
  set ε : ℚ := 2 ^ (-(F.p : ℤ)) with hε
  set τ : ℚ := 2 ^ (F.emin - 1 + F.p) with hτ
  have hact0 (d : Fin 3) : 0 ≤ if act d then M d / h d else 0 := by
    split
    · rename_i hd
      exact (H.tiny.trans_le (hsc.mesh d hd).2.2.2).le
    · exact le_rfl
  have hR : τ ≤ ∑ d, if act d then M d / h d else 0 := by
    obtain ⟨d, hd⟩ := hsc.some_active
    refine (hsc.mesh d hd).2.2.2.trans ?_
    have := Finset.single_le_sum (f := fun d => if act d then M d / h d else 0) (fun d _ => hact0 d) (Finset.mem_univ d)
    simpa [hd] using this
  set R := ∑ d, if act d then M d / h d else 0 with hRdef
  -- what is known of one evaluation of the right-hand side
  have hk (s t' : ℚ) (v : FState W) (dt' : ℚ) (k : FState W) (hk : f s t' v = .ok (dt', k)) :
      ∃ k' : Ix → ℚ, cellSum n k' = 0 ∧ ∀ i, InCells n i → WithError (k w i) (k' i) (10.2 * (ε * R)) (2.04 * R) := by
    obtain ⟨-, G, rfl, hG⟩ := hf _ _ _ _ _ hk
    refine ⟨scaledDiv F.fl act h G w, cellSum_scaledDiv n act h G w fun d hd => (hG d hd).2, fun i hi => ?_⟩
    refine H.divergence act h G w i M (fun d hd => ⟨(hG d hd).1 _ fun e => ?_, (hG d hd).1 _ fun e => ?_⟩) hsc.mesh
    · have h1 := hi e
      by_cases he : e = d
      · subst he
        simp
        omega
      · simp [Pi.single_eq_of_ne he, h1]
    · have h1 := hi e
      by_cases he : e = d
      · subst he
        simp
        omega
      · simp [Pi.single_eq_of_ne he, h1]
  -- a step that is near an exact one
  have fin (v : Ix → ℚ) (hv : cellSum n v = 0)
      (hn : ∀ i, InCells n i → |u' w i - (u w i + v i)| ≤ ε * (25 * (D * R) + 6 * B)) :
      |cellSum n (u' w) - cellSum n (u w)| ≤ ((n 0 * n 1 * n 2 : ℕ) : ℚ) * (ε * (25 * (D * R) + 6 * B)) := by
    have h1 := cellSum_abs_le n _ _ hn
    rw [cellSum_sub n (u' w) fun i => u w i + v i, cellSum_add n (u w) v, hv, add_zero] at h1
    exact h1
  have hlin2 (c0 c1 : ℚ) (a b : Ix → ℚ) (ha : cellSum n a = 0) (hb : cellSum n b = 0) :
      cellSum n (fun i => c0 * a i + c1 * b i) = 0 := by
    have e0 := cellSum_smul (K := ℚ) n c0 a
    have e1 := cellSum_smul (K := ℚ) n c1 b
    simp only [smul_eq_mul] at e0 e1
    rw [cellSum_add, e0, e1, ha, hb]
    simp
  unfold roundedProposal at hprop
  cases h0 : f t t u with
  | error e => simp [h0, Bind.bind, Except.bind] at hprop
  | ok r0 =>
  obtain ⟨dt1, k0⟩ := r0
  have hu := (hf _ _ _ _ _ h0).1
  obtain ⟨k0', z0, n0⟩ := hk _ _ _ _ _ h0
  simp only [h0, Bind.bind, Except.bind, Pure.pure, Except.pure, Except.ok.injEq, Prod.mk.injEq] at hprop
  obtain ⟨-, rfl⟩ := hprop
  cases m with
  | euler =>
    simp only [Except.ok.injEq] at hgo
    subst hgo
    refine fin (fun i => dt * k0' i + 0 * k0' i) (hlin2 _ _ _ _ z0 z0) fun i hi => ?_
    have e := H.euler (hu i hi) hdt hsc.state hR (n0 i hi)
    have e1 := e.1
    have hA : 0 ≤ ε * (D * R) := mul_nonneg H.pos (mul_nonneg ((abs_nonneg _).trans hdt) (H.tiny.trans_le hR).le)
    have hB : 0 ≤ ε * B := mul_nonneg H.pos (H.tiny.trans_le hsc.state).le
    rw [zero_mul, add_zero]
    refine e1.trans (by linarith)
  | ssprk2 =>
    simp only at hgo
    cases h1 : f t t (u.plus F.fl (k0.times F.fl dt)) with
    | error e =>
      simp only [h1] at hgo
      cases hgo
    | ok r1 =>
    obtain ⟨_, k1⟩ := r1
    obtain ⟨k1', z1, n1⟩ := hk _ _ _ _ _ h1
    simp only [h1, Except.ok.injEq] at hgo
    subst hgo
    refine fin (fun i => (1 / 2 * dt) * k0' i + (1 / 2 * dt) * k1' i) (hlin2 _ _ _ _ z0 z1) fun i hi => ?_
    have e := H.ssprk2 (hu i hi) hdt hsc.state hR (n0 i hi) (n1 i hi)
    rw [show u w i + (1 / 2 * dt * k0' i + 1 / 2 * dt * k1' i) =
      1 / 2 * u w i + 1 / 2 * (u w i + dt * k0' i + dt * k1' i) by ring]
    exact e
  | ssprk3 =>
    simp only at hgo
    cases h1 : f t (F.fl (t + dt)) (u.plus F.fl (k0.times F.fl dt)) with
    | error e =>
      simp only [h1] at hgo
      cases hgo
    | ok r1 =>
    obtain ⟨_, k1⟩ := r1
    simp only [h1] at hgo
    cases h2 : f t (F.fl (t + F.fl (1 / 2 * dt))) ((u.plus F.fl (k0.times F.fl (F.fl (1 / 4 * dt)))).plus F.fl
        (k1.times F.fl (F.fl (1 / 4 * dt)))) with
    | error e =>
      simp only [h2] at hgo
      cases hgo
    | ok r2 =>
    obtain ⟨_, k2⟩ := r2
    obtain ⟨k1', z1, n1⟩ := hk _ _ _ _ _ h1
    obtain ⟨k2', z2, n2⟩ := hk _ _ _ _ _ h2
    simp only [h2, Except.ok.injEq] at hgo
    subst hgo
    refine fin (fun i => F.fl (F.fl (1 / 6) * dt) * (1 * (1 * k0' i + 1 * k1' i) + 4 * k2' i) + 0 * k0' i)
      (hlin2 _ _ _ _ (hlin2 _ _ _ _ (hlin2 _ _ _ _ z0 z1) z2) z0) fun i hi => ?_
    have e := H.last (hu i hi) hdt hsc.state hR (H.sixth (hu i hi) hdt hsc.state hR hsc.sixth hsc.step)
      (H.sum3 hR (n0 i hi) (n1 i hi) (n2 i hi))
    simp only [one_mul, zero_mul, add_zero]
    exact e
  | rk4 =>
    simp only at hgo
    cases h1 : f t (F.fl (t + F.fl (1 / 2 * dt))) (u.plus F.fl (k0.times F.fl (F.fl (1 / 2 * dt)))) with
    | error e =>
      simp only [h1] at hgo
      cases hgo
    | ok r1 =>
    obtain ⟨_, k1⟩ := r1
    simp only [h1] at hgo
    cases h2 : f t (F.fl (t + F.fl (1 / 2 * dt))) (u.plus F.fl (k1.times F.fl (F.fl (1 / 2 * dt)))) with
    | error e =>
      simp only [h2] at hgo
      cases hgo
    | ok r2 =>
    obtain ⟨_, k2⟩ := r2
    simp only [h2] at hgo
    cases h3 : f t (F.fl (t + dt)) (u.plus F.fl (k2.times F.fl dt)) with
    | error e =>
      simp only [h3] at hgo
      cases hgo
    | ok r3 =>
    obtain ⟨_, k3⟩ := r3
    obtain ⟨k1', z1, n1⟩ := hk _ _ _ _ _ h1
    obtain ⟨k2', z2, n2⟩ := hk _ _ _ _ _ h2
    obtain ⟨k3', z3, n3⟩ := hk _ _ _ _ _ h3
    simp only [h3, Except.ok.injEq] at hgo
    subst hgo
    refine fin (fun i => F.fl (F.fl (1 / 6) * dt) * (1 * (1 * (1 * k0' i + 2 * k1' i) + 2 * k2' i) + 1 * k3' i) + 0 * k0' i)
      (hlin2 _ _ _ _ (hlin2 _ _ _ _ (hlin2 _ _ _ _ (hlin2 _ _ _ _ z0 z1) z2) z3) z0) fun i hi => ?_
    have e := H.last (hu i hi) hdt hsc.state hR (H.sixth (hu i hi) hdt hsc.state hR hsc.sixth hsc.step)
      (H.sum4 hR (n0 i hi) (n1 i hi) (n2 i hi) (n3 i hi))
    simp only [one_mul, zero_mul, add_zero]
    exact e

/-- **C98** (runs). A run of `integrate` in floating-point arithmetic, with positive steps of at most `D` and requested
times as in C91, changes the total of the variable by at most `2 ^ (-p) (25 D R + 6 B)` per cell and step, however it
ends. -/
theorem C98_run {S : Type} (F : Format) (n : Fin 3 → ℕ) (act : Fin 3 → Bool) (h : Fin 3 → ℚ) (w : W) (M : Fin 3 → ℚ)
    (B D : ℚ) (hsc : NormalScales F act h M B D) (f : RHS ℚ (FState W)) (hf : PeriodicFluxes F.fl n act h w M B f)
    (m : Integrator) (hprop : FloatSteps F (roundedProposal F.fl f m) D) (mk : ODEState ℚ (FState W) S → S) (T : ℚ)
    (downbeats : List ℚ) (logEvery : Bool) (fuel : ℕ) (st : ODEState ℚ (FState W) S) (out : Outcome ℚ (FState W) S)
    (h0 : st.t = 0) (hT : 0 < T) (hd : ∀ d ∈ downbeats, 0 ≤ d) (hsafe : ∀ d ∈ T :: downbeats, d = 0 ∨ SafeTime F D d)
    (hrun : st.integrateWith F.ops (roundedProposal F.fl f m) mk T downbeats logEvery fuel = some out) :
    ∃ N : ℕ, out.1.stepCount = st.stepCount + N ∧
      |cellSum n (out.1.u w) - cellSum n (st.u w)| ≤ N * (((n 0 * n 1 * n 2 : ℕ) : ℚ) *
        (2 ^ (-(F.p : ℤ)) * (25 * (D * ∑ d, if act d then M d / h d else 0) + 6 * B))) := by
  have hp : 2 ≤ F.p := le_trans (by norm_num) hsc.bits
  obtain ⟨hs, hmem⟩ := keyTimes_spec downbeats T hT hd
  have hTm : T ∈ keyTimes downbeats T := (hmem T).2 ⟨ne_of_gt hT, Or.inr rfl⟩
  unfold ODEState.integrateWith at hrun
  rw [show (List.insertionSort (· ≤ ·) (0 :: (downbeats ++ [T])).dedup).tail = keyTimes downbeats T from rfl] at hrun
  cases hk : keyTimes downbeats T with
  | nil => rw [hk] at hTm; simp at hTm
  | cons g gs =>
    rw [hk] at hrun hs hmem hTm
    simp only at hrun
    have htgt : ∀ d ∈ g :: gs, SafeTime F D d := by
      intro d hdm
      have h1 := (hmem d).1 hdm
      have h2 : d ∈ T :: downbeats := by
        rcases h1.2 with h | h
        · exact List.mem_cons_of_mem _ h
        · simp [h]
      exact (hsafe d h2).resolve_left h1.1
    have hg : st.t < g := by
      have h1 := (hmem g).1 (by simp)
      rw [h0]
      rcases h1.2 with h | h
      · exact lt_of_le_of_ne (hd g h) (Ne.symm h1.1)
      · rw [h]; exact hT
    refine loopWith_drift F.ops _ mk T logEvery _ _ (stepsOK_float F hp _ D hprop) (fun u => cellSum n (u w)) _ ?_ fuel g gs
      (st.snapshot mk) out hs htgt (by simp only [ODEState.snapshot, h0]; exact ⟨F.has_zero, le_rfl⟩)
      (by simpa [ODEState.snapshot] using hg) hTm hrun
    intro t u dt go g' u' hgood htg _ hpr hgo
    refine C98_step F n act h w M B D hsc f hf m t u u' dt _ go hpr hgo ?_
    obtain ⟨_, hpos, hH⟩ := hprop _ _ _ _ hpr
    have hnn : 0 ≤ F.fl (g' - t) := by
      have := F.fl_mono (by omega) (show (0 : ℚ) ≤ g' - t by linarith)
      rwa [F.fl_eq (by omega) F.has_zero] at this
    unfold hitTargetWith Format.ops
    simp only
    split
    · rename_i hlt
      rw [abs_of_nonneg hnn]
      linarith
    · rw [abs_of_pos hpos]
      exact hH

/-- A right-hand side that refuses states without the property. -/
noncomputable def onlyWhere (Q : FState W → Prop) (f : RHS ℚ (FState W)) : RHS ℚ (FState W) :=
  open Classical in fun s t u => if Q u then f s t u else .error .valueError

/-- The fluxes of the scheme on a periodic domain are of this kind, wherever the state and the fluxes are bounded. -/
theorem scheme_fluxes (F : Format) (P : RoundedScheme W) (w : W) (M : Fin 3 → ℚ) (B : ℚ) (Q : FState W → Prop)
    (hQ : ∀ u, Q u → (∀ i, InCells P.n i → |u w i| ≤ B) ∧ ∀ d, P.active d = true → ∀ i, InFaces P.n d i →
      |P.flux F.fl d (P.primAverages F.fl (wrapAround P.n u)) w i| ≤ M d) :
    PeriodicFluxes F.fl P.n P.active P.h w M B (onlyWhere Q (P.rhs F.fl)) := by
  intro s t u dt k hk
  unfold onlyWhere at hk
  split at hk
  · rename_i hq
    obtain ⟨-, rfl⟩ := P.rhs_ok F.fl hk
    exact ⟨(hQ u hq).1, _, rfl, fun d hd => ⟨(hQ u hq).2 d hd, fun i _ => P.flux_ends F.fl u d w i⟩⟩
  · simp at hk

/-- **C98** (the scheme). The scheme without limiting on a periodic domain, all of whose operations round: as long as the
state and the fluxes stay within the bounds, a run changes the total of a conserved variable by at most
`2 ^ (-p) (25 D R + 6 B)` per cell and step. -/
theorem C98_scheme {S : Type} (F : Format) (P : RoundedScheme W) (w : W) (M : Fin 3 → ℚ)
    (B D : ℚ) (hsc : NormalScales F P.active P.h M B D) (Q : FState W → Prop)
    (hQ : ∀ u, Q u → (∀ i, InCells P.n i → |u w i| ≤ B) ∧ ∀ d, P.active d = true → ∀ i, InFaces P.n d i →
      |P.flux F.fl d (P.primAverages F.fl (wrapAround P.n u)) w i| ≤ M d)
    (m : Integrator) (hprop : FloatSteps F (roundedProposal F.fl (onlyWhere Q (P.rhs F.fl)) m) D)
    (mk : ODEState ℚ (FState W) S → S) (T : ℚ)
    (downbeats : List ℚ) (logEvery : Bool) (fuel : ℕ) (st : ODEState ℚ (FState W) S) (out : Outcome ℚ (FState W) S)
    (h0 : st.t = 0) (hT : 0 < T) (hd : ∀ d ∈ downbeats, 0 ≤ d) (hsafe : ∀ d ∈ T :: downbeats, d = 0 ∨ SafeTime F D d)
    (hrun : st.integrateWith F.ops (roundedProposal F.fl (onlyWhere Q (P.rhs F.fl)) m) mk T downbeats logEvery fuel =
      some out) :
    ∃ N : ℕ, out.1.stepCount = st.stepCount + N ∧
      |cellSum P.n (out.1.u w) - cellSum P.n (st.u w)| ≤ N * (((P.n 0 * P.n 1 * P.n 2 : ℕ) : ℚ) *
        (2 ^ (-(F.p : ℤ)) * (25 * (D * ∑ d, if P.active d then M d / P.h d else 0) + 6 * B))) :=
  C98_run F P.n P.active P.h w M B D hsc _ (scheme_fluxes F P w M B Q hQ) m hprop mk T downbeats logEvery fuel st out h0 hT hd
    hsafe hrun

/-! ### Exact conservation fails -/

/-- A mesh of two cells in one direction. -/
def twoCells : Fin 3 → ℕ := ![2, 1, 1]

def alongX : Fin 3 → Bool := ![true, false, false]

/-- The time derivative with no flux through the ends and a small one between the two cells. -/
def tricklePace : FState Unit :=
  roundedEulerEquation double.fl alongX (fun _ => 1) fun _ _ i => if i 0 = 1 then 1 / 2 ^ 60 else 0

/-- The right-hand side with it; states above 2 are rejected. -/
def trickle : RHS ℚ (FState Unit) := fun _ _ u =>
  if |u () ![0, 0, 0]| ≤ 2 ∧ |u () ![1, 0, 0]| ≤ 2 then
    .ok (1, tricklePace)
  else .error .valueError

theorem trickle_fluxes : PeriodicFluxes double.fl twoCells alongX (fun _ => 1) () (fun _ => 1 / 2 ^ 60) 2 trickle := by
  intro s t u dt k hk
  unfold trickle at hk
  split at hk
  · rename_i hb
    simp only [Except.ok.injEq, Prod.mk.injEq] at hk
    refine ⟨fun i hi => ?_, _, hk.2.symm, fun d hd => ⟨fun i _ => ?_, fun i _ => ?_⟩⟩
    · have e : i = ![0, 0, 0] ∨ i = ![1, 0, 0] := by
        have a0 := hi 0
        have a1 := hi 1
        have a2 := hi 2
        simp [twoCells] at a0 a1 a2
        have : i 0 = 0 ∨ i 0 = 1 := by omega
        rcases this with h | h
        · left
          funext e
          fin_cases e <;> simp <;> omega
        · right
          funext e
          fin_cases e <;> simp <;> omega
      rcases e with rfl | rfl
      · exact hb.1
      · exact hb.2
    · simp only
      split <;> norm_num
    · have : d = 0 := by
        fin_cases d
        · rfl
        · simp [alongX] at hd
        · simp [alongX] at hd
      subst this
      simp [twoCells]
  · simp at hk

theorem trickle_scales : NormalScales double alongX (fun _ => 1) (fun _ => 1 / 2 ^ 60) 2 1 where
  bits := by decide
  sixth := by decide +kernel
  state := by decide +kernel
  step := by decide +kernel
  mesh := fun _ _ => by decide +kernel
  some_active := ⟨0, rfl⟩

/-- One in the left cell, nothing in the right one. -/
def oneLeft : FState Unit := fun _ i => if i 0 = 0 then 1 else 0

/-- **C98** (exact conservation fails). What leaves the left cell is lost in rounding, what arrives in the right one is
not: with doubles the total grows although no flux passes the ends. -/
theorem C98_not_exact : ∃ go u', roundedProposal double.fl trickle .euler 0 oneLeft = .ok (1, go) ∧ go 1 = .ok u' ∧
    cellSum twoCells (oneLeft ()) = 1 ∧ cellSum twoCells (u' ()) = 1 + 1 / 2 ^ 60 := by
  have hb : |oneLeft () ![0, 0, 0]| ≤ 2 ∧ |oneLeft () ![1, 0, 0]| ≤ 2 := by decide +kernel
  refine ⟨fun dt => .ok (oneLeft.plus double.fl (tricklePace.times double.fl dt)),
    oneLeft.plus double.fl (tricklePace.times double.fl 1), ?_, rfl, by decide +kernel, by decide +kernel⟩
  · unfold roundedProposal trickle
    simp only [hb, and_self, if_true, Bind.bind, Except.bind, Pure.pure, Except.pure]

/-- The hypotheses of the step theorem hold for it; the bound is 12.1 rounding units per cell. -/
example : ∀ m go u', roundedProposal double.fl trickle m 0 oneLeft = .ok (1, go) → go 1 = .ok u' →
    |cellSum twoCells (u' ()) - 1| ≤ 2 * (2 ^ (-53 : ℤ) * 12.1) := by
  intro m go u' h1 h2
  have h := C98_step double twoCells alongX (fun _ => 1) () (fun _ => 1 / 2 ^ 60) 2 1 trickle_scales trickle trickle_fluxes m 0
    oneLeft u' 1 1 go h1 h2 (by norm_num)
  have e : cellSum twoCells (oneLeft ()) = 1 := by decide +kernel
  rw [e] at h
  refine h.trans ?_
  decide +kernel

/-- The hypotheses of the theorem about runs hold for it up to time 3. -/
example {S : Type} (mk : ODEState ℚ (FState Unit) S → S) (m : Integrator) (st : ODEState ℚ (FState Unit) S)
    (out : Outcome ℚ (FState Unit) S) (h0 : st.t = 0) (logEvery : Bool) (fuel : ℕ)
    (hrun : st.integrateWith double.ops (roundedProposal double.fl trickle m) mk 3 [1, 2] logEvery fuel = some out) :
    ∃ N : ℕ, out.1.stepCount = st.stepCount + N ∧
      |cellSum twoCells (out.1.u ()) - cellSum twoCells (st.u ())| ≤ N * (2 * (2 ^ (-53 : ℤ) * 12.1)) := by
  have hst : FloatSteps double (roundedProposal double.fl trickle m) 1 := by
    intro t u dt go hs
    have : dt = 1 := by
      unfold roundedProposal trickle at hs
      split at hs
      · simp only [Bind.bind, Except.bind, Pure.pure, Except.pure, Except.ok.injEq, Prod.mk.injEq] at hs
        exact hs.1.symm
      · simp [Bind.bind, Except.bind] at hs
    rw [this]
    exact ⟨⟨1, 0, by norm_num, by decide, by decide⟩, by norm_num, le_rfl⟩
  have hsafe (k : ℤ) (hk : |k| ≤ 2 ^ 52) : SafeTime double 1 (k : ℚ) :=
    ⟨⟨k, 0, by simp, by simp only [double]; exact hk.trans (by norm_num), by decide⟩, Or.inl ⟨k, 0, by simp, hk, by decide⟩⟩
  obtain ⟨N, h1, h2⟩ := C98_run double twoCells alongX (fun _ => 1) () (fun _ => 1 / 2 ^ 60) 2 1 trickle_scales trickle
    trickle_fluxes m hst mk 3 [1, 2] logEvery fuel st out h0 (by norm_num) (by intro d hd; fin_cases hd <;> norm_num) (by
      intro d hd
      right
      fin_cases hd
      · simpa using hsafe 3 (by norm_num)
      · simpa using hsafe 1 (by norm_num)
      · simpa using hsafe 2 (by norm_num)) hrun
  refine ⟨N, h1, h2.trans (mul_le_mul_of_nonneg_left ?_ (by positivity))⟩
  decide +kernel

/-- Upwind advection of one variable with speed 1 on two cells, third-order interpolation, steps of 1/4. -/
def carousel : RoundedScheme Unit where
  n := twoCells
  active := alongX
  h := fun _ => 1
  p := ![2, 0, 0]
  prim := id
  riem := fun _ l _ => l
  speed := fun _ => 1
  cfl := 1 / 4
  fixedDt := some (1 / 4)

/-- The hypotheses of the theorem about the scheme hold for it, for the states in which both bounds hold. -/
example {S : Type} (mk : ODEState ℚ (FState Unit) S → S) (m : Integrator) (st : ODEState ℚ (FState Unit) S)
    (out : Outcome ℚ (FState Unit) S) (h0 : st.t = 0) (logEvery : Bool) (fuel : ℕ) (Q : FState Unit → Prop)
    (hQ : Q = fun u => (∀ i, InCells carousel.n i → |u () i| ≤ 2) ∧ ∀ d, carousel.active d = true → ∀ i,
      InFaces carousel.n d i → |carousel.flux double.fl d (carousel.primAverages double.fl (wrapAround carousel.n u)) () i| ≤ 4)
    (hrun : st.integrateWith double.ops (roundedProposal double.fl (onlyWhere Q (carousel.rhs double.fl)) m) mk 3 [1, 2]
      logEvery fuel = some out) :
    ∃ N : ℕ, out.1.stepCount = st.stepCount + N ∧
      |cellSum twoCells (out.1.u ()) - cellSum twoCells (st.u ())| ≤ N * (2 * (2 ^ (-53 : ℤ) * 37)) := by
  have hst : FloatSteps double (roundedProposal double.fl (onlyWhere Q (carousel.rhs double.fl)) m) (1 / 4) := by
    intro t u dt go hs
    have : dt = 1 / 4 := by
      unfold roundedProposal onlyWhere at hs
      split at hs
      · simp only [RoundedScheme.rhs, RoundedScheme.size, carousel, Bind.bind, Except.bind, Pure.pure, Except.pure,
          Except.ok.injEq, Prod.mk.injEq] at hs
        exact hs.1.symm
      · simp [Bind.bind, Except.bind] at hs
    rw [this]
    exact ⟨⟨1, -2, by norm_num, by decide, by decide⟩, by norm_num, le_rfl⟩
  have hsc : NormalScales double carousel.active carousel.h (fun _ => 4) 2 (1 / 4) :=
    ⟨by decide, by decide +kernel, by decide +kernel, by decide +kernel,
      fun _ _ => by simp only [carousel]; decide +kernel, ⟨0, rfl⟩⟩
  have hsafe (k : ℤ) (hk : |k| ≤ 2 ^ 52) : SafeTime double (1 / 4) (k : ℚ) :=
    ⟨⟨k, 0, by simp, by simp only [double]; exact hk.trans (by norm_num), by decide⟩, Or.inl ⟨k, 0, by simp, hk, by decide⟩⟩
  obtain ⟨N, h1, h2⟩ := C98_scheme double carousel () (fun _ => 4) 2 (1 / 4) hsc Q (by subst hQ; exact fun u hu => hu) m hst mk 3
    [1, 2] logEvery fuel st out h0 (by norm_num) (by intro d hd; fin_cases hd <;> norm_num) (by
      intro d hd
      right
      fin_cases hd
      · simpa using hsafe 3 (by norm_num)
      · simpa using hsafe 1 (by norm_num)
      · simpa using hsafe 2 (by norm_num)) hrun
  refine ⟨N, h1, h2.trans (mul_le_mul_of_nonneg_left ?_ (by positivity))⟩
  decide +kernel

end FVHOE
