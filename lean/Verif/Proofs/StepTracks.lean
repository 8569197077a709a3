import Verif.Proofs.Tracks
import Verif.Proofs.BC
import Verif.Model.ODE

/-!
Steps of the time steppers as conservative updates whose flux depends locally on the state at the start of the step.
-/

set_option linter.unusedSectionVars false

namespace FVHOE

variable {np : ℕ}

/-- A step of size `τ` from `u` to `u'` with the given integrator: every evaluation is the divergence of face fluxes that
belong to the evaluated grid function. -/
def RKStep (m : Integrator) (Ev : (Ix → State ℝ np) → (Fin 3 → Ix → State ℝ np) → Prop) (act : Fin 3 → Bool) (h : Fin 3 → ℝ)
    (τ : ℝ) (u u' : Ix → State ℝ np) : Prop :=
  match m with
  | .euler => ∃ F, Ev u F ∧ u' = u + τ • latDiv act h F
  | .ssprk2 => ∃ F F', Ev u F ∧ Ev (u + τ • latDiv act h F) F' ∧
      u' = u + (1 / 2 : ℝ) • (τ • latDiv act h F) + (1 / 2 : ℝ) • (τ • latDiv act h F')
  | .ssprk3 => ∃ F F' F'', Ev u F ∧ Ev (u + τ • latDiv act h F) F' ∧
      Ev (u + (1 / 4 : ℝ) • (τ • latDiv act h F) + (1 / 4 : ℝ) • (τ • latDiv act h F')) F'' ∧
      u' = u + (1 / 6 : ℝ) • (τ • latDiv act h F) + (1 / 6 : ℝ) • (τ • latDiv act h F') + (2 / 3 : ℝ) • (τ • latDiv act h F'')
  | .rk4 => ∃ F F' F'' F3, Ev u F ∧ Ev (u + (1 / 2 : ℝ) • (τ • latDiv act h F)) F' ∧
      Ev (u + (1 / 2 : ℝ) • (τ • latDiv act h F')) F'' ∧ Ev (u + τ • latDiv act h F'') F3 ∧
      u' = u + (1 / 6 : ℝ) • (τ • latDiv act h F) + (1 / 3 : ℝ) • (τ • latDiv act h F') +
        (1 / 3 : ℝ) • (τ • latDiv act h F'') + (1 / 6 : ℝ) • (τ • latDiv act h F3)

theorem rkStep_of_stepper {f : RHS ℝ (Ix → State ℝ np)} {Ev : (Ix → State ℝ np) → (Fin 3 → Ix → State ℝ np) → Prop}
    {act : Fin 3 → Bool} {h : Fin 3 → ℝ} (w : Ix → Ix)
    (hf : ∀ s t u dt D, f s t u = .ok (dt, D) → ∃ F, Ev (fun i => u (w i)) F ∧ (fun i => D (w i)) = latDiv act h F)
    (m : Integrator) (t : ℝ) (u : Ix → State ℝ np) (target : Option ℝ) (τ : ℝ) (u' : Ix → State ℝ np)
    (hs : stepper f m t u target = .ok (τ, u')) : RKStep m Ev act h τ (fun i => u (w i)) fun i => u' (w i) := by
  have e : ∀ {D : Ix → State ℝ np} {F}, (fun i => D (w i)) = latDiv act h F → ∀ i, latDiv act h F i = D (w i) :=
    fun h i => (congrFun h i).symm
  cases m with
  | euler =>
    obtain ⟨⟨dt, k0⟩, h0, hs⟩ := bind_ok hs
    cases hs
    obtain ⟨F, hF, eF⟩ := hf _ _ _ _ _ h0
    refine ⟨F, hF, ?_⟩
    funext i
    simp only [Pi.add_apply, Pi.smul_apply, e eF]
  | ssprk2 =>
    obtain ⟨⟨dt, k0⟩, h0, hs⟩ := bind_ok hs
    obtain ⟨⟨dt1, k1⟩, h1, hs⟩ := bind_ok hs
    cases hs
    obtain ⟨F, hF, eF⟩ := hf _ _ _ _ _ h0
    obtain ⟨F', hF', eF'⟩ := hf _ _ _ _ _ h1
    refine ⟨F, F', hF, ?_, ?_⟩
    · convert hF' using 1
      funext i
      simp only [Pi.add_apply, Pi.smul_apply, e eF]
    · funext i
      simp only [Pi.add_apply, Pi.smul_apply, e eF, e eF']
      module
  | ssprk3 =>
    obtain ⟨⟨dt, k0⟩, h0, hs⟩ := bind_ok hs
    obtain ⟨⟨dt1, k1⟩, h1, hs⟩ := bind_ok hs
    obtain ⟨⟨dt2, k2⟩, h2, hs⟩ := bind_ok hs
    cases hs
    obtain ⟨F, hF, eF⟩ := hf _ _ _ _ _ h0
    obtain ⟨F', hF', eF'⟩ := hf _ _ _ _ _ h1
    obtain ⟨F'', hF'', eF''⟩ := hf _ _ _ _ _ h2
    refine ⟨F, F', F'', hF, ?_, ?_, ?_⟩
    · convert hF' using 1
      funext i
      simp only [Pi.add_apply, Pi.smul_apply, e eF]
    · convert hF'' using 1
      funext i
      simp only [Pi.add_apply, Pi.smul_apply, e eF, e eF']
      module
    · funext i
      simp only [Pi.add_apply, Pi.smul_apply, e eF, e eF', e eF'']
      module
  | rk4 =>
    obtain ⟨⟨dt, k0⟩, h0, hs⟩ := bind_ok hs
    obtain ⟨⟨dt1, k1⟩, h1, hs⟩ := bind_ok hs
    obtain ⟨⟨dt2, k2⟩, h2, hs⟩ := bind_ok hs
    obtain ⟨⟨dt3, k3⟩, h3, hs⟩ := bind_ok hs
    cases hs
    obtain ⟨F, hF, eF⟩ := hf _ _ _ _ _ h0
    obtain ⟨F', hF', eF'⟩ := hf _ _ _ _ _ h1
    obtain ⟨F'', hF'', eF''⟩ := hf _ _ _ _ _ h2
    obtain ⟨F3, hF3, eF3⟩ := hf _ _ _ _ _ h3
    refine ⟨F, F', F'', F3, hF, ?_, ?_, ?_, ?_⟩
    · convert hF' using 1
      funext i
      simp only [Pi.add_apply, Pi.smul_apply, e eF]
      module
    · convert hF'' using 1
      funext i
      simp only [Pi.add_apply, Pi.smul_apply, e eF']
      module
    · convert hF3 using 1
      funext i
      simp only [Pi.add_apply, Pi.smul_apply, e eF'']
    · funext i
      simp only [Pi.add_apply, Pi.smul_apply, e eF, e eF', e eF'', e eF3]
      module

section

variable {I : Type} {A : Finset (Fin 3)} {K : Set (State ℝ np)} {u u' : I → Ix → State ℝ np}

theorem latDiv_add (act : Fin 3 → Bool) (h : Fin 3 → ℝ) (F F' : Fin 3 → Ix → State ℝ np) :
    latDiv act h (F + F') = latDiv act h F + latDiv act h F' := by
  funext i
  simp only [latDiv, Pi.add_apply, ← Finset.sum_add_distrib]
  refine Finset.sum_congr rfl fun d _ => ?_
  split_ifs
  · module
  · rw [add_zero]

theorem latDiv_smul (act : Fin 3 → Bool) (h : Fin 3 → ℝ) (c : ℝ) (F : Fin 3 → Ix → State ℝ np) :
    latDiv act h (c • F) = c • latDiv act h F := by
  funext i
  simp only [latDiv, Pi.smul_apply, Finset.smul_sum]
  refine Finset.sum_congr rfl fun d _ => ?_
  split_ifs
  · module
  · rw [smul_zero]

/-- A family of steps: the update is conservative with a flux that depends locally on the state at the start of the step,
is consistent, and keeps the periods of the fluxes of the stages. -/
theorem step_tracks (m : Integrator) {Ev : I → (Ix → State ℝ np) → (Fin 3 → Ix → State ℝ np) → Prop}
    {f : Fin 3 → State ℝ np → State ℝ np}
    (hEv : ∀ (v : I → Ix → State ℝ np) (F : I → Fin 3 → Ix → State ℝ np), (∀ a, Ev a (v a) (F a)) →
      Tracks A K u v (fun k => k) → ∀ d ∈ A, Tracks A K u (fun a => F a d) (f d))
    {act : I → Fin 3 → Bool} (hact : ∀ a d, act a d = true ↔ d ∈ A) {h : I → Fin 3 → ℝ} {τ : I → ℝ} {R : ℝ}
    (hτ : ∀ a, 0 ≤ τ a) (hh : ∀ a d, 0 < h a d) (hR : ∀ a, ∀ d ∈ A, τ a ≤ R * h a d)
    (hstep : ∀ a, RKStep m (Ev a) (act a) (h a) (τ a) (u a) (u' a)) :
    ∃ g : I → Fin 3 → Ix → State ℝ np, (∀ a, u' a = u a + τ a • latDiv (act a) (h a) (g a)) ∧
      (∀ d ∈ A, Tracks A K u (fun a => g a d) (f d)) ∧
      ∀ a s, (∀ v F, Ev a v F → ∀ d i, F d (i + s) = F d i) → ∀ d i, g a d (i + s) = g a d i := by
  have t0 : Tracks A K u u fun k => k := Tracks.refl
  -- a stage built from evaluations that track the fluxes
  have dv : ∀ {F : I → Fin 3 → Ix → State ℝ np}, (∀ d ∈ A, Tracks A K u (fun a => F a d) (f d)) →
      Tracks A K u (fun a i => τ a • latDiv (act a) (h a) (F a) i) fun _ => 0 := fun hF => div_tracks hact hτ hh hR hF
  have st : ∀ (c : ℝ) {F : I → Fin 3 → Ix → State ℝ np} {v : I → Ix → State ℝ np}, Tracks A K u v (fun k => k) →
      (∀ d ∈ A, Tracks A K u (fun a => F a d) (f d)) →
      Tracks A K u (fun a => v a + c • (τ a • latDiv (act a) (h a) (F a))) fun k => k := by
    intro c F v hv hF
    exact (hv.add ((dv hF).smul c)).congr (fun a i => rfl) fun k _ => by rw [smul_zero, add_zero]
  have st1 : ∀ {F : I → Fin 3 → Ix → State ℝ np} {v : I → Ix → State ℝ np}, Tracks A K u v (fun k => k) →
      (∀ d ∈ A, Tracks A K u (fun a => F a d) (f d)) →
      Tracks A K u (fun a => v a + τ a • latDiv (act a) (h a) (F a)) fun k => k := by
    intro F v hv hF
    exact (st 1 hv hF).congr (fun a i => by simp only [one_smul]) fun _ _ => rfl
  cases m with
  | euler =>
    choose F hF e using hstep
    exact ⟨F, e, hEv u F hF t0, fun a s hs => hs _ _ (hF a)⟩
  | ssprk2 =>
    choose F F' hF hF' e using hstep
    have t := hEv u F hF t0
    have t' := hEv _ F' hF' (st1 t0 t)
    refine ⟨fun a => (1 / 2 : ℝ) • F a + (1 / 2 : ℝ) • F' a, fun a => ?_, fun d hd => ?_, fun a s hs d i => ?_⟩
    · rw [e, latDiv_add, latDiv_smul, latDiv_smul]
      module
    · exact (((t d hd).smul (1 / 2)).add ((t' d hd).smul (1 / 2))).congr (fun a i => rfl) fun k _ => by module
    · simp only [Pi.add_apply, Pi.smul_apply, hs _ _ (hF a), hs _ _ (hF' a)]
  | ssprk3 =>
    choose F F' F'' hF hF' hF'' e using hstep
    have t := hEv u F hF t0
    have t' := hEv _ F' hF' (st1 t0 t)
    have t'' := hEv _ F'' hF'' (st (1 / 4) (st (1 / 4) t0 t) t')
    refine ⟨fun a => (1 / 6 : ℝ) • F a + (1 / 6 : ℝ) • F' a + (2 / 3 : ℝ) • F'' a, fun a => ?_, fun d hd => ?_,
      fun a s hs d i => ?_⟩
    · rw [e, latDiv_add, latDiv_add, latDiv_smul, latDiv_smul, latDiv_smul]
      module
    · exact ((((t d hd).smul (1 / 6)).add ((t' d hd).smul (1 / 6))).add ((t'' d hd).smul (2 / 3))).congr (fun a i => rfl)
        fun k _ => by module
    · simp only [Pi.add_apply, Pi.smul_apply, hs _ _ (hF a), hs _ _ (hF' a), hs _ _ (hF'' a)]
  | rk4 =>
    choose F F' F'' F3 hF hF' hF'' hF3 e using hstep
    have t := hEv u F hF t0
    have t' := hEv _ F' hF' (st (1 / 2) t0 t)
    have t'' := hEv _ F'' hF'' (st (1 / 2) t0 t')
    have t3 := hEv _ F3 hF3 (st1 t0 t'')
    refine ⟨fun a => (1 / 6 : ℝ) • F a + (1 / 3 : ℝ) • F' a + (1 / 3 : ℝ) • F'' a + (1 / 6 : ℝ) • F3 a, fun a => ?_,
      fun d hd => ?_, fun a s hs d i => ?_⟩
    · rw [e, latDiv_add, latDiv_add, latDiv_add, latDiv_smul, latDiv_smul, latDiv_smul, latDiv_smul]
      module
    · exact (((((t d hd).smul (1 / 6)).add ((t' d hd).smul (1 / 3))).add ((t'' d hd).smul (1 / 3))).add
        ((t3 d hd).smul (1 / 6))).congr (fun a i => rfl) fun k _ => by module
    · simp only [Pi.add_apply, Pi.smul_apply, hs _ _ (hF a), hs _ _ (hF' a), hs _ _ (hF'' a), hs _ _ (hF3 a)]

end

end FVHOE
