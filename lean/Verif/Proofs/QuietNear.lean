import Verif.Proofs.QuietFlow
import Verif.Proofs.GridField
import Verif.Props.C94

/-!
Helper lemmas for C114: where the cells within reach hold nearly the same state, the primitive averages are near that state and
the fluxes near its flux.
-/

set_option linter.unusedSectionVars false

namespace FVHOE

variable {np : ℕ}

/-- Within `ε` of the state `s` on the cube of radius `m` around `i`. -/
def NearAt (Φ : Ix → State ℝ np) (i : Ix) (m : ℤ) (s : State ℝ np) (ε : ℝ) : Prop :=
  ∀ j : Ix, (∀ d, |j d - i d| ≤ m) → dist (Φ j) s ≤ ε

theorem NearAt.mono {Φ : Ix → State ℝ np} {i : Ix} {m m' : ℤ} {s : State ℝ np} {ε ε' : ℝ} (h : NearAt Φ i m s ε) (hm : m' ≤ m)
    (he : ε ≤ ε') : NearAt Φ i m' s ε' := fun j hj => (h j fun d => (hj d).trans hm).trans he

section

variable {p : Fin 3 → ℕ} (hp : ∀ d, p d ≤ 8) {Φ : Ix → State ℝ np} {i : Ix} {m : ℤ} {s : State ℝ np} {ε : ℝ}
include hp

theorem NearAt.comp (h : NearAt Φ i (m + 4) s ε) (d : Fin 3) (v : Var np) :
    0 ≤ ε ∧ CloseNear (fun j => Φ j v) (fun _ => s v) i ((fun _ => m) + Pi.single d (ceilHalf (p d) : ℤ)) ε ∨ m < -4 := by
  by_cases hm : m < -4
  · exact Or.inr hm
  · refine Or.inl ⟨dist_nonneg.trans (h i fun d => by simp; omega), fun j hj => ?_⟩
    have h4 := ceilHalf_le_four (hp d)
    have := (dist_le_pi_dist _ _ v).trans (h j fun e => by
      have := hj e
      by_cases he : e = d
      · subst he
        simp at this
        omega
      · simp [he] at this
        omega)
    rwa [Real.dist_eq] at this

theorem NearAt.op (X : (Ix → ℝ) → Ix → ℝ) (X' : (Ix → State ℝ np) → Ix → State ℝ np) (d : Fin 3)
    (hX : ∀ v, (fun j => X' Φ j v) = X fun j => Φ j v) (hc : ∀ k : ℝ, X (fun _ => k) = fun _ => k)
    (hb : ∀ (f g : Ix → ℝ), 0 ≤ ε → CloseNear f g i ((fun _ => m) + Pi.single d (ceilHalf (p d) : ℤ)) ε →
      CloseNear (X f) (X g) i (fun _ => m) (2 * ε)) (h : NearAt Φ i (m + 4) s ε) : NearAt (X' Φ) i m s (2 * ε) := by
  intro j hj
  have hm : ¬ m < -4 := by
    have := (abs_nonneg _).trans (hj 0)
    omega
  have h0 : 0 ≤ ε := by
    rcases NearAt.comp hp h d .rho with h | h
    · exact h.1
    · exact absurd h hm
  rw [dist_pi_le_iff (by positivity)]
  intro v
  have h1 := (NearAt.comp hp h d v).resolve_right hm
  have h2 := hb _ _ h1.1 h1.2 j hj
  rw [hc, ← hX v] at h2
  rw [Real.dist_eq]
  exact h2

theorem NearAt.c (d : Fin 3) (h : NearAt Φ i (m + 4) s ε) : NearAt (latC ℝ (p d) d Φ) i m s (2 * ε) :=
  NearAt.op hp (latC ℝ (p d) d) (latC ℝ (p d) d) d (fun v => lsweep_comp v _ _ _ _)
    (fun k => lsweep_const d _ _ (wts_sum (hp _)).2.1 k)
    (fun f g h0 h j hj => (CloseNear.c hp h0 d h j hj).trans (by linarith)) h

theorem NearAt.t (d : Fin 3) (h : NearAt Φ i (m + 4) s ε) : NearAt (latT ℝ (p d) d Φ) i m s (2 * ε) :=
  NearAt.op hp (latT ℝ (p d) d) (latT ℝ (p d) d) d (fun v => lsweep_comp v _ _ _ _)
    (fun k => lsweep_const d _ _ (wts_sum (hp _)).2.2.2 k)
    (fun f g h0 h j hj => (CloseNear.t hp h0 d h j hj).trans (by linarith)) h

theorem NearAt.l (d : Fin 3) (h : NearAt Φ i (m + 4) s ε) : NearAt (latL ℝ (p d) d Φ) i m s (2 * ε) :=
  NearAt.op hp (latL ℝ (p d) d) (latL ℝ (p d) d) d (fun v => lsweep_comp v _ _ _ _)
    (fun k => lsweep_const d _ _ (wts_sum (hp _)).1 k)
    (fun f g h0 h j hj => (CloseNear.l hp h0 d h j hj).trans (by linarith)) h

theorem NearAt.r (d : Fin 3) (h : NearAt Φ i (m + 4) s ε) : NearAt (latR ℝ (p d) d Φ) i m s (2 * ε) :=
  NearAt.op hp (latR ℝ (p d) d) (latR ℝ (p d) d) d (fun v => lsweep_comp v _ _ _ _)
    (fun k => lsweep_const d _ _ (wts_sum (hp _)).2.2.1 k)
    (fun f g h0 h j hj => (CloseNear.r hp h0 d h j hj).trans (by linarith)) h

theorem NearAt.centers (h : NearAt Φ i (m + 12) s ε) : NearAt (latCenters ℝ p Φ) i m s (8 * ε) := by
  have h1 := NearAt.c hp (m := m + 8) 0 (h.mono (by omega) le_rfl)
  have h2 := NearAt.c hp (m := m + 4) 1 (h1.mono (by omega) le_rfl)
  exact (NearAt.c hp 2 h2).mono le_rfl (le_of_eq (by ring))

/-- The primitive averages. -/
theorem NearAt.prim {prim : State ℝ np → State ℝ np} {w : State ℝ np} {δ L : ℝ} (hL : 0 ≤ L)
    (hP : ∀ a, dist a s ≤ δ → dist (prim a) w ≤ L * dist a s) (hδ : 8 * ε ≤ δ) (h : NearAt Φ i (m + 24) s ε) :
    NearAt (latPrim ℝ prim p Φ) i m w (64 * L * ε) := by
  have h1 : NearAt (latCenters ℝ p Φ) i (m + 12) s (8 * ε) := NearAt.centers hp (h.mono (by omega) le_rfl)
  have h2 : NearAt (fun j => prim (latCenters ℝ p Φ j)) i (m + 12) w (L * (8 * ε)) := fun j hj =>
    (hP _ ((h1 j hj).trans hδ)).trans (mul_le_mul_of_nonneg_left (h1 j hj) hL)
  have h3 := NearAt.t hp (m := m + 8) 0 (h2.mono (by omega) le_rfl)
  have h4 := NearAt.t hp (m := m + 4) 1 (h3.mono (by omega) le_rfl)
  exact (NearAt.t hp 2 h4).mono le_rfl (le_of_eq (by ring))

/-- The fluxes. -/
theorem NearAt.flux {R : State ℝ np → State ℝ np → State ℝ np} {F : State ℝ np} {δ L : ℝ} (hL : 0 ≤ L) (d : Fin 3)
    (hR : ∀ a b, dist a s ≤ δ → dist b s ≤ δ → dist (R a b) F ≤ L * max (dist a s) (dist b s)) (hδ : 8 * ε ≤ δ)
    (h : NearAt Φ i (m + 21) s ε) : NearAt (latFlux ℝ R p none d Φ) i m F (32 * L * ε) := by
  have h1 := NearAt.c hp (m := m + 17) (centerOrder d).1 (h.mono (by omega) le_rfl)
  have h2 := NearAt.c hp (m := m + 13) (centerOrder d).2 (h1.mono (by omega) le_rfl)
  have hl := NearAt.l hp (m := m + 9) d (h2.mono (by omega) le_rfl)
  have hr := NearAt.r hp (m := m + 9) d (h2.mono (by omega) le_rfl)
  have h3 : NearAt (latMid ℝ R p none d Φ) i (m + 8) F (L * (8 * ε)) := by
    intro j hj
    have a1 := hl j fun e => (hj e).trans (by omega)
    have a2 := hr (j - Pi.single d 1) fun e => by
      have := hj e
      rw [abs_le] at this ⊢
      by_cases he : e = d
      · subst he
        simp
        omega
      · simp [he]
        omega
    refine (hR _ _ (a2.trans (le_trans (by linarith) hδ)) (a1.trans (le_trans (by linarith) hδ))).trans
      (mul_le_mul_of_nonneg_left (max_le (a2.trans (by linarith)) (a1.trans (by linarith))) hL)
  have h4 := NearAt.t hp (m := m + 4) (transverseOrder d).1 (h3.mono (by omega) le_rfl)
  exact (NearAt.t hp (transverseOrder d).2 h4).mono le_rfl (le_of_eq (by ring))

end

/-! ### Velocities across the grid -/

/-- The momentum along `d` is `κ` times the density. -/
def drift (d : Fin 3) (κ : ℝ) : State ℝ np →ₗ[ℝ] ℝ :=
  (LinearMap.proj (Var.mom d) : State ℝ np →ₗ[ℝ] ℝ) - κ • (LinearMap.proj Var.rho : State ℝ np →ₗ[ℝ] ℝ)

theorem drift_apply (d : Fin 3) (κ : ℝ) (s : State ℝ np) : drift d κ s = s (.mom d) - κ * s .rho := rfl

theorem drift_sweep (d : Fin 3) (κ : ℝ) (e : Fin 3) (r : ℤ) (ws : List ℚ) {Φ : Ix → State ℝ np} (h : ∀ j, drift d κ (Φ j) = 0)
    (j : Ix) : drift d κ (lsweep ℝ e r ws Φ j) = 0 := by
  rw [lsweep_map]
  simp only [h]
  unfold lsweep
  rw [wsum_const]
  simp

theorem drift_riemann (k : RiemannKind) (G : Gas ℝ) (e d : Fin 3) (hed : d ≠ e) (κ : ℝ) (wl wr : State ℝ np)
    (hl : wl (.mom d) = κ) (hr : wr (.mom d) = κ) : drift d κ (riemann k G e wl wr) = 0 := by
  rw [drift_apply]
  cases k with
  | advectionUpwind =>
    simp only [riemann, advectionUpwind, computeFluxes, computeConservatives, hl, hr]
    split_ifs <;> simp_all <;> ring
  | llf =>
    simp only [riemann, FVHOE.llf, computeFluxes, computeConservatives, hl, hr, hed, and_false, if_false]
    ring
  | hllc =>
    simp only [riemann, FVHOE.hllc, hl, hr, hed, if_false]
    generalize hllcSample (K := ℝ) _ _ _ _ _ = a
    generalize hllcSample (K := ℝ) _ _ _ _ _ = b
    unfold hllcUpwind
    rcases lt_trichotomy b 0 with h | h | h
    · rw [if_neg (not_lt.2 h.le), if_pos h]
      ring
    · rw [h]
      simp
    · rw [if_pos h]
      ring

section

variable {p : Fin 3 → ℕ} (hp : ∀ d, p d ≤ 8) {d : Fin 3} {κ gamma : ℝ} {X : Ix → State ℝ np}
  (hX : ∀ j, drift d κ (X j) = 0) (h0 : ∀ j, latCenters ℝ p X j .rho ≠ 0)
include hp hX h0

theorem drift_prim (j : Ix) : latPrim ℝ (computePrimitives gamma) p X j (.mom d) = κ := by
  have hc : ∀ j, drift d κ (latCenters ℝ p X j) = 0 := drift_sweep _ _ _ _ _ (drift_sweep _ _ _ _ _ (drift_sweep _ _ _ _ _ hX))
  have hc' : ∀ j, computePrimitives gamma (latCenters ℝ p X j) (.mom d) = κ := fun j => by
    have := hc j
    rw [drift_apply, sub_eq_zero] at this
    change latCenters ℝ p X j (.mom d) / latCenters ℝ p X j .rho = κ
    rw [this, mul_div_cancel_right₀ _ (h0 j)]
  have e := congrFun (latAvg_comp (.mom d) p fun j => computePrimitives gamma (latCenters ℝ p X j)) j
  change latAvg p (fun j => computePrimitives gamma (latCenters ℝ p X j)) j (.mom d) = κ
  rw [e]
  simp only [hc']
  unfold latAvg latT
  rw [lsweep_const 0 _ _ (wts_sum (hp _)).2.2.2, lsweep_const 1 _ _ (wts_sum (hp _)).2.2.2,
    lsweep_const 2 _ _ (wts_sum (hp _)).2.2.2]

theorem drift_flux (k : RiemannKind) (G : Gas ℝ) (e : Fin 3) (hed : d ≠ e) (j : Ix) :
    drift d κ (latFlux ℝ (riemann k G e) p none e (latPrim ℝ (computePrimitives gamma) p X) j) = 0 := by
  have hw := drift_prim hp hX h0 (gamma := gamma)
  have hline : (fun j => latLine ℝ p e (latPrim ℝ (computePrimitives gamma) p X) j (.mom d)) = fun _ => κ := by
    rw [latLine_comp]
    simp only [hw]
    unfold latLine latC
    rw [lsweep_const _ _ _ (wts_sum (hp _)).2.1, lsweep_const _ _ _ (wts_sum (hp _)).2.1]
  have hL : ∀ j, latL ℝ (p e) e (latLine ℝ p e (latPrim ℝ (computePrimitives gamma) p X)) j (.mom d) = κ := fun j => by
    have := congrFun (lsweep_comp (.mom d) e (ceilHalf (p e)) (wts (conservativeWeights (p e) "l"))
      (latLine ℝ p e (latPrim ℝ (computePrimitives gamma) p X))) j
    beta_reduce at this
    unfold latL
    rw [this, hline, lsweep_const _ _ _ (wts_sum (hp _)).1]
  have hR : ∀ j, latR ℝ (p e) e (latLine ℝ p e (latPrim ℝ (computePrimitives gamma) p X)) j (.mom d) = κ := fun j => by
    have := congrFun (lsweep_comp (.mom d) e (ceilHalf (p e)) (wts (conservativeWeights (p e) "r"))
      (latLine ℝ p e (latPrim ℝ (computePrimitives gamma) p X))) j
    beta_reduce at this
    unfold latR
    rw [this, hline, lsweep_const _ _ _ (wts_sum (hp _)).2.2.1]
  exact drift_sweep _ _ _ _ _ (drift_sweep _ _ _ _ _ fun j => drift_riemann k G e d hed κ _ _ (hR _) (hL _)) j

end

/-! ### The detector -/

/-- The test of `not_reported` with attention to the variables that are considered. -/
theorem considered_quiet {o : LimiterOpts ℝ} (ho : GlobalTest o) (dims : List (Fin 3)) (n : Fin 3 → ℕ) (W W' : Ix → State ℝ 0)
    (i : Ix) (hW : ∀ v, o.toDetectOpts.considers v = true → |W' i v - W i v| ≤ o.eps * (gHi dims n W v - gLo dims n W v))
    (hP : 0 ≤ W' i .en) : ¬ Reported o.toDetectOpts dims n W W' i := by
  have hi : Nbr dims i i := fun d => by split_ifs <;> simp
  rintro (⟨v, hv, h, -⟩ | h)
  · have a1 := (nLo_least dims W i v).2 ⟨i, hi, rfl⟩
    have a2 := (nHi_greatest dims W i v).2 ⟨i, hi, rfl⟩
    have a3 := abs_le.1 (hW v hv)
    unfold tolLo tolHi at h
    rw [if_pos ho.range, if_pos ho.range, if_pos ho.mode] at h
    beta_reduce at a1 a2
    rcases h with h | h <;> linarith [a3.1, a3.2]
  · rcases ho.pad with e | e
    · rw [e] at h
      exact lt_irrefl _ h
    · rw [e] at h
      have : padAt (defaultPad : List (Var 0 × Option ℝ × Option ℝ)) (W' i) = ((W' i .en - 0 : ℝ) : WithTop ℝ) := by
        show min (((W' i .en - 0 : ℝ) : WithTop ℝ)) ⊤ = _
        rw [min_eq_left le_top]
      rw [this, sub_zero] at h
      exact absurd h (not_lt.2 (by exact_mod_cast hP))

/-! ### Averages of a continuous flow -/

/-- Averages over the cells near that of `y` are near the value at `y`. -/
theorem mean_at {c : EulerConfig ℝ np} (hc : TransportSetup c) (x₀ : Fin 3 → ℝ) {f : (Fin 3 → ℝ) → ℝ} (hf : Continuous f)
    (hdep : DependsOn c.scheme.active f) {i j : Ix} {y : Fin 3 → ℝ}
    (hy : ∀ d, c.scheme.active d = true → x₀ d + i d * c.h d ≤ y d ∧ y d ≤ x₀ d + (i d + 1) * c.h d)
    (hj : ∀ d, |j d - i d| ≤ 48) {H ω : ℝ} (hH : 0 ≤ H) (hh : ∀ d, c.scheme.active d = true → c.h d ≤ H)
    (hω : ∀ z, dist z y ≤ 49 * H → |f z - f y| ≤ ω) : |cellMean x₀ c.h f j - f y| ≤ ω := by
  have hv : 0 < ∏ d, c.h d := Finset.prod_pos fun d _ => hc.spacing d
  have e : cellMean x₀ c.h (fun _ => f y) j = f y := by
    rw [cellMean_eq _ _ hc.spacing, MeasureTheory.setIntegral_const, cellBox_vol x₀ c.h hc.spacing, smul_eq_mul]
    field_simp
  rw [← e]
  refine cellMean_sub_le x₀ c.h hc.spacing hf continuous_const fun z hz => ?_
  have ez : f z = f fun d => if c.scheme.active d = true then z d else y d := hdep _ _ fun d hd => by simp [hd]
  rw [ez]
  refine hω _ ((dist_pi_le_iff (by positivity)).2 fun d => ?_)
  rw [Real.dist_eq]
  by_cases hd : c.scheme.active d = true
  · rw [if_pos hd]
    have hp := hc.spacing d
    have a1 := hz.1 d
    have a2 := hz.2 d
    have b1 := (hy d hd).1
    have b2 := (hy d hd).2
    have b3 := hh d hd
    have b4 : |(j d : ℝ) - i d| ≤ 48 := by exact_mod_cast hj d
    rw [abs_le] at b4
    beta_reduce at a1 a2
    have b5 := mul_le_mul_of_nonneg_right b4.1 hp.le
    have b6 := mul_le_mul_of_nonneg_right b4.2 hp.le
    rw [abs_le]
    constructor <;> nlinarith
  · rw [if_neg hd, sub_self, abs_zero]
    positivity

theorem exists_small (l : List (ℝ × ℝ)) (h : ∀ z ∈ l, 0 ≤ z.1 ∧ 0 < z.2) : ∃ b > 0, ∀ z ∈ l, z.1 * b ≤ z.2 := by
  induction l with
  | nil => exact ⟨1, one_pos, by simp⟩
  | cons a l ih =>
    obtain ⟨b, hb, H⟩ := ih fun z hz => h z (List.mem_cons_of_mem _ hz)
    obtain ⟨h1, h2⟩ := h a List.mem_cons_self
    refine ⟨min b (a.2 / (a.1 + 1)), lt_min hb (by positivity), fun z hz => ?_⟩
    rcases List.mem_cons.1 hz with rfl | hz
    · refine (mul_le_mul_of_nonneg_left (min_le_right _ _) h1).trans ?_
      rw [mul_div_assoc', div_le_iff₀ (by positivity)]
      nlinarith
    · exact (mul_le_mul_of_nonneg_left (min_le_left _ _) (h z (List.mem_cons_of_mem _ hz)).1).trans (H z hz)

theorem exists_lower {X : Type*} [TopologicalSpace X] {Ω : Set X} (hΩ : IsCompact Ω) {f : X → ℝ} (hf : Continuous f)
    (h0 : ∀ x, 0 < f x) : ∃ m > 0, ∀ x ∈ Ω, m ≤ f x := by
  rcases Ω.eq_empty_or_nonempty with rfl | hne
  · exact ⟨1, one_pos, by simp⟩
  · obtain ⟨x, -, hx⟩ := hΩ.exists_isMinOn hne hf.continuousOn
    exact ⟨f x, h0 x, fun y hy => hx hy⟩

end FVHOE
