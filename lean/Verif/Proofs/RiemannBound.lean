import Verif.Proofs.LipAt

/-!
The Riemann solvers on compact sets of states of positive density and pressure.
-/

set_option linter.unusedSectionVars false

namespace FVHOE

open Filter Topology NNReal

/-- A function that is Lipschitz continuous near every point of a compact set is Lipschitz continuous on it. -/
theorem lipAt_on {X Y : Type*} [PseudoMetricSpace X] [PseudoMetricSpace Y] {Φ : X → Y} {C : Set X} (hC : IsCompact C)
    (h : ∀ k ∈ C, LipAt Φ k) : ∃ M ≥ 0, ∀ x ∈ C, ∀ y ∈ C, dist (Φ x) (Φ y) ≤ M * dist x y := by
  obtain ⟨δ, hδ, L, hL, H⟩ := lipAt_uniform hC h
  have hc : ContinuousOn Φ C := fun x hx => (h x hx).continuousAt.continuousWithinAt
  obtain ⟨B, hB⟩ := Metric.isBounded_iff.1 (hC.image_of_continuousOn hc).isBounded
  refine ⟨max L (|B| / δ), le_max_of_le_left hL, fun x hx y hy => ?_⟩
  by_cases hxy : dist x y ≤ δ
  · exact (H y hy x hxy).trans (mul_le_mul_of_nonneg_right (le_max_left _ _) dist_nonneg)
  · have h1 : dist (Φ x) (Φ y) ≤ |B| := (hB ⟨x, hx, rfl⟩ ⟨y, hy, rfl⟩).trans (le_abs_self B)
    have h2 : |B| ≤ |B| / δ * dist x y := by
      rw [div_mul_eq_mul_div, le_div_iff₀ hδ]
      exact mul_le_mul_of_nonneg_left (not_le.1 hxy).le (abs_nonneg _)
    exact h1.trans (h2.trans (mul_le_mul_of_nonneg_right (le_max_right _ _) dist_nonneg))

section

variable {np : ℕ}

/-- The middle wave of `hllc` lies strictly between the outer ones. -/
theorem hllc_middle (G : Gas ℝ) (hs : IsSqrt G.sqrt) (hg : 1 ≤ G.gamma) (d : Fin 3) {a b : State ℝ np} (ha : PosGas a)
    (hb : PosGas b) :
    let c := max (soundSpeed G a) (soundSpeed G b)
    let Sl := min (a (.mom d)) (b (.mom d)) - c
    let Sr := max (a (.mom d)) (b (.mom d)) + c
    0 < a .rho * (a (.mom d) - Sl) + b .rho * (Sr - b (.mom d)) ∧ Sl < (hllcWaves G d a b).vStar ∧
      (hllcWaves G d a b).vStar < Sr := by
  intro c Sl Sr
  have hg0 : 0 < G.gamma := by linarith
  have sq : ∀ w : State ℝ np, PosGas w → w .en ≤ w .rho * soundSpeed G w ^ 2 := by
    intro w hw
    have h0 : 0 < G.gamma * w .en / w .rho := div_pos (mul_pos hg0 hw.2) hw.1
    have h1 : G.gamma * w .en / w .rho ≤ soundSpeed G w ^ 2 := by
      unfold soundSpeed
      dsimp only
      rw [hs.eq (by split_ifs <;> linarith), Real.sq_sqrt (by split_ifs <;> linarith)]
      split_ifs <;> linarith
    rw [div_le_iff₀ hw.1] at h1
    have := hw.2
    nlinarith
  have pa := sound_pos G hs hg0 ha
  have pb := sound_pos G hs hg0 hb
  have ca : soundSpeed G a ≤ c := le_max_left _ _
  have cb : soundSpeed G b ≤ c := le_max_right _ _
  have hc0 : 0 < c := pa.trans_le ca
  have la : c ≤ a (.mom d) - Sl := by have := min_le_left (a (.mom d)) (b (.mom d)); simp only [Sl]; linarith
  have lb : c ≤ b (.mom d) - Sl := by have := min_le_right (a (.mom d)) (b (.mom d)); simp only [Sl]; linarith
  have ra : c ≤ Sr - a (.mom d) := by have := le_max_left (a (.mom d)) (b (.mom d)); simp only [Sr]; linarith
  have rb : c ≤ Sr - b (.mom d) := by have := le_max_right (a (.mom d)) (b (.mom d)); simp only [Sr]; linarith
  have hden : 0 < a .rho * (a (.mom d) - Sl) + b .rho * (Sr - b (.mom d)) :=
    add_pos (mul_pos ha.1 (hc0.trans_le la)) (mul_pos hb.1 (hc0.trans_le rb))
  have ev : (hllcWaves G d a b).vStar = (a .rho * (a (.mom d) - Sl) * a (.mom d) + b .rho * (Sr - b (.mom d)) * b (.mom d) +
      a .en - b .en) / (a .rho * (a (.mom d) - Sl) + b .rho * (Sr - b (.mom d))) := rfl
  have key : ∀ (w : State ℝ np) (x y : ℝ), PosGas w → soundSpeed G w ≤ c → c ≤ x → c ≤ y → w .en ≤ w .rho * x * y := by
    intro w x y hw hwc hx hy
    have h1 := sq w hw
    have h2 := sound_pos G hs hg0 hw
    have h3 : soundSpeed G w ^ 2 ≤ x * y := by nlinarith
    have := mul_le_mul_of_nonneg_left h3 hw.1.le
    nlinarith
  refine ⟨hden, ?_, ?_⟩
  · rw [ev, lt_div_iff₀ hden]
    have k1 := key b _ _ hb cb rb lb
    have k2 : 0 < a .rho * (a (.mom d) - Sl) * (a (.mom d) - Sl) :=
      mul_pos (mul_pos ha.1 (hc0.trans_le la)) (hc0.trans_le la)
    have := ha.2
    nlinarith
  · rw [ev, div_lt_iff₀ hden]
    have k1 := key a _ _ ha ca la ra
    have k2 : 0 < b .rho * (Sr - b (.mom d)) * (Sr - b (.mom d)) :=
      mul_pos (mul_pos hb.1 (hc0.trans_le rb)) (hc0.trans_le rb)
    have := hb.2
    nlinarith

theorem hllc_branch_lip (G : Gas ℝ) (hs : IsSqrt G.sqrt) (hg : 1 ≤ G.gamma) (d : Fin 3) {a b : State ℝ np} (ha : PosGas a)
    (hb : PosGas b) (j : Fin 4 × Bool) (v : Var np) :
    LipAt (fun z : State ℝ np × State ℝ np => hllcBranch G d j z.1 z.2 v) (a, b) := by
  have hg0 : 0 < G.gamma := by linarith
  have L : ∀ v, LipAt (fun z : State ℝ np × State ℝ np => z.1 v) (a, b) := fun v => lip_fst v _
  have R : ∀ v, LipAt (fun z : State ℝ np × State ℝ np => z.2 v) (a, b) := fun v => lip_snd v _
  have u1 := lip_conserved G.gamma L .en
  have u2 := lip_conserved G.gamma R .en
  have c1 := lip_sound G hs hg0 L ha
  have c2 := lip_sound G hs hg0 R hb
  have cm := c1.max c2
  have sl := ((L (.mom d)).min (R (.mom d))).sub cm
  have sr := ((L (.mom d)).max (R (.mom d))).add cm
  have rl := (L .rho).mul ((L (.mom d)).sub sl)
  have rr := (R .rho).mul (sr.sub (R (.mom d)))
  obtain ⟨hden, hl, hr⟩ := hllc_middle G hs hg d ha hb
  have vs : LipAt (fun z : State ℝ np × State ℝ np => (hllcWaves G d z.1 z.2).vStar) (a, b) :=
    ((((rl.mul (L (.mom d))).add (rr.mul (R (.mom d)))).add (L .en)).sub (R .en)).div (rl.add rr) hden.ne'
  have ps : LipAt (fun z : State ℝ np × State ℝ np => (hllcWaves G d z.1 z.2).PStar) (a, b) :=
    (((rl.mul (R .en)).add (rr.mul (L .en))).add ((rl.mul rr).mul ((L (.mom d)).sub (R (.mom d))))).div (rl.add rr) hden.ne'
  have dl := (sub_neg.2 hl).ne
  have dr := (sub_pos.2 hr).ne'
  have rsl : LipAt (fun z : State ℝ np × State ℝ np => (hllcWaves G d z.1 z.2).rStarL) (a, b) :=
    ((L .rho).mul (sl.sub (L (.mom d)))).div (sl.sub vs) dl
  have rsr : LipAt (fun z : State ℝ np × State ℝ np => (hllcWaves G d z.1 z.2).rStarR) (a, b) :=
    ((R .rho).mul (sr.sub (R (.mom d)))).div (sr.sub vs) dr
  have esl : LipAt (fun z : State ℝ np × State ℝ np => (hllcWaves G d z.1 z.2).EStarL) (a, b) :=
    ((((sl.sub (L (.mom d))).mul u1).sub ((L .en).mul (L (.mom d)))).add (ps.mul vs)).div (sl.sub vs) dl
  have esr : LipAt (fun z : State ℝ np × State ℝ np => (hllcWaves G d z.1 z.2).EStarR) (a, b) :=
    ((((sr.sub (R (.mom d))).mul u2).sub ((R .en).mul (R (.mom d)))).add (ps.mul vs)).div (sr.sub vs) dr
  have r := lip_pick j.1 (L .rho) rsl rsr (R .rho)
  have v' := lip_pick j.1 (L (.mom d)) vs vs (R (.mom d))
  have P := lip_pick j.1 (L .en) ps ps (R .en)
  have E := lip_pick j.1 u1 esl esr u2
  have side : ∀ v, LipAt (fun z : State ℝ np × State ℝ np => if j.2 = true then z.1 v else z.2 v) (a, b) := by
    intro v
    cases j.2
    · exact R v
    · exact L v
  cases v with
  | rho => exact r.mul v'
  | mom e =>
    simp only [hllcBranch]
    by_cases he : e = d
    · simp only [if_pos he]
      exact ((r.mul v').mul v').add P
    · simp only [if_neg he]
      exact (r.mul v').mul (side (.mom e))
  | en => exact v'.mul (E.add P)
  | ps i => exact (r.mul v').mul (side (.ps i))

/-- Finitely many continuous branches are bounded together on a compact set. -/
theorem branches_bounded {R : State ℝ np → State ℝ np → State ℝ np} {C : Set (State ℝ np)} (hC : IsCompact C) {J : Type}
    [Fintype J] (B : J → State ℝ np → State ℝ np → State ℝ np) (h1 : ∀ a b v, ∃ j, R a b v = B j a b v)
    (h2 : ∀ a ∈ C, ∀ b ∈ C, ∀ j v, LipAt (fun z : State ℝ np × State ℝ np => B j z.1 z.2 v) (a, b)) :
    ∃ M, ∀ a ∈ C, ∀ b ∈ C, ‖R a b‖ ≤ M := by
  have hc : ContinuousOn (fun (z : State ℝ np × State ℝ np) (q : J × Var np) => B q.1 z.1 z.2 q.2) (C ×ˢ C) :=
    fun z hz => (LipAt.pi (f := fun (z : State ℝ np × State ℝ np) (q : J × Var np) => B q.1 z.1 z.2 q.2)
      fun q => h2 z.1 hz.1 z.2 hz.2 q.1 q.2).continuousAt.continuousWithinAt
  obtain ⟨M, hM⟩ := ((hC.prod hC).image_of_continuousOn hc).isBounded.exists_norm_le
  refine ⟨|M|, fun a ha b hb => ?_⟩
  rw [pi_norm_le_iff_of_nonneg (abs_nonneg M)]
  intro v
  obtain ⟨j, hj⟩ := h1 a b v
  rw [hj]
  exact (norm_le_pi_norm (fun q : J × Var np => B q.1 a b q.2) (j, v)).trans
    ((hM _ ⟨(a, b), ⟨ha, hb⟩, rfl⟩).trans (le_abs_self M))

theorem riemann_bounded (r : RiemannKind) (G : Gas ℝ) (hs : IsSqrt G.sqrt) (hg : 1 ≤ G.gamma) (d : Fin 3)
    {C : Set (State ℝ np)} (hC : IsCompact C) (hphys : ∀ k ∈ C, PosGas k) :
    ∃ M, ∀ a ∈ C, ∀ b ∈ C, ‖riemann r G d a b‖ ≤ M := by
  have hg0 : 0 < G.gamma := by linarith
  cases r with
  | advectionUpwind =>
    refine branches_bounded hC (J := Fin 3) (fun j a b => if j = 0 then
      computeFluxes a (computeConservatives G.gamma a) d false else if j = 1 then
      computeFluxes b (computeConservatives G.gamma b) d false else 0) ?_ ?_
    · intro a b v
      change ∃ j, FVHOE.advectionUpwind G d a b v = _
      unfold FVHOE.advectionUpwind
      by_cases h1 : a (.mom d) > 0
      · exact ⟨0, by rw [if_pos h1]; rfl⟩
      · rw [if_neg h1]
        by_cases h2 : a (.mom d) < 0
        · exact ⟨1, by rw [if_pos h2]; rfl⟩
        · exact ⟨2, by rw [if_neg h2]; rfl⟩
    · intro a _ b _ j v
      match j with
      | 0 => exact lip_flux G.gamma d false (fun v => lip_fst v (a, b)) v
      | 1 => exact lip_flux G.gamma d false (fun v => lip_snd v (a, b)) v
      | 2 => exact LipAt.const 0 _
  | llf =>
    refine branches_bounded hC (J := Unit) (fun _ => FVHOE.llf G d) (fun a b v => ⟨(), rfl⟩) ?_
    intro a ha b hb _ v
    have L : ∀ v, LipAt (fun z : State ℝ np × State ℝ np => z.1 v) (a, b) := fun v => lip_fst v _
    have R : ∀ v, LipAt (fun z : State ℝ np × State ℝ np => z.2 v) (a, b) := fun v => lip_snd v _
    have f1 := lip_flux G.gamma d true L v
    have f2 := lip_flux G.gamma d true R v
    have u1 := lip_conserved G.gamma L v
    have u2 := lip_conserved G.gamma R v
    have c1 := lip_sound G hs hg0 L (hphys a ha)
    have c2 := lip_sound G hs hg0 R (hphys b hb)
    have s := ((L (.mom d)).abs.add c1).max ((R (.mom d)).abs.add c2)
    exact ((LipAt.const _ _).mul (f1.add f2)).sub (((LipAt.const _ _).mul s).mul (u2.sub u1))
  | hllc =>
    exact branches_bounded hC (J := Fin 4 × Bool) (hllcBranch G d)
      (fun a b v => (hllc_branch G d a b).imp fun j hj => congrFun hj v)
      fun a ha b hb j v => hllc_branch_lip G hs hg d (hphys a ha) (hphys b hb) j v

theorem lip_target (r : RiemannKind) (gamma : ℝ) (d : Fin 3) (w : State ℝ np) : LipAt (targetFlux r gamma d) w := by
  refine LipAt.pi fun v => ?_
  have h : ∀ v, LipAt (fun y : State ℝ np => y v) w := fun v => lip_eval v w
  cases r with
  | advectionUpwind =>
    simp only [targetFlux, ← fluxes_carried]
    exact lip_flux gamma d false h v
  | llf =>
    simp only [targetFlux, ← fluxes_euler]
    exact lip_flux gamma d true h v
  | hllc =>
    simp only [targetFlux, ← fluxes_euler]
    exact lip_flux gamma d true h v

/-- On a compact set of gases the numerical flux is consistent with one constant, however far its arguments are apart. -/
theorem riemann_consistent_on (r : RiemannKind) (G : Gas ℝ) (hs : IsSqrt G.sqrt) (hg : 1 ≤ G.gamma) (d : Fin 3)
    {C : Set (State ℝ np)} (hC : IsCompact C) (hphys : ∀ k ∈ C, PosGas k) :
    ∃ M ≥ 0, ∀ a ∈ C, ∀ b ∈ C, ∀ k ∈ C,
      ‖riemann r G d a b - targetFlux r G.gamma d k‖ ≤ M * (‖a - k‖ + ‖b - k‖) := by
  have hg0 : 0 < G.gamma := by linarith
  obtain ⟨δ, hδ, L, hL, H⟩ := riemann_consistent_lip r G hs hg0 d hC hphys
  obtain ⟨B, hB⟩ := riemann_bounded r G hs hg d hC hphys
  have hc : ContinuousOn (targetFlux r G.gamma d) C := fun x _ => (lip_target r G.gamma d x).continuousAt.continuousWithinAt
  obtain ⟨B', hB'⟩ := (hC.image_of_continuousOn hc).isBounded.exists_norm_le
  refine ⟨max L ((|B| + |B'|) / δ), le_max_of_le_left hL, fun a ha b hb k hk => ?_⟩
  have hm : max (dist a k) (dist b k) ≤ ‖a - k‖ + ‖b - k‖ := by
    rw [dist_eq_norm, dist_eq_norm]
    exact max_le (le_add_of_nonneg_right (norm_nonneg _)) (le_add_of_nonneg_left (norm_nonneg _))
  have hn : 0 ≤ ‖a - k‖ + ‖b - k‖ := by positivity
  by_cases h : max (dist a k) (dist b k) ≤ δ
  · have := H k hk a b ((le_max_left _ _).trans h) ((le_max_right _ _).trans h)
    rw [dist_eq_norm] at this
    exact this.trans ((mul_le_mul_of_nonneg_left hm hL).trans (mul_le_mul_of_nonneg_right (le_max_left _ _) hn))
  · have h1 : ‖riemann r G d a b - targetFlux r G.gamma d k‖ ≤ |B| + |B'| :=
      (norm_sub_le _ _).trans (add_le_add ((hB a ha b hb).trans (le_abs_self _)) ((hB' _ ⟨k, hk, rfl⟩).trans (le_abs_self _)))
    have h2 : |B| + |B'| ≤ (|B| + |B'|) / δ * (‖a - k‖ + ‖b - k‖) := by
      rw [div_mul_eq_mul_div, le_div_iff₀ hδ]
      exact mul_le_mul_of_nonneg_left ((not_le.1 h).le.trans hm) (by positivity)
    exact h1.trans (h2.trans (mul_le_mul_of_nonneg_right (le_max_right _ _) hn))

/-- The primitive variables are Lipschitz continuous on a compact set of positive density. -/
theorem prim_lip_on (gamma : ℝ) {C : Set (State ℝ np)} (hC : IsCompact C) (h : ∀ k ∈ C, k .rho ≠ 0) :
    ∃ M ≥ 0, ∀ x ∈ C, ∀ y ∈ C, ‖computePrimitives gamma x - computePrimitives gamma y‖ ≤ M * ‖x - y‖ := by
  obtain ⟨M, hM, H⟩ := lipAt_on hC fun k hk => lip_prim gamma (h k hk)
  exact ⟨M, hM, fun x hx y hy => by simpa only [dist_eq_norm] using H x hx y hy⟩

end

end FVHOE
