import Mathlib.Analysis.Calculus.MeanValue
import Verif.Proofs.DependRhs

/-! The right-hand side without limiting is locally Lipschitz continuous, for llf and hllc. -/

set_option linter.unusedSectionVars false

namespace FVHOE

open Topology Set NNReal

variable {np : ℕ}

/-- A continuous function whose values are taken from finitely many Lipschitz continuous functions is Lipschitz continuous, with the
same constant. -/
theorem lip_of_select {X J : Type} [NormedAddCommGroup X] [NormedSpace ℝ X] [Finite J] {s : Set X} (hs : Convex ℝ s) {φ : X → ℝ}
    {g : J → X → ℝ} {L : ℝ≥0} (hc : ContinuousOn φ s) (hg : ∀ j, LipschitzOnWith L (g j) s) (hsel : ∀ x ∈ s, ∃ j, φ x = g j x) :
    LipschitzOnWith L φ s := by
  have key : ∀ a ∈ s, ∀ b ∈ s, φ b ≤ φ a + L * ‖b - a‖ := by
    intro a ha b hb
    set γ : ℝ → X := fun t => a + t • (b - a) with hγ
    have hmem : ∀ t ∈ Icc (0 : ℝ) 1, γ t ∈ s := fun t ht => hs.add_smul_sub_mem ha hb ht
    have hγc : Continuous γ := by fun_prop
    have hψ : ContinuousOn (fun t => φ (γ t)) (Icc 0 1) := hc.comp hγc.continuousOn hmem
    have hγd : ∀ z x, dist (γ z) (γ x) = |z - x| * ‖b - a‖ := by
      intro z x
      rw [dist_eq_norm, hγ]
      simp only [add_sub_add_left_eq_sub, ← sub_smul, norm_smul, Real.norm_eq_abs]
    have := image_le_of_liminf_slope_right_le_deriv_boundary (f := fun t => φ (γ t)) (a := 0) (b := 1) hψ
      (B := fun t => φ a + t * (L * ‖b - a‖)) (B' := fun _ => L * ‖b - a‖) (by simp [hγ]) (by fun_prop)
      (fun x _ => by
        have := ((hasDerivAt_id x).mul_const ((L : ℝ) * ‖b - a‖)).const_add (φ a)
        rw [one_mul] at this
        exact this.hasDerivWithinAt)
      (fun x hx r hr => by
        have hx' : x ∈ Icc (0 : ℝ) 1 := ⟨hx.1, hx.2.le⟩
        have hnear : Icc (0 : ℝ) 1 ∈ 𝓝[>] x := Icc_mem_nhdsGT_of_mem hx
        have hsub : 𝓝[>] x ≤ 𝓝[Icc 0 1] x := by
          rw [nhdsWithin, nhdsWithin]
          exact le_inf inf_le_left (Filter.le_principal_iff.2 hnear)
        have hall : ∀ᶠ z in 𝓝[>] x, ∀ j, φ (γ z) = g j (γ z) → φ (γ x) = g j (γ x) := by
          refine Filter.eventually_all.2 fun j => ?_
          by_cases he : φ (γ x) = g j (γ x)
          · exact Filter.Eventually.of_forall fun _ _ => he
          · have h1 : ContinuousWithinAt (fun t => φ (γ t)) (Icc 0 1) x := hψ x hx'
            have h2 : ContinuousWithinAt (fun t => g j (γ t)) (Icc 0 1) x :=
              ((hg j).continuousOn.comp hγc.continuousOn hmem) x hx'
            have h3 := (h1.sub h2).eventually_ne (sub_ne_zero.2 he)
            filter_upwards [hsub h3] with z hz e
            exact absurd (sub_eq_zero.2 e) hz
        refine Filter.Eventually.frequently ?_
        filter_upwards [hall, hnear, self_mem_nhdsWithin] with z hz hzI hzx
        have hzx : x < z := hzx
        obtain ⟨j, hj⟩ := hsel _ (hmem z hzI)
        have hd := (hg j).dist_le_mul _ (hmem z hzI) _ (hmem x hx')
        rw [hγd, abs_of_pos (by linarith), Real.dist_eq, ← hj, ← hz j hj] at hd
        rw [slope_def_field, div_lt_iff₀ (by linarith)]
        have h1 := le_abs_self (φ (γ z) - φ (γ x))
        have h2 := mul_lt_mul_of_pos_right hr (show 0 < z - x by linarith)
        linarith) (right_mem_Icc.2 zero_le_one)
    simpa [hγ] using this
  refine LipschitzOnWith.of_dist_le_mul fun a ha b hb => ?_
  rw [Real.dist_eq, dist_eq_norm, abs_le]
  have h1 := key a ha b hb
  have h2 := key b hb a ha
  rw [norm_sub_rev] at h1
  constructor <;> linarith

/-- The four fluxes hllc chooses from. -/
theorem hllc_pieces (G : Gas ℝ) (hG : G.OK) (d : Fin 3) (wl wr : State ℝ np) (hl : PosGas wl) (hr : PosGas wr) :
    ∃ g : Fin 4 → State ℝ np × State ℝ np → State ℝ np, (∀ j v, LipAt (fun z => g j z v) (wl, wr)) ∧
      ∀ z : State ℝ np × State ℝ np, PosGas z.1 → PosGas z.2 → ∃ j, hllc G d z.1 z.2 = g j z := by
  have L : ∀ v, LipAt (fun z : State ℝ np × State ℝ np => z.1 v) (wl, wr) := fun v => lip_fst v _
  have R : ∀ v, LipAt (fun z : State ℝ np × State ℝ np => z.2 v) (wl, wr) := fun v => lip_snd v _
  have hg : 0 < G.gamma := one_pos.trans hG.gamma
  have cs : ∀ w : State ℝ np, IsSoundSpeed G w (soundSpeed G w) := fun w =>
    ⟨(soundSpeed_spec G hG.sqrt hG.floor w).1.le, (soundSpeed_spec G hG.sqrt hG.floor w).2⟩
  have phys : ∀ w : State ℝ np, PosGas w → Physical w := fun w h => ⟨h.1, h.2.le⟩
  -- the wave speeds
  obtain ⟨SL, hSL⟩ : ∃ SL : State ℝ np × State ℝ np → ℝ, SL = fun z => davisL d z.1 z.2 (soundSpeed G z.1) (soundSpeed G z.2) :=
    ⟨_, rfl⟩
  obtain ⟨SR, hSR⟩ : ∃ SR : State ℝ np × State ℝ np → ℝ, SR = fun z => davisR d z.1 z.2 (soundSpeed G z.1) (soundSpeed G z.2) :=
    ⟨_, rfl⟩
  obtain ⟨s, hs⟩ : ∃ s : State ℝ np × State ℝ np → ℝ, s = fun z => contactSpeed d z.1 z.2 (SL z) (SR z) := ⟨_, rfl⟩
  have c1 := lip_sound G hG.sqrt hg L hl
  have c2 := lip_sound G hG.sqrt hg R hr
  have lSL : LipAt SL (wl, wr) := by
    rw [hSL]
    exact ((L (.mom d)).min (R (.mom d))).sub (c1.max c2)
  have lSR : LipAt SR (wl, wr) := by
    rw [hSR]
    exact ((L (.mom d)).max (R (.mom d))).add (c1.max c2)
  obtain ⟨-, -, -, b1, b2, b3, b4, -, -, b5⟩ := C17_wellposed G hG d wl wr (phys _ hl) (phys _ hr) _ _ (cs wl) (cs wr)
  have e1 : SL (wl, wr) = davisL d wl wr (soundSpeed G wl) (soundSpeed G wr) := by rw [hSL]
  have e2 : SR (wl, wr) = davisR d wl wr (soundSpeed G wl) (soundSpeed G wr) := by rw [hSR]
  have e3 : s (wl, wr) = contactSpeed d wl wr (SL (wl, wr)) (SR (wl, wr)) := by rw [hs]
  rw [← e1, ← e2] at b1 b2 b5
  rw [← e3] at b1 b2
  rw [← e1] at b3
  rw [← e2] at b4
  have ls : LipAt s (wl, wr) := by
    rw [hs]
    unfold contactSpeed
    refine LipAt.div ?_ ?_ (by show wl .rho * (SL (wl, wr) - wl (.mom d)) - wr .rho * (SR (wl, wr) - wr (.mom d)) ≠ 0; linarith)
    · exact (((R .en).sub (L .en)).add (((L .rho).mul (L _)).mul (lSL.sub (L _)))).sub
        (((R .rho).mul (R _)).mul (lSR.sub (R _)))
    · exact ((L .rho).mul (lSL.sub (L _))).sub ((R .rho).mul (lSR.sub (R _)))
  -- the fluxes
  have hE : ∀ {W : State ℝ np × State ℝ np → State ℝ np}, (∀ v, LipAt (fun z => W z v) (wl, wr)) →
      LipAt (fun z => totalEnergy G.gamma (W z)) (wl, wr) := by
    intro W hW
    have q : ∀ e : Fin 3, LipAt (fun z => W z (.mom e) ^ 2) (wl, wr) := fun e => by
      simp only [pow_two]; exact (hW _).mul (hW _)
    unfold totalEnergy
    simp only [div_eq_mul_inv]
    exact ((hW .en).mul (.const _ _)).add (((hW .rho).mul (((q 0).add (q 1)).add (q 2))).mul (.const _ _))
  have hF : ∀ {W : State ℝ np × State ℝ np → State ℝ np}, (∀ v, LipAt (fun z => W z v) (wl, wr)) →
      ∀ v, LipAt (fun z => eulerFlux G.gamma d (W z) v) (wl, wr) := by
    intro W hW v
    have hEW := hE hW
    cases v with
    | rho => exact (hW _).mul (hW _)
    | mom e =>
      simp only [eulerFlux]
      split_ifs
      · exact (((hW _).mul (hW _)).mul (hW _)).add (hW _)
      · exact (((hW _).mul (hW _)).mul (hW _)).add (.const _ _)
    | en => exact (hW _).mul (hEW.add (hW _))
    | ps j => exact ((hW _).mul (hW _)).mul (hW _)
  have hJ : ∀ {W : State ℝ np × State ℝ np → State ℝ np} {S : State ℝ np × State ℝ np → ℝ}, (∀ v, LipAt (fun z => W z v) (wl, wr)) →
      LipAt S (wl, wr) → W (wl, wr) .rho ≠ 0 → S (wl, wr) - W (wl, wr) (.mom d) ≠ 0 → S (wl, wr) - s (wl, wr) ≠ 0 →
      ∀ v, LipAt (fun z => jumpFlux G.gamma d (W z) (S z) (s z) v) (wl, wr) := by
    intro W S hW hS h1 h2 h3 v
    have hr : LipAt (fun z => W z .rho * (S z - W z (.mom d)) / (S z - s z)) (wl, wr) :=
      ((hW _).mul (hS.sub (hW _))).div (hS.sub ls) h3
    have hEW := hE hW
    refine (hF hW v).add (hS.mul (LipAt.sub ?_ ?_))
    · cases v with
      | rho => exact hr
      | mom e =>
        simp only [starState]
        split_ifs
        · exact hr.mul ls
        · exact hr.mul (hW _)
      | en =>
        exact hr.mul ((hEW.div (hW _) h1).add ((ls.sub (hW _)).mul (ls.add ((hW _).div ((hW _).mul (hS.sub (hW _)))
          (mul_ne_zero h1 h2)))))
      | ps j => exact hr.mul (hW _)
    · cases v with
      | rho => exact hW _
      | mom e => exact (hW _).mul (hW _)
      | en => exact hEW
      | ps j => exact (hW _).mul (hW _)
  have cases4 : ∀ z : State ℝ np × State ℝ np, PosGas z.1 → PosGas z.2 →
      (0 ≤ SL z → hllc G d z.1 z.2 = eulerFlux G.gamma d z.1) ∧
      (SL z ≤ 0 ∧ 0 ≤ s z → hllc G d z.1 z.2 = jumpFlux G.gamma d z.1 (SL z) (s z)) ∧
      (s z ≤ 0 ∧ 0 ≤ SR z → hllc G d z.1 z.2 = jumpFlux G.gamma d z.2 (SR z) (s z)) ∧
      (SR z ≤ 0 → hllc G d z.1 z.2 = eulerFlux G.gamma d z.2) := by
    intro z h1 h2
    obtain ⟨f1, f2, f3, f4⟩ := C17_flux G hG d z.1 z.2 (phys _ h1) (phys _ h2) _ _ (cs _) (cs _)
    rw [hs, hSL, hSR]
    exact ⟨f1, fun h => f2 h.1 h.2, fun h => f3 h.1 h.2, f4⟩
  refine ⟨![fun z => eulerFlux G.gamma d z.1, fun z => jumpFlux G.gamma d z.1 (SL z) (s z),
    fun z => jumpFlux G.gamma d z.2 (SR z) (s z), fun z => eulerFlux G.gamma d z.2], fun j v => ?_, fun z h1 h2 => ?_⟩
  · fin_cases j
    · exact hF L v
    · exact hJ L lSL hl.1.ne' (by linarith) (by linarith) v
    · exact hJ R lSR hr.1.ne' (by linarith) (by linarith) v
    · exact hF R v
  · obtain ⟨k1, k2, k3, k4⟩ := cases4 z h1 h2
    rcases le_total 0 (SL z) with h1 | h1
    · exact ⟨0, k1 h1⟩
    · rcases le_total 0 (s z) with h2 | h2
      · exact ⟨1, k2 ⟨h1, h2⟩⟩
      · rcases le_total 0 (SR z) with h3 | h3
        · exact ⟨2, k3 ⟨h2, h3⟩⟩
        · exact ⟨3, k4 h3⟩

theorem posGas_near {wl wr : State ℝ np} (hl : PosGas wl) (hr : PosGas wr) : ∀ᶠ z in 𝓝 (wl, wr), PosGas z.1 ∧ PosGas z.2 := by
  have L : ∀ v, LipAt (fun z : State ℝ np × State ℝ np => z.1 v) (wl, wr) := fun v => lip_fst v _
  have R : ∀ v, LipAt (fun z : State ℝ np × State ℝ np => z.2 v) (wl, wr) := fun v => lip_snd v _
  have p : ∀ {W : State ℝ np × State ℝ np → State ℝ np} (v : Var np), LipAt (fun z => W z v) (wl, wr) → 0 < W (wl, wr) v →
      ∀ᶠ z in 𝓝 (wl, wr), 0 < W z v := fun v h h0 => h.continuousAt.eventually (lt_mem_nhds h0)
  filter_upwards [p .rho (L _) hl.1, p .en (L _) hl.2, p .rho (R _) hr.1, p .en (R _) hr.2] with z h1 h2 h3 h4
  exact ⟨⟨h1, h2⟩, h3, h4⟩

theorem lip_hllc (G : Gas ℝ) (hG : G.OK) (d : Fin 3) (wl wr : State ℝ np) (hl : PosGas wl) (hr : PosGas wr) :
    LipAt (fun z : State ℝ np × State ℝ np => hllc G d z.1 z.2) (wl, wr) := by
  refine LipAt.pi fun v => ?_
  obtain ⟨g, hg, hsel⟩ := hllc_pieces G hG d wl wr hl hr
  choose L U hU hL using fun j => hg j v
  have hn : {z | PosGas z.1 ∧ PosGas z.2} ∩ ⋂ j, U j ∈ 𝓝 (wl, wr) := Filter.inter_mem (posGas_near hl hr) (Filter.iInter_mem.2 hU)
  obtain ⟨ε, hε, hb⟩ := Metric.mem_nhds_iff.1 hn
  refine ⟨∑ j, L j, Metric.ball (wl, wr) ε, Metric.ball_mem_nhds _ hε, lip_of_select (convex_ball _ _) (g := fun j z => g j z v) ?_ ?_ ?_⟩
  · intro z hz
    obtain ⟨h1, h2⟩ := (hb hz).1
    exact (continuousAt_pi.1 (continuousAt_hllc G hG d z.1 z.2 h1 h2) v).continuousWithinAt
  · intro j
    exact ((hL j).mono fun z hz => mem_iInter.1 (hb hz).2 j).weaken
      (Finset.single_le_sum (f := L) (fun _ _ => zero_le) (Finset.mem_univ j))
  · intro z hz
    obtain ⟨h1, h2⟩ := (hb hz).1
    exact (hsel z h1 h2).imp fun j hj => congrFun hj v

theorem lip_llf (G : Gas ℝ) (hG : G.OK) (d : Fin 3) (wl wr : State ℝ np) (hl : PosGas wl) (hr : PosGas wr) :
    LipAt (fun z : State ℝ np × State ℝ np => llf G d z.1 z.2) (wl, wr) := by
  refine LipAt.pi fun v => ?_
  have L : ∀ v, LipAt (fun z : State ℝ np × State ℝ np => z.1 v) (wl, wr) := fun v => lip_fst v _
  have R : ∀ v, LipAt (fun z : State ℝ np × State ℝ np => z.2 v) (wl, wr) := fun v => lip_snd v _
  have hg : 0 < G.gamma := one_pos.trans hG.gamma
  have f1 := lip_flux G.gamma d true L v
  have f2 := lip_flux G.gamma d true R v
  have u1 := lip_conserved G.gamma L v
  have u2 := lip_conserved G.gamma R v
  have c1 := lip_sound G hG.sqrt hg L hl
  have c2 := lip_sound G hG.sqrt hg R hr
  have s := ((L (.mom d)).abs.add c1).max ((R (.mom d)).abs.add c2)
  exact ((LipAt.const _ _).mul (f1.add f2)).sub (((LipAt.const _ _).mul s).mul (u2.sub u1))

theorem lip_riemann (k : RiemannKind) (hk : k ≠ .advectionUpwind) (G : Gas ℝ) (hG : G.OK) (d : Fin 3)
    (wl wr : State ℝ np) (hl : PosGas wl) (hr : PosGas wr) :
    LipAt (fun z : State ℝ np × State ℝ np => riemann k G d z.1 z.2) (wl, wr) := by
  cases k with
  | advectionUpwind => exact absurd rfl hk
  | llf => exact lip_llf G hG d wl wr hl hr
  | hllc => exact lip_hllc G hG d wl wr hl hr

/-! ### States as points of a normed space -/

/-- The cells of the domain. -/
abbrev Cell (n : Fin 3 → ℕ) := {i : Ix // InCells n i}

noncomputable instance (n : Fin 3 → ℕ) : Fintype (Cell n) := by
  have hfin : {i : Ix | InCells n i}.Finite := by
    refine (Set.Finite.pi' fun d => Set.finite_Ico (0 : ℤ) (n d)).subset fun i hi => ?_
    exact fun d => ⟨(hi d).1, (hi d).2⟩
  exact hfin.fintype

open Classical in
/-- Values in the cells, continued by those of `u₀`. -/
noncomputable def glue (n : Fin 3 → ℕ) (u₀ : Ix → State ℝ np) (x : Cell n → State ℝ np) : Ix → State ℝ np := fun i =>
  if h : InCells n i then x ⟨i, h⟩ else u₀ i

/-- The values in the cells. -/
def inCells (n : Fin 3 → ℕ) (u : Ix → State ℝ np) : Cell n → State ℝ np := fun i => u i.1

theorem inCells_glue (n : Fin 3 → ℕ) (u₀ : Ix → State ℝ np) (x : Cell n → State ℝ np) : inCells n (glue n u₀ x) = x := by
  funext i
  simp only [inCells, glue, dif_pos i.2]

theorem glue_inCells (n : Fin 3 → ℕ) (u₀ u : Ix → State ℝ np) (h : ∀ i, ¬InCells n i → u i = u₀ i) :
    glue n u₀ (inCells n u) = u := by
  funext i
  unfold glue inCells
  split_ifs with hi
  · rfl
  · exact (h i hi).symm

section Family

variable {X : Type} [PseudoMetricSpace X]

theorem affClosed_lipAt (x : X) : AffClosed ℝ fun v : X → State ℝ np => LipAt v x := by
  intro a b c s ha hb hc
  have e : ∀ {f : X → State ℝ np}, LipAt f x → ∀ v, LipAt (fun y => f y v) x := fun {f} hf v =>
    LipAt.comp (g := fun w : State ℝ np => w v) (lip_eval v _) hf
  exact LipAt.pi fun v => (e ha v).add ((LipAt.const s x).mul ((e hb v).sub (e hc v)))

theorem LipAt.row {f : X → State ℝ np} {x : X} (h : LipAt f x) (v : Var np) : LipAt (fun y => f y v) x :=
  LipAt.comp (g := fun w : State ℝ np => w v) (lip_eval v _) h

theorem LipAt.family {ι Y : Type} [Fintype ι] [PseudoMetricSpace Y] {f : X → ι → Y} {x : X} (h : ∀ i, LipAt (fun y => f y i) x) :
    LipAt f x := by
  choose L U hU hf using h
  refine ⟨∑ v, L v, ⋂ v, U v, (Filter.iInter_mem).2 hU, ?_⟩
  intro a ha b hb
  rw [edist_pi_le_iff]
  intro v
  rw [Set.mem_iInter] at ha hb
  refine (hf v (ha v) (hb v)).trans (mul_le_mul_left ?_ _)
  exact_mod_cast Finset.single_le_sum (f := L) (fun _ _ => zero_le) (Finset.mem_univ v)

end Family

variable {c : EulerConfig ℝ np}

theorem lip_padded (c : EulerConfig ℝ np) (u₀ : Ix → State ℝ np) (x : Cell c.n → State ℝ np) (i : Ix) :
    LipAt (fun y => padded c.scheme (glue c.n u₀ y) i) x := by
  let Nice : Ghost (State ℝ np) → Prop
    | .mirror σ => ∀ w, LipAt σ w
    | _ => True
  have ht : ∀ s d, Nice (c.scheme.ghost s d) := by
    intro s d
    have hneg : ∀ w, LipAt (negateMom d : State ℝ np → State ℝ np) w := by
      intro w
      refine LipAt.pi fun v => ?_
      unfold negateMom
      split_ifs
      · exact (LipAt.const _ _).mul (lip_eval v w)
      · exact lip_eval v w
    unfold Scheme.ghost
    split_ifs
    · cases c.scheme.bc.kind d s <;> first | trivial | exact hneg | exact fun w => LipAt.id w
    · trivial
  have key : ∀ (m : ℤ) (d : Fin 3) (a b : Ghost (State ℝ np)) (Φ : (Cell c.n → State ℝ np) → Ix → State ℝ np), Nice a → Nice b →
      (∀ i, LipAt (fun u => Φ u i) x) → ∀ i, LipAt (fun u => extAxis m d a b (Φ u) i) x := by
    intro m d a b Φ ha hb hΦ i
    unfold extAxis
    split_ifs
    · cases a with
      | clamp => exact hΦ _
      | mirror σ => exact LipAt.comp (g := σ) (ha _) (hΦ _)
      | wrap => exact hΦ _
      | fixed g => exact LipAt.const _ _
    · cases b with
      | clamp => exact hΦ _
      | mirror σ => exact LipAt.comp (g := σ) (hb _) (hΦ _)
      | wrap => exact hΦ _
      | fixed g => exact LipAt.const _ _
    · exact hΦ i
  refine key _ 2 _ _ _ (ht .l 2) (ht .r 2) (key _ 1 _ _ _ (ht .l 1) (ht .r 1) (key _ 0 _ _ _ (ht .l 0) (ht .r 0) fun i => ?_)) i
  unfold glue
  split_ifs with hi
  · exact .of_lipschitzWith (LipschitzWith.eval (⟨i, hi⟩ : Cell c.n)) x
  · exact LipAt.const _ _

theorem SmoothSetup.prim_lip (h : SmoothSetup c) {u₀ : Ix → State ℝ np} {x : Cell c.n → State ℝ np} (hu : Sturdy c (glue c.n u₀ x)) :
    OnBox (fun d => c.n d) (gwMargin c.scheme c.p) (fun v : (Cell c.n → State ℝ np) → State ℝ np => LipAt v x)
      (latPrim ℝ (fun v y => computePrimitives c.gas.gamma (v y)) c.p fun i y => padded c.scheme (glue c.n u₀ y) i) := by
  refine OnBox.prim (affClosed_lipAt x) (affClosed_lipAt x) _ c.p h.degree
    (fun i _ => lip_padded c u₀ x i) fun i hi hc => ?_
  have hpos := hu.centers i hi
  have e := congrFun (centers_at c.p (fun i y => padded c.scheme (glue c.n u₀ y) i) x) i
  refine LipAt.comp (g := computePrimitives c.gas.gamma) ?_ hc
  beta_reduce at e
  rw [e]
  exact lip_prim c.gas.gamma hpos.ne'

theorem SmoothSetup.flux_lip (h : SmoothSetup c) {u₀ : Ix → State ℝ np} {x : Cell c.n → State ℝ np} (hu : Sturdy c (glue c.n u₀ x))
    (d : Fin 3) (hd : c.scheme.active d = true) (i : Ix) (hi : InFaces c.n d i) :
    LipAt (fun y => schemeFlux c.scheme c.p none (padded c.scheme (glue c.n u₀ y)) d i) x := by
  have hb := fluxGw_bound c.p
  have hin := c.scheme.inactive_p
  have := OnBox.flux (affClosed_lipAt x) (affClosed_lipAt x) (fun a b y => riemann c.riem c.gas d (a y) (b y)) c.p
    h.degree none (fun s hs => by cases hs) d (m := gwMargin c.scheme c.p) ?_ ?_ (h.prim_lip hu) (fun i hi h1 h2 => ?_) i ?_
  · have e : (fun y => schemeFlux c.scheme c.p none (padded c.scheme (glue c.n u₀ y)) d i) = latFlux ℝ
        (fun a b y => riemann c.riem c.gas d (a y) (b y)) c.p none d
        (latPrim ℝ (fun v y => computePrimitives c.gas.gamma (v y)) c.p fun i y => padded c.scheme (glue c.n u₀ y) i) i := by
      funext y
      have e1 := congrFun (flux_at (riemann c.riem c.gas d) c.p d
        (latPrim ℝ (fun v y => computePrimitives c.gas.gamma (v y)) c.p fun i y => padded c.scheme (glue c.n u₀ y) i) y) i
      beta_reduce at e1
      rw [e1, prim_at]
      rfl
    rw [e]
    exact this
  · intro e
    unfold gwMargin
    split
    · have := (hb e).2; omega
    · rename_i h'
      have : c.p e = 0 := hin e (by simpa using h')
      rw [this]
      simp [ceilHalf]
  · unfold gwMargin
    rw [if_pos hd]
    have := (hb d).1
    omega
  · obtain ⟨e1, e2⟩ := faces_at c.p d
      (latPrim ℝ (fun v y => computePrimitives c.gas.gamma (v y)) c.p fun i y => padded c.scheme (glue c.n u₀ y) i) i x
    rw [prim_at] at e1 e2
    obtain ⟨g1, g2⟩ := hu.faces d hd i hi
    rw [← e1] at g1
    rw [← e2] at g2
    have hr := lip_riemann c.riem h.riem c.gas h.gas d _ _ g1 g2
    have hp := h1.prodMk h2
    obtain ⟨A, hA⟩ : ∃ A, A = (faceStates ℝ c.p none d (latPrim ℝ (fun v y => computePrimitives c.gas.gamma (v y)) c.p
      fun i y => padded c.scheme (glue c.n u₀ y) i) i).1 := ⟨_, rfl⟩
    obtain ⟨B, hB⟩ : ∃ B, B = (faceStates ℝ c.p none d (latPrim ℝ (fun v y => computePrimitives c.gas.gamma (v y)) c.p
      fun i y => padded c.scheme (glue c.n u₀ y) i) i).2 := ⟨_, rfl⟩
    rw [← hA, ← hB] at hr hp ⊢
    exact LipAt.comp (g := fun z : State ℝ np × State ℝ np => riemann c.riem c.gas d z.1 z.2) (f := fun y => (A y, B y)) hr hp
  · intro e
    have := hi e
    simp only [Pi.zero_apply, Pi.add_apply]
    omega

/-- The slopes in the cells, for given values outside the cells. -/
noncomputable def cellSlopes (c : EulerConfig ℝ np) (u₀ : Ix → State ℝ np) (x : Cell c.n → State ℝ np) : Cell c.n → State ℝ np :=
  inCells c.n (slopes c (glue c.n u₀ x))

theorem SmoothSetup.slopes_lip (h : SmoothSetup c) {u₀ : Ix → State ℝ np} {x : Cell c.n → State ℝ np} (hu : Sturdy c (glue c.n u₀ x)) :
    LipAt (cellSlopes c u₀) x := by
  refine LipAt.family fun i => LipAt.pi fun v => ?_
  unfold cellSlopes inCells slopes
  simp only [if_pos i.2]
  unfold latDiv
  simp only [Finset.sum_apply, Fin.sum_univ_three]
  have hi := i.2
  have one : ∀ d, LipAt (fun y => (if c.scheme.active d = true then (-(1 / c.h d)) •
      (schemeFlux c.scheme c.p none (padded c.scheme (glue c.n u₀ y)) d (i.1 + Pi.single d 1) -
        schemeFlux c.scheme c.p none (padded c.scheme (glue c.n u₀ y)) d i.1) else 0 : State ℝ np) v) x := by
    intro d
    split_ifs with hd
    · refine (LipAt.const _ _).mul (LipAt.sub (LipAt.row ?_ v) (LipAt.row ?_ v))
      · refine h.flux_lip hu d hd _ fun e => ?_
        have := hi e
        by_cases he : e = d <;> simp [he] <;> first | (subst he; omega) | omega
      · refine h.flux_lip hu d hd _ fun e => ?_
        have := hi e
        by_cases he : e = d <;> simp [he] <;> first | (subst he; omega) | omega
    · exact LipAt.const _ _
  exact ((one 0).add (one 1)).add (one 2)

end FVHOE
