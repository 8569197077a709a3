import Verif.Props.C08
import Verif.Props.C65
import Verif.Props.C86
import Verif.Proofs.GaussUnique

/-!
C111: symmetries of the initial conditions are symmetries of the initial averages and of the runs.
-/

set_option linter.unusedSectionVars false

namespace FVHOE

variable {K : Type} [Field K] [LinearOrder K] [IsStrictOrderedRing K] {np : ℕ}
variable {V : Type} [AddCommGroup V] [Module K V]

/-! ### Sums over the nodes -/

/-- A sum over the nodes of three rules. -/
def quadSum (L : Fin 3 → List (K × K)) (F : (Fin 3 → K × K) → V) : V :=
  ((L 0).map fun x => ((L 1).map fun y => ((L 2).map fun z => F ![x, y, z]).sum).sum).sum

theorem quadSum_congr (L : Fin 3 → List (K × K)) {F G : (Fin 3 → K × K) → V} (h : ∀ q, F q = G q) :
    quadSum L F = quadSum L G := by rw [show F = G from funext h]

theorem quadSum_map (L : Fin 3 → List (K × K)) (F : (Fin 3 → K × K) → V) (T : V →ₗ[K] V) :
    T (quadSum L F) = quadSum L fun q => T (F q) := by
  unfold quadSum
  simp only [map_list_sum, List.map_map, Function.comp_def]

/-- Rearranged rules. -/
theorem quadSum_rearrange (L : Fin 3 → List (K × K)) (φ : Fin 3 → K × K → K × K) (hφ : ∀ d, ((L d).map (φ d)).Perm (L d))
    (F : (Fin 3 → K × K) → V) : quadSum L F = quadSum L fun q => F fun d => φ d (q d) := by
  have key : ∀ (d : Fin 3) (G : K × K → V), ((L d).map G).sum = ((L d).map fun x => G (φ d x)).sum := by
    intro d G
    rw [← ((hφ d).map G).sum_eq, List.map_map]
    rfl
  unfold quadSum
  rw [key 0]
  refine congrArg List.sum (List.map_congr_left fun x _ => ?_)
  rw [key 1]
  refine congrArg List.sum (List.map_congr_left fun y _ => ?_)
  rw [key 2]
  refine congrArg List.sum (List.map_congr_left fun z _ => congrArg F ?_)
  funext d
  fin_cases d <;> rfl

theorem list_sum_comm (l l' : List (K × K)) (F : K × K → K × K → V) :
    (l.map fun x => (l'.map fun y => F x y).sum).sum = (l'.map fun y => (l.map fun x => F x y).sum).sum := by
  induction l with
  | nil => simp
  | cons a l ih => simp only [List.map_cons, List.sum_cons, ih, List.sum_map_add]

/-- The two exchanges of neighbouring sums. -/
theorem list_sum_swaps (l : List (K × K)) (F : K × K → K × K → K × K → V) :
    (l.map fun x => (l.map fun y => (l.map fun z => F x y z).sum).sum).sum =
      (l.map fun x => (l.map fun y => (l.map fun z => F y x z).sum).sum).sum ∧
    (l.map fun x => (l.map fun y => (l.map fun z => F x y z).sum).sum).sum =
      (l.map fun x => (l.map fun y => (l.map fun z => F x z y).sum).sum).sum :=
  ⟨list_sum_comm _ _ _, congrArg List.sum (List.map_congr_left fun _ _ => list_sum_comm _ _ _)⟩

theorem perm_fin3 : ∀ σ : Equiv.Perm (Fin 3), (σ 0, σ 1, σ 2) ∈
    [(0, 1, 2), (0, 2, 1), (1, 0, 2), (1, 2, 0), (2, 0, 1), (2, 1, 0)] := by decide

/-- Exchanged axes. -/
theorem quadSum_exchange (L : Fin 3 → List (K × K)) (σ : Equiv.Perm (Fin 3)) (hσ : ∀ d, L (σ d) = L d)
    (F : (Fin 3 → K × K) → V) : quadSum L F = quadSum L fun q => F fun d => q (σ d) := by
  have e : ∀ q : Fin 3 → K × K, (fun d => q (σ d)) = ![q (σ 0), q (σ 1), q (σ 2)] := by
    intro q
    funext d
    fin_cases d <;> rfl
  have h0 := hσ 0
  have h1 := hσ 1
  have h2 := hσ 2
  simp only [e]
  clear e hσ
  have hm := perm_fin3 σ
  revert h0 h1 h2 hm
  generalize σ 0 = a
  generalize σ 1 = b
  generalize σ 2 = c
  intro h0 h1 h2 hm
  simp only [List.mem_cons, List.not_mem_nil, or_false, Prod.mk.injEq] at hm
  unfold quadSum
  rcases hm with ⟨rfl, rfl, rfl⟩ | ⟨rfl, rfl, rfl⟩ | ⟨rfl, rfl, rfl⟩ | ⟨rfl, rfl, rfl⟩ | ⟨rfl, rfl, rfl⟩ | ⟨rfl, rfl, rfl⟩ <;>
    simp only [Matrix.cons_val]
  · rw [h1]
    exact congrArg List.sum (List.map_congr_left fun x _ => list_sum_comm _ _ _)
  · rw [h0]
    exact list_sum_comm _ _ _
  · rw [h1, h0]
    exact ((list_sum_swaps _ fun x y z => F ![y, z, x]).1.trans (list_sum_swaps _ _).2).symm
  · rw [h0, ← h1]
    exact ((list_sum_swaps _ fun x y z => F ![z, x, y]).2.trans (list_sum_swaps _ _).1).symm
  · rw [h0]
    have e : ∀ (l l' : List (K × K)), (l.map fun x => (l'.map fun y => (l.map fun z => F ![x, y, z]).sum).sum).sum =
        (l.map fun x => (l'.map fun y => (l.map fun z => F ![z, y, x]).sum).sum).sum := by
      intro l l'
      rw [list_sum_comm]
      refine Eq.trans ?_ (list_sum_comm _ _ _)
      exact congrArg List.sum (List.map_congr_left fun _ _ => list_sum_comm _ _ _)
    exact e _ _

/-! ### Turned averages -/

/-- The nodes lie symmetrically about 0 and carry equal weights. numpy's `leggauss` makes its arrays symmetric before it
returns them. -/
def SymmetricRule (R : List (K × K)) : Prop := (R.map fun xw => (-xw.1, xw.2)).Perm R

/-- The points of the domain with axes exchanged, some of them reversed and the others shifted by `s` cells. -/
def turnPoint (σ : Equiv.Perm (Fin 3)) (fl : Fin 3 → Bool) (n : Fin 3 → ℕ) (dom : Fin 3 → K × K) (s : Ix)
    (x : Fin 3 → K) : Fin 3 → K := fun d =>
  if fl d then (dom d).1 + (dom d).2 - x (σ d) else x (σ d) + s d * (((dom d).2 - (dom d).1) / n d)

/-- The same for the cells. -/
def turnCell (σ : Equiv.Perm (Fin 3)) (fl : Fin 3 → Bool) (n : Fin 3 → ℕ) (s : Ix) (i : Ix) : Ix := fun d =>
  if fl d then n d - 1 - i (σ d) else i (σ d) + s d

/-- What is assumed of the mesh and the quadrature. -/
structure TurnMesh (σ : Equiv.Perm (Fin 3)) (fl : Fin 3 → Bool) (gauss : ℕ → List (K × K)) (p n : Fin 3 → ℕ)
    (dom : Fin 3 → K × K) : Prop where
  degree : ∀ d, p (σ d) = p d
  cells : ∀ d, n (σ d) = n d
  domain : ∀ d, dom (σ d) = dom d
  some_cells : ∀ d, fl d = true → 1 ≤ n d
  rule : ∀ d, fl d = true → SymmetricRule (gauss (p d / 2 + 1))

theorem turnPoint_coord {σ : Equiv.Perm (Fin 3)} {fl : Fin 3 → Bool} {gauss : ℕ → List (K × K)} {p n : Fin 3 → ℕ}
    {dom : Fin 3 → K × K} (hm : TurnMesh σ fl gauss p n dom) (s j : Ix) (q : Fin 3 → K) :
    (fun d => ((meshgen n dom).coord d).get (turnCell σ fl n s j) +
      (if fl d = true then -q (σ d) else q (σ d)) * solverSpacing n dom d) =
    turnPoint σ fl n dom s fun d => ((meshgen n dom).coord d).get j + q d * solverSpacing n dom d := by
  funext d
  have hh : solverSpacing n dom (σ d) = solverSpacing n dom d := by
    unfold solverSpacing
    rw [hm.cells, hm.domain]
  unfold turnPoint turnCell
  simp only [meshgen_coord, hh, hm.domain]
  cases hfl : fl d with
  | true =>
    have h1 : (n d : K) ≠ 0 := by
      have := hm.some_cells d hfl
      exact_mod_cast (by omega : n d ≠ 0)
    have h2 : (n d : K) * solverSpacing n dom d = (dom d).2 - (dom d).1 := by
      unfold solverSpacing
      field_simp
    simp only [if_true]
    push_cast
    linear_combination h2
  | false =>
    simp only [Bool.false_eq_true, if_false]
    push_cast
    unfold solverSpacing
    ring

theorem average_turn {σ : Equiv.Perm (Fin 3)} {fl : Fin 3 → Bool} {gauss : ℕ → List (K × K)} {p n : Fin 3 → ℕ}
    {dom : Fin 3 → K × K} (hm : TurnMesh σ fl gauss p n dom) (s : Ix) (f : Slab K → Arr V) (g : (Fin 3 → K) → V)
    (hf : Pointwise f g) (T : V →ₗ[K] V) (hg : ∀ x, g (turnPoint σ fl n dom s x) = T (g x)) (j : Ix) :
    (fvAverage gauss f (meshgen n dom) (solverSpacing n dom) p).get (turnCell σ fl n s j) =
      T ((fvAverage gauss f (meshgen n dom) (solverSpacing n dom) p).get j) := by
  obtain ⟨L, hL⟩ : ∃ L : Fin 3 → List (K × K), L = fun d => legendreQuadrature gauss (p d) := ⟨_, rfl⟩
  have form : ∀ j, (fvAverage gauss f (meshgen n dom) (solverSpacing n dom) p).get j = quadSum L fun q =>
      (∏ d, (q d).2) • g fun d => ((meshgen n dom).coord d).get j + (q d).1 * solverSpacing n dom d := by
    intro j
    rw [(fvAverage_sum gauss f (meshgen n dom) (solverSpacing n dom) p).2 j, hL]
    unfold quadSum
    simp only [hf _ j, Fin.prod_univ_three, Matrix.cons_val]
    refine congrArg List.sum (List.map_congr_left fun x _ => congrArg List.sum (List.map_congr_left fun y _ =>
      congrArg List.sum (List.map_congr_left fun z _ => congrArg _ (congrArg g ?_))))
    funext d
    fin_cases d <;> rfl
  rw [form, form, quadSum_map, quadSum_rearrange L (fun d x => if fl d then (-x.1, x.2) else x) ?_,
    quadSum_exchange L σ (fun d => by rw [hL]; simp only [hm.degree])]
  · refine quadSum_congr L fun q => ?_
    have hw : ∏ d, (if fl d = true then (-(q (σ d)).1, (q (σ d)).2) else q (σ d)).2 = ∏ d, (q d).2 := by
      rw [← Equiv.prod_comp σ fun d => (q d).2]
      refine Finset.prod_congr rfl fun d _ => ?_
      split_ifs <;> rfl
    rw [hw, map_smul, ← hg, ← turnPoint_coord hm s j fun d => (q d).1]
    refine congrArg _ (congrArg g (funext fun d => ?_))
    dsimp only
    split_ifs <;> rfl
  · intro d
    rw [hL]
    cases hfl : fl d with
    | false => simp only [Bool.false_eq_true, if_false, List.map_id']; rfl
    | true =>
      have := hm.rule d hfl
      unfold SymmetricRule at this
      simp only [if_true]
      unfold legendreQuadrature
      rw [quadPoints_eq, List.map_map]
      have h2 := this.map fun xw : K × K => (xw.1 / 2, xw.2 / 2)
      rw [List.map_map] at h2
      refine (List.Perm.of_eq (List.map_congr_left fun x _ => ?_)).trans h2
      simp only [Function.comp, neg_div]

theorem conserved_turn (σ : Equiv.Perm (Fin 3)) (fl : Fin 3 → Bool) (γ : K) (w : State K np) :
    conserved γ (turnState K np σ fl w) = turnState K np σ fl (conserved γ w) := by
  funext v
  cases v with
  | rho => rfl
  | ps j => rfl
  | mom d =>
    simp only [turn_mom, conserved]
    change w .rho * _ = _
    split_ifs <;> ring
  | en =>
    change totalEnergy γ (turnState K np σ fl w) = totalEnergy γ w
    have : ∑ d, turnState K np σ fl w (.mom d) ^ 2 = ∑ d, w (.mom d) ^ 2 := by
      rw [← Equiv.sum_comp σ fun d => w (.mom d) ^ 2]
      refine Finset.sum_congr rfl fun d _ => ?_
      rw [turn_mom]
      split_ifs <;> ring
    rw [Fin.sum_univ_three, Fin.sum_univ_three] at this
    unfold totalEnergy
    rw [this]
    rfl

/-- **C111** (averages) If the initial condition is given point by point and is symmetric, then so is the initial array of
the solver, in all three settings of `conservative_ic` and `fv_ic` that are accepted. -/
theorem C111_averages {σ : Equiv.Perm (Fin 3)} {fl : Fin 3 → Bool} {gauss : ℕ → List (K × K)} {p n : Fin 3 → ℕ}
    {dom : Fin 3 → K × K} (hm : TurnMesh σ fl gauss p n dom) (s : Ix) (γ : K) (ic : Slab K → Arr (State K np))
    (g : (Fin 3 → K) → State K np) (hf : Pointwise ic g)
    (hg : ∀ x, g (turnPoint σ fl n dom s x) = turnState K np σ fl (g x)) (conservativeIc fvIc : Bool)
    (u : Arr (State K np)) (hu : initialArray γ gauss ic conservativeIc fvIc n dom p = .ok u) (j : Ix) :
    u.get (turnCell σ fl n s j) = turnState K np σ fl (u.get j) := by
  unfold initialArray at hu
  cases conservativeIc <;> cases fvIc
  · cases hu
    refine average_turn hm s _ (fun x => conserved γ (g x)) (fun m j => ?_) _ (fun x => ?_) j
    · simp only [hf m j, conservatives_eq]
    · rw [hg, conserved_turn]
  · cases hu
  · cases hu
    exact average_turn hm s ic g hf _ hg j
  · cases hu
    have e := turnPoint_coord hm s j fun _ => 0
    simp only [neg_zero, ite_self, zero_mul, add_zero] at e
    rw [hf, hf, ← hg, ← e]

/-! ### The built-in initial conditions -/

/-- The state with axes exchanged and velocities reversed. -/
def turnGas (σ : Equiv.Perm (Fin 3)) (fl : Fin 3 → Bool) (w : GasState K) : GasState K :=
  ⟨w.rho, fun d => if fl d then -w.v (σ d) else w.v (σ d), w.P⟩

/-- The passive scalars are given point by point and take the same values at points related by `R`. -/
def PassivesInvariant (a : SolverArgs K) (R : (Fin 3 → K) → Fin 3 → K) : Prop :=
  ∀ i : Fin a.np, ∃ q : (Fin 3 → K) → K,
    (∀ m j, ((a.passives[i]).2 m).get j = q fun d => (m.coord d).get j) ∧ ∀ x, q (R x) = q x

/-- **C111** (start) A solver built from a symmetric initial condition starts from symmetric averages. -/
theorem C111_start (F : NumFns K) (sc : Scenario K) (hs : sc.Accepted) (a : SolverArgs K) (ha : FromScenario F sc a)
    {σ : Equiv.Perm (Fin 3)} {fl : Fin 3 → Bool} {gauss : ℕ → List (K × K)} (hm : TurnMesh σ fl gauss a.p a.n a.dom)
    (s : Ix) (hps : PassivesInvariant a (turnPoint σ fl a.n a.dom s))
    (hsym : ∀ x, sc.state F (turnPoint σ fl a.n a.dom s x) = turnGas σ fl (sc.state F x))
    (junk : ℕ → Ix → K) (b : Built K a.np) (h : a.build gauss junk = .ok b)
    (hr : "passive_scalars" ∉ a.passives.map Prod.fst) (j : Ix) :
    b.u.get (turnCell σ fl a.n s j) = turnState K a.np σ fl (b.u.get j) := by
  obtain ⟨-, -, -, -, -, -, -, -, -, -, -, -, ic, hic, hu⟩ := C62_built a gauss junk b h hr
  choose q hq hq' using hps
  refine C111_averages hm s a.gamma ic (fun x v => match v with
    | .rho => (sc.state F x).rho
    | .mom d => (sc.state F x).v d
    | .en => (sc.state F x).P
    | .ps i => q i x) (fun m j => ?_) (fun x => ?_) a.conservativeIc a.fvIc b.u hu j
  · rw [(hic m).2 j]
    obtain ⟨junk', r, e1, e2⟩ := ha m
    obtain ⟨r', e3, e4⟩ := C65_state F sc hs m junk'
    rw [e1] at e3
    cases e3
    funext v
    cases v with
    | rho => simp only [icColumn, e2 0 (by decide), ← e4 j]; rfl
    | mom d => simp only [icColumn, e2 (1 + d) (by omega), ← e4 j]; rfl
    | en => simp only [icColumn, e2 4 (by decide), ← e4 j]; rfl
    | ps i => exact hq i m j
  · funext v
    cases v with
    | rho => simp only [hsym]; rfl
    | mom d => rw [turn_mom]; simp only [hsym]; rfl
    | en => simp only [hsym]; rfl
    | ps i => exact hq' i x

theorem turnState_only (d : Fin 3) (v : State K np) : turnState K np 1 (only d) v = mirrorState d v := by
  funext i
  cases i with
  | rho => rfl
  | en => rfl
  | ps j => rfl
  | mom e =>
    rw [turn_mom]
    unfold mirrorState only
    simp

theorem mirrorState_twice (d : Fin 3) (v : State K np) : mirrorState d (mirrorState d v) = v := by
  funext i
  cases i <;> simp only [mirrorState]
  split_ifs <;> simp

/-- The state is unchanged by a cyclic shift. -/
def ShiftSymmetric (n : Fin 3 → ℕ) (s : Ix) (u : Ix → State K np) : Prop :=
  ∀ i, InCells n i → u i = u fun d => (i d + s d) % n d

/-- The state is unchanged by a cyclic shift followed by a reflection. -/
def GlideSymmetric (n : Fin 3 → ℕ) (d : Fin 3) (s : Ix) (u : Ix → State K np) : Prop :=
  ∀ i, InCells n i → u i = mirrorState d (u (mirrorCell n d fun e => (i e + s e) % n e))

theorem wrap_one {u : Ix → V} {e : Fin 3} {m : ℤ} (h : Function.Periodic u (Pi.single e m)) {i i' : Ix}
    (hi : ∀ d, d ≠ e → i' d = i d) (he : i' e = i e % m) : u i' = u i := by
  rw [← h.zsmul (i e / m) i']
  congr 1
  funext d
  by_cases hd : d = e
  · subst hd
    simp only [Pi.add_apply, Pi.smul_apply, Pi.single_eq_same, he, smul_eq_mul]
    have := Int.emod_add_mul_ediv (i d) m
    linarith
  · simp only [Pi.add_apply, Pi.smul_apply, Pi.single_eq_of_ne hd, smul_zero, add_zero, hi d hd]

/-! ### Runs -/

theorem forall₂_both {α β : Type} {R : α → β → Prop} {S : β → α → Prop} {l : List α} {l' : List β}
    (h : List.Forall₂ R l l') (h' : List.Forall₂ S l' l) : ∀ x ∈ l, ∃ y, R x y ∧ S y x := by
  induction h with
  | nil => intro x hx; cases hx
  | cons h1 h2 ih =>
    cases h' with
    | cons h3 h4 =>
      intro x hx
      rcases List.mem_cons.1 hx with rfl | hx
      · exact ⟨_, h1, h3⟩
      · exact ih h4 x hx

/-- A run from data unchanged by a cyclic shift keeps them so. -/
theorem shift_run (c : EulerConfig K np) (hS : PeriodicSetup c.scheme) (hl : c.limiting = none) (s : Ix)
    (f : RHS K (Ix → State K np)) (hf : IsSolverRHS c.scheme f)
    (m : Integrator) (fuel : ℕ) (T : Option K) (n : Option ℕ) (exact : Bool) (downbeats : List K) (logEvery : Bool)
    (u : Ix → State K np) (hu : ShiftSymmetric c.n s u)
    (out : ODEState K (Ix → State K np) (Ix → State K np)) (e : Option PyErr)
    (hrun : (ODEState.init u).integrate (stepper f m) (·.u) fuel ⟨T, n, exact, downbeats, logEvery, none⟩ =
      some (out, e)) :
    ShiftSymmetric c.n s out.u ∧ ∀ v ∈ out.snapshots, ShiftSymmetric c.n s v := by
  have key := C08_shift c.scheme hS hl s f f hf hf m fuel T n exact downbeats logEvery (ODEState.init u)
    (ODEState.init u) ⟨rfl, rfl, rfl, hu, .nil, rfl⟩
  rw [hrun] at key
  cases key with
  | some hk => exact ⟨hk.1.u, fun v hv => forall₂_self hk.1.snapshots v hv⟩

theorem mod_cells {n : Fin 3 → ℕ} (hn : ∀ d, 1 ≤ n d) (i : Ix) : InCells n fun d => i d % n d := fun d => by
  have := hn d
  exact ⟨Int.emod_nonneg _ (by omega), Int.emod_lt_of_pos _ (by omega)⟩

/-- A run with llf from data with a glide reflection keeps it. -/
theorem glide_run (c : EulerConfig K np) (hS : PeriodicSetup c.scheme) (hl : c.limiting = none) (d : Fin 3)
    (hd : c.bc.kind d .l = c.bc.kind d .r) (hs : PlainSides c.scheme (fluxWidth c.scheme c.p)) (hc : c.riem = .llf) (s : Ix)
    (f : RHS K (Ix → State K np)) (hf : IsSolverRHS c.scheme f)
    (m : Integrator) (fuel : ℕ) (T : Option K) (n : Option ℕ) (exact : Bool) (downbeats : List K) (logEvery : Bool)
    (u : Ix → State K np) (hu : GlideSymmetric c.n d s u)
    (out : ODEState K (Ix → State K np) (Ix → State K np)) (e : Option PyErr)
    (hrun : (ODEState.init u).integrate (stepper f m) (·.u) fuel ⟨T, n, exact, downbeats, logEvery, none⟩ =
      some (out, e)) :
    GlideSymmetric c.n d s out.u ∧ ∀ v ∈ out.snapshots, GlideSymmetric c.n d s v := by
  have hcm := mirror_self c d hd
  obtain ⟨u1, hu1⟩ : ∃ u1 : Ix → State K np, u1 = fun i => mirrorState d (u (mirrorCell c.n d i)) := ⟨_, rfl⟩
  have key1 := C09_llf c d hc hl hS.degree hS.cells hs (by rw [hcm]; exact hs) f f hf (by rw [hcm]; exact hf) m fuel T n
    exact downbeats logEvery (ODEState.init u) (ODEState.init u1)
    ⟨rfl, rfl, rfl, fun i _ => congrFun hu1 i, .nil, rfl⟩
  have key2 := C08_shift c.scheme hS hl s f f hf hf m fuel T n exact downbeats logEvery (ODEState.init u1)
    (ODEState.init u) ⟨rfl, rfl, rfl, fun i hi => (hu i hi).trans (congrFun hu1 _).symm, .nil, rfl⟩
  rw [hrun] at key1 key2
  have comb : ∀ v w : Ix → State K np, InRel (mirrorPair K np c.n d) v w → InRel (shifted K (State K np) c.n s) w v →
      GlideSymmetric c.n d s v := fun v w h1 h2 i hi => (h2 i hi).trans (h1 _ (mod_cells hS.cells _))
  cases h1 : (ODEState.init u1).integrate (stepper f m) (·.u) fuel ⟨T, n, exact, downbeats, logEvery, none⟩ with
  | none => rw [h1] at key1; cases key1
  | some o1 =>
    rw [h1] at key1 key2
    cases key1 with
    | some k1 =>
      cases key2 with
      | some k2 =>
        refine ⟨comb _ _ k1.1.u k2.1.u, fun v hv => ?_⟩
        obtain ⟨w, e1, e2⟩ := forall₂_both k1.1.snapshots k2.1.snapshots v hv
        exact comb _ _ e1 e2

/-- The same with hllc while the states at the faces are physical. -/
theorem glide_run_hllc (c : EulerConfig K np) (hS : PeriodicSetup c.scheme) (hl : c.limiting = none) (d : Fin 3)
    (hd : c.bc.kind d .l = c.bc.kind d .r) (hs : PlainSides c.scheme (fluxWidth c.scheme c.p)) (hc : c.riem = .hllc)
    (hG : c.gas.OK) (s : Ix) (f : RHS K (Ix → State K np)) (hf : IsSolverRHS c.scheme f)
    (m : Integrator) (fuel : ℕ) (T : Option K) (n : Option ℕ) (exact : Bool) (downbeats : List K) (logEvery : Bool)
    (u : Ix → State K np) (hu : GlideSymmetric c.n d s u)
    (out : ODEState K (Ix → State K np) (Ix → State K np))
    (hrun : (ODEState.init u).integrate (stepper (onlyOn (FacesPhysical c d) f) m) (·.u) fuel
      ⟨T, n, exact, downbeats, logEvery, none⟩ = some (out, none)) :
    (ODEState.init u).integrate (stepper f m) (·.u) fuel ⟨T, n, exact, downbeats, logEvery, none⟩ = some (out, none) ∧
    GlideSymmetric c.n d s out.u ∧ ∀ v ∈ out.snapshots, GlideSymmetric c.n d s v := by
  have hcm := mirror_self c d hd
  obtain ⟨u1, hu1⟩ : ∃ u1 : Ix → State K np, u1 = fun i => mirrorState d (u (mirrorCell c.n d i)) := ⟨_, rfl⟩
  obtain ⟨h0, o1, h1, k1⟩ := C09_hllc c d hc hG hl hS.degree hS.cells hs (by rw [hcm]; exact hs) f f hf
    (by rw [hcm]; exact hf) m fuel T n exact downbeats logEvery (ODEState.init u) (ODEState.init u1)
    ⟨rfl, rfl, rfl, fun i _ => congrFun hu1 i, .nil, rfl⟩ out hrun
  have key2 := C08_shift c.scheme hS hl s f f hf hf m fuel T n exact downbeats logEvery (ODEState.init u1)
    (ODEState.init u) ⟨rfl, rfl, rfl, fun i hi => (hu i hi).trans (congrFun hu1 _).symm, .nil, rfl⟩
  rw [h0, h1] at key2
  have comb : ∀ v w : Ix → State K np, InRel (mirrorPair K np c.n d) v w → InRel (shifted K (State K np) c.n s) w v →
      GlideSymmetric c.n d s v := fun v w h1 h2 i hi => (h2 i hi).trans (h1 _ (mod_cells hS.cells _))
  cases key2 with
  | some k2 =>
    refine ⟨h0, comb _ _ k1.u k2.1.u, fun v hv => ?_⟩
    obtain ⟨w, e1, e2⟩ := forall₂_both k1.snapshots k2.1.snapshots v hv
    exact comb _ _ e1 e2

/-! ### The blast of the Athena tests -/

/-- The blast does not change when x and y are exchanged or reversed, on domains centred at 0 along the axes reversed. -/
theorem athena_turn (F : NumFns K) (σ : Equiv.Perm (Fin 3)) (hσ : σ 2 = 2) (fl : Fin 3 → Bool) (n : Fin 3 → ℕ)
    (dom : Fin 3 → K × K) (hd : ∀ d, d ≠ 2 → fl d = true → (dom d).1 + (dom d).2 = 0) (x : Fin 3 → K) :
    Scenario.state F .athenaBlast (turnPoint σ fl n dom 0 x) = turnGas σ fl (Scenario.state F .athenaBlast x) := by
  have hp : ∀ d, d ≠ 2 → turnPoint σ fl n dom 0 x d ^ 2 = x (σ d) ^ 2 := by
    intro d h
    unfold turnPoint
    split_ifs with hfl
    · rw [hd d h hfl]; ring
    · simp
  have h01 : x (σ 0) ^ 2 + x (σ 1) ^ 2 = x 0 ^ 2 + x 1 ^ 2 := by
    have := perm_fin3 σ
    rw [hσ] at this
    revert this
    generalize σ 0 = a
    generalize σ 1 = b
    intro this
    simp only [List.mem_cons, List.not_mem_nil, or_false, Prod.mk.injEq] at this
    rcases this with ⟨rfl, rfl, h⟩ | ⟨rfl, rfl, h⟩ | ⟨rfl, rfl, h⟩ | ⟨rfl, rfl, h⟩ | ⟨rfl, rfl, h⟩ | ⟨rfl, rfl, h⟩ <;>
      first | rfl | exact add_comm _ _ | exact absurd h (by decide)
  simp only [Scenario.state, turnGas, hp 0 (by decide), hp 1 (by decide), h01, Pi.zero_apply, neg_zero, ite_self]
  rfl

/-- A solver whose domain is unchanged and whose rules are symmetric. -/
theorem turnMesh_mirror (gauss : ℕ → List (K × K)) (p n : Fin 3 → ℕ) (dom : Fin 3 → K × K) (d : Fin 3) (hn : 1 ≤ n d)
    (hg : SymmetricRule (gauss (p d / 2 + 1))) : TurnMesh 1 (only d) gauss p n dom where
  degree := fun _ => rfl
  cells := fun _ => rfl
  domain := fun _ => rfl
  some_cells := fun e he => by
    have : e = d := by simpa [only] using he
    rw [this]; exact hn
  rule := fun e he => by
    have : e = d := by simpa [only] using he
    rw [this]; exact hg

theorem mirror_of_turn {n : Fin 3 → ℕ} {d : Fin 3} {u : Ix → State K np}
    (h : ∀ j, u (turnCell 1 (only d) n 0 j) = turnState K np 1 (only d) (u j)) : MirrorSymmetric n d u := by
  intro i _
  have hc : turnCell 1 (only d) n 0 i = mirrorCell n d i := by
    funext e
    unfold turnCell mirrorCell only
    by_cases he : e = d
    · subst he; simp
    · simp [he]
  rw [← hc, h, turnState_only, mirrorState_twice]

theorem limited_self (c : EulerConfig K np) (o : LimiterOpts K)
    (h : c.limiting = some (o.limiting c.dims c.isPeriodic)) : c.limited (some o) = c := by
  unfold EulerConfig.limited
  dsimp only
  rw [← h]

section athena
variable (F : NumFns K) (a : SolverArgs K) (ha : FromScenario F .athenaBlast a) (gauss : ℕ → List (K × K))
  (junk : ℕ → Ix → K) (b : Built K a.np) (h : a.build gauss junk = .ok b)
  (hr : "passive_scalars" ∉ a.passives.map Prod.fst)
include ha h hr

/-- **C111** (Athena blast, start) On a domain centred at 0 the initial array is its own mirror image. -/
theorem C111_athena_mirror (d : Fin 3) (hd : d ≠ 2 → (a.dom d).1 + (a.dom d).2 = 0)
    (hg : SymmetricRule (gauss (a.p d / 2 + 1))) (hps : PassivesInvariant a (turnPoint 1 (only d) a.n a.dom 0)) :
    MirrorSymmetric a.n d b.u.get :=
  mirror_of_turn (C111_start F .athenaBlast trivial a ha
    (turnMesh_mirror gauss a.p a.n a.dom d (((C58_partial a gauss junk).1 ⟨b, h⟩).cells d) hg) 0 hps
    (athena_turn F 1 rfl (only d) a.n a.dom fun e he hfl => by
      have : e = d := by simpa [only] using hfl
      subst this
      exact hd he) junk b h hr)

/-- **C111** (Athena blast, exchange) On a square the initial array does not change when x and y are exchanged. -/
theorem C111_athena_exchange (hn : a.n 0 = a.n 1) (hp : a.p 0 = a.p 1) (hdom : a.dom 0 = a.dom 1)
    (hps : PassivesInvariant a (turnPoint (Equiv.swap 0 1) (fun _ => false) a.n a.dom 0)) :
    ExchangeSymmetric a.n (Equiv.swap 0 1) b.u.get := by
  have hsw : ∀ {α : Type} (q : Fin 3 → α), q 0 = q 1 → ∀ d, q (Equiv.swap (0 : Fin 3) 1 d) = q d := by
    intro α q hq d
    fin_cases d
    · exact hq.symm
    · exact hq
    · rfl
  have key := C111_start F .athenaBlast trivial a ha (σ := Equiv.swap 0 1) (fl := fun _ => false) (gauss := gauss)
    ⟨hsw _ hp, hsw _ hn, hsw _ hdom, fun _ h => (Bool.false_ne_true h).elim, fun _ h => (Bool.false_ne_true h).elim⟩ 0 hps
    (athena_turn F _ (by decide) _ a.n a.dom fun _ _ h => (Bool.false_ne_true h).elim) junk b h hr
  intro i _
  have e := key i
  have hc : turnCell (Equiv.swap 0 1) (fun _ => false) a.n 0 i = fun d => i (Equiv.swap 0 1 d) := by
    funext d
    simp [turnCell]
  rw [hc] at e
  rw [e]
  exact ⟨fun d => by rw [turn_mom]; simp, rfl, rfl, fun _ => rfl⟩

/-- **C111** (Athena blast, runs with llf) The blast stays symmetric. -/
theorem C111_athena_run (o : LimiterOpts K) (hlim : a.limiter = some o) (d : Fin 3) (hS : LimitedSetup b.config o)
    (hd : d ≠ 2 → (a.dom d).1 + (a.dom d).2 = 0) (hg : SymmetricRule (gauss (a.p d / 2 + 1)))
    (hps : PassivesInvariant a (turnPoint 1 (only d) a.n a.dom 0))
    (hbc : b.config.bc.kind d .l = b.config.bc.kind d .r) (ho : o.mirror d = o) (hllf : a.riemannSolver = "llf")
    (hsed : o.sed = false) (hrange : o.rangeType = "relative" ∨ o.considers (.mom d) = false)
    (f : RHS K (Ix → State K a.np)) (hf : IsSolverRHS b.config.scheme f)
    (m : Integrator) (fuel : ℕ) (T : Option K) (n : Option ℕ) (exact : Bool) (downbeats : List K) (logEvery : Bool)
    (out : ODEState K (Ix → State K a.np) (Ix → State K a.np)) (e : Option PyErr)
    (hrun : (ODEState.init b.u.get).integrate (stepper f m) (·.u) fuel ⟨T, n, exact, downbeats, logEvery, none⟩ =
      some (out, e)) :
    MirrorSymmetric a.n d out.u ∧ ∀ v ∈ out.snapshots, MirrorSymmetric a.n d v := by
  obtain ⟨e1, -, -, -, -, -, -, e7, e8, -⟩ := C62_built a gauss junk b h hr
  rw [← e1]
  exact C86_symmetric_llf b.config o d hS hbc ho (by rw [e8, if_pos hllf]) hsed hrange f
    (by rw [limited_self _ _ (e7 o hlim)]; exact hf) m fuel T n exact downbeats logEvery _
    (by rw [e1]; exact C111_athena_mirror F a ha gauss junk b h hr d hd hg hps) out e hrun

/-- **C111** (Athena blast, runs with hllc) The same while the states at the faces are physical. -/
theorem C111_athena_run_hllc (o : LimiterOpts K) (hlim : a.limiter = some o) (d : Fin 3) (hS : LimitedSetup b.config o)
    (hd : d ≠ 2 → (a.dom d).1 + (a.dom d).2 = 0) (hg : SymmetricRule (gauss (a.p d / 2 + 1)))
    (hps : PassivesInvariant a (turnPoint 1 (only d) a.n a.dom 0))
    (hbc : b.config.bc.kind d .l = b.config.bc.kind d .r) (ho : o.mirror d = o) (hhllc : a.riemannSolver = "hllc")
    (hG : b.config.gas.OK)
    (hsed : o.sed = false) (hrange : o.rangeType = "relative" ∨ o.considers (.mom d) = false)
    (f : RHS K (Ix → State K a.np)) (hf : IsSolverRHS b.config.scheme f)
    (m : Integrator) (fuel : ℕ) (T : Option K) (n : Option ℕ) (exact : Bool) (downbeats : List K) (logEvery : Bool)
    (out : ODEState K (Ix → State K a.np) (Ix → State K a.np))
    (hrun : (ODEState.init b.u.get).integrate (stepper (onlyOn (fun u => FacesPhysical b.config d u ∧
      FallbackFacesPhysical b.config o d u) f) m) (·.u) fuel ⟨T, n, exact, downbeats, logEvery, none⟩ = some (out, none)) :
    (ODEState.init b.u.get).integrate (stepper f m) (·.u) fuel ⟨T, n, exact, downbeats, logEvery, none⟩ =
      some (out, none) ∧
    MirrorSymmetric a.n d out.u ∧ ∀ v ∈ out.snapshots, MirrorSymmetric a.n d v := by
  obtain ⟨e1, -, -, -, -, -, -, e7, e8, -⟩ := C62_built a gauss junk b h hr
  rw [← e1]
  exact C86_symmetric_hllc b.config o d hS hbc ho (by rw [e8, hhllc]; rfl) hG hsed hrange f
    (by rw [limited_self _ _ (e7 o hlim)]; exact hf) m fuel T n exact downbeats logEvery _
    (by rw [e1]; exact C111_athena_mirror F a ha gauss junk b h hr d hd hg hps) out hrun

/-- **C111** (Athena blast, runs on a square) With any Riemann solver and limiter the run does not change when x and y are
exchanged. -/
theorem C111_athena_run_exchange (o : LimiterOpts K) (hlim : a.limiter = some o) (hS : LimitedSetup b.config o)
    (hdom : a.dom 0 = a.dom 1) (hps : PassivesInvariant a (turnPoint (Equiv.swap 0 1) (fun _ => false) a.n a.dom 0))
    (hc : b.config.exchange (Equiv.swap 0 1) = b.config) (ho : o.exchange (Equiv.swap 0 1) = o)
    (f : RHS K (Ix → State K a.np)) (hf : IsSolverRHS b.config.scheme f)
    (m : Integrator) (fuel : ℕ) (T : Option K) (n : Option ℕ) (exact : Bool) (downbeats : List K) (logEvery : Bool)
    (out : ODEState K (Ix → State K a.np) (Ix → State K a.np)) (e : Option PyErr)
    (hrun : (ODEState.init b.u.get).integrate (stepper f m) (·.u) fuel ⟨T, n, exact, downbeats, logEvery, none⟩ =
      some (out, e)) :
    ExchangeSymmetric a.n (Equiv.swap 0 1) out.u ∧ ∀ v ∈ out.snapshots, ExchangeSymmetric a.n (Equiv.swap 0 1) v := by
  obtain ⟨e1, e2, -, -, -, -, -, e7, -⟩ := C62_built a gauss junk b h hr
  have hn : a.n 1 = a.n 0 := by
    have := congrFun (congrArg EulerConfig.n hc) 0
    rw [← e1]; exact this
  have hp : a.p 1 = a.p 0 := by
    have := congrFun (congrArg EulerConfig.p hc) 0
    rw [← e2]; exact this
  rw [← e1]
  exact C86_symmetric_exchange b.config o _ hS hc ho f
    (by rw [limited_self _ _ (e7 o hlim)]; exact hf) m fuel T n exact downbeats logEvery _
    (by rw [e1]; exact C111_athena_exchange F a ha gauss junk b h hr hn.symm hp.symm hdom hps) out e hrun

end athena

/-! ### Kelvin and Helmholtz -/

/-- Half a period along x. -/
theorem kelvin_shift (F : NumFns K) (hsin : ∀ y, F.sin (y + F.pi) = -F.sin y) (sigma w0 : K) (x : Fin 3 → K) :
    Scenario.state F (.kelvinHelmholtz sigma w0) (Function.update x 0 (x 0 + 1 / 2)) =
      Scenario.state F (.kelvinHelmholtz sigma w0) x := by
  have e : F.sin (4 * F.pi * (x 0 + 1 / 2)) = F.sin (4 * F.pi * x 0) := by
    rw [show 4 * F.pi * (x 0 + 1 / 2) = 4 * F.pi * x 0 + F.pi + F.pi by ring, hsin, hsin, neg_neg]
  simp only [Scenario.state, Function.update_self, Function.update_of_ne (show (1 : Fin 3) ≠ 0 by decide), e]

/-- A quarter of the domain along x and a reflection in y. -/
theorem kelvin_glide (F : NumFns K) (hsin : ∀ y, F.sin (y + F.pi) = -F.sin y) (sigma w0 : K) (x y : Fin 3 → K)
    (h0 : y 0 = x 0 + 1 / 4) (h1 : y 1 = 1 - x 1) :
    Scenario.state F (.kelvinHelmholtz sigma w0) y = turnGas 1 (only 1) (Scenario.state F (.kelvinHelmholtz sigma w0) x) := by
  have e : F.sin (4 * F.pi * y 0) = -F.sin (4 * F.pi * x 0) := by
    rw [h0, show 4 * F.pi * (x 0 + 1 / 4) = 4 * F.pi * x 0 + F.pi by ring, hsin]
  have ea : |y 1 - 1 / 2| = |x 1 - 1 / 2| := by
    rw [h1, show 1 - x 1 - 1 / 2 = -(x 1 - 1 / 2) by ring, abs_neg]
  have e2 : (y 1 - 1 / 4) ^ 2 = (x 1 - 3 / 4) ^ 2 := by rw [h1]; ring
  have e3 : (y 1 - 3 / 4) ^ 2 = (x 1 - 1 / 4) ^ 2 := by rw [h1]; ring
  simp only [Scenario.state, turnGas, e, ea, e2, e3]
  refine GasState.ext rfl (fun d => ?_) rfl
  fin_cases d
  · simp [only]
  · change w0 * -F.sin _ * (_ + _) = -(w0 * F.sin _ * (_ + _))
    ring
  · simp [only]

theorem periodic_plain {c : EulerConfig K np} (hS : PeriodicSetup c.scheme) :
    PlainSides c.scheme (fluxWidth c.scheme c.p) := fun d hd =>
  ⟨fun s => Or.inr ⟨Or.inr (Or.inr (hS.periodic d s hd)), hS.wide d⟩, fun _ => hS.periodic d .l hd⟩

theorem mod_self_cells {n : Fin 3 → ℕ} {i : Ix} (hi : InCells n i) (d : Fin 3) : i d % n d = i d :=
  Int.emod_eq_of_lt (hi d).1 (hi d).2

section kelvin
variable (F : NumFns K) (hsin : ∀ y, F.sin (y + F.pi) = -F.sin y) (sigma w0 : K) (a : SolverArgs K)
  (ha : FromScenario F (.kelvinHelmholtz sigma w0) a) (gauss : ℕ → List (K × K))
  (junk : ℕ → Ix → K) (b : Built K a.np) (h : a.build gauss junk = .ok b)
  (hr : "passive_scalars" ∉ a.passives.map Prod.fst) (hdom : (a.dom 0).2 - (a.dom 0).1 = 1)
include hsin ha h hr hdom

/-- **C111** (Kelvin-Helmholtz, start) With an even number of cells along x the initial array repeats after half of them. -/
theorem C111_kelvin_shift (k : ℕ) (hn : a.n 0 = 2 * k)
    (hps : PassivesInvariant a (turnPoint 1 (fun _ => false) a.n a.dom (Pi.single 0 (k : ℤ)))) :
    ShiftSymmetric a.n (Pi.single 0 (k : ℤ)) b.u.get := by
  have hcells := ((C58_partial a gauss junk).1 ⟨b, h⟩).cells
  have hk : (k : K) ≠ 0 := by
    have := hcells 0
    exact_mod_cast (by omega : k ≠ 0)
  have key := C111_start F _ (show Scenario.Accepted (.kelvinHelmholtz sigma w0) from trivial) a ha (σ := 1)
    (fl := fun _ => false) (gauss := gauss) ⟨fun _ => rfl, fun _ => rfl, fun _ => rfl,
      fun _ h => (Bool.false_ne_true h).elim, fun _ h => (Bool.false_ne_true h).elim⟩ (Pi.single 0 (k : ℤ)) hps (fun x => ?_)
    junk b h hr
  · have hper : Function.Periodic b.u.get (Pi.single 0 (k : ℤ)) := by
      intro j
      have e := key j
      have hc : turnCell 1 (fun _ => false) a.n (Pi.single 0 (k : ℤ)) j = j + Pi.single 0 (k : ℤ) := by
        funext d
        simp [turnCell]
      rw [hc] at e
      rw [e]
      funext v
      cases v <;> rfl
    have hper2 : Function.Periodic b.u.get (Pi.single 0 (a.n 0 : ℤ)) := by
      have := hper.add_period hper
      rwa [← Pi.single_add, show (k : ℤ) + k = (a.n 0 : ℤ) by rw [hn]; push_cast; ring] at this
    intro i hi
    rw [← hper i]
    refine (wrap_one hper2 (fun d hd => ?_) ?_).symm
    · rw [Pi.single_eq_of_ne hd, add_zero, Pi.add_apply, Pi.single_eq_of_ne hd, add_zero, mod_self_cells hi]
    · rfl
  · have hp : turnPoint 1 (fun _ => false) a.n a.dom (Pi.single 0 (k : ℤ)) x = Function.update x 0 (x 0 + 1 / 2) := by
      funext d
      unfold turnPoint
      simp only [Bool.false_eq_true, if_false]
      by_cases hd : d = 0
      · subst hd
        rw [Function.update_self, Pi.single_eq_same, hdom, hn]
        push_cast
        change x 0 + _ = _
        field_simp
      · rw [Function.update_of_ne hd, Pi.single_eq_of_ne hd]
        push_cast
        rw [zero_mul, add_zero]
        rfl
    rw [hp, kelvin_shift F hsin]
    exact GasState.ext rfl (fun d => by simp [turnGas]) rfl

/-- **C111** (Kelvin-Helmholtz, start) With a number of cells along x that is a multiple of 4 and a domain centred at 1/2
along y, the initial array does not change under a shift by a quarter of the domain followed by a reflection in y. -/
theorem C111_kelvin_glide (hdom1 : (a.dom 1).1 + (a.dom 1).2 = 1) (k : ℕ) (hn : a.n 0 = 4 * k)
    (hg : SymmetricRule (gauss (a.p 1 / 2 + 1)))
    (hps : PassivesInvariant a (turnPoint 1 (only 1) a.n a.dom (Pi.single 0 (k : ℤ)))) :
    GlideSymmetric a.n 1 (Pi.single 0 (k : ℤ)) b.u.get := by
  have hcells := ((C58_partial a gauss junk).1 ⟨b, h⟩).cells
  have hk : (k : K) ≠ 0 := by
    have := hcells 0
    exact_mod_cast (by omega : k ≠ 0)
  have key := C111_start F _ (show Scenario.Accepted (.kelvinHelmholtz sigma w0) from trivial) a ha
    (turnMesh_mirror gauss a.p a.n a.dom 1 (hcells 1) hg) (Pi.single 0 (k : ℤ)) hps (fun x => ?_) junk b h hr
  · have hc : ∀ j, turnCell 1 (only 1) a.n (Pi.single 0 (k : ℤ)) j = mirrorCell a.n 1 (j + Pi.single 0 (k : ℤ)) := by
      intro j
      funext d
      unfold turnCell mirrorCell only
      by_cases hd : d = 1
      · subst hd
        simp
      · simp [hd]
    have hglide : ∀ j, b.u.get j = mirrorState 1 (b.u.get (mirrorCell a.n 1 (j + Pi.single 0 (k : ℤ)))) := by
      intro j
      rw [← hc, key, turnState_only, mirrorState_twice]
    have hper : Function.Periodic b.u.get (Pi.single 0 (2 * k : ℤ)) := by
      intro j
      rw [hglide j, hglide (mirrorCell a.n 1 (j + (Pi.single 0 (k : ℤ) : Ix))), mirrorState_twice]
      congr 1
      funext d
      unfold mirrorCell
      fin_cases d
      · simp; ring
      · simp
      · simp
    have hper2 : Function.Periodic b.u.get (Pi.single 0 (a.n 0 : ℤ)) := by
      have := hper.add_period hper
      rwa [← Pi.single_add, show (2 * k : ℤ) + 2 * k = (a.n 0 : ℤ) by rw [hn]; push_cast; ring] at this
    intro i hi
    rw [hglide i]
    refine congrArg _ (wrap_one hper2 (fun d hd => ?_) ?_).symm
    · unfold mirrorCell
      by_cases h1 : d = 1
      · subst h1
        rw [Function.update_self, Function.update_self]
        dsimp only
        rw [Pi.single_eq_of_ne hd, add_zero, Pi.add_apply, Pi.single_eq_of_ne hd, add_zero, mod_self_cells hi]
      · rw [Function.update_of_ne h1, Function.update_of_ne h1, Pi.single_eq_of_ne hd, add_zero, Pi.add_apply,
          Pi.single_eq_of_ne hd, add_zero, mod_self_cells hi]
    · unfold mirrorCell
      rw [Function.update_of_ne (by decide), Function.update_of_ne (by decide)]
      rfl
  · refine kelvin_glide F hsin sigma w0 x _ ?_ ?_
    · unfold turnPoint only
      rw [if_neg (by decide), Pi.single_eq_same, hdom, hn]
      push_cast
      change x 0 + _ = _
      field_simp
    · unfold turnPoint only
      rw [if_pos (by decide), hdom1]
      rfl

/-- **C111** (Kelvin-Helmholtz, runs) Without limiting, on a periodic domain, with any Riemann solver, degree and
integrator: at the end of the run and in every snapshot the state repeats after half the cells along x. -/
theorem C111_kelvin_run (hlim : a.limiter = none) (hS : PeriodicSetup b.config.scheme) (k : ℕ) (hn : a.n 0 = 2 * k)
    (hps : PassivesInvariant a (turnPoint 1 (fun _ => false) a.n a.dom (Pi.single 0 (k : ℤ))))
    (f : RHS K (Ix → State K a.np)) (hf : IsSolverRHS b.config.scheme f)
    (m : Integrator) (fuel : ℕ) (T : Option K) (n : Option ℕ) (exact : Bool) (downbeats : List K) (logEvery : Bool)
    (out : ODEState K (Ix → State K a.np) (Ix → State K a.np)) (e : Option PyErr)
    (hrun : (ODEState.init b.u.get).integrate (stepper f m) (·.u) fuel ⟨T, n, exact, downbeats, logEvery, none⟩ =
      some (out, e)) :
    ShiftSymmetric a.n (Pi.single 0 (k : ℤ)) out.u ∧
    ∀ v ∈ out.snapshots, ShiftSymmetric a.n (Pi.single 0 (k : ℤ)) v := by
  obtain ⟨e1, -, -, -, -, -, e6, -⟩ := C62_built a gauss junk b h hr
  rw [← e1]
  exact shift_run b.config hS (e6 hlim) _ f hf m fuel T n exact downbeats logEvery _
    (by rw [e1]; exact C111_kelvin_shift F hsin sigma w0 a ha gauss junk b h hr hdom k hn hps) out e hrun

/-- **C111** (Kelvin-Helmholtz, runs with llf) The upper billows are at all times the mirror images of the lower ones,
shifted by a quarter of the domain. -/
theorem C111_kelvin_run_glide (hlim : a.limiter = none) (hS : PeriodicSetup b.config.scheme) (hllf : a.riemannSolver = "llf")
    (hbc : b.config.bc.kind 1 .l = b.config.bc.kind 1 .r)
    (hdom1 : (a.dom 1).1 + (a.dom 1).2 = 1) (k : ℕ) (hn : a.n 0 = 4 * k) (hg : SymmetricRule (gauss (a.p 1 / 2 + 1)))
    (hps : PassivesInvariant a (turnPoint 1 (only 1) a.n a.dom (Pi.single 0 (k : ℤ))))
    (f : RHS K (Ix → State K a.np)) (hf : IsSolverRHS b.config.scheme f)
    (m : Integrator) (fuel : ℕ) (T : Option K) (n : Option ℕ) (exact : Bool) (downbeats : List K) (logEvery : Bool)
    (out : ODEState K (Ix → State K a.np) (Ix → State K a.np)) (e : Option PyErr)
    (hrun : (ODEState.init b.u.get).integrate (stepper f m) (·.u) fuel ⟨T, n, exact, downbeats, logEvery, none⟩ =
      some (out, e)) :
    GlideSymmetric a.n 1 (Pi.single 0 (k : ℤ)) out.u ∧
    ∀ v ∈ out.snapshots, GlideSymmetric a.n 1 (Pi.single 0 (k : ℤ)) v := by
  obtain ⟨e1, -, -, -, -, -, e6, -, e8, -⟩ := C62_built a gauss junk b h hr
  rw [← e1]
  exact glide_run b.config hS (e6 hlim) 1 hbc (periodic_plain hS) (by rw [e8, if_pos hllf]) _ f hf m fuel T n exact
    downbeats logEvery _ (by rw [e1]; exact C111_kelvin_glide F hsin sigma w0 a ha gauss junk b h hr hdom hdom1 k hn hg hps)
    out e hrun

/-- **C111** (Kelvin-Helmholtz, runs with hllc) The same while the states at the faces across y are physical. -/
theorem C111_kelvin_run_glide_hllc (hlim : a.limiter = none) (hS : PeriodicSetup b.config.scheme)
    (hhllc : a.riemannSolver = "hllc") (hG : b.config.gas.OK) (hbc : b.config.bc.kind 1 .l = b.config.bc.kind 1 .r)
    (hdom1 : (a.dom 1).1 + (a.dom 1).2 = 1) (k : ℕ) (hn : a.n 0 = 4 * k) (hg : SymmetricRule (gauss (a.p 1 / 2 + 1)))
    (hps : PassivesInvariant a (turnPoint 1 (only 1) a.n a.dom (Pi.single 0 (k : ℤ))))
    (f : RHS K (Ix → State K a.np)) (hf : IsSolverRHS b.config.scheme f)
    (m : Integrator) (fuel : ℕ) (T : Option K) (n : Option ℕ) (exact : Bool) (downbeats : List K) (logEvery : Bool)
    (out : ODEState K (Ix → State K a.np) (Ix → State K a.np))
    (hrun : (ODEState.init b.u.get).integrate (stepper (onlyOn (FacesPhysical b.config 1) f) m) (·.u) fuel
      ⟨T, n, exact, downbeats, logEvery, none⟩ = some (out, none)) :
    (ODEState.init b.u.get).integrate (stepper f m) (·.u) fuel ⟨T, n, exact, downbeats, logEvery, none⟩ =
      some (out, none) ∧
    GlideSymmetric a.n 1 (Pi.single 0 (k : ℤ)) out.u ∧
    ∀ v ∈ out.snapshots, GlideSymmetric a.n 1 (Pi.single 0 (k : ℤ)) v := by
  obtain ⟨e1, -, -, -, -, -, e6, -, e8, -⟩ := C62_built a gauss junk b h hr
  rw [← e1]
  exact glide_run_hllc b.config hS (e6 hlim) 1 hbc (periodic_plain hS) (by rw [e8, hhllc]; rfl) hG _ f hf m fuel T n
    exact downbeats logEvery _
    (by rw [e1]; exact C111_kelvin_glide F hsin sigma w0 a ha gauss junk b h hr hdom hdom1 k hn hg hps) out hrun

end kelvin

/-! ### Waves along a diagonal -/

theorem turnPoint_exchange (σ : Equiv.Perm (Fin 3)) (n : Fin 3 → ℕ) (dom : Fin 3 → K × K) (x : Fin 3 → K) :
    turnPoint σ (fun _ => false) n dom 0 x = fun d => x (σ d) := by
  funext d
  simp [turnPoint]

/-- The sine wave and the square along axes that are exchanged, with equal velocities along them. -/
theorem wave_turn (F : NumFns K) (σ : Equiv.Perm (Fin 3)) (n : Fin 3 → ℕ) (dom : Fin 3 → K × K) (dims : String)
    (hσ : ∀ d, Named dims (σ d) ↔ Named dims d) (rho : K × K) (P : K) (v : Fin 3 → K) (hv : ∀ d, v (σ d) = v d)
    (x : Fin 3 → K) :
    Scenario.state F (.sinus dims rho P v) (turnPoint σ (fun _ => false) n dom 0 x) =
      turnGas σ (fun _ => false) (Scenario.state F (.sinus dims rho P v) x) ∧
    Scenario.state F (.square dims rho P v) (turnPoint σ (fun _ => false) n dom 0 x) =
      turnGas σ (fun _ => false) (Scenario.state F (.square dims rho P v) x) := by
  rw [turnPoint_exchange]
  have e : ∑ d with Named dims d, x (σ d) = ∑ d with Named dims d, x d := by
    rw [Finset.sum_filter, Finset.sum_filter, ← Equiv.sum_comp σ fun d => if Named dims d then x d else 0]
    exact Finset.sum_congr rfl fun d _ => by simp only [hσ d]
  have e2 : (∀ d, Named dims d → |x (σ d) - 1 / 2| < 1 / 4) ↔ ∀ d, Named dims d → |x d - 1 / 2| < 1 / 4 :=
    ⟨fun h d hd => by
      have := h (σ.symm d) ((hσ _).1 (by rw [Equiv.apply_symm_apply]; exact hd))
      rwa [Equiv.apply_symm_apply] at this, fun h d hd => h (σ d) ((hσ d).2 hd)⟩
  constructor
  · refine GasState.ext ?_ (fun d => ?_) rfl
    · simp only [Scenario.state, turnGas, e]
    · simp [Scenario.state, turnGas, hv]
  · refine GasState.ext ?_ (fun d => ?_) rfl
    · simp only [Scenario.state, turnGas, e2]
    · simp [Scenario.state, turnGas, hv]

/-- A solver built without boundary conditions on axes that agree is the same after the exchange. -/
theorem built_exchange (a : SolverArgs K) (gauss : ℕ → List (K × K)) (junk : ℕ → Ix → K) (b : Built K a.np)
    (h : a.build gauss junk = .ok b) (hr : "passive_scalars" ∉ a.passives.map Prod.fst) (σ : Equiv.Perm (Fin 3))
    (hn : ∀ d, a.n (σ d) = a.n d) (hp : ∀ d, a.p (σ d) = a.p d) (hdom : ∀ d, a.dom (σ d) = a.dom d) (hbc : a.bc = none) :
    b.config.exchange σ = b.config := by
  obtain ⟨e1, e2, e3, -, -, -, -, -, -, e9, -⟩ := C62_built a gauss junk b h hr
  have i1 : (fun d => b.config.n (σ d)) = b.config.n := by funext d; rw [e1, hn]
  have i2 : (fun d => b.config.p (σ d)) = b.config.p := by funext d; rw [e2, hp]
  have i3 : (fun d => b.config.h (σ d)) = b.config.h := by funext d; rw [e3, e3, hn, hdom]
  have i4 : (fun d s => b.config.bc.kind (σ d) s) = b.config.bc.kind := by funext d s; rw [e9 hbc, e9 hbc]
  unfold EulerConfig.exchange
  rw [i1, i2, i3, i4]

/-- **C111** (waves, runs) A sine wave or a square along the axes exchanged, with equal velocities along them: the run does
not change under the exchange, with any Riemann solver and limiter. -/
theorem C111_wave_run (F : NumFns K) (dims : String) (rho : K × K) (P : K) (v : Fin 3 → K) (sc : Scenario K)
    (hsc : sc = .sinus dims rho P v ∨ sc = .square dims rho P v) (a : SolverArgs K) (ha : FromScenario F sc a)
    (gauss : ℕ → List (K × K)) (junk : ℕ → Ix → K) (b : Built K a.np) (h : a.build gauss junk = .ok b)
    (hr : "passive_scalars" ∉ a.passives.map Prod.fst) (σ : Equiv.Perm (Fin 3))
    (hσ : ∀ d, Named dims (σ d) ↔ Named dims d) (hv : ∀ d, v (σ d) = v d) (hdom : ∀ d, a.dom (σ d) = a.dom d)
    (hps : PassivesInvariant a (fun x d => x (σ d)))
    (o : LimiterOpts K) (hlim : a.limiter = some o) (hS : LimitedSetup b.config o)
    (hc : b.config.exchange σ = b.config) (ho : o.exchange σ = o)
    (f : RHS K (Ix → State K a.np)) (hf : IsSolverRHS b.config.scheme f)
    (m : Integrator) (fuel : ℕ) (T : Option K) (n : Option ℕ) (exact : Bool) (downbeats : List K) (logEvery : Bool)
    (out : ODEState K (Ix → State K a.np) (Ix → State K a.np)) (e : Option PyErr)
    (hrun : (ODEState.init b.u.get).integrate (stepper f m) (·.u) fuel ⟨T, n, exact, downbeats, logEvery, none⟩ =
      some (out, e)) :
    ExchangeSymmetric a.n σ b.u.get ∧ ExchangeSymmetric a.n σ out.u ∧ ∀ w ∈ out.snapshots, ExchangeSymmetric a.n σ w := by
  obtain ⟨e1, e2, -, -, -, -, -, e7, -⟩ := C62_built a gauss junk b h hr
  have hn : ∀ d, a.n (σ d) = a.n d := fun d => by
    have := congrFun (congrArg EulerConfig.n hc) d
    rw [← e1]; exact this
  have hp : ∀ d, a.p (σ d) = a.p d := fun d => by
    have := congrFun (congrArg EulerConfig.p hc) d
    rw [← e2]; exact this
  have hacc : sc.Accepted := by rcases hsc with rfl | rfl <;> trivial
  have key := C111_start F sc hacc a ha (σ := σ) (fl := fun _ => false) (gauss := gauss)
    ⟨hp, hn, hdom, fun _ h => (Bool.false_ne_true h).elim, fun _ h => (Bool.false_ne_true h).elim⟩ 0
    (fun i => by
      obtain ⟨q, q1, q2⟩ := hps i
      exact ⟨q, q1, fun x => by rw [turnPoint_exchange]; exact q2 x⟩)
    (fun x => by
      obtain ⟨w1, w2⟩ := wave_turn F σ a.n a.dom dims hσ rho P v hv x
      rcases hsc with rfl | rfl
      · exact w1
      · exact w2) junk b h hr
  have start : ExchangeSymmetric a.n σ b.u.get := by
    intro i _
    have e := key i
    have hc : turnCell σ (fun _ => false) a.n 0 i = fun d => i (σ d) := by
      funext d
      simp [turnCell]
    rw [hc] at e
    rw [e]
    exact ⟨fun d => by rw [turn_mom]; simp, rfl, rfl, fun _ => rfl⟩
  refine ⟨start, ?_⟩
  rw [← e1] at start ⊢
  exact C86_symmetric_exchange b.config o _ hS hc ho f
    (by rw [limited_self _ _ (e7 o hlim)]; exact hf) m fuel T n exact downbeats logEvery _ start out e hrun

/-! ### The rules of numpy are symmetric -/

/-- **C111** (quadrature) The symmetry asked of `leggauss` follows from the exactness that numpy promises: the rule is
unique. -/
theorem C111_rule {n : ℕ} (hn : 1 ≤ n) {R : List (ℝ × ℝ)} (h : IsGauss n R) : SymmetricRule R := h.symmetric hn

/-! ### Solvers to which this applies -/

section built
variable (a : SolverArgs K) (gauss : ℕ → List (K × K)) (junk : ℕ → Ix → K) (b : Built K a.np)
  (h : a.build gauss junk = .ok b) (hr : "passive_scalars" ∉ a.passives.map Prod.fst) (hbc : a.bc = none)
  (hp : ∀ d, a.p d ≤ 8) (hn : ∀ d, 16 ≤ a.n d ∨ (a.n d = 1 ∧ a.p d = 0))
include h hr hbc hp hn

theorem built_periodic : PeriodicSetup b.config.scheme := by
  obtain ⟨e1, e2, -, -, -, -, -, -, -, e9, -⟩ := C62_built a gauss junk b h hr
  have hcells := ((C58_partial a gauss junk).1 ⟨b, h⟩).cells
  have s1 : b.config.scheme.n = a.n := e1
  have s2 : b.config.scheme.p = a.p := e2
  refine ⟨fun d => by rw [s1]; exact hcells d, fun d => by rw [s2]; exact hp d, fun d s _ => e9 hbc d s, fun d => ?_⟩
  have h0 := hp 0
  have h1 := hp 1
  have h2 := hp 2
  have hd := hp d
  unfold fluxWidth Scheme.active fluxGw ceilHalf
  rw [s1, s2]
  rcases hn d with h' | ⟨h', h''⟩
  · dsimp only
    split <;> omega
  · rw [h', h'']
    simp

theorem built_limited (o : LimiterOpts K) (hk : o.toDetectOpts.Known) (ht : 0 < o.tiny) (hcv : o.convex = false) :
    LimitedSetup b.config o := by
  obtain ⟨e1, e2, -, -, -, -, -, -, -, e9, -⟩ := C62_built a gauss junk b h hr
  have hacc := (C58_partial a gauss junk).1 ⟨b, h⟩
  have hS := built_periodic a gauss junk b h hr hbc hp hn
  have s1 : b.config.scheme.n = a.n := e1
  have s2 : b.config.scheme.p = a.p := e2
  have plain : ∀ w : Fin 3 → ℕ, (∀ d, b.config.scheme.active d = true → w d ≤ 16) → PlainSides b.config.scheme w := by
    intro w hw d hd
    refine ⟨fun s => Or.inr ⟨Or.inr (Or.inr (e9 hbc d s)), (hw d hd).trans ?_⟩, fun _ => e9 hbc d .l⟩
    rw [s1]
    rcases hn d with h' | ⟨h', h''⟩
    · exact h'
    · unfold Scheme.active at hd
      rw [s1, s2, h', h''] at hd
      simp at hd
  refine ⟨fun o' ho' => ?_, ht, hS.degree, hS.cells, periodic_plain hS, plain _ fun d _ => ?_, plain _ fun d _ => ?_⟩
  · cases ho'
    refine ⟨hk, ?_, .inl hcv⟩
    obtain ⟨d, hd⟩ := hacc.active
    refine List.ne_nil_of_mem (a := d) (List.mem_filter.2 ⟨by fin_cases d <;> simp, ?_⟩)
    unfold Scheme.active
    rw [s1, s2]
    simpa [imp_iff_not_or] using hd
  · have hf : ∀ d, fallbackP b.config.p d ≤ 1 := fun d => by
      unfold fallbackP
      split <;> omega
    have h0 := hf 0
    have h1 := hf 1
    have h2 := hf 2
    have hd := hf d
    unfold fluxWidth fluxGw ceilHalf
    dsimp only
    split <;> omega
  · have hd := hp d
    rw [← s2] at hd
    unfold detectWidth ceilHalf
    split <;> omega

end built

/-! ### Cases -/

/-- The billows on 64 x 64 cells with degree 3, a dye in the middle layer and the other arguments as in the signature. -/
noncomputable def billowArgs : SolverArgs ℝ where
  core := fun m k j =>
    match (Scenario.kelvinHelmholtz (1 / 20) (1 / 10)).rows realFns m 0 with
    | .ok r => r k j
    | .error _ => 0
  passives := [("dye", fun m => ⟨(m.coord 0).shape, fun j => if |(m.coord 1).get j - 1 / 2| < 1 / 4 then 1 else 0⟩)]
  n := ![64, 64, 1]
  p := ![3, 3, 0]
  dom := fun _ => (0, 1)
  cfl := 4 / 5
  fixedDt := none
  gamma := 5 / 3
  bc := none
  riemannSolver := "llf"
  conservativeIc := false
  fvIc := false
  limiter := none
  csqFloor := 1 / 10 ^ 10
  slabBufferSize := 30
  sqrt := Real.sqrt

/-- The solver is built, and its runs keep both symmetries. -/
example (gauss : ℕ → List (ℝ × ℝ)) (hg : IsGauss 2 (gauss 2)) (junk : ℕ → Ix → ℝ) :
    ∃ b, billowArgs.build gauss junk = .ok b ∧ ∀ f, IsSolverRHS b.config.scheme f → ∀ m fuel T out e,
      (ODEState.init b.u.get).integrate (stepper f m) (·.u) fuel ⟨some T, none, true, [], false, none⟩ = some (out, e) →
        ShiftSymmetric billowArgs.n (Pi.single 0 ((32 : ℕ) : ℤ)) out.u ∧
        GlideSymmetric billowArgs.n 1 (Pi.single 0 ((16 : ℕ) : ℤ)) out.u := by
  obtain ⟨b, hb⟩ := (C58_partial billowArgs gauss junk).2
    ⟨by decide, by decide, nofun, ⟨0, by decide⟩, by decide, nofun, by decide⟩
  have hsin : ∀ y, realFns.sin (y + realFns.pi) = -realFns.sin y := Real.sin_add_pi
  have ha : FromScenario realFns (.kelvinHelmholtz (1 / 20) (1 / 10)) billowArgs := fun m => by
    obtain ⟨r, e, -⟩ := C65_state realFns (.kelvinHelmholtz (1 / 20) (1 / 10)) trivial m 0
    refine ⟨0, r, e, fun k _ => ?_⟩
    simp only [billowArgs, e]
  have hS := built_periodic billowArgs gauss junk b hb (by decide) rfl
    (by decide) (by decide)
  have hdom : (billowArgs.dom 0).2 - (billowArgs.dom 0).1 = 1 := by norm_num [billowArgs]
  have hdom1 : (billowArgs.dom 1).1 + (billowArgs.dom 1).2 = 1 := by norm_num [billowArgs]
  refine ⟨b, hb, fun f hf m fuel T out e hrun => ⟨?_, ?_⟩⟩
  · refine (C111_kelvin_run realFns hsin _ _ billowArgs ha gauss junk b hb (by decide) hdom rfl hS 32 rfl ?_ f hf m fuel
      _ _ _ _ _ out e hrun).1
    intro i
    match i with
    | ⟨0, _⟩ => exact ⟨fun x => if |x 1 - 1 / 2| < 1 / 4 then 1 else 0, fun m j => rfl, fun x => by simp [turnPoint]⟩
  · refine (C111_kelvin_run_glide realFns hsin _ _ billowArgs ha gauss junk b hb (by decide) hdom rfl hS rfl ?_ hdom1 16 rfl
      (C111_rule (by decide) hg) ?_ f hf m fuel _ _ _ _ _ out e hrun).1
    · obtain ⟨-, -, -, -, -, -, -, -, -, e9, -⟩ := C62_built billowArgs gauss junk b hb (by decide)
      rw [e9 rfl, e9 rfl]
    · intro i
      match i with
      | ⟨0, _⟩ =>
        refine ⟨fun x => if |x 1 - 1 / 2| < 1 / 4 then 1 else 0, fun m j => rfl, fun x => ?_⟩
        have : |turnPoint 1 (only 1) billowArgs.n billowArgs.dom (Pi.single 0 ((16 : ℕ) : ℤ)) x 1 - 1 / 2| =
            |x 1 - 1 / 2| := by
          unfold turnPoint only
          rw [if_pos (by decide), hdom1, Equiv.Perm.one_apply, show 1 - x 1 - 1 / 2 = -(x 1 - 1 / 2) by ring, abs_neg]
        dsimp only
        rw [this]

/-- The blast on the domain of the docstring with degree 3 and a limiter. -/
noncomputable def blastArgs (r : String) : SolverArgs ℝ where
  core := fun m k j =>
    match Scenario.athenaBlast.rows realFns m 0 with
    | .ok r => r k j
    | .error _ => 0
  passives := []
  n := ![40, 60, 1]
  p := ![3, 3, 0]
  dom := ![(-(1 / 2), 1 / 2), (-(3 / 4), 3 / 4), (0, 1)]
  cfl := 4 / 5
  fixedDt := none
  gamma := 5 / 3
  bc := none
  riemannSolver := r
  conservativeIc := false
  fvIc := false
  limiter := some plainLimiter
  csqFloor := 1 / 10 ^ 10
  slabBufferSize := 30
  sqrt := Real.sqrt

/-- The solver is built, and its runs are symmetric in x and in y. -/
example (gauss : ℕ → List (ℝ × ℝ)) (hg : IsGauss 2 (gauss 2)) (junk : ℕ → Ix → ℝ) :
    ∃ b, (blastArgs "llf").build gauss junk = .ok b ∧ ∀ f, IsSolverRHS b.config.scheme f → ∀ m fuel T out e,
      (ODEState.init b.u.get).integrate (stepper f m) (·.u) fuel ⟨some T, none, true, [], false, none⟩ = some (out, e) →
        MirrorSymmetric ![40, 60, 1] 0 out.u ∧ MirrorSymmetric ![40, 60, 1] 1 out.u := by
  obtain ⟨b, hb⟩ := (C58_partial (blastArgs "llf") gauss junk).2
    ⟨by decide, by decide, nofun, ⟨0, by decide⟩, by decide, nofun, by decide⟩
  have ha : FromScenario realFns .athenaBlast (blastArgs "llf") := fun m => by
    obtain ⟨r, e, -⟩ := C65_state realFns .athenaBlast trivial m 0
    refine ⟨0, r, e, fun k _ => ?_⟩
    simp only [blastArgs, e]
  have hS := built_limited (blastArgs "llf") gauss junk b hb (by decide) rfl (by decide)
    (by decide) plainLimiter ⟨.inl rfl, .inl rfl⟩ (by norm_num [plainLimiter]) rfl
  obtain ⟨-, -, -, -, -, -, -, -, -, e9, -⟩ := C62_built (blastArgs "llf") gauss junk b hb (by decide)
  refine ⟨b, hb, fun f hf m fuel T out e hrun => ⟨?_, ?_⟩⟩
  · exact (C111_athena_run realFns (blastArgs "llf") ha gauss junk b hb (by decide) plainLimiter rfl 0 hS
      (fun _ => by norm_num [blastArgs]) (C111_rule (by decide) hg) (fun i => i.elim0) (by rw [e9 rfl, e9 rfl])
      (by simp [LimiterOpts.mirror, plainLimiter, defaultPad]) rfl rfl (.inl rfl) f hf m fuel _ _ _ _ _ out e hrun).1
  · exact (C111_athena_run realFns (blastArgs "llf") ha gauss junk b hb (by decide) plainLimiter rfl 1 hS
      (fun _ => by norm_num [blastArgs]) (C111_rule (by decide) hg) (fun i => i.elim0) (by rw [e9 rfl, e9 rfl])
      (by simp [LimiterOpts.mirror, plainLimiter, defaultPad]) rfl rfl (.inl rfl) f hf m fuel _ _ _ _ _ out e hrun).1

/-- A square moving along the diagonal of a square of cells. -/
noncomputable def diagonalArgs (r : String) : SolverArgs ℝ where
  core := fun m k j =>
    match (Scenario.square "xy" (1, 2) 1 ![1, 1, 0]).rows realFns m 0 with
    | .ok r => r k j
    | .error _ => 0
  passives := []
  n := ![64, 64, 1]
  p := ![3, 3, 0]
  dom := ![(0, 1), (0, 1), (0, 1)]
  cfl := 4 / 5
  fixedDt := none
  gamma := 7 / 5
  bc := none
  riemannSolver := r
  conservativeIc := false
  fvIc := false
  limiter := some plainLimiter
  csqFloor := 1 / 10 ^ 10
  slabBufferSize := 30
  sqrt := Real.sqrt

/-- The solver is built, and its runs do not change when x and y are exchanged. -/
example (gauss : ℕ → List (ℝ × ℝ)) (junk : ℕ → Ix → ℝ) :
    ∃ b, (diagonalArgs "hllc").build gauss junk = .ok b ∧ ∀ f, IsSolverRHS b.config.scheme f → ∀ m fuel T out e,
      (ODEState.init b.u.get).integrate (stepper f m) (·.u) fuel ⟨some T, none, true, [], false, none⟩ = some (out, e) →
        ExchangeSymmetric ![64, 64, 1] (Equiv.swap 0 1) out.u := by
  obtain ⟨b, hb⟩ := (C58_partial (diagonalArgs "hllc") gauss junk).2
    ⟨by decide, by decide, nofun, ⟨0, by decide⟩, by decide, nofun, by decide⟩
  have ha : FromScenario realFns (.square "xy" (1, 2) 1 ![1, 1, 0]) (diagonalArgs "hllc") := fun m => by
    obtain ⟨r, e, -⟩ := C65_state realFns (.square "xy" (1, 2) 1 ![1, 1, 0]) trivial m 0
    refine ⟨0, r, e, fun k _ => ?_⟩
    simp only [diagonalArgs, e]
  have hS := built_limited (diagonalArgs "hllc") gauss junk b hb (by decide) rfl (by decide)
    (by decide) plainLimiter ⟨.inl rfl, .inl rfl⟩ (by norm_num [plainLimiter]) rfl
  have hdom : ∀ d, (diagonalArgs "hllc").dom ((Equiv.swap 0 1 : Equiv.Perm (Fin 3)) d) = (diagonalArgs "hllc").dom d := by
    intro d
    fin_cases d <;> rfl
  refine ⟨b, hb, fun f hf m fuel T out e hrun => ?_⟩
  exact (C111_wave_run realFns "xy" (1, 2) 1 ![1, 1, 0] _ (.inr rfl) _ ha gauss junk b hb (by decide) (Equiv.swap 0 1)
    (by decide) (by intro d; fin_cases d <;> rfl) hdom (fun i => i.elim0) plainLimiter rfl hS
    (built_exchange _ gauss junk b hb (by decide) _ (by decide) (by decide) hdom rfl)
    (by simp [LimiterOpts.exchange, plainLimiter, defaultPad, renameVar]) f hf m fuel _ _ _ _ _ out e hrun).2.1

end FVHOE
