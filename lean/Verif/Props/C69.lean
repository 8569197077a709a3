import Verif.Proofs.Romain
import Verif.Proofs.FirstOrder
import Verif.Props.C55

/-!
C69: at first order the solver and the reference one-dimensional solver compute the same run.
-/

set_option linter.unusedSectionVars false

namespace FVHOE

variable {K : Type} [Field K] [LinearOrder K] [IsStrictOrderedRing K] {np : ℕ}

/-- The solver set up for the problem of the reference: one direction with the unit interval, degree 0, no limiting, the
ends of the same kind, the same constants and the corresponding Riemann solver. -/
structure LikeReference (c : EulerConfig K np) (C : Romain.Consts K) (n : ℕ) (ty : Romain.BCType) (rs : Romain.Solver) :
    Prop where
  nx : c.n 0 = n
  ny : c.n 1 = 1
  nz : c.n 2 = 1
  degree : ∀ d, c.p d = 0
  limiting : c.limiting = none
  fixedDt : c.fixedDt = none
  hx : c.h 0 = 1 / n
  hy : 1 / n ≤ c.h 1
  hz : 1 / n ≤ c.h 2
  gamma : c.gas.gamma = C.gamma
  sqrt : c.gas.sqrt = C.sqrt
  solver : (c.riem = .llf ∧ rs = .llf ∧ C.gamma ≠ 1) ∨ (c.riem = .hllc ∧ rs = .hllc)
  ends : (ty = .periodic ∧ 4 ≤ n ∧ ∀ s, c.bc.kind 0 s = .periodic) ∨ (ty = .free ∧ 2 ≤ n ∧ ∀ s, c.bc.kind 0 s = .free)

/-- The cells hold the columns, at rest in the other directions and without passive scalars. -/
def SameCells (n : ℕ) (u : Ix → State K np) (v : ℕ → Romain.Col K) : Prop :=
  ∀ i : ℕ, i < n → u ![i, 0, 0] = along 0 (v i)

/-- The sound speed is above the floor of the solver (the reference has none) in all cells. -/
def CellsAboveFloor (G : Gas K) (n : ℕ) (v : ℕ → Romain.Col K) : Prop :=
  ∀ i : ℕ, i < n → AboveFloor G (Romain.consToPrim G.gamma (v i))

theorem along_sub (d : Fin 3) (a b : Romain.Col K) : (along d (a - b) : State K np) = along d a - along d b := by
  have h : ∀ k, Romain.rowMap k (a - b) = Romain.rowMap k a - Romain.rowMap k b := fun k => map_sub _ _ _
  funext v
  cases v with
  | rho => exact h 0
  | mom e =>
    show (if e = d then (a - b).r1 else 0) = (if e = d then a.r1 else 0) - if e = d then b.r1 else 0
    split_ifs
    · exact h 1
    · exact (sub_zero _).symm
  | en => exact h 2
  | ps j => exact (sub_zero _).symm

theorem along_smul (d : Fin 3) (x : K) (a : Romain.Col K) : (along d (x • a) : State K np) = x • along d a := by
  have h : ∀ k, Romain.rowMap k (x • a) = x • Romain.rowMap k a := fun k => map_smul _ _ _
  funext v
  cases v with
  | rho => exact h 0
  | mom e =>
    show (if e = d then (x • a).r1 else 0) = x • (if e = d then a.r1 else 0)
    split_ifs
    · exact h 1
    · exact (smul_zero x).symm
  | en => exact h 2
  | ps j => exact (smul_zero x).symm

theorem along_add (d : Fin 3) (a b : Romain.Col K) : (along d (a + b) : State K np) = along d a + along d b := by
  have h : ∀ k, Romain.rowMap k (a + b) = Romain.rowMap k a + Romain.rowMap k b := fun k => map_add _ _ _
  funext v
  cases v with
  | rho => exact h 0
  | mom e =>
    show (if e = d then (a + b).r1 else 0) = (if e = d then a.r1 else 0) + if e = d then b.r1 else 0
    split_ifs
    · exact h 1
    · exact (add_zero _).symm
  | en => exact h 2
  | ps j => exact (add_zero _).symm

theorem maxFold (s : ℕ → K) (m : ℕ) : (∃ j ≤ m, s j = (List.range m).foldl (fun x j => max x (s (j + 1))) (s 0)) ∧
    ∀ j ≤ m, s j ≤ (List.range m).foldl (fun x j => max x (s (j + 1))) (s 0) := by
  induction m with
  | zero => exact ⟨⟨0, le_rfl, rfl⟩, fun j hj => by obtain rfl : j = 0 := by omega
                                                    exact le_rfl⟩
  | succ m ih =>
    rw [List.range_succ, List.foldl_append]
    dsimp only [List.foldl_cons, List.foldl_nil]
    obtain ⟨⟨j, hj, e⟩, h⟩ := ih
    constructor
    · rcases le_total ((List.range m).foldl (fun x j => max x (s (j + 1))) (s 0)) (s (m + 1)) with h' | h'
      · exact ⟨m + 1, le_rfl, (max_eq_right h').symm⟩
      · exact ⟨j, by omega, e.trans (max_eq_left h').symm⟩
    · intro k hk
      rcases Nat.lt_or_ge k (m + 1) with h' | h'
      · exact (h k (by omega)).trans (le_max_left _ _)
      · obtain rfl : k = m + 1 := by omega
        exact le_max_right _ _

theorem LikeReference.active {c : EulerConfig K np} {C : Romain.Consts K} {n : ℕ} {ty : Romain.BCType}
    {rs : Romain.Solver} (h : LikeReference c C n ty rs) (d : Fin 3) : c.scheme.active d = decide (d = 0) := by
  have : c.scheme.active d = !(c.n d == 1 && c.p d == 0) := rfl
  rw [this, h.degree]
  have hn : 2 ≤ n := by rcases h.ends with ⟨_, h, _⟩ | ⟨_, h, _⟩ <;> omega
  match d with
  | 0 =>
    rw [h.nx]
    have : n ≠ 1 := by omega
    simp [this]
  | 1 => rw [h.ny]; rfl
  | 2 => rw [h.nz]; rfl

/-- The continuation of the solver is the ghost columns of the reference. -/
theorem LikeReference.padded {c : EulerConfig K np} {C : Romain.Consts K} {n : ℕ} {ty : Romain.BCType}
    {rs : Romain.Solver} (h : LikeReference c C n ty rs) (v : ℕ → Romain.Col K) (i : Ix) (h0 : -1 ≤ i 0) (h1 : i 0 ≤ n)
    (hy : i 1 = 0) (hz : i 2 = 0) :
    padded c.scheme (fun i => along 0 (Romain.embed n v (i 0 + 4))) i =
      along 0 (Romain.setBC n ty (Romain.embed n v) (i 0 + 4)) := by
  unfold FVHOE.padded extAll
  have e2 : ((c.scheme.n 2 : ℕ) : ℤ) = 1 := by rw [show c.scheme.n 2 = c.n 2 from rfl, h.nz]; rfl
  have e1 : ((c.scheme.n 1 : ℕ) : ℤ) = 1 := by rw [show c.scheme.n 1 = c.n 1 from rfl, h.ny]; rfl
  have e0 : ((c.scheme.n 0 : ℕ) : ℤ) = n := by rw [show c.scheme.n 0 = c.n 0 from rfl, h.nx]
  have hact : c.scheme.active 0 = true := by rw [h.active]; rfl
  rw [e2, e1, e0]
  rw [show ∀ (gl gr : Ghost (State K np)) (Φ : Ix → State K np), extAxis 1 2 gl gr Φ i = Φ i from fun gl gr Φ => by
    unfold extAxis
    rw [if_neg (by omega), if_neg (by omega)]]
  rw [show ∀ (gl gr : Ghost (State K np)) (Φ : Ix → State K np), extAxis 1 1 gl gr Φ i = Φ i from fun gl gr Φ => by
    unfold extAxis
    rw [if_neg (by omega), if_neg (by omega)]]
  unfold extAxis
  rcases h.ends with ⟨rfl, hn, hk⟩ | ⟨rfl, hn, hk⟩
  · have hg : ∀ s, c.scheme.ghost s 0 = .wrap := by
      intro s
      unfold Scheme.ghost
      rw [if_pos hact, show c.scheme.bc.kind 0 s = .periodic from hk s]
      rfl
    rw [hg, hg, Romain.setBC_periodic hn]
    unfold Ghost.left Ghost.right
    dsimp only
    simp only [Function.update_self]
    by_cases ha : i 0 < 0
    · rw [if_pos ha, if_pos (by omega)]
      obtain ha : i 0 = -1 := by omega
      rw [ha]
      have : (-1 : ℤ) % n = n - 1 := by
        rw [← Int.add_emod_right, Int.emod_eq_of_lt] <;> omega
      rw [this]
      congr 2
      omega
    · rw [if_neg ha]
      by_cases hb : (n : ℤ) ≤ i 0
      · rw [if_pos hb, if_neg (by omega), if_pos (by omega)]
        obtain hb : i 0 = n := by omega
        rw [hb, Int.emod_self]
        congr 2
        omega
      · rw [if_neg hb, if_neg (by omega), if_neg (by omega)]
  · have hg : ∀ s, c.scheme.ghost s 0 = .clamp := by
      intro s
      unfold Scheme.ghost
      rw [if_pos hact, show c.scheme.bc.kind 0 s = .free from hk s]
      rfl
    rw [hg, hg, Romain.setBC_free (by omega)]
    unfold Ghost.left Ghost.right
    dsimp only
    simp only [Function.update_self]
    by_cases ha : i 0 < 0
    · rw [if_pos ha, if_pos (by omega)]
      rfl
    · rw [if_neg ha]
      by_cases hb : (n : ℤ) ≤ i 0
      · rw [if_pos hb, if_neg (by omega), if_pos (by omega)]
        congr 2
        omega
      · rw [if_neg hb, if_neg (by omega), if_neg (by omega)]

/-- Every column of the reference is the column of a cell. -/
theorem LikeReference.column {c : EulerConfig K np} {C : Romain.Consts K} {n : ℕ} {ty : Romain.BCType}
    {rs : Romain.Solver} (h : LikeReference c C n ty rs) (v : ℕ → Romain.Col K) (j : ℤ) (h0 : 0 ≤ j) (h1 : j < n + 8) :
    ∃ k : ℕ, k < n ∧ Romain.setBC n ty (Romain.embed n v) j = v k ∧
      Romain.setBC n ty (Romain.embed n v) (k + 4) = v k := by
  have hemb : ∀ k : ℤ, 4 ≤ k → k < n + 4 → Romain.embed n v k = v (k - 4).toNat := by
    intro k h2 h3
    exact if_pos ⟨h2, h3⟩
  have hcell : ∀ k : ℕ, k < n → Romain.setBC n ty (Romain.embed n v) (k + 4) = v k := by
    intro k hk
    rcases h.ends with ⟨rfl, hn, -⟩ | ⟨rfl, hn, -⟩
    · rw [Romain.setBC_periodic hn, if_neg (by omega), if_neg (by omega), hemb _ (by omega) (by omega)]
      congr 1
      omega
    · rw [Romain.setBC_free (by omega), if_neg (by omega), if_neg (by omega), hemb _ (by omega) (by omega)]
      congr 1
      omega
  have key : ∃ k : ℕ, k < n ∧ Romain.setBC n ty (Romain.embed n v) j = v k := by
    rcases h.ends with ⟨rfl, hn, -⟩ | ⟨rfl, hn, -⟩
    · rw [Romain.setBC_periodic hn]
      split_ifs with ha hb
      · exact ⟨(j + n - 4).toNat, by omega, hemb _ (by omega) (by omega)⟩
      · exact ⟨(j - n - 4).toNat, by omega, hemb _ (by omega) (by omega)⟩
      · exact ⟨(j - 4).toNat, by omega, hemb _ (by omega) (by omega)⟩
    · rw [Romain.setBC_free (by omega)]
      split_ifs with ha hb
      · exact ⟨(4 - 4 : ℤ).toNat, by omega, hemb _ (by omega) (by omega)⟩
      · exact ⟨((n : ℤ) + 3 - 4).toNat, by omega, hemb _ (by omega) (by omega)⟩
      · exact ⟨(j - 4).toNat, by omega, hemb _ (by omega) (by omega)⟩
  obtain ⟨k, hk, e⟩ := key
  exact ⟨k, hk, e, hcell k hk⟩

/-- **C69** (right-hand side) On the same data, whose sound speed is above the floor, the solver and the reference compute
the same time derivatives in all cells and the same time step. -/
theorem C69_rhs (c : EulerConfig K np) (C : Romain.Consts K) (n : ℕ) (ty : Romain.BCType) (rs : Romain.Solver)
    (h : LikeReference c C n ty rs) (junk : ℕ → Ix → State K np) (mem : Fin 3 → Ix → State K np) (t t' : K)
    (u : Ix → State K np) (v : ℕ → Romain.Col K) (huv : SameCells n u v) (hfl : CellsAboveFloor c.gas n v) :
    ∃ r D, Romain.rhs C n ty rs 1 v = .ok r ∧
      solverRHS c.scheme junk mem t t' u = .ok (c.cfl * (1 / (n : K)) / Romain.maxSpeed C n r.2, D) ∧
      SameCells n D r.1 := by
  have hn : 2 ≤ n := by rcases h.ends with ⟨_, h, _⟩ | ⟨_, h, _⟩ <;> omega
  have hcells : ∀ d, 1 ≤ c.n d := by
    intro d
    match d with
    | 0 => rw [h.nx]; omega
    | 1 => rw [h.ny]
    | 2 => rw [h.nz]
  have hp1 : ∀ d, c.p d ≤ 1 := fun d => by rw [h.degree]; omega
  have hgw : fluxGw c.p = 1 := by unfold fluxGw; simp [h.degree, ceilHalf]
  have hwid : ∀ d, fluxWidth c.scheme c.p d = if d = 0 then 1 else 0 := by
    intro d
    unfold fluxWidth
    rw [hgw, h.active]
    simp [h.degree, ceilHalf]
  have hin : ∀ d, c.scheme.active d = false → fluxWidth c.scheme c.p d = 0 := by
    intro d hd
    rw [h.active] at hd
    rw [hwid, if_neg (by simpa using hd)]
  have hsides : PlainSides c.scheme (fluxWidth c.scheme c.p) := by
    intro d hd
    rw [h.active] at hd
    obtain rfl : d = 0 := by simpa using hd
    rcases h.ends with ⟨_, hn, hk⟩ | ⟨_, hn, hk⟩
    · refine ⟨fun s => .inr ⟨.inr (.inr (hk s)), ?_⟩, fun _ => hk .l⟩
      rw [hwid, if_pos rfl, show c.scheme.n 0 = n from h.nx]
      omega
    · exact ⟨fun s => .inl (hk s), fun e => by
        rw [show c.scheme.bc.kind 0 .r = .free from hk .r] at e; cases e⟩
  obtain ⟨A, hA⟩ : ∃ A : ℤ → Romain.Col K, A = Romain.primCols C n ty (Romain.embed n v) := ⟨_, rfl⟩
  -- both right-hand sides
  obtain ⟨f, hf, hfe⟩ : ∃ f, Romain.solve C rs = .ok f ∧ ∀ a b, AboveFloor c.gas a → AboveFloor c.gas b →
      riemann c.riem c.gas 0 (along 0 a : State K np) (along 0 b) = along 0 (f a b) := by
    rcases h.solver with ⟨e, rfl, hγ⟩ | ⟨e, rfl⟩
    · refine ⟨_, rfl, fun a b ha hb => ?_⟩
      rw [e, C55_llf c.gas (by rw [h.gamma]; exact hγ) 0 a b ha hb, h.gamma, h.sqrt]
    · refine ⟨_, rfl, fun a b ha hb => ?_⟩
      rw [e, C55_hllc c.gas 0 a b ha hb, h.gamma, h.sqrt]
  obtain ⟨r, hr⟩ : ∃ r, Romain.rhs C n ty rs 1 v = .ok r := by
    unfold Romain.rhs Romain.cmpFlux
    rw [if_neg (by omega), hf]
    exact ⟨_, rfl⟩
  obtain ⟨f', hf', -, hr2, hr1⟩ := Romain.rhs_ok hr
  obtain rfl : f = f' := by
    rw [hf] at hf'
    cases hf'
    rfl
  rw [← hA] at hr2
  obtain ⟨dt, hdt, e⟩ := rhs_spec c.scheme h.limiting (fun d => (hp1 d).trans (by omega)) hcells t _ _
    (hsides.sides hcells hin t) junk mem t' u (fun i => along 0 (Romain.embed n v (i 0 + 4))) (by
      intro i hi
      have h0 := hi 0
      have h1 := hi 1
      have h2 := hi 2
      rw [show c.scheme.n 0 = n from h.nx] at h0
      rw [show c.scheme.n 1 = 1 from h.ny] at h1
      rw [show c.scheme.n 2 = 1 from h.nz] at h2
      have e : i = ![((i 0).toNat : ℤ), 0, 0] := by
        funext d
        match d with
        | 0 => show i 0 = ((i 0).toNat : ℤ); omega
        | 1 => show i 1 = 0; omega
        | 2 => show i 2 = 0; omega
      rw [e, huv _ (by omega)]
      unfold Romain.embed
      rw [if_pos (by show 4 ≤ ((i 0).toNat : ℤ) + 4 ∧ ((i 0).toNat : ℤ) + 4 < n + 4; omega)]
      congr 1
      show v _ = v ((((i 0).toNat : ℤ) + 4 - 4).toNat)
      congr 1
      omega)
  have hW : ∀ i : Ix, -1 ≤ i 0 → i 0 ≤ n → i 1 = 0 → i 2 = 0 → latPrim K c.scheme.prim c.scheme.p
      (extAll c.scheme.n (c.scheme.ghost .l) (c.scheme.ghost .r) fun i => along 0 (Romain.embed n v (i 0 + 4))) i =
      along 0 (A (i 0 + 4)) := by
    intro i h0 h1 h2 h3
    rw [show c.scheme.p = c.p from rfl, latPrim_low _ hp1]
    have := h.padded v i h0 h1 h2 h3
    unfold FVHOE.padded at this
    beta_reduce
    rw [this]
    show computePrimitives c.gas.gamma _ = _
    rw [(C55_conversions c.gas.gamma 0 _).2, h.gamma, hA]
    rfl
  have hfloor : ∀ j : ℤ, 0 ≤ j → j < n + 8 → AboveFloor c.gas (A j) := by
    intro j h0 h1
    obtain ⟨k, hk, e, -⟩ := h.column v j h0 h1
    rw [hA]
    unfold Romain.primCols
    rw [e, ← h.gamma]
    exact hfl k hk
  refine ⟨r, fun i => if InCells c.scheme.n i then latDiv c.scheme.active c.scheme.h (schemeFlux c.scheme c.scheme.p none
      (extAll c.scheme.n (c.scheme.ghost .l) (c.scheme.ghost .r) fun i => along 0 (Romain.embed n v (i 0 + 4)))) i else 0,
    hr, ?_, ?_⟩
  · rw [e]
    congr 2
    -- the time step
    unfold IsDt at hdt
    rw [show c.scheme.fixedDt = none from h.fixedDt] at hdt
    obtain ⟨m, ⟨i₀, hi₀, hm⟩, hmax, rfl⟩ := hdt
    have hmin : min (min (c.scheme.h 0) (c.scheme.h 1)) (c.scheme.h 2) = 1 / n := by
      show min (min (c.h 0) (c.h 1)) (c.h 2) = _
      rw [h.hx, min_eq_left h.hy, min_eq_left h.hz]
    have hndim : c.scheme.ndim = 1 := by
      unfold Scheme.ndim
      simp [h.active]
    have hspeed : ∀ j : ℤ, 0 ≤ j → j < n + 8 → c.scheme.speed c.scheme.ndim (along 0 (A j)) =
        |(A j).r1| + C.sqrt (C.gamma * (A j).r2 / (A j).r0) := by
      intro j h0 h1
      show signalSpeed c.gas _ _ = _
      unfold signalSpeed
      rw [hndim, along_speed c.gas 0 (A j) (hfloor j h0 h1), h.gamma, h.sqrt, Nat.cast_one, one_mul]
      congr 1
      exact sum3_along 0 (fun x => |x|) abs_zero (A j).r1
    have hbox : ∀ i : Ix, InDtBox c.scheme c.scheme.p i ↔ (-1 ≤ i 0 ∧ i 0 ≤ n) ∧ i 1 = 0 ∧ i 2 = 0 := by
      intro i
      unfold InDtBox
      rw [show c.scheme.p = c.p from rfl, hgw]
      have e0 : ((c.scheme.n 0 : ℕ) : ℤ) = n := by rw [show c.scheme.n 0 = n from h.nx]
      have e1 : ((c.scheme.n 1 : ℕ) : ℤ) = 1 := by rw [show c.scheme.n 1 = 1 from h.ny]; rfl
      have e2 : ((c.scheme.n 2 : ℕ) : ℤ) = 1 := by rw [show c.scheme.n 2 = 1 from h.nz]; rfl
      constructor
      · intro hh
        have h0 := hh 0
        have h1 := hh 1
        have h2 := hh 2
        rw [h.active] at h0 h1 h2
        rw [e0] at h0
        rw [e1] at h1
        rw [e2] at h2
        simp at h0 h1 h2
        omega
      · rintro ⟨h0, h1, h2⟩ d
        rw [h.active]
        match d with
        | 0 => rw [e0]; simp; omega
        | 1 => rw [e1, h1]; simp
        | 2 => rw [e2, h2]; simp
    obtain ⟨⟨j, hj, ej⟩, hall⟩ := maxFold (fun j : ℕ => |(r.2 j).r1| + C.sqrt (C.gamma * (r.2 j).r2 / (r.2 j).r0)) (n + 7)
    change _ = Romain.maxSpeed C n r.2 at ej
    change ∀ j ≤ n + 7, _ ≤ Romain.maxSpeed C n r.2 at hall
    have hm' : m = Romain.maxSpeed C n r.2 := by
      refine le_antisymm ?_ ?_
      · obtain ⟨h0, h1, h2⟩ := (hbox i₀).1 hi₀
        rw [← hm, hW i₀ h0.1 h0.2 h1 h2, hspeed _ (by omega) (by omega)]
        have := hall (i₀ 0 + 4).toNat (by omega)
        rw [Int.toNat_of_nonneg (by omega)] at this
        rw [← hr2]
        exact this
      · obtain ⟨k, hk, e1, e2⟩ := h.column v j (by omega) (by omega)
        have hA' : A j = A (k + 4) := by
          rw [hA]
          unfold Romain.primCols
          rw [e1, e2]
        have := hmax ![k, 0, 0] ((hbox _).2 ⟨⟨by show -1 ≤ (k : ℤ); omega, by show (k : ℤ) ≤ n; omega⟩, rfl, rfl⟩)
        rw [hW ![k, 0, 0] (by show -1 ≤ (k : ℤ); omega) (by show (k : ℤ) ≤ n; omega) rfl rfl] at this
        change c.scheme.speed c.scheme.ndim (along 0 (A (k + 4))) ≤ m at this
        rw [← hA', hspeed _ (by omega) (by omega)] at this
        rw [← ej, hr2]
        exact this
    rw [hm', hmin]
    rfl
  · intro i hi
    have hic : InCells c.scheme.n ![(i : ℤ), 0, 0] := by
      intro d
      match d with
      | 0 => show 0 ≤ (i : ℤ) ∧ (i : ℤ) < (c.n 0 : ℤ); rw [h.nx]; omega
      | 1 => show 0 ≤ (0 : ℤ) ∧ (0 : ℤ) < (c.n 1 : ℤ); rw [h.ny]; omega
      | 2 => show 0 ≤ (0 : ℤ) ∧ (0 : ℤ) < (c.n 2 : ℤ); rw [h.nz]; omega
    beta_reduce
    rw [if_pos hic]
    unfold latDiv schemeFlux
    rw [show (Finset.univ : Finset (Fin 3)) = {0, 1, 2} by decide, Finset.sum_insert (by decide),
      Finset.sum_insert (by decide), Finset.sum_singleton]
    simp only [h.active]
    rw [if_pos (by decide), if_neg (by decide), if_neg (by decide), add_zero, add_zero]
    rw [show c.scheme.p = c.p from rfl, latFlux_zero _ h.degree]
    beta_reduce
    rw [show (c.scheme.p : Fin 3 → ℕ) = c.p from rfl] at hW
    have e1 : (![(i : ℤ), 0, 0] + Pi.single 0 1 : Ix) = ![(i : ℤ) + 1, 0, 0] := by
      funext d
      match d with
      | 0 => simp
      | 1 => simp
      | 2 => simp
    have e2 : (![(i : ℤ), 0, 0] - Pi.single 0 1 : Ix) = ![(i : ℤ) - 1, 0, 0] := by
      funext d
      match d with
      | 0 => simp
      | 1 => simp
      | 2 => simp
    have w : ∀ j : ℤ, -1 ≤ j → j ≤ n → latPrim K c.scheme.prim c.p (extAll c.scheme.n (c.scheme.ghost .l)
        (c.scheme.ghost .r) fun i => along 0 (Romain.embed n v (i 0 + 4))) ![j, 0, 0] = along 0 (A (j + 4)) :=
      fun j h0 h1 => hW ![j, 0, 0] h0 h1 rfl rfl
    rw [add_sub_cancel_right, e1, e2, w _ (by omega) (by omega), w _ (by omega) (by omega), w _ (by omega) (by omega)]
    show (-(1 / c.h 0)) • (riemann c.riem c.gas 0 _ _ - riemann c.riem c.gas 0 _ _) = _
    rw [hfe _ _ (hfloor _ (by omega) (by omega)) (hfloor _ (by omega) (by omega)),
      hfe _ _ (hfloor _ (by omega) (by omega)) (hfloor _ (by omega) (by omega)), hr1, Romain.slopeOf_eq, along_smul,
      along_sub, h.hx]
    have tr : ∀ j, Romain.traceCols C.tiny 1 r.2 (Romain.markers n ty r.2) j = (r.2 j, r.2 j) := by
      intro j
      unfold Romain.traceCols Romain.trace
      simp only [gt_iff_lt, lt_irrefl, if_false]
      rfl
    rw [tr, tr, tr, tr, hr2]
    congr 4
    all_goals first | rfl | (congr 1; ring)

/-- One step of the reference with the first-order integrator is one step of `euler`. -/
theorem sameCells_step {n : ℕ} {u D : Ix → State K np} {v k : ℕ → Romain.Col K} (x : K) (hu : SameCells n u v)
    (hD : SameCells n D k) : SameCells n (u + x • D) fun i => (v i).add ((k i).smul x) := by
  intro i hi
  show u _ + x • D _ = along 0 ((v i).add ((k i).smul x))
  rw [hu i hi, hD i hi, Romain.add_eq, Romain.smul_eq, along_add, along_smul]

theorem C69_loop (c : EulerConfig K np) (C : Romain.Consts K) (n : ℕ) (ty : Romain.BCType) (rs : Romain.Solver)
    (h : LikeReference c C n ty rs) (f : RHS K (Ix → State K np)) (hf : IsSolverRHS c.scheme f) {S : Type}
    (mk : ODEState K (Ix → State K np) S → S) (tend : K) (log : Bool) (db : List K) (fuel : ℕ) :
    ∀ (st : ODEState K (Ix → State K np) S) (v : ℕ → Romain.Col K) (l : List (K × (ℕ → Romain.Col K))),
      SameCells n st.u v → Romain.loop C n c.cfl tend ty rs 1 1 fuel st.t v = .ok l →
      (∀ x ∈ (st.t, v) :: l, CellsAboveFloor c.gas n x.2) → l.length < fuel →
      ∃ out, ODEState.loop (stepper f .euler) mk tend log fuel none db st = some (out, none) ∧
        out.timestamps = st.timestamps ++ l.map (·.1) ∧ out.stepCount = st.stepCount + l.length ∧
        out.t = (((st.t, v) :: l).getLast (by simp)).1 ∧ SameCells n out.u (((st.t, v) :: l).getLast (by simp)).2 := by
  induction fuel with
  | zero => intro st v l _ _ _ hlen; omega
  | succ fuel ih =>
    intro st v l hu hl hfl hlen
    rw [Romain.loop] at hl
    rw [ODEState.loop]
    by_cases ht : st.t < tend
    · rw [if_pos ht] at hl
      rw [if_pos ht]
      rcases hs : Romain.step C n c.cfl ty rs 1 1 v with e | s
      · rw [hs] at hl; cases hl
      rw [hs] at hl
      rcases hl' : Romain.loop C n c.cfl tend ty rs 1 1 fuel (st.t + s.1) s.2 with e | l'
      · simp only [bind, Except.bind, hl'] at hl
        cases hl
      simp only [bind, Except.bind, hl'] at hl
      cases hl
      obtain ⟨r, hr, hdt, hadv⟩ := Romain.step_ok hs
      obtain ⟨junk, mem, hfe⟩ := hf st.t st.t st.u
      obtain ⟨r', D, hr', hD, hsame⟩ := C69_rhs c C n ty rs h junk mem st.t st.t st.u v hu (hfl (st.t, v) (by simp))
      rw [hr] at hr'
      cases hr'
      rw [← hdt] at hD
      have hv : s.2 = fun i => (v i).add ((r.1 i).smul s.1) := by
        unfold Romain.advance at hadv
        exact (Except.ok.inj hadv).symm
      have hstep : stepper f .euler st.t st.u none = .ok (s.1, st.u + s.1 • D) := by
        show eulerStepper f st.t st.u none = _
        unfold eulerStepper
        rw [hfe, hD]
        rfl
      have hnew : SameCells n (st.u + s.1 • D) s.2 := by
        rw [hv]
        exact sameCells_step _ hu hsame
      unfold ODEState.takeStep
      rw [hstep]
      dsimp only
      have hlen' : l'.length < fuel := by
        simp only [List.length_cons] at hlen
        omega
      have hfl' : ∀ x ∈ (st.t + s.1, s.2) :: l', CellsAboveFloor c.gas n x.2 := fun x hx => hfl x (List.mem_cons_of_mem _ hx)
      have key : ∀ st' : ODEState K (Ix → State K np) S, st'.t = st.t + s.1 → st'.timestamps = st.timestamps ++ [st.t + s.1] →
          st'.stepCount = st.stepCount + 1 → st'.u = st.u + s.1 • D →
          ∃ out, ODEState.loop (stepper f .euler) mk tend log fuel none db st' = some (out, none) ∧
            out.timestamps = st.timestamps ++ ((st.t + s.1, s.2) :: l').map (·.1) ∧
            out.stepCount = st.stepCount + ((st.t + s.1, s.2) :: l').length ∧
            out.t = (((st.t, v) :: (st.t + s.1, s.2) :: l').getLast (by simp)).1 ∧
            SameCells n out.u (((st.t, v) :: (st.t + s.1, s.2) :: l').getLast (by simp)).2 := by
        rintro st' h1 h2 h3 h4
        obtain ⟨out, e, e1, e2, e3, e4⟩ := ih st' s.2 l' (by rw [h4]; exact hnew) (by rw [h1]; exact hl')
          (by rw [h1]; exact hfl') hlen'
        simp only [h1] at e3 e4
        refine ⟨out, e, ?_, ?_, ?_, ?_⟩
        · rw [e1, h2]
          simp
        · rw [e2, h3, List.length_cons]
          omega
        · rw [List.getLast_cons (by simp)]
          exact e3
        · rw [List.getLast_cons (by simp)]
          exact e4
      simp only [reduceCtorEq, false_or, if_false]
      by_cases hsnap : tend ≤ st.t + s.1 ∨ log = true
      · rw [if_pos hsnap]
        cases db with
        | nil => exact key _ rfl rfl rfl rfl
        | cons d ds => exact key _ rfl rfl rfl rfl
      · rw [if_neg hsnap]
        exact key _ rfl rfl rfl rfl
    · rw [if_neg ht] at hl
      rw [if_neg ht]
      cases hl
      refine ⟨st, rfl, by simp, by simp, rfl, hu⟩

/-- **C69** (runs) Started from the same data, a run of the solver with the integrator that `run` chooses at degree 0
and without exact hits, and the time loop of the reference at first order in space and time, visit the same times, take
the same number of steps and end with the same cells; `log` and `db` (`log_every_step`, `downbeats`) are arbitrary. -/
theorem C69_run (c : EulerConfig K np) (C : Romain.Consts K) (n : ℕ) (ty : Romain.BCType) (rs : Romain.Solver)
    (h : LikeReference c C n ty rs) (f : RHS K (Ix → State K np)) (hf : IsSolverRHS c.scheme f) {S : Type}
    (mk : ODEState K (Ix → State K np) S → S) (tend : K) (log : Bool) (db : List K) (nitermax : ℕ)
    (u : Ix → State K np) (v : ℕ → Romain.Col K) (l : List (K × (ℕ → Romain.Col K))) (huv : SameCells n u v)
    (hl : Romain.loop C n c.cfl tend ty rs 1 1 nitermax 0 v = .ok l) (hlen : l.length < nitermax)
    (hfl : ∀ x ∈ (0, v) :: l, CellsAboveFloor c.gas n x.2) :
    ∃ out, ODEState.integrate (stepper f .euler) mk nitermax ⟨some tend, none, false, db, log, none⟩ (ODEState.init u) =
        some (out, none) ∧
      out.timestamps = ((0, v) :: l).map (·.1) ∧ out.stepCount = l.length ∧
      out.t = (((0, v) :: l).getLast (by simp)).1 ∧ SameCells n out.u (((0, v) :: l).getLast (by simp)).2 := by
  obtain ⟨out, e, e1, e2, e3, e4⟩ := C69_loop c C n ty rs h f hf mk tend log (keyTimes db tend) nitermax
    ((ODEState.init u).snapshot mk) v l huv hl hfl hlen
  exact ⟨out, e, e1, e2.trans (Nat.zero_add _), e3, e4⟩

/-- **C69** (fixed number of steps) The same for a run of a given number of steps. -/
theorem C69_steps (c : EulerConfig K np) (C : Romain.Consts K) (n : ℕ) (ty : Romain.BCType) (rs : Romain.Solver)
    (h : LikeReference c C n ty rs) (f : RHS K (Ix → State K np)) (hf : IsSolverRHS c.scheme f) {S : Type}
    (mk : ODEState K (Ix → State K np) S → S) (tend : K) (steps : ℕ) (a : IntegrateArgs K S) (haT : a.T = none)
    (han : a.n = some steps) (fuel : ℕ)
    (u : Ix → State K np) (v : ℕ → Romain.Col K) (l : List (K × (ℕ → Romain.Col K))) (huv : SameCells n u v)
    (hl : Romain.loop C n c.cfl tend ty rs 1 1 steps 0 v = .ok l) (hlen : l.length = steps)
    (hfl : ∀ x ∈ (0, v) :: l, CellsAboveFloor c.gas n x.2) :
    ∃ out, ODEState.integrate (stepper f .euler) mk fuel a (ODEState.init u) = some (out, none) ∧
      out.timestamps = ((0, v) :: l).map (·.1) ∧
      SameCells n out.u (((0, v) :: l).getLast (by simp)).2 := by
  have main : ∀ (steps : ℕ) (st : ODEState K (Ix → State K np) S) (v : ℕ → Romain.Col K)
      (l : List (K × (ℕ → Romain.Col K))), SameCells n st.u v →
      Romain.loop C n c.cfl tend ty rs 1 1 steps st.t v = .ok l → l.length = steps →
      (∀ x ∈ (st.t, v) :: l, CellsAboveFloor c.gas n x.2) →
      ∃ out, st.takeSteps (stepper f .euler) steps = (out, none) ∧ out.timestamps = st.timestamps ++ l.map (·.1) ∧
        SameCells n out.u (((st.t, v) :: l).getLast (by simp)).2 := by
    intro steps
    induction steps with
    | zero =>
      intro st v l hu hl _ _
      cases hl
      exact ⟨st, rfl, by simp, hu⟩
    | succ steps ih =>
      intro st v l hu hl hlen hfl
      rw [Romain.loop] at hl
      by_cases ht : st.t < tend
      · rw [if_pos ht] at hl
        rcases hs : Romain.step C n c.cfl ty rs 1 1 v with e | s
        · rw [hs] at hl; cases hl
        rw [hs] at hl
        rcases hl' : Romain.loop C n c.cfl tend ty rs 1 1 steps (st.t + s.1) s.2 with e | l'
        · simp only [bind, Except.bind, hl'] at hl
          cases hl
        simp only [bind, Except.bind, hl'] at hl
        cases hl
        obtain ⟨r, hr, hdt, hadv⟩ := Romain.step_ok hs
        obtain ⟨junk, mem, hfe⟩ := hf st.t st.t st.u
        obtain ⟨r', D, hr', hD, hsame⟩ := C69_rhs c C n ty rs h junk mem st.t st.t st.u v hu (hfl (st.t, v) (by simp))
        rw [hr] at hr'
        cases hr'
        rw [← hdt] at hD
        have hv : s.2 = fun i => (v i).add ((r.1 i).smul s.1) := by
          unfold Romain.advance at hadv
          exact (Except.ok.inj hadv).symm
        have hstep : stepper f .euler st.t st.u none = .ok (s.1, st.u + s.1 • D) := by
          show eulerStepper f st.t st.u none = _
          unfold eulerStepper
          rw [hfe, hD]
          rfl
        have hnew : SameCells n (st.u + s.1 • D) s.2 := by
          rw [hv]
          exact sameCells_step _ hu hsame
        rw [ODEState.takeSteps]
        unfold ODEState.takeStep
        rw [hstep]
        dsimp only
        obtain ⟨out, e, e1, e2⟩ := ih ⟨st.t + s.1, st.timestamps ++ [st.t + s.1], st.stepCount + 1, st.u + s.1 • D,
          st.snapshots, st.snapshotTimes⟩ s.2 l' hnew hl' (by simpa using hlen) (fun x hx => hfl x (List.mem_cons_of_mem _ hx))
        refine ⟨out, e, ?_, ?_⟩
        · rw [e1]
          simp
        · rw [List.getLast_cons (by simp)]
          exact e2
      · rw [if_neg ht] at hl
        cases hl
        simp at hlen
  obtain ⟨out, e, e1, e2⟩ := main steps ((ODEState.init u).snapshot mk) v l huv hl hlen hfl
  unfold ODEState.integrate
  rw [haT, han]
  unfold ODEState.integrateN
  dsimp only
  rw [e]
  exact ⟨_, rfl, e1, e2⟩

/-- A shock tube of 100 cells for either solver. -/
noncomputable def shockTubeConfig : EulerConfig ℝ 1 where
  gas := airGas
  riem := .hllc
  n := ![100, 1, 1]
  p := ![0, 0, 0]
  h := ![1 / 100, 1, 1]
  cfl := 8 / 10
  fixedDt := none
  bc := ⟨![fun _ => .free, fun _ => .periodic, fun _ => .periodic], fun _ _ => .other, none⟩
  limiting := none

/-- The constants of the reference over the reals; the sine is used by one initial condition only. -/
noncomputable def realConsts : Romain.Consts ℝ := ⟨7 / 5, 1 / 10 ^ 15, Real.sqrt, fun _ => 0⟩

/-- The hypotheses hold for the shock tube. -/
theorem shockTube_like : LikeReference shockTubeConfig realConsts 100 .free .hllc where
  nx := rfl
  ny := rfl
  nz := rfl
  degree d := by
    match d with
    | 0 => rfl
    | 1 => rfl
    | 2 => rfl
  limiting := rfl
  fixedDt := rfl
  hx := by norm_num [shockTubeConfig]
  hy := by norm_num [shockTubeConfig]
  hz := by
    show (1 : ℝ) / (100 : ℕ) ≤ 1
    norm_num
  gamma := rfl
  sqrt := rfl
  solver := .inr ⟨rfl, rfl⟩
  ends := .inr ⟨rfl, by norm_num, fun _ => rfl⟩

/-- Sod's data, on both sides of the middle. -/
def sodColumns (K : Type) [Field K] (m : ℕ) (γ : K) (i : ℕ) : Romain.Col K :=
  if i < m then Romain.primToCons γ ⟨1, 0, 1⟩ else Romain.primToCons γ ⟨1 / 8, 0, 1 / 10⟩

/-- The same, as the cells of the solver. -/
def sodCells (K : Type) [Field K] (m : ℕ) (γ : K) (i : Ix) : State K 1 := along 0 (sodColumns K m γ (i 0).toNat)

/-- Sod's tube with 100 cells has the same time step and derivatives in both solvers. -/
example (junk : ℕ → Ix → State ℝ 1) (mem : Fin 3 → Ix → State ℝ 1) :
    ∃ r D, Romain.rhs realConsts 100 .free .hllc 1 (sodColumns ℝ 50 (7 / 5)) = .ok r ∧
      solverRHS shockTubeConfig.scheme junk mem 0 0 (sodCells ℝ 50 (7 / 5)) =
        .ok (8 / 10 * (1 / (100 : ℕ)) / Romain.maxSpeed realConsts 100 r.2, D) ∧ SameCells 100 D r.1 := by
  refine C69_rhs shockTubeConfig realConsts 100 .free .hllc shockTube_like junk mem 0 0 _ _ (fun i _ => rfl) ?_
  intro i _
  unfold AboveFloor sodColumns
  split_ifs <;> norm_num [shockTubeConfig, airGas, Romain.consToPrim, Romain.primToCons]

/-- A short tube over the rationals, where a step can be computed; a placeholder for the roots. -/
def shortTube : EulerConfig ℚ 1 where
  gas := ⟨7 / 5, 1 / 100, fun x => x⟩
  riem := .hllc
  n := ![4, 1, 1]
  p := ![0, 0, 0]
  h := ![1 / 4, 1, 1]
  cfl := 1 / 2
  fixedDt := none
  bc := ⟨![fun _ => .periodic, fun _ => .periodic, fun _ => .periodic], fun _ _ => .other, none⟩
  limiting := none

theorem shortTube_like : LikeReference shortTube ⟨7 / 5, 1 / 10 ^ 15, fun x => x, fun _ => 0⟩ 4 .periodic .hllc where
  nx := rfl
  ny := rfl
  nz := rfl
  degree d := by
    match d with
    | 0 => rfl
    | 1 => rfl
    | 2 => rfl
  limiting := rfl
  fixedDt := rfl
  hx := by norm_num [shortTube]
  hy := by norm_num [shortTube]
  hz := by
    show (1 : ℚ) / (4 : ℕ) ≤ 1
    norm_num
  gamma := rfl
  sqrt := rfl
  solver := .inr ⟨rfl, rfl⟩
  ends := .inl ⟨rfl, by norm_num, fun _ => rfl⟩

/-- The hypotheses of `C69_run` hold for a run of one step, until the time 1/100. -/
theorem shortTube_run : ∃ l, Romain.loop ⟨7 / 5, 1 / 10 ^ 15, fun x => x, fun _ => 0⟩ 4 shortTube.cfl (1 / 100) .periodic .hllc
      1 1 2 0 (sodColumns ℚ 2 (7 / 5)) = .ok l ∧ l.length = 1 ∧
    ∀ x ∈ (0, sodColumns ℚ 2 (7 / 5)) :: l, CellsAboveFloor shortTube.gas 4 x.2 := by
  have h : (match Romain.loop (⟨7 / 5, 1 / 10 ^ 15, fun x => x, fun _ => 0⟩ : Romain.Consts ℚ) 4 shortTube.cfl (1 / 100)
      .periodic .hllc 1 1 2 0 (sodColumns ℚ 2 (7 / 5)) with
    | .ok l => decide (l.length = 1) && ((0, sodColumns ℚ 2 (7 / 5)) :: l).all fun x =>
        (List.range 4).all fun i => decide (shortTube.gas.csqFloor < shortTube.gas.gamma *
          (Romain.consToPrim shortTube.gas.gamma (x.2 i)).r2 / (Romain.consToPrim shortTube.gas.gamma (x.2 i)).r0)
    | .error _ => false) = true := by decide +kernel
  split at h
  · rename_i l e
    simp only [Bool.and_eq_true, decide_eq_true_eq, List.all_eq_true] at h
    exact ⟨l, e, h.1, fun x hx i hi => h.2 x hx i (List.mem_range.2 hi)⟩
  · cases h

example (f : RHS ℚ (Ix → State ℚ 1)) (hf : IsSolverRHS shortTube.scheme f) :
    ∃ out, ODEState.integrate (stepper f .euler) (fun _ => ()) 2 ⟨some (1 / 100), none, false, [], true, none⟩
      (ODEState.init (sodCells ℚ 2 (7 / 5))) = some (out, none) ∧ out.stepCount = 1 := by
  obtain ⟨l, hl, hlen, hfl⟩ := shortTube_run
  obtain ⟨out, e, -, e2, -⟩ := C69_run shortTube _ 4 .periodic .hllc shortTube_like f hf (fun _ => ()) (1 / 100) true [] 2
    (sodCells ℚ 2 (7 / 5)) (sodColumns ℚ 2 (7 / 5)) l (fun i _ => rfl) hl (by omega) hfl
  exact ⟨out, e, e2.trans hlen⟩

end FVHOE
