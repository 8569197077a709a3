import Mathlib.Algebra.BigOperators.Intervals
import Mathlib.Algebra.Order.BigOperators.Group.List
import Mathlib.Algebra.Module.TransferInstance
import Mathlib.Tactic.Abel
import Mathlib.Tactic.FieldSimp
import Mathlib.Tactic.FinCases
import Mathlib.Tactic.Linarith
import Mathlib.Tactic.Module
import Mathlib.Tactic.Ring
import Verif.Model.RomainRun

/-! Lemmas about the reference solver. -/

set_option linter.unusedSectionVars false

namespace FVHOE.Romain

variable {K : Type} [Field K] [LinearOrder K] [IsStrictOrderedRing K]

/-! ## Ghost columns -/

theorem copyCol_self {V : Type} (a b : ℤ) (u : ℤ → V) : copyCol a b u a = u b := Function.update_self ..

theorem copyCol_ne {V : Type} {a b j : ℤ} (h : j ≠ a) (u : ℤ → V) : copyCol a b u j = u j :=
  Function.update_of_ne h ..

/-- With at least four cells the ghost columns repeat the cells. -/
theorem setBC_periodic {V : Type} {n : ℕ} (hn : 4 ≤ n) (u : ℤ → V) (j : ℤ) :
    setBC n .periodic u j = if 0 ≤ j ∧ j < 4 then u (j + n) else if n + 4 ≤ j ∧ j < n + 8 then u (j - n) else u j := by
  unfold setBC
  dsimp only
  by_cases h0 : 0 ≤ j ∧ j < 4
  · rw [if_pos h0]
    have : j = 0 ∨ j = 1 ∨ j = 2 ∨ j = 3 := by omega
    rcases this with rfl | rfl | rfl | rfl
    · iterate 7 rw [copyCol_ne (by omega)]
      rw [copyCol_self, zero_add]
    · iterate 6 rw [copyCol_ne (by omega)]
      rw [copyCol_self]
      iterate 1 rw [copyCol_ne (by omega)]
      rw [add_comm]
    · iterate 5 rw [copyCol_ne (by omega)]
      rw [copyCol_self]
      iterate 2 rw [copyCol_ne (by omega)]
      rw [add_comm]
    · iterate 4 rw [copyCol_ne (by omega)]
      rw [copyCol_self]
      iterate 3 rw [copyCol_ne (by omega)]
      rw [add_comm]
  · rw [if_neg h0]
    by_cases h1 : n + 4 ≤ j ∧ j < n + 8
    · rw [if_pos h1]
      have : j = n + 4 ∨ j = n + 5 ∨ j = n + 6 ∨ j = n + 7 := by omega
      rcases this with rfl | rfl | rfl | rfl
      · rw [copyCol_self]
        iterate 7 rw [copyCol_ne (by omega)]
        congr 1; omega
      · rw [copyCol_ne (by omega), copyCol_self]
        iterate 6 rw [copyCol_ne (by omega)]
        congr 1; omega
      · iterate 2 rw [copyCol_ne (by omega)]
        rw [copyCol_self]
        iterate 5 rw [copyCol_ne (by omega)]
        congr 1; omega
      · iterate 3 rw [copyCol_ne (by omega)]
        rw [copyCol_self]
        iterate 4 rw [copyCol_ne (by omega)]
        congr 1; omega
    · rw [if_neg h1]
      iterate 8 rw [copyCol_ne (by omega)]

/-- The ghost columns repeat the end cells. -/
theorem setBC_free {V : Type} {n : ℕ} (hn : 1 ≤ n) (u : ℤ → V) (j : ℤ) :
    setBC n .free u j = if 0 ≤ j ∧ j < 4 then u 4 else if n + 4 ≤ j ∧ j < n + 8 then u (n + 3) else u j := by
  unfold setBC
  dsimp only
  by_cases h0 : 0 ≤ j ∧ j < 4
  · rw [if_pos h0]
    have : j = 0 ∨ j = 1 ∨ j = 2 ∨ j = 3 := by omega
    rcases this with rfl | rfl | rfl | rfl
    · iterate 7 rw [copyCol_ne (by omega)]
      rw [copyCol_self]
    · iterate 6 rw [copyCol_ne (by omega)]
      rw [copyCol_self]
      iterate 1 rw [copyCol_ne (by omega)]
    · iterate 5 rw [copyCol_ne (by omega)]
      rw [copyCol_self]
      iterate 2 rw [copyCol_ne (by omega)]
    · iterate 4 rw [copyCol_ne (by omega)]
      rw [copyCol_self]
      iterate 3 rw [copyCol_ne (by omega)]
  · rw [if_neg h0]
    by_cases h1 : n + 4 ≤ j ∧ j < n + 8
    · rw [if_pos h1]
      have : j = n + 4 ∨ j = n + 5 ∨ j = n + 6 ∨ j = n + 7 := by omega
      rcases this with rfl | rfl | rfl | rfl
      · rw [copyCol_self]
        iterate 7 rw [copyCol_ne (by omega)]
      · rw [copyCol_ne (by omega), copyCol_self]
        iterate 6 rw [copyCol_ne (by omega)]
      · iterate 2 rw [copyCol_ne (by omega)]
        rw [copyCol_self]
        iterate 5 rw [copyCol_ne (by omega)]
      · iterate 3 rw [copyCol_ne (by omega)]
        rw [copyCol_self]
        iterate 4 rw [copyCol_ne (by omega)]
    · rw [if_neg h1]
      iterate 8 rw [copyCol_ne (by omega)]

/-- The first eight columns and the last eight agree. -/
theorem setBC_seam {V : Type} {n : ℕ} (hn : 4 ≤ n) (u : ℤ → V) (j : ℤ) (h0 : 0 ≤ j) (h1 : j < 8) :
    setBC n .periodic u (j + n) = setBC n .periodic u j := by
  rw [setBC_periodic hn, setBC_periodic hn]
  by_cases h : j < 4
  · rw [if_neg (by omega), if_neg (by omega), if_pos ⟨h0, h⟩]
  · rw [if_neg (by omega), if_pos (by omega), if_neg (by omega)]
    by_cases h' : n + 4 ≤ j ∧ j < n + 8
    · omega
    · rw [if_neg h']
      congr 1
      omega

/-! ## Columns as vectors -/

/-- A column is its three rows. -/
def colEquiv : Col K ≃ (Fin 3 → K) where
  toFun a := ![a.r0, a.r1, a.r2]
  invFun := colOf
  left_inv a := rfl
  right_inv f := by
    funext i
    fin_cases i <;> rfl

instance : AddCommGroup (Col K) := colEquiv.addCommGroup
instance : Module K (Col K) := colEquiv.module K

/-- The rows, as linear maps. -/
def rowMap (k : Fin 3) : Col K →ₗ[K] K where
  toFun a := colEquiv a k
  map_add' a b := by
    rw [show colEquiv (a + b) = colEquiv a + colEquiv b from colEquiv.apply_symm_apply _]
    rfl
  map_smul' x a := by
    rw [show colEquiv (x • a) = x • colEquiv a from colEquiv.apply_symm_apply _]
    rfl

theorem row_zero (a : Col K) : rowMap 0 a = a.r0 := rfl
theorem row_one (a : Col K) : rowMap 1 a = a.r1 := rfl
theorem row_two (a : Col K) : rowMap 2 a = a.r2 := rfl

theorem col_ext {a b : Col K} (h : ∀ k, rowMap k a = rowMap k b) : a = b := by
  have h0 : a.r0 = b.r0 := h 0
  have h1 : a.r1 = b.r1 := h 1
  have h2 : a.r2 = b.r2 := h 2
  cases a
  cases b
  cases h0
  cases h1
  cases h2
  rfl

theorem add_eq (a b : Col K) : a.add b = a + b := by
  refine col_ext fun k => ?_
  rw [map_add]
  fin_cases k <;> rfl

theorem smul_eq (x : K) (a : Col K) : a.smul x = x • a := by
  refine col_ext fun k => ?_
  rw [map_smul]
  fin_cases k <;> rfl

theorem slopeOf_eq (h : K) (F : ℤ → Col K) (i : ℕ) : slopeOf h F i = (-(1 / h)) • (F (i + 1) - F i) := by
  refine col_ext fun k => ?_
  rw [map_smul, map_sub]
  fin_cases k
  · show -((F (i + 1)).r0 - (F i).r0) / h = -(1 / h) * ((F (i + 1)).r0 - (F i).r0)
    ring
  · show -((F (i + 1)).r1 - (F i).r1) / h = -(1 / h) * ((F (i + 1)).r1 - (F i).r1)
    ring
  · show -((F (i + 1)).r2 - (F i).r2) / h = -(1 / h) * ((F (i + 1)).r2 - (F i).r2)
    ring

theorem zero_eq : (⟨0, 0, 0⟩ : Col K) = 0 := by
  refine col_ext fun k => ?_
  rw [map_zero]
  fin_cases k <;> rfl

/-! ## Locality -/

/-- `trace` looks at five columns. -/
theorem trace_congr (tiny : K) (space : ℕ) (u u' al al' : ℤ → K) (i i' : ℤ)
    (hu : ∀ k, -2 ≤ k → k ≤ 2 → u (i + k) = u' (i' + k)) (ha : ∀ k, -1 ≤ k → k ≤ 1 → al (i + k) = al' (i' + k)) :
    trace tiny space u al i = trace tiny space u' al' i' := by
  have h0 := hu 0 (by omega) (by omega)
  have h1 := hu 1 (by omega) (by omega)
  have h2 := hu 2 (by omega) (by omega)
  have h3 := hu (-1) (by omega) (by omega)
  have h4 := hu (-2) (by omega) (by omega)
  have a0 := ha 0 (by omega) (by omega)
  have a1 := ha 1 (by omega) (by omega)
  have a2 := ha (-1) (by omega) (by omega)
  rw [add_zero, add_zero] at h0 a0
  rw [← sub_eq_add_neg, ← sub_eq_add_neg] at h3 h4 a2
  have el : uleft space u i = uleft space u' i' := by
    unfold uleft
    rw [h0, h1, h2, h3, h4]
  have er : uright space u i = uright space u' i' := by
    unfold uright
    rw [h0, h1, h2, h3, h4]
  have em : umiddle space u i = umiddle space u' i' := by
    unfold umiddle
    rw [h0, h1, h2, h3, h4]
  unfold trace theta bigmj smallmj
  rw [el, er, em, h0, h1, h3, a0, a1, a2]

theorem rowsOf_apply (w : ℤ → Col K) (k : Fin 3) (j : ℤ) : rowsOf w k j = rowMap k (w j) := by
  fin_cases k <;> rfl

theorem traceCols_congr (tiny : K) (space : ℕ) (u u' al al' : ℤ → Col K) (i i' : ℤ)
    (hu : ∀ k, -2 ≤ k → k ≤ 2 → u (i + k) = u' (i' + k)) (ha : ∀ k, -1 ≤ k → k ≤ 1 → al (i + k) = al' (i' + k)) :
    traceCols tiny space u al i = traceCols tiny space u' al' i' := by
  unfold traceCols
  have : ∀ k, trace tiny space (rowsOf u k) (rowsOf al k) i = trace tiny space (rowsOf u' k) (rowsOf al' k) i' := by
    intro k
    refine trace_congr tiny space _ _ _ _ i i' (fun j h0 h1 => ?_) fun j h0 h1 => ?_
    · rw [rowsOf_apply, rowsOf_apply, hu j h0 h1]
    · rw [rowsOf_apply, rowsOf_apply, ha j h0 h1]
  simp only [this]

/-- The markers of a periodic row have the same seam. -/
theorem markers_seam {n : ℕ} (hn : 4 ≤ n) (w : ℤ → Col K) (j : ℤ) (h0 : 0 ≤ j) (h1 : j < 8) :
    markers n .periodic w (j + n) = markers n .periodic w j := by
  unfold markers smoothExtrema
  congr 1
  funext k
  exact setBC_seam hn _ j h0 h1

/-! ## Flat data -/

theorem uleft_flat (space : ℕ) (hs : 1 ≤ space) (hs' : space ≤ 5) (u : ℤ → K) (i : ℤ) (x : K)
    (h : ∀ k, -2 ≤ k → k ≤ 2 → u (i + k) = x) : uleft space u i = x ∧ uright space u i = x := by
  have h0 := h 0 (by omega) (by omega)
  have h1 := h 1 (by omega) (by omega)
  have h2 := h 2 (by omega) (by omega)
  have h3 := h (-1) (by omega) (by omega)
  have h4 := h (-2) (by omega) (by omega)
  rw [add_zero] at h0
  rw [← sub_eq_add_neg] at h3 h4
  have : space = 1 ∨ space = 2 ∨ space = 3 ∨ space = 4 ∨ space = 5 := by omega
  rcases this with rfl | rfl | rfl | rfl | rfl <;> simp only [uleft, uright, h0, h1, h2, h3, h4] <;>
    constructor <;> first | trivial | ring

/-- Flat data are interpolated exactly. -/
theorem trace_flat (tiny : K) (space : ℕ) (hs : 1 ≤ space) (hs' : space ≤ 5) (u al : ℤ → K) (i : ℤ) (x : K)
    (h : ∀ k, -2 ≤ k → k ≤ 2 → u (i + k) = x) : trace tiny space u al i = (x, x) := by
  have h0 := h 0 (by omega) (by omega)
  rw [add_zero] at h0
  obtain ⟨e1, e2⟩ := uleft_flat space hs hs' u i x h
  unfold trace
  rw [e1, e2, h0, sub_self, mul_zero, zero_add, ite_self]

/-! ## Invariants of a step -/

/-- A linear quantity without sources is kept by every step. -/
theorem advance_inv {W : Type} [AddCommGroup W] [Module K W] (l : (ℕ → Col K) →ₗ[K] W)
    (f : (ℕ → Col K) → Except PyErr ((ℕ → Col K) × (ℤ → Col K))) (hf : ∀ v r, f v = .ok r → l r.1 = 0) (time : ℕ) (dt : K)
    (u k1 v : ℕ → Col K) (hk : l k1 = 0) (h : advance f time dt u k1 = .ok v) : l v = l u := by
  have key : ∀ (x : K) (a b : ℕ → Col K), l b = 0 → l (fun i => (a i).add ((b i).smul x)) = l a := by
    intro x a b hb
    have : (fun i => (a i).add ((b i).smul x)) = a + x • b := by
      funext i
      rw [add_eq, smul_eq]
      rfl
    rw [this, map_add, map_smul, hb, smul_zero, add_zero]
  unfold advance at h
  split at h
  · cases h
    exact key _ _ _ hk
  · rcases h2 : f (fun i => (u i).add ((k1 i).smul (dt / 2))) with e | r2
    · rw [h2] at h; cases h
    · rw [h2] at h
      cases h
      exact key _ _ _ (hf _ _ h2)
  · rcases h2 : f (fun i => (u i).add ((k1 i).smul (dt / 3))) with e | r2
    · rw [h2] at h; cases h
    · rw [h2] at h
      simp only [Except.bind, bind] at h
      rcases h3 : f (fun i => (u i).add ((r2.1 i).smul (2 * dt / 3))) with e | r3
      · rw [h3] at h; cases h
      · rw [h3] at h
        cases h
        refine key _ _ (fun i => (k1 i).add ((r3.1 i).smul 3)) ?_
        rw [key _ _ _ (hf _ _ h3), hk]
  · rcases h2 : f (fun i => (u i).add ((k1 i).smul (dt / 2))) with e | r2
    · rw [h2] at h; cases h
    · rw [h2] at h
      simp only [Except.bind, bind] at h
      rcases h3 : f (fun i => (u i).add ((r2.1 i).smul (dt / 2))) with e | r3
      · rw [h3] at h; cases h
      · rw [h3] at h
        simp only [Except.bind] at h
        rcases h4 : f (fun i => (u i).add ((r3.1 i).smul dt)) with e | r4
        · rw [h4] at h; cases h
        · rw [h4] at h
          cases h
          refine key _ _ (fun i => (((k1 i).add ((r2.1 i).smul 2)).add ((r3.1 i).smul 2)).add (r4.1 i)) ?_
          have : (fun i => (((k1 i).add ((r2.1 i).smul 2)).add ((r3.1 i).smul 2)).add (r4.1 i)) =
              fun i => (((k1 i).add ((r2.1 i).smul 2)).add ((r3.1 i).smul 2)).add ((r4.1 i).smul 1) := by
            funext i
            rw [smul_eq 1, one_smul]
          rw [this, key _ (fun i => ((k1 i).add ((r2.1 i).smul 2)).add ((r3.1 i).smul 2)) _ (hf _ _ h4),
            key _ (fun i => (k1 i).add ((r2.1 i).smul 2)) _ (hf _ _ h3), key _ _ _ (hf _ _ h2), hk]
  · cases h

/-- What every step keeps, the loop keeps. -/
theorem loop_inv (C : Consts K) (n : ℕ) (cfl tend : K) (ty : BCType) (rs : Solver) (time space : ℕ)
    (Q : (ℕ → Col K) → Prop) (hQ : ∀ u s, Q u → step C n cfl ty rs time space u = .ok s → Q s.2) (fuel : ℕ) :
    ∀ (t : K) (u : ℕ → Col K) (l : List (K × (ℕ → Col K))), Q u →
      loop C n cfl tend ty rs time space fuel t u = .ok l → ∀ x ∈ l, Q x.2 := by
  induction fuel with
  | zero =>
    intro t u l _ h x hx
    cases h
    cases hx
  | succ fuel ih =>
    intro t u l hu h
    rw [loop] at h
    split_ifs at h
    · rcases hs : step C n cfl ty rs time space u with e | s
      · rw [hs] at h; cases h
      · rw [hs] at h
        simp only [Except.bind, bind] at h
        rcases hl : loop C n cfl tend ty rs time space fuel (t + s.1) s.2 with e | r
        · rw [hl] at h; cases h
        · rw [hl] at h
          cases h
          intro x hx
          have hq := hQ u s hu hs
          rcases List.mem_cons.1 hx with rfl | hx
          · exact hq
          · exact ih _ _ _ hq hl x hx
    · cases h
      intro x hx
      cases hx

/-- The parts of a successful step. -/
theorem step_ok {C : Consts K} {n : ℕ} {cfl : K} {ty : BCType} {rs : Solver} {time space : ℕ} {u : ℕ → Col K}
    {s : K × (ℕ → Col K)} (h : step C n cfl ty rs time space u = .ok s) :
    ∃ r, rhs C n ty rs space u = .ok r ∧ s.1 = cfl * (1 / (n : K)) / maxSpeed C n r.2 ∧
      advance (rhs C n ty rs space) time s.1 u r.1 = .ok s.2 := by
  unfold step at h
  rcases hr : rhs C n ty rs space u with e | r
  · rw [hr] at h; cases h
  · rw [hr] at h
    simp only [Except.bind, bind] at h
    rcases ha : advance (rhs C n ty rs space) time (cfl * (1 / (n : K)) / maxSpeed C n r.2) u r.1 with e | v
    · rw [ha] at h; cases h
    · rw [ha] at h
      cases h
      exact ⟨r, rfl, rfl, ha⟩

/-- The parts of a successful evaluation. -/
theorem rhs_ok {C : Consts K} {n : ℕ} {ty : BCType} {rs : Solver} {space : ℕ} {u : ℕ → Col K}
    {r : (ℕ → Col K) × (ℤ → Col K)} (h : rhs C n ty rs space u = .ok r) : ∃ f, solve C rs = .ok f ∧
      (1 ≤ space ∧ space ≤ 5) ∧ r.2 = primCols C n ty (embed n u) ∧
      r.1 = slopeOf (1 / (n : K)) fun k => f (traceCols C.tiny space r.2 (markers n ty r.2) (k + 3)).1
        (traceCols C.tiny space r.2 (markers n ty r.2) (k + 4)).2 := by
  unfold rhs cmpFlux at h
  split_ifs at h with hs
  · cases h
  · rcases hf : solve C rs with e | f
    · rw [hf] at h; cases h
    · rw [hf] at h
      cases h
      exact ⟨f, rfl, by omega, rfl, rfl⟩

end FVHOE.Romain
