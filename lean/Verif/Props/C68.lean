import Verif.Proofs.Romain
import Mathlib.Data.Rat.Cast.Order

/-!
C68: the reference one-dimensional solver: limited interpolation, conservation, flat data, times, accepted arguments and
order of its time integrators.
-/

set_option linter.unusedSectionVars false

namespace FVHOE

open Romain

variable {K : Type} [Field K] [LinearOrder K] [IsStrictOrderedRing K]

/-- **C68** (limiter) In a cell next to which the smooth-extremum marker is below one, the interpolated values at both
faces lie between the smallest and the largest of the averages of the cell and its two neighbours. -/
theorem C68_limited (tiny : K) (ht : 0 < tiny) (space : ℕ) (hs : 2 ≤ space) (u alpha : ℤ → K) (i : ℤ)
    (ha : alpha (i - 1) < 1 ∨ alpha i < 1 ∨ alpha (i + 1) < 1) (x : K)
    (hx : x = (trace tiny space u alpha i).1 ∨ x = (trace tiny space u alpha i).2) :
    (x ≤ u (i - 1) ∨ x ≤ u i ∨ x ≤ u (i + 1)) ∧ (u (i - 1) ≤ x ∨ u i ≤ x ∨ u (i + 1) ≤ x) := by
  obtain ⟨M, hM⟩ : ∃ M, M = max (u (i - 1)) (max (u i) (u (i + 1))) := ⟨_, rfl⟩
  obtain ⟨m, hm⟩ : ∃ m, m = min (u (i - 1)) (min (u i) (u (i + 1))) := ⟨_, rfl⟩
  have hMu : u i ≤ M := by rw [hM]; exact le_max_of_le_right (le_max_left _ _)
  have hmu : m ≤ u i := by rw [hm]; exact min_le_of_right_le (min_le_left _ _)
  have hasl : min (min (alpha (i - 1)) (alpha (i + 1))) (alpha i) < 1 := by
    rcases ha with h | h | h
    · exact lt_of_le_of_lt (min_le_of_left_le (min_le_left _ _)) h
    · exact lt_of_le_of_lt (min_le_right _ _) h
    · exact lt_of_le_of_lt (min_le_of_left_le (min_le_right _ _)) h
  obtain ⟨q, hq⟩ : ∃ q, q = theta tiny space u alpha i := ⟨_, rfl⟩
  have hq' : q = min 1 (min (|M - u i| / (|bigmj space u i| + tiny)) (|m - u i| / (|smallmj space u i| + tiny))) := by
    rw [hq]
    unfold theta
    dsimp only
    rw [if_pos hasl, hM, hm]
  have hB : 0 < |bigmj space u i| + tiny := by positivity
  have hS : 0 < |smallmj space u i| + tiny := by positivity
  have hq0 : 0 ≤ q := by
    rw [hq']
    exact le_min zero_le_one (le_min (by positivity) (by positivity))
  have hqB : q * (|bigmj space u i| + tiny) ≤ M - u i := by
    rw [← abs_of_nonneg (sub_nonneg.2 hMu), ← le_div_iff₀ hB, hq']
    exact min_le_of_right_le (min_le_left _ _)
  have hqS : q * (|smallmj space u i| + tiny) ≤ u i - m := by
    rw [← abs_of_nonneg (sub_nonneg.2 hmu), abs_sub_comm (u i) m, ← le_div_iff₀ hS, hq']
    exact min_le_of_right_le (min_le_right _ _)
  -- a value between the extreme interpolated values
  have key : ∀ y, y - u i ≤ bigmj space u i → smallmj space u i ≤ y - u i →
      q * (y - u i) + u i ≤ M ∧ m ≤ q * (y - u i) + u i := by
    intro y h1 h2
    constructor
    · have h3 : y - u i ≤ |bigmj space u i| + tiny := by
        have := le_abs_self (bigmj space u i)
        linarith
      have := mul_le_mul_of_nonneg_left h3 hq0
      linarith
    · have h3 : -(|smallmj space u i| + tiny) ≤ y - u i := by
        have := neg_abs_le (smallmj space u i)
        linarith
      have := mul_le_mul_of_nonneg_left h3 hq0
      linarith
  have hbig : uleft space u i - u i ≤ bigmj space u i ∧ uright space u i - u i ≤ bigmj space u i := by
    unfold bigmj
    split_ifs
    · exact ⟨sub_le_sub_right (le_max_of_le_right (le_max_left _ _)) _,
        sub_le_sub_right (le_max_of_le_right (le_max_right _ _)) _⟩
    · exact ⟨sub_le_sub_right (le_max_left _ _) _, sub_le_sub_right (le_max_right _ _) _⟩
  have hsmall : smallmj space u i ≤ uleft space u i - u i ∧ smallmj space u i ≤ uright space u i - u i := by
    unfold smallmj
    split_ifs
    · exact ⟨sub_le_sub_right (min_le_of_right_le (min_le_left _ _)) _,
        sub_le_sub_right (min_le_of_right_le (min_le_right _ _)) _⟩
    · exact ⟨sub_le_sub_right (min_le_left _ _) _, sub_le_sub_right (min_le_right _ _) _⟩
  have htr : trace tiny space u alpha i = (q * (uleft space u i - u i) + u i, q * (uright space u i - u i) + u i) := by
    unfold trace
    rw [if_pos (by omega), hq]
  have hfin : x ≤ M ∧ m ≤ x := by
    rw [htr] at hx
    rcases hx with rfl | rfl
    · exact key _ hbig.1 hsmall.1
    · exact key _ hbig.2 hsmall.2
  rw [hM, hm] at hfin
  refine ⟨?_, ?_⟩
  · rcases le_max_iff.1 hfin.1 with h | h
    · exact .inl h
    · exact .inr (le_max_iff.1 h)
  · rcases min_le_iff.1 hfin.2 with h | h
    · exact .inl h
    · exact .inr (min_le_iff.1 h)

/-- A jump, where the limiter acts. -/
example : (trace (1 / 10 : ℚ) 3 (fun j => if j < 1 then 0 else 1) (fun _ => 0) 0).1 = 0 ∧
    Romain.uleft 3 (fun j : ℤ => if j < 1 then (0 : ℚ) else 1) 0 = 1 / 3 := by
  constructor <;> norm_num [trace, theta, bigmj, smallmj, Romain.uleft, Romain.uright, umiddle]

/-- The total of one evaluation with periodic ends vanishes. -/
theorem C68_rhs (C : Consts K) (n : ℕ) (hn : 4 ≤ n) (rs : Solver) (space : ℕ) (u : ℕ → Col K)
    (r : (ℕ → Col K) × (ℤ → Col K)) (h : rhs C n .periodic rs space u = .ok r) :
    ∑ i ∈ Finset.range n, r.1 i = 0 := by
  obtain ⟨f, -, -, hw, e⟩ := rhs_ok h
  have hseam : ∀ j, 0 ≤ j → j < 8 → r.2 (j + n) = r.2 j := by
    intro j h0 h1
    rw [hw]
    unfold primCols
    rw [setBC_seam hn _ j h0 h1]
  have hm : ∀ j, 0 ≤ j → j < 8 → markers n .periodic r.2 (j + n) = markers n .periodic r.2 j :=
    fun j => markers_seam hn _ j
  have htr : ∀ i : ℤ, 2 ≤ i → i ≤ 5 → traceCols C.tiny space r.2 (markers n .periodic r.2) (n + i) =
      traceCols C.tiny space r.2 (markers n .periodic r.2) i := by
    intro i h0 h1
    refine traceCols_congr _ _ _ _ _ _ _ _ (fun k h2 h3 => ?_) fun k h2 h3 => ?_
    · rw [show (n : ℤ) + i + k = (i + k) + n by ring]
      exact hseam _ (by omega) (by omega)
    · rw [show (n : ℤ) + i + k = (i + k) + n by ring]
      exact hm _ (by omega) (by omega)
  rw [e]
  simp only [slopeOf_eq]
  rw [← Finset.smul_sum]
  have e3 := htr 3 (by omega) (by omega)
  have e4 := htr 4 (by omega) (by omega)
  have tele := Finset.sum_range_sub (fun k : ℕ => f (traceCols C.tiny space r.2 (markers n .periodic r.2) (k + 3)).1
        (traceCols C.tiny space r.2 (markers n .periodic r.2) (k + 4)).2) n
  push_cast at tele
  rw [tele, e3, e4, sub_self, smul_zero]

/-- **C68** (conservation) With periodic ends and at least four cells, every state returned by the reference solver has
the totals of the initial one, row by row, for every solver, interpolation and time integrator. -/
theorem C68_conservation (C : Consts K) (nitermax n : ℕ) (hn : 4 ≤ n) (tend cfl : K) (ic : ICType) (rs : Solver)
    (time space : ℕ) (l : List (K × (ℕ → Col K))) (h : weno C nitermax n tend cfl ic .periodic rs time space = .ok l) :
    ∃ u rest, l = (0, u) :: rest ∧ ∀ x ∈ l, ∀ row ∈ [Col.r0, Col.r1, Col.r2],
      ∑ i ∈ Finset.range n, row (x.2 i) = ∑ i ∈ Finset.range n, row (u i) := by
  unfold weno at h
  rw [if_neg (by omega)] at h
  rcases hu : setIc C ic n (fun i => (1 / 2) * (((i : K) + 1) / n + (i : K) / n)) with e | u
  · rw [hu] at h; cases h
  · rw [hu] at h
    simp only [Except.bind, bind] at h
    rcases hl : loop C n cfl tend .periodic rs time space nitermax 0 u with e | r
    · rw [hl] at h; cases h
    · rw [hl] at h
      cases h
      refine ⟨u, r, rfl, ?_⟩
      let ℓ : (ℕ → Col K) →ₗ[K] Col K :=
        { toFun := fun v => ∑ i ∈ Finset.range n, v i
          map_add' := fun a b => Finset.sum_add_distrib
          map_smul' := fun x a => (Finset.smul_sum (r := x) (f := a) (s := Finset.range n)).symm }
      have inv := loop_inv C n cfl tend .periodic rs time space (fun v => ℓ v = ℓ u) (fun v s hv hs => by
        obtain ⟨r, hr, -, ha⟩ := step_ok hs
        exact (advance_inv ℓ _ (fun v r h => C68_rhs C n hn rs space v r h) time s.1 v r.1 s.2
          (C68_rhs C n hn rs space v r hr) ha).trans hv) nitermax 0 u r rfl hl
      have all : ∀ x ∈ (0, u) :: r, ℓ x.2 = ℓ u := by
        intro x hx
        rcases List.mem_cons.1 hx with rfl | hx
        · rfl
        · exact inv x hx
      intro x hx row hrow
      have e := all x hx
      have hk : ∃ k, ∀ a : Col K, rowMap k a = row a := by
        simp only [List.mem_cons, List.not_mem_nil, or_false] at hrow
        rcases hrow with rfl | rfl | rfl
        · exact ⟨0, fun _ => rfl⟩
        · exact ⟨1, fun _ => rfl⟩
        · exact ⟨2, fun _ => rfl⟩
      obtain ⟨k, hk⟩ := hk
      have e' := congrArg (rowMap k) e
      change rowMap k (∑ i ∈ Finset.range n, x.2 i) = rowMap k (∑ i ∈ Finset.range n, u i) at e'
      rw [map_sum, map_sum] at e'
      simpa only [hk] using e'

/-- **C68** (flat data) A state equal in all cells stays as it is, to the last step, with free ends or (from four cells on)
periodic ends. -/
theorem C68_flat (C : Consts K) (n : ℕ) (cfl tend : K) (ty : BCType)
    (hty : (ty = .free ∧ 1 ≤ n) ∨ (ty = .periodic ∧ 4 ≤ n)) (rs : Solver) (time space fuel : ℕ) (t : K) (a : Col K)
    (u : ℕ → Col K) (hu : ∀ i < n, u i = a) (l : List (K × (ℕ → Col K)))
    (h : loop C n cfl tend ty rs time space fuel t u = .ok l) (x : K × (ℕ → Col K)) (hx : x ∈ l) (i : ℕ) (hi : i < n) :
    x.2 i = a := by
  have hcols : ∀ v : ℕ → Col K, (∀ i < n, v i = a) → ∀ j : ℤ, 0 ≤ j → j < n + 8 → setBC n ty (embed n v) j = a := by
    intro v hv
    have hc : ∀ j : ℤ, 4 ≤ j → j < n + 4 → embed n v j = a := by
      intro j h0 h1
      unfold embed
      rw [if_pos ⟨h0, h1⟩]
      exact hv _ (by omega)
    intro j h0 h1
    rcases hty with ⟨rfl, hn⟩ | ⟨rfl, hn⟩
    · rw [setBC_free hn]
      split_ifs
      · exact hc _ (by omega) (by omega)
      · exact hc _ (by omega) (by omega)
      · exact hc _ (by omega) (by omega)
    · rw [setBC_periodic hn]
      split_ifs
      · exact hc _ (by omega) (by omega)
      · exact hc _ (by omega) (by omega)
      · exact hc _ (by omega) (by omega)
  have hrhs : ∀ v r, (∀ i < n, v i = a) → rhs C n ty rs space v = .ok r → ∀ i < n, r.1 i = 0 := by
    intro v r hv hr i hi
    obtain ⟨f, -, hs, hw, e⟩ := rhs_ok hr
    obtain ⟨w, hwa⟩ : ∃ w, w = consToPrim C.gamma a := ⟨_, rfl⟩
    have hr2 : ∀ j : ℤ, 0 ≤ j → j < n + 8 → r.2 j = w := by
      intro j h0 h1
      rw [hw, hwa]
      unfold primCols
      rw [hcols v hv j h0 h1]
    have htr : ∀ j : ℤ, 2 ≤ j → j < n + 6 → traceCols C.tiny space r.2 (markers n ty r.2) j = (w, w) := by
      intro j h0 h1
      have : ∀ k, trace C.tiny space (rowsOf r.2 k) (rowsOf (markers n ty r.2) k) j = (rowMap k w, rowMap k w) := by
        intro k
        refine trace_flat _ _ hs.1 hs.2 _ _ _ _ fun m h2 h3 => ?_
        rw [rowsOf_apply, hr2 _ (by omega) (by omega)]
      unfold traceCols
      simp only [this]
      rfl
    rw [e, slopeOf_eq]
    rw [htr _ (by omega) (by omega), htr _ (by omega) (by omega), htr _ (by omega) (by omega),
      htr _ (by omega) (by omega), sub_self, smul_zero]
  refine loop_inv C n cfl tend ty rs time space (fun v => ∀ i < n, v i = a) (fun v s hv hs => ?_) fuel t u l hu h x hx i hi
  obtain ⟨dt, v'⟩ := s
  obtain ⟨r, hr, -, ha⟩ := step_ok hs
  dsimp only at ha ⊢
  have key : ∀ (y : K) (b c : ℕ → Col K), (∀ i < n, c i = 0) → ∀ i < n, (b i).add ((c i).smul y) = b i := by
    intro y b c hc i hi
    rw [add_eq, smul_eq, hc i hi, smul_zero, add_zero]
  have keep : ∀ (y : K) (c : ℕ → Col K), (∀ i < n, c i = 0) → ∀ i < n, (v i).add ((c i).smul y) = a := by
    intro y c hc i hi
    rw [key y v c hc i hi, hv i hi]
  have h1 := hrhs v r hv hr
  unfold advance at ha
  split at ha
  · cases ha
    exact keep _ _ h1
  · rcases h2 : rhs C n ty rs space (fun i => (v i).add ((r.1 i).smul (dt / 2))) with e | r2
    · rw [h2] at ha; cases ha
    · rw [h2] at ha
      cases ha
      exact keep _ _ (hrhs _ _ (keep _ _ h1) h2)
  · rcases h2 : rhs C n ty rs space (fun i => (v i).add ((r.1 i).smul (dt / 3))) with e | r2
    · rw [h2] at ha; cases ha
    · rw [h2] at ha
      simp only [Except.bind, bind] at ha
      have h2' := hrhs _ _ (keep _ _ h1) h2
      rcases h3 : rhs C n ty rs space (fun i => (v i).add ((r2.1 i).smul (2 * dt / 3))) with e | r3
      · rw [h3] at ha; cases ha
      · rw [h3] at ha
        cases ha
        have h3' := hrhs _ _ (keep _ _ h2') h3
        refine keep _ (fun i => (r.1 i).add ((r3.1 i).smul 3)) fun i hi => ?_
        rw [key _ _ _ h3' i hi, h1 i hi]
  · rcases h2 : rhs C n ty rs space (fun i => (v i).add ((r.1 i).smul (dt / 2))) with e | r2
    · rw [h2] at ha; cases ha
    · rw [h2] at ha
      simp only [Except.bind, bind] at ha
      have h2' := hrhs _ _ (keep _ _ h1) h2
      rcases h3 : rhs C n ty rs space (fun i => (v i).add ((r2.1 i).smul (dt / 2))) with e | r3
      · rw [h3] at ha; cases ha
      · rw [h3] at ha
        simp only [Except.bind] at ha
        have h3' := hrhs _ _ (keep _ _ h2') h3
        rcases h4 : rhs C n ty rs space (fun i => (v i).add ((r3.1 i).smul dt)) with e | r4
        · rw [h4] at ha; cases ha
        · rw [h4] at ha
          cases ha
          have h4' := hrhs _ _ (keep _ _ h3') h4
          refine keep _ (fun i => (((r.1 i).add ((r2.1 i).smul 2)).add ((r3.1 i).smul 2)).add (r4.1 i)) fun i hi => ?_
          simp only [add_eq, smul_eq, h1 i hi, h2' i hi, h3' i hi, h4' i hi, smul_zero, add_zero]
  · cases ha

/-! ## Times and arguments -/

theorem loop_times (C : Consts K) (n : ℕ) (cfl tend : K) (ty : BCType) (rs : Solver) (time space : ℕ) (fuel : ℕ) :
    ∀ (t : K) (u : ℕ → Col K) (l : List (K × (ℕ → Col K))), loop C n cfl tend ty rs time space fuel t u = .ok l →
      ∃ init last, (t, u) :: l = init ++ [last] ∧ (∀ x ∈ init, x.1 < tend) ∧ (tend ≤ last.1 ∨ l.length = fuel) := by
  induction fuel with
  | zero =>
    intro t u l h
    cases h
    exact ⟨[], (t, u), rfl, by simp, .inr rfl⟩
  | succ fuel ih =>
    intro t u l h
    rw [loop] at h
    split_ifs at h with ht
    · rcases hs : step C n cfl ty rs time space u with e | s
      · rw [hs] at h; cases h
      · rw [hs] at h
        simp only [Except.bind, bind] at h
        rcases hl : loop C n cfl tend ty rs time space fuel (t + s.1) s.2 with e | r
        · rw [hl] at h; cases h
        · rw [hl] at h
          cases h
          obtain ⟨init, last, e1, e2, e3⟩ := ih _ _ _ hl
          refine ⟨(t, u) :: init, last, ?_, ?_, ?_⟩
          · rw [e1]; rfl
          · intro x hx
            rcases List.mem_cons.1 hx with rfl | hx
            · exact ht
            · exact e2 x hx
          · rw [List.length_cons]
            rcases e3 with h | h
            · exact .inl h
            · exact .inr (by rw [h])
    · cases h
      exact ⟨[], (t, u), rfl, by simp, .inl (not_lt.1 ht)⟩

/-- **C68** (times) All states but the last are before the end time; the last one is not, unless the number of
steps allowed was used up. -/
theorem C68_times (C : Consts K) (nitermax n : ℕ) (tend cfl : K) (ic : ICType) (ty : BCType) (rs : Solver) (time space : ℕ)
    (l : List (K × (ℕ → Col K))) (h : weno C nitermax n tend cfl ic ty rs time space = .ok l) :
    ∃ init last, l = init ++ [last] ∧ (∀ x ∈ init, x.1 < tend) ∧ (tend ≤ last.1 ∨ l.length = nitermax + 1) := by
  unfold weno at h
  split_ifs at h
  rcases hu : setIc C ic n (fun i => (1 / 2) * (((i : K) + 1) / n + (i : K) / n)) with e | u
  · rw [hu] at h; cases h
  · rw [hu] at h
    simp only [Except.bind, bind] at h
    rcases hl : loop C n cfl tend ty rs time space nitermax 0 u with e | r
    · rw [hl] at h; cases h
    · rw [hl] at h
      cases h
      obtain ⟨init, last, e1, e2, e3⟩ := loop_times C n cfl tend ty rs time space nitermax 0 u r hl
      refine ⟨init, last, e1, e2, ?_⟩
      rw [List.length_cons]
      rcases e3 with h | h
      · exact .inl h
      · exact .inr (by rw [h])

theorem rhs_iff (C : Consts K) (n : ℕ) (ty : BCType) (rs : Solver) (space : ℕ) (u : ℕ → Col K) :
    (∃ r, rhs C n ty rs space u = .ok r) ↔ (rs = .llf ∨ rs = .hllc) ∧ 1 ≤ space ∧ space ≤ 5 := by
  unfold rhs cmpFlux
  by_cases hs : space = 0 ∨ 5 < space
  · rw [if_pos hs]
    exact ⟨fun ⟨_, h⟩ => (by cases h), fun ⟨_, h⟩ => by omega⟩
  · rw [if_neg hs]
    have : 1 ≤ space ∧ space ≤ 5 := by omega
    cases rs
    · exact ⟨fun _ => ⟨.inl rfl, this⟩, fun _ => ⟨_, rfl⟩⟩
    · exact ⟨fun ⟨_, h⟩ => (by cases h), fun ⟨h, _⟩ => by rcases h with h | h <;> cases h⟩
    · exact ⟨fun _ => ⟨.inr rfl, this⟩, fun _ => ⟨_, rfl⟩⟩
    · exact ⟨fun ⟨_, h⟩ => (by cases h), fun ⟨h, _⟩ => by rcases h with h | h <;> cases h⟩
    · exact ⟨fun ⟨_, h⟩ => (by cases h), fun ⟨h, _⟩ => by rcases h with h | h <;> cases h⟩

theorem advance_iff (f : (ℕ → Col K) → Except PyErr ((ℕ → Col K) × (ℤ → Col K))) (hf : ∀ v, ∃ r, f v = .ok r)
    (time : ℕ) (dt : K) (u k1 : ℕ → Col K) : (∃ v, advance f time dt u k1 = .ok v) ↔ 1 ≤ time ∧ time ≤ 4 := by
  choose g hg using hf
  have hcase : time = 0 ∨ time = 1 ∨ time = 2 ∨ time = 3 ∨ time = 4 ∨ ∃ m, time = m + 5 := by
    rcases Nat.lt_or_ge time 5 with h | h
    · omega
    · exact .inr (.inr (.inr (.inr (.inr ⟨time - 5, by omega⟩))))
  rcases hcase with rfl | rfl | rfl | rfl | rfl | ⟨m, rfl⟩
  · exact ⟨fun ⟨_, h⟩ => (by cases h), fun h => by omega⟩
  · exact ⟨fun _ => by omega, fun _ => ⟨_, rfl⟩⟩
  · refine ⟨fun _ => by omega, fun _ => ?_⟩
    simp only [advance, hg, Except.bind, bind]
    exact ⟨_, rfl⟩
  · refine ⟨fun _ => by omega, fun _ => ?_⟩
    simp only [advance, hg, Except.bind, bind]
    exact ⟨_, rfl⟩
  · refine ⟨fun _ => by omega, fun _ => ?_⟩
    simp only [advance, hg, Except.bind, bind]
    exact ⟨_, rfl⟩
  · exact ⟨fun ⟨_, h⟩ => (by cases h), fun h => by omega⟩

/-- **C68** (arguments) A call with at least one cell, a positive end time and a step allowed returns exactly when the
solver is llf or hllc, `space` is 1 to 5, `time` is 1 to 4 and, for the Sedov start, there are three cells. -/
theorem C68_accepts (C : Consts K) (nitermax n : ℕ) (hm : 1 ≤ nitermax) (hn : 1 ≤ n) (tend cfl : K) (hT : 0 < tend)
    (ic : ICType) (ty : BCType) (rs : Solver) (time space : ℕ) :
    (∃ l, weno C nitermax n tend cfl ic ty rs time space = .ok l) ↔
      (rs = .llf ∨ rs = .hllc) ∧ (1 ≤ space ∧ space ≤ 5) ∧ (1 ≤ time ∧ time ≤ 4) ∧ (ic = .sedov → 3 ≤ n) := by
  have hic : ∀ x : ℕ → K, (∃ u, setIc C ic n x = .ok u) ↔ (ic = .sedov → 3 ≤ n) := by
    intro x
    unfold setIc icPrim
    cases ic
    case sedov =>
      dsimp only
      by_cases h : n ≤ n / 2 + 1
      · rw [if_pos h]
        exact ⟨fun ⟨_, h⟩ => (by cases h), fun h' => by have := h' rfl; omega⟩
      · rw [if_neg h]
        exact ⟨fun _ _ => by omega, fun _ => ⟨_, rfl⟩⟩
    all_goals exact ⟨fun _ h => (by cases h), fun _ => ⟨_, rfl⟩⟩
  have hstep : ∀ u, (∃ s, step C n cfl ty rs time space u = .ok s) ↔
      (rs = .llf ∨ rs = .hllc) ∧ (1 ≤ space ∧ space ≤ 5) ∧ (1 ≤ time ∧ time ≤ 4) := by
    intro u
    constructor
    · rintro ⟨s, hs⟩
      obtain ⟨r, hr, -, ha⟩ := step_ok hs
      have h1 := (rhs_iff C n ty rs space u).1 ⟨r, hr⟩
      exact ⟨h1.1, h1.2, (advance_iff _ (fun v => (rhs_iff C n ty rs space v).2 h1) time s.1 u r.1).1 ⟨_, ha⟩⟩
    · rintro ⟨h1, h2, h3⟩
      have hf : ∀ v, ∃ r, rhs C n ty rs space v = .ok r := fun v => (rhs_iff C n ty rs space v).2 ⟨h1, h2⟩
      obtain ⟨r, hr⟩ := hf u
      obtain ⟨v, hv⟩ := (advance_iff _ hf time (cfl * (1 / (n : K)) / maxSpeed C n r.2) u r.1).2 h3
      refine ⟨(cfl * (1 / (n : K)) / maxSpeed C n r.2, v), ?_⟩
      unfold step
      simp only [hr, Except.bind, bind, hv]
      rfl
  have hloop : (∀ u, ∃ s, step C n cfl ty rs time space u = .ok s) →
      ∀ fuel t u, ∃ l, loop C n cfl tend ty rs time space fuel t u = .ok l := by
    intro hs fuel
    induction fuel with
    | zero => exact fun _ _ => ⟨_, rfl⟩
    | succ fuel ih =>
      intro t u
      rw [loop]
      split_ifs
      · obtain ⟨s, e⟩ := hs u
        obtain ⟨l, e'⟩ := ih (t + s.1) s.2
        simp only [e, e', Except.bind, bind]
        exact ⟨_, rfl⟩
      · exact ⟨_, rfl⟩
  unfold weno
  rw [if_neg (by omega)]
  constructor
  · rintro ⟨l, h⟩
    rcases hu : setIc C ic n (fun i => (1 / 2) * (((i : K) + 1) / n + (i : K) / n)) with e | u
    · rw [hu] at h; cases h
    · rw [hu] at h
      simp only [Except.bind, bind] at h
      have h4 := (hic _).1 ⟨u, hu⟩
      obtain ⟨m, rfl⟩ : ∃ m, nitermax = m + 1 := ⟨nitermax - 1, by omega⟩
      rw [loop, if_pos hT] at h
      rcases hs : step C n cfl ty rs time space u with e | s
      · rw [hs] at h; cases h
      · obtain ⟨h1, h2, h3⟩ := (hstep u).1 ⟨s, hs⟩
        exact ⟨h1, h2, h3, h4⟩
  · rintro ⟨h1, h2, h3, h4⟩
    obtain ⟨u, hu⟩ := (hic fun i => (1 / 2) * (((i : K) + 1) / n + (i : K) / n)).2 h4
    obtain ⟨l, hl⟩ := hloop (fun u => (hstep u).2 ⟨h1, h2, h3⟩) nitermax 0 u
    simp only [hu, hl, Except.bind, bind]
    exact ⟨_, rfl⟩

/-- **C68** (order) On a linear problem with right-hand side `A`, a step of the integrator `time = s` is the Taylor
polynomial of degree `s` of the exponential, applied to the state. -/
theorem C68_taylor (A : Module.End K (ℕ → Col K)) (w : (ℕ → Col K) → ℤ → Col K) (dt : K) (u : ℕ → Col K) (s : ℕ)
    (h1 : 1 ≤ s) (h4 : s ≤ 4) :
    advance (fun v => .ok (A v, w v)) s dt u (A u) =
      .ok (∑ k ∈ Finset.range (s + 1), (dt ^ k / (k.factorial : K)) • (A ^ k) u) := by
  have key : ∀ (x : K) (a b : ℕ → Col K), (fun i => (a i).add ((b i).smul x)) = a + x • b := by
    intro x a b
    funext i
    rw [add_eq, smul_eq]
    rfl
  have : s = 1 ∨ s = 2 ∨ s = 3 ∨ s = 4 := by omega
  rcases this with rfl | rfl | rfl | rfl
  · simp only [advance, key, Finset.sum_range_succ, Finset.sum_range_zero, pow_zero, pow_one, Nat.factorial]
    simp
  · simp only [advance, Except.bind, bind, key]
    simp only [Finset.sum_range_succ, Finset.sum_range_zero, Nat.factorial, pow_succ, pow_zero, map_add, map_smul,
      Module.End.mul_apply, Module.End.one_apply]
    push_cast
    refine congrArg Except.ok ?_
    module
  · simp only [advance, Except.bind, bind, key]
    simp only [Finset.sum_range_succ, Finset.sum_range_zero, Nat.factorial, pow_succ, pow_zero, map_add, map_smul,
      Module.End.mul_apply, Module.End.one_apply]
    push_cast
    refine congrArg Except.ok ?_
    module
  · simp only [advance, Except.bind, bind, key]
    have e : ∀ a b c d : ℕ → Col K, (fun i => (((a i).add ((b i).smul 2)).add ((c i).smul 2)).add (d i)) =
        a + (2 : K) • b + (2 : K) • c + d := by
      intro a b c d
      funext i
      simp only [add_eq, smul_eq]
      rfl
    rw [e]
    simp only [Finset.sum_range_succ, Finset.sum_range_zero, Nat.factorial, pow_succ, pow_zero, map_add, map_smul,
      Module.End.mul_apply, Module.End.one_apply]
    push_cast
    refine congrArg Except.ok ?_
    module

/-- The published shock tubes: where the diaphragm stands, and density, velocity and pressure to its left and right
(Sod 1978; Toro, Riemann Solvers and Numerical Methods, table of test problems). -/
def tubes : List (ICType × ℚ × (ℚ × ℚ × ℚ) × (ℚ × ℚ × ℚ)) :=
  [(.sod, 0.5, (1, 0, 1), (0.125, 0, 0.1)),
   (.toro1, 0.3, (1, 0.75, 1), (0.125, 0, 0.1)),
   (.toro2, 0.5, (1, -2, 0.4), (1, 2, 0.4)),
   (.toro3, 0.5, (1, 0, 1000), (1, 0, 0.01))]

/-- **C68** (starts) The start of a shock tube has, in terms of density, velocity and pressure, the published states on both
sides of the diaphragm; the point explosion has one unit of energy at rest in the two cells at the middle besides a uniform
density. -/
theorem C68_starts (C : Consts K) (hg : C.gamma ≠ 1) (n : ℕ) (x : ℕ → K) :
    (∀ T ∈ tubes, ∃ u, setIc C T.1 n x = .ok u ∧ ∀ i, consToPrim C.gamma (u i) =
      if x i < (T.2.1 : K) then ⟨(T.2.2.1.1 : K), (T.2.2.1.2.1 : K), (T.2.2.1.2.2 : K)⟩
      else ⟨(T.2.2.2.1 : K), (T.2.2.2.2.1 : K), (T.2.2.2.2.2 : K)⟩) ∧
    (3 ≤ n → ∃ u, setIc C .sedov n x = .ok u ∧ (∀ i, (u i).r0 = 1 ∧ (u i).r1 = 0) ∧
      (u (n / 2)).r2 * (1 / n) + (u (n / 2 + 1)).r2 * (1 / n) = 1 ∧
      ∀ i, i ≠ n / 2 → i ≠ n / 2 + 1 → (u i).r2 * (C.gamma - 1) = 1 / 100000) := by
  have hg' : C.gamma - 1 ≠ 0 := sub_ne_zero.2 hg
  have hround : ∀ w : Col K, w.r0 ≠ 0 → consToPrim C.gamma (primToCons C.gamma w) = w := by
    rintro ⟨a, b, c⟩ ha
    simp only at ha
    simp only [consToPrim, primToCons, Col.mk.injEq, true_and]
    constructor <;> field_simp
    ring
  refine ⟨fun T hT => ?_, fun hn => ?_⟩
  · simp only [tubes, List.mem_cons, List.not_mem_nil, or_false] at hT
    rcases hT with rfl | rfl | rfl | rfl <;> refine ⟨_, rfl, fun i => ?_⟩ <;>
      rw [hround _ (by beta_reduce; split_ifs <;> norm_num)] <;> congr 1 <;> norm_num
  · have hn0 : (n : K) ≠ 0 := by exact_mod_cast (by omega : n ≠ 0)
    have hlt : ¬ n ≤ n / 2 + 1 := by omega
    refine ⟨_, by rw [setIc, icPrim, if_neg hlt]; rfl, fun i => ⟨rfl, by simp [primToCons]⟩, ?_, ?_⟩
    · simp only [primToCons, if_true, true_or, or_true]
      field_simp
      ring
    · intro i h1 h2
      simp only [primToCons, h1, h2, or_self, if_false]
      field_simp
      ring

/-- The constants of the file over the rationals, with a placeholder for the roots. -/
def someConsts : Consts ℚ := ⟨14 / 10, 1 / 10 ^ 15, fun x => x, fun _ => 0⟩

/-- Calls that meet the hypotheses: Sod's tube with periodic ends, hllc, four time stages and fifth order in space. -/
example : ∃ l, weno someConsts 100000 100 (1 / 10) (8 / 10) .sod .periodic .hllc 4 5 = .ok l :=
  (C68_accepts _ _ _ (by norm_num) (by norm_num) _ _ (by norm_num) _ _ _ _ _).2
    ⟨.inr rfl, by omega, by omega, fun h => by cases h⟩

end FVHOE
