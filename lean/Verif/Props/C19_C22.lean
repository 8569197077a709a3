import Mathlib.Algebra.BigOperators.Field
import Mathlib.Algebra.Polynomial.BigOperators
import Verif.Proofs.Weights

/-!
C19 (conservative interpolation), C20 (transverse reconstruction), C21 (stencil sweeps), C22
(conversion between cell averages and cell centres).

The cell average of a polynomial `q` over a cell `[a, b]` is expressed by an antiderivative: if
`q = P.derivative` it is `(P(b) - P(a)) / (b - a)`.
-/

set_option linter.unusedSectionVars false

namespace FVHOE

open Polynomial

variable {K : Type} [Field K] [CharZero K] {V : Type} [AddCommGroup V] [Module K V]

/-! ## Helper facts -/

theorem rightWeights_ok {p : ℕ} (hp : p ≤ 8) :
    ∃ ws, (leftWeights p).map List.reverse = .ok ws ∧ ws.length = 2 * rad p + 1 ∧
      ∀ m < p + 2, wsum ℚ ws (-(rad p : ℤ)) (fun k => (k + 1 / 2 : ℚ) ^ m - (k - 1 / 2 : ℚ) ^ m) =
        m * (1 / 2) ^ (m - 1) := by
  interval_cases p <;> exact ⟨_, rfl, rfl, by decide +kernel⟩

/-- A face or centre position and its coordinate within a cell of unit width centred at 0. -/
inductive Pos where
  | l | c | r

def Pos.str : Pos → String
  | .l => "l" | .c => "c" | .r => "r"

def Pos.coord : Pos → ℚ
  | .l => -1 / 2 | .c => 0 | .r => 1 / 2

theorem conservativeWeights_ok {p : ℕ} (hp : p ≤ 8) (pos : Pos) :
    ∃ ws, conservativeWeights p pos.str = .ok ws ∧ ws.length = 2 * rad p + 1 ∧
      ∀ m < p + 2, wsum ℚ ws (-(rad p : ℤ)) (fun k => (k + 1 / 2 : ℚ) ^ m - (k - 1 / 2 : ℚ) ^ m) =
        m * pos.coord ^ (m - 1) := by
  cases pos with
  | l =>
    obtain ⟨ws, h1, h2, h3⟩ := leftWeights_ok hp
    exact ⟨ws, by simpa [conservativeWeights, Pos.str] using h1, h2, h3⟩
  | c =>
    obtain ⟨ws, h1, h2, _, h3⟩ := centerWeights_ok hp
    exact ⟨ws, by simpa [conservativeWeights, Pos.str] using h1, h2, h3⟩
  | r =>
    obtain ⟨ws, h1, h2, h3⟩ := rightWeights_ok hp
    exact ⟨ws, by simpa [conservativeWeights, Pos.str] using h1, h2, h3⟩

theorem rep_self (u : Arr V) : Rep u 0 (fun d => (u.shape d : ℤ)) u.get :=
  ⟨fun d => by simp, fun j _ => by simp⟩

theorem sweepLoop_spec (u : Arr V) (d : Fin 3) (r : ℕ) (ws : List ℚ) (hl : ws.length = 2 * r + 1)
    (hr : 2 * r ≤ u.shape d) :
    ∃ out, sweepLoop K u ws d = .ok out ∧
      out.shape = Function.update u.shape d (u.shape d - 2 * r) ∧
      ∀ j, out.InB j → out.get j = wsum K ws 0 (fun k => u.get (j + Pi.single d k)) := by
  obtain ⟨out, e, ho⟩ := rep_sweepLoop (K := K) (rep_self u) d r ws hl (by simp; omega)
  refine ⟨out, e, ?_, ?_⟩
  · funext d'
    have := ho.1 d'
    by_cases hdd : d' = d
    · subst hdd
      simp only [Pi.sub_apply, Pi.add_apply, Pi.single_eq_same, Pi.zero_apply,
        Function.update_self] at *
      omega
    · simp only [Pi.sub_apply, Pi.add_apply, Pi.single_eq_of_ne hdd, Pi.zero_apply,
        Function.update_of_ne hdd] at *
      omega
  · intro j hj
    rw [ho.2 j hj]
    unfold lsweep
    have : (0 : ℤ) = -(r : ℤ) + r := by omega
    rw [this, wsum_shift]
    apply wsum_congr
    intro k
    congr 1
    rw [Pi.single_add]
    abel

theorem sweep_fold_small (u : Arr V) (d : Fin 3) (l : List (ℚ × (ℤ × ℤ)))
    (hs : ∀ x ∈ l, (u.cut d x.2.1 x.2.2).shape = Function.update u.shape d 0) :
    ∀ out : Arr V, out.shape = Function.update u.shape d 0 →
    ∃ out', l.foldlM (fun out (w, c) =>
        out.addInPlace ((u.cut d c.1 c.2).map fun x => (w : K) • x)) out = .ok out' ∧
      out'.shape = Function.update u.shape d 0 := by
  induction l with
  | nil => intro out ho; exact ⟨out, rfl, ho⟩
  | cons x l ih =>
    intro out ho
    obtain ⟨w, c⟩ := x
    have hc := hs (w, c) (by simp)
    obtain ⟨o1, e, ho1⟩ : ∃ o1, out.addInPlace ((u.cut d c.1 c.2).map fun x => (w : K) • x) = .ok o1
        ∧ o1.shape = Function.update u.shape d 0 := by
      refine ⟨_, if_pos ?_, ho⟩
      intro d'
      left
      simp only [Arr.map]
      rw [hc, ho]
    obtain ⟨o, h1, h2⟩ := ih (fun y hy => hs y (by simp [hy])) o1 ho1
    refine ⟨o, ?_, h2⟩
    rw [List.foldlM_cons]
    change (out.addInPlace ((u.cut d c.1 c.2).map fun x => (w : K) • x) >>= fun o' => _) = _
    rw [e]
    exact h1

theorem sweepLoop_small (u : Arr V) (d : Fin 3) (r : ℕ) (ws : List ℚ) (hl : ws.length = 2 * r + 1)
    (hr : u.shape d < 2 * r) :
    ∃ out, sweepLoop K u ws d = .ok out ∧ out.shape = Function.update u.shape d 0 := by
  have hcut : ∀ i : ℕ, i < 2 * r + 1 →
      (u.cut d (i : ℤ) (-(((2 * r + 1 : ℕ) : ℤ) - 1) + i)).shape = Function.update u.shape d 0 := by
    intro i hi
    simp only [Arr.cut, Arr.slice]
    congr 1
    have e1 : sliceStart (u.shape d) (orNone (i : ℤ)) = min i (u.shape d) := by
      unfold orNone
      split
      · rename_i h; simp [sliceStart]; omega
      · simp only [sliceStart, pyBound]
        rw [if_neg (by omega)]; simp
    rw [e1]
    unfold orNone
    split
    · rename_i h; simp only [sliceStop]; omega
    · simp only [sliceStop, pyBound]
      rw [if_pos (by push_cast; omega)]
      omega
  have hcuts : symmetricCuts ws.length = (List.range' 0 ws.length).map
      fun i : ℕ => ((i : ℤ), -(((2 * r + 1 : ℕ) : ℤ) - 1) + i) := by
    unfold symmetricCuts
    rw [List.range_eq_range', hl]
  have hmem : ∀ c ∈ symmetricCuts ws.length, (u.cut d c.1 c.2).shape =
      Function.update u.shape d 0 := by
    intro c hc
    rw [hcuts, List.mem_map] at hc
    obtain ⟨i, hi, rfl⟩ := hc
    rw [List.mem_range'_1, hl] at hi
    exact hcut i (by omega)
  unfold sweepLoop
  cases hsc : symmetricCuts ws.length with
  | nil =>
    have := congrArg List.length hsc
    simp [symmetricCuts, hl] at this
  | cons c cs =>
    rw [hsc] at hmem
    simp only
    refine sweep_fold_small u d _ ?_ _ ?_
    · intro x hx
      exact hmem x.2 (List.of_mem_zip hx).2
    · exact hmem c (by simp)

/-! ## C21 -/

/-- C21. For every degree up to 8 the sweep succeeds on arrays of every size (also too small ones),
shortens the swept axis by `2⌈p/2⌉` and no other, and entry `j` is the weighted sum of the input
entries `j, …, j + 2⌈p/2⌉` along the axis. -/
theorem C21_sweep (u : Arr V) (mode : SweepMode) (p : ℕ) (hp : p ≤ 8) (d : Fin 3) (pos : String)
    (hpos : mode = .reconstruction ∨ mode = .interpolation ∧ (pos = "l" ∨ pos = "c" ∨ pos = "r")) :
    ∃ (ws : List ℚ) (out : Arr V),
      sweepWeights mode p pos = .ok ws ∧
      ws.length = 2 * ((p + 1) / 2) + 1 ∧
      stencilSweep K u mode p d pos = .ok out ∧
      (∀ d', out.shape d' = if d' = d then u.shape d - 2 * ((p + 1) / 2) else u.shape d') ∧
      ∀ j : Ix, (∀ d', 0 ≤ j d' ∧ j d' < out.shape d') →
        out.get j = ∑ k : Fin ws.length, ((ws[k] : ℚ) : K) • u.get (j + Pi.single d ((k : ℕ) : ℤ)) := by
  obtain ⟨ws, hw, hl⟩ : ∃ ws, sweepWeights mode p pos = .ok ws ∧ ws.length = 2 * rad p + 1 := by
    rcases hpos with h | ⟨h, h' | h' | h'⟩ <;> subst h
    · obtain ⟨ws, h1, h2, _⟩ := transverseWeights_ok hp
      exact ⟨ws, h1, h2⟩
    · subst h'; obtain ⟨ws, h1, h2, _⟩ := conservativeWeights_ok hp .l
      exact ⟨ws, h1, h2⟩
    · subst h'; obtain ⟨ws, h1, h2, _⟩ := conservativeWeights_ok hp .c
      exact ⟨ws, h1, h2⟩
    · subst h'; obtain ⟨ws, h1, h2, _⟩ := conservativeWeights_ok hp .r
      exact ⟨ws, h1, h2⟩
  have hsw : ∀ o, sweepLoop K u ws d = .ok o → stencilSweep K u mode p d pos = .ok o := by
    intro o ho
    unfold stencilSweep
    rw [hw]
    exact ho
  by_cases hr : 2 * rad p ≤ u.shape d
  · obtain ⟨out, h1, h2, h3⟩ := sweepLoop_spec (K := K) u d (rad p) ws hl hr
    refine ⟨ws, out, hw, hl, hsw _ h1, ?_, ?_⟩
    · intro d'
      rw [h2]
      by_cases hdd : d' = d
      · subst hdd; simp [rad]
      · simp [hdd]
    · intro j hj
      rw [h3 j hj, wsum_eq_sum]
      simp
  · obtain ⟨out, h1, h2⟩ := sweepLoop_small (K := K) u d (rad p) ws hl (by omega)
    refine ⟨ws, out, hw, hl, hsw _ h1, ?_, ?_⟩
    · intro d'
      rw [h2]
      by_cases hdd : d' = d
      · subst hdd; simp only [Function.update_self, if_true]; unfold rad at hr; omega
      · simp [hdd]
    · intro j hj
      have := hj d
      rw [h2] at this
      simp at this
      omega

/-- A concrete sweep: averages 1, 2, 4 at degree 2, left face. -/
example : ∃ out, stencilSweep ℚ (⟨![3, 1, 1], fun j => if j 0 = 0 then 1 else if j 0 = 1 then 2 else 4⟩ :
    Arr ℚ) .interpolation 2 0 "l" = .ok out ∧ out.shape 0 = 1 ∧ out.get 0 = 2 / 6 + 10 / 6 - 4 / 6 :=
  ⟨_, rfl, by decide +kernel, by decide +kernel⟩

/-- C21, misuse: an unknown mode, an unknown position or a degree above 8 raises. -/
theorem C21_errors (u : Arr V) (p : ℕ) (d : Fin 3) (pos : String) :
    stencilSweep K u .other p d pos = .error .valueError ∧
    (pos ∉ ["", "l", "c", "r", "lc", "cr", "lcr"] →
      stencilSweep K u .interpolation p d pos = .error .valueError) ∧
    (8 < p → (∀ q : Pos, stencilSweep K u .interpolation p d q.str = .error .notImplementedError) ∧
      stencilSweep K u .reconstruction p d pos = .error .notImplementedError) := by
  refine ⟨rfl, ?_, ?_⟩
  · intro h
    unfold stencilSweep sweepWeights conservativeWeights
    simp only [if_neg h]
    rfl
  · intro h
    obtain ⟨q, rfl⟩ : ∃ q, p = q + 9 := ⟨p - 9, by omega⟩
    refine ⟨fun q => ?_, rfl⟩
    cases q <;> rfl

example : stencilSweep ℚ (⟨![20, 1, 1], fun _ => 1⟩ : Arr ℚ) .interpolation 9 0 "c" =
    .error .notImplementedError := rfl

/-! ## C19 -/

/-- C19. Let the line of cells through `j` along axis `d` hold the averages of a polynomial
`(P j).derivative` of degree at most `p ≤ 8` over the cells `[x₀ + i h, x₀ + (i+1) h]` (the
polynomial may vary between lines; `π` picks any linear component of the entries). Then the
interpolation of degree `p` at the left face, centre or right face succeeds and returns the exact
values of the polynomial there. -/
theorem C19_exact (p : ℕ) (hp : p ≤ 8) (pos : Pos) (d : Fin 3) (u : Arr V) (π : V →ₗ[K] K)
    (hn : 2 * ((p + 1) / 2) ≤ u.shape d)
    (P : Ix → K[X]) (hline : ∀ j k, P (j + Pi.single d k) = P j)
    (hdeg : ∀ j, (P j).natDegree ≤ p + 1) (x₀ h : K) (hh : h ≠ 0)
    (hu : ∀ j, u.InB j →
      π (u.get j) = ((P j).eval (x₀ + (j d + 1) * h) - (P j).eval (x₀ + j d * h)) / h) :
    ∃ out, conservativeInterpolation K u p d pos.str = .ok out ∧
      (∀ d', out.shape d' = if d' = d then u.shape d - 2 * ((p + 1) / 2) else u.shape d') ∧
      ∀ j, out.InB j →
        π (out.get j) = (P j).derivative.eval
          (x₀ + ((j d : K) + ((p + 1) / 2 : ℕ) + 1 / 2 + pos.coord) * h) := by
  obtain ⟨ws, hw, hl, hm⟩ := conservativeWeights_ok hp pos
  obtain ⟨out, h1, h2, h3⟩ := sweepLoop_spec (K := K) u d (rad p) ws hl hn
  have hsh : ∀ d', out.shape d' = if d' = d then u.shape d - 2 * ((p + 1) / 2) else u.shape d' := by
    intro d'
    rw [h2]
    by_cases hdd : d' = d
    · subst hdd; simp [rad]
    · simp [hdd]
  refine ⟨out, ?_, hsh, ?_⟩
  · unfold conservativeInterpolation stencilSweep sweepWeights
    simp only [hw]
    exact h1
  · intro j hj
    rw [h3 j hj, wsum_map]
    have e0 : (0 : ℤ) = -(rad p : ℤ) + rad p := by omega
    have key := exact_of_moments p ws (-(rad p : ℤ)) pos.coord hm (P j) (hdeg j)
      (x₀ + ((j d : K) + (rad p : ℕ) + 1 / 2) * h) h hh
    rw [e0, wsum_shift]
    have e1 : x₀ + ((j d : K) + ((p + 1) / 2 : ℕ) + 1 / 2 + (pos.coord : K)) * h =
        x₀ + ((j d : K) + (rad p : ℕ) + 1 / 2) * h + (pos.coord : K) * h := by
      unfold rad; ring
    rw [e1, ← key]
    apply wsum_congr'
    intro k hk1 hk2
    rw [hl] at hk2
    have hjd := hj d
    have hin : u.InB (j + Pi.single d (k + (rad p : ℤ))) := by
      intro d'
      have hj' := hj d'
      rw [hsh d'] at hj'
      by_cases hdd : d' = d
      · subst hdd
        simp only [if_true, Pi.add_apply, Pi.single_eq_same] at *
        unfold rad at *
        omega
      · simp only [if_neg hdd, Pi.add_apply, Pi.single_eq_of_ne hdd] at *
        omega
    rw [hu _ hin, hline]
    simp only [Pi.add_apply, Pi.single_eq_same]
    push_cast
    have a1 : x₀ + ((j d : K) + ((k : K) + (rad p : K)) + 1) * h =
        x₀ + ((j d : K) + (rad p : K) + 1 / 2) * h + ((k : K) + 1 / 2) * h := by ring
    have a2 : x₀ + ((j d : K) + ((k : K) + (rad p : K))) * h =
        x₀ + ((j d : K) + (rad p : K) + 1 / 2) * h + ((k : K) - 1 / 2) * h := by ring
    rw [a1, a2]

/-- The hypotheses of C19 are met, e.g. by the averages of x² (antiderivative x³/3) on 5 unit cells
at degree 2. -/
example : ∃ (u : Arr ℚ) (P : Ix → ℚ[X]), 2 * ((2 + 1) / 2) ≤ u.shape 0 ∧
    (∀ j k, P (j + Pi.single 0 k) = P j) ∧ (∀ j, (P j).natDegree ≤ 3) ∧
    ∀ j, u.InB j → u.get j = ((P j).eval (0 + ((j 0 : ℚ) + 1) * 1) - (P j).eval (0 + (j 0 : ℚ) * 1)) / 1 :=
  ⟨⟨![5, 1, 1], fun j => ((j 0 + 1 : ℚ) ^ 3 - (j 0 : ℚ) ^ 3) / 3⟩, fun _ => C (1 / 3) * X ^ 3,
    by decide, fun _ _ => rfl, fun _ => by
      exact le_trans (natDegree_C_mul_X_pow_le _ _) (by norm_num),
    fun j _ => by simp; ring⟩

/-- C19, misuse: degrees above 8 raise. -/
theorem C19_unsupported (p : ℕ) (hp : 8 < p) (pos : Pos) (d : Fin 3) (u : Arr V) :
    conservativeInterpolation K u p d pos.str = .error .notImplementedError :=
  ((C21_errors u p d "").2.2 hp).1 pos

/-! ## C20 -/

/-- C20. If the entries are the centre values of polynomials of degree at most `p ≤ 8` then transverse
reconstruction returns their exact cell averages. -/
theorem C20_exact (p : ℕ) (hp : p ≤ 8) (d : Fin 3) (u : Arr V) (π : V →ₗ[K] K)
    (hn : 2 * ((p + 1) / 2) ≤ u.shape d)
    (P : Ix → K[X]) (hline : ∀ j k, P (j + Pi.single d k) = P j)
    (hdeg : ∀ j, (P j).natDegree ≤ p + 1) (x₀ h : K) (hh : h ≠ 0)
    (hu : ∀ j, u.InB j → π (u.get j) = (P j).derivative.eval (x₀ + (j d + 1 / 2) * h)) :
    ∃ out, transverseReconstruction K u p d = .ok out ∧
      (∀ d', out.shape d' = if d' = d then u.shape d - 2 * ((p + 1) / 2) else u.shape d') ∧
      ∀ j, out.InB j →
        π (out.get j) = ((P j).eval (x₀ + ((j d : K) + ((p + 1) / 2 : ℕ) + 1) * h) -
          (P j).eval (x₀ + ((j d : K) + ((p + 1) / 2 : ℕ)) * h)) / h := by
  obtain ⟨ws, hw, hl, _, hm⟩ := transverseWeights_ok hp
  obtain ⟨out, h1, h2, h3⟩ := sweepLoop_spec (K := K) u d (rad p) ws hl hn
  have hsh : ∀ d', out.shape d' = if d' = d then u.shape d - 2 * ((p + 1) / 2) else u.shape d' := by
    intro d'
    rw [h2]
    by_cases hdd : d' = d
    · subst hdd; simp [rad]
    · simp [hdd]
  refine ⟨out, ?_, hsh, ?_⟩
  · unfold transverseReconstruction stencilSweep sweepWeights
    simp only [hw]
    exact h1
  · intro j hj
    rw [h3 j hj, wsum_map]
    have e0 : (0 : ℤ) = -(rad p : ℤ) + rad p := by omega
    have key := exact_avg_of_moments p ws (-(rad p : ℤ)) hm (P j) (hdeg j)
      (x₀ + ((j d : K) + (rad p : ℕ) + 1 / 2) * h) h hh
    rw [e0, wsum_shift]
    have e1 : x₀ + ((j d : K) + ((p + 1) / 2 : ℕ) + 1) * h =
        x₀ + ((j d : K) + (rad p : ℕ) + 1 / 2) * h + 1 / 2 * h := by
      unfold rad; ring
    have e2 : x₀ + ((j d : K) + ((p + 1) / 2 : ℕ)) * h =
        x₀ + ((j d : K) + (rad p : ℕ) + 1 / 2) * h - 1 / 2 * h := by
      unfold rad; ring
    rw [e1, e2, ← key]
    apply wsum_congr'
    intro k hk1 hk2
    rw [hl] at hk2
    have hjd := hj d
    have hin : u.InB (j + Pi.single d (k + (rad p : ℤ))) := by
      intro d'
      have hj' := hj d'
      rw [hsh d'] at hj'
      by_cases hdd : d' = d
      · subst hdd
        simp only [if_true, Pi.add_apply, Pi.single_eq_same] at *
        unfold rad at *
        omega
      · simp only [if_neg hdd, Pi.add_apply, Pi.single_eq_of_ne hdd] at *
        omega
    rw [hu _ hin, hline]
    simp only [Pi.add_apply, Pi.single_eq_same]
    push_cast
    congr 1
    ring

/-- The hypotheses of C20 are met by the centre values of x². -/
example : ∃ (u : Arr ℚ) (P : Ix → ℚ[X]), 2 * ((2 + 1) / 2) ≤ u.shape 0 ∧
    (∀ j k, P (j + Pi.single 0 k) = P j) ∧ (∀ j, (P j).natDegree ≤ 3) ∧
    ∀ j, u.InB j → u.get j = (P j).derivative.eval (0 + ((j 0 : ℚ) + 1 / 2) * 1) :=
  ⟨⟨![5, 1, 1], fun j => (j 0 + 1 / 2 : ℚ) ^ 2⟩, fun _ => C (1 / 3) * X ^ 3,
    by decide, fun _ _ => rfl, fun _ => by
      exact le_trans (natDegree_C_mul_X_pow_le _ _) (by norm_num),
    fun j _ => by simp; ring⟩

/-! ## C22 -/

/-- Average of the polynomial `P.derivative` over cell `k` of a uniform grid. -/
noncomputable def cellAvg (P : K[X]) (x₀ h : K) (k : ℤ) : K :=
  (P.eval (x₀ + ((k : K) + 1) * h) - P.eval (x₀ + (k : K) * h)) / h

/-- Value of the polynomial `P.derivative` at the centre of cell `k`. -/
noncomputable def cellMid (P : K[X]) (x₀ h : K) (k : ℤ) : K := P.derivative.eval (x₀ + ((k : K) + 1 / 2) * h)

private theorem tensor_line {ι : Type} (s : Finset ι) (g : ι → Fin 3 → ℤ → K) (P : ι → K[X])
    (d : Fin 3) (m : ℕ) (hP : ∀ a, (P a).natDegree ≤ m) :
    ∃ Q : Ix → K[X], (∀ j k, Q (j + Pi.single d k) = Q j) ∧ (∀ j, (Q j).natDegree ≤ m) ∧
      (∀ j x, (Q j).eval x = ∑ a ∈ s, (∏ d' ∈ Finset.univ.erase d, g a d' (j d')) * (P a).eval x) ∧
      (∀ j x, (Q j).derivative.eval x =
        ∑ a ∈ s, (∏ d' ∈ Finset.univ.erase d, g a d' (j d')) * (P a).derivative.eval x) := by
  refine ⟨fun j => ∑ a ∈ s, C (∏ d' ∈ Finset.univ.erase d, g a d' (j d')) * P a, ?_, ?_, ?_, ?_⟩
  · intro j k
    apply Finset.sum_congr rfl
    intro a _
    congr 2
    apply Finset.prod_congr rfl
    intro d' hd'
    rw [Pi.add_apply, Pi.single_eq_of_ne (Finset.ne_of_mem_erase hd'), add_zero]
  · intro j
    apply natDegree_sum_le_of_forall_le
    intro a _
    exact le_trans (natDegree_C_mul_le _ _) (hP a)
  · intro j x
    rw [eval_finset_sum]
    apply Finset.sum_congr rfl
    intro a _
    rw [eval_mul, eval_C]
  · intro j x
    rw [derivative_sum, eval_finset_sum]
    apply Finset.sum_congr rfl
    intro a _
    rw [derivative_C_mul, eval_mul, eval_C]

private theorem centers_step {ι : Type} (s : Finset ι) (g : ι → Fin 3 → ℤ → K) (P : ι → K[X])
    (d : Fin 3) (p : ℕ) (hp : p ≤ 8) (hP : ∀ a, (P a).natDegree ≤ p + 1) (x₀ h : K) (hh : h ≠ 0)
    (hg : ∀ a k, g a d k = cellAvg (P a) x₀ h k) (u : Arr V) (π : V →ₗ[K] K)
    (hn : 2 * rad p ≤ u.shape d)
    (hu : ∀ j, u.InB j → π (u.get j) = ∑ a ∈ s, ∏ d', g a d' (j d')) :
    ∃ out, conservativeInterpolation K u p d "c" = .ok out ∧
      (∀ d', out.shape d' = if d' = d then u.shape d - 2 * rad p else u.shape d') ∧
      ∀ j, out.InB j → π (out.get j) = ∑ a ∈ s, ∏ d',
        (if d' = d then cellMid (P a) x₀ h (j d + rad p) else g a d' (j d')) := by
  obtain ⟨Q, q1, q2, q3, q4⟩ := tensor_line s g P d (p + 1) hP
  obtain ⟨out, h1, h2, h3⟩ := C19_exact p hp .c d u π hn Q q1 q2 x₀ h hh (by
    intro j hj
    rw [hu j hj, q3, q3, ← Finset.sum_sub_distrib, Finset.sum_div]
    apply Finset.sum_congr rfl
    intro a _
    rw [← Finset.mul_prod_erase _ _ (Finset.mem_univ d), hg, cellAvg]
    ring)
  refine ⟨out, h1, h2, ?_⟩
  intro j hj
  rw [h3 j hj, q4]
  apply Finset.sum_congr rfl
  intro a _
  rw [← Finset.mul_prod_erase _ _ (Finset.mem_univ d), if_pos rfl]
  have : ∏ d' ∈ Finset.univ.erase d,
      (if d' = d then cellMid (P a) x₀ h (j d + rad p) else g a d' (j d')) =
      ∏ d' ∈ Finset.univ.erase d, g a d' (j d') := by
    apply Finset.prod_congr rfl
    intro d' hd'
    rw [if_neg (Finset.ne_of_mem_erase hd')]
  rw [this, cellMid, mul_comm]
  congr 2
  simp only [Pos.coord, rad]
  generalize (p + 1) / 2 = r
  push_cast
  ring

private theorem averages_step {ι : Type} (s : Finset ι) (g : ι → Fin 3 → ℤ → K) (P : ι → K[X])
    (d : Fin 3) (p : ℕ) (hp : p ≤ 8) (hP : ∀ a, (P a).natDegree ≤ p + 1) (x₀ h : K) (hh : h ≠ 0)
    (hg : ∀ a k, g a d k = cellMid (P a) x₀ h k) (u : Arr V) (π : V →ₗ[K] K)
    (hn : 2 * rad p ≤ u.shape d)
    (hu : ∀ j, u.InB j → π (u.get j) = ∑ a ∈ s, ∏ d', g a d' (j d')) :
    ∃ out, transverseReconstruction K u p d = .ok out ∧
      (∀ d', out.shape d' = if d' = d then u.shape d - 2 * rad p else u.shape d') ∧
      ∀ j, out.InB j → π (out.get j) = ∑ a ∈ s, ∏ d',
        (if d' = d then cellAvg (P a) x₀ h (j d + rad p) else g a d' (j d')) := by
  obtain ⟨Q, q1, q2, q3, q4⟩ := tensor_line s g P d (p + 1) hP
  obtain ⟨out, h1, h2, h3⟩ := C20_exact p hp d u π hn Q q1 q2 x₀ h hh (by
    intro j hj
    rw [hu j hj, q4]
    apply Finset.sum_congr rfl
    intro a _
    rw [← Finset.mul_prod_erase _ _ (Finset.mem_univ d), hg, cellMid]
    ring)
  refine ⟨out, h1, h2, ?_⟩
  intro j hj
  rw [h3 j hj, q3, q3, ← Finset.sum_sub_distrib, Finset.sum_div]
  apply Finset.sum_congr rfl
  intro a _
  rw [← Finset.mul_prod_erase _ _ (Finset.mem_univ d), if_pos rfl]
  have : ∏ d' ∈ Finset.univ.erase d,
      (if d' = d then cellAvg (P a) x₀ h (j d + rad p) else g a d' (j d')) =
      ∏ d' ∈ Finset.univ.erase d, g a d' (j d') := by
    apply Finset.prod_congr rfl
    intro d' hd'
    rw [if_neg (Finset.ne_of_mem_erase hd')]
  rw [this, cellAvg]
  simp only [rad]
  generalize (p + 1) / 2 = r
  push_cast
  ring

/-- C22 (to centres). If the entries are the exact cell averages of a sum of products of
one-dimensional polynomials, of degree at most `p d ≤ 8` in direction `d`, then
`interpolate_cell_centers` succeeds, trims `⌈p d / 2⌉` cells on each side and returns the exact
values at the cell centres. -/
theorem C22_centers {ι : Type} (s : Finset ι) (P : ι → Fin 3 → K[X]) (p : Fin 3 → ℕ)
    (hp : ∀ d, p d ≤ 8) (hP : ∀ a d, (P a d).natDegree ≤ p d + 1) (x₀ h : Fin 3 → K)
    (hh : ∀ d, h d ≠ 0) (u : Arr V) (π : V →ₗ[K] K) (hn : ∀ d, 2 * ((p d + 1) / 2) ≤ u.shape d)
    (hu : ∀ j, u.InB j → π (u.get j) = ∑ a ∈ s, ∏ d, cellAvg (P a d) (x₀ d) (h d) (j d)) :
    ∃ out, interpolateCellCenters K u p = .ok out ∧
      (∀ d, out.shape d = u.shape d - 2 * ((p d + 1) / 2)) ∧
      ∀ j, out.InB j → π (out.get j) =
        ∑ a ∈ s, ∏ d, cellMid (P a d) (x₀ d) (h d) (j d + ((p d + 1) / 2 : ℕ)) := by
  obtain ⟨o1, e1, s1, v1⟩ := centers_step s (fun a d k => cellAvg (P a d) (x₀ d) (h d) k)
    (fun a => P a 0) 0 (p 0) (hp 0) (fun a => hP a 0) (x₀ 0) (h 0) (hh 0) (fun _ _ => rfl) u π (hn 0)
    hu
  obtain ⟨o2, e2, s2, v2⟩ := centers_step s
    (fun a d k => if d = 0 then cellMid (P a 0) (x₀ 0) (h 0) (k + rad (p 0))
      else cellAvg (P a d) (x₀ d) (h d) k)
    (fun a => P a 1) 1 (p 1) (hp 1) (fun a => hP a 1) (x₀ 1) (h 1) (hh 1) (fun _ _ => rfl) o1 π
    (by rw [s1 1]; exact hn 1) (by
      intro j hj
      rw [v1 j hj]
      simp [Fin.prod_univ_three])
  obtain ⟨o3, e3, s3, v3⟩ := centers_step s
    (fun a d k => if d = 0 then cellMid (P a 0) (x₀ 0) (h 0) (k + rad (p 0))
      else if d = 1 then cellMid (P a 1) (x₀ 1) (h 1) (k + rad (p 1))
      else cellAvg (P a d) (x₀ d) (h d) k)
    (fun a => P a 2) 2 (p 2) (hp 2) (fun a => hP a 2) (x₀ 2) (h 2) (hh 2) (fun _ _ => rfl) o2 π
    (by rw [s2 2]; simp only [show (2 : Fin 3) ≠ 1 by decide, if_false]
        rw [s1 2]; exact hn 2) (by
      intro j hj
      rw [v2 j hj]
      simp [Fin.prod_univ_three])
  refine ⟨o3, ?_, ?_, ?_⟩
  · unfold interpolateCellCenters
    rw [e1]
    simp only [bind, Except.bind]
    rw [e2]
    exact e3
  · intro d
    rw [s3 d]
    fin_cases d <;> simp [s2, s1, rad]
  · intro j hj
    rw [v3 j hj]
    simp [Fin.prod_univ_three, rad]

/-- C22 (back to averages). If the entries are the exact centre values of such a polynomial then
`interpolate_fv_averages` returns its exact cell averages. -/
theorem C22_averages {ι : Type} (s : Finset ι) (P : ι → Fin 3 → K[X]) (p : Fin 3 → ℕ)
    (hp : ∀ d, p d ≤ 8) (hP : ∀ a d, (P a d).natDegree ≤ p d + 1) (x₀ h : Fin 3 → K)
    (hh : ∀ d, h d ≠ 0) (u : Arr V) (π : V →ₗ[K] K) (hn : ∀ d, 2 * ((p d + 1) / 2) ≤ u.shape d)
    (hu : ∀ j, u.InB j → π (u.get j) = ∑ a ∈ s, ∏ d, cellMid (P a d) (x₀ d) (h d) (j d)) :
    ∃ out, interpolateFvAverages K u p = .ok out ∧
      (∀ d, out.shape d = u.shape d - 2 * ((p d + 1) / 2)) ∧
      ∀ j, out.InB j → π (out.get j) =
        ∑ a ∈ s, ∏ d, cellAvg (P a d) (x₀ d) (h d) (j d + ((p d + 1) / 2 : ℕ)) := by
  obtain ⟨o1, e1, s1, v1⟩ := averages_step s (fun a d k => cellMid (P a d) (x₀ d) (h d) k)
    (fun a => P a 0) 0 (p 0) (hp 0) (fun a => hP a 0) (x₀ 0) (h 0) (hh 0) (fun _ _ => rfl) u π (hn 0)
    hu
  obtain ⟨o2, e2, s2, v2⟩ := averages_step s
    (fun a d k => if d = 0 then cellAvg (P a 0) (x₀ 0) (h 0) (k + rad (p 0))
      else cellMid (P a d) (x₀ d) (h d) k)
    (fun a => P a 1) 1 (p 1) (hp 1) (fun a => hP a 1) (x₀ 1) (h 1) (hh 1) (fun _ _ => rfl) o1 π
    (by rw [s1 1]; exact hn 1) (by
      intro j hj
      rw [v1 j hj]
      simp [Fin.prod_univ_three])
  obtain ⟨o3, e3, s3, v3⟩ := averages_step s
    (fun a d k => if d = 0 then cellAvg (P a 0) (x₀ 0) (h 0) (k + rad (p 0))
      else if d = 1 then cellAvg (P a 1) (x₀ 1) (h 1) (k + rad (p 1))
      else cellMid (P a d) (x₀ d) (h d) k)
    (fun a => P a 2) 2 (p 2) (hp 2) (fun a => hP a 2) (x₀ 2) (h 2) (hh 2) (fun _ _ => rfl) o2 π
    (by rw [s2 2]; simp only [show (2 : Fin 3) ≠ 1 by decide, if_false]
        rw [s1 2]; exact hn 2) (by
      intro j hj
      rw [v2 j hj]
      simp [Fin.prod_univ_three])
  refine ⟨o3, ?_, ?_, ?_⟩
  · unfold interpolateFvAverages
    rw [e1]
    simp only [bind, Except.bind]
    rw [e2]
    exact e3
  · intro d
    rw [s3 d]
    fin_cases d <;> simp [s2, s1, rad]
  · intro j hj
    rw [v3 j hj]
    simp [Fin.prod_univ_three, rad]

/-- C22 (round trip). For such averages, going to centres and back gives the original averages on the
cells that are left. -/
theorem C22_round_trip {ι : Type} (s : Finset ι) (P : ι → Fin 3 → K[X]) (p : Fin 3 → ℕ)
    (hp : ∀ d, p d ≤ 8) (hP : ∀ a d, (P a d).natDegree ≤ p d + 1) (x₀ h : Fin 3 → K)
    (hh : ∀ d, h d ≠ 0) (u : Arr V) (π : V →ₗ[K] K) (hn : ∀ d, 4 * ((p d + 1) / 2) ≤ u.shape d)
    (hu : ∀ j, u.InB j → π (u.get j) = ∑ a ∈ s, ∏ d, cellAvg (P a d) (x₀ d) (h d) (j d)) :
    ∃ mid out, interpolateCellCenters K u p = .ok mid ∧ interpolateFvAverages K mid p = .ok out ∧
      ∀ j, out.InB j → π (out.get j) = π (u.get fun d => j d + 2 * ((p d + 1) / 2 : ℕ)) := by
  obtain ⟨mid, e1, s1, v1⟩ := C22_centers s P p hp hP x₀ h hh u π
    (fun d => by have := hn d; omega) hu
  obtain ⟨out, e2, s2, v2⟩ := C22_averages s P p hp hP
    (fun d => x₀ d + ((p d + 1) / 2 : ℕ) * h d) h hh mid π
    (fun d => by have := hn d; rw [s1 d]; omega) (by
      intro j hj
      rw [v1 j hj]
      apply Finset.sum_congr rfl
      intro a _
      apply Finset.prod_congr rfl
      intro d _
      unfold cellMid
      congr 1
      generalize (p d + 1) / 2 = r
      push_cast
      ring)
  refine ⟨mid, out, e1, e2, ?_⟩
  intro j hj
  rw [v2 j hj, hu]
  · apply Finset.sum_congr rfl
    intro a _
    apply Finset.prod_congr rfl
    intro d _
    unfold cellAvg
    have a1 : x₀ d + (((p d + 1) / 2 : ℕ) : K) * h d +
        (((j d + ((p d + 1) / 2 : ℕ) : ℤ) : K) + 1) * h d =
        x₀ d + (((j d + 2 * ((p d + 1) / 2 : ℕ) : ℤ) : K) + 1) * h d := by
      generalize (p d + 1) / 2 = r; push_cast; ring
    have a2 : x₀ d + (((p d + 1) / 2 : ℕ) : K) * h d +
        ((j d + ((p d + 1) / 2 : ℕ) : ℤ) : K) * h d =
        x₀ d + ((j d + 2 * ((p d + 1) / 2 : ℕ) : ℤ) : K) * h d := by
      generalize (p d + 1) / 2 = r; push_cast; ring
    rw [a1, a2]
  · intro d
    have h1 := hj d
    have h2 := s2 d
    have h3 := s1 d
    have h4 := hn d
    beta_reduce
    constructor <;> omega

/-- The hypotheses of C22 are met by the averages of x² + y on a 6 × 6 × 1 array, p = (2, 2, 0). -/
example : ∃ (u : Arr ℚ) (P : Bool → Fin 3 → ℚ[X]),
    (∀ a d, (P a d).natDegree ≤ (![2, 2, 0] : Fin 3 → ℕ) d + 1) ∧
    (∀ d, 4 * (((![2, 2, 0] : Fin 3 → ℕ) d + 1) / 2) ≤ u.shape d) ∧
    ∀ j, u.InB j → u.get j = ∑ a ∈ Finset.univ, ∏ d, cellAvg (P a d) 0 1 (j d) := by
  refine ⟨⟨![6, 6, 1], fun j => cellAvg (C (1 / 3) * X ^ 3) 0 1 (j 0) +
    cellAvg (C (1 / 2) * X ^ 2) 0 1 (j 1)⟩,
    fun a d => if a then (if d = 0 then C (1 / 3) * X ^ 3 else X)
      else (if d = 1 then C (1 / 2) * X ^ 2 else X), ?_, by decide, ?_⟩
  · intro a d
    have h3 : (C (1 / 3 : ℚ) * X ^ 3).natDegree ≤ 3 := natDegree_C_mul_X_pow_le _ _
    have h2 : (C (1 / 2 : ℚ) * X ^ 2).natDegree ≤ 3 :=
      le_trans (natDegree_C_mul_X_pow_le _ _) (by norm_num)
    have hx : (X : ℚ[X]).natDegree = 1 := natDegree_X
    cases a <;> fin_cases d <;> simp [hx] <;> first | exact h3 | exact h2 | omega
  · intro j _
    simp [Fin.prod_univ_three, cellAvg]

end FVHOE
