import Mathlib.Algebra.BigOperators.Field
import Mathlib.Algebra.BigOperators.Fin
import Mathlib.Algebra.Polynomial.Derivative
import Mathlib.Algebra.Polynomial.Eval.Degree
import Mathlib.Analysis.Calculus.Deriv.Polynomial
import Mathlib.Analysis.Real.Sqrt
import Mathlib.MeasureTheory.Integral.IntervalIntegral.FundThmCalculus
import Mathlib.Tactic.LinearCombination
import Mathlib.Tactic.FieldSimp
import Mathlib.Tactic.Ring
import Verif.Model.Initial
import Verif.Proofs.Hydro
import Verif.Props.C19_C22
import Mathlib.Topology.Algebra.Polynomial

/-!
C23: the initial cell averages are exact for polynomials.
-/

set_option linter.unusedSectionVars false

namespace FVHOE

open Polynomial

variable {K : Type} [Field K] [LinearOrder K] [IsStrictOrderedRing K] {V : Type} [AddCommGroup V] [Module K V] {np : ℕ}

/-- What numpy promises of `leggauss(n)`: `n` nodes, and polynomials of degree at most `2 n - 1` are integrated
exactly from -1 to 1. The polynomial integrated is `S'`, its integral the difference of `S`. -/
def IsGauss (n : ℕ) (R : List (K × K)) : Prop :=
  R.length = n ∧ ∀ S : K[X], S.natDegree ≤ 2 * n →
    (R.map fun xw => xw.2 * S.derivative.eval xw.1).sum = S.eval 1 - S.eval (-1)

theorem quadPoints_eq (p : ℕ) : quadPoints p = p / 2 + 1 := by
  unfold quadPoints
  omega

/-- One direction: halved nodes and weights average a polynomial over a cell. -/
theorem quad_line {gauss : ℕ → List (K × K)} {p : ℕ} (hg : IsGauss (p / 2 + 1) (gauss (p / 2 + 1))) (P : K[X])
    (hP : P.natDegree ≤ p + 1) (c h : K) (hh : h ≠ 0) :
    ((legendreQuadrature gauss p).map fun xw => xw.2 * P.derivative.eval (c + xw.1 * h)).sum =
      (P.eval (c + h / 2) - P.eval (c - h / 2)) / h := by
  have h1 := hg.2 (P.comp (C c + C (h / 2) * X)) (by
    have h2 : (C c + C (h / 2) * X : K[X]).natDegree ≤ 1 := by
      refine (natDegree_add_le _ _).trans ?_
      simp only [natDegree_C, Nat.zero_le, sup_of_le_right]
      exact (natDegree_C_mul_le _ _).trans natDegree_X_le
    have h3 : (P.comp (C c + C (h / 2) * X)).natDegree ≤ P.natDegree * 1 :=
      natDegree_comp_le.trans (Nat.mul_le_mul le_rfl h2)
    omega)
  unfold legendreQuadrature
  rw [quadPoints_eq, List.map_map]
  have e1 : (P.comp (C c + C (h / 2) * X)).eval 1 = P.eval (c + h / 2) := by simp [eval_comp]
  have e2 : (P.comp (C c + C (h / 2) * X)).eval (-1) = P.eval (c - h / 2) := by
    simp only [eval_comp, eval_add, eval_mul, eval_C, eval_X]; congr 1; ring
  rw [e1, e2] at h1
  rw [← h1, div_eq_mul_inv, ← List.sum_map_mul_right]
  congr 1
  apply List.map_congr_left
  intro xw _
  simp only [Function.comp, derivative_comp, derivative_add, derivative_C, derivative_mul, derivative_X, eval_mul,
    eval_comp, eval_add, eval_C, eval_X, zero_mul, zero_add, mul_one, mul_zero, add_zero]
  rw [show c + h / 2 * xw.1 = c + xw.1 / 2 * h by ring]
  field_simp

theorem foldl_get (l : List (K × K)) (F : Arr V → K × K → Arr V) (G : K × K → Ix → V)
    (hs : ∀ A x, (F A x).shape = A.shape) (hF : ∀ A x j, (F A x).get j = A.get j + G x j) :
    ∀ A : Arr V, (l.foldl F A).shape = A.shape ∧ ∀ j, (l.foldl F A).get j = A.get j + (l.map fun x => G x j).sum := by
  induction l with
  | nil => intro A; simp
  | cons x l ih =>
    intro A
    obtain ⟨i1, i2⟩ := ih (F A x)
    refine ⟨by rw [List.foldl_cons, i1, hs], fun j => ?_⟩
    rw [List.foldl_cons, i2, hF, List.map_cons, List.sum_cons, add_assoc]

/-- The loops as a sum. -/
theorem fvAverage_sum (gauss : ℕ → List (K × K)) (f : Slab K → Arr V) (m : Slab K) (h : Fin 3 → K) (p : Fin 3 → ℕ) :
    (fvAverage gauss f m h p).shape = (f m).shape ∧ ∀ j, (fvAverage gauss f m h p).get j =
      ((legendreQuadrature gauss (p 0)).map fun x => ((legendreQuadrature gauss (p 1)).map fun y =>
        ((legendreQuadrature gauss (p 2)).map fun z =>
          (x.2 * y.2 * z.2) • (f (m.shift ![x.1, y.1, z.1] h)).get j).sum).sum).sum := by
  have hz := fun (x y : K × K) => foldl_get (legendreQuadrature gauss (p 2))
    (fun (out : Arr V) z => ⟨out.shape, fun j => out.get j + (x.2 * y.2 * z.2) • (f (m.shift ![x.1, y.1, z.1] h)).get j⟩)
    (fun z j => (x.2 * y.2 * z.2) • (f (m.shift ![x.1, y.1, z.1] h)).get j) (fun _ _ => rfl) (fun _ _ _ => rfl)
  have hy := fun (x : K × K) => foldl_get (legendreQuadrature gauss (p 1)) _ _ (fun A y => (hz x y A).1)
    (fun A y => (hz x y A).2)
  have hx := foldl_get (legendreQuadrature gauss (p 0)) _ _ (fun A x => (hy x A).1) (fun A x => (hy x A).2)
    ⟨(f m).shape, fun _ => 0⟩
  refine ⟨hx.1, fun j => (hx.2 j).trans ?_⟩
  simp only [zero_add]

theorem list_sum_finset {ι : Type} (l : List (K × K)) (s : Finset ι) (F : K × K → ι → K) :
    (l.map fun x => ∑ a ∈ s, F x a).sum = ∑ a ∈ s, (l.map fun x => F x a).sum := by
  induction l with
  | nil => simp
  | cons x l ih => simp only [List.map_cons, List.sum_cons, ih, Finset.sum_add_distrib]

/-- A function on mesh arrays that is given point by point. -/
def Pointwise (f : Slab K → Arr V) (g : (Fin 3 → K) → V) : Prop :=
  ∀ m : Slab K, ∀ j, (f m).get j = g fun d => (m.coord d).get j

/-- C23. If `leggauss` keeps its promise for the number of nodes used, then `fv_average` returns, for every variable
`π` that is a polynomial of degree at most `p d` in each coordinate, the exact cell averages around the mesh points. -/
theorem C23_average {ι : Type} (s : Finset ι) (P : ι → Fin 3 → K[X]) (p : Fin 3 → ℕ) (gauss : ℕ → List (K × K))
    (hg : ∀ d, IsGauss (p d / 2 + 1) (gauss (p d / 2 + 1))) (hP : ∀ a d, (P a d).natDegree ≤ p d + 1)
    (f : Slab K → Arr V) (g : (Fin 3 → K) → V) (hf : Pointwise f g) (π : V →ₗ[K] K)
    (hπ : ∀ x, π (g x) = ∑ a ∈ s, ∏ d, (P a d).derivative.eval (x d)) (m : Slab K) (h : Fin 3 → K) (hh : ∀ d, h d ≠ 0) :
    (fvAverage gauss f m h p).shape = (f m).shape ∧ ∀ j, π ((fvAverage gauss f m h p).get j) =
      ∑ a ∈ s, ∏ d, ((P a d).eval ((m.coord d).get j + h d / 2) - (P a d).eval ((m.coord d).get j - h d / 2)) / h d := by
  obtain ⟨e1, e2⟩ := fvAverage_sum gauss f m h p
  refine ⟨e1, fun j => ?_⟩
  have q := fun a d => quad_line (hg d) (P a d) (hP a d) ((m.coord d).get j) (h d) (hh d)
  obtain ⟨c, hc⟩ : ∃ c : Fin 3 → K, c = fun d => (m.coord d).get j := ⟨_, rfl⟩
  rw [e2, map_list_sum, List.map_map]
  have k : ∀ x y z : K × K, π ((x.2 * y.2 * z.2) • (f (m.shift ![x.1, y.1, z.1] h)).get j) =
      ∑ a ∈ s, (x.2 * (P a 0).derivative.eval (c 0 + x.1 * h 0)) * ((y.2 * (P a 1).derivative.eval (c 1 + y.1 * h 1)) *
        (z.2 * (P a 2).derivative.eval (c 2 + z.1 * h 2))) := by
    intro x y z
    rw [map_smul, hf, hπ, smul_eq_mul, Finset.mul_sum]
    refine Finset.sum_congr rfl fun a _ => ?_
    rw [Fin.prod_univ_three, hc]
    simp only [Slab.shift, Matrix.cons_val_zero, Matrix.cons_val_one, Matrix.cons_val_two, Matrix.tail_cons,
      Matrix.head_cons]
    ring
  have k2 : ∀ x y : K × K, π ((legendreQuadrature gauss (p 2)).map fun z =>
      (x.2 * y.2 * z.2) • (f (m.shift ![x.1, y.1, z.1] h)).get j).sum =
      ∑ a ∈ s, (x.2 * (P a 0).derivative.eval (c 0 + x.1 * h 0)) * ((y.2 * (P a 1).derivative.eval (c 1 + y.1 * h 1)) *
        (((P a 2).eval (c 2 + h 2 / 2) - (P a 2).eval (c 2 - h 2 / 2)) / h 2)) := by
    intro x y
    rw [map_list_sum, List.map_map]
    simp only [Function.comp_def, k]
    rw [list_sum_finset]
    refine Finset.sum_congr rfl fun a _ => ?_
    rw [List.sum_map_mul_left, List.sum_map_mul_left, hc]
    rw [q]
  have k1 : ∀ x : K × K, π ((legendreQuadrature gauss (p 1)).map fun y => ((legendreQuadrature gauss (p 2)).map fun z =>
      (x.2 * y.2 * z.2) • (f (m.shift ![x.1, y.1, z.1] h)).get j).sum).sum =
      ∑ a ∈ s, (x.2 * (P a 0).derivative.eval (c 0 + x.1 * h 0)) *
        ((((P a 1).eval (c 1 + h 1 / 2) - (P a 1).eval (c 1 - h 1 / 2)) / h 1) *
        (((P a 2).eval (c 2 + h 2 / 2) - (P a 2).eval (c 2 - h 2 / 2)) / h 2)) := by
    intro x
    rw [map_list_sum, List.map_map]
    simp only [Function.comp_def, k2]
    rw [list_sum_finset]
    refine Finset.sum_congr rfl fun a _ => ?_
    rw [List.sum_map_mul_left, List.sum_map_mul_right, hc]
    rw [q]
  simp only [Function.comp_def, k1]
  rw [list_sum_finset]
  refine Finset.sum_congr rfl fun a _ => ?_
  rw [List.sum_map_mul_right, Fin.prod_univ_three, hc, q]
  ring

/-- C23 (degree zero). At degree zero in every direction the average is the value at the mesh point, for every
function. -/
theorem C23_centre (gauss : ℕ → List (K × K)) (hg : IsGauss 1 (gauss 1)) (f : Slab K → Arr V) (g : (Fin 3 → K) → V)
    (hf : Pointwise f g) (m : Slab K) (h : Fin 3 → K) (j : Ix) :
    (fvAverage gauss f m h fun _ => 0).get j = (f m).get j := by
  obtain ⟨x, w, e⟩ : ∃ x w, gauss 1 = [(x, w)] := by
    obtain ⟨a, ha⟩ := List.length_eq_one_iff.1 hg.1
    exact ⟨a.1, a.2, ha⟩
  have h1 := hg.2 X (by simp)
  have h2 := hg.2 (X ^ 2) (by simp)
  rw [e] at h1 h2
  simp only [List.map_cons, List.map_nil, List.sum_cons, List.sum_nil, derivative_X, eval_one, eval_X, mul_one, add_zero,
    derivative_X_pow, eval_mul, eval_pow, eval_natCast, eval_C] at h1 h2
  have hw : w = 2 := by rw [h1]; norm_num
  have hx : x = 0 := by
    rw [hw] at h2
    norm_num at h2
    exact h2
  rw [(fvAverage_sum gauss f m h _).2 j]
  have q : legendreQuadrature gauss 0 = [(0, 1)] := by
    unfold legendreQuadrature
    rw [quadPoints_eq, show 0 / 2 + 1 = 1 from rfl, e, hw, hx]
    simp
  simp only [q, List.map_cons, List.map_nil, List.sum_cons, List.sum_nil, add_zero, mul_one, one_smul]
  rw [hf, hf]
  congr 1
  funext d
  match d with
  | 0 | 1 | 2 => simp [Slab.shift]

theorem meshgen_coord (n : Fin 3 → ℕ) (dom : Fin 3 → K × K) (d : Fin 3) (j : Ix) :
    ((meshgen n dom).coord d).get j = (dom d).1 + ((j d : K) + 1 / 2) * solverSpacing n dom d := by
  simp only [meshgen, midAt, linspaceAt, solverSpacing]
  push_cast
  ring

theorem average_cell {ι : Type} (s : Finset ι) (P : ι → Fin 3 → K[X]) (n : Fin 3 → ℕ) (dom : Fin 3 → K × K) (j : Ix) :
    (∑ a ∈ s, ∏ d, ((P a d).eval (((meshgen n dom).coord d).get j + solverSpacing n dom d / 2) -
      (P a d).eval (((meshgen n dom).coord d).get j - solverSpacing n dom d / 2)) / solverSpacing n dom d) =
    ∑ a ∈ s, ∏ d, cellAvg (P a d) (dom d).1 (solverSpacing n dom d) (j d) := by
  refine Finset.sum_congr rfl fun a _ => Finset.prod_congr rfl fun d _ => ?_
  rw [meshgen_coord]
  unfold cellAvg
  congr 2 <;> congr 1 <;> ring

theorem solverSpacing_ne {n : Fin 3 → ℕ} (hn : ∀ d, 1 ≤ n d) {dom : Fin 3 → K × K} (hd : ∀ d, (dom d).1 ≠ (dom d).2)
    (d : Fin 3) : solverSpacing n dom d ≠ 0 := by
  refine div_ne_zero (sub_ne_zero.2 (hd d).symm) ?_
  have := hn d
  exact_mod_cast (by omega : n d ≠ 0)

/-- C23 (the solver). With initial conditions given in conserved variables the initial array of the solver holds, for
every variable that is a polynomial of degree at most `p d` in each coordinate, its exact averages over the cells, cell
`j` reaching from `x0 + j h` to `x0 + (j + 1) h`. -/
theorem C23_initial {ι : Type} (s : Finset ι) (P : ι → Fin 3 → K[X]) (gamma : K) (p n : Fin 3 → ℕ)
    (gauss : ℕ → List (K × K)) (hg : ∀ d, IsGauss (p d / 2 + 1) (gauss (p d / 2 + 1)))
    (hP : ∀ a d, (P a d).natDegree ≤ p d + 1) (hn : ∀ d, 1 ≤ n d) (dom : Fin 3 → K × K)
    (hd : ∀ d, (dom d).1 ≠ (dom d).2) (ic : Slab K → Arr (State K np)) (g : (Fin 3 → K) → State K np)
    (hic : Pointwise ic g) (v : Var np) (hv : ∀ x, g x v = ∑ a ∈ s, ∏ d, (P a d).derivative.eval (x d)) :
    ∃ u, initialArray gamma gauss ic true false n dom p = .ok u ∧ ∀ j, u.get j v =
      ∑ a ∈ s, ∏ d, cellAvg (P a d) (dom d).1 (((dom d).2 - (dom d).1) / n d) (j d) := by
  refine ⟨_, rfl, fun j => ?_⟩
  have := (C23_average s P p gauss hg hP ic g hic (LinearMap.proj v) hv (meshgen n dom) (solverSpacing n dom)
    (solverSpacing_ne hn hd)).2 j
  rw [average_cell] at this
  exact this

/-- C23 (the solver, primitive initial conditions). The same for initial conditions given in primitive variables, for
every conserved variable that is a polynomial. -/
theorem C23_initial_primitive {ι : Type} (s : Finset ι) (P : ι → Fin 3 → K[X]) (gamma : K) (p n : Fin 3 → ℕ)
    (gauss : ℕ → List (K × K)) (hg : ∀ d, IsGauss (p d / 2 + 1) (gauss (p d / 2 + 1)))
    (hP : ∀ a d, (P a d).natDegree ≤ p d + 1) (hn : ∀ d, 1 ≤ n d) (dom : Fin 3 → K × K)
    (hd : ∀ d, (dom d).1 ≠ (dom d).2) (ic : Slab K → Arr (State K np)) (g : (Fin 3 → K) → State K np)
    (hic : Pointwise ic g) (v : Var np)
    (hv : ∀ x, conserved gamma (g x) v = ∑ a ∈ s, ∏ d, (P a d).derivative.eval (x d)) :
    ∃ u, initialArray gamma gauss ic false false n dom p = .ok u ∧ ∀ j, u.get j v =
      ∑ a ∈ s, ∏ d, cellAvg (P a d) (dom d).1 (((dom d).2 - (dom d).1) / n d) (j d) := by
  refine ⟨_, rfl, fun j => ?_⟩
  have := (C23_average s P p gauss hg hP
    (fun m => ⟨(ic m).shape, fun j => computeConservatives gamma ((ic m).get j)⟩) (fun x => conserved gamma (g x))
    (fun m j => by dsimp only; rw [hic, conservatives_eq]) (LinearMap.proj v) hv (meshgen n dom) (solverSpacing n dom)
    (solverSpacing_ne hn hd)).2 j
  rw [average_cell] at this
  exact this

/-- C23 (the other two settings). Averages given directly are taken over as they are, and averages of primitive
variables are refused. -/
theorem C23_given (gamma : K) (gauss : ℕ → List (K × K)) (ic : Slab K → Arr (State K np)) (n : Fin 3 → ℕ)
    (dom : Fin 3 → K × K) (p : Fin 3 → ℕ) :
    initialArray gamma gauss ic true true n dom p = .ok (ic (meshgen n dom)) ∧
    initialArray gamma gauss ic false true n dom p = .error .valueError := ⟨rfl, rfl⟩

/-- The differences of primitives used above are integrals. -/
theorem cellAvg_integral (P : ℝ[X]) (x₀ h : ℝ) (k : ℤ) :
    cellAvg P x₀ h k = (∫ x in (x₀ + (k : ℝ) * h)..(x₀ + ((k : ℝ) + 1) * h), P.derivative.eval x) / h := by
  unfold cellAvg
  congr 1
  symm
  exact intervalIntegral.integral_eq_sub_of_hasDerivAt (fun x _ => P.hasDerivAt x)
    (P.derivative.continuous.intervalIntegrable _ _)

/-! ## Cases -/

/-- The rules with one and two nodes. -/
noncomputable def gaussTable : ℕ → List (ℝ × ℝ)
  | 1 => [(0, 2)]
  | 2 => [(-1 / Real.sqrt 3, 1), (1 / Real.sqrt 3, 1)]
  | _ => []

theorem gaussTable_one : IsGauss 1 (gaussTable 1) := by
  refine ⟨rfl, fun S hS => ?_⟩
  rw [S.as_sum_range_C_mul_X_pow' (show S.natDegree < 3 by omega)]
  simp only [gaussTable, Finset.sum_range_succ, Finset.sum_range_zero, List.map_cons, List.map_nil, List.sum_cons,
    List.sum_nil, derivative_add, derivative_C_mul_X_pow, derivative_zero, eval_add, eval_mul, eval_C, eval_pow, eval_X,
    eval_zero]
  norm_num
  ring

theorem gaussTable_two : IsGauss 2 (gaussTable 2) := by
  refine ⟨rfl, fun S hS => ?_⟩
  have h3 : (1 / Real.sqrt 3) ^ 2 = 1 / 3 := by rw [div_pow, Real.sq_sqrt (by norm_num)]; norm_num
  obtain ⟨r, hr⟩ : ∃ r, r = 1 / Real.sqrt 3 := ⟨_, rfl⟩
  rw [← hr] at h3
  rw [S.as_sum_range_C_mul_X_pow' (show S.natDegree < 5 by omega)]
  simp only [gaussTable, neg_div, ← hr, Finset.sum_range_succ, Finset.sum_range_zero, List.map_cons, List.map_nil,
    List.sum_cons, List.sum_nil, derivative_add, derivative_C_mul_X_pow, derivative_zero, eval_add, eval_mul, eval_C,
    eval_pow, eval_X, eval_zero]
  norm_num
  linear_combination (6 * S.coeff 3) * h3

/-- The density `1 + x³ z` is averaged exactly by the rules for the degrees 3, 0 and 1. -/
example (ic : Slab ℝ → Arr (State ℝ 0)) (g : (Fin 3 → ℝ) → State ℝ 0) (hic : Pointwise ic g)
    (hv : ∀ x, g x .rho = 1 + x 0 ^ 3 * x 2) (n : Fin 3 → ℕ) (hn : ∀ d, 1 ≤ n d) :
    ∃ u, initialArray (7 / 5) gaussTable ic true false n (fun _ => (0, 1)) ![3, 0, 1] = .ok u ∧ ∀ j, u.get j .rho =
      ∑ a : Fin 2, ∏ d, cellAvg ((![![X, X, X], ![C (1 / 4) * X ^ 4, X, C (1 / 2) * X ^ 2]] : Fin 2 → Fin 3 → ℝ[X]) a d) 0
        ((1 - 0) / n d) (j d) := by
  refine C23_initial Finset.univ ![![X, X, X], ![C (1 / 4) * X ^ 4, X, C (1 / 2) * X ^ 2]] _ ![3, 0, 1] n gaussTable
    (fun d => ?_) (fun a d => ?_) hn (fun _ => (0, 1)) (fun _ => by norm_num) ic g hic .rho fun x => ?_
  · match d with
    | 0 => exact gaussTable_two
    | 1 => exact gaussTable_one
    | 2 => exact gaussTable_one
  · have k4 := natDegree_C_mul_le (1 / 4 : ℝ) (X ^ 4 : ℝ[X])
    have k2 := natDegree_C_mul_le (1 / 2 : ℝ) (X ^ 2 : ℝ[X])
    rw [natDegree_X_pow] at k4 k2
    match a, d with
    | 0, 0 => simp
    | 0, 1 => simp
    | 0, 2 => simp
    | 1, 0 => exact k4
    | 1, 1 => simp
    | 1, 2 => exact k2
  · rw [hv, Fin.sum_univ_two, Fin.prod_univ_three, Fin.prod_univ_three]
    simp
    ring

end FVHOE
