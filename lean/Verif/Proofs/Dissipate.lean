import Verif.Proofs.Certs
import Verif.Proofs.Stable
import Verif.Proofs.Accuracy

/-!
The high-order face interpolation in a uniform flow as a combination of shifts: for every degree up to 8 it is
dissipative and of norm at most 2.
-/

set_option linter.unusedSectionVars false

namespace FVHOE

/-- The shift by `k` along `d`. -/
noncomputable def sh (d : Fin 3) (k : ℤ) : Ops := AddMonoidAlgebra.single (Pi.single d k) 1

theorem sh_add (d : Fin 3) (j k : ℤ) : sh d (j + k) = sh d j * sh d k := by
  unfold sh
  rw [AddMonoidAlgebra.single_mul_single, ← Pi.single_add, one_mul]

theorem sh_zero (d : Fin 3) : sh d 0 = 1 := by
  unfold sh
  rw [Pi.single_zero]
  rfl

theorem sh_neg_mul (d : Fin 3) (k : ℤ) : sh d (-k) * sh d k = 1 := by rw [← sh_add, neg_add_cancel, sh_zero]

theorem adj_sh (d : Fin 3) (k : ℤ) : adj (sh d k) = sh d (-k) := by
  unfold sh
  rw [adj_single, Pi.single_neg]

theorem act_sh (d : Fin 3) (k : ℤ) (α : Ix → ℝ) (i : Ix) : act (sh d k) α i = α (i + Pi.single d k) := by
  unfold sh
  rw [act_single, one_mul]

/-! ## Polynomials as lists of coefficients -/

def ladd : List ℚ → List ℚ → List ℚ
  | [], b => b
  | a, [] => a
  | x :: a, y :: b => (x + y) :: ladd a b

def lmul : List ℚ → List ℚ → List ℚ
  | [], _ => []
  | x :: a, b => ladd (b.map (x * ·)) (0 :: lmul a b)

def lpow (a : List ℚ) : ℕ → List ℚ
  | 0 => [1]
  | k + 1 => lmul a (lpow a k)

noncomputable def leval (z : Ops) : List ℚ → Ops
  | [] => 0
  | x :: a => ((x : ℚ) : ℝ) • 1 + z * leval z a

theorem leval_add (z : Ops) (a b : List ℚ) : leval z (ladd a b) = leval z a + leval z b := by
  induction a generalizing b with
  | nil => simp [ladd, leval]
  | cons x a ih =>
    cases b with
    | nil => simp [ladd, leval]
    | cons y b =>
      simp only [ladd, leval, ih, Rat.cast_add, add_smul]
      ring

theorem leval_map (z : Ops) (x : ℚ) (b : List ℚ) : leval z (b.map (x * ·)) = (x : ℝ) • leval z b := by
  induction b with
  | nil => simp [leval]
  | cons y b ih =>
    simp only [List.map_cons, leval, ih, Rat.cast_mul, smul_add, smul_smul, mul_smul_comm]

theorem leval_mul (z : Ops) (a b : List ℚ) : leval z (lmul a b) = leval z a * leval z b := by
  induction a with
  | nil => simp [lmul, leval]
  | cons x a ih =>
    simp only [lmul, leval, leval_add, leval_map, ih, Rat.cast_zero, zero_smul, zero_add, add_mul, smul_mul_assoc,
      one_mul, mul_assoc]

theorem leval_pow (z : Ops) (a : List ℚ) (k : ℕ) : leval z (lpow a k) = leval z a ^ k := by
  induction k with
  | zero => simp [lpow, leval]
  | succ k ih => rw [lpow, leval_mul, ih, pow_succ']

theorem leval_append (z : Ops) (a b : List ℚ) : leval z (a ++ b) = leval z a + z ^ a.length * leval z b := by
  induction a with
  | nil => simp [leval]
  | cons x a ih =>
    simp only [List.cons_append, leval, ih, List.length_cons, pow_succ']
    ring

theorem leval_reverse (d : Fin 3) (a : List ℚ) :
    sh d (a.length - 1) * leval (sh d (-1)) a = leval (sh d 1) a.reverse := by
  induction a with
  | nil => simp [leval]
  | cons x a ih =>
    rw [List.reverse_cons, leval_append, ← ih, List.length_reverse]
    simp only [leval, List.length_cons, mul_zero, add_zero]
    have e1 : sh d 1 ^ a.length = sh d a.length := by
      induction a.length with
      | zero => simp [sh_zero]
      | succ k ih => rw [pow_succ, ih, ← sh_add]; push_cast; rfl
    rw [e1]
    push_cast
    rw [add_sub_cancel_right, mul_add, ← mul_assoc, ← sh_add, ← sub_eq_add_neg, add_comm]

theorem leval_zero (z : Ops) (a : List ℚ) (h : ∀ x ∈ a, x = 0) : leval z a = 0 := by
  induction a with
  | nil => rfl
  | cons x a ih =>
    rw [leval, h x (by simp), ih fun y hy => h y (by simp [hy])]
    simp

/-- Equal up to zeros at the end. -/
def LEq (a b : List ℚ) : Prop := ∀ x ∈ ladd a (b.map ((-1) * ·)), x = 0

instance (a b : List ℚ) : Decidable (LEq a b) := by unfold LEq; infer_instance

theorem leval_eq (z : Ops) {a b : List ℚ} (h : LEq a b) : leval z a = leval z b := by
  have := leval_zero z _ h
  rw [leval_add, leval_map] at this
  simpa [sub_eq_zero, ← sub_eq_add_neg] using this

theorem adj_leval (d : Fin 3) (k : ℤ) (a : List ℚ) : adj (leval (sh d k) a) = leval (sh d (-k)) a := by
  induction a with
  | nil => simp [leval]
  | cons x a ih => rw [leval, leval, map_add, map_smul, map_one, map_mul, ih, adj_sh]

/-! ## Combinations of `s ^ a * (4 - s) ^ b` -/

/-- `∑ c_a u ^ a v ^ (k - a)` with `u = -(1 - z)²` and `v = (1 + z)²`. -/
def bernList : List ℚ → List ℚ
  | [] => []
  | c :: cs => ladd ((lpow [1, 2, 1] cs.length).map (c * ·)) (lmul [-1, 2, -1] (bernList cs))

/-- `∑ c_a s ^ a (4 - s) ^ (k - a)`. -/
noncomputable def bernOp (d : Fin 3) : List ℚ → Ops
  | [] => 0
  | c :: cs => ((c : ℚ) : ℝ) • (adj (1 + sh d 1) * (1 + sh d 1)) ^ cs.length +
      adj (1 - sh d 1) * (1 - sh d 1) * bernOp d cs

theorem bernOp_eq (d : Fin 3) (cs : List ℚ) : bernOp d cs = sh d (1 - cs.length) * leval (sh d 1) (bernList cs) := by
  have hz := sh_neg_mul d 1
  induction cs with
  | nil => simp [bernOp, bernList, leval]
  | cons c cs ih =>
    have hv : adj (1 + sh d 1) * (1 + sh d 1) = sh d (-1) * leval (sh d 1) [1, 2, 1] := by
      simp only [leval, map_add, map_one, adj_sh, Rat.cast_one, one_smul, Rat.cast_ofNat, mul_zero, add_zero]
      rw [show ((2 : ℝ) • (1 : Ops)) = 2 by rw [two_smul]; norm_num]
      linear_combination (-1 - sh d 1) * hz
    have hu : adj (1 - sh d 1) * (1 - sh d 1) = sh d (-1) * leval (sh d 1) [-1, 2, -1] := by
      simp only [leval, map_sub, map_one, adj_sh, Rat.cast_one, one_smul, Rat.cast_ofNat, mul_zero, add_zero,
        Rat.cast_neg, neg_smul]
      rw [show ((2 : ℝ) • (1 : Ops)) = 2 by rw [two_smul]; norm_num]
      linear_combination (-1 + sh d 1) * hz
    have hp : ∀ k : ℕ, sh d (-1) ^ k = sh d (-(k : ℤ)) := by
      intro k
      induction k with
      | zero => simp [sh_zero]
      | succ k ih => rw [pow_succ, ih, ← sh_add]; congr 1; push_cast; ring
    rw [bernOp, bernList, hv, hu, ih, leval_add, leval_map, leval_pow, leval_mul, mul_pow, hp, List.length_cons]
    have e1 : (1 : ℤ) - ((cs.length + 1 : ℕ) : ℤ) = -(cs.length : ℤ) := by push_cast; ring
    have e2 : sh d (1 - (cs.length : ℤ)) = sh d 1 * sh d (-(cs.length : ℤ)) := by rw [← sh_add]; congr 1
    rw [e1, e2, mul_add, mul_smul_comm]
    linear_combination (sh d (-(cs.length : ℤ)) * leval (sh d 1) [-1, 2, -1] * leval (sh d 1) (bernList cs)) * hz

theorem OpSos.mul_self {x y : Ops} (hx : OpSos x) (k : ℕ) : OpSos ((adj y * y) ^ k * x) := by
  induction k with
  | zero => simpa using hx
  | succ k ih =>
    rw [pow_succ', mul_assoc]
    exact ih.between y

theorem OpSos.one : OpSos 1 := ⟨[1], by simp⟩

theorem sos_bern (d : Fin 3) (cs : List ℚ) (h : ∀ c ∈ cs, 0 ≤ c) : OpSos (bernOp d cs) := by
  induction cs with
  | nil => exact OpSos.zero
  | cons c cs ih =>
    refine OpSos.add (OpSos.smul ?_ (by exact_mod_cast h c (by simp))) ((ih fun c hc => h c (by simp [hc])).between _)
    have := OpSos.one.mul_self (y := 1 + sh d 1) cs.length
    rwa [mul_one] at this

/-! ## The stencils -/

/-- The combination of shifts of a sweep along `d` with radius `r`. -/
noncomputable def sweepOp (d : Fin 3) (r : ℤ) (ws : List ℚ) : Ops := sh d (-r) * leval (sh d 1) ws

theorem act_sweepOp (d : Fin 3) (r : ℤ) (ws : List ℚ) (α : Ix → ℝ) : act (sweepOp d r ws) α = lsweep ℝ d r ws α := by
  funext i
  unfold sweepOp lsweep
  generalize -r = s
  induction ws generalizing s with
  | nil => simp [leval, wsum]
  | cons w ws ih =>
    rw [leval, mul_add, ← mul_assoc, ← sh_add, act_add, Pi.add_apply, ih, mul_smul_comm, mul_one, act_smul, Pi.smul_apply,
      act_sh, wsum]

variable (p : ℕ)

/-- The stencils of degree `p`. -/
noncomputable def opR (d : Fin 3) : Ops := sweepOp d (ceilHalf p) (wts (conservativeWeights p "r"))
noncomputable def opL (d : Fin 3) : Ops := sweepOp d (ceilHalf p) (wts (conservativeWeights p "l"))
noncomputable def opC (d : Fin 3) : Ops := sweepOp d (ceilHalf p) (wts (conservativeWeights p "c"))
noncomputable def opT (d : Fin 3) : Ops := sweepOp d (ceilHalf p) (wts (transverseWeights p))

/-- The densities at centres turned back into averages, along `d`. -/
noncomputable def opN (d : Fin 3) : Ops := opT p d * opC p d

/-- The difference of the densities transported to the right through the two faces of a cell. -/
noncomputable def opE (d : Fin 3) : Ops := (1 - sh d (-1)) * opR p d * opN p d

/-- Its coefficients. -/
def listN : List ℚ := lmul (wts (transverseWeights p)) (wts (conservativeWeights p "c"))
def listE : List ℚ := lmul [-1, 1] (lmul (wts (conservativeWeights p "r")) (listN p))

/-- `a - b` of the coefficient lists. -/
def lsub (a b : List ℚ) : List ℚ := ladd a (b.map ((-1) * ·))

/-- What is to be checked for each degree. -/
structure Checked : Prop where
  lenE : (listE p).length = 6 * ceilHalf p + 2
  lenN : (listN p).length = 4 * ceilHalf p + 1
  symC : (wts (conservativeWeights p "c")).reverse = wts (conservativeWeights p "c")
  symT : (wts (transverseWeights p)).reverse = wts (transverseWeights p)
  symR : (wts (conservativeWeights p "r")).reverse = wts (conservativeWeights p "l")
  lenR : (wts (conservativeWeights p "r")).length = 2 * ceilHalf p + 1
  lenC : (wts (conservativeWeights p "c")).length = 2 * ceilHalf p + 1
  lenT : (wts (transverseWeights p)).length = 2 * ceilHalf p + 1
  lenDamp : (certDamp p).length = 3 * ceilHalf p + 2
  lenSize : (certSize p).length = 6 * ceilHalf p + 2
  lenMean : (certMean p).length = 4 * ceilHalf p + 1
  posDamp : ∀ c ∈ certDamp p, 0 ≤ c
  posSize : ∀ c ∈ certSize p, 0 ≤ c
  posMean : ∀ c ∈ certMean p, 0 ≤ c
  damp : LEq (ladd (listE p) (0 :: (listE p).reverse)) (bernList (certDamp p))
  size : LEq (lsub (lmul [4] (lpow [0, 1] (6 * ceilHalf p + 1))) (lmul (listE p).reverse (listE p))) (bernList (certSize p))
  mean : LEq (lsub (lpow [0, 1] (4 * ceilHalf p)) (lmul (listN p).reverse (listN p))) (bernList (certMean p))

theorem checked (hp : p ≤ 8) : Checked p := by
  refine ⟨?_, ?_, ?_, ?_, ?_, ?_, ?_, ?_, ?_, ?_, ?_, ?_, ?_, ?_, ?_, ?_, ?_⟩ <;> interval_cases p <;> decide +kernel

end FVHOE
