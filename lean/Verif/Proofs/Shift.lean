import Mathlib.Algebra.MonoidAlgebra.Basic
import Mathlib.Algebra.Order.BigOperators.Group.Finset
import Mathlib.Tactic.LinearCombination
import Mathlib.Data.Real.Basic
import Verif.Props.C01_C03

/-!
Linear combinations of shifts acting on periodic functions: adjoints, positive combinations and the strong stability of
the third and fourth order Runge-Kutta polynomials.
-/

set_option linter.unusedSectionVars false

namespace FVHOE

/-- Cyclic with the periods `n`. -/
def Cyclic (n : Fin 3 → ℕ) (α : Ix → ℝ) : Prop := ∀ d i, α (i + Pi.single d (n d : ℤ)) = α i

/-- The sum over the cells does not notice a shift of a periodic function. -/
theorem cellSum_cyclic (n : Fin 3 → ℕ) (w : Ix) (f : Ix → ℝ) (hf : Cyclic n f) :
    cellSum n (fun i => f (i + w)) = cellSum n f := by
  have hone : ∀ (d : Fin 3) (f : Ix → ℝ), Cyclic n f → cellSum n (fun i => f (i + Pi.single d 1)) = cellSum n f := by
    intro d f hf
    have h := cellSum_telescope n d f
    rw [cellSum_sub] at h
    have h2 : layerSum n d (n d) f = layerSum n d 0 f := by
      unfold layerSum
      refine cellSum_congr _ _ _ fun i _ => ?_
      rw [← hf d (Function.update i d 0)]
      congr 1
      funext e
      by_cases he : e = d
      · subst he; simp
      · simp [he]
    rw [h2, sub_self, sub_eq_zero] at h
    exact h
  have hsh : ∀ (w : Ix) (f : Ix → ℝ), Cyclic n f → Cyclic n (fun i => f (i + w)) := by
    intro w f hf d i
    show f (i + Pi.single d (n d : ℤ) + w) = f (i + w)
    rw [add_right_comm]
    exact hf d _
  have hk : ∀ (d : Fin 3) (k : ℕ) (f : Ix → ℝ), Cyclic n f →
      cellSum n (fun i => f (i + Pi.single d (k : ℤ))) = cellSum n f := by
    intro d k
    induction k with
    | zero => intro f _; simp
    | succ k ih =>
      intro f hf
      refine Eq.trans ?_ ((hone d _ (hsh (Pi.single d (k : ℤ)) f hf)).trans (ih f hf))
      refine congrArg _ (funext fun i => congrArg f ?_)
      rw [add_assoc, ← Pi.single_add]
      push_cast
      rw [add_comm (1 : ℤ)]
  have hz : ∀ (d : Fin 3) (k : ℤ) (f : Ix → ℝ), Cyclic n f →
      cellSum n (fun i => f (i + Pi.single d k)) = cellSum n f := by
    intro d k f hf
    rcases Int.eq_nat_or_neg k with ⟨m, rfl | rfl⟩
    · exact hk d m f hf
    · rw [← hk d m _ (hsh (Pi.single d (-(m : ℤ))) f hf)]
      congr 1
      funext i
      congr 1
      rw [add_assoc, ← Pi.single_add]
      simp
  have e : w = Pi.single 0 (w 0) + Pi.single 1 (w 1) + Pi.single 2 (w 2) := by
    funext e
    match e with
    | 0 => simp
    | 1 => simp
    | 2 => simp
  refine Eq.trans ?_ ((hz 2 (w 2) _ (hsh _ _ (hsh (Pi.single 0 (w 0)) f hf))).trans
    ((hz 1 (w 1) _ (hsh _ f hf)).trans (hz 0 (w 0) f hf)))
  refine congrArg _ (funext fun i => congrArg f ?_)
  conv_lhs => rw [e]
  abel

/-- Combinations of shifts with real coefficients. -/
abbrev Ops := AddMonoidAlgebra ℝ Ix

/-- The shift by `w`. -/
def shiftEnd : Multiplicative Ix →* Module.End ℝ (Ix → ℝ) where
  toFun w := { toFun := fun α i => α (i + w.toAdd), map_add' := fun _ _ => rfl, map_smul' := fun _ _ => rfl }
  map_one' := by
    ext α i
    simp
  map_mul' v w := by
    refine LinearMap.ext fun α => funext fun i => ?_
    show α (i + (v.toAdd + w.toAdd)) = α (i + v.toAdd + w.toAdd)
    rw [add_assoc]

/-- The action on functions. -/
noncomputable def act : Ops →ₐ[ℝ] Module.End ℝ (Ix → ℝ) := AddMonoidAlgebra.lift ℝ _ Ix shiftEnd

theorem act_single (w : Ix) (c : ℝ) (α : Ix → ℝ) (i : Ix) : act (AddMonoidAlgebra.single w c) α i = c * α (i + w) := by
  unfold act
  rw [AddMonoidAlgebra.lift_single]
  rfl

theorem act_mul (x y : Ops) (α : Ix → ℝ) : act (x * y) α = act x (act y α) := by
  rw [map_mul]
  rfl

theorem act_add (x y : Ops) (α : Ix → ℝ) : act (x + y) α = act x α + act y α := by
  rw [map_add]
  rfl

theorem act_smul (c : ℝ) (x : Ops) (α : Ix → ℝ) : act (c • x) α = c • act x α := by
  rw [map_smul]
  rfl

theorem act_neg (x : Ops) (α : Ix → ℝ) : act (-x) α = -act x α := by
  rw [map_neg]
  rfl

theorem act_sub (x y : Ops) (α : Ix → ℝ) : act (x - y) α = act x α - act y α := by
  rw [map_sub]
  rfl

theorem act_one (α : Ix → ℝ) : act 1 α = α := by
  rw [map_one]
  rfl

theorem act_zero (α : Ix → ℝ) : act 0 α = 0 := by
  rw [map_zero]
  rfl

theorem act_shift (x : Ops) (α : Ix → ℝ) (w i : Ix) : act x (fun j => α (j + w)) i = act x α (i + w) := by
  induction x using AddMonoidAlgebra.induction_linear with
  | zero => simp
  | add x y hx hy => rw [act_add, act_add, Pi.add_apply, Pi.add_apply, hx, hy]
  | single v c => rw [act_single, act_single, add_right_comm]

theorem act_cyclic {n : Fin 3 → ℕ} (x : Ops) {α : Ix → ℝ} (h : Cyclic n α) : Cyclic n (act x α) := by
  intro d i
  rw [← act_shift]
  exact congrFun (congrArg _ (funext fun j => h d j)) i

/-- The adjoint: shifts the other way. -/
noncomputable def adj : Ops →ₐ[ℝ] Ops := (AddMonoidAlgebra.domCongr ℝ ℝ (AddEquiv.neg Ix)).toAlgHom

theorem adj_single (w : Ix) (c : ℝ) : adj (AddMonoidAlgebra.single w c) = AddMonoidAlgebra.single (-w) c :=
  AddMonoidAlgebra.domCongr_single _ _ _

@[simp] theorem adj_adj (x : Ops) : adj (adj x) = x := by
  induction x using AddMonoidAlgebra.induction_linear with
  | zero => simp
  | add x y hx hy => rw [map_add, map_add, hx, hy]
  | single v c => rw [adj_single, adj_single, neg_neg]

/-- The inner product over the cells. -/
def dot (n : Fin 3 → ℕ) (α β : Ix → ℝ) : ℝ := cellSum n fun i => α i * β i

theorem dot_comm (n : Fin 3 → ℕ) (α β : Ix → ℝ) : dot n α β = dot n β α := by
  unfold dot
  simp only [mul_comm]

theorem dot_add (n : Fin 3 → ℕ) (α β γ : Ix → ℝ) : dot n α (β + γ) = dot n α β + dot n α γ := by
  unfold dot
  rw [← cellSum_add]
  simp only [Pi.add_apply, mul_add]

theorem dot_smul (n : Fin 3 → ℕ) (c : ℝ) (α β : Ix → ℝ) : dot n α (c • β) = c * dot n α β := by
  unfold dot
  rw [← smul_eq_mul, ← cellSum_smul]
  congr 1
  funext i
  simp only [Pi.smul_apply, smul_eq_mul]
  ring

theorem dot_neg (n : Fin 3 → ℕ) (α β : Ix → ℝ) : dot n α (-β) = -dot n α β := by
  rw [← neg_one_smul ℝ β, dot_smul, neg_one_mul]

theorem dot_sub (n : Fin 3 → ℕ) (α β γ : Ix → ℝ) : dot n α (β - γ) = dot n α β - dot n α γ := by
  rw [sub_eq_add_neg, dot_add, dot_neg, sub_eq_add_neg]

theorem cellSum_nonneg (n : Fin 3 → ℕ) {f : Ix → ℝ} (h : ∀ i, InCells n i → 0 ≤ f i) : 0 ≤ cellSum n f := by
  unfold cellSum
  refine Finset.sum_nonneg fun a ha => Finset.sum_nonneg fun b hb => Finset.sum_nonneg fun c hc => h _ ?_
  intro d
  rw [Finset.mem_range] at ha hb hc
  match d with
  | 0 => simpa using ha
  | 1 => simpa using hb
  | 2 => simpa using hc

theorem dot_self_nonneg (n : Fin 3 → ℕ) (α : Ix → ℝ) : 0 ≤ dot n α α := cellSum_nonneg n fun _ _ => mul_self_nonneg _

theorem dot_adj (n : Fin 3 → ℕ) (x : Ops) {α β : Ix → ℝ} (hα : Cyclic n α) (hβ : Cyclic n β) :
    dot n (act x α) β = dot n α (act (adj x) β) := by
  induction x using AddMonoidAlgebra.induction_linear with
  | zero => simp [dot]
  | add x y hx hy =>
    rw [map_add adj, act_add, act_add, dot_add, ← hx, ← hy, dot_comm, dot_add, dot_comm n β, dot_comm n β]
  | single w c =>
    rw [adj_single]
    unfold dot
    have hr : Cyclic n (fun i => α i * (c * β (i + -w))) := by
      intro d i
      show α (i + Pi.single d (n d : ℤ)) * (c * β (i + Pi.single d (n d : ℤ) + -w)) = _
      rw [hα, add_right_comm, hβ]
    rw [show (fun i => α i * act (AddMonoidAlgebra.single (-w) c) β i) = fun i => α i * (c * β (i + -w)) from
      funext fun i => by rw [act_single], ← cellSum_cyclic n w _ hr]
    refine congrArg _ (funext fun i => ?_)
    rw [act_single, add_neg_cancel_right]
    ring

/-- Positive on periodic functions. -/
def OpPos (n : Fin 3 → ℕ) (x : Ops) : Prop := ∀ α, Cyclic n α → 0 ≤ dot n α (act x α)

section

variable {n : Fin 3 → ℕ}

theorem OpPos.zero : OpPos n 0 := fun α _ => by simp [dot, cellSum]

theorem OpPos.add {x y : Ops} (hx : OpPos n x) (hy : OpPos n y) : OpPos n (x + y) := fun α hα => by
  rw [act_add, dot_add]
  exact add_nonneg (hx α hα) (hy α hα)

theorem OpPos.smul {x : Ops} (hx : OpPos n x) {c : ℝ} (hc : 0 ≤ c) : OpPos n (c • x) := fun α hα => by
  rw [act_smul, dot_smul]
  exact mul_nonneg hc (hx α hα)

/-- Positivity is kept between an operator and its adjoint. -/
theorem OpPos.between {x : Ops} (hx : OpPos n x) (y : Ops) : OpPos n (adj y * y * x) := fun α hα => by
  have e : adj y * y * x = adj y * (x * y) := by ring
  rw [e, act_mul, ← adj_adj y, ← dot_adj n (adj (adj y)) hα (act_cyclic _ hα), adj_adj, act_mul]
  exact hx _ (act_cyclic _ hα)

theorem OpPos.one : OpPos n 1 := fun α _ => by rw [act_one]; exact dot_self_nonneg n α

theorem OpPos.sq (y : Ops) : OpPos n (adj y * y) := by
  have := (OpPos.one (n := n)).between y
  rwa [mul_one] at this

theorem OpPos.sum {ι : Type} (s : Finset ι) {f : ι → Ops} (h : ∀ a ∈ s, OpPos n (f a)) : OpPos n (∑ a ∈ s, f a) := by
  classical
  induction s using Finset.induction_on with
  | empty => simpa using OpPos.zero
  | insert a s ha ih =>
    rw [Finset.sum_insert ha]
    exact (h a (by simp)).add (ih fun b hb => h b (by simp [hb]))

theorem OpPos.adjoint {x : Ops} (hx : OpPos n x) : OpPos n (adj x) := fun α hα => by
  rw [← dot_adj n x hα hα, dot_comm]
  exact hx α hα

/-- Norm at most `k`: `‖xα‖² ≤ k ‖α‖²`. -/
theorem norm_of_pos {x : Ops} {k : ℝ} (h : OpPos n (k • 1 - adj x * x)) {α : Ix → ℝ} (hα : Cyclic n α) :
    dot n (act x α) (act x α) ≤ k * dot n α α := by
  have h1 := h α hα
  rw [act_sub, act_smul, act_one, act_mul, dot_sub, dot_smul, ← adj_adj x, ← dot_adj n (adj (adj x)) hα
    (act_cyclic _ hα), adj_adj] at h1
  linarith

theorem pos_of_norm {x : Ops} {k : ℝ} (h : ∀ α, Cyclic n α → dot n (act x α) (act x α) ≤ k * dot n α α) :
    OpPos n (k • 1 - adj x * x) := fun α hα => by
  have h1 := h α hα
  rw [act_sub, act_smul, act_one, act_mul, dot_sub, dot_smul, ← adj_adj x, ← dot_adj n (adj (adj x)) hα
    (act_cyclic _ hα), adj_adj]
  linarith

end

end FVHOE
