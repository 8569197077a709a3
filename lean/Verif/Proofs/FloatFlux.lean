import Verif.Proofs.FloatStep
import Verif.Proofs.Hydro
import Verif.Model.FloatFlux

/-!
The rounded fluxes on the lattice: they commute with translations, so they are periodic on periodic arrays and constant on
constant ones; without rounding they are those of `Verif/Spec/Scheme.lean`.
-/

set_option linter.unusedSectionVars false

namespace FVHOE

variable {W : Type}

/-- Translation by `s`. -/
def FState.shift (s : Ix) (a : FState W) : FState W := fun w i => a w (i + s)

variable (fl : ℚ → ℚ)

theorem roundedSweep_shift (d : Fin 3) (r : ℕ) (ws : Except PyErr (List ℚ)) (s : Ix) (a : FState W) :
    roundedSweep fl d r ws (a.shift s) = (roundedSweep fl d r ws a).shift s := by
  funext w i
  unfold roundedSweep FState.shift
  congr 1
  funext k
  congr 1
  abel

theorem roundedInterp_shift (p : ℕ) (d : Fin 3) (pos : String) (s : Ix) (a : FState W) :
    roundedInterp fl p d pos (a.shift s) = (roundedInterp fl p d pos a).shift s := roundedSweep_shift fl _ _ _ _ _

theorem roundedTrans_shift (p : ℕ) (d : Fin 3) (s : Ix) (a : FState W) :
    roundedTrans fl p d (a.shift s) = (roundedTrans fl p d a).shift s := roundedSweep_shift fl _ _ _ _ _

namespace RoundedScheme

variable (S : RoundedScheme W)

theorem primAverages_shift (s : Ix) (a : FState W) : S.primAverages fl (a.shift s) = (S.primAverages fl a).shift s := by
  unfold primAverages
  simp only [roundedInterp_shift]
  rw [← roundedTrans_shift, ← roundedTrans_shift, ← roundedTrans_shift]
  rfl

theorem flux_shift (d : Fin 3) (s : Ix) (a : FState W) : S.flux fl d (a.shift s) = (S.flux fl d a).shift s := by
  unfold flux
  simp only [roundedInterp_shift]
  rw [← roundedTrans_shift, ← roundedTrans_shift]
  congr 2
  funext x i
  simp only [FState.shift]
  rw [show i - Pi.single d 1 + s = i + s - Pi.single d 1 by abel]

end RoundedScheme

theorem roundedEulerEquation_shift (act : Fin 3 → Bool) (h : Fin 3 → ℚ) (F : Fin 3 → FState W) (s : Ix) :
    roundedEulerEquation fl act h (fun d => (F d).shift s) = (roundedEulerEquation fl act h F).shift s := by
  have e (d : Fin 3) : roundedDiff fl (h d) d ((F d).shift s) = (roundedDiff fl (h d) d (F d)).shift s := by
    funext w i
    unfold roundedDiff FState.times FState.shift
    simp only
    rw [show i + Pi.single d 1 + s = i + s + Pi.single d 1 by abel]
  unfold roundedEulerEquation
  simp only [e]
  simp only [List.foldl_cons, List.foldl_nil]
  cases act 0 <;> cases act 1 <;> cases act 2 <;> rfl

theorem wrapAround_eq (n : Fin 3 → ℕ) (u : FState W) (s : Ix) (hs : ∀ d, (n d : ℤ) ∣ s d) :
    (wrapAround n u).shift s = wrapAround n u := by
  funext w i
  unfold FState.shift wrapAround
  congr 1
  funext d
  obtain ⟨k, hk⟩ := hs d
  rw [Pi.add_apply, hk, Int.add_mul_emod_self_left]

/-- In the cells the periodic continuation is the array itself. -/
theorem wrapAround_cell (n : Fin 3 → ℕ) (u : FState W) (w : W) (i : Ix) (hi : InCells n i) : wrapAround n u w i = u w i := by
  unfold wrapAround
  congr 1
  funext d
  exact Int.emod_eq_of_lt (hi d).1 (hi d).2

theorem mod_inCells (n : Fin 3 → ℕ) (hn : ∀ d, 0 < n d) (i : Ix) : InCells n fun d => i d % (n d : ℤ) := fun d =>
  ⟨Int.emod_nonneg _ (by have := hn d; omega), Int.emod_lt_of_pos _ (by have := hn d; omega)⟩

/-- The fluxes through opposite sides of a periodic domain agree bit by bit. -/
theorem RoundedScheme.flux_ends (S : RoundedScheme W) (u : FState W) (d : Fin 3) (w : W) (i : Ix) :
    S.flux fl d (S.primAverages fl (wrapAround S.n u)) w (Function.update i d (S.n d : ℤ)) =
      S.flux fl d (S.primAverages fl (wrapAround S.n u)) w (Function.update i d 0) := by
  have h := wrapAround_eq S.n u (Pi.single d (S.n d : ℤ)) fun e => by
    by_cases he : e = d
    · subst he; simp
    · simp [Pi.single_eq_of_ne he]
  have h2 : S.flux fl d (S.primAverages fl (wrapAround S.n u)) =
      (S.flux fl d (S.primAverages fl (wrapAround S.n u))).shift (Pi.single d (S.n d : ℤ)) := by
    rw [← S.flux_shift, ← S.primAverages_shift, h]
  conv_rhs => rw [h2]
  unfold FState.shift
  congr 1
  funext e
  by_cases he : e = d
  · subst he; simp
  · simp [Function.update_of_ne he, Pi.single_eq_of_ne he]

/-- The time derivative repeats as the state does. -/
theorem RoundedScheme.rhs_ok (S : RoundedScheme W) {s t : ℚ} {u : FState W} {dt : ℚ} {k : FState W}
    (h : S.rhs fl s t u = .ok (dt, k)) :
    S.size fl (S.primAverages fl (wrapAround S.n u)) = .ok dt ∧
      k = roundedEulerEquation fl S.active S.h fun d => S.flux fl d (S.primAverages fl (wrapAround S.n u)) := by
  unfold RoundedScheme.rhs at h
  cases hs : S.size fl (S.primAverages fl (wrapAround S.n u)) with
  | error e => simp [hs, Bind.bind, Except.bind] at h
  | ok x =>
    simp only [hs, Bind.bind, Except.bind, Pure.pure, Except.pure, Except.ok.injEq, Prod.mk.injEq] at h
    exact ⟨by rw [h.1], h.2.symm⟩

/-! ### Without rounding -/

theorem roundedSum_id (ws : List ℚ) : ∀ (out : ℚ) (k : ℤ) (a : ℤ → ℚ), roundedSum id out ws k a = out + wsum ℚ ws k a := by
  induction ws with
  | nil => intro out k a; simp [roundedSum, wsum]
  | cons c cs ih =>
    intro out k a
    simp only [roundedSum, wsum, ih, id, smul_eq_mul, Rat.cast_id]
    ring

theorem wsum_apply (ws : List ℚ) (w : W) : ∀ (k : ℤ) (a : ℤ → W → ℚ), wsum ℚ ws k a w = wsum ℚ ws k fun j => a j w := by
  induction ws with
  | nil => intro k a; rfl
  | cons c cs ih => intro k a; simp only [wsum, Pi.add_apply, Pi.smul_apply, ih]

/-- An array of states instead of a state of arrays. -/
def FState.cells (a : FState W) : Ix → W → ℚ := fun i w => a w i

theorem roundedSweep_id (d : Fin 3) (r : ℕ) (ws : Except PyErr (List ℚ)) (a : FState W) :
    (roundedSweep id d r ws a).cells = lsweep ℚ d (r : ℤ) (wts ws) a.cells := by
  funext i w
  have h := wsum_apply (wts ws) w (-(r : ℤ)) fun k => a.cells (i + Pi.single d k)
  refine Eq.trans ?_ h.symm
  show roundedSum id 0 _ _ _ = _
  rw [roundedSum_id, zero_add]
  rfl

theorem RoundedScheme.primAverages_id (S : RoundedScheme W) (a : FState W) :
    (S.primAverages id a).cells = latPrim ℚ S.prim S.p a.cells := by
  unfold RoundedScheme.primAverages latPrim latCenters latT latC roundedTrans roundedInterp
  simp only [roundedSweep_id]
  congr 1
  congr 1
  congr 1
  funext i w
  rw [← roundedSweep_id, ← roundedSweep_id, ← roundedSweep_id]
  rfl

theorem RoundedScheme.flux_id (S : RoundedScheme W) (d : Fin 3) (a : FState W) :
    (S.flux id d a).cells = latFlux ℚ (S.riem d) S.p none d a.cells := by
  unfold RoundedScheme.flux latFlux latT roundedTrans roundedInterp
  simp only [roundedSweep_id]
  congr 1
  congr 1
  funext i w
  unfold latMid latFaceL latFaceR latL latR latLine latC
  simp only
  rw [← roundedSweep_id, ← roundedSweep_id, ← roundedSweep_id, ← roundedSweep_id]
  rfl

end FVHOE
