import Verif.Proofs.FloatFlux
import Verif.Model.FloatHydro

/-!
Mirror images of the rounded scheme: the local Lax-Friedrichs flux, and sweeps in the other directions.
-/

set_option linter.unusedSectionVars false

namespace FVHOE

variable {np : ℕ} {fl : ℚ → ℚ}

/-- Rounding does not depend on the sign. -/
def OddFl (fl : ℚ → ℚ) : Prop := ∀ x, fl (-x) = -fl x

/-- The sign that a mirror at right angles to `d` gives to a variable. -/
def mirSign (d : Fin 3) : Var np → ℚ
  | .mom e => if e = d then -1 else 1
  | _ => 1

theorem mirSign_cases (d : Fin 3) (v : Var np) : mirSign d v = 1 ∨ mirSign d v = -1 := by
  cases v with
  | mom e =>
    unfold mirSign
    by_cases h : e = d
    · right; simp [h]
    · left; simp [h]
  | _ => left; rfl

/-- The mirror image of a column. -/
def mirCol (d : Fin 3) (w : State ℚ np) : State ℚ np := fun v => mirSign d v * w v

section
variable (H : OddFl fl) (d : Fin 3)
include H

theorem OddFl.sign {s : ℚ} (hs : s = 1 ∨ s = -1) (x : ℚ) : fl (s * x) = s * fl x := by
  rcases hs with rfl | rfl
  · simp
  · simp [H x]

theorem mirror_primitives (γ : ℚ) (u : State ℚ np) :
    roundedPrimitives fl γ (mirCol d u) = mirCol d (roundedPrimitives fl γ u) := by
  have hv (e : Fin 3) : fl (mirSign (np := np) d (.mom e) * u (.mom e) / u .rho) =
      mirSign (np := np) d (.mom e) * fl (u (.mom e) / u .rho) := by
    rw [mul_div_assoc, H.sign (mirSign_cases d _)]
  have hr : mirCol d u .rho = u .rho := one_mul _
  funext v
  cases v with
  | rho => rfl
  | mom e =>
    show fl (mirSign (np := np) d (.mom e) * u (.mom e) / mirCol d u .rho) = _
    rw [hr, hv]
    rfl
  | en =>
    have hk (e : Fin 3) : mirSign (np := np) d (.mom e) * u (.mom e) * (mirSign (np := np) d (.mom e) * fl (u (.mom e) / u .rho)) =
        u (.mom e) * fl (u (.mom e) / u .rho) := by
      rcases mirSign_cases d (.mom e : Var np) with h | h <;> rw [h] <;> ring
    show fl (fl (γ - 1) * fl (1 * u .en - fl (1 / 2 * roundedSum3 fl fun e => fl (mirSign (np := np) d (.mom e) * u (.mom e) *
      fl (mirSign (np := np) d (.mom e) * u (.mom e) / mirCol d u .rho))))) = 1 * _
    simp only [hr, hv, hk, one_mul]
    rfl
  | ps j =>
    show fl (1 * u (.ps j) / mirCol d u .rho) = 1 * fl (u (.ps j) / u .rho)
    rw [hr, one_mul, one_mul]

theorem mirror_conservatives (γ : ℚ) (w : State ℚ np) :
    roundedConservatives fl γ (mirCol d w) = mirCol d (roundedConservatives fl γ w) := by
  have hm (e : Fin 3) : fl (w .rho * (mirSign (np := np) d (.mom e) * w (.mom e))) =
      mirSign (np := np) d (.mom e) * fl (w .rho * w (.mom e)) := by
    rw [mul_left_comm, H.sign (mirSign_cases d _)]
  have hr : mirCol d w .rho = w .rho := one_mul _
  funext v
  cases v with
  | rho => rfl
  | mom e =>
    show fl (mirCol d w .rho * (mirSign (np := np) d (.mom e) * w (.mom e))) = _
    rw [hr, hm]
    rfl
  | en =>
    have hk (e : Fin 3) : mirSign (np := np) d (.mom e) * fl (w .rho * w (.mom e)) * (mirSign (np := np) d (.mom e) * w (.mom e)) =
        fl (w .rho * w (.mom e)) * w (.mom e) := by
      rcases mirSign_cases d (.mom e : Var np) with h | h <;> rw [h] <;> ring
    show fl (fl (1 * w .en / fl (γ - 1)) + fl (1 / 2 * roundedSum3 fl fun e =>
      fl (fl (mirCol d w .rho * (mirSign (np := np) d (.mom e) * w (.mom e))) * (mirSign (np := np) d (.mom e) * w (.mom e))))) = 1 * _
    simp only [hr, hm, hk, one_mul]
    rfl
  | ps j =>
    show fl (mirCol d w .rho * (1 * w (.ps j))) = 1 * fl (w .rho * w (.ps j))
    rw [hr, one_mul, one_mul]

omit H in
theorem mirror_soundSpeed (G : Gas ℚ) (w : State ℚ np) : roundedSoundSpeed fl G (mirCol d w) = roundedSoundSpeed fl G w := by
  have hr : mirCol d w .rho = w .rho := one_mul _
  have hP : mirCol d w .en = w .en := one_mul _
  unfold roundedSoundSpeed
  rw [hr, hP]

omit H in
theorem mirror_abs (w : State ℚ np) (e : Fin 3) : |mirCol d w (.mom e)| = |w (.mom e)| := by
  unfold mirCol
  rcases mirSign_cases d (.mom e : Var np) with h | h <;> rw [h] <;> simp

omit H in
theorem mirror_speed (G : Gas ℚ) (n : ℕ) (w : State ℚ np) : roundedSpeed fl G n (mirCol d w) = roundedSpeed fl G n w := by
  unfold roundedSpeed
  simp only [mirror_abs, mirror_soundSpeed]

/-- The flux through a face at right angles to another direction. -/
theorem mirror_fluxes (w u : State ℚ np) (e : Fin 3) (he : e ≠ d) (pr : Bool) :
    roundedFluxes fl (mirCol d w) (mirCol d u) e pr = mirCol d (roundedFluxes fl w u e pr) := by
  have hv : mirCol d w (.mom e) = w (.mom e) := by simp [mirCol, mirSign, he]
  have hr : mirCol d w .rho = w .rho := one_mul _
  have hP : mirCol d w .en = w .en := one_mul _
  have hE : mirCol d u .en = u .en := one_mul _
  funext v
  cases v with
  | rho => simp only [roundedFluxes, hv, hr]; exact (one_mul _).symm
  | mom f =>
    by_cases hf : f = d
    · have h1 : mirCol d u (.mom f) = -u (.mom f) := by simp [mirCol, mirSign, hf]
      have h2 : ¬ (pr = true ∧ f = e) := fun h => he (h.2 ▸ hf)
      have h3 (x : State ℚ np) : mirCol d x (.mom f) = -x (.mom f) := by simp [mirCol, mirSign, hf]
      rw [h3]
      simp only [roundedFluxes, if_neg h2, hv, h1, mul_neg, H _]
    · have h3 (x : State ℚ np) : mirCol d x (.mom f) = x (.mom f) := by simp [mirCol, mirSign, hf]
      rw [h3]
      simp only [roundedFluxes, hv, h3, hP]
  | en => simp only [roundedFluxes, hv, hP, hE]; exact (one_mul _).symm
  | ps j =>
    simp only [roundedFluxes, hv]
    rw [show mirCol d u (.ps j) = u (.ps j) from one_mul _]
    exact (one_mul _).symm

/-- The flux through a face at right angles to the mirrored direction: what went to the right now goes to the left. -/
theorem mirror_fluxes_normal (w u : State ℚ np) :
    roundedFluxes fl (mirCol d w) (mirCol d u) d true = fun v => -mirCol d (roundedFluxes fl w u d true) v := by
  have hv : mirCol d w (.mom d) = -w (.mom d) := by simp [mirCol, mirSign]
  have hr : mirCol d w .rho = w .rho := one_mul _
  have hP : mirCol d w .en = w .en := one_mul _
  have hE : mirCol d u .en = u .en := one_mul _
  funext v
  cases v with
  | rho =>
    simp only [roundedFluxes, hv, hr, neg_mul, H _]
    exact congrArg Neg.neg (one_mul _).symm
  | mom f =>
    by_cases hf : f = d
    · subst hf
      have h3 (x : State ℚ np) : mirCol f x (.mom f) = -x (.mom f) := by simp [mirCol, mirSign]
      rw [h3, neg_neg]
      simp only [roundedFluxes, hv, h3, hP, neg_mul_neg]
    · have h3 (x : State ℚ np) : mirCol d x (.mom f) = x (.mom f) := by simp [mirCol, mirSign, hf]
      rw [h3]
      simp only [roundedFluxes, hf, and_false, if_false, hv, h3, neg_mul, H _]
  | en =>
    have : mirCol d (roundedFluxes fl w u d true) .en = roundedFluxes fl w u d true .en := one_mul _
    rw [this]
    simp only [roundedFluxes, if_true, hv, hP, hE, neg_mul, H _]
    rw [← neg_add, H]
  | ps j =>
    have : mirCol d (roundedFluxes fl w u d true) (.ps j) = roundedFluxes fl w u d true (.ps j) := one_mul _
    rw [this]
    simp only [roundedFluxes, hv, neg_mul, H _]
    rw [show mirCol d u (.ps j) = u (.ps j) from one_mul _]

/-- `llf` through a face at right angles to another direction. -/
theorem mirror_llf (G : Gas ℚ) (e : Fin 3) (he : e ≠ d) (wl wr : State ℚ np) :
    roundedLlf fl G e (mirCol d wl) (mirCol d wr) = mirCol d (roundedLlf fl G e wl wr) := by
  funext v
  have hs := mirSign_cases d v
  show fl (fl (1 / 2 * fl (_ + _)) - fl (fl (1 / 2 * max (fl (|_| + _)) (fl (|_| + _))) * fl (_ - _))) = mirSign d v * fl _
  simp only [mirror_conservatives H, mirror_fluxes H d _ _ e he, mirror_abs, mirror_soundSpeed]
  unfold mirCol
  rw [← mul_add, H.sign hs, ← mul_sub, H.sign hs, mul_left_comm, H.sign hs, mul_left_comm, H.sign hs, ← mul_sub, H.sign hs]

/-- `llf` through a face at right angles to the mirrored direction: the sides change places. -/
theorem mirror_llf_normal (G : Gas ℚ) (wl wr : State ℚ np) :
    roundedLlf fl G d (mirCol d wr) (mirCol d wl) = fun v => -mirCol d (roundedLlf fl G d wl wr) v := by
  funext v
  have hs := mirSign_cases d v
  have hn : -mirSign d v = 1 ∨ -mirSign d v = -1 := by rcases hs with h | h <;> simp [h]
  show fl (fl (1 / 2 * fl (_ + _)) - fl (fl (1 / 2 * max (fl (|_| + _)) (fl (|_| + _))) * fl (_ - _))) = -(mirSign d v * fl _)
  simp only [mirror_conservatives H, mirror_fluxes_normal H d, mirror_abs, mirror_soundSpeed]
  unfold mirCol
  have e1 (x y : ℚ) : -(mirSign d v * x) + -(mirSign d v * y) = -mirSign d v * (y + x) := by ring
  have e2 (x y : ℚ) : mirSign d v * x - mirSign d v * y = -mirSign d v * (y - x) := by ring
  rw [e1, e2, H.sign hn, H.sign hn, mul_left_comm, H.sign hn, mul_left_comm, H.sign hn, ← mul_sub, H.sign hn, neg_mul, max_comm]

end

/-! ### The lattice -/

/-- The mirror image of a cell. -/
def mirIx (d : Fin 3) (i : Ix) : Ix := Function.update i d (-1 - i d)

/-- The mirror image of a face at right angles to `d`. -/
def mirFace (d : Fin 3) (i : Ix) : Ix := Function.update i d (-i d)

/-- The mirror image of an array. -/
def mirArr (d : Fin 3) (a : FState (Var np)) : FState (Var np) := fun v i => mirSign d v * a v (mirIx d i)

/-- Rounding of sums with factors that are signs. -/
theorem roundedSum_sign (H : OddFl fl) {s : ℚ} (hs : s = 1 ∨ s = -1) (ws : List ℚ) : ∀ (o : ℚ) (k : ℤ) (a : ℤ → ℚ),
    roundedSum fl (s * o) ws k (fun j => s * a j) = s * roundedSum fl o ws k a := by
  induction ws with
  | nil => intro o k a; rfl
  | cons c cs ih =>
    intro o k a
    show roundedSum fl (fl (s * o + fl (fl c * (s * a k)))) cs (k + 1) _ = s * roundedSum fl (fl (o + fl (fl c * a k))) cs (k + 1) a
    rw [mul_left_comm, H.sign hs, ← mul_add, H.sign hs, ih]

theorem roundedSum_sign0 (H : OddFl fl) {s : ℚ} (hs : s = 1 ∨ s = -1) (ws : List ℚ) (k : ℤ) (a : ℤ → ℚ) :
    roundedSum fl 0 ws k (fun j => s * a j) = s * roundedSum fl 0 ws k a := by
  have := roundedSum_sign H hs ws 0 k a
  rwa [mul_zero] at this

theorem mirIx_add (d e : Fin 3) (he : e ≠ d) (i : Ix) (k : ℤ) : mirIx d (i + Pi.single e k) = mirIx d i + Pi.single e k := by
  funext f
  by_cases hf : f = d
  · subst hf
    simp [mirIx, Pi.single_eq_of_ne (Ne.symm he)]
  · simp [mirIx, Function.update_of_ne hf]

theorem mirFace_add (d e : Fin 3) (he : e ≠ d) (i : Ix) (k : ℤ) : mirFace d (i + Pi.single e k) = mirFace d i + Pi.single e k := by
  funext f
  by_cases hf : f = d
  · subst hf
    simp [mirFace, Pi.single_eq_of_ne (Ne.symm he)]
  · simp [mirFace, Function.update_of_ne hf]

/-- A map of the cells and signs of the variables that commute with a sweep. -/
theorem sweep_sign (H : OddFl fl) (e : Fin 3) (r : ℕ) (ws : Except PyErr (List ℚ)) (s : Var np → ℚ) (hs : ∀ v, s v = 1 ∨ s v = -1)
    (g : Ix → Ix) (hg : (∀ i k, g (i + Pi.single e k) = g i + Pi.single e k) ∨ (r = 0 ∧ ∃ c, ws = .ok [c])) (a : FState (Var np)) :
    roundedSweep fl e r ws (fun v i => s v * a v (g i)) = fun v i => s v * roundedSweep fl e r ws a v (g i) := by
  funext v i
  unfold roundedSweep
  rcases hg with hg | ⟨rfl, c, rfl⟩
  · simp only [hg]
    exact roundedSum_sign0 H (hs v) _ _ fun k => a v (g i + Pi.single e k)
  · have h := roundedSum_sign0 H (hs v) [c] 0 fun _ => a v (g i)
    show fl (0 + fl (fl c * (s v * a v (g (i + Pi.single e (-((0 : ℕ) : ℤ))))))) =
      s v * fl (0 + fl (fl c * a v (g i + Pi.single e (-((0 : ℕ) : ℤ)))))
    simp only [Nat.cast_zero, neg_zero, Pi.single_zero, add_zero]
    exact h

theorem conservativeWeights_zero (pos : String) (h : pos = "c" ∨ pos = "l" ∨ pos = "r") : ∃ c, conservativeWeights 0 pos = .ok [c] := by
  rcases h with rfl | rfl | rfl <;> exact ⟨1, by decide +kernel⟩

theorem transverseWeights_zero : ∃ c, transverseWeights 0 = .ok [c] := ⟨1, by decide +kernel⟩

section
variable (H : OddFl fl) (d : Fin 3) (p : Fin 3 → ℕ) (hp : p d = 0)
include H hp

theorem mirArr_interp (e : Fin 3) (pos : String) (h : pos = "c" ∨ pos = "l" ∨ pos = "r") (a : FState (Var np)) :
    roundedInterp fl (p e) e pos (mirArr d a) = mirArr d (roundedInterp fl (p e) e pos a) := by
  refine sweep_sign H e _ _ (mirSign d) (mirSign_cases d) (mirIx d) ?_ a
  by_cases he : e = d
  · subst he
    rw [hp]
    exact .inr ⟨rfl, conservativeWeights_zero pos h⟩
  · exact .inl (mirIx_add d e he)

theorem mirArr_trans (e : Fin 3) (a : FState (Var np)) :
    roundedTrans fl (p e) e (mirArr d a) = mirArr d (roundedTrans fl (p e) e a) := by
  refine sweep_sign H e _ _ (mirSign d) (mirSign_cases d) (mirIx d) ?_ a
  by_cases he : e = d
  · subst he
    rw [hp]
    exact .inr ⟨rfl, transverseWeights_zero⟩
  · exact .inl (mirIx_add d e he)

end

section
variable (H : OddFl fl) (d : Fin 3) (c : RoundedConfig) (hp : c.p d = 0)
include H hp

theorem mirror_primAverages (a : FState (Var np)) :
    (c.scheme fl np).primAverages fl (mirArr d a) = mirArr d ((c.scheme fl np).primAverages fl a) := by
  unfold RoundedScheme.primAverages
  simp only [show (c.scheme fl np).p = c.p from rfl, mirArr_interp H d c.p hp _ "c" (.inl rfl)]
  rw [← mirArr_trans H d c.p hp, ← mirArr_trans H d c.p hp, ← mirArr_trans H d c.p hp]
  congr 3
  funext x i
  exact congrFun (mirror_primitives H d c.gas.gamma fun y => roundedInterp fl (c.p 2) 2 "c" (roundedInterp fl (c.p 1) 1 "c"
    (roundedInterp fl (c.p 0) 0 "c" a)) y (mirIx d i)) x

variable (hr : c.riem = .llf)
include hr

theorem mirror_flux (e : Fin 3) (he : e ≠ d) (a : FState (Var np)) :
    (c.scheme fl np).flux fl e (mirArr d a) = mirArr d ((c.scheme fl np).flux fl e a) := by
  unfold RoundedScheme.flux
  simp only [show (c.scheme fl np).p = c.p from rfl, mirArr_interp H d c.p hp _ "c" (.inl rfl),
    mirArr_interp H d c.p hp _ "l" (.inr (.inl rfl)), mirArr_interp H d c.p hp _ "r" (.inr (.inr rfl))]
  rw [← mirArr_trans H d c.p hp, ← mirArr_trans H d c.p hp]
  congr 2
  funext x i
  have hi : mirIx d (i - Pi.single e 1) = mirIx d i - Pi.single e 1 := by
    rw [sub_eq_add_neg, ← Pi.single_neg, mirIx_add d e he, Pi.single_neg, ← sub_eq_add_neg]
  have := congrFun (mirror_llf H d c.gas e he
    (fun y => roundedInterp fl (c.p e) e "r" (roundedInterp fl (c.p (centerOrder e).2) (centerOrder e).2 "c"
      (roundedInterp fl (c.p (centerOrder e).1) (centerOrder e).1 "c" a)) y (mirIx d i - Pi.single e 1))
    (fun y => roundedInterp fl (c.p e) e "l" (roundedInterp fl (c.p (centerOrder e).2) (centerOrder e).2 "c"
      (roundedInterp fl (c.p (centerOrder e).1) (centerOrder e).1 "c" a)) y (mirIx d i))) x
  unfold mirArr
  simp only [hi]
  unfold RoundedConfig.scheme roundedRiemann
  simp only [hr]
  exact this

theorem mirror_flux_normal (a : FState (Var np)) : (c.scheme fl np).flux fl d (mirArr d a) =
    fun v i => -mirSign d v * (c.scheme fl np).flux fl d a v (mirFace d i) := by
  have hs (v : Var np) : -mirSign d v = 1 ∨ -mirSign d v = -1 := by rcases mirSign_cases d v with h | h <;> simp [h]
  have hT (e : Fin 3) (he : e ≠ d) (b : FState (Var np)) : roundedTrans fl (c.p e) e (fun v i => -mirSign d v * b v (mirFace d i)) =
      fun v i => -mirSign d v * roundedTrans fl (c.p e) e b v (mirFace d i) :=
    sweep_sign H e _ _ (fun v => -mirSign d v) hs (mirFace d) (.inl (mirFace_add d e he)) b
  have ht : (transverseOrder d).1 ≠ d ∧ (transverseOrder d).2 ≠ d := by
    have : ∀ d : Fin 3, (transverseOrder d).1 ≠ d ∧ (transverseOrder d).2 ≠ d := by decide
    exact this d
  unfold RoundedScheme.flux
  simp only [show (c.scheme fl np).p = c.p from rfl, mirArr_interp H d c.p hp _ "c" (.inl rfl),
    mirArr_interp H d c.p hp _ "l" (.inr (.inl rfl)), mirArr_interp H d c.p hp _ "r" (.inr (.inr rfl))]
  rw [← hT _ ht.2, ← hT _ ht.1]
  congr 2
  funext x i
  have hl : mirIx d i = mirFace d i - Pi.single d 1 := by
    funext f
    by_cases hf : f = d
    · subst hf; simp [mirIx, mirFace]; ring
    · simp [mirIx, mirFace, Function.update_of_ne hf, Pi.single_eq_of_ne hf]
  have hl' : mirIx d (i - Pi.single d 1) = mirFace d i := by
    funext f
    by_cases hf : f = d
    · subst hf; simp [mirIx, mirFace]; ring
    · simp [mirIx, mirFace, Function.update_of_ne hf, Pi.single_eq_of_ne hf]
  -- at degree zero both sides of a cell have the same value
  have hlr : conservativeWeights 0 "l" = conservativeWeights 0 "r" := by decide +kernel
  have hlr' (b : FState (Var np)) : roundedInterp fl (c.p d) d "l" b = roundedInterp fl (c.p d) d "r" b := by
    unfold roundedInterp
    rw [hp, hlr]
  have := congrFun (mirror_llf_normal H d c.gas
    (fun y => roundedInterp fl (c.p d) d "r" (roundedInterp fl (c.p (centerOrder d).2) (centerOrder d).2 "c"
      (roundedInterp fl (c.p (centerOrder d).1) (centerOrder d).1 "c" a)) y (mirFace d i - Pi.single d 1))
    (fun y => roundedInterp fl (c.p d) d "r" (roundedInterp fl (c.p (centerOrder d).2) (centerOrder d).2 "c"
      (roundedInterp fl (c.p (centerOrder d).1) (centerOrder d).1 "c" a)) y (mirFace d i))) x
  simp only [hlr']
  unfold mirArr
  simp only [hl, hl']
  unfold RoundedConfig.scheme roundedRiemann
  simp only [hr]
  refine this.trans ?_
  show -(mirSign d x * _) = _
  rw [neg_mul]

end

end FVHOE
