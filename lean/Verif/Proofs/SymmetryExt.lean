import Verif.Proofs.Symmetry
import Verif.Proofs.Sides

/-! Continuation beyond the boundaries and the time step under exchanging and reversing axes. -/

set_option linter.unusedSectionVars false

namespace FVHOE

variable {K : Type} [Field K] [LinearOrder K] [IsStrictOrderedRing K]
variable {V : Type} [AddCommGroup V] [Module K V]

/-- No prescribed values. -/
def Ghost.Plain : Ghost V → Prop
  | .fixed _ => False
  | _ => True

/-- What a continuation does to the values. -/
def Ghost.fn : Ghost V → V → V
  | .mirror σ => σ
  | _ => id

/-- Where a continuation reads, left of the box. -/
def Ghost.ixL (n z : ℤ) : Ghost V → ℤ
  | .clamp => 0
  | .mirror _ => -1 - z
  | .wrap => z % n
  | .fixed _ => z

/-- Where a continuation reads, right of the box. -/
def Ghost.ixR (n z : ℤ) : Ghost V → ℤ
  | .clamp => n - 1
  | .mirror _ => 2 * n - 1 - z
  | .wrap => z % n
  | .fixed _ => z

/-- What the continuation along an axis does to the values. -/
def axFn (n : ℤ) (gl gr : Ghost V) (z : ℤ) (v : V) : V :=
  if z < 0 then gl.fn v else if n ≤ z then gr.fn v else v

/-- Where the continuation along an axis reads. -/
def axIx (n : ℤ) (gl gr : Ghost V) (z : ℤ) : ℤ :=
  if z < 0 then gl.ixL n z else if n ≤ z then gr.ixR n z else z

theorem extAxis_plain (n : ℤ) (d : Fin 3) {gl gr : Ghost V} (hl : gl.Plain) (hr : gr.Plain) (Φ : Ix → V)
    (i : Ix) : extAxis n d gl gr Φ i = axFn n gl gr (i d) (Φ (Function.update i d (axIx n gl gr (i d)))) := by
  unfold extAxis axFn axIx
  split_ifs
  · cases gl <;> first | rfl | exact hl.elim
  · cases gr <;> first | rfl | exact hr.elim
  · simp

/-- The value maps of two sides commute. -/
def Ghost.Commutes (g g' : Ghost V) : Prop := ∀ v, g.fn (g'.fn v) = g'.fn (g.fn v)

theorem axFn_comm {n m : ℤ} {gl gr gl' gr' : Ghost V} (h1 : gl.Commutes gl') (h2 : gl.Commutes gr')
    (h3 : gr.Commutes gl') (h4 : gr.Commutes gr') (z y : ℤ) (v : V) :
    axFn n gl gr z (axFn m gl' gr' y v) = axFn m gl' gr' y (axFn n gl gr z v) := by
  unfold axFn
  split_ifs <;> first | rfl | exact h1 v | exact h2 v | exact h3 v | exact h4 v

theorem extAxis_comm {n m : ℤ} {d e : Fin 3} (hde : d ≠ e) {gl gr gl' gr' : Ghost V} (p1 : gl.Plain)
    (p2 : gr.Plain) (p3 : gl'.Plain) (p4 : gr'.Plain) (h1 : gl.Commutes gl') (h2 : gl.Commutes gr')
    (h3 : gr.Commutes gl') (h4 : gr.Commutes gr') (Φ : Ix → V) :
    extAxis n d gl gr (extAxis m e gl' gr' Φ) = extAxis m e gl' gr' (extAxis n d gl gr Φ) := by
  funext i
  rw [extAxis_plain n d p1 p2, extAxis_plain m e p3 p4, extAxis_plain m e p3 p4, extAxis_plain n d p1 p2,
    axFn_comm h1 h2 h3 h4, Function.update_of_ne hde, Function.update_of_ne hde.symm, Function.update_comm hde]

/-- Corresponding continuations of two problems. -/
inductive Ghost.Corr (M : V →ₗ[K] V) : Ghost V → Ghost V → Prop
  | clamp : Ghost.Corr M .clamp .clamp
  | wrap : Ghost.Corr M .wrap .wrap
  | mirror (s' s : V → V) : (∀ v, s' (M v) = M (s v)) → Ghost.Corr M (.mirror s') (.mirror s)

theorem Ghost.Corr.plain {M : V →ₗ[K] V} {g' g : Ghost V} (h : Ghost.Corr M g' g) : g'.Plain ∧ g.Plain := by
  cases h <;> exact ⟨trivial, trivial⟩

theorem Ghost.Corr.fn {M : V →ₗ[K] V} {g' g : Ghost V} (h : Ghost.Corr M g' g) (v : V) :
    g'.fn (M v) = M (g.fn v) := by
  cases h with
  | clamp => rfl
  | wrap => rfl
  | mirror s' s hs => exact hs v

theorem Ghost.Corr.ixL {M : V →ₗ[K] V} {g' g : Ghost V} (h : Ghost.Corr M g' g) (n z : ℤ) :
    g'.ixL n z = g.ixL n z := by
  cases h <;> rfl

theorem Ghost.Corr.ixR {M : V →ₗ[K] V} {g' g : Ghost V} (h : Ghost.Corr M g' g) (n z : ℤ) :
    g'.ixR n z = g.ixR n z := by
  cases h <;> rfl

theorem emod_flip {n : ℤ} (hn : 1 ≤ n) (z : ℤ) : (n - 1 - z) % n = n - 1 - z % n := by
  have h1 := Int.emod_nonneg z (b := n) (by omega)
  have h2 := Int.emod_lt_of_pos z (b := n) (by omega)
  have e : n - 1 - z = (n - 1 - z % n) + n * (-(z / n)) := by
    have := Int.emod_add_mul_ediv z n
    linarith [mul_neg n (z / n)]
  rw [e, Int.add_mul_emod_self_left]
  exact Int.emod_eq_of_lt (by omega) (by omega)

theorem Ghost.ix_flip {g : Ghost V} (hg : g.Plain) {n : ℤ} (hn : 1 ≤ n) (z : ℤ) :
    g.ixR n (n - 1 - z) = n - 1 - g.ixL n z ∧ g.ixL n (n - 1 - z) = n - 1 - g.ixR n z := by
  cases g with
  | clamp => simp [Ghost.ixR, Ghost.ixL]
  | mirror s => simp only [Ghost.ixR, Ghost.ixL]; constructor <;> ring
  | wrap => exact ⟨emod_flip hn z, emod_flip hn z⟩
  | fixed _ => exact hg.elim

theorem tau_update (σ : Equiv.Perm (Fin 3)) (fl : Fin 3 → Bool) (b i : Ix) (d : Fin 3) (x : ℤ) :
    tau σ fl b (Function.update i d x) =
      Function.update (tau σ fl b i) (σ d) (if fl d = true then b (σ d) - x else x) := by
  funext e
  obtain ⟨e, rfl⟩ := σ.surjective e
  rw [tau_apply]
  by_cases h : e = d
  · subst h
    rw [Function.update_self, Function.update_self]
  · rw [Function.update_of_ne h, Function.update_of_ne (fun hx => h (σ.injective hx)), tau_apply]

section
variable (σ : Equiv.Perm (Fin 3)) (fl : Fin 3 → Bool) (n : Fin 3 → ℕ) (M : V →ₗ[K] V)

/-- The last cell along every axis. -/
def lastCell : Ix := fun d => (n d : ℤ) - 1

theorem extAxis_tau (hn : ∀ d, 1 ≤ n d) (d : Fin 3) (gl' gr' gl gr : Ghost V)
    (hl : Ghost.Corr M gl' (if fl d = true then gr else gl))
    (hr : Ghost.Corr M gr' (if fl d = true then gl else gr)) (Φ : Ix → V) :
    extAxis (n (σ d)) d gl' gr' (fun i => M (Φ (tau σ fl (lastCell n) i))) =
      fun i => M (extAxis (n (σ d)) (σ d) gl gr Φ (tau σ fl (lastCell n) i)) := by
  funext i
  have pl : gl.Plain ∧ gr.Plain := by
    have h1 := hl.plain.2
    have h2 := hr.plain.2
    split_ifs at h1 h2
    · exact ⟨h2, h1⟩
    · exact ⟨h1, h2⟩
  have hn' : (1 : ℤ) ≤ n (σ d) := by exact_mod_cast hn (σ d)
  rw [extAxis_plain _ _ hl.plain.1 hr.plain.1, extAxis_plain _ _ pl.1 pl.2, tau_update, tau_apply]
  have hb : lastCell n (σ d) = (n (σ d) : ℤ) - 1 := rfl
  generalize i d = z
  rw [hb]
  generalize (n (σ d) : ℤ) = N at *
  by_cases hf : fl d = true
  · simp only [if_pos hf] at hl hr ⊢
    obtain ⟨f1, f2⟩ := Ghost.ix_flip pl.1 hn' z
    obtain ⟨f3, f4⟩ := Ghost.ix_flip pl.2 hn' z
    by_cases h1 : z < 0
    · have h2 : ¬ N - 1 - z < 0 := by omega
      have h3 : N ≤ N - 1 - z := by omega
      simp only [axFn, axIx, if_pos h1, if_neg h2, if_pos h3]
      rw [hl.fn, hl.ixL, f3]
    · by_cases h2 : N ≤ z
      · have h3 : N - 1 - z < 0 := by omega
        simp only [axFn, axIx, if_neg h1, if_pos h2, if_pos h3]
        rw [hr.fn, hr.ixR, f2]
      · have h3 : ¬ N - 1 - z < 0 := by omega
        have h4 : ¬ N ≤ N - 1 - z := by omega
        simp only [axFn, axIx, if_neg h1, if_neg h2, if_neg h3, if_neg h4]
  · simp only [if_neg hf] at hl hr ⊢
    unfold axFn axIx
    split_ifs
    · rw [hl.fn, hl.ixL]
    · rw [hr.fn, hr.ixR]
    · rfl

theorem extAll_tau (hn : ∀ d, 1 ≤ n d) (gl' gr' gl gr : Fin 3 → Ghost V)
    (hl : ∀ d, Ghost.Corr M (gl' d) (if fl d = true then gr (σ d) else gl (σ d)))
    (hr : ∀ d, Ghost.Corr M (gr' d) (if fl d = true then gl (σ d) else gr (σ d)))
    (pl : ∀ d, (gl d).Plain ∧ (gr d).Plain)
    (hc : ∀ d e, (gl d).Commutes (gl e) ∧ (gl d).Commutes (gr e) ∧ (gr d).Commutes (gl e) ∧
      (gr d).Commutes (gr e)) (Φ : Ix → V) :
    extAll (fun d => n (σ d)) gl' gr' (fun i => M (Φ (tau σ fl (lastCell n) i))) =
      fun i => M (extAll n gl gr Φ (tau σ fl (lastCell n) i)) := by
  unfold extAll
  rw [extAxis_tau σ fl n M hn 0 _ _ _ _ (hl 0) (hr 0), extAxis_tau σ fl n M hn 1 _ _ _ _ (hl 1) (hr 1),
    extAxis_tau σ fl n M hn 2 _ _ _ _ (hl 2) (hr 2)]
  have := perm_three (fun d => extAxis (V := V) (n d) d (gl d) (gr d)) (fun d e x => by
    by_cases h : d = e
    · subst h; rfl
    · exact extAxis_comm h (pl d).1 (pl d).2 (pl e).1 (pl e).2 (hc d e).1 (hc d e).2.1 (hc d e).2.2.1
        (hc d e).2.2.2 x) σ Φ
  rw [this]

theorem tau_inj : Function.Surjective (tau σ fl (lastCell n)) := by
  intro j
  refine ⟨fun d => if fl d = true then lastCell n (σ d) - j (σ d) else j (σ d), ?_⟩
  funext e
  obtain ⟨e, rfl⟩ := σ.surjective e
  rw [tau_apply]
  split_ifs <;> ring

theorem tau_cells (i : Ix) : InCells n (tau σ fl (lastCell n) i) ↔ InCells (fun d => n (σ d)) i := by
  unfold InCells
  rw [← σ.forall_congr_right]
  refine forall_congr' fun d => ?_
  rw [tau_apply]
  unfold lastCell
  beta_reduce
  split_ifs
  · omega
  · rfl
end

end FVHOE
