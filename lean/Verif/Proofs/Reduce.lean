import Verif.Proofs.Sides

/-! Lattice functions constant along one direction. -/

set_option linter.unusedSectionVars false

namespace FVHOE

variable {K : Type} [Field K] [LinearOrder K] [IsStrictOrderedRing K]
variable {V : Type} [AddCommGroup V] [Module K V]

/-- The value does not change along `d`. -/
def ConstAlong {α : Type} (d : Fin 3) (Φ : Ix → α) : Prop := ∀ i k, Φ (i + Pi.single d k) = Φ i

theorem ConstAlong.fun_eq {α : Type} {d : Fin 3} {Φ : Ix → α} (h : ConstAlong d Φ) (k : ℤ) :
    (fun i => Φ (i + Pi.single d k)) = Φ := funext fun i => h i k

theorem ConstAlong.update {α : Type} {d : Fin 3} {Φ : Ix → α} (h : ConstAlong d Φ) (i : Ix) (x : ℤ) :
    Φ (Function.update i d x) = Φ i := by
  have : Function.update i d x = i + Pi.single d (x - i d) := by
    funext e
    by_cases he : e = d
    · subst he; simp
    · simp [he]
  rw [this, h]

theorem ConstAlong.map {α β : Type} {d : Fin 3} {Φ : Ix → α} (h : ConstAlong d Φ) (g : α → β) :
    ConstAlong d fun i => g (Φ i) := fun i k => congrArg g (h i k)

theorem ConstAlong.lsweep {d : Fin 3} {Φ : Ix → V} (h : ConstAlong d Φ) (e : Fin 3) (r : ℤ) (ws : List ℚ) :
    ConstAlong d (lsweep K e r ws Φ) := by
  intro i k
  have := congrFun (lsweep_shift (K := K) e r ws Φ (Pi.single d k)) i
  rw [h.fun_eq k] at this
  exact this.symm

theorem ConstAlong.lsweep_self {d : Fin 3} {Φ : Ix → V} (h : ConstAlong d Φ) (r : ℤ) (ws : List ℚ)
    (hw : ws.sum = 1) : FVHOE.lsweep K d r ws Φ = Φ := by
  funext i
  unfold FVHOE.lsweep
  have : (fun k => Φ (i + Pi.single d k)) = fun _ => Φ i := funext fun k => h i k
  rw [this, wsum_const, hw]
  simp

variable {d : Fin 3} {Φ : Ix → V}

/-- The degrees with the one of direction `d` set to zero. -/
def dropDegree (p : Fin 3 → ℕ) (d : Fin 3) : Fin 3 → ℕ := Function.update p d 0

theorem dropDegree_le (p : Fin 3 → ℕ) (d e : Fin 3) : dropDegree p d e ≤ p e := by
  unfold dropDegree
  by_cases h : e = d
  · subst h; simp
  · simp [h]

theorem latC_drop (h : ConstAlong d Φ) (p : Fin 3 → ℕ) (hp : ∀ e, p e ≤ 8) (e : Fin 3) :
    latC K (dropDegree p d e) e Φ = latC K (p e) e Φ ∧ ConstAlong d (latC K (p e) e Φ) := by
  refine ⟨?_, h.lsweep _ _ _⟩
  by_cases he : e = d
  · subst he
    unfold latC
    rw [h.lsweep_self _ _ (wts_sum (hp e)).2.1,
      h.lsweep_self _ _ (wts_sum ((dropDegree_le p e e).trans (hp e))).2.1]
  · rw [show dropDegree p d e = p e from Function.update_of_ne he ..]

theorem latT_drop (h : ConstAlong d Φ) (p : Fin 3 → ℕ) (hp : ∀ e, p e ≤ 8) (e : Fin 3) :
    latT K (dropDegree p d e) e Φ = latT K (p e) e Φ ∧ ConstAlong d (latT K (p e) e Φ) := by
  refine ⟨?_, h.lsweep _ _ _⟩
  by_cases he : e = d
  · subst he
    unfold latT
    rw [h.lsweep_self _ _ (wts_sum (hp e)).2.2.2,
      h.lsweep_self _ _ (wts_sum ((dropDegree_le p e e).trans (hp e))).2.2.2]
  · rw [show dropDegree p d e = p e from Function.update_of_ne he ..]

theorem latPrim_drop (h : ConstAlong d Φ) (prim : V → V) (p : Fin 3 → ℕ) (hp : ∀ e, p e ≤ 8) :
    latPrim K prim (dropDegree p d) Φ = latPrim K prim p Φ ∧ ConstAlong d (latPrim K prim p Φ) := by
  have a0 := latC_drop (K := K) h p hp 0
  have a1 := latC_drop (K := K) a0.2 p hp 1
  have a2 := latC_drop (K := K) a1.2 p hp 2
  have hc : latCenters K (dropDegree p d) Φ = latCenters K p Φ := by
    unfold latCenters
    rw [a0.1, a1.1, a2.1]
  have b : ConstAlong d fun i => prim (latCenters K p Φ i) := a2.2.map prim
  have b0 := latT_drop (K := K) b p hp 0
  have b1 := latT_drop (K := K) b0.2 p hp 1
  have b2 := latT_drop (K := K) b1.2 p hp 2
  refine ⟨?_, b2.2⟩
  unfold latPrim
  rw [hc, b0.1, b1.1, b2.1]

theorem latLine_drop (h : ConstAlong d Φ) (p : Fin 3 → ℕ) (hp : ∀ e, p e ≤ 8) (e : Fin 3) :
    latLine K (dropDegree p d) e Φ = latLine K p e Φ ∧ ConstAlong d (latLine K p e Φ) := by
  have a0 := latC_drop (K := K) h p hp (centerOrder e).1
  have a1 := latC_drop (K := K) a0.2 p hp (centerOrder e).2
  exact ⟨by unfold latLine; rw [a0.1, a1.1], a1.2⟩

theorem latMid_const (h : ConstAlong d Φ) (riem : V → V → V) (p : Fin 3 → ℕ) (e : Fin 3)
    (hp : ∀ e, p e ≤ 8) : ConstAlong d (latMid K riem p none e Φ) := by
  have a := (latLine_drop (K := K) h p hp e).2
  intro i k
  have hR : ConstAlong d (latFaceR K (p e) e none (latLine K p e Φ)) := a.lsweep _ _ _
  have hL : ConstAlong d (latFaceL K (p e) e none (latLine K p e Φ)) := a.lsweep _ _ _
  unfold latMid
  rw [show i + Pi.single d k - Pi.single e 1 = (i - Pi.single e 1) + Pi.single d k by abel, hR, hL]

theorem latFlux_drop (h : ConstAlong d Φ) (riem : V → V → V) (p : Fin 3 → ℕ) (hp : ∀ e, p e ≤ 8) (e : Fin 3)
    (he : e ≠ d) : latFlux K riem (dropDegree p d) none e Φ = latFlux K riem p none e Φ := by
  have m : latMid K riem (dropDegree p d) none e Φ = latMid K riem p none e Φ := by
    unfold latMid
    rw [(latLine_drop (K := K) h p hp e).1, show dropDegree p d e = p e from Function.update_of_ne he ..]
  have mc := latMid_const (K := K) h riem p e hp
  have a0 := latT_drop (K := K) mc p hp (transverseOrder e).1
  have a1 := latT_drop (K := K) a0.2 p hp (transverseOrder e).2
  unfold latFlux
  rw [m, a0.1, a1.1]

theorem latFlux_constAlong (h : ConstAlong d Φ) (riem : V → V → V) (p : Fin 3 → ℕ) (hp : ∀ e, p e ≤ 8) (e : Fin 3) :
    ConstAlong d (latFlux K riem p none e Φ) :=
  ((latMid_const (K := K) h riem p e hp).lsweep _ _ _).lsweep _ _ _

/-- A side that passes on the values, up to a map applied to them. -/
def Ghost.Passes {V : Type} : Ghost V → Prop
  | .clamp => True
  | .mirror σ => σ = id
  | .wrap => True
  | .fixed _ => False

/-- A side whose value depends on the state alone. -/
def Ghost.Moves {V : Type} : Ghost V → Prop
  | .fixed _ => False
  | _ => True

theorem extAxis_self (h : ConstAlong d Φ) (n : ℤ) (gl gr : Ghost V) (hl : gl.Passes) (hr : gr.Passes) :
    extAxis n d gl gr Φ = Φ := by
  have l : ∀ i, gl.left n d Φ i = Φ i := by
    intro i
    match gl, hl with
    | .clamp, _ => exact h.update ..
    | .mirror σ, e => simp only [Ghost.Passes] at e; subst e; exact h.update ..
    | .wrap, _ => exact h.update ..
  have r : ∀ i, gr.right n d Φ i = Φ i := by
    intro i
    match gr, hr with
    | .clamp, _ => exact h.update ..
    | .mirror σ, e => simp only [Ghost.Passes] at e; subst e; exact h.update ..
    | .wrap, _ => exact h.update ..
  funext i
  unfold extAxis
  rw [l, r]
  simp

theorem update_add_same {e : Fin 3} (he : e ≠ d) (i : Ix) (k x : ℤ) :
    Function.update (i + Pi.single d k) e x = Function.update i e x + Pi.single d k := by
  funext c
  by_cases h : c = e
  · subst h; simp [he]
  · simp [h]

theorem extAxis_const (h : ConstAlong d Φ) (n : ℤ) (e : Fin 3) (he : e ≠ d) (gl gr : Ghost V) (hl : gl.Moves)
    (hr : gr.Moves) : ConstAlong d (extAxis n e gl gr Φ) := by
  intro i k
  have hi : (i + Pi.single d k : Ix) e = i e := by simp [he]
  have l : gl.left n e Φ (i + Pi.single d k) = gl.left n e Φ i := by
    match gl, hl with
    | .clamp, _ => simp only [Ghost.left, update_add_same he, h _ k]
    | .mirror σ, _ => simp only [Ghost.left, update_add_same he, h _ k, hi]
    | .wrap, _ => simp only [Ghost.left, update_add_same he, h _ k, hi]
  have r : gr.right n e Φ (i + Pi.single d k) = gr.right n e Φ i := by
    match gr, hr with
    | .clamp, _ => simp only [Ghost.right, update_add_same he, h _ k]
    | .mirror σ, _ => simp only [Ghost.right, update_add_same he, h _ k, hi]
    | .wrap, _ => simp only [Ghost.right, update_add_same he, h _ k, hi]
  unfold extAxis
  rw [hi, l, r, h i k]

/-- Two continuations that agree off `d`, with passing sides along `d`, agree on functions constant along
`d`. -/
theorem extAll_drop (h : ConstAlong d Φ) (n n' : Fin 3 → ℕ) (gl gr gl' gr' : Fin 3 → Ghost V)
    (hd : (gl d).Passes ∧ (gr d).Passes ∧ (gl' d).Passes ∧ (gr' d).Passes)
    (he : ∀ e, e ≠ d → n e = n' e ∧ gl e = gl' e ∧ gr e = gr' e ∧ (gl e).Moves ∧ (gr e).Moves) :
    extAll n gl gr Φ = extAll n' gl' gr' Φ ∧ ConstAlong d (extAll n gl gr Φ) := by
  have one : ∀ (Ψ : Ix → V), ConstAlong d Ψ → ∀ e, extAxis (n e) e (gl e) (gr e) Ψ =
      extAxis (n' e) e (gl' e) (gr' e) Ψ ∧ ConstAlong d (extAxis (n e) e (gl e) (gr e) Ψ) := by
    intro Ψ hΨ e
    by_cases h' : e = d
    · subst h'
      rw [extAxis_self hΨ _ _ _ hd.1 hd.2.1, extAxis_self hΨ _ _ _ hd.2.2.1 hd.2.2.2]
      exact ⟨rfl, hΨ⟩
    · obtain ⟨e1, e2, e3, e4, e5⟩ := he e h'
      exact ⟨by rw [e1, e2, e3], extAxis_const hΨ _ e h' _ _ e4 e5⟩
  have a0 := one Φ h 0
  have a1 := one _ a0.2 1
  have a2 := one _ a1.2 2
  refine ⟨?_, a2.2⟩
  unfold extAll
  rw [a2.1, a1.1, a0.1]

end FVHOE
