import Mathlib.Tactic.Module
import Verif.Proofs.Lattice

/-! Affine conditions on the state carried through the flux computation, on the boxes it touches. -/

set_option linter.unusedSectionVars false

namespace FVHOE

variable {K : Type} [Field K] [LinearOrder K] [IsStrictOrderedRing K]
variable {V : Type} [AddCommGroup V] [Module K V] {V' : Type} [AddCommGroup V'] [Module K V']

/-- A condition that survives adding multiples of differences. -/
def AffClosed (K : Type) [Field K] {V : Type} [AddCommGroup V] [Module K V] (P : V → Prop) : Prop :=
  ∀ (a b c : V) (s : K), P a → P b → P c → P (a + s • (b - c))

/-- The condition holds on the cells `0..n-1` widened by `m` layers. -/
def OnBox (n m : Ix) (P : V → Prop) (Φ : Ix → V) : Prop :=
  ∀ i : Ix, (∀ d, -m d ≤ i d ∧ i d < n d + m d) → P (Φ i)

theorem OnBox.mono {n m m' : Ix} {P : V → Prop} {Φ : Ix → V} (h : OnBox n m P Φ)
    (hm : ∀ d, m' d ≤ m d) : OnBox n m' P Φ := fun i hi => h i fun d => by
  have := hi d
  have := hm d
  omega

theorem AffClosed.wsum {P : V → Prop} (hP : AffClosed K P) (b : V) (hb : P b) (f : ℤ → V) :
    ∀ (ws : List ℚ) (s : ℤ) (a : V), P a → (∀ k, s ≤ k → k < s + ws.length → P (f k)) →
      P (a + FVHOE.wsum K ws s f - ((ws.sum : ℚ) : K) • b) := by
  intro ws
  induction ws with
  | nil => intro s a ha _; simpa [FVHOE.wsum] using ha
  | cons w ws ih =>
    intro s a ha h
    have h1 : P (a + (w : K) • (f s - b)) :=
      hP _ _ _ _ ha (h s le_rfl (by simp only [List.length_cons]; push_cast; omega)) hb
    have := ih (s + 1) _ h1 fun k h1 h2 => h k (by omega) (by simp only [List.length_cons]; push_cast; omega)
    convert this using 1
    simp only [FVHOE.wsum, List.sum_cons, Rat.cast_add]
    module

theorem AffClosed.wsum_one {P : V → Prop} (hP : AffClosed K P) (f : ℤ → V) (ws : List ℚ) (s : ℤ)
    (hs : ws.sum = 1) (h : ∀ k, s ≤ k → k < s + ws.length → P (f k)) : P (FVHOE.wsum K ws s f) := by
  have hne : ws ≠ [] := by rintro rfl; simp at hs
  have hl : 0 < ws.length := List.length_pos_of_ne_nil hne
  have h0 : P (f s) := h s le_rfl (by omega)
  have := hP.wsum (f s) h0 f ws s (f s) h0 h
  rw [hs] at this
  simpa using this

theorem OnBox.sweep {n m : Ix} {P : V → Prop} (hP : AffClosed K P) {Φ : Ix → V} (d : Fin 3) (r : ℕ)
    (ws : List ℚ) (hl : ws.length ≤ 2 * r + 1) (hs : ws.sum = 1)
    (h : OnBox n (m + Pi.single d (r : ℤ)) P Φ) : OnBox n m P (lsweep K d r ws Φ) := by
  intro i hi
  refine hP.wsum_one _ ws _ hs fun k h1 h2 => h _ fun e => ?_
  have := hi e
  by_cases he : e = d
  · subst he; simp; omega
  · simpa [he] using this

theorem OnBox.center {n m : Ix} {P : V → Prop} (hP : AffClosed K P) {Φ : Ix → V} (d : Fin 3) (p : ℕ)
    (hp : p ≤ 8) (h : OnBox n (m + Pi.single d (ceilHalf p : ℤ)) P Φ) : OnBox n m P (latC K p d Φ) :=
  h.sweep hP d _ _ (wts_c_len hp "c" (by simp)).le (wts_sum hp).2.1

theorem OnBox.trans {n m : Ix} {P : V → Prop} (hP : AffClosed K P) {Φ : Ix → V} (d : Fin 3) (p : ℕ)
    (hp : p ≤ 8) (h : OnBox n (m + Pi.single d (ceilHalf p : ℤ)) P Φ) : OnBox n m P (latT K p d Φ) :=
  h.sweep hP d _ _ (wts_t_len hp).le (wts_sum hp).2.2.2

theorem OnBox.centers {n m : Ix} {P : V → Prop} (hP : AffClosed K P) {Φ : Ix → V} (p : Fin 3 → ℕ)
    (hp : ∀ d, p d ≤ 8) (h : OnBox n (fun d => m d + ceilHalf (p d)) P Φ) :
    OnBox n m P (latCenters K p Φ) := by
  unfold latCenters
  refine OnBox.center hP 2 _ (hp 2) (OnBox.center hP 1 _ (hp 1) (OnBox.center hP 0 _ (hp 0) (h.mono ?_)))
  intro d
  match d with
  | 0 => simp
  | 1 => simp
  | 2 => simp

theorem OnBox.prim {n m : Ix} {Pc Pp : V → Prop} (hc : AffClosed K Pc) (hp : AffClosed K Pp) {Φ : Ix → V}
    (prim : V → V) (p : Fin 3 → ℕ) (hp8 : ∀ d, p d ≤ 8)
    (h : OnBox n (fun d => m d + 2 * ceilHalf (p d)) Pc Φ)
    (hprim : OnBox n (fun d => m d + ceilHalf (p d)) (fun v => Pc v → Pp (prim v)) (latCenters K p Φ)) :
    OnBox n m Pp (latPrim K prim p Φ) := by
  have h1 : OnBox n (fun d => m d + ceilHalf (p d)) Pc (latCenters K p Φ) :=
    OnBox.centers hc p hp8 (h.mono fun d => by beta_reduce; omega)
  have h2 : OnBox n (fun d => m d + ceilHalf (p d)) Pp (fun i => prim (latCenters K p Φ i)) :=
    fun i hi => hprim i hi (h1 i hi)
  unfold latPrim
  refine OnBox.trans hp 2 _ (hp8 2) (OnBox.trans hp 1 _ (hp8 1) (OnBox.trans hp 0 _ (hp8 0) (h2.mono ?_)))
  intro d
  match d with
  | 0 => simp
  | 1 => simp
  | 2 => simp

/-- The slope limiter keeps limited face values of cells with `P` in `P`. -/
def SlopeKeeps (K : Type) [Field K] {V : Type} [AddCommGroup V] [Module K V] (P : V → Prop)
    (slope : Option (V → V → V)) : Prop :=
  ∀ s, slope = some s → ∀ a b c, P a → P b → P c →
    P (b - (1 / 2 : K) • s (b - a) (c - b)) ∧ P (b + (1 / 2 : K) • s (b - a) (c - b))

theorem OnBox.faces {n m : Ix} {P : V → Prop} (hP : AffClosed K P) {Φ : Ix → V} (d : Fin 3) (p : ℕ)
    (hp : p ≤ 8) (slope : Option (V → V → V)) (hs : SlopeKeeps K P slope)
    (h : OnBox n (m + Pi.single d (ceilHalf p : ℤ)) P Φ) :
    OnBox n m P (latFaceL K p d slope Φ) ∧ OnBox n m P (latFaceR K p d slope Φ) := by
  have hl : OnBox n m P (latL K p d Φ) :=
    h.sweep hP d _ _ (wts_c_len hp "l" (by simp)).le (wts_sum hp).1
  have hr : OnBox n m P (latR K p d Φ) :=
    h.sweep hP d _ _ (wts_c_len hp "r" (by simp)).le (wts_sum hp).2.2.1
  cases slope with
  | none => exact ⟨hl, hr⟩
  | some s =>
    unfold latFaceL latFaceR
    simp only
    by_cases h1 : p = 1
    · subst h1
      simp only [if_true]
      have key : ∀ i : Ix, (∀ d, -m d ≤ i d ∧ i d < n d + m d) →
          P (Φ (i - Pi.single d 1)) ∧ P (Φ i) ∧ P (Φ (i + Pi.single d 1)) := by
        intro i hi
        have c1 : ((ceilHalf 1 : ℕ) : ℤ) = 1 := rfl
        rw [c1] at h
        refine ⟨h _ fun e => ?_, h _ fun e => ?_, h _ fun e => ?_⟩ <;> have := hi e <;>
          by_cases he : e = d <;> simp [he] <;> first | (subst he; omega) | omega
      constructor <;> intro i hi <;> obtain ⟨ha, hb, hc⟩ := key i hi
      · exact (hs s rfl _ _ _ ha hb hc).1
      · exact (hs s rfl _ _ _ ha hb hc).2
    · simp only [if_neg h1]
      exact ⟨hl, hr⟩

/-- The states on the two sides of face `i`. -/
def faceStates (K : Type) [Field K] {V : Type} [AddCommGroup V] [Module K V] (p : Fin 3 → ℕ)
    (slope : Option (V → V → V)) (d : Fin 3) (W : Ix → V) (i : Ix) : V × V :=
  (latFaceR K (p d) d slope (latLine K p d W) (i - Pi.single d 1),
    latFaceL K (p d) d slope (latLine K p d W) i)

/-- The margins of the faces whose midpoint fluxes are used. -/
def midMargin (p : Fin 3 → ℕ) (d : Fin 3) : Ix := fun e => if e = d then 0 else ceilHalf (p e)

/-- The faces whose midpoint fluxes are used. -/
def InMid (n : Fin 3 → ℕ) (p : Fin 3 → ℕ) (d : Fin 3) (i : Ix) : Prop :=
  ∀ e, -midMargin p d e ≤ i e ∧ i e < (n e : ℤ) + (Pi.single d 1 : Ix) e + midMargin p d e

theorem OnBox.flux {n m : Ix} {Pp Pf : V → Prop} (hpA : AffClosed K Pp) (hfA : AffClosed K Pf) {W : Ix → V}
    (riem : V → V → V) (p : Fin 3 → ℕ) (hp : ∀ d, p d ≤ 8) (slope : Option (V → V → V))
    (hs : SlopeKeeps K Pp slope) (d : Fin 3)
    (hm : ∀ e, 2 * (ceilHalf (p e) : ℤ) ≤ m e) (hmd : (ceilHalf (p d) : ℤ) + 1 ≤ m d)
    (hW : OnBox n m Pp W)
    (hr : ∀ i : Ix, (∀ e, -midMargin p d e ≤ i e ∧
        i e < (n + Pi.single d 1 : Ix) e + midMargin p d e) →
      Pp (faceStates K p slope d W i).1 → Pp (faceStates K p slope d W i).2 →
      Pf (riem (faceStates K p slope d W i).1 (faceStates K p slope d W i).2)) :
    OnBox (n + Pi.single d 1 : Ix) 0 Pf (latFlux K riem p slope d W) := by
  have o : ∃ o1 o2 q1 q2, centerOrder d = (o1, o2) ∧ transverseOrder d = (q1, q2) ∧ o1 ≠ o2 ∧ o1 ≠ d ∧
      o2 ≠ d ∧ q1 ≠ q2 ∧ q1 ≠ d ∧ q2 ≠ d := by
    match d with
    | 0 => exact ⟨_, _, _, _, rfl, rfl, by decide⟩
    | 1 => exact ⟨_, _, _, _, rfl, rfl, by decide⟩
    | 2 => exact ⟨_, _, _, _, rfl, rfl, by decide⟩
  obtain ⟨o1, o2, q1, q2, eo, eq, h12, h1d, h2d, k12, k1d, k2d⟩ := o
  have hcov := cov3 d o1 o2 h12 h1d h2d
  have hcov' := cov3 d q1 q2 k12 k1d k2d
  have hline : OnBox n (fun e => if e = d then (ceilHalf (p e) : ℤ) + 1 else ceilHalf (p e)) Pp
      (latLine K p d W) := by
    unfold latLine
    rw [eo]
    refine OnBox.center hpA o2 _ (hp _) (OnBox.center hpA o1 _ (hp _) (hW.mono fun e => ?_))
    have := hm e
    rcases hcov e with rfl | rfl | rfl
    · simp [h1d.symm, h2d.symm]; omega
    · simp [h12, h1d]; omega
    · simp [h12.symm, h2d]; omega
  have hface := OnBox.faces (m := fun e => if e = d then 1 else ceilHalf (p e)) hpA d (p d) (hp d) slope hs
    (hline.mono fun e => by
      by_cases he : e = d
      · subst he; simp; omega
      · simp [he])
  have hmid : OnBox (n + Pi.single d 1 : Ix) (midMargin p d) Pf (latMid K riem p slope d W) := by
    intro i hi
    refine hr i hi (hface.2 _ fun e => ?_) (hface.1 _ fun e => ?_) <;> have := hi e <;>
      by_cases he : e = d <;> simp [he, midMargin] at this ⊢ <;> first | (subst he; omega) | omega
  unfold latFlux
  rw [eq]
  refine OnBox.trans hfA q2 _ (hp q2) (OnBox.trans hfA q1 _ (hp q1) (hmid.mono fun e => ?_))
  unfold midMargin
  rcases hcov' e with rfl | rfl | rfl
  · simp [k1d.symm, k2d.symm]
  · simp [k12, k1d]
  · simp [k12.symm, k2d]

/-! ### Continuation -/

/-- The ghost rule keeps the condition. -/
def Ghost.Keeps (P : V → Prop) : Ghost V → Prop
  | .clamp => True
  | .mirror σ => ∀ v, P v → P (σ v)
  | .wrap => True
  | .fixed g => ∀ i, P (g i)

theorem extAll_keeps (n : Fin 3 → ℕ) (gl gr : Fin 3 → Ghost V) (P : V → Prop)
    (hl : ∀ d, (gl d).Keeps P) (hr : ∀ d, (gr d).Keeps P) (U : Ix → V) (h : ∀ i, P (U i)) (i : Ix) :
    P (extAll n gl gr U i) := by
  have key : ∀ (m : ℤ) (d : Fin 3) (a b : Ghost V) (Φ : Ix → V), a.Keeps P → b.Keeps P → (∀ i, P (Φ i)) →
      ∀ i, P (extAxis m d a b Φ i) := by
    intro m d a b Φ ha hb hΦ i
    unfold extAxis
    split_ifs
    · cases a with
      | clamp => exact hΦ _
      | mirror σ => exact ha _ (hΦ _)
      | wrap => exact hΦ _
      | fixed g => exact ha _
    · cases b with
      | clamp => exact hΦ _
      | mirror σ => exact hb _ (hΦ _)
      | wrap => exact hΦ _
      | fixed g => exact hb _
    · exact hΦ i
  exact key _ 2 _ _ _ (hl 2) (hr 2) (key _ 1 _ _ _ (hl 1) (hr 1) (key _ 0 _ _ _ (hl 0) (hr 0) h)) i

/-- On the padded box only the values in the cells matter. -/
theorem ext_onBox (S : Scheme K V) (gw : Fin 3 → ℕ) (t : K) (gl gr : Fin 3 → Ghost V)
    (hs : Sides S gw t gl gr) (P : V → Prop) (hl : ∀ d, (gl d).Keeps P) (hr : ∀ d, (gr d).Keeps P)
    (hn : ∀ d, 1 ≤ S.n d) (u : Ix → V) (hu : ∀ i, InCells S.n i → P (u i)) :
    OnBox (fun d => S.n d) (fun d => gw d) P (extAll S.n gl gr u) := by
  intro i hi
  rw [extAll_congr S.bc S.negate S.n gw t gl gr (fun d => (hs d).1) (fun d => (hs d).2) u
    (fun i => if InCells S.n i then u i else u 0) (fun j hj => (if_pos hj).symm) i hi]
  refine extAll_keeps S.n gl gr P hl hr _ (fun j => ?_) i
  split
  · rename_i h; exact hu j h
  · exact hu 0 fun d => ⟨le_rfl, by have := hn d; simp only [Pi.zero_apply]; omega⟩

/-- What is asked of one flux evaluation with degrees `p` for the conditions to be carried on: the
conversion to primitive variables at the centres it is applied to, and the numerical flux at the
faces it is applied to. -/
structure Carries (S : Scheme K V) (Pc Pp : V → Prop) (Pf : Fin 3 → V → Prop) (p : Fin 3 → ℕ)
    (slope : Option (V → V → V)) (Φ : Ix → V) : Prop where
  prim : OnBox (fun d => S.n d) (fun d => gwMargin S p d + ceilHalf (p d))
    (fun v => Pc v → Pp (S.prim v)) (latCenters K p Φ)
  keeps : SlopeKeeps K Pp slope
  riem : ∀ d, S.active d = true → ∀ i : Ix, InMid S.n p d i →
      let x := faceStates K p slope d (latPrim K S.prim p Φ) i
      Pp x.1 → Pp x.2 → Pf d (S.riem d x.1 x.2)

theorem schemeFlux_closed (S : Scheme K V) (Pc Pp : V → Prop) (Pf : Fin 3 → V → Prop)
    (hc : AffClosed K Pc) (hp : AffClosed K Pp) (hf : ∀ d, AffClosed K (Pf d)) (p : Fin 3 → ℕ)
    (hp8 : ∀ d, p d ≤ 8) (hin : ∀ d, S.active d = false → p d = 0) (slope : Option (V → V → V))
    (Φ : Ix → V) (hΦ : OnBox (fun d => S.n d) (fun d => fluxWidth S p d) Pc Φ)
    (hC : Carries S Pc Pp Pf p slope Φ) (d : Fin 3) (hd : S.active d = true) (i : Ix)
    (hi : InFaces S.n d i) : Pf d (schemeFlux S p slope Φ d i) := by
  have hb := fluxGw_bound p
  have hW : OnBox (fun d => S.n d) (gwMargin S p) Pp (latPrim K S.prim p Φ) := by
    refine OnBox.prim hc hp S.prim p hp8 (hΦ.mono fun e => ?_) hC.prim
    unfold gwMargin fluxWidth
    split <;> push_cast <;> omega
  refine OnBox.flux hp (hf d) (S.riem d) p hp8 slope hC.keeps d ?_ ?_ hW (hC.riem d hd) i ?_
  · intro e
    unfold gwMargin
    split
    · have := (hb e).2; omega
    · rename_i h
      rw [hin e (by simpa using h)]
      simp [ceilHalf]
  · unfold gwMargin
    rw [if_pos hd]
    have := (hb d).1
    omega
  · intro e
    have := hi e
    simp only [Pi.zero_apply, Pi.add_apply]
    omega

/-- If every flux is in the condition, the derivative is in the module of its differences. -/
theorem rhs_closed (S : Scheme K V) (Pc Pp : V → Prop) (Pf : Fin 3 → V → Prop) (N : Submodule K V)
    (hc : AffClosed K Pc) (hp : AffClosed K Pp) (hf : ∀ d, AffClosed K (Pf d))
    (hN : ∀ d a b, Pf d a → Pf d b → a - b ∈ N) (hp8 : ∀ d, S.p d ≤ 8) (hn : ∀ d, 1 ≤ S.n d) (t : K)
    (gl gr : Fin 3 → Ghost V) (hs : Sides S (fluxWidth S S.p) t gl gr)
    (hl : ∀ d, (gl d).Keeps Pc) (hr : ∀ d, (gr d).Keeps Pc) (u : Ix → V)
    (hu : ∀ i, InCells S.n i → Pc (u i)) (hC : Carries S Pc Pp Pf S.p none (extAll S.n gl gr u))
    (hL : ∀ L, S.limiting = some L → ∃ gl' gr', Sides S (fluxWidth S (fallbackP S.p)) t gl' gr' ∧
      (∀ d, (gl' d).Keeps Pc) ∧ (∀ d, (gr' d).Keeps Pc) ∧
      Carries S Pc Pp Pf (fallbackP S.p) L.slope (extAll S.n gl' gr' u))
    (junk : ℕ → Ix → V) (mem : Fin 3 → Ix → V) (t' : K) (dt : K) (D : Ix → V)
    (h : solverRHS S junk mem t t' u = .ok (dt, D)) (i : Ix) : D i ∈ N := by
  have hdiv : ∀ F : Fin 3 → Ix → V, (∀ d, S.active d = true → ∀ i, InFaces S.n d i → Pf d (F d i)) →
      ∀ i, InCells S.n i → latDiv S.active S.h F i ∈ N := by
    intro F hF i hi
    unfold latDiv
    refine N.sum_mem fun d _ => ?_
    split
    · rename_i hd
      refine N.smul_mem _ (hN d _ _ (hF d hd _ fun e => ?_) (hF d hd _ fun e => ?_)) <;>
        have := hi e <;> by_cases he : e = d <;> simp [he] <;> first | (subst he; omega) | omega
    · exact N.zero_mem
  have h1 := schemeFlux_closed S Pc Pp Pf hc hp hf S.p hp8 S.inactive_p none _
    (ext_onBox S _ t gl gr hs Pc hl hr hn u hu) hC
  cases hlim : S.limiting with
  | none =>
    obtain ⟨dt', _, e⟩ := rhs_spec S hlim hp8 hn t gl gr hs junk mem t' u u (fun _ _ => rfl)
    rw [h] at e
    cases e
    beta_reduce
    split
    · rename_i hi
      exact hdiv _ h1 i hi
    · exact N.zero_mem
  | some L =>
    obtain ⟨gl', gr', hs', hl', hr', hC'⟩ := hL L hlim
    have hin' : ∀ d, S.active d = false → fallbackP S.p d = 0 := by
      intro d hd
      unfold fallbackP
      rw [S.inactive_p d hd]
      rfl
    have h2 := schemeFlux_closed S Pc Pp Pf hc hp hf (fallbackP S.p)
      (fun d => (fallbackP_le S.p d).trans (by norm_num)) hin' L.slope _
      (ext_onBox S _ t gl' gr' hs' Pc hl' hr' hn u hu) hC'
    obtain ⟨θ, _, e, _⟩ := rhs_blend S L hlim hp8 hn t gl gr gl' gr' hs hs' junk mem t' u u
      (fun _ _ => rfl) dt D h
    rw [e]
    beta_reduce
    split
    · rename_i hi
      refine hdiv _ (fun d hd i hi => ?_) i hi
      have := hf d _ _ _ (θ d i) (h1 d hd i hi) (h2 d hd i hi) (h1 d hd i hi)
      convert this using 1
      unfold blendFlux
      module
    · exact N.zero_mem

end FVHOE
