import Mathlib.LinearAlgebra.Prod
import Verif.Proofs.Closed

/-! Two states evolved side by side. -/

set_option linter.unusedSectionVars false

namespace FVHOE

variable {K : Type} [Field K] [LinearOrder K] [IsStrictOrderedRing K]
variable {V : Type} [AddCommGroup V] [Module K V]

/-- The scheme acting on both components of a pair. -/
def Scheme.pair (S : Scheme K V) : Scheme K (V × V) :=
  ⟨S.n, S.p, S.h, fun x => (S.prim x.1, S.prim x.2), fun d x y => (S.riem d x.1 y.1, S.riem d x.2 y.2),
    fun k x => S.speed k x.1, fun d x => (S.negate d x.1, S.negate d x.2), S.cfl, S.fixedDt,
    ⟨fun _ _ => .periodic, fun _ _ => .other, none⟩, none⟩

theorem lsweep_pair (d : Fin 3) (r : ℤ) (ws : List ℚ) (Φ Ψ : Ix → V) :
    lsweep K d r ws (fun i => (Φ i, Ψ i)) = fun i => (lsweep K d r ws Φ i, lsweep K d r ws Ψ i) := by
  funext i
  exact Prod.ext (lsweep_map (LinearMap.fst K V V) d r ws _ i) (lsweep_map (LinearMap.snd K V V) d r ws _ i)

theorem latCenters_pair (p : Fin 3 → ℕ) (Φ Ψ : Ix → V) :
    latCenters K p (fun i => (Φ i, Ψ i)) = fun i => (latCenters K p Φ i, latCenters K p Ψ i) := by
  unfold latCenters latC
  rw [lsweep_pair, lsweep_pair, lsweep_pair]

theorem latPrim_pair (S : Scheme K V) (p : Fin 3 → ℕ) (Φ Ψ : Ix → V) :
    latPrim K S.pair.prim p (fun i => (Φ i, Ψ i)) = fun i => (latPrim K S.prim p Φ i, latPrim K S.prim p Ψ i) := by
  unfold latPrim latT
  rw [latCenters_pair]
  dsimp only [Scheme.pair]
  rw [lsweep_pair, lsweep_pair, lsweep_pair]

theorem schemeFlux_pair (S : Scheme K V) (p : Fin 3 → ℕ) (Φ Ψ : Ix → V) (d : Fin 3) :
    schemeFlux S.pair p none (fun i => (Φ i, Ψ i)) d =
      fun i => (schemeFlux S p none Φ d i, schemeFlux S p none Ψ d i) := by
  unfold schemeFlux
  rw [latPrim_pair]
  generalize latPrim K S.prim p Φ = A
  generalize latPrim K S.prim p Ψ = B
  have hl : latLine K p d (fun i => (A i, B i)) = fun i => (latLine K p d A i, latLine K p d B i) := by
    unfold latLine latC
    rw [lsweep_pair, lsweep_pair]
  have hm : latMid K (S.pair.riem d) p none d (fun i => (A i, B i)) =
      fun i => (latMid K (S.riem d) p none d A i, latMid K (S.riem d) p none d B i) := by
    funext i
    unfold latMid latFaceR latFaceL latL latR
    dsimp only
    rw [hl, lsweep_pair, lsweep_pair]
    rfl
  unfold latFlux
  rw [hm]
  unfold latT
  rw [lsweep_pair, lsweep_pair]

/-- Side rules that a map of the values passes through. -/
def Ghost.Follows (β : V → V) : Ghost V → Prop
  | .clamp => True
  | .mirror σ => ∀ v, σ (β v) = β (σ v)
  | .wrap => True
  | .fixed _ => False

theorem extAxis_comp (β : V → V) (n : ℤ) (d : Fin 3) (gl gr : Ghost V) (hl : gl.Follows β) (hr : gr.Follows β)
    (Φ : Ix → V) : extAxis n d gl gr (fun i => β (Φ i)) = fun i => β (extAxis n d gl gr Φ i) := by
  have l : ∀ i, gl.left n d (fun i => β (Φ i)) i = β (gl.left n d Φ i) := by
    intro i
    match gl, hl with
    | .clamp, _ => rfl
    | .mirror σ, h => exact h _
    | .wrap, _ => rfl
  have r : ∀ i, gr.right n d (fun i => β (Φ i)) i = β (gr.right n d Φ i) := by
    intro i
    match gr, hr with
    | .clamp, _ => rfl
    | .mirror σ, h => exact h _
    | .wrap, _ => rfl
  funext i
  unfold extAxis
  rw [l, r]
  split_ifs <;> rfl

theorem extAll_comp (β : V → V) (n : Fin 3 → ℕ) (gl gr : Fin 3 → Ghost V) (hl : ∀ d, (gl d).Follows β)
    (hr : ∀ d, (gr d).Follows β) (Φ : Ix → V) :
    extAll n gl gr (fun i => β (Φ i)) = fun i => β (extAll n gl gr Φ i) := by
  unfold extAll
  rw [extAxis_comp β _ _ _ _ (hl 0) (hr 0), extAxis_comp β _ _ _ _ (hl 1) (hr 1),
    extAxis_comp β _ _ _ _ (hl 2) (hr 2)]

end FVHOE
