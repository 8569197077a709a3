import Mathlib.Tactic.Ring
import Mathlib.Tactic.FieldSimp
import Mathlib.Tactic.NormNum
import Mathlib.Tactic.LinearCombination
import Mathlib.Tactic.Positivity
import Verif.Proofs.BC
import Verif.Model.Mesh
import Verif.Props.C13_C18

/-!
# C41-C44 Ghost cells; C51 Mesh
-/

set_option linter.unusedSectionVars false

namespace FVHOE

/-! ### C41 -/

/-- **C41** With periodic sides in every padded direction and a ghost width of at most the number of
cells, the padded array holds at index `j` the cell `(j - gw) mod n`, in every direction at once
(corners included), whatever the uninitialised memory held. -/
theorem C41_periodic {K V : Type} (bc : BC K V) (negate : Fin 3 → V → V) (n gw : Fin 3 → ℕ) (t : K)
    (hk : ∀ d s, gw d ≠ 0 → bc.kind d s = .periodic) (hn : ∀ d, 1 ≤ n d) (hgw : ∀ d, gw d ≤ n d)
    (u junk : Ix → V) :
    ∃ A, bc.apply negate ⟨n, u⟩ gw t junk = .ok A ∧ (∀ d, A.shape d = n d + 2 * gw d) ∧
      ∀ j, A.InB j → A.get j = u fun d => (j d - gw d) % n d := by
  have hs : ∀ d s, SideSpec bc negate n gw t d s .wrap := by
    intro d s
    by_cases hg : gw d = 0
    · exact .inactive hg _
    · exact .periodic (hk d s hg) (hk d .l hg) (hgw d) (hn d)
  obtain ⟨A, e, r⟩ := apply_spec bc negate n gw t (fun _ => .wrap) (fun _ => .wrap)
    (fun d => hs d .l) (fun d => hs d .r) u junk
  refine ⟨A, e, ?_, ?_⟩
  · intro d
    have := r.1 d
    simp only [padLo, padHi] at this
    omega
  · intro j hj
    rw [r.2 j hj]
    have key : ∀ (d : Fin 3) (Φ : Ix → V) (i : Ix),
        extAxis (n d) d .wrap .wrap Φ i = Φ (Function.update i d (i d % (n d : ℤ))) := by
      intro d Φ i
      unfold extAxis
      have := hn d
      split_ifs with h1 h2
      · rfl
      · rfl
      · rw [Int.emod_eq_of_lt (by omega) (by omega)]
        simp
    unfold extAll
    rw [key, key, key]
    congr 1
    funext d
    match d with
    | 0 => simp [padLo, sub_eq_add_neg]
    | 1 => simp [padLo, sub_eq_add_neg]
    | 2 => simp [padLo, sub_eq_add_neg]

/-- The periodic condition the solver uses by default. -/
def allPeriodic (K V : Type) : BC K V := ⟨fun _ _ => .periodic, fun _ _ => .other, none⟩

example : ∃ (n gw : Fin 3 → ℕ), (∀ d s, gw d ≠ 0 → (allPeriodic ℚ ℚ).kind d s = .periodic) ∧
    (∀ d, 1 ≤ n d) ∧ (∀ d, gw d ≤ n d) ∧ gw 0 = 2 ∧ gw 1 = 3 ∧ gw 2 = 0 :=
  ⟨![4, 3, 1], ![2, 3, 0], fun _ _ _ => rfl, by decide, by decide, rfl, rfl, rfl⟩

/-! ### C42 -/

/-- The cell from which a free, outflow or reflective ghost cell takes its value. -/
def sourceCell (isFree : Side → Prop) [DecidablePred isFree] (n i : ℤ) : ℤ :=
  if i < 0 then (if isFree .l then 0 else -1 - i)
  else if n ≤ i then (if isFree .r then n - 1 else 2 * n - 1 - i)
  else i

/-- Whether index `i` lies beyond a side of the given kind. -/
def beyondKind (k : Side → BCKind) (n i : ℤ) (kind : BCKind) : Prop :=
  (i < 0 ∧ k .l = kind) ∨ (n ≤ i ∧ k .r = kind)

instance (k : Side → BCKind) (n i : ℤ) (kind : BCKind) : Decidable (beyondKind k n i kind) := by
  unfold beyondKind; infer_instance

/-- **C42** With free, outflow and reflective sides in any combination, every entry of the padded
array, corners included, is the value of the mirror cell (edge cell on free sides), and exactly the
components normal to the reflective sides it lies beyond are negated. Entries over the domain are
unchanged (`sourceCell` is then the identity). -/
theorem C42_ghosts {K V : Type} (bc : BC K V) (negate : Fin 3 → V → V) (n gw : Fin 3 → ℕ) (t : K)
    (hk : ∀ d s, gw d ≠ 0 → bc.kind d s = .free ∨
      ((bc.kind d s = .outflow ∨ bc.kind d s = .reflective) ∧ gw d ≤ n d))
    (hn : ∀ d, 1 ≤ n d) (u junk : Ix → V) :
    ∃ A, bc.apply negate ⟨n, u⟩ gw t junk = .ok A ∧ (∀ d, A.shape d = n d + 2 * gw d) ∧
      ∀ j, A.InB j → A.get j =
        (let flip := fun d v => if beyondKind (bc.kind d) (n d) (j d - gw d) .reflective then
            negate d v else v
         flip 2 (flip 1 (flip 0 (u fun d =>
          sourceCell (fun s => bc.kind d s = .free) (n d) (j d - gw d))))) := by
  let G : Fin 3 → Side → Ghost V := fun d s =>
    if bc.kind d s = .free then .clamp
    else if bc.kind d s = .reflective then .mirror (negate d) else .mirror id
  have hs : ∀ d s, SideSpec bc negate n gw t d s (G d s) := by
    intro d s
    by_cases hg : gw d = 0
    · exact .inactive hg _
    · rcases hk d s hg with h | ⟨h | h, h'⟩
      · simp only [G, h, if_true]
        exact .free h (hn d)
      · simp only [G, h, reduceCtorEq, if_false]
        exact .outflow h h'
      · simp only [G, h, reduceCtorEq, if_false, if_true]
        exact .reflective h h'
  obtain ⟨A, e, r⟩ := apply_spec bc negate n gw t (fun d => G d .l) (fun d => G d .r)
    (fun d => hs d .l) (fun d => hs d .r) u junk
  refine ⟨A, e, ?_, ?_⟩
  · intro d
    have := r.1 d
    simp only [padLo, padHi] at this
    omega
  · intro j hj
    rw [r.2 j hj]
    have key : ∀ (d : Fin 3) (Φ : Ix → V) (i : Ix),
        extAxis (n d) d (G d .l) (G d .r) Φ i =
          (if beyondKind (bc.kind d) (n d) (i d) .reflective then
            negate d (Φ (Function.update i d
              (sourceCell (fun s => bc.kind d s = .free) (n d) (i d))))
          else Φ (Function.update i d (sourceCell (fun s => bc.kind d s = .free) (n d) (i d)))) := by
      intro d Φ i
      have hnd := hn d
      unfold extAxis sourceCell
      by_cases h1 : i d < 0
      · have h2 : ¬ ((n d : ℤ) ≤ i d) := by omega
        by_cases hf : bc.kind d .l = .free
        · simp [beyondKind, h1, h2, G, hf, Ghost.left]
        · by_cases hr : bc.kind d .l = .reflective
          · simp [beyondKind, h1, h2, G, hr, Ghost.left]
          · simp [beyondKind, h1, h2, G, hf, hr, Ghost.left]
      · by_cases h2 : (n d : ℤ) ≤ i d
        · by_cases hf : bc.kind d .r = .free
          · simp [beyondKind, h1, h2, G, hf, Ghost.right]
          · by_cases hr : bc.kind d .r = .reflective
            · simp [beyondKind, h1, h2, G, hr, Ghost.right]
            · simp [beyondKind, h1, h2, G, hf, hr, Ghost.right]
        · simp [beyondKind, h1, h2]
    have hj' : ∀ d, (j + padLo gw) d = j d - gw d := fun d => by simp [padLo, sub_eq_add_neg]
    unfold extAll
    rw [key, key, key]
    simp only [Function.update_of_ne (show (0 : Fin 3) ≠ 1 by decide),
      Function.update_of_ne (show (0 : Fin 3) ≠ 2 by decide),
      Function.update_of_ne (show (1 : Fin 3) ≠ 2 by decide), hj']
    have hu : Function.update (Function.update (Function.update (j + padLo gw) 2
        (sourceCell (fun s => bc.kind 2 s = .free) (n 2) (j 2 - gw 2))) 1
        (sourceCell (fun s => bc.kind 1 s = .free) (n 1) (j 1 - gw 1))) 0
        (sourceCell (fun s => bc.kind 0 s = .free) (n 0) (j 0 - gw 0)) =
        fun d => sourceCell (fun s => bc.kind d s = .free) (n d) (j d - gw d) := by
      funext d
      match d with
      | 0 => simp
      | 1 => simp
      | 2 => simp
    rw [hu]

/-- What "negated" means for the gas: exactly the normal momentum changes sign. -/
theorem C42_negate {K : Type} [Field K] {np : ℕ} (d : Fin 3) (u : State K np) :
    negateMom d u (.mom d) = - u (.mom d) ∧ ∀ i, i ≠ .mom d → negateMom d u i = u i := by
  refine ⟨by simp [negateMom], fun i hi => by simp [negateMom, hi]⟩

/-- A mixture of free, reflective and outflow sides. -/
def mixedBC : BC ℚ (State ℚ 0) :=
  ⟨fun d s => if d = 0 then .free else if s = .l then .reflective else .outflow,
    fun _ _ => .other, none⟩

example : ∃ (n gw : Fin 3 → ℕ),
    (∀ d s, gw d ≠ 0 → mixedBC.kind d s = .free ∨
      ((mixedBC.kind d s = .outflow ∨ mixedBC.kind d s = .reflective) ∧ gw d ≤ n d)) ∧
    (∀ d, 1 ≤ n d) ∧ gw 0 = 3 ∧ gw 1 = 2 := by
  refine ⟨![2, 2, 1], ![3, 2, 0], ?_, by decide, rfl, rfl⟩
  intro d s
  cases s <;> revert d <;> decide

section wall

variable {K : Type} [Field K] [LinearOrder K] [IsStrictOrderedRing K] {np : ℕ}

/-- The primitive variables of a cell whose normal momentum was negated. -/
theorem primitives_negateMom (γ : K) (d : Fin 3) (u : State K np) :
    computePrimitives γ (negateMom d u) = mirrorState d (computePrimitives γ u) := by
  funext i
  cases i with
  | rho => simp [computePrimitives, negateMom, mirrorState]
  | mom e =>
    by_cases h : e = d
    · subst h
      simp only [computePrimitives, negateMom, mirrorState, if_true, reduceCtorEq, if_false]
      ring
    · simp [computePrimitives, negateMom, mirrorState, h]
  | en =>
    have hsq : ∀ e, negateMom d u (.mom e) * (negateMom d u (.mom e) / negateMom d u .rho) =
        u (.mom e) * (u (.mom e) / u .rho) := by
      intro e
      by_cases h : e = d
      · subst h
        simp only [negateMom, if_true, reduceCtorEq, if_false]
        ring
      · simp [negateMom, h]
    simp only [computePrimitives, mirrorState, hsq]
    simp [negateMom]
  | ps j => simp [computePrimitives, negateMom, mirrorState]

/-- **C42 (wall)** A reflective wall at degree 0 has zero mass, energy, passive and tangential momentum
flux: the states on the two sides of the wall face are the cell and its mirrored ghost cell, in
either order. -/
theorem C42_wall (k : RiemannKind) (hk : k = .llf ∨ k = .hllc) (G : Gas K) (hG : G.OK) (d : Fin 3)
    (u : State K np) (hu : Physical (computePrimitives G.gamma u)) (i : Var np) (hi : i ≠ .mom d) :
    riemann k G d (computePrimitives G.gamma (negateMom d u)) (computePrimitives G.gamma u) i = 0 ∧
    riemann k G d (computePrimitives G.gamma u) (computePrimitives G.gamma (negateMom d u)) i = 0 := by
  rw [primitives_negateMom]
  set w := computePrimitives G.gamma u with hw
  have hmm : mirrorState d (mirrorState d w) = w := by
    funext i
    cases i with
    | mom e => by_cases h : e = d <;> simp [mirrorState, h]
    | _ => rfl
  have hm : Physical (mirrorState d w) := ⟨hu.rho, hu.press⟩
  have key : ∀ F : State K np, F = (fun i => - mirrorState d F i) → F i = 0 := by
    intro F hF
    have h1 := congrFun hF i
    have h2 : mirrorState d F i = F i := by
      cases i with
      | mom e =>
        have : e ≠ d := fun h => hi (by rw [h])
        simp [mirrorState, this]
      | _ => rfl
    rw [h2] at h1
    linarith
  rcases hk with rfl | rfl
  · refine ⟨key _ ?_, key _ ?_⟩
    · have := C16_llf G d (mirrorState d w) w
      rw [hmm] at this
      exact this
    · have := C16_llf G d w (mirrorState d w)
      rw [hmm] at this
      exact this
  · refine ⟨key _ ?_, key _ ?_⟩
    · have := C16_hllc G hG d (mirrorState d w) w hm hu
      rw [hmm] at this
      exact this
    · have := C16_hllc G hG d w (mirrorState d w) hu hm
      rw [hmm] at this
      exact this

example : ∃ u : State ℝ 1, airGas.OK ∧ Physical (computePrimitives airGas.gamma u) ∧
    u (.mom 0) ≠ 0 := by
  refine ⟨fun | .rho => 1 | .mom _ => 1 | .en => 4 | .ps _ => 0,
    ⟨airGas_sqrt, by norm_num [airGas], by norm_num [airGas]⟩, ⟨?_, ?_⟩, by norm_num⟩
  · norm_num [computePrimitives]
  · norm_num [computePrimitives, airGas, sum3]

end wall

/-! ### C51 -/

section mesh

variable {K : Type} [Field K] [LinearOrder K] [IsStrictOrderedRing K]

/-- Centre of cell `k` of the infinitely extended uniform mesh of spacing `(x1 - x0) / n`. -/
def cellCenter (dom : K × K) (n : ℕ) (k : ℤ) : K := dom.1 + ((k : K) + 1 / 2) * ((dom.2 - dom.1) / n)

theorem midAt_eq (a b : K) (m : ℕ) (k : ℤ) : midAt a b m k = cellCenter (a, b) m k := by
  simp only [midAt, linspaceAt, cellCenter]
  push_cast
  ring

/-- **C51** The mesh has the declared shape; the centres are `x0 + (i + 1/2) h`; they are strictly
inside the domain, strictly increasing with constant spacing, and symmetric about its middle. -/
theorem C51_mesh (n : Fin 3 → ℕ) (dom : Fin 3 → K × K) (hn : ∀ d, 1 ≤ n d)
    (hd : ∀ d, (dom d).1 < (dom d).2) (a : Fin 3) :
    ((meshgen n dom).coord a).shape = n ∧
    ∀ j, ((meshgen n dom).coord a).InB j →
      ((meshgen n dom).coord a).get j =
        (dom a).1 + ((j a : K) + 1 / 2) * (((dom a).2 - (dom a).1) / n a) ∧
      (dom a).1 < ((meshgen n dom).coord a).get j ∧ ((meshgen n dom).coord a).get j < (dom a).2 ∧
      (∀ j', ((meshgen n dom).coord a).InB j' → j a < j' a →
        ((meshgen n dom).coord a).get j < ((meshgen n dom).coord a).get j') ∧
      (∀ j', ((meshgen n dom).coord a).InB j' → j' a = j a + 1 →
        ((meshgen n dom).coord a).get j' - ((meshgen n dom).coord a).get j = meshH n dom a) ∧
      (∀ j', ((meshgen n dom).coord a).InB j' → j' a = n a - 1 - j a →
        ((meshgen n dom).coord a).get j' + ((meshgen n dom).coord a).get j = (dom a).1 + (dom a).2) := by
  have hna : (0 : K) < n a := by exact_mod_cast hn a
  have hh : 0 < ((dom a).2 - (dom a).1) / n a := div_pos (sub_pos.2 (hd a)) hna
  have hhn : ((dom a).2 - (dom a).1) = n a * (((dom a).2 - (dom a).1) / n a) := by
    field_simp
  have hg : ∀ j, ((meshgen n dom).coord a).get j = cellCenter (dom a) (n a) (j a) := by
    intro j
    simp only [meshgen]
    exact midAt_eq _ _ _ _
  refine ⟨rfl, fun j hj => ?_⟩
  have hja : 0 ≤ j a ∧ j a < n a := hj a
  have h0 : (0 : K) ≤ j a := by exact_mod_cast hja.1
  have h1 : (j a : K) + 1 ≤ n a := by exact_mod_cast hja.2
  simp only [hg, cellCenter]
  generalize hH : ((dom a).2 - (dom a).1) / (n a : K) = h at *
  refine ⟨trivial, ?_, ?_, ?_, ?_, ?_⟩
  · have : 0 < ((j a : K) + 1 / 2) * h := by positivity
    linarith
  · have : ((j a : K) + 1 / 2) * h < n a * h := mul_lt_mul_of_pos_right (by linarith) hh
    linarith
  · intro j' _ hlt
    have : (j a : K) < j' a := by exact_mod_cast hlt
    have : ((j a : K) + 1 / 2) * h < ((j' a : K) + 1 / 2) * h :=
      mul_lt_mul_of_pos_right (by linarith) hh
    linarith
  · intro j' _ he
    rw [he]
    simp only [meshH, hH]
    push_cast
    ring
  · intro j' _ he
    rw [he]
    push_cast
    linear_combination -hhn

example : ∃ (n : Fin 3 → ℕ) (dom : Fin 3 → ℚ × ℚ), (∀ d, 1 ≤ n d) ∧ (∀ d, (dom d).1 < (dom d).2) ∧
    ((meshgen n dom).coord 0).get ![2, 0, 0] = 5 / 8 :=
  ⟨![4, 1, 1], fun _ => (0, 1), by decide, fun _ => by norm_num, by
    simp [meshgen, midAt, linspaceAt]; norm_num⟩

/-- Corner of the slab meshes, counted from the first cell of the domain. -/
def slabStart (n gw : Fin 3 → ℕ) (d : Fin 3) (s : Side) : Ix := fun e =>
  if e = d ∧ s = .r then n e else -(gw e : ℤ)

/-- **C51 (slabs)** The slab meshes continue the sequence of cell centres outside the domain. -/
theorem C51_slabs (n gw : Fin 3 → ℕ) (dom : Fin 3 → K × K) (hn : ∀ d, 1 ≤ n d) (d : Fin 3) (s : Side)
    (a : Fin 3) :
    ((meshSlab n dom gw d s).coord a).shape =
      (fun e => if e = d then gw e else n e + 2 * gw e) ∧
    ∀ j, ((meshSlab n dom gw d s).coord a).InB j →
      ((meshSlab n dom gw d s).coord a).get j =
        (dom a).1 + (((j a + slabStart n gw d s a : ℤ) : K) + 1 / 2) *
          (((dom a).2 - (dom a).1) / n a) := by
  have hna : (n a : K) ≠ 0 := by
    have := hn a
    exact_mod_cast (by omega : n a ≠ 0)
  refine ⟨rfl, fun j hj => ?_⟩
  have hja : 0 ≤ j a ∧ j a < ((if a = d then gw a else n a + 2 * gw a : ℕ) : ℤ) := hj a
  have hhn : ((dom a).2 - (dom a).1) = n a * (((dom a).2 - (dom a).1) / n a) := by
    field_simp
  simp only [meshSlab, meshgen, midAt_eq, cellCenter, slabStart, meshH]
  generalize hH : ((dom a).2 - (dom a).1) / (n a : K) = h at *
  by_cases had : a = d
  · simp only [if_pos had] at hja
    have hg : (gw a : K) ≠ 0 := by
      have : gw a ≠ 0 := by omega
      exact_mod_cast this
    cases s
    · simp only [had, if_true, true_and, reduceCtorEq, if_false]
      rw [had] at hH hg
      field_simp
      push_cast
      ring
    · simp only [had, if_true, true_and]
      rw [had] at hH hg hhn
      field_simp
      push_cast
      linear_combination (2 * (gw d : K)) * hhn
  · have hN : ((n a + 2 * gw a : ℕ) : K) ≠ 0 := by
      have := hn a
      exact_mod_cast (by omega : n a + 2 * gw a ≠ 0)
    simp only [had, if_false, false_and]
    have e : ((dom a).2 + h * gw a - ((dom a).1 - h * gw a)) / ((n a + 2 * gw a : ℕ) : K) = h := by
      rw [div_eq_iff hN]
      push_cast
      linear_combination hhn
    rw [e]
    push_cast
    ring

/-! ### C43 -/

/-- The trimmed slab coordinates: the centres of the ghost cells. -/
theorem trimSlabs_mesh {V : Type} (bc : BC K V) (n buf gw : Fin 3 → ℕ)
    (dom : Fin 3 → K × K) (hn : ∀ d, 1 ≤ n d) (hbc : bc.slabs = some (meshSlab n dom buf))
    (hgw : ∀ e, gw e ≤ buf e) (d : Fin 3) (s : Side) (hd : gw d ≠ 0) :
    ∃ c : Fin 3 → Arr K, trimSlabs bc.slabs gw d s = .ok c ∧
      ∀ a, (c a).shape = (fun e => if e = d then gw e else n e + 2 * gw e) ∧
        ∀ j, (c a).InB j → (c a).get j =
          (dom a).1 + (((j a + slabStart n gw d s a : ℤ) : K) + 1 / 2) *
            (((dom a).2 - (dom a).1) / n a) := by
  have hbuf : ∀ e, bufferSize (meshSlab n dom buf) e = buf e := by
    intro e
    simp [bufferSize, (C51_slabs n buf dom hn e .l 0).1]
  have htrim : trimSlabs bc.slabs gw d s = .ok fun a =>
      ((((meshSlab n dom buf d s).coord a).cut 0 (trimCut buf gw d s 0).1 (trimCut buf gw d s 0).2).cut 1
        (trimCut buf gw d s 1).1 (trimCut buf gw d s 1).2).cut 2
        (trimCut buf gw d s 2).1 (trimCut buf gw d s 2).2 := by
    unfold trimSlabs
    rw [hbc]
    have hb : bufferSize (meshSlab n dom buf) = buf := funext hbuf
    simp only [hb]
    rw [if_neg]
    rintro ⟨e, he⟩
    have := hgw e
    omega
  refine ⟨fun a => ((((meshSlab n dom buf d s).coord a).cut 0 (trimCut buf gw d s 0).1
      (trimCut buf gw d s 0).2).cut 1 (trimCut buf gw d s 1).1 (trimCut buf gw d s 1).2).cut 2
        (trimCut buf gw d s 2).1 (trimCut buf gw d s 2).2, htrim, ?_⟩
  · intro a
    obtain ⟨hsh, hget⟩ := C51_slabs n buf dom hn d s a
    -- the stored slab as a lattice function
    have r0 : Rep ((meshSlab n dom buf d s).coord a) (slabStart n buf d s)
        (fun e => slabStart n buf d s e + (if e = d then buf e else n e + 2 * buf e : ℕ))
        (fun i => (dom a).1 + (((i a : ℤ) : K) + 1 / 2) * (((dom a).2 - (dom a).1) / n a)) := by
      refine ⟨fun e => ?_, fun j hj => ?_⟩
      · rw [hsh]
        beta_reduce
        omega
      · rw [hget j hj]
        rfl
    -- one trimming
    have step : ∀ (e : Fin 3) (A : Arr K) (lo hi : Ix) (Φ : Ix → K), Rep A lo hi Φ →
        lo e = slabStart n buf d s e →
        hi e = slabStart n buf d s e + (if e = d then buf e else n e + 2 * buf e : ℕ) →
        Rep (A.cut e (trimCut buf gw d s e).1 (trimCut buf gw d s e).2)
          (Function.update lo e (slabStart n gw d s e))
          (Function.update hi e (slabStart n gw d s e +
            (if e = d then gw e else n e + 2 * gw e : ℕ))) Φ := by
      intro e A lo hi Φ hA hlo hhi
      have hge := hgw e
      have hAe := hA.1 e
      by_cases hed : e = d
      · subst hed
        simp only [if_true, hlo] at hhi
        cases s
        · have e1 := start_neg (N := A.shape e) (a := (gw e : ℤ)) (by omega) (by omega)
          have := rep_slice hA e (orNone (-(gw e : ℤ))) none _ _ e1 (rfl : ((A.shape e : ℕ) : ℤ) = _)
            (by omega) (by omega) (by omega)
          simp only [trimCut, if_true]
          refine this.congr ?_ ?_ (fun _ _ => rfl)
          · funext e'
            by_cases h : e' = e
            · subst h
              simp [slabStart] at *
              omega
            · simp [h]
          · funext e'
            by_cases h : e' = e
            · subst h
              simp [slabStart] at *
              omega
            · simp [h]
        · have e1 := stop_pos (N := A.shape e) (a := (gw e : ℤ)) (by omega) (by omega)
          have := rep_slice hA e none (orNone (gw e : ℤ)) _ _ (rfl : ((0 : ℕ) : ℤ) = _) e1
            (by simp) (by omega) (by omega)
          simp only [trimCut, if_true]
          refine this.congr ?_ ?_ (fun _ _ => rfl)
          · funext e'
            by_cases h : e' = e
            · subst h
              simp [slabStart] at *
              omega
            · simp [h]
          · funext e'
            by_cases h : e' = e
            · subst h
              simp [slabStart] at *
              omega
            · simp [h]
      · simp only [hed, if_false, hlo] at hhi
        simp only [trimCut, hed, if_false]
        have := rep_cut hA e ((buf e : ℤ) - gw e) ((buf e : ℤ) - gw e) (by omega) (by omega) (by
          rw [hhi, hlo]; push_cast; omega)
        refine this.congr ?_ ?_ (fun _ _ => rfl)
        · funext e'
          by_cases h : e' = e
          · subst h
            simp [slabStart, hed] at *
            omega
          · simp [h]
        · funext e'
          by_cases h : e' = e
          · subst h
            simp [slabStart, hed] at *
            omega
          · simp [h]
    have r1 := step 0 _ _ _ _ r0 rfl rfl
    have r2 := step 1 _ _ _ _ r1 rfl rfl
    have r3 := step 2 _ _ _ _ r2 rfl rfl
    have hlo : Function.update (Function.update (Function.update (slabStart n buf d s) 0
        (slabStart n gw d s 0)) 1 (slabStart n gw d s 1)) 2 (slabStart n gw d s 2) =
        slabStart n gw d s := by
      funext e
      match e with
      | 0 => rfl
      | 1 => rfl
      | 2 => rfl
    constructor
    · funext e
      have := r3.1 e
      rw [hlo] at this
      match e with
      | 0 =>
        have h0 : ∀ x : ℤ, (slabStart n gw d s 0 + x) - slabStart n gw d s 0 = x := fun x => by omega
        exact_mod_cast this.trans (h0 _)
      | 1 =>
        have h0 : ∀ x : ℤ, (slabStart n gw d s 1 + x) - slabStart n gw d s 1 = x := fun x => by omega
        exact_mod_cast this.trans (h0 _)
      | 2 =>
        have h0 : ∀ x : ℤ, (slabStart n gw d s 2 + x) - slabStart n gw d s 2 = x := fun x => by omega
        exact_mod_cast this.trans (h0 _)
    · intro j hj
      have := r3.2 j hj
      rw [hlo] at this
      exact this

/-- **C43** A dirichlet or ic side whose ghost width does not exceed the stored buffer calls its
function with three meshes of exactly the shape of the ghost slab, whose entries are the centres of
the ghost cells of the infinitely extended mesh, corner extensions included; and with the current
time (dirichlet) or without a time (ic). The ghost slab then receives the returned array. -/
theorem C43_coordinates {V : Type} (bc : BC K V) (negate : Fin 3 → V → V) (n buf gw : Fin 3 → ℕ)
    (dom : Fin 3 → K × K) (hn : ∀ d, 1 ≤ n d) (hbc : bc.slabs = some (meshSlab n dom buf))
    (hgw : ∀ e, gw e ≤ buf e) (t : K) (d : Fin 3) (s : Side) (hd : gw d ≠ 0)
    (hk : bc.kind d s = .dirichlet ∨ bc.kind d s = .ic)
    (g : Arr K → Arr K → Arr K → Option K → Except PyErr (Arr V)) (hv : bc.value d s = .func g)
    (out : Arr V) :
    ∃ c : Fin 3 → Arr K,
      applySlab bc negate gw t out (d, s) = (do
        let vals ← g (c 0) (c 1) (c 2) (if bc.kind d s = .dirichlet then some t else none)
        out.setCut d (outerCut (gw d) s).1 (outerCut (gw d) s).2 vals) ∧
      ∀ a, (c a).shape = (fun e => if e = d then gw e else n e + 2 * gw e) ∧
        ∀ j, (c a).InB j → (c a).get j =
          (dom a).1 + (((j a + slabStart n gw d s a : ℤ) : K) + 1 / 2) *
            (((dom a).2 - (dom a).1) / n a) := by
  obtain ⟨c, htrim, hc⟩ := trimSlabs_mesh bc n buf gw dom hn hbc hgw d s hd
  refine ⟨c, ?_, hc⟩
  unfold applySlab
  simp only [hd, if_false]
  rcases hk with hk | hk <;> rw [hk] <;> simp only [htrim, hv, if_true, reduceCtorEq, if_false] <;> rfl

/-- **C43 (bound)** A ghost width larger than the stored buffer raises ValueError. -/
theorem C43_too_wide {V : Type} (bc : BC K V) (negate : Fin 3 → V → V) (n buf gw : Fin 3 → ℕ)
    (dom : Fin 3 → K × K) (hbc : bc.slabs = some (meshSlab n dom buf)) (hgw : ∃ e, buf e < gw e)
    (t : K) (d : Fin 3) (s : Side) (hd : gw d ≠ 0)
    (hk : bc.kind d s = .dirichlet ∨ bc.kind d s = .ic) (out : Arr V) :
    applySlab bc negate gw t out (d, s) = .error .valueError := by
  have htrim : trimSlabs bc.slabs gw d s = .error .valueError := by
    unfold trimSlabs
    rw [hbc]
    simp only
    rw [if_pos]
    obtain ⟨e, he⟩ := hgw
    refine ⟨e, ?_⟩
    simpa [bufferSize, meshSlab, meshgen] using he
  unfold applySlab
  simp only [hd, if_false]
  rcases hk with hk | hk <;> rw [hk] <;> simp only [htrim] <;> rfl

example : ∃ (bc : BC ℚ ℚ) (n buf gw : Fin 3 → ℕ) (dom : Fin 3 → ℚ × ℚ)
    (g : Arr ℚ → Arr ℚ → Arr ℚ → Option ℚ → Except PyErr (Arr ℚ)),
    (∀ d, 1 ≤ n d) ∧ bc.slabs = some (meshSlab n dom buf) ∧ (∀ e, gw e ≤ buf e) ∧ gw 1 ≠ 0 ∧
    bc.kind 1 .r = .dirichlet ∧ bc.value 1 .r = .func g ∧ gw 0 ≠ buf 0 :=
  ⟨⟨fun _ _ => .dirichlet, fun _ _ => .func fun x _ _ _ => .ok x,
    some (meshSlab ![3, 4, 1] (fun _ => (0, 1)) ![5, 5, 0])⟩, ![3, 4, 1], ![5, 5, 0], ![2, 3, 0],
    fun _ => (0, 1), fun x _ _ _ => .ok x, by decide, rfl, by decide, by decide, rfl, rfl, by decide⟩

end mesh

/-! ### C44 -/

/-- The claim of C44 for one boundary condition, array and ghost width: a normal return never exposes
uninitialised memory. -/
def NoGarbage {K V : Type} (bc : BC K V) (negate : Fin 3 → V → V) (n gw : Fin 3 → ℕ) (t : K)
    (u : Ix → V) : Prop :=
  ∀ (junk junk' : Ix → V) (A : Arr V), bc.apply negate ⟨n, u⟩ gw t junk = .ok A →
    ∃ A', bc.apply negate ⟨n, u⟩ gw t junk' = .ok A' ∧ A'.shape = A.shape ∧
      ∀ j, A.InB j → A'.get j = A.get j

/-- **C44 (violated)** `None` on a side, and `"periodic"` on the right of a side that is not periodic
on the left, are accepted without an exception and leave uninitialised memory in the result; so does
a periodic side whose ghost width exceeds the number of cells. -/
theorem C44_violation :
    ¬ NoGarbage (⟨fun _ _ => .none, fun _ _ => .other, none⟩ : BC ℚ ℚ) (fun _ => id) ![2, 1, 1]
        ![1, 0, 0] 0 (fun _ => 0) ∧
    ¬ NoGarbage (⟨fun _ => fun | .l => .free | .r => .periodic, fun _ _ => .other, none⟩ : BC ℚ ℚ)
        (fun _ => id) ![2, 1, 1] ![1, 0, 0] 0 (fun _ => 0) ∧
    ¬ NoGarbage (⟨fun _ _ => .periodic, fun _ _ => .other, none⟩ : BC ℚ ℚ) (fun _ => id) ![1, 1, 1]
        ![2, 0, 0] 0 (fun _ => 0) := by
  refine ⟨?_, ?_, ?_⟩ <;> intro h
  · obtain ⟨A', e, _, hA⟩ := h (fun _ => 0) (fun _ => 1) _ rfl
    injection e with e
    subst e
    exact absurd (hA ![0, 0, 0] (by decide)) (by decide +kernel)
  · obtain ⟨A', e, _, hA⟩ := h (fun _ => 0) (fun _ => 1) _ rfl
    injection e with e
    subst e
    exact absurd (hA ![3, 0, 0] (by decide)) (by decide +kernel)
  · obtain ⟨A', e, _, hA⟩ := h (fun _ => 0) (fun _ => 1) _ rfl
    injection e with e
    subst e
    exact absurd (hA ![0, 0, 0] (by decide)) (by decide +kernel)

/-- **C44 (partial)** Except for the cases of `C44_violation` (excluded by `Fillable`), whatever the
boundary functions return, a normal return does not depend on uninitialised memory. Missing: the
excluded cases, where the claim is false. -/
theorem C44_partial {K V : Type} (bc : BC K V) (negate : Fin 3 → V → V) (n gw : Fin 3 → ℕ) (t : K)
    (hF : Fillable bc n gw) (u : Ix → V) : NoGarbage bc negate n gw t u := by
  intro junk junk' A h
  obtain ⟨gl, gr, hl, hr⟩ := spec_of_ok bc negate n gw t hF u junk A h
  obtain ⟨A1, e1, r1⟩ := apply_spec bc negate n gw t gl gr hl hr u junk
  obtain ⟨A2, e2, r2⟩ := apply_spec bc negate n gw t gl gr hl hr u junk'
  rw [e1] at h
  injection h with h
  subst h
  have hsh : A2.shape = A1.shape := by
    funext d
    have h1 := r1.1 d
    have h2 := r2.1 d
    omega
  refine ⟨A2, e2, hsh, fun j hj => ?_⟩
  rw [r1.2 j hj, r2.2 j (fun d => by rw [hsh]; exact hj d)]

/-- A mixture of periodic, dirichlet and free sides. -/
def mixedBC' : BC ℚ ℚ :=
  ⟨fun d s => if d = 0 then (if s = .l then .periodic else .dirichlet) else .free,
    fun _ _ => .const 1, none⟩

example : ∃ (n gw : Fin 3 → ℕ), Fillable mixedBC' n gw ∧ gw 0 = 2 ∧ gw 1 = 5 := by
  refine ⟨![2, 3, 1], ![2, 5, 0], ?_, rfl, rfl⟩
  intro d hd
  refine ⟨by revert d; decide, fun s => ?_, by revert d; decide⟩
  cases s <;> revert d <;> decide

end FVHOE
