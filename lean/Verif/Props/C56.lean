import Verif.Model.Sedov
import Verif.Props.C01_C03
import Mathlib.Algebra.BigOperators.Intervals

/-!
C56 (the Sedov energy does not depend on the resolution).
-/

set_option linter.unusedSectionVars false

namespace FVHOE

variable {K : Type} [Field K] [LinearOrder K] [IsStrictOrderedRing K]

theorem total_const (n : Fin 3 → ℕ) (A : Arr K) (hA : A.shape = n) (c : K)
    (h : ∀ i, InCells n i → A.get i = c) : A.total = (n 0 * n 1 * n 2 : ℕ) * c := by
  have : A.total = cellSum n A.get := by unfold Arr.total cellSum; rw [hA]
  rw [this, cellSum_congr n _ (fun _ => c) h]
  simp only [cellSum, Finset.sum_const, Finset.card_range, nsmul_eq_mul]
  push_cast
  ring

theorem meanSpacing_mesh (n : Fin 3 → ℕ) (dom : Fin 3 → K × K) (d : Fin 3) (hn : ∀ e, 1 ≤ n e) :
    ∃ h, meanSpacing ((meshgen n dom).coord d) d = .ok h ∧ (2 ≤ n d → h = meshH n dom d) := by
  have hd0 := hn d
  set x := (meshgen n dom).coord d with hx
  have hs : x.shape = n := rfl
  have s1 : (x.slice d (some 1) none).shape = Function.update n d (n d - 1) := by
    simp only [Arr.slice, hs, sliceStart, sliceStop, pyBound]
    congr 1
    simp
    omega
  have s2 : (x.slice d none (some (-1))).shape = Function.update n d (n d - 1) := by
    simp only [Arr.slice, hs, sliceStart, sliceStop, pyBound]
    congr 1
    simp
    omega
  have hc : ∀ e, dimCompat ((x.slice d (some 1) none).shape e) ((x.slice d none (some (-1))).shape e) := by
    intro e; rw [s1, s2]; exact Or.inl rfl
  refine ⟨_, by unfold meanSpacing Arr.zip; rw [if_pos hc]; rfl, ?_⟩
  intro h2
  have sh : (fun e => dimBroadcast ((x.slice d (some 1) none).shape e) ((x.slice d none (some (-1))).shape e)) =
      Function.update n d (n d - 1) := by
    funext e
    rw [s1, s2]
    unfold dimBroadcast
    split
    · rfl
    · rfl
  unfold Arr.mean
  rw [total_const (Function.update n d (n d - 1)) _ sh (meshH n dom d)]
  · have sh' := fun e => congrFun sh e
    beta_reduce at sh'
    dsimp only
    rw [sh' 0, sh' 1, sh' 2, mul_comm, mul_div_assoc, div_self, mul_one]
    have : ∀ e, 0 < Function.update n d (n d - 1) e := by
      intro e
      by_cases he : e = d
      · subst he; simp; omega
      · rw [Function.update_of_ne he]; exact hn e
    have a0 := this 0
    have a1 := this 1
    have a2 := this 2
    exact Nat.cast_ne_zero.2 (by positivity)
  · intro i hi
    have e1 : ((x.slice d (some 1) none).bix i) d = i d := by
      simp only [Arr.bix, s1]
      split
      · rename_i h1
        simp at h1
        have := hi d
        simp at this
        omega
      · rfl
    have e2 : ((x.slice d none (some (-1))).bix i) d = i d := by
      simp only [Arr.bix, s2]
      split
      · rename_i h1
        simp at h1
        have := hi d
        simp at this
        omega
      · rfl
    have b : pyBound (n d) 1 = 1 := by simp [pyBound]; omega
    simp only [Arr.slice, sliceStart, hs, hx, meshgen, Pi.add_apply, Pi.single_eq_same, b] at e1 e2 ⊢
    have e1' := e1
    have e2' := e2
    simp only [Arr.bix] at e1' e2' ⊢
    rw [e1', e2']
    have hn0 : (n d : K) ≠ 0 := Nat.cast_ne_zero.2 (by omega)
    unfold midAt linspaceAt meshH
    push_cast
    field_simp
    ring

/-- The two middle cells of an axis with an even number `n` of cells. -/
def middle (n : ℕ) (i : ℤ) : Prop := i = n / 2 - 1 ∨ i = n / 2

instance (n : ℕ) (i : ℤ) : Decidable (middle n i) := by unfold middle; infer_instance

/-- Cell volume over the blast directions. -/
def blastVolume (dims : Fin 3 → Bool) (h : Fin 3 → K) : K :=
  (if dims 0 then h 0 else 1) * (if dims 1 then h 1 else 1) * (if dims 2 then h 2 else 1)

/-- Number of blast directions. -/
def blastDim (dims : Fin 3 → Bool) : ℕ :=
  (if dims 0 then 1 else 0) + (if dims 1 then 1 else 0) + (if dims 2 then 1 else 0)

theorem emax_volume (dims : Fin 3 → Bool) (n : Fin 3 → ℕ) (dom : Fin 3 → K × K)
    (hdom : ∀ d, (dom d).1 < (dom d).2) (hn : ∀ e, 1 ≤ n e) (hn2 : ∀ d, dims d → 2 ≤ n d) (E1 : K)
    (hx hy hz : K) (ex : 2 ≤ n 0 → hx = meshH n dom 0) (ey : 2 ≤ n 1 → hy = meshH n dom 1)
    (ez : 2 ≤ n 2 → hz = meshH n dom 2) :
    E1 / (if dims 0 then 2 * hx else 1) / (if dims 1 then 2 * hy else 1) / (if dims 2 then 2 * hz else 1) *
      blastVolume dims (meshH n dom) = E1 / 2 ^ blastDim dims := by
  have hp : ∀ d, meshH n dom d ≠ 0 := by
    intro d
    have h1 : (0 : K) < n d := Nat.cast_pos.2 (hn d)
    exact (div_pos (sub_pos.2 (hdom d)) h1).ne'
  have p0 := hp 0
  have p1 := hp 1
  have p2 := hp 2
  unfold blastVolume blastDim
  cases d0 : dims 0 <;> cases d1 : dims 1 <;> cases d2 : dims 2 <;>
    simp only [Bool.false_eq_true, if_true, if_false] <;>
    (try rw [ex (hn2 0 d0)]) <;> (try rw [ey (hn2 1 d1)]) <;> (try rw [ez (hn2 2 d2)]) <;>
    field_simp <;> norm_num

theorem cellSum_prod (n : Fin 3 → ℕ) (f : Fin 3 → ℤ → K) :
    cellSum n (fun i => f 0 (i 0) * f 1 (i 1) * f 2 (i 2)) =
      (∑ a ∈ Finset.range (n 0), f 0 a) * (∑ a ∈ Finset.range (n 1), f 1 a) *
        ∑ a ∈ Finset.range (n 2), f 2 a := by
  simp only [cellSum, Matrix.cons_val_zero, Matrix.cons_val_one, Matrix.cons_val]
  rw [Finset.sum_mul_sum, Finset.sum_mul]
  refine Finset.sum_congr rfl fun a _ => ?_
  rw [Finset.sum_mul]
  refine Finset.sum_congr rfl fun b _ => ?_
  rw [Finset.mul_sum]

theorem middle_count (n : ℕ) (h2 : 2 ≤ n) (he : n % 2 = 0) :
    ∑ a ∈ Finset.range n, (if middle n (a : ℤ) then (1 : K) else 0) = 2 := by
  rw [← Finset.sum_filter]
  have : (Finset.range n).filter (fun a : ℕ => middle n (a : ℤ)) = {n / 2 - 1, n / 2} := by
    ext a
    rw [Finset.mem_filter]
    simp only [middle, Finset.mem_range, Finset.mem_insert, Finset.mem_singleton]
    omega
  rw [this, Finset.sum_insert (by simp; omega), Finset.sum_singleton]
  norm_num

/-- **C56, center** On a uniform mesh with an even number of cells along each blast direction and any
number along the others, the initial state has density `rho0`, zero velocity, the background value in
every cell but the two middle ones along each blast direction, and the blast energies there times the
cell volume add up to `E1` per cell column across the other directions. With one cell along those (the
documented use) the total is exactly `E1`, whatever the resolution. -/
theorem C56_center (dims : Fin 3 → Bool) (n : Fin 3 → ℕ) (dom : Fin 3 → K × K)
    (hdom : ∀ d, (dom d).1 < (dom d).2) (hn : ∀ e, 1 ≤ n e) (hn2 : ∀ d, dims d → n d % 2 = 0)
    (hn1 : ∀ d, dims d = false → n d = 1) (rho0 E0 E1 : K) :
    ∃ A, sedov .center dims rho0 E0 E1 (meshgen n dom).coord = .ok A ∧ A.shape = n ∧
      (∀ i, InCells n i → (A.get i).rho = rho0 ∧ (A.get i).vx = 0 ∧ (A.get i).vy = 0 ∧ (A.get i).vz = 0) ∧
      (∀ i, InCells n i → (∃ d, dims d ∧ ¬ middle (n d) (i d)) → (A.get i).e = E0) ∧
      cellSum n (fun i => if ∀ d, dims d → middle (n d) (i d) then
        (A.get i).e * blastVolume dims (meshH n dom) else 0) = E1 := by
  have hn2' : ∀ d, dims d → 2 ≤ n d := fun d h => by have := hn d; have := hn2 d h; omega
  obtain ⟨hx, e0, x0⟩ := meanSpacing_mesh n dom 0 hn
  obtain ⟨hy, e1, x1⟩ := meanSpacing_mesh n dom 1 hn
  obtain ⟨hz, e2, x2⟩ := meanSpacing_mesh n dom 2 hn
  have hmid : ∀ d, dims d → ∀ i : ℤ, (((sliceStart (n d) (some (((n d / 2 : ℕ) : ℤ) - 1)) : ℕ) : ℤ) ≤ i ∧
      i < (sliceStop (n d) (some (((n d / 2 : ℕ) : ℤ) + 1)) : ℕ)) ↔ middle (n d) i := by
    intro d hd i
    have := hn2' d hd
    have := hn2 d hd
    simp only [sliceStart, sliceStop, pyBound, middle]
    rw [if_neg (by omega), if_neg (by omega)]
    omega
  refine ⟨_, by unfold sedov; rw [e0, e1, e2]; rfl, rfl, fun i _ => ⟨rfl, rfl, rfl, rfl⟩, ?_, ?_⟩
  · rintro i _ ⟨d, hd, hm⟩
    exact if_neg fun h => hm ((hmid d hd (i d)).1 (h d hd))
  · have hE := emax_volume dims n dom hdom hn hn2' E1 hx hy hz x0 x1 x2
    generalize E1 / (if dims 0 then 2 * hx else 1) / (if dims 1 then 2 * hy else 1) /
      (if dims 2 then 2 * hz else 1) = emax at *
    have hcongr : ∀ i, InCells n i → (if ∀ d, dims d → middle (n d) (i d) then
        (if ∀ d, dims d → ((sliceStart (n d) (some (((n d / 2 : ℕ) : ℤ) - 1)) : ℕ) : ℤ) ≤ i d ∧
          i d < (sliceStop (n d) (some (((n d / 2 : ℕ) : ℤ) + 1)) : ℕ) then emax else E0) *
          blastVolume dims (meshH n dom) else 0) =
        (emax * blastVolume dims (meshH n dom)) •
          ((if dims 0 then (if middle (n 0) (i 0) then 1 else 0) else 1) *
          (if dims 1 then (if middle (n 1) (i 1) then 1 else 0) else 1) *
          (if dims 2 then (if middle (n 2) (i 2) then 1 else 0) else 1)) := by
      intro i _
      by_cases h : ∀ d, dims d → middle (n d) (i d)
      · rw [if_pos h, if_pos fun d hd => (hmid d hd _).2 (h d hd)]
        have f : ∀ d, (if dims d then (if middle (n d) (i d) then (1 : K) else 0) else 1) = 1 := by
          intro d
          by_cases hd : dims d
          · rw [if_pos hd, if_pos (h d hd)]
          · rw [if_neg hd]
        rw [f, f, f]
        simp
      · rw [if_neg h]
        push Not at h
        obtain ⟨d, hd, hm⟩ := h
        have f : (if dims d then (if middle (n d) (i d) then (1 : K) else 0) else 1) = 0 := by
          rw [if_pos hd, if_neg hm]
        match d with
        | 0 => rw [f]; simp
        | 1 => rw [f]; simp
        | 2 => rw [f]; simp
    refine (cellSum_congr n _ _ hcongr).trans ?_
    rw [cellSum_smul, cellSum_prod n (fun d a =>
      if dims d then (if middle (n d) a then 1 else 0) else 1), hE]
    have hf : ∀ d, ∑ a ∈ Finset.range (n d), (if dims d then (if middle (n d) (a : ℤ) then (1 : K) else 0) else 1) =
        if dims d then 2 else 1 := by
      intro d
      by_cases hd : dims d
      · simp only [if_pos hd]
        exact middle_count (n d) (hn2' d hd) (hn2 d hd)
      · simp only [if_neg hd]
        rw [hn1 d (by simpa using hd)]
        simp
    rw [hf, hf, hf]
    unfold blastDim
    cases dims 0 <;> cases dims 1 <;> cases dims 2 <;> norm_num [smul_eq_mul]

/-- **C56, corner** With the blast in the first cell the deposited energy is `E1 / 2^d`, `d` the number of
blast directions. -/
theorem C56_corner (dims : Fin 3 → Bool) (n : Fin 3 → ℕ) (dom : Fin 3 → K × K)
    (hdom : ∀ d, (dom d).1 < (dom d).2) (hn : ∀ e, 1 ≤ n e) (hn2 : ∀ d, dims d → 2 ≤ n d)
    (rho0 E0 E1 : K) :
    ∃ A, sedov .corner dims rho0 E0 E1 (meshgen n dom).coord = .ok A ∧ A.shape = n ∧
      (∀ i, InCells n i → (A.get i).rho = rho0 ∧ (A.get i).vx = 0 ∧ (A.get i).vy = 0 ∧ (A.get i).vz = 0) ∧
      (∀ i, InCells n i → i ≠ 0 → (A.get i).e = E0) ∧
      (A.get 0).e * blastVolume dims (meshH n dom) = E1 / 2 ^ blastDim dims := by
  obtain ⟨hx, e0, x0⟩ := meanSpacing_mesh n dom 0 hn
  obtain ⟨hy, e1, x1⟩ := meanSpacing_mesh n dom 1 hn
  obtain ⟨hz, e2, x2⟩ := meanSpacing_mesh n dom 2 hn
  have hne : ¬ ∃ d, ((meshgen n dom).coord 0).shape d = 0 := by
    rintro ⟨d, hd⟩
    have := hn d
    change n d = 0 at hd
    omega
  refine ⟨_, by unfold sedov; rw [e0, e1, e2]; exact if_neg hne, rfl, fun i _ => ⟨rfl, rfl, rfl, rfl⟩, ?_, ?_⟩
  · intro i _ h
    exact if_neg h
  · have hE := emax_volume dims n dom hdom hn hn2 E1 hx hy hz x0 x1 x2
    simp only [if_true]
    exact hE

/-- A two-dimensional blast on 8 × 8 × 1 cells of the square [-1, 1]². -/
example : ∃ A, sedov .center ![true, true, false] (1 : ℚ) (1 / 100000) 1
    (meshgen ![8, 8, 1] ![(-1, 1), (-1, 1), (0, 1)]).coord = .ok A ∧ (A.get ![3, 4, 0]).e = 4 := by
  obtain ⟨A, e, _⟩ := C56_center (K := ℚ) ![true, true, false] ![8, 8, 1] ![(-1, 1), (-1, 1), (0, 1)]
    (by decide) (by decide) (by decide) (by decide) 1 (1 / 100000) 1
  exact ⟨_, rfl, by decide +kernel⟩

end FVHOE
