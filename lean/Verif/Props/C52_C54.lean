import Mathlib.Data.Fintype.Lattice
import Mathlib.Order.Preorder.Finite
import Verif.Model.Viz
import Verif.Model.Run
import Verif.Props.C28_C30

/-!
C52 (nearest-index lookup) and C54 (`run` picks the matching integrator).
-/

set_option linter.unusedSectionVars false

namespace FVHOE

variable {K : Type} [Field K] [LinearOrder K] [IsStrictOrderedRing K]

/-! ### C52 -/

/-- `i` is the first index at which the coordinate is nearest to `x`. -/
def IsFirstNearest (coords : List K) (x : K) (i : ℕ) : Prop :=
  ∃ c, coords[i]? = some c ∧ (∀ (j : ℕ) c', coords[j]? = some c' → |c - x| ≤ |c' - x|) ∧
    ∀ (j : ℕ) c', j < i → coords[j]? = some c' → |c - x| < |c' - x|

theorem argminFrom_spec (xs : List K) : ∀ (pre : List K) (best : K) (k : ℕ), pre[k]? = some best →
    (∀ (j : ℕ) (c : K), pre[j]? = some c → best ≤ c) → (∀ (j : ℕ) (c : K), j < k → pre[j]? = some c → best < c) →
    ∃ b, (pre ++ xs)[argminFrom best k pre.length xs]? = some b ∧
      (∀ (j : ℕ) (c : K), (pre ++ xs)[j]? = some c → b ≤ c) ∧
      ∀ (j : ℕ) (c : K), j < argminFrom best k pre.length xs → (pre ++ xs)[j]? = some c → b < c := by
  induction xs with
  | nil =>
    intro pre best k h1 h2 h3
    simp only [argminFrom, List.append_nil]
    exact ⟨best, h1, h2, h3⟩
  | cons x xs ih =>
    intro pre best k h1 h2 h3
    have hk : k < pre.length := by
      by_contra h
      rw [List.getElem?_eq_none (by omega)] at h1
      cases h1
    have el : pre ++ x :: xs = (pre ++ [x]) ++ xs := by simp
    have ln : pre.length + 1 = (pre ++ [x]).length := by simp
    unfold argminFrom
    rw [el, ln]
    split_ifs with h
    · refine ih (pre ++ [x]) x pre.length (by simp) ?_ ?_
      · intro j c hj
        rcases lt_or_ge j pre.length with hl | hl
        · rw [List.getElem?_append_left hl] at hj
          exact h.le.trans (h2 j c hj)
        · rw [List.getElem?_append_right hl] at hj
          rcases Nat.eq_zero_or_pos (j - pre.length) with h0 | h0
          · rw [h0] at hj
            simp at hj
            exact hj.le
          · rw [List.getElem?_eq_none (by simp; omega)] at hj
            cases hj
      · intro j c hj hc
        rw [List.getElem?_append_left hj] at hc
        exact h.trans_le (h2 j c hc)
    · refine ih (pre ++ [x]) best k (by rw [List.getElem?_append_left hk]; exact h1) ?_ ?_
      · intro j c hj
        rcases lt_or_ge j pre.length with hl | hl
        · rw [List.getElem?_append_left hl] at hj
          exact h2 j c hj
        · rw [List.getElem?_append_right hl] at hj
          rcases Nat.eq_zero_or_pos (j - pre.length) with h0 | h0
          · rw [h0] at hj
            simp at hj
            rw [← hj]
            exact not_lt.1 h
          · rw [List.getElem?_eq_none (by simp; omega)] at hj
            cases hj
      · intro j c hj hc
        rw [List.getElem?_append_left (by omega)] at hc
        exact h3 j c hj hc

theorem argmin_nearest (coords : List K) (x : K) (hne : coords ≠ []) :
    ∃ i, argmin (coords.map fun a => |a - x|) = .ok i ∧ IsFirstNearest coords x i := by
  cases coords with
  | nil => exact absurd rfl hne
  | cons a l =>
    obtain ⟨b, h1, h2, h3⟩ := argminFrom_spec (l.map fun a => |a - x|) [|a - x|] |a - x| 0 rfl
      (by intro j c hj; cases j <;> simp_all) (by intro j c hj; omega)
    refine ⟨_, rfl, ?_⟩
    change ∃ c, _
    simp only [List.length_singleton] at h1 h2 h3
    generalize argminFrom |a - x| 0 1 (l.map fun a => |a - x|) = i at *
    have e : [|a - x|] ++ l.map (fun a => |a - x|) = (a :: l).map (fun a => |a - x|) := rfl
    rw [e] at h1 h2 h3
    rw [List.getElem?_map, Option.map_eq_some_iff] at h1
    obtain ⟨c, hc, rfl⟩ := h1
    refine ⟨c, hc, fun j c' hj => h2 j _ ?_, fun j c' hlt hj => h3 j _ hlt ?_⟩
    · rw [List.getElem?_map, hj]; rfl
    · rw [List.getElem?_map, hj]; rfl

theorem nearestIn_spec (snaps : List (SnapCoords K)) (n : ℤ) (s : SnapCoords K)
    (hs : pyItem snaps n = .ok s) (arr : SnapCoords K → List K) (h : ∀ s ∈ snaps, arr s ≠ [])
    (hm : s ∈ snaps) (x : Option K) :
    ∃ i, nearestIn snaps n arr x = .ok i ∧
      match x with
      | none => i = .all
      | some x => ∃ k, i = .at_ k ∧ IsFirstNearest (arr s) x k := by
  cases x with
  | none => exact ⟨.all, rfl, rfl⟩
  | some x =>
    obtain ⟨i, e, hi⟩ := argmin_nearest (arr s) x (h s hm)
    refine ⟨.at_ i, ?_, i, rfl, hi⟩
    unfold nearestIn
    simp only [hs]
    change nearestOrAll (arr s) (some x) = _
    unfold nearestOrAll
    simp only [e]
    rfl

/-- **C52** For a non-empty snapshot list whose coordinate arrays are non-empty the lookup succeeds.
The snapshot index is -1 (the last snapshot) when `t` is omitted and otherwise the first index of a
time nearest to `t`. Each given coordinate yields the first index of a nearest cell centre in that
snapshot, each omitted one a full slice. -/
theorem C52_nearest (snaps : List (SnapCoords K)) (hne : snaps ≠ [])
    (hx : ∀ s ∈ snaps, s.x ≠ []) (hy : ∀ s ∈ snaps, s.y ≠ []) (hz : ∀ s ∈ snaps, s.z ≠ [])
    (t x y z : Option K) :
    ∃ n i j k s, getIndices snaps t x y z = .ok (n, i, j, k) ∧
      (match t with
        | none => n = -1 ∧ snaps.getLast? = some s
        | some t => ∃ m : ℕ, n = m ∧ IsFirstNearest (snaps.map SnapCoords.t) t m ∧ snaps[m]? = some s) ∧
      (match x with | none => i = .all | some x => ∃ a, i = .at_ a ∧ IsFirstNearest s.x x a) ∧
      (match y with | none => j = .all | some y => ∃ a, j = .at_ a ∧ IsFirstNearest s.y y a) ∧
      (match z with | none => k = .all | some z => ∃ a, k = .at_ a ∧ IsFirstNearest s.z z a) := by
  have key : ∀ (n : ℤ) (s : SnapCoords K), pyItem snaps n = .ok s → s ∈ snaps →
      ∃ i j k, (do
        let i ← nearestIn snaps n SnapCoords.x x
        let j ← nearestIn snaps n SnapCoords.y y
        let k ← nearestIn snaps n SnapCoords.z z
        return (n, i, j, k) : Except PyErr (ℤ × IxSel × IxSel × IxSel)) = .ok (n, i, j, k) ∧
      (match x with | none => i = .all | some x => ∃ a, i = .at_ a ∧ IsFirstNearest s.x x a) ∧
      (match y with | none => j = .all | some y => ∃ a, j = .at_ a ∧ IsFirstNearest s.y y a) ∧
      (match z with | none => k = .all | some z => ∃ a, k = .at_ a ∧ IsFirstNearest s.z z a) := by
    intro n s hs hm
    obtain ⟨i, ei, hi⟩ := nearestIn_spec snaps n s hs SnapCoords.x hx hm x
    obtain ⟨j, ej, hj⟩ := nearestIn_spec snaps n s hs SnapCoords.y hy hm y
    obtain ⟨k, ek, hk⟩ := nearestIn_spec snaps n s hs SnapCoords.z hz hm z
    refine ⟨i, j, k, ?_, hi, hj, hk⟩
    rw [ei, ej, ek]
    rfl
  cases t with
  | none =>
    have hl : 0 < snaps.length := List.length_pos_of_ne_nil hne
    have hs : pyItem snaps (-1) = .ok (snaps.getLast hne) := by
      unfold pyItem
      have e : ((-1 : ℤ) + snaps.length).toNat = snaps.length - 1 := by omega
      rw [if_pos (by norm_num), if_pos (by omega), e, ← List.getLast?_eq_getElem?,
        List.getLast?_eq_getLast_of_ne_nil hne]
    obtain ⟨i, j, k, e, h⟩ := key _ _ hs (List.getLast_mem hne)
    exact ⟨-1, i, j, k, _, e, ⟨rfl, List.getLast?_eq_getLast_of_ne_nil hne⟩, h⟩
  | some t =>
    obtain ⟨m, em, hm⟩ := argmin_nearest (snaps.map SnapCoords.t) t (by simpa using hne)
    have hm' := hm
    obtain ⟨c, hc, _⟩ := hm'
    rw [List.getElem?_map, Option.map_eq_some_iff] at hc
    obtain ⟨s, hs, _⟩ := hc
    have hs' : pyItem snaps (m : ℤ) = .ok s := by
      unfold pyItem
      rw [if_neg (by omega), Int.toNat_natCast, hs]
    obtain ⟨i, j, k, e, h⟩ := key _ _ hs' (List.mem_of_getElem? hs)
    refine ⟨m, i, j, k, s, ?_, ⟨m, rfl, hm, hs⟩, h⟩
    unfold getIndices
    rw [List.map_map] at em
    have em' : argmin (snaps.map fun s => |s.t - t|) = .ok m := em
    simp only [em']
    exact e

/-- Two snapshots: time 0.4 is nearest to the first; 0.5 is a tie and gives the first; x = 2.6 is nearest
to the third cell. -/
example : getIndices [⟨0, [1 / 2, 3 / 2, 5 / 2], [0], [0]⟩, ⟨1, [1 / 2, 3 / 2, 5 / 2], [0], [0]⟩]
    (some (1 / 2 : ℚ)) (some (13 / 5)) none (some 7) = .ok (0, .at_ 2, .all, .at_ 0) := by
  decide +kernel

/-! ### C54 -/

/-- **C54** For degrees that are not negative `run` raises nothing itself: it makes exactly one call, with
all arguments forwarded, to the integrator whose order is one more than the largest degree, capped at
four. A negative largest degree raises ValueError and calls nothing. -/
theorem C54_run {α R : Type} (p : Fin 3 → ℤ) (method : Integrator → α → R) (args : α) :
    ((∃ d, 0 ≤ p d) → ∃ m : Integrator, runSolver p method args = .ok (method m args) ∧
      (∀ d, min (p d) 3 + 1 ≤ m.order) ∧ ∃ d, (m.order : ℤ) = min (p d) 3 + 1) ∧
    ((∀ d, p d < 0) → runSolver p method args = .error .valueError) := by
  have hmax : ∃ d, max (max (p 0) (p 1)) (p 2) = p d := by
    rcases max_choice (max (p 0) (p 1)) (p 2) with h | h
    · rcases max_choice (p 0) (p 1) with h' | h'
      · exact ⟨0, h.trans h'⟩
      · exact ⟨1, h.trans h'⟩
    · exact ⟨2, h⟩
  have hle : ∀ d, p d ≤ max (max (p 0) (p 1)) (p 2) := by
    intro d
    match d with
    | 0 => exact (le_max_left _ _).trans (le_max_left _ _)
    | 1 => exact (le_max_right _ _).trans (le_max_left _ _)
    | 2 => exact le_max_right _ _
  unfold runSolver
  generalize max (max (p 0) (p 1)) (p 2) = q at *
  obtain ⟨d0, hd0⟩ := hmax
  constructor
  · rintro ⟨d, hd⟩
    have hq : 0 ≤ q := hd.trans (hle d)
    have cases4 : q = 0 ∨ q = 1 ∨ q = 2 ∨ 3 ≤ q := by omega
    rcases cases4 with h | h | h | h
    · subst h
      exact ⟨.euler, rfl, fun d => by have := hle d; simp only [Integrator.order]; omega,
        d0, by rw [← hd0]; rfl⟩
    · subst h
      exact ⟨.ssprk2, rfl, fun d => by have := hle d; simp only [Integrator.order]; omega,
        d0, by rw [← hd0]; rfl⟩
    · subst h
      exact ⟨.ssprk3, rfl, fun d => by have := hle d; simp only [Integrator.order]; omega,
        d0, by rw [← hd0]; rfl⟩
    · refine ⟨.rk4, by rw [min_eq_right h]; rfl, fun d => ?_, d0, ?_⟩
      · simp only [Integrator.order]; omega
      · rw [← hd0, min_eq_right h]; rfl
  · intro h
    have hq : q < 0 := by rw [hd0]; exact h d0
    rw [min_eq_left (by omega)]
    split <;> first | omega | rfl

/-- **C54** For a linear right-hand side one step of the method that `run` selects for the degree triple
`p` is the Taylor polynomial of the exponential of degree min(max p, 3) + 1. -/
theorem C54_order {U S : Type} [AddCommGroup U] [Module K U] (p : Fin 3 → ℤ) (hp : ∃ d, 0 ≤ p d)
    (mk : ODEState K U S → S) (fuel : ℕ) (st : ODEState K U S) (a : IntegrateArgs K S) :
    ∃ m : Integrator, (∀ f : RHS K U, runSolver p (callIntegrator f mk fuel st) a =
        .ok (m, st.integrate (stepper f m) mk fuel a)) ∧
      (∃ d, (∀ d', p d' ≤ p d) ∧ ∀ (A : U →ₗ[K] U) (dt t : K) (u : U),
        stepper (fun _ _ v => .ok (dt, A v)) m t u none =
          .ok (dt, taylorExp A ((min (p d) 3).toNat + 1) dt u)) := by
  obtain ⟨d, hd⟩ : ∃ d, ∀ d', p d' ≤ p d := Finite.exists_max p
  obtain ⟨d1, h1⟩ := hp
  have h0 : 0 ≤ p d := h1.trans (hd d1)
  have hm : ∀ (R : Type) (method : Integrator → IntegrateArgs K S → R), runSolver p method a =
      .ok (method (match (min (p d) 3).toNat with | 0 => .euler | 1 => .ssprk2 | 2 => .ssprk3 | _ => .rk4) a) := by
    intro R method
    have e : max (max (p 0) (p 1)) (p 2) = p d := by
      have a0 := hd 0
      have a1 := hd 1
      have a2 := hd 2
      have : p d = p 0 ∨ p d = p 1 ∨ p d = p 2 := by
        match d with
        | 0 => exact Or.inl rfl
        | 1 => exact Or.inr (Or.inl rfl)
        | 2 => exact Or.inr (Or.inr rfl)
      omega
    unfold runSolver
    rw [e]
    have cases4 : p d = 0 ∨ p d = 1 ∨ p d = 2 ∨ 3 ≤ p d := by omega
    rcases cases4 with h | h | h | h
    · rw [h]; rfl
    · rw [h]; rfl
    · rw [h]; rfl
    · rw [min_eq_right h]; rfl
  refine ⟨_, fun f => hm _ _, d, hd, fun A dt t u => ?_⟩
  obtain ⟨h, hh, e⟩ := C28_linear_order A dt t u none
    (match (min (p d) 3).toNat with | 0 => .euler | 1 => .ssprk2 | 2 => .ssprk3 | _ => .rk4)
  cases hh
  rw [e]
  have cases4 : p d = 0 ∨ p d = 1 ∨ p d = 2 ∨ 3 ≤ p d := by omega
  rcases cases4 with h | h | h | h
  · rw [h]; rfl
  · rw [h]; rfl
  · rw [h]; rfl
  · rw [min_eq_right h]; rfl

/-- The degree triple (3, 1, 0) selects rk4, (0, 1, 0) ssprk2. -/
example : runSolver ![3, 1, 0] (fun m (_ : Unit) => m) () = .ok .rk4 ∧
    runSolver ![0, 1, 0] (fun m (_ : Unit) => m) () = .ok .ssprk2 := ⟨rfl, rfl⟩

end FVHOE
