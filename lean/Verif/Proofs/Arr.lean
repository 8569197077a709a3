import Mathlib.Tactic.Linarith
import Mathlib.Tactic.Abel
import Mathlib.Tactic.SplitIfs
import Verif.Model.FvSweep
import Verif.Spec.Lattice

/-!
An array represents a lattice function on a box; the array operations preserve this.
-/

set_option linter.unusedSectionVars false

namespace FVHOE

variable {α β γ : Type}
variable {K : Type} [Field K] {V : Type} [AddCommGroup V] [Module K V]

/-- `A` holds the values of `Φ` on the box `[lo, hi)`. -/
def Rep (A : Arr α) (lo hi : Ix) (Φ : Ix → α) : Prop :=
  (∀ d, (A.shape d : ℤ) = hi d - lo d) ∧ ∀ j, A.InB j → A.get j = Φ (j + lo)

theorem Rep.congr {A : Arr α} {lo hi lo' hi' : Ix} {Φ Ψ : Ix → α} (h : Rep A lo hi Φ)
    (e1 : lo = lo') (e2 : hi = hi') (e3 : ∀ i, (∀ d, lo d ≤ i d ∧ i d < hi d) → Φ i = Ψ i) :
    Rep A lo' hi' Ψ := by
  subst e1; subst e2
  refine ⟨h.1, fun j hj => ?_⟩
  rw [h.2 j hj]
  apply e3
  intro d
  have := hj d
  have h1 := h.1 d
  simp only [Pi.add_apply]
  omega

theorem Rep.get_at {A : Arr α} {lo hi : Ix} {Φ : Ix → α} (h : Rep A lo hi Φ) (i : Ix)
    (hi' : ∀ d, lo d ≤ i d ∧ i d < hi d) : A.get (i - lo) = Φ i := by
  have := h.2 (i - lo) (by
    intro d
    have h1 := h.1 d
    have h2 := hi' d
    simp only [Pi.sub_apply]
    omega)
  simpa using this

theorem rep_map {A : Arr α} {lo hi : Ix} {Φ : Ix → α} (h : Rep A lo hi Φ) (f : α → β) :
    Rep (A.map f) lo hi (fun i => f (Φ i)) :=
  ⟨h.1, fun j hj => congrArg f (h.2 j hj)⟩

theorem bix_eq (A : Arr α) (j : Ix) (hj : A.InB j) : A.bix j = j := by
  funext d
  unfold Arr.bix
  split
  · rename_i h
    have := hj d
    rw [h] at this
    omega
  · rfl

theorem rep_zip {A : Arr α} {B : Arr β} {lo hi : Ix} {Φ : Ix → α} {Ψ : Ix → β}
    (hA : Rep A lo hi Φ) (hB : Rep B lo hi Ψ) (f : α → β → γ) :
    ∃ C, A.zip f B = .ok C ∧ Rep C lo hi (fun i => f (Φ i) (Ψ i)) := by
  have hs : ∀ d, A.shape d = B.shape d := by
    intro d
    have h1 := hA.1 d
    have h2 := hB.1 d
    omega
  refine ⟨_, if_pos (fun d => Or.inl (hs d)), ?_, ?_⟩
  · intro d
    simp only [dimBroadcast]
    rw [← hs d, ite_self]
    exact hA.1 d
  · intro j hj
    have hjA : A.InB j := by
      intro d
      have := hj d
      simp only [dimBroadcast] at this
      rw [← hs d, ite_self] at this
      exact this
    have hjB : B.InB j := by
      intro d
      have := hjA d
      rwa [hs d] at this
    simp only
    rw [bix_eq A j hjA, bix_eq B j hjB, hA.2 j hjA, hB.2 j hjB]

theorem rep_addInPlace [Add α] {A B : Arr α} {lo hi : Ix} {Φ Ψ : Ix → α}
    (hA : Rep A lo hi Φ) (hB : Rep B lo hi Ψ) :
    ∃ C, A.addInPlace B = .ok C ∧ Rep C lo hi (fun i => Φ i + Ψ i) := by
  have hs : ∀ d, B.shape d = A.shape d := by
    intro d
    have h1 := hA.1 d
    have h2 := hB.1 d
    omega
  refine ⟨_, if_pos (fun d => Or.inl (hs d)), hA.1, ?_⟩
  intro j hj
  have hjB : B.InB j := by
    intro d
    have := hj d
    rwa [hs d]
  simp only
  rw [bix_eq B j hjB, hB.2 j hjB]
  congr 1
  exact hA.2 j hj

theorem rep_assign {A B : Arr α} {lo hi : Ix} {Ψ : Ix → α}
    (hA : ∀ d, (A.shape d : ℤ) = hi d - lo d) (hB : Rep B lo hi Ψ) :
    ∃ C, A.assign B = .ok C ∧ Rep C lo hi Ψ := by
  have hs : ∀ d, B.shape d = A.shape d := by
    intro d
    have h1 := hA d
    have h2 := hB.1 d
    omega
  refine ⟨_, if_pos (fun d => Or.inl (hs d)), hA, ?_⟩
  intro j hj
  have hjB : B.InB j := by
    intro d
    have := hj d
    rwa [hs d]
  simp only
  rw [bix_eq B j hjB, hB.2 j hjB]

theorem sliceStart_orNone {n : ℕ} {a : ℤ} (h0 : 0 ≤ a) (hn : a ≤ n) :
    (sliceStart n (orNone a) : ℤ) = a := by
  unfold orNone
  split
  · rename_i h; simp [sliceStart, h]
  · simp only [sliceStart, pyBound]
    rw [if_neg (by omega)]
    omega

theorem sliceStop_orNone {n : ℕ} {b : ℤ} (h0 : 0 ≤ b) (hn : b ≤ n) :
    (sliceStop n (orNone (-b)) : ℤ) = n - b := by
  unfold orNone
  split
  · rename_i h
    have : b = 0 := by omega
    simp [sliceStop, this]
  · simp only [sliceStop, pyBound]
    rw [if_pos (by omega)]
    omega

theorem rep_cut {A : Arr α} {lo hi : Ix} {Φ : Ix → α} (h : Rep A lo hi Φ) (d : Fin 3) (a b : ℤ)
    (ha : 0 ≤ a) (hb : 0 ≤ b) (hab : a + b ≤ hi d - lo d) :
    Rep (A.cut d a (-b)) (lo + Pi.single d a) (hi - Pi.single d b) Φ := by
  have hd := h.1 d
  have e1 : (sliceStart (A.shape d) (orNone a) : ℤ) = a := sliceStart_orNone ha (by omega)
  have e2 : (sliceStop (A.shape d) (orNone (-b)) : ℤ) = A.shape d - b :=
    sliceStop_orNone hb (by omega)
  have hsh : ∀ d', (((A.cut d a (-b)).shape d' : ℕ) : ℤ) =
      (hi - Pi.single d b : Ix) d' - (lo + Pi.single d a : Ix) d' := by
    intro d'
    simp only [Arr.cut, Arr.slice]
    by_cases hdd : d' = d
    · subst hdd
      simp only [Function.update_self, Pi.sub_apply, Pi.add_apply, Pi.single_eq_same]
      omega
    · simp only [Function.update_of_ne hdd, Pi.sub_apply, Pi.add_apply,
        Pi.single_eq_of_ne hdd]
      have := h.1 d'
      omega
  refine ⟨hsh, ?_⟩
  intro j hj
  simp only [Arr.cut, Arr.slice]
  rw [e1, h.2]
  · congr 1
    abel
  · intro d'
    have h1 := hj d'
    have h2 := hsh d'
    have h3 := h.1 d'
    by_cases hdd : d' = d
    · subst hdd
      simp only [Pi.sub_apply, Pi.add_apply, Pi.single_eq_same] at *
      omega
    · simp only [Pi.sub_apply, Pi.add_apply, Pi.single_eq_of_ne hdd] at *
      omega

theorem rep_zerosLike [Zero β] {A : Arr α} {lo hi : Ix} {Φ : Ix → α} (h : Rep A lo hi Φ) :
    Rep (A.zerosLike : Arr β) lo hi (fun _ => 0) := ⟨h.1, fun _ _ => rfl⟩

/-- The accumulation loop from slice `k` on. -/
theorem rep_sweep_fold {u : Arr V} {lo hi : Ix} {Φ : Ix → V} (h : Rep u lo hi Φ) (d : Fin 3)
    (m : ℕ) (hm : (m : ℤ) ≤ hi d - lo d) : ∀ (ws : List ℚ) (k : ℕ) (out : Arr V) (Ψ : Ix → V)
      (s : ℤ), k + ws.length = m + 1 →
      Rep out (lo + Pi.single d s) (hi - Pi.single d (m - s)) Ψ →
      ∃ out', (List.zip ws ((List.range' k ws.length).map
          fun i : ℕ => ((i : ℤ), -(((m + 1 : ℕ) : ℤ) - 1) + i))).foldlM
          (fun out (w, c) => out.addInPlace ((u.cut d c.1 c.2).map fun x => (w : K) • x)) out
          = .ok out' ∧
        Rep out' (lo + Pi.single d s) (hi - Pi.single d (m - s))
          (fun i => Ψ i + wsum K ws (k - s) fun k => Φ (i + Pi.single d k)) := by
  intro ws
  induction ws with
  | nil =>
    intro k out Ψ s _ ho
    refine ⟨out, rfl, ?_⟩
    exact ho.congr rfl rfl (fun i _ => by simp [wsum])
  | cons w ws ih =>
    intro k out Ψ s hk ho
    simp only [List.length_cons] at hk
    have hc : Rep (u.cut d (k : ℤ) (-(((m : ℤ) - k)))) (lo + Pi.single d (k : ℤ))
        (hi - Pi.single d ((m : ℤ) - k)) Φ :=
      rep_cut h d _ _ (by omega) (by omega) (by omega)
    -- move the box to the output's box
    have hc' : Rep (u.cut d (k : ℤ) (-(((m : ℤ) - k)))) (lo + Pi.single d s)
        (hi - Pi.single d ((m : ℤ) - s)) (fun i => Φ (i + Pi.single d ((k : ℤ) - s))) := by
      refine ⟨fun d' => ?_, fun j hj => ?_⟩
      · rw [hc.1 d']
        by_cases hdd : d' = d
        · subst hdd; simp only [Pi.sub_apply, Pi.add_apply, Pi.single_eq_same]; omega
        · simp only [Pi.sub_apply, Pi.add_apply, Pi.single_eq_of_ne hdd]
      · rw [hc.2 j hj]
        congr 1
        have : (Pi.single d (k : ℤ) : Ix) = Pi.single d s + Pi.single d ((k : ℤ) - s) := by
          rw [← Pi.single_add]; congr 1; omega
        rw [this]; abel
    obtain ⟨o1, e1, r1⟩ := rep_addInPlace ho (rep_map hc' (fun x => (w : K) • x))
    have hcut : -(((m + 1 : ℕ) : ℤ) - 1) + (k : ℤ) = -((m : ℤ) - k) := by push_cast; omega
    obtain ⟨o2, e2, r2⟩ := ih (k + 1) o1 _ s (by omega) r1
    refine ⟨o2, ?_, ?_⟩
    · rw [List.length_cons, List.range'_succ, List.map_cons, List.zip_cons_cons, List.foldlM_cons]
      simp only [hcut, e1]
      exact e2
    · refine r2.congr rfl rfl (fun i _ => ?_)
      simp only [wsum]
      have : ((k + 1 : ℕ) : ℤ) - s = (k : ℤ) - s + 1 := by push_cast; omega
      rw [this, add_assoc]

/-- `stencil_sweep`'s loop refines the lattice convolution and trims `r` cells on each side. -/
theorem rep_sweepLoop {u : Arr V} {lo hi : Ix} {Φ : Ix → V} (h : Rep u lo hi Φ) (d : Fin 3)
    (r : ℕ) (ws : List ℚ) (hl : ws.length = 2 * r + 1) (hr : 2 * (r : ℤ) ≤ hi d - lo d) :
    ∃ out, sweepLoop K u ws d = .ok out ∧
      Rep out (lo + Pi.single d (r : ℤ)) (hi - Pi.single d (r : ℤ)) (lsweep K d r ws Φ) := by
  unfold sweepLoop
  have hcuts : symmetricCuts ws.length = (List.range' 0 ws.length).map
      fun i : ℕ => ((i : ℤ), -(((2 * r + 1 : ℕ) : ℤ) - 1) + i) := by
    unfold symmetricCuts
    rw [List.range_eq_range', hl]
  have hc0 : Rep (u.cut d 0 (-((2 * r : ℕ) : ℤ))) (lo + Pi.single d 0)
      (hi - Pi.single d ((2 * r : ℕ) : ℤ)) Φ :=
    rep_cut h d 0 _ le_rfl (by omega) (by push_cast; omega)
  have hz : Rep ((u.cut d 0 (-((2 * r : ℕ) : ℤ))).zerosLike : Arr V) (lo + Pi.single d (r : ℤ))
      (hi - Pi.single d (((2 * r : ℕ) : ℤ) - r)) (fun _ => 0) := by
    refine ⟨fun d' => ?_, fun _ _ => rfl⟩
    have := hc0.1 d'
    simp only [Arr.zerosLike]
    rw [this]
    by_cases hdd : d' = d
    · subst hdd; simp only [Pi.sub_apply, Pi.add_apply, Pi.single_eq_same]; omega
    · simp only [Pi.sub_apply, Pi.add_apply, Pi.single_eq_of_ne hdd]
  obtain ⟨o, e, ro⟩ := rep_sweep_fold (K := K) h d (2 * r) (by push_cast; omega) ws 0 _ _ (r : ℤ)
    (by omega) hz
  have hne : symmetricCuts ws.length = ((0 : ℤ), -((2 * r : ℕ) : ℤ)) ::
      (List.range' 1 (2 * r)).map fun i : ℕ => ((i : ℤ), -(((2 * r + 1 : ℕ) : ℤ) - 1) + i) := by
    rw [hcuts, hl, List.range'_succ, List.map_cons]
    congr 1
    push_cast
    simp
  rw [hne]
  simp only
  rw [← hne, hcuts]
  refine ⟨o, e, ?_⟩
  refine ro.congr rfl ?_ (fun i _ => ?_)
  · congr 2; push_cast; omega
  · simp only [lsweep, zero_add]
    congr 1
    simp

end FVHOE
