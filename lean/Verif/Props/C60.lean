import Verif.Model.Initial
import Verif.Props.C47_C48

/-!
C60: the initial array is assembled from the core function and the functions of the passive scalars, each in its own
rows.
-/

set_option linter.unusedSectionVars false

namespace FVHOE

variable {K : Type} [Field K]

theorem writePassives_rows (hs : HydroState) (d : PassiveICs K) (m : Slab K) : ∀ (l : List String) (k : ℕ)
    (rows : ℕ → Ix → K), (∀ i (h : i < l.length), hs.map l[i] = some (.row (k + i))) → (∀ s ∈ l, (d.get? s).isSome) →
    ∃ out, writePassives hs d m l rows = .ok out ∧ (∀ r, r < k → out r = rows r) ∧
      (∀ r, k + l.length ≤ r → out r = rows r) ∧
      ∀ i (h : i < l.length), ∃ f, d.get? l[i] = some f ∧ out (k + i) = (f m).get := by
  intro l
  induction l with
  | nil =>
    intro k rows _ _
    exact ⟨rows, rfl, fun _ _ => rfl, fun _ _ => rfl, fun i h => absurd h (Nat.not_lt_zero _)⟩
  | cons s ss ih =>
    intro k rows hm hd
    obtain ⟨f, hf⟩ := Option.isSome_iff_exists.1 (hd s (by simp))
    have h0 := hm 0 (by simp)
    simp only [List.getElem_cons_zero, Nat.add_zero] at h0
    obtain ⟨out, e, e1, e2, e3⟩ := ih (k + 1) (assignRows rows (.row k) (f m))
      (fun i h => by
        have := hm (i + 1) (by simpa using h)
        simpa [Nat.add_assoc, Nat.add_comm 1] using this) (fun s' h => hd s' (by simp [h]))
    refine ⟨out, ?_, fun r hr => ?_, fun r hr => ?_, fun i h => ?_⟩
    · simp only [writePassives, hf, h0]
      exact e
    · rw [e1 r (by omega)]
      exact if_neg (by omega)
    · simp only [List.length_cons] at hr
      rw [e2 r (by omega)]
      exact if_neg (by omega)
    · match i with
      | 0 =>
        refine ⟨f, hf, ?_⟩
        rw [e1 _ (by omega)]
        exact if_pos rfl
      | i + 1 =>
        obtain ⟨f', h1, h2⟩ := e3 i (by simpa using h)
        refine ⟨f', by simpa using h1, ?_⟩
        rw [← h2]
        congr 1
        omega

/-- **C60** For distinct passive names other than "passive_scalars", with a function for every one of them: rows 0 to 4
are what the core function returns, row `5 + i` is what the function of the `i`-th passive scalar returns, and nothing
of the uninitialised memory is left in the rows of the array. -/
theorem C60_rows (passives : List String) (ndim : ℕ) (hd : passives.Nodup) (hr : "passive_scalars" ∉ passives)
    (hs : HydroState) (hhs : HydroState.init passives ndim = .ok hs) (core : Slab K → ℕ → Ix → K) (d : PassiveICs K)
    (hf : ∀ s ∈ passives, (d.get? s).isSome) (junk : ℕ → Ix → K) (m : Slab K) :
    ∃ out, buildIC hs core d junk m = .ok out ∧ (∀ r, r < 5 → out r = core m r) ∧
      ∀ i (h : i < passives.length), ∃ f, d.get? passives[i] = some f ∧ out (5 + i) = (f m).get := by
  simp only [HydroState.init] at hhs
  rw [if_neg (by simpa using hd)] at hhs
  by_cases hp : passives = []
  · rw [if_neg (by simpa using hp)] at hhs
    cases hhs
    subst hp
    exact ⟨_, rfl, fun r hr => if_pos hr, fun i h => absurd h (Nat.not_lt_zero _)⟩
  · rw [if_pos hp] at hhs
    cases hhs
    have hall : (passives.all fun s => (d.get? s).isSome) = true := List.all_eq_true.2 hf
    obtain ⟨out, e, e1, -, e3⟩ := writePassives_rows
      ⟨VarMap.set (addPassives (baseEntries.foldl (fun m e => VarMap.set m e.1 e.2) fun _ => none) 5 passives)
        "passive_scalars" (.rows (List.range' 5 passives.length)), passives, true, 5 + passives.length, ndim⟩ d m passives 5
      (fun r => if r < 5 then core m r else junk r)
      (fun i h => by
        have hne : passives[i] ≠ "passive_scalars" := fun e => hr (e ▸ List.getElem_mem h)
        change VarMap.set _ _ _ _ = _
        unfold VarMap.set
        rw [Function.update_of_ne hne, addPassives_get _ _ _ _ h hd]) hf
    refine ⟨out, ?_, fun r h => by rw [e1 r h, if_pos h], e3⟩
    simp only [buildIC, hall, Bool.not_true, Bool.and_false, Bool.false_eq_true, if_false, if_true]
    exact e

/-- **C60 (missing function)** A passive scalar without a function is refused. -/
theorem C60_missing (hs : HydroState) (passives : List String) (ndim : ℕ) (hhs : HydroState.init passives ndim = .ok hs)
    (core : Slab K → ℕ → Ix → K) (d : PassiveICs K) (s : String) (hs' : s ∈ passives) (hm : d.get? s = none)
    (junk : ℕ → Ix → K) (m : Slab K) : buildIC hs core d junk m = .error .valueError := by
  simp only [HydroState.init] at hhs
  split at hhs
  · cases hhs
  · rw [if_pos (by rintro rfl; cases hs')] at hhs
    cases hhs
    unfold buildIC
    rw [if_pos]
    simp only [Bool.true_and, Bool.not_eq_true', List.all_eq_false]
    exact ⟨s, hs', by rw [hm]; simp⟩

/-- Two passive scalars, each in its row. -/
example : ∃ hs, HydroState.init ["dye", "metal"] 3 = .ok hs ∧ ∃ out, buildIC (K := ℚ) hs (fun _ r _ => r)
    [("metal", fun m => ⟨(m.coord 0).shape, fun _ => 70⟩), ("dye", fun m => ⟨(m.coord 0).shape, fun _ => 60⟩)]
    (fun _ _ => -1) ⟨fun _ => ⟨![4, 1, 1], fun j => j 0⟩⟩ = .ok out ∧ (List.range 7).map (fun r => out r ![2, 0, 0]) =
      [0, 1, 2, 3, 4, 60, 70] := ⟨_, rfl, _, rfl, by decide +kernel⟩

/-- Why the name "passive_scalars" is excepted: it names all passive rows, so the function of that scalar is written
over the others. -/
theorem C60_reserved : ∃ hs, HydroState.init ["dye", "passive_scalars"] 3 = .ok hs ∧ ∃ out, buildIC (K := ℚ) hs
    (fun _ r _ => r) [("passive_scalars", fun m => ⟨(m.coord 0).shape, fun _ => 70⟩),
      ("dye", fun m => ⟨(m.coord 0).shape, fun _ => 60⟩)]
    (fun _ _ => -1) ⟨fun _ => ⟨![4, 1, 1], fun j => j 0⟩⟩ = .ok out ∧ (List.range 7).map (fun r => out r ![2, 0, 0]) =
      [0, 1, 2, 3, 4, 70, 70] := ⟨_, rfl, _, rfl, by decide +kernel⟩

end FVHOE
