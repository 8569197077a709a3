import Mathlib.Analysis.SpecialFunctions.Trigonometric.Basic
import Verif.Proofs.Scenarios
import Verif.Props.C12_C57
import Verif.Props.C58_C62

/-!
C65: the built-in initial conditions prescribe one gas state at every point, physical for admissible arguments, and the
solvers built from them start, and at degree zero stay, physical.
-/

set_option linter.unusedSectionVars false

namespace FVHOE

variable {K : Type} [Field K] [LinearOrder K] [IsStrictOrderedRing K]

/-! ## The prescribed states -/

/-- Density, velocity and pressure at a point. -/
structure GasState (K : Type) where
  rho : K
  v : Fin 3 → K
  P : K

@[ext] theorem GasState.ext {a b : GasState K} (h1 : a.rho = b.rho) (h2 : ∀ d, a.v d = b.v d) (h3 : a.P = b.P) :
    a = b := by
  cases a; cases b
  simp only at h1 h3
  subst h1 h3
  congr 1
  exact funext h2

/-- The direction of a letter. -/
def axisOf (dim : String) : Fin 3 := if dim = "z" then 2 else if dim = "y" then 1 else 0

/-- Is the letter of the direction in the string? -/
def Named (dims : String) (d : Fin 3) : Prop := (if d = 0 then 'x' else if d = 1 then 'y' else 'z') ∈ dims.toList

instance (dims : String) (d : Fin 3) : Decidable (Named dims d) := inferInstanceAs (Decidable (_ ∈ _))

/-- The coordinate of the centre given for a direction; a letter given twice takes the last coordinate. -/
def centreAlong (dims : String) (center : List K) (d : Fin 3) : K :=
  (((dims.toList.zip center).reverse.find? fun e => decide (e.1 = if d = 0 then 'x' else if d = 1 then 'y' else 'z')).map
    Prod.snd).getD 0

open Classical in
/-- What each initial condition prescribes at a point. -/
noncomputable def Scenario.state (F : NumFns K) (s : Scenario K) (x : Fin 3 → K) : GasState K :=
  match s with
  | .sinus dims rho P v =>
    ⟨rho.1 + (rho.2 - rho.1) * ((1 + F.sin (2 * F.pi * ∑ d with Named dims d, x d)) / 2), v, P⟩
  | .square dims rho P v => ⟨if ∀ d, Named dims d → |x d - 1 / 2| < 1 / 4 then rho.2 else rho.1, v, P⟩
  | .slottedDisk rho P =>
    ⟨if (x 0 - 1 / 2) ^ 2 + (x 1 - 3 / 4) ^ 2 < (3 / 20) ^ 2 ∧ (1 / 40 ≤ |x 0 - 1 / 2| ∨ 17 / 20 ≤ x 1) then rho.2
      else rho.1, ![-(x 1 - 1 / 2), x 0 - 1 / 2, 0], P⟩
  | .shock1d dim position rho P v =>
    if x (axisOf dim) < position then ⟨rho.1, Pi.single (axisOf dim) v.1, P.1⟩
    else ⟨rho.2, Pi.single (axisOf dim) v.2, P.2⟩
  | .doubleShock1d dim positions rho v P =>
    let k : Fin 3 := if x (axisOf dim) < positions.1 then 0 else if x (axisOf dim) < positions.2 then 1 else 2
    ⟨rho k, Pi.single (axisOf dim) (v k), P k⟩
  | .shuOsher dim =>
    if x (axisOf dim) < 1 then ⟨3857143 / 1000000, Pi.single (axisOf dim) (2629369 / 1000000), 1033333 / 100000⟩
    else ⟨1 + F.sin (5 * (x (axisOf dim) - 5)) / 5, 0, 1⟩
  | .kelvinHelmholtz sigma w0 =>
    ⟨if |x 1 - 1 / 2| < 1 / 4 then 2 else 1,
      ![if |x 1 - 1 / 2| < 1 / 4 then 1 / 2 else -(1 / 2),
        w0 * F.sin (4 * F.pi * x 0) * (F.exp (-(x 1 - 1 / 4) ^ 2 / (2 * sigma ^ 2)) +
          F.exp (-(x 1 - 3 / 4) ^ 2 / (2 * sigma ^ 2))), 0], 5 / 2⟩
  | .doubleMach gamma =>
    if x 0 < 1 / 6 + x 1 / F.tan (F.pi / 3) then ⟨8, ![1429 / 200, -(33 / 8), 0], 233 / 2⟩ else ⟨gamma, 0, 1⟩
  | .shockTube mode dims center radius cube rho P vx vy vz =>
    if (mode = "tube" ∧ ∑ d with Named dims d, (x d - centreAlong dims center.asTuple d) ^ 2 ≤ radius ^ 2) ∨
      (mode = "cube" ∧ ∀ d q, cube d = some q → q.1 ≤ x d ∧ x d ≤ q.2) then ⟨rho.1, ![vx.1, vy.1, vz.1], P.1⟩
    else ⟨rho.2, ![vx.2, vy.2, vz.2], P.2⟩
  | .athenaBlast => ⟨1, 0, if F.sqrt (x 0 ^ 2 + x 1 ^ 2) < 1 / 10 then 10 else 1 / 10⟩

/-- The arguments that raise no exception. -/
def Scenario.Accepted : Scenario K → Prop
  | .shock1d dim _ _ _ _ | .doubleShock1d dim _ _ _ _ | .shuOsher dim => dim ∈ ["x", "y", "z"]
  | .shockTube mode dims center _ cube _ _ _ _ _ =>
    (mode = "tube" ∧ center.asTuple.length = dims.toList.length ∧ ∀ c ∈ dims.toList, c ∈ ['x', 'y', 'z']) ∨
    (mode = "cube" ∧ ∃ d, cube d ≠ none)
  | _ => True

/-- The state held by the rows "rho", "vx", "vy", "vz", "P" at an index. -/
def gasAt (r : ℕ → Ix → K) (j : Ix) : GasState K := ⟨r 0 j, fun d => r (1 + d) j, r 4 j⟩

theorem gasAt_written (a b c d e : Ix → K) (junk : ℕ → Ix → K) (j : Ix) :
    gasAt (fun r => if r = 4 then e else if r = 3 then d else if r = 2 then c else if r = 1 then b else if r = 0 then a
      else junk r) j = ⟨a j, ![b j, c j, d j], e j⟩ := by
  refine GasState.ext rfl (fun k => ?_) rfl
  fin_cases k <;> rfl

theorem letterIn_letter (dims : String) (d : Fin 3) : letterIn (letter d) dims = true ↔ Named dims d := by
  unfold letterIn letter Named
  exact decide_eq_true_iff

theorem fin3_ext {f g : Fin 3 → K} (h0 : f 0 = g 0) (h1 : f 1 = g 1) (h2 : f 2 = g 2) : f = g := by
  funext d
  fin_cases d <;> assumption

theorem sum_named (dims : String) (f : Fin 3 → K) : ∑ d with Named dims d, f d =
    (if letterIn (letter 0) dims then f 0 else 0) + (if letterIn (letter 1) dims then f 1 else 0) +
      (if letterIn (letter 2) dims then f 2 else 0) := by
  rw [Finset.sum_filter, Fin.sum_univ_three]
  simp only [letterIn_letter]

theorem abs_quarter (y : K) : (y > 1 / 4 ∧ y < 3 / 4) ↔ |y - 1 / 2| < 1 / 4 := by
  rw [abs_lt]
  constructor
  · rintro ⟨h1, h2⟩; constructor <;> linarith
  · rintro ⟨h1, h2⟩; constructor <;> linarith

theorem coordOf_ok {dim : String} (h : dim ∈ ["x", "y", "z"]) : coordOf dim = .ok (axisOf dim) := by
  simp only [List.mem_cons, List.not_mem_nil, or_false] at h
  rcases h with rfl | rfl | rfl <;> rfl

theorem coordOf_error {dim : String} (h : dim ∉ ["x", "y", "z"]) : coordOf dim = .error .keyError := by
  simp only [List.mem_cons, List.not_mem_nil, or_false, not_or] at h
  unfold coordOf
  split
  · exact absurd rfl h.1
  · exact absurd rfl h.2.1
  · exact absurd rfl h.2.2
  · rfl

theorem along_axis (dim : String) (h : dim ∈ ["x", "y", "z"]) (v : K) :
    (![if dim = "x" then v else 0, if dim = "y" then v else 0, if dim = "z" then v else 0] : Fin 3 → K) =
      Pi.single (axisOf dim) v := by
  simp only [List.mem_cons, List.not_mem_nil, or_false] at h
  rcases h with rfl | rfl | rfl <;> refine fin3_ext ?_ ?_ ?_ <;> simp [axisOf]

/-- The letter of a direction is at its place in "xyz". -/
theorem letter_inj {d e : Fin 3} : letter d = letter e ↔ d = e := by
  revert d e
  decide

theorem placeCenters_ok (l : List Char) : ∀ (c : List K) (z : Fin 3 → K), c.length = l.length →
    (∀ a ∈ l, a ∈ ['x', 'y', 'z']) → placeCenters z l c =
      .ok fun d => (((l.zip c).reverse.find? fun e => decide (e.1 = letter d)).map Prod.snd).getD (z d) := by
  induction l with
  | nil => intro c z hc _; cases c <;> rfl
  | cons a l ih =>
    intro c z hc hl
    cases c with
    | nil => cases hc
    | cons b c =>
      obtain ⟨e, he⟩ : ∃ e : Fin 3, a = letter e := by
        have := hl a (by simp)
        simp only [List.mem_cons, List.not_mem_nil, or_false] at this
        rcases this with rfl | rfl | rfl
        exacts [⟨0, rfl⟩, ⟨1, rfl⟩, ⟨2, rfl⟩]
      have hp : placeCenters z (a :: l) (b :: c) = placeCenters (Function.update z e b) l c := by
        subst he
        fin_cases e <;> rfl
      rw [hp, ih c _ (by simpa using hc) (fun a' h => hl a' (by simp [h]))]
      congr 1
      funext d
      rw [List.zip_cons_cons, List.reverse_cons, List.find?_append]
      cases (l.zip c).reverse.find? fun e => decide (e.1 = letter d) with
      | some q => rfl
      | none =>
        simp only [Option.map_none, Option.getD_none, Option.none_or, List.find?_cons, List.find?_nil, he, letter_inj]
        by_cases hd : d = e
        · subst hd; simp
        · rw [Function.update_of_ne hd]
          have : decide (e = d) = false := by simpa using fun h => hd h.symm
          rw [this]
          rfl

theorem placeCenters_bad (l : List Char) : ∀ (c : List K) (z : Fin 3 → K), c.length = l.length →
    (∃ a ∈ l, a ∉ ['x', 'y', 'z']) → placeCenters z l c = .error .valueError := by
  induction l with
  | nil => intro c z _ h; simp at h
  | cons a l ih =>
    intro c z hc hl
    cases c with
    | nil => cases hc
    | cons b c =>
      by_cases ha : a ∈ ['x', 'y', 'z']
      · obtain ⟨a', h1, h2⟩ := hl
        have h3 : a' ∈ l := by
          rcases List.mem_cons.1 h1 with rfl | h
          · exact absurd ha h2
          · exact h
        have := fun z => ih c z (by simpa using hc) ⟨a', h3, h2⟩
        simp only [List.mem_cons, List.not_mem_nil, or_false] at ha
        rcases ha with rfl | rfl | rfl <;> exact this _
      · simp only [List.mem_cons, List.not_mem_nil, or_false, not_or] at ha
        simp only [placeCenters, ha.1, ha.2.1, ha.2.2, if_false]
        rfl

theorem tubeRegion_ok {mode dims : String} {center : CenterArg K} {radius : K} {cube : Fin 3 → Option (K × K)}
    (h : (mode = "tube" ∧ center.asTuple.length = dims.toList.length ∧ ∀ c ∈ dims.toList, c ∈ ['x', 'y', 'z']) ∨
      (mode = "cube" ∧ ∃ d, cube d ≠ none)) (m : Slab K) :
    ∃ inside, tubeRegion mode dims center radius cube m = .ok inside ∧ ∀ j, inside j = true ↔
      (mode = "tube" ∧ ∑ d with Named dims d, ((m.coord d).get j - centreAlong dims center.asTuple d) ^ 2 ≤ radius ^ 2) ∨
      (mode = "cube" ∧ ∀ d q, cube d = some q → q.1 ≤ (m.coord d).get j ∧ (m.coord d).get j ≤ q.2) := by
  rcases h with ⟨rfl, h1, h2⟩ | ⟨rfl, h1⟩
  · unfold tubeRegion
    rw [if_pos rfl, if_neg (by simpa using h1), placeCenters_ok _ _ _ h1 h2]
    refine ⟨_, rfl, fun j => ?_⟩
    have hc : ¬ ("tube" = "cube") := by decide
    simp only [hc, false_and, or_false, true_and, decide_eq_true_iff]
    rw [sum_named]
    have e : ∀ d : Fin 3, (if letterIn (letter d) dims = true then (m.coord d).get j -
        (((dims.toList.zip center.asTuple).reverse.find? fun e => decide (e.1 = letter d)).map Prod.snd).getD 0 else 0) ^ 2 =
        if letterIn (letter d) dims = true then ((m.coord d).get j - centreAlong dims center.asTuple d) ^ 2 else 0 := by
      intro d
      split_ifs
      · rfl
      · simp
    rw [← e, ← e, ← e]
  · unfold tubeRegion
    rw [if_neg (by decide), if_pos rfl, if_neg (by simpa using h1)]
    refine ⟨_, rfl, fun j => ?_⟩
    have hc : ¬ ("cube" = "tube") := by decide
    simp only [hc, false_and, false_or, true_and, decide_eq_true_iff]
    refine forall_congr' fun d => ?_
    cases h : cube d with
    | none => simp [inCube]
    | some q => simp [inCube]

theorem ite_state {p : Prop} [Decidable p] (a b : K) (v w : Fin 3 → K) (c d : K) :
    (if p then (⟨a, v, c⟩ : GasState K) else ⟨b, w, d⟩) =
      ⟨if p then a else b, fun k => if p then v k else w k, if p then c else d⟩ := by
  split_ifs <;> rfl

/-- **C65 (the functions)** With arguments that are accepted every initial condition fills the five rows "rho", "vx",
"vy", "vz", "P" at every index with the state prescribed at the point there, whatever the memory held before. -/
theorem C65_state (F : NumFns K) (s : Scenario K) (hs : s.Accepted) (m : Slab K) (junk : ℕ → Ix → K) :
    ∃ r, s.rows F m junk = .ok r ∧ ∀ j, gasAt r j = s.state F fun d => (m.coord d).get j := by
  cases s with
  | sinus dims rho P v =>
    refine ⟨_, writeVars_ok _ _ _ _ _ _, fun j => ?_⟩
    rw [gasAt_written]
    refine GasState.ext ?_ (fun k => by fin_cases k <;> rfl) rfl
    simp only [Scenario.state, sum_named]
    have e : ∀ a b c : K, 0 + a + b + c = a + b + c := fun a b c => by ring
    rw [e]
    change _ * (1 / 2 * F.sin _ + 1 / 2) + rho.1 = _
    rw [show (letter 0) = 'x' from rfl, show (letter 1) = 'y' from rfl, show (letter 2) = 'z' from rfl]
    ring
  | square dims rho P v =>
    refine ⟨_, writeVars_ok _ _ _ _ _ _, fun j => ?_⟩
    rw [gasAt_written]
    refine GasState.ext ?_ (fun k => by fin_cases k <;> rfl) rfl
    simp only [Scenario.state, letterIn_letter, abs_quarter]
  | slottedDisk rho P =>
    refine ⟨_, writeVars_ok _ _ _ _ _ _, fun j => ?_⟩
    rw [gasAt_written]
    refine GasState.ext ?_ (fun k => by fin_cases k <;> rfl) rfl
    simp only [Scenario.state, not_and_or, not_lt]
    norm_num [sq]
  | shock1d dim position rho P v =>
    refine ⟨_, by
      simp only [Scenario.rows, shock1dIC]
      rw [if_neg (by
        have : dim ∈ ["x", "y", "z"] := hs
        simp only [List.mem_cons, List.not_mem_nil, or_false] at this ⊢
        tauto), coordOf_ok hs]
      simp only [bind, Except.bind]
      exact writeVars_ok _ _ _ _ _ _, fun j => ?_⟩
    rw [gasAt_written, along_axis dim hs]
    simp only [Scenario.state]
    split_ifs <;> rfl
  | doubleShock1d dim positions rho v P =>
    refine ⟨_, by
      simp only [Scenario.rows, doubleShock1dIC]
      rw [coordOf_ok hs]
      simp only [bind, Except.bind]
      exact writeVars_ok _ _ _ _ _ _, fun j => ?_⟩
    rw [gasAt_written, along_axis dim hs]
    simp only [Scenario.state]
    split_ifs <;> rfl
  | shuOsher dim =>
    refine ⟨_, by
      simp only [Scenario.rows, shuOsherIC]
      rw [coordOf_ok hs]
      simp only [bind, Except.bind]
      exact writeVars_ok _ _ _ _ _ _, fun j => ?_⟩
    rw [gasAt_written, along_axis dim hs]
    simp only [Scenario.state]
    have e : ∀ y : K, (y - 5 < -4) ↔ y < 1 := fun y => by constructor <;> intro h <;> linarith
    simp only [e]
    split_ifs
    · rfl
    · refine GasState.ext (by ring) (fun k => by simp) rfl
  | kelvinHelmholtz sigma w0 =>
    refine ⟨_, writeVars_ok _ _ _ _ _ _, fun j => ?_⟩
    rw [gasAt_written]
    have e : ∀ y : K, (1 / 4 < y ∧ y < 3 / 4) ↔ |y - 1 / 2| < 1 / 4 := fun y => abs_quarter y
    simp only [Scenario.state, e]
    refine GasState.ext rfl (fun k => ?_) (by norm_num)
    fin_cases k
    · rfl
    · simp only [sq, mul_assoc]
    · rfl
  | doubleMach gamma =>
    refine ⟨_, writeVars_ok _ _ _ _ _ _, fun j => ?_⟩
    rw [gasAt_written]
    have e : ∀ x y : K, (x - y < 1 / 6) ↔ x < 1 / 6 + y := fun x y => by constructor <;> intro h <;> linarith
    simp only [Scenario.state, e]
    split_ifs
    · refine GasState.ext rfl (fun k => ?_) (by norm_num)
      fin_cases k <;> norm_num
    · refine GasState.ext rfl (fun k => ?_) rfl
      fin_cases k <;> rfl
  | shockTube mode dims center radius cube rho P vx vy vz =>
    obtain ⟨inside, h1, h2⟩ := tubeRegion_ok (radius := radius) hs m
    refine ⟨_, by
      simp only [Scenario.rows, shockTubeIC]
      rw [h1]
      simp only [bind, Except.bind]
      exact writeVars_ok _ _ _ _ _ _, fun j => ?_⟩
    rw [gasAt_written]
    simp only [Scenario.state, ← h2]
    split_ifs <;> rfl
  | athenaBlast =>
    refine ⟨_, writeVars_ok _ _ _ _ _ _, fun j => ?_⟩
    rw [gasAt_written]
    simp only [Scenario.state, sq]
    refine GasState.ext rfl (fun k => ?_) rfl
    fin_cases k <;> rfl

/-- The exception for arguments that are not accepted. The test for the letter of `Shock1D` lets the substrings of
"xyz" through, which then fail as keys. -/
def Scenario.failure : Scenario K → PyErr
  | .shock1d dim _ _ _ _ => if dim ∈ ["", "xy", "yz", "xyz"] then .keyError else .valueError
  | .shockTube mode _ _ _ _ _ _ _ _ _ => if mode = "tube" ∨ mode = "cube" then .valueError else .nameError
  | _ => .keyError

/-- **C65 (rejected arguments)** All other arguments end with an exception and no array. -/
theorem C65_rejected (F : NumFns K) (s : Scenario K) (hs : ¬ s.Accepted) (m : Slab K) (junk : ℕ → Ix → K) :
    s.rows F m junk = .error s.failure := by
  cases s with
  | sinus dims rho P v => exact absurd trivial hs
  | square dims rho P v => exact absurd trivial hs
  | slottedDisk rho P => exact absurd trivial hs
  | shock1d dim position rho P v =>
    have h : dim ∉ ["x", "y", "z"] := hs
    simp only [Scenario.rows, shock1dIC, Scenario.failure]
    by_cases h' : dim ∈ ["", "xy", "yz", "xyz"]
    · rw [if_pos h', if_neg (by
        simp only [List.mem_cons, List.not_mem_nil, or_false] at h' ⊢
        tauto), coordOf_error h]
      rfl
    · rw [if_neg h', if_pos (by
        simp only [List.mem_cons, List.not_mem_nil, or_false] at h h' ⊢
        tauto)]
  | doubleShock1d dim positions rho v P =>
    simp only [Scenario.rows, doubleShock1dIC]
    rw [coordOf_error hs]
    rfl
  | shuOsher dim =>
    simp only [Scenario.rows, shuOsherIC]
    rw [coordOf_error hs]
    rfl
  | kelvinHelmholtz sigma w0 => exact absurd trivial hs
  | doubleMach gamma => exact absurd trivial hs
  | shockTube mode dims center radius cube rho P vx vy vz =>
    simp only [Scenario.Accepted, not_or] at hs
    have e : tubeRegion mode dims center radius cube m =
        .error (if mode = "tube" ∨ mode = "cube" then .valueError else .nameError) := by
      unfold tubeRegion
      by_cases h1 : mode = "tube"
      · rw [if_pos h1, if_pos (Or.inl h1)]
        by_cases h2 : center.asTuple.length = dims.toList.length
        · have h3 : ∃ c ∈ dims.toList, c ∉ ['x', 'y', 'z'] := by
            by_contra h
            push Not at h
            exact hs.1 ⟨h1, h2, h⟩
          rw [if_neg (by simpa using h2), placeCenters_bad _ _ _ h2 h3]
          rfl
        · rw [if_pos h2]
      · rw [if_neg h1]
        by_cases h2 : mode = "cube"
        · rw [if_pos h2, if_pos (Or.inr h2), if_pos (by
            by_contra h
            push Not at h
            exact hs.2 ⟨h2, h⟩)]
        · rw [if_neg h2, if_neg (by tauto)]
    simp only [Scenario.rows, shockTubeIC]
    rw [e]
    rfl
  | athenaBlast => exact absurd trivial hs

/-- The directions along which the initial condition varies. -/
def Scenario.Varies : Scenario K → Fin 3 → Prop
  | .sinus dims _ _ _ | .square dims _ _ _ => Named dims
  | .shock1d dim _ _ _ _ | .doubleShock1d dim _ _ _ _ | .shuOsher dim => fun d => d = axisOf dim
  | .shockTube mode dims _ _ cube _ _ _ _ _ => fun d => (mode = "tube" ∧ Named dims d) ∨ (mode = "cube" ∧ cube d ≠ none)
  | _ => fun d => d ≠ 2

/-- **C65 (directions)** The state depends only on the coordinates along the directions named by the arguments, x and y
for the problems in the plane. -/
theorem C65_directions (F : NumFns K) (s : Scenario K) (x y : Fin 3 → K) (h : ∀ d, s.Varies d → x d = y d) :
    s.state F x = s.state F y := by
  cases s with
  | sinus dims rho P v =>
    simp only [Scenario.state]
    have e : ∑ d with Named dims d, x d = ∑ d with Named dims d, y d :=
      Finset.sum_congr rfl fun d hd => h d (Finset.mem_filter.1 hd).2
    rw [e]
  | square dims rho P v =>
    simp only [Scenario.state]
    have e : (∀ d, Named dims d → |x d - 1 / 2| < 1 / 4) ↔ ∀ d, Named dims d → |y d - 1 / 2| < 1 / 4 :=
      forall_congr' fun d => imp_congr_right fun hd => by rw [h d hd]
    simp only [e]
  | slottedDisk rho P => simp only [Scenario.state, h 0 (by decide : (0 : Fin 3) ≠ 2), h 1 (by decide : (1 : Fin 3) ≠ 2)]
  | shock1d dim position rho P v => simp only [Scenario.state, h _ rfl]
  | doubleShock1d dim positions rho v P => simp only [Scenario.state, h _ rfl]
  | shuOsher dim => simp only [Scenario.state, h _ rfl]
  | kelvinHelmholtz sigma w0 =>
    simp only [Scenario.state, h 0 (by decide : (0 : Fin 3) ≠ 2), h 1 (by decide : (1 : Fin 3) ≠ 2)]
  | doubleMach gamma =>
    simp only [Scenario.state, h 0 (by decide : (0 : Fin 3) ≠ 2), h 1 (by decide : (1 : Fin 3) ≠ 2)]
  | shockTube mode dims center radius cube rho P vx vy vz =>
    have e : ((mode = "tube" ∧ ∑ d with Named dims d, (x d - centreAlong dims center.asTuple d) ^ 2 ≤ radius ^ 2) ∨
        (mode = "cube" ∧ ∀ d q, cube d = some q → q.1 ≤ x d ∧ x d ≤ q.2)) ↔
        ((mode = "tube" ∧ ∑ d with Named dims d, (y d - centreAlong dims center.asTuple d) ^ 2 ≤ radius ^ 2) ∨
        (mode = "cube" ∧ ∀ d q, cube d = some q → q.1 ≤ y d ∧ y d ≤ q.2)) := by
      refine or_congr (and_congr_right fun hm => ?_) (and_congr_right fun hm => ?_)
      · rw [Finset.sum_congr rfl fun d hd => by rw [h d (Or.inl ⟨hm, (Finset.mem_filter.1 hd).2⟩)]]
      · refine forall_congr' fun d => forall_congr' fun q => imp_congr_right fun hq => ?_
        rw [h d (Or.inr ⟨hm, by rw [hq]; nofun⟩)]
    simp only [Scenario.state, e]
  | athenaBlast => simp only [Scenario.state, h 0 (by decide : (0 : Fin 3) ≠ 2), h 1 (by decide : (1 : Fin 3) ≠ 2)]

/-- **C65 (one dimension)** The shock tubes along a line move along that line only. -/
theorem C65_along (F : NumFns K) (s : Scenario K) (dim : String)
    (hs : (∃ position rho P v, s = .shock1d dim position rho P v) ∨
      (∃ positions rho v P, s = .doubleShock1d dim positions rho v P) ∨ s = .shuOsher dim)
    (x : Fin 3 → K) (d : Fin 3) (hd : d ≠ axisOf dim) : (s.state F x).v d = 0 := by
  rcases hs with ⟨position, rho, P, v, rfl⟩ | ⟨positions, rho, v, P, rfl⟩ | rfl
  · simp only [Scenario.state]
    split_ifs <;> exact Pi.single_eq_of_ne hd _
  · exact Pi.single_eq_of_ne hd _
  · simp only [Scenario.state]
    split_ifs
    · exact Pi.single_eq_of_ne hd _
    · rfl

/-- **C65 (period)** The density wave repeats with period one along every direction. -/
theorem C65_period (F : NumFns K) (hsin : ∀ y, F.sin (y + 2 * F.pi) = F.sin y) (dims : String) (rho : K × K) (P : K)
    (v : Fin 3 → K) (x : Fin 3 → K) (d : Fin 3) :
    (Scenario.sinus dims rho P v).state F (x + Pi.single d 1) = (Scenario.sinus dims rho P v).state F x := by
  simp only [Scenario.state, Pi.add_apply, Finset.sum_add_distrib]
  have e : ∑ k with Named dims k, (Pi.single d (1 : K) : Fin 3 → K) k = if Named dims d then 1 else 0 := by
    rw [Finset.sum_filter, Finset.sum_eq_single d]
    · simp
    · intro b _ hb
      simp [Pi.single_eq_of_ne hb]
    · simp
  rw [e]
  split_ifs
  · rw [mul_add, mul_one, hsin]
  · rw [add_zero]

/-- Arguments that describe a gas: positive densities and pressures. -/
def Scenario.Admissible : Scenario K → Prop
  | .sinus _ rho P _ | .square _ rho P _ | .slottedDisk rho P => 0 < rho.1 ∧ 0 < rho.2 ∧ 0 < P
  | .shock1d _ _ rho P _ | .shockTube _ _ _ _ _ rho P _ _ _ => 0 < rho.1 ∧ 0 < rho.2 ∧ 0 < P.1 ∧ 0 < P.2
  | .doubleShock1d _ _ rho _ P => ∀ k, 0 < rho k ∧ 0 < P k
  | .doubleMach gamma => 0 < gamma
  | _ => True

/-- **C65 (bounds)** The density wave lies between the densities given. -/
theorem C65_bounds (F : NumFns K) (hsin : ∀ y, -1 ≤ F.sin y ∧ F.sin y ≤ 1) (dims : String) (rho : K × K)
    (hr : rho.1 ≤ rho.2) (P : K) (v : Fin 3 → K) (x : Fin 3 → K) :
    rho.1 ≤ ((Scenario.sinus dims rho P v).state F x).rho ∧ ((Scenario.sinus dims rho P v).state F x).rho ≤ rho.2 := by
  simp only [Scenario.state]
  obtain ⟨y, hy⟩ : ∃ y, y = F.sin (2 * F.pi * ∑ d with Named dims d, x d) := ⟨_, rfl⟩
  obtain ⟨h1, h2⟩ := hy ▸ hsin _
  rw [← hy]
  constructor <;> nlinarith

/-- **C65 (physical)** Density and pressure are positive at every point. -/
theorem C65_physical (F : NumFns K) (hsin : ∀ y, -1 ≤ F.sin y ∧ F.sin y ≤ 1) (s : Scenario K) (hs : s.Admissible)
    (x : Fin 3 → K) : 0 < (s.state F x).rho ∧ 0 < (s.state F x).P := by
  cases s with
  | sinus dims rho P v =>
    refine ⟨?_, hs.2.2⟩
    simp only [Scenario.state]
    obtain ⟨y, hy⟩ : ∃ y, y = F.sin (2 * F.pi * ∑ d with Named dims d, x d) := ⟨_, rfl⟩
    obtain ⟨h1, h2⟩ := hy ▸ hsin _
    rw [← hy, show rho.1 + (rho.2 - rho.1) * ((1 + y) / 2) = rho.1 * ((1 - y) / 2) + rho.2 * ((1 + y) / 2) by ring]
    obtain ⟨g1, g2, -⟩ := hs
    rcases h2.lt_or_eq with h | h
    · have := mul_pos g1 (show 0 < (1 - y) / 2 by linarith)
      have := mul_nonneg g2.le (show 0 ≤ (1 + y) / 2 by linarith)
      linarith
    · rw [h]
      norm_num
      exact g2
  | square dims rho P v =>
    refine ⟨?_, hs.2.2⟩
    simp only [Scenario.state]
    split_ifs
    exacts [hs.2.1, hs.1]
  | slottedDisk rho P =>
    refine ⟨?_, hs.2.2⟩
    simp only [Scenario.state]
    split_ifs
    exacts [hs.2.1, hs.1]
  | shock1d dim position rho P v =>
    simp only [Scenario.state]
    split_ifs
    exacts [⟨hs.1, hs.2.2.1⟩, ⟨hs.2.1, hs.2.2.2⟩]
  | doubleShock1d dim positions rho v P => exact hs _
  | shuOsher dim =>
    simp only [Scenario.state]
    split_ifs
    · constructor <;> norm_num
    · have := (hsin (5 * (x (axisOf dim) - 5))).1
      refine ⟨?_, one_pos⟩
      simp only
      linarith
  | kelvinHelmholtz sigma w0 =>
    simp only [Scenario.state]
    refine ⟨?_, by norm_num⟩
    split_ifs <;> norm_num
  | doubleMach gamma =>
    simp only [Scenario.state]
    split_ifs
    · constructor <;> norm_num
    · exact ⟨hs, one_pos⟩
  | shockTube mode dims center radius cube rho P vx vy vz =>
    simp only [Scenario.state]
    split_ifs
    exacts [⟨hs.1, hs.2.2.1⟩, ⟨hs.2.1, hs.2.2.2⟩]
  | athenaBlast =>
    simp only [Scenario.state]
    refine ⟨one_pos, ?_⟩
    split_ifs <;> norm_num

/-! ## Solvers built from them -/

/-- The argument `w0` of the solver is the initial condition `s`. -/
def FromScenario (F : NumFns K) (s : Scenario K) (a : SolverArgs K) : Prop :=
  ∀ m, ∃ junk r, s.rows F m junk = .ok r ∧ ∀ k, k < 5 → a.core m k = r k

/-- **C65 (weights)** The quadrature weights are positive, as a consequence of the exactness promised by numpy. -/
theorem C65_weights {n : ℕ} (hn : 1 ≤ n) {R : List (ℝ × ℝ)} (h : IsGauss n R) : R ≠ [] ∧ ∀ xw ∈ R, 0 < xw.2 :=
  h.positive hn

theorem conserved_positive {np : ℕ} {γ : K} (hγ : 1 < γ) (w : State K np) (h1 : 0 < w .rho) (h2 : 0 < w .en) :
    Positive γ (conserved γ w) := by
  obtain ⟨e1, e2⟩ := C14_primitive_round_trip γ hγ.ne' w h1.ne'
  refine ⟨h1, ?_⟩
  rw [← prim_press, ← e1, e2]
  exact h2

/-- **C65 (start)** A solver built from an admissible initial condition starts with positive density and pressure in
every cell, and with the mass fraction of every passive scalar between the bounds of its initial condition, provided
that the quadrature weights are positive. -/
theorem C65_start (F : NumFns K) (hsin : ∀ y, -1 ≤ F.sin y ∧ F.sin y ≤ 1) (s : Scenario K) (hs : s.Accepted)
    (hadm : s.Admissible) (a : SolverArgs K) (ha : FromScenario F s a) (hγ : 1 < a.gamma)
    (hcons : a.conservativeIc = false) (gauss : ℕ → List (K × K)) (hg : ∀ d, PositiveRule (gauss (a.p d / 2 + 1)))
    (junk : ℕ → Ix → K) (b : Built K a.np) (h : a.build gauss junk = .ok b)
    (hr : "passive_scalars" ∉ a.passives.map Prod.fst) (i : Ix) :
    (0 < b.u.get i .rho ∧ 0 < pressureOf a.gamma (b.u.get i)) ∧
    ∀ (j : Fin a.np) (lo hi : K), (∀ m i, lo ≤ ((a.passives[j]).2 m).get i ∧ ((a.passives[j]).2 m).get i ≤ hi) →
      lo ≤ b.u.get i (.ps j) / b.u.get i .rho ∧ b.u.get i (.ps j) / b.u.get i .rho ≤ hi := by
  obtain ⟨-, -, -, -, -, -, -, -, -, -, -, -, ic, hic, hu⟩ := C62_built a gauss junk b h hr
  have hpos : ∀ m i, 0 < (ic m).get i .rho ∧ 0 < (ic m).get i .en := by
    intro m i
    obtain ⟨junk', r, e1, e2⟩ := ha m
    obtain ⟨r', e3, e4⟩ := C65_state F s hs m junk'
    rw [e1] at e3
    cases e3
    have k := C65_physical F hsin s hadm fun d => (m.coord d).get i
    rw [← e4 i] at k
    rw [(hic m).2 i]
    simp only [icColumn, e2 0 (by decide), e2 4 (by decide)]
    exact k
  unfold initialArray at hu
  rw [hcons] at hu
  have key : ∀ C : State K a.np → Prop, IsCone C → (∀ m i, C (conserved a.gamma ((ic m).get i))) → C (b.u.get i) := by
    intro C hC h1
    cases hf : a.fvIc with
    | true => rw [hf] at hu; cases hu
    | false =>
      rw [hf] at hu
      have e := Except.ok.inj hu
      rw [← e]
      refine hC.fvAverage gauss a.p hg _ (fun m j => ?_) _ _ i
      simp only [conservatives_eq]
      exact h1 m j
  have h1 := key (Positive a.gamma) (positive_cone hγ) fun m i => conserved_positive hγ _ (hpos m i).1 (hpos m i).2
  refine ⟨h1, fun j lo hi hb => ?_⟩
  refine (within_iff j lo hi _ h1.1).1 (key _ (within_cone j lo hi) fun m i => ⟨(hpos m i).1, ?_, ?_⟩).2
  · have := (hb m i).1
    simp only [conserved]
    rw [mul_comm]
    refine mul_le_mul_of_nonneg_left ?_ (hpos m i).1.le
    rw [(hic m).2 i]
    exact this
  · have := (hb m i).2
    simp only [conserved]
    rw [mul_comm hi]
    refine mul_le_mul_of_nonneg_left ?_ (hpos m i).1.le
    rw [(hic m).2 i]
    exact this

/-- **C65 (runs)** From the arguments of the constructor to the end of the run: a solver of degree zero with llf and
without limiting, built on a periodic domain from an admissible initial condition, keeps density and pressure positive
and the mass fractions of the passive scalars between the bounds of their initial conditions, for every final time,
every list of output times and every CFL number of at most one over the number of directions with more than one cell. -/
theorem C65_run (F : NumFns K) (hsin : ∀ y, -1 ≤ F.sin y ∧ F.sin y ≤ 1) (s : Scenario K) (hs : s.Accepted)
    (hadm : s.Admissible) (a : SolverArgs K) (ha : FromScenario F s a) (hγ : 1 < a.gamma)
    (hsqrt : IsSqrt a.sqrt) (hfloor : 0 < a.csqFloor) (hcons : a.conservativeIc = false)
    (gauss : ℕ → List (K × K)) (hg : IsGauss 1 (gauss 1)) (junk : ℕ → Ix → K) (b : Built K a.np)
    (h : a.build gauss junk = .ok b) (hr : "passive_scalars" ∉ a.passives.map Prod.fst)
    (hp : ∀ d, a.p d = 0) (hlim : a.limiter = none) (hfix : a.fixedDt = none) (hriem : a.riemannSolver = "llf")
    (hbc : a.bc = none) (hdom : ∀ d, (a.dom d).1 < (a.dom d).2) (hcfl : 0 < a.cfl)
    (hcfl1 : ((Finset.univ.filter fun d => a.n d ≠ 1).card : K) * a.cfl ≤ 1)
    (f : RHS K (Ix → State K a.np)) (hf : IsSolverRHS b.config.scheme f) {Sn : Type}
    (mk : ODEState K (Ix → State K a.np) Sn → Sn) (fuel : ℕ) (ia : IntegrateArgs K Sn)
    (hT : Ahead ia 0) (out : Outcome K (Ix → State K a.np) Sn)
    (hrun : (ODEState.init b.u.get).integrate (stepper f .euler) mk fuel ia = some out) (i : Ix) (hi : InCells a.n i) :
    (0 < out.1.u i .rho ∧ 0 < pressureOf a.gamma (out.1.u i)) ∧
    ∀ (j : Fin a.np) (lo hi : K), (∀ m i, lo ≤ ((a.passives[j]).2 m).get i ∧ ((a.passives[j]).2 m).get i ≤ hi) →
      lo ≤ out.1.u i (.ps j) / out.1.u i .rho ∧ out.1.u i (.ps j) / out.1.u i .rho ≤ hi := by
  have hacc := (C58_partial a gauss junk).1 ⟨b, h⟩
  obtain ⟨e1, e2, e3, e4, e5, e6, e7, -, e8, e9, -⟩ := C62_built a gauss junk b h hr
  have hstart := C65_start F hsin s hs hadm a ha hγ hcons gauss (fun d => by rw [hp d]; exact hg.one_positive) junk b h hr
  have hfirst : FirstOrder b.config := by
    refine ⟨e7 hlim, e5.trans hfix, fun d => by rw [e2, hp d], fun d => by rw [e1]; exact hacc.cells d, fun d => ?_,
      by rw [e4]; exact hcfl, by rw [e6]; exact ⟨hsqrt, hfloor, hγ⟩, fun d _ => ⟨fun s => ?_, fun _ => e9 hbc d .l⟩, ?_⟩
    · rw [e3]
      have := hacc.cells d
      exact div_pos (sub_pos.2 (hdom d)) (by exact_mod_cast this)
    · refine Or.inr ⟨Or.inr (Or.inr (e9 hbc d s)), ?_⟩
      have hw : fluxWidth b.config.scheme b.config.p d ≤ 1 := by
        unfold fluxWidth fluxGw ceilHalf
        rw [e2]
        simp only [hp]
        split <;> simp
      refine hw.trans ?_
      change 1 ≤ b.config.n d
      rw [e1]
      exact hacc.cells d
    · obtain ⟨d, hd⟩ := hacc.active
      refine ⟨d, ?_⟩
      rw [e1]
      exact fun e => hd ⟨e, hp d⟩
  have hdirs : b.config.directions = Finset.univ.filter fun d => a.n d ≠ 1 := by
    ext d
    simp [EulerConfig.directions, e1, e2, hp]
  have hllf : b.config.riem = .llf := by rw [e8, if_pos hriem]
  have hgam : b.config.gas.gamma = a.gamma := by rw [e6]
  have hc : (b.config.directions.card : K) * b.config.cfl ≤ 1 := by rw [hdirs, e4]; exact hcfl1
  have hi' : InCells b.config.n i := by rw [e1]; exact hi
  have hP : ∀ i, InCells b.config.n i → 0 < b.u.get i .rho ∧ 0 < pressureOf b.config.gas.gamma (b.u.get i) := by
    intro i _
    rw [hgam]
    exact (hstart i).1
  refine ⟨?_, fun j lo hi hb => ?_⟩
  · have := C12_run b.config hfirst hllf hc f hf mk fuel ia (ODEState.init b.u.get) le_rfl hT hP out hrun i hi'
    rwa [hgam] at this
  · exact C57_llf b.config hfirst hllf hc j lo hi f hf mk fuel ia (ODEState.init b.u.get) le_rfl hT hP
      (fun i _ => (hstart i).2 j lo hi hb) out hrun i hi'

/-! ### Cases -/

/-- The real functions. -/
noncomputable def realFns : NumFns ℝ := ⟨Real.sin, Real.exp, Real.sqrt, Real.tan, Real.pi⟩

theorem realFns_sin (y : ℝ) : (-1 ≤ realFns.sin y ∧ realFns.sin y ≤ 1) ∧
    realFns.sin (y + 2 * realFns.pi) = realFns.sin y :=
  ⟨⟨Real.neg_one_le_sin y, Real.sin_le_one y⟩, Real.sin_add_two_pi y⟩

/-- Letters in another order than the axes: the centre is (1/4, 3/4), so that (0, 1) is inside and (1/2, 1/4) outside. -/
example (F : NumFns ℚ) : (Scenario.shockTube "tube" "yx" (.tuple [3 / 4, 1 / 4]) (1 / 2) (fun _ => none) (1, 1 / 8)
      (1, 1 / 10) (0, 0) (0, 0) (0, 0)).Accepted ∧
    ((Scenario.shockTube "tube" "yx" (.tuple [3 / 4, 1 / 4]) (1 / 2) (fun _ => none) (1, 1 / 8)
      (1, 1 / 10) (0, 0) (0, 0) (0, 0)).state F ![0, 1, 7]).rho = 1 ∧
    ((Scenario.shockTube "tube" "yx" (.tuple [3 / 4, 1 / 4]) (1 / 2) (fun _ => none) (1, 1 / 8)
      (1, 1 / 10) (0, 0) (0, 0) (0, 0)).state F ![1 / 2, 1 / 4, 7]).rho = 1 / 8 := by
  have e : ∀ x : Fin 3 → ℚ, ∑ d with Named "yx" d, (x d - centreAlong "yx" [(3 / 4 : ℚ), 1 / 4] d) ^ 2 =
      (x 0 - 1 / 4) ^ 2 + (x 1 - 3 / 4) ^ 2 := by
    intro x
    rw [sum_named, show letterIn (letter 0) "yx" = true by decide, show letterIn (letter 1) "yx" = true by decide,
      show letterIn (letter 2) "yx" = false by decide, show centreAlong "yx" [(3 / 4 : ℚ), 1 / 4] 0 = 1 / 4 by
        decide +kernel, show centreAlong "yx" [(3 / 4 : ℚ), 1 / 4] 1 = 3 / 4 by decide +kernel]
    simp
  refine ⟨Or.inl (by decide), ?_, ?_⟩
  · simp only [Scenario.state, CenterArg.asTuple, e]
    norm_num
  · simp only [Scenario.state, CenterArg.asTuple, e]
    rw [if_neg (by
      have h : ¬ ("tube" = "cube") := by decide
      simp only [h, false_and, or_false, true_and]
      norm_num)]

/-- **C65** (centre) A number given as centre is the one coordinate of the one direction named: the tube along x is the
interval around it, and a number with two directions is rejected. -/
theorem C65_number (F : NumFns K) (dims : String) (c radius : K) (cube : Fin 3 → Option (K × K)) (rho P vx vy vz : K × K)
    (m : Slab K) (junk : ℕ → Ix → K) :
    (Scenario.shockTube "tube" dims (.number c) radius cube rho P vx vy vz).rows F m junk =
      (Scenario.shockTube "tube" dims (.tuple [c]) radius cube rho P vx vy vz).rows F m junk ∧
    ((Scenario.shockTube "tube" dims (.number c) radius cube rho P vx vy vz).Accepted ↔ dims ∈ ["x", "y", "z"]) := by
  refine ⟨rfl, ?_⟩
  have h1 : ("tube" = "cube") = False := eq_false (by decide)
  simp only [Scenario.Accepted, CenterArg.asTuple, List.length_singleton, h1, false_and, or_false, true_and]
  constructor
  · rintro ⟨h, h2⟩
    obtain ⟨q, e⟩ := List.length_eq_one_iff.1 h.symm
    have := h2 q (by rw [e]; exact List.mem_singleton_self _)
    have hd : dims = String.ofList [q] := by rw [← e, String.ofList_toList]
    rw [hd]
    simp only [List.mem_cons, List.not_mem_nil, or_false] at this
    rcases this with rfl | rfl | rfl <;> decide
  · intro h
    simp only [List.mem_cons, List.not_mem_nil, or_false] at h
    rcases h with rfl | rfl | rfl <;> decide

/-- Arguments that fail. -/
example (F : NumFns ℚ) (m : Slab ℚ) (junk : ℕ → Ix → ℚ) :
    (Scenario.shock1d "w" 0 (1, 1) (1, 1) (0, 0)).rows F m junk = .error .valueError ∧
    (Scenario.shock1d "xy" 0 (1, 1) (1, 1) (0, 0)).rows F m junk = .error .keyError ∧
    (Scenario.shockTube "sphere" "x" (.number 0) 1 (fun _ => none) (1, 1) (1, 1) (0, 0) (0, 0) (0, 0)).rows F m junk =
      .error .nameError :=
  ⟨C65_rejected F _ (by simp [Scenario.Accepted]) m junk, C65_rejected F _ (by simp [Scenario.Accepted]) m junk,
    C65_rejected F _ (by simp [Scenario.Accepted]) m junk⟩

/-- Sod's shock tube with a dye on 100 cells, the other arguments as in the signature but degree zero and llf. -/
noncomputable def sodArgs : SolverArgs ℝ where
  core := fun m k j =>
    match (Scenario.shock1d "x" (1 / 2) (1, 1 / 8) (1, 1 / 10) (0, 0)).rows realFns m 0 with
    | .ok r => r k j
    | .error _ => 0
  passives := [("dye", fun m => ⟨(m.coord 0).shape, fun j => if (m.coord 0).get j < 1 / 4 then 1 else 0⟩)]
  n := ![100, 1, 1]
  p := 0
  dom := fun _ => (0, 1)
  cfl := 4 / 5
  fixedDt := none
  gamma := 5 / 3
  bc := none
  riemannSolver := "llf"
  conservativeIc := false
  fvIc := false
  limiter := none
  csqFloor := 1 / 10 ^ 10
  slabBufferSize := 30
  sqrt := Real.sqrt

/-- The solver is built, and its runs to time 1/5 keep the gas physical and the dye between 0 and 1. -/
example (gauss : ℕ → List (ℝ × ℝ)) (hg : IsGauss 1 (gauss 1)) (junk : ℕ → Ix → ℝ) :
    ∃ b, sodArgs.build gauss junk = .ok b ∧ ∀ f, IsSolverRHS b.config.scheme f → ∀ fuel out,
      (ODEState.init b.u.get).integrate (stepper f .euler) (fun _ => ()) fuel ⟨some (1 / 5), none, true, [], false, none⟩ =
        some out → ∀ i, InCells sodArgs.n i → (0 < out.1.u i .rho ∧ 0 < pressureOf (5 / 3) (out.1.u i)) ∧
          0 ≤ out.1.u i (.ps ⟨0, by decide⟩) / out.1.u i .rho ∧
            out.1.u i (.ps ⟨0, by decide⟩) / out.1.u i .rho ≤ 1 := by
  obtain ⟨b, hb⟩ := (C58_partial sodArgs gauss junk).2
    ⟨by decide, by decide, nofun, ⟨0, by decide⟩, by decide, nofun, by decide⟩
  refine ⟨b, hb, fun f hf fuel out hrun i hi => ?_⟩
  obtain ⟨r1, r2⟩ := C65_run realFns (fun y => (realFns_sin y).1) (.shock1d "x" (1 / 2) (1, 1 / 8) (1, 1 / 10) (0, 0))
    (by simp [Scenario.Accepted]) (by norm_num [Scenario.Admissible]) sodArgs
    (fun m => by
      obtain ⟨r, e, -⟩ := C65_state realFns (.shock1d "x" (1 / 2) (1, 1 / 8) (1, 1 / 10) (0, 0))
        (by simp [Scenario.Accepted]) m 0
      refine ⟨0, r, e, fun k _ => ?_⟩
      simp only [sodArgs, e])
    (by norm_num [sodArgs]) airGas_sqrt (by norm_num [sodArgs]) rfl gauss hg junk b hb (by decide) (fun _ => rfl) rfl rfl
    rfl rfl (fun _ => by norm_num [sodArgs]) (by norm_num [sodArgs])
    (by
      have : (Finset.univ.filter fun d => sodArgs.n d ≠ 1) = {0} := by decide
      rw [this]
      norm_num [sodArgs]) f hf (fun _ => ()) fuel _ (by rintro T ⟨⟩; norm_num) out hrun i hi
  refine ⟨r1, r2 ⟨0, by decide⟩ 0 1 fun m i => ?_⟩
  change (0 : ℝ) ≤ (if (m.coord 0).get i < 1 / 4 then 1 else 0) ∧ (if (m.coord 0).get i < 1 / 4 then (1 : ℝ) else 0) ≤ 1
  split_ifs <;> norm_num

/-- Nodes and weights exist. -/
example : ∃ gauss : ℕ → List (ℝ × ℝ), IsGauss 1 (gauss 1) ∧ IsGauss 2 (gauss 2) := ⟨gaussTable, gaussTable_one, gaussTable_two⟩

end FVHOE
