import Verif.Proofs.Turn
import Verif.Proofs.Revised
import Verif.Props.C35_C37

/-! Detection and spreading of troubles under exchanging and reversing axes. -/

set_option linter.unusedSectionVars false

namespace FVHOE

variable {K : Type} [Field K] [LinearOrder K] [IsStrictOrderedRing K] {np : ℕ}

/-- The variable of the original problem belonging to a variable of the transformed one. -/
def turnVar (σ : Equiv.Perm (Fin 3)) : Var 0 → Var 0
  | .rho => .rho
  | .mom d => .mom (σ d)
  | .en => .en

/-- The variable is negated. -/
def negated (fl : Fin 3 → Bool) : Var 0 → Bool
  | .mom d => fl d
  | _ => false

theorem negated_none (fl : Fin 3 → Bool) (hf : ∀ d, fl d = false) (v : Var 0) : negated fl v = false := by
  cases v with
  | mom e => exact hf e
  | rho => rfl
  | en => rfl
  | ps j => exact j.elim0

/-- `o'` are the limiter options `o` for the exchanged and reversed problem. -/
structure TurnedOpts (σ : Equiv.Perm (Fin 3)) (fl : Fin 3 → Bool) (o o' : LimiterOpts K) : Prop where
  eps : o'.eps = o.eps
  mode : o'.mode = o.mode
  rangeType : o'.rangeType = o.rangeType
  sed : o'.sed = o.sed
  sedEps : o'.sedEps = o.sedEps
  convex : o'.convex = o.convex
  force : o'.force = o.force
  slope : o'.slope = o.slope
  tiny : o'.tiny = o.tiny
  considers : ∀ v, o'.considers v = o.considers (turnVar σ v)
  pad : ∀ x : State K 0, padAt o'.pad (turnState K 0 σ fl x) = padAt o.pad x
  even : (∀ d, fl d = false) ∨ (o.sed = false ∧
    (o.rangeType = "relative" ∨ ∀ v, negated fl v = true → o.considers (turnVar σ v) = false))

variable (σ : Equiv.Perm (Fin 3)) (fl : Fin 3 → Bool)

theorem activePart_turn (v : State K np) :
    activePart (turnState K np σ fl v) = turnState K 0 σ fl (activePart v) := by
  funext i
  cases i with
  | rho => rfl
  | en => rfl
  | mom d => rfl
  | ps j => exact j.elim0

theorem turn_value (x : State K 0) (v : Var 0) : turnState K 0 σ fl x v =
    if negated fl v = true then -x (turnVar σ v) else x (turnVar σ v) := by
  cases v with
  | rho => rfl
  | en => rfl
  | mom d => rfl
  | ps j => exact j.elim0

/-! ## Extrema -/

theorem least_move {P' P : Ix → Prop} {τ : Ix → Ix} (hτ : Function.Surjective τ) (hP : ∀ k, P' k ↔ P (τ k))
    {f' f : Ix → K} (hf : ∀ k, f' k = f (τ k)) : f' '' {k | P' k} = f '' {k | P k} := by
  ext x
  constructor
  · rintro ⟨k, hk, rfl⟩
    exact ⟨τ k, (hP k).1 hk, (hf k).symm⟩
  · rintro ⟨k, hk, rfl⟩
    obtain ⟨k, rfl⟩ := hτ k
    exact ⟨k, (hP k).2 hk, hf k⟩

theorem extremum_move {P' P : Ix → Prop} {τ : Ix → Ix} (hτ : Function.Surjective τ) (hP : ∀ k, P' k ↔ P (τ k))
    (neg : Bool) {f' f : Ix → K} (hf : ∀ k, f' k = if neg = true then -f (τ k) else f (τ k)) {lo hi lo' hi' : K}
    (h1 : IsLeast (f '' {k | P k}) lo) (h2 : IsGreatest (f '' {k | P k}) hi)
    (h1' : IsLeast (f' '' {k | P' k}) lo') (h2' : IsGreatest (f' '' {k | P' k}) hi') :
    lo' = (if neg = true then -hi else lo) ∧ hi' = if neg = true then -lo else hi := by
  cases neg with
  | false =>
    rw [least_move hτ hP (f := f) (by simpa using hf)] at h1' h2'
    exact ⟨h1'.unique h1, h2'.unique h2⟩
  | true =>
    rw [least_move hτ hP (f := fun k => -f k) (by simpa using hf)] at h1' h2'
    refine ⟨h1'.unique ⟨?_, ?_⟩, h2'.unique ⟨?_, ?_⟩⟩
    · obtain ⟨k, hk, e⟩ := h2.1
      exact ⟨k, hk, by simp [e]⟩
    · rintro _ ⟨k, hk, rfl⟩
      exact neg_le_neg (h2.2 ⟨k, hk, rfl⟩)
    · obtain ⟨k, hk, e⟩ := h1.1
      exact ⟨k, hk, by simp [e]⟩
    · rintro _ ⟨k, hk, rfl⟩
      exact neg_le_neg (h1.2 ⟨k, hk, rfl⟩)

section
variable {dims dims' : List (Fin 3)} (hdims : ∀ d, d ∈ dims' ↔ σ d ∈ dims) (n : Fin 3 → ℕ)

include hdims in
theorem nbr_turn (i k : Ix) : Nbr dims' i k ↔ Nbr dims (tau σ fl (lastCell n) i) (tau σ fl (lastCell n) k) := by
  unfold Nbr
  rw [← σ.forall_congr_right (q := fun e => if e ∈ dims then
    |tau σ fl (lastCell n) k e - tau σ fl (lastCell n) i e| ≤ 1 else
      tau σ fl (lastCell n) k e = tau σ fl (lastCell n) i e)]
  refine forall_congr' fun d => ?_
  rw [tau_apply, tau_apply]
  by_cases hd : d ∈ dims'
  · rw [if_pos hd, if_pos ((hdims d).1 hd)]
    split_ifs
    · rw [sub_sub_sub_cancel_left, abs_sub_comm]
    · rfl
  · rw [if_neg hd, if_neg (fun h => hd ((hdims d).2 h))]
    split_ifs
    · constructor <;> intro h <;> omega
    · rfl

include hdims in
theorem detPad_turn (d : Fin 3) : detPad dims' d = detPad dims (σ d) := by
  unfold detPad
  simp only [hdims]

include hdims in
theorem inPadded_turn (k : Ix) :
    InPadded dims' (fun d => n (σ d)) k ↔ InPadded dims n (tau σ fl (lastCell n) k) := by
  unfold InPadded
  rw [← σ.forall_congr_right (q := fun e => -(detPad dims e : ℤ) ≤ tau σ fl (lastCell n) k e ∧
    tau σ fl (lastCell n) k e < n e + detPad dims e)]
  refine forall_congr' fun d => ?_
  rw [tau_apply, detPad_turn σ hdims]
  unfold lastCell
  beta_reduce
  split_ifs
  · omega
  · rfl

variable (hn : ∀ d, 1 ≤ n d) (U C : Ix → State K 0)

include hdims in
theorem nRange_turn (i : Ix) (v : Var 0) :
    nLo dims' (fun i => turnState K 0 σ fl (U (tau σ fl (lastCell n) i))) i v =
      (if negated fl v = true then -nHi dims U (tau σ fl (lastCell n) i) (turnVar σ v)
        else nLo dims U (tau σ fl (lastCell n) i) (turnVar σ v)) ∧
    nHi dims' (fun i => turnState K 0 σ fl (U (tau σ fl (lastCell n) i))) i v =
      if negated fl v = true then -nLo dims U (tau σ fl (lastCell n) i) (turnVar σ v)
        else nHi dims U (tau σ fl (lastCell n) i) (turnVar σ v) :=
  extremum_move (tau_inj σ fl n) (fun k => nbr_turn σ fl hdims n i k) (negated fl v)
    (f := fun k => U k (turnVar σ v)) (fun _ => turn_value σ fl _ v) (nLo_least ..) (nHi_greatest ..)
    (nLo_least ..) (nHi_greatest ..)

include hdims hn in
theorem gRange_turn (v : Var 0) :
    gLo dims' (fun d => n (σ d)) (fun i => turnState K 0 σ fl (U (tau σ fl (lastCell n) i))) v =
      (if negated fl v = true then -gHi dims n U (turnVar σ v) else gLo dims n U (turnVar σ v)) ∧
    gHi dims' (fun d => n (σ d)) (fun i => turnState K 0 σ fl (U (tau σ fl (lastCell n) i))) v =
      if negated fl v = true then -gLo dims n U (turnVar σ v) else gHi dims n U (turnVar σ v) :=
  extremum_move (tau_inj σ fl n) (fun k => inPadded_turn σ fl hdims n k) (negated fl v)
    (f := fun k => U k (turnVar σ v)) (fun _ => turn_value σ fl _ v) (gLo_least dims n hn ..)
    (gHi_greatest dims n hn ..) (gLo_least dims' _ (fun _ => hn _) ..) (gHi_greatest dims' _ (fun _ => hn _) ..)

/-- The indicator of smooth extrema when no axis is reversed. -/
theorem sedAlong_turn (hf : ∀ d, fl d = false) (eps : K) (d : Fin 3) (i : Ix) (v : Var 0) :
    sedAlong eps d (fun i => turnState K 0 σ fl (C (tau σ fl (lastCell n) i))) i v =
      sedAlong eps (σ d) C (tau σ fl (lastCell n) i) (turnVar σ v) := by
  have hd : ¬ fl d = true := by rw [hf]; decide
  have hv : ¬ negated fl v = true := by
    rw [negated_none fl hf]
    decide
  have hs : ∀ (j : Ix) (k : ℤ), tau σ fl (lastCell n) (j - Pi.single d k) =
      tau σ fl (lastCell n) j - Pi.single (σ d) k := by
    intro j k
    rw [sub_eq_add_neg, ← Pi.single_neg, tau_add, if_neg hd, Pi.single_neg, ← sub_eq_add_neg]
  have ha : ∀ (j : Ix) (k : ℤ), tau σ fl (lastCell n) (j + Pi.single d k) =
      tau σ fl (lastCell n) j + Pi.single (σ d) k := by
    intro j k
    rw [tau_add, if_neg hd]
  unfold sedAlong sedAt
  simp only [cdiff, turn_value, if_neg hv, hs, ha]

/-- The test of new extrema in the transformed problem. -/
theorem nadFlag_turn {o o' : LimiterOpts K} (ho : TurnedOpts σ fl o o') (hk : o.toDetectOpts.Known)
    (hdims : ∀ d, d ∈ dims' ↔ σ d ∈ dims) (hn : ∀ d, 1 ≤ n d) (i : Ix) (v : Var 0)
    (hv : o.considers (turnVar σ v) = true) :
    NadFlag o'.toDetectOpts dims' (fun d => n (σ d)) (fun i => turnState K 0 σ fl (U (tau σ fl (lastCell n) i)))
      (fun i => turnState K 0 σ fl (C (tau σ fl (lastCell n) i))) i v ↔
    NadFlag o.toDetectOpts dims n U C (tau σ fl (lastCell n) i) (turnVar σ v) := by
  obtain ⟨e1, e2⟩ := nRange_turn σ fl hdims n U i v
  obtain ⟨e3, e4⟩ := gRange_turn σ fl hdims n hn U v
  unfold NadFlag
  refine and_congr ?_ ?_
  · unfold tolLo tolHi
    rw [ho.rangeType, ho.mode, ho.eps, e1, e2, e3, e4]
    beta_reduce
    rw [turn_value]
    generalize nLo dims U (tau σ fl (lastCell n) i) (turnVar σ v) = a
    generalize nHi dims U (tau σ fl (lastCell n) i) (turnVar σ v) = b
    generalize gLo dims n U (turnVar σ v) = g
    generalize gHi dims n U (turnVar σ v) = h
    generalize C (tau σ fl (lastCell n) i) (turnVar σ v) = x
    by_cases hneg : negated fl v = true
    · simp only [if_pos hneg]
      have hrel : o.rangeType = "relative" := by
        rcases ho.even with h1 | ⟨_, h1 | h1⟩
        · rw [negated_none fl h1] at hneg; cases hneg
        · exact h1
        · rw [h1 v hneg] at hv; cases hv
      simp only [if_pos hrel]
      have e : (if o.mode = "global" then -g - -h else -a - -b) = if o.mode = "global" then h - g else b - a := by
        split_ifs <;> ring
      rw [e]
      generalize (if o.mode = "global" then h - g else b - a) = r
      constructor
      · rintro (h1 | h1)
        · right; linarith
        · left; linarith
      · rintro (h1 | h1)
        · right; linarith
        · left; linarith
    · simp only [if_neg hneg]
  · rw [ho.sed, ho.sedEps]
    rcases ho.even with h1 | ⟨h1, _⟩
    · refine imp_congr_right fun _ => ?_
      unfold Rough
      constructor
      · rintro ⟨d, hd, h⟩
        refine ⟨σ d, (hdims d).1 hd, ?_⟩
        rwa [sedAlong_turn σ fl n C h1] at h
      · rintro ⟨d, hd, h⟩
        obtain ⟨d, rfl⟩ := σ.surjective d
        refine ⟨d, (hdims d).2 hd, ?_⟩
        rwa [sedAlong_turn σ fl n C h1]
    · rw [h1]
      simp

theorem turnVar_surj : Function.Surjective (turnVar σ) := by
  intro v
  cases v with
  | rho => exact ⟨.rho, rfl⟩
  | en => exact ⟨.en, rfl⟩
  | mom d => exact ⟨.mom (σ.symm d), by simp [turnVar]⟩
  | ps j => exact j.elim0

/-- The detected cells of the transformed problem. -/
theorem reported_turn {o o' : LimiterOpts K} (ho : TurnedOpts σ fl o o') (hk : o.toDetectOpts.Known)
    (hdims : ∀ d, d ∈ dims' ↔ σ d ∈ dims) (hn : ∀ d, 1 ≤ n d) (i : Ix) :
    Reported o'.toDetectOpts dims' (fun d => n (σ d)) (fun i => turnState K 0 σ fl (U (tau σ fl (lastCell n) i)))
      (fun i => turnState K 0 σ fl (C (tau σ fl (lastCell n) i))) i ↔
    Reported o.toDetectOpts dims n U C (tau σ fl (lastCell n) i) := by
  unfold Reported
  refine or_congr ?_ ?_
  · unfold NadCell
    constructor
    · rintro ⟨v, h1, h2⟩
      rw [ho.considers] at h1
      exact ⟨turnVar σ v, h1, (nadFlag_turn σ fl n U C ho hk hdims hn i v h1).1 h2⟩
    · rintro ⟨v, h1, h2⟩
      obtain ⟨v, rfl⟩ := turnVar_surj σ v
      exact ⟨v, by rw [ho.considers]; exact h1, (nadFlag_turn σ fl n U C ho hk hdims hn i v h1).2 h2⟩
  · rw [ho.pad]
end

/-! ## Spreading -/

theorem off_turn (b j : Ix) (a : Fin 3) (k : ℤ) :
    tau σ fl b (j + off a k) = tau σ fl b j + off (σ a) ((if fl a = true then -1 else 1) * k) := by
  unfold off
  rw [tau_add]
  congr 2
  split_ifs <;> ring

theorem sign_cases (f : Bool) : (if f = true then (-1 : ℤ) else 1) = 1 ∨ (if f = true then (-1 : ℤ) else 1) = -1 := by
  cases f <;> simp

theorem lineLevel_across (T T' : Ix → Prop) (a a' : Fin 3) (c c' : Ix) (s : ℤ) (hs : s = 1 ∨ s = -1)
    (h : ∀ k : ℤ, (T (c + off a k) ↔ T' (c' + off a' (s * k)))) :
    lineLevel K T a c = lineLevel K T' a' c' := by
  refine level_congr ?_ ?_ Iff.rfl ?_
  · have := h 0
    rwa [mul_zero, off_zero, off_zero] at this
  · have h1 := h 1
    have h2 := h (-1)
    rcases hs with rfl | rfl <;> simp at h1 h2 <;> rw [h1, h2]
    exact or_comm
  · constructor
    · rintro ⟨k, hk, hk', hT⟩
      refine ⟨s * k, ?_, ?_, (h k).1 hT⟩ <;> rcases hs with rfl | rfl <;> omega
    · rintro ⟨k, hk, hk', hT⟩
      have hb : -2 ≤ s * k ∧ s * k ≤ 2 := by rcases hs with rfl | rfl <;> omega
      exact ⟨s * k, hb.1, hb.2, (h (s * k)).2 (by rwa [sign_mul s k hs])⟩

theorem planeLevel_across (T T' : Ix → Prop) (a b a' b' : Fin 3) (c c' : Ix) (s t : ℤ) (hs : s = 1 ∨ s = -1)
    (ht : t = 1 ∨ t = -1)
    (h : ∀ k l : ℤ, (T (c + off a k + off b l) ↔ T' (c' + off a' (s * k) + off b' (t * l)))) :
    planeLevel K T a b c = planeLevel K T' a' b' c' := by
  have e1 := h 0 0
  have e2 := h 1 0
  have e3 := h (-1) 0
  have e4 := h 0 1
  have e5 := h 0 (-1)
  have e6 := h 1 1
  have e7 := h 1 (-1)
  have e8 := h (-1) 1
  have e9 := h (-1) (-1)
  simp only [mul_zero, off_zero] at e1 e2 e3 e4 e5
  refine level_congr e1 ?_ ?_ ?_
  · unfold edgeNear
    rw [e2, e3, e4, e5]
    clear * - hs ht
    rcases hs with rfl | rfl <;> rcases ht with rfl | rfl <;>
      simp only [mul_one, one_mul, mul_neg, neg_neg, or_assoc, or_comm, or_left_comm]
  · unfold cornerNear
    rw [e6, e7, e8, e9]
    clear * - hs ht
    rcases hs with rfl | rfl <;> rcases ht with rfl | rfl <;>
      simp only [mul_one, one_mul, mul_neg, neg_neg, or_assoc, or_comm, or_left_comm]
  · constructor
    · rintro ⟨k, hk, hk', l, hl, hl', hT⟩
      refine ⟨s * k, ?_, ?_, t * l, ?_, ?_, (h k l).1 hT⟩ <;>
        rcases hs with rfl | rfl <;> rcases ht with rfl | rfl <;> omega
    · rintro ⟨k, hk, hk', l, hl, hl', hT⟩
      have hb : (-2 ≤ s * k ∧ s * k ≤ 2) ∧ -2 ≤ t * l ∧ t * l ≤ 2 := by
        rcases hs with rfl | rfl <;> rcases ht with rfl | rfl <;> omega
      exact ⟨s * k, hb.1.1, hb.1.2, t * l, hb.2.1, hb.2.2,
        (h _ _).2 (by rwa [sign_mul s k hs, sign_mul t l ht])⟩

theorem planeLevel_swap (T : Ix → Prop) (a b : Fin 3) (c : Ix) : planeLevel K T a b c = planeLevel K T b a c := by
  have hc : ∀ k l, c + off a k + off b l = c + off b l + off a k := fun k l => add_right_comm _ _ _
  refine level_congr Iff.rfl ?_ ?_ ?_
  · unfold edgeNear
    tauto
  · unfold cornerNear
    simp only [hc]
    tauto
  · constructor
    · rintro ⟨k, hk, hk', l, hl, hl', hT⟩
      exact ⟨l, hl, hl', k, hk, hk', by rwa [← hc]⟩
    · rintro ⟨k, hk, hk', l, hl, hl', hT⟩
      exact ⟨l, hl, hl', k, hk, hk', by rwa [hc]⟩

section
variable (b : Ix) (T T' : Ix → Prop) (hT : ∀ j, T' j ↔ T (tau σ fl b j))

include hT in
theorem lineLevel_turn (a : Fin 3) (j : Ix) : lineLevel K T' a j = lineLevel K T (σ a) (tau σ fl b j) :=
  lineLevel_across T' T a (σ a) j _ _ (sign_cases (fl a)) fun k => by rw [hT, off_turn]

include hT in
theorem planeLevel_turn (a e : Fin 3) (j : Ix) :
    planeLevel K T' a e j = planeLevel K T (σ a) (σ e) (tau σ fl b j) :=
  planeLevel_across T' T a e (σ a) (σ e) j _ _ _ (sign_cases (fl a)) (sign_cases (fl e)) fun k l => by
    rw [hT, off_turn, off_turn]
end

/-- The larger of the values of the two cells at a face. -/
theorem face_max (b : Ix) (w' w : Ix → K) (hw : ∀ j, w' j = w (tau σ fl b j)) (d : Fin 3) (j : Ix) :
    max (w' (j - off d 1)) (w' j) = max (w (tau σ fl (faceOff σ fl b d) j - off (σ d) 1))
      (w (tau σ fl (faceOff σ fl b d) j)) := by
  have e : j - off d 1 = j + off d (-1) := by
    unfold off
    rw [Pi.single_neg, sub_eq_add_neg]
  have e' : ∀ x : Ix, x - off (σ d) 1 = x + off (σ d) (-1) := fun x => by
    unfold off
    rw [Pi.single_neg, sub_eq_add_neg]
  rw [hw, hw, e, e', off_turn, tau_face]
  by_cases h : fl d = true
  · simp only [if_pos h]
    rw [max_comm]
    have h1 : (-1 : ℤ) * -1 = 1 := by norm_num
    rw [h1]
    unfold off
    rw [Pi.single_neg, add_neg_cancel_right]
  · simp only [if_neg h, one_mul]

/-- Where the spreading with convex weights returns, there are one or two active directions. -/
theorem convex_dims {periodic : Fin 3 → Bool} {dims : List (Fin 3)} {tr : Arr Bool} {theta : Fin 3 → Arr K}
    (h : broadcastTrouble K true periodic dims tr = .ok theta) : (∃ a, dims = [a]) ∨ ∃ a b, dims = [a, b] := by
  match dims with
  | [a] => exact .inl ⟨a, rfl⟩
  | [a, b] => exact .inr ⟨a, b, rfl⟩
  | [] =>
    unfold broadcastTrouble at h
    simp only [if_true] at h
    obtain ⟨A, _, h⟩ := bind_ok h
    obtain ⟨B, _, h⟩ := bind_ok h
    cases h
  | _ :: _ :: _ :: [] =>
    unfold broadcastTrouble at h
    simp only [if_true] at h
    obtain ⟨A, _, h⟩ := bind_ok h
    obtain ⟨B, _, h⟩ := bind_ok h
    cases h
  | _ :: _ :: _ :: _ :: _ =>
    unfold broadcastTrouble at h
    simp only [if_true] at h
    obtain ⟨A, _, h⟩ := bind_ok h
    obtain ⟨B, _, h⟩ := bind_ok h
    cases h

/-- The spreading weights of the transformed problem. -/
theorem spread_turn {convex : Bool} {periodic periodic' : Fin 3 → Bool} {dims dims' : List (Fin 3)}
    (hdims : ∀ d, d ∈ dims' ↔ σ d ∈ dims) (hso : dims.Pairwise (· < ·)) (hso' : dims'.Pairwise (· < ·))
    {n : Fin 3 → ℕ} (h1 : ∀ e, e ∉ dims → n e = 1) {tr tr' : Arr Bool} (hsh : tr.shape = n)
    (hsh' : tr'.shape = fun d => n (σ d)) (hT : ∀ j, Troubled tr' j ↔ Troubled tr (tau σ fl (lastCell n) j))
    {theta theta' : Fin 3 → Arr K} (hb : broadcastTrouble K convex periodic dims tr = .ok theta)
    (hb' : broadcastTrouble K convex periodic' dims' tr' = .ok theta') (d : Fin 3) (hd : d ∈ dims') (j : Ix)
    (hj' : InFaces (fun d => n (σ d)) d j)
    (hj : InFaces n (σ d) (tau σ fl (faceOff σ fl (lastCell n) d) j)) :
    (theta' d).get j = (theta (σ d)).get (tau σ fl (faceOff σ fl (lastCell n) d) j) := by
  cases convex with
  | false =>
    obtain ⟨θ, e, hθ⟩ := C35_simple (K := K) periodic dims tr
    obtain ⟨θ', e', hθ'⟩ := C35_simple (K := K) periodic' dims' tr'
    rw [hb] at e
    rw [hb'] at e'
    cases e
    cases e'
    obtain ⟨_, h2⟩ := hθ (σ d)
    obtain ⟨_, h2'⟩ := hθ' d
    rw [hsh] at h2
    rw [hsh'] at h2'
    have key : (Troubled tr' (j - Pi.single d 1) ∨ Troubled tr' j) ↔
        (Troubled tr (tau σ fl (faceOff σ fl (lastCell n) d) j - Pi.single (σ d) 1) ∨
          Troubled tr (tau σ fl (faceOff σ fl (lastCell n) d) j)) := by
      rw [hT, hT, tau_face, sub_eq_add_neg, ← Pi.single_neg, tau_add]
      by_cases h : fl d = true
      · simp only [if_pos h, neg_neg]
        rw [add_sub_cancel_right]
        exact or_comm
      · simp only [if_neg h]
        rw [Pi.single_neg, ← sub_eq_add_neg]
    by_cases h : Troubled tr' (j - Pi.single d 1) ∨ Troubled tr' j
    · rw [(h2' j hj').1 ⟨hd, h⟩, (h2 _ hj).1 ⟨(hdims d).1 hd, key.1 h⟩]
    · rw [(h2' j hj').2 (fun h' => h h'.2), (h2 _ hj).2 (fun h' => h (key.2 h'.2))]
  | true =>
    have h1' : ∀ e, e ∉ dims' → n (σ e) = 1 := fun e he => h1 _ fun h => he ((hdims e).2 h)
    rcases convex_dims hb' with ⟨a', rfl⟩ | ⟨a', b', rfl⟩
    · have hda : d = a' := by simpa using hd
      subst hda
      rcases convex_dims hb with ⟨a, rfl⟩ | ⟨a, b, rfl⟩
      · have ha : σ d = a := by simpa using (hdims d).1 (by simp)
        subst ha
        obtain ⟨_, v, _⟩ := convex_line tr (σ d) (fun e he => by rw [hsh]; exact h1 e (by simpa using he)) periodic theta hb
        obtain ⟨_, v', _⟩ := convex_line tr' d (fun e he => by
          rw [hsh']; exact h1' e (by simpa using he)) periodic' theta' hb'
        rw [hsh] at v
        rw [hsh'] at v'
        rw [v' j hj', v _ hj]
        exact face_max σ fl (lastCell n) _ _ (lineLevel_turn σ fl (lastCell n) _ _ hT d) d j
      · exfalso
        obtain ⟨a, rfl⟩ := σ.surjective a
        obtain ⟨b, rfl⟩ := σ.surjective b
        have ha := (hdims a).2 (by simp)
        have hb2 := (hdims b).2 (by simp)
        simp only [List.mem_singleton] at ha hb2
        subst ha
        subst hb2
        simp at hso
    · rcases convex_dims hb with ⟨a, rfl⟩ | ⟨a, b, rfl⟩
      · exfalso
        have ha := (hdims a').1 (by simp)
        have hb2 := (hdims b').1 (by simp)
        simp only [List.mem_singleton] at ha hb2
        have := σ.injective (ha.trans hb2.symm)
        subst this
        simp at hso'
      · have hlt : a < b := by simpa using hso
        have hlt' : a' < b' := by simpa using hso'
        obtain ⟨_, v, _⟩ := convex_plane tr a b hlt (fun e h2 h3 => by rw [hsh]; exact h1 e (by simp [h2, h3]))
          periodic theta hb
        obtain ⟨_, v', _⟩ := convex_plane tr' a' b' hlt' (fun e h2 h3 => by
          rw [hsh']; exact h1' e (by simp [h2, h3])) periodic' theta' hb'
        rw [hsh] at v
        rw [hsh'] at v'
        rw [v' d (by simpa using hd) j hj', v _ (by simpa using (hdims d).1 hd) _ hj]
        refine face_max σ fl (lastCell n) _ _ (fun j => ?_) d j
        rw [planeLevel_turn σ fl (lastCell n) _ _ hT a' b' j]
        have ha := (hdims a').1 (by simp)
        have hb2 := (hdims b').1 (by simp)
        have hne : σ a' ≠ σ b' := fun h => hlt'.ne (σ.injective h)
        simp only [List.mem_cons, List.not_mem_nil, or_false] at ha hb2
        rcases ha with ha | ha <;> rcases hb2 with hb2 | hb2
        · exact absurd (ha.trans hb2.symm) hne
        · rw [ha, hb2]
        · rw [ha, hb2]; exact planeLevel_swap _ _ _ _
        · exact absurd (ha.trans hb2.symm) hne

end FVHOE
