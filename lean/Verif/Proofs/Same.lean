import Verif.Model.Limiter
import Verif.Proofs.Hydro

/-!
Arrays that agree at every entry in range: all array operations of the model respect this, so nothing
computed from arrays depends on what the model stores out of range.
-/

set_option linter.unusedSectionVars false

namespace FVHOE

variable {K : Type} [Field K] [LinearOrder K] {α β γ : Type}

/-- The two arrays have the same entries. -/
def SameArr (A B : Arr α) : Prop := A.shape = B.shape ∧ ∀ j, A.InB j → A.get j = B.get j

theorem SameArr.rfl {A : Arr α} : SameArr A A := ⟨Eq.refl _, fun _ _ => Eq.refl _⟩

theorem SameArr.symm {A B : Arr α} (h : SameArr A B) : SameArr B A :=
  ⟨h.1.symm, fun j hj => (h.2 j (by intro d; rw [h.1]; exact hj d)).symm⟩

theorem SameArr.trans {A B C : Arr α} (h : SameArr A B) (h' : SameArr B C) : SameArr A C :=
  ⟨h.1.trans h'.1, fun j hj => (h.2 j hj).trans (h'.2 j (by intro d; rw [← h.1]; exact hj d))⟩

/-- Both raise the same exception or return related values. -/
def RelE (R : α → β → Prop) : Except PyErr α → Except PyErr β → Prop
  | .ok a, .ok b => R a b
  | .error e, .error e' => e = e'
  | _, _ => False

theorem RelE.bind {α' β' : Type} {R : α → β → Prop} {R' : α' → β' → Prop} {x : Except PyErr α}
    {y : Except PyErr β} (h : RelE R x y) {f : α → Except PyErr α'} {g : β → Except PyErr β'}
    (hf : ∀ a b, R a b → RelE R' (f a) (g b)) : RelE R' (x >>= f) (y >>= g) := by
  cases x <;> cases y
  · exact h
  · exact h.elim
  · exact h.elim
  · exact hf _ _ h

theorem RelE.map {α' β' : Type} {R : α → β → Prop} {R' : α' → β' → Prop} {x : Except PyErr α}
    {y : Except PyErr β} (h : RelE R x y) {f : α → α'} {g : β → β'}
    (hf : ∀ a b, R a b → R' (f a) (g b)) : RelE R' (x.map f) (y.map g) := by
  cases x <;> cases y
  · exact h
  · exact h.elim
  · exact h.elim
  · exact hf _ _ h

theorem RelE.eq {x y : Except PyErr α} (h : RelE (· = ·) x y) : x = y := by
  cases x <;> cases y
  · exact congrArg _ h
  · exact h.elim
  · exact h.elim
  · exact congrArg _ h

theorem RelE.of_eq {x y : Except PyErr α} (h : x = y) : RelE (· = ·) x y := by
  subst h
  cases x <;> exact Eq.refl _

theorem SameArr.map {A B : Arr α} (h : SameArr A B) (f : α → β) : SameArr (A.map f) (B.map f) :=
  ⟨h.1, fun j hj => congrArg f (h.2 j hj)⟩

theorem inB_bix {A : Arr α} {n : Fin 3 → ℕ} (hb : broadcastsTo A.shape n) {j : Ix}
    (hj : ∀ d, 0 ≤ j d ∧ j d < n d) : A.InB (A.bix j) := by
  intro d
  unfold Arr.bix
  have := hj d
  rcases hb d with h | h
  · split_ifs <;> omega
  · rw [if_pos h, h]
    omega

theorem SameArr.bix {A B : Arr α} (h : SameArr A B) {n : Fin 3 → ℕ} (hb : broadcastsTo A.shape n)
    {j : Ix} (hj : ∀ d, 0 ≤ j d ∧ j d < n d) : A.get (A.bix j) = B.get (B.bix j) := by
  rw [h.2 _ (inB_bix hb hj)]
  unfold Arr.bix
  rw [h.1]

theorem SameArr.zip {A A' : Arr α} {B B' : Arr β} (h : SameArr A A') (h' : SameArr B B')
    (f : α → β → γ) : RelE SameArr (A.zip f B) (A'.zip f B') := by
  unfold Arr.zip
  rw [← h.1, ← h'.1]
  split_ifs with hc
  · refine ⟨Eq.refl _, fun j hj => ?_⟩
    have e1 : broadcastsTo A.shape (fun d => dimBroadcast (A.shape d) (B.shape d)) := by
      intro d
      simp only [dimBroadcast]
      split_ifs with h1
      · exact Or.inr h1
      · exact Or.inl (Eq.refl _)
    have e2 : broadcastsTo B.shape (fun d => dimBroadcast (A.shape d) (B.shape d)) := by
      intro d
      simp only [dimBroadcast]
      rcases hc d with h1 | h1 | h1
      · rw [h1]; simp
      · rw [if_pos h1]; exact Or.inl (Eq.refl _)
      · exact Or.inr h1
    simp only
    rw [h.bix e1 hj, h'.bix e2 hj]
  · exact Eq.refl _

theorem SameArr.assign {A A' B B' : Arr α} (h : SameArr A A') (h' : SameArr B B') :
    RelE SameArr (A.assign B) (A'.assign B') := by
  unfold Arr.assign
  rw [← h.1, ← h'.1]
  split_ifs with hc
  · exact ⟨Eq.refl _, fun j hj => h'.bix hc hj⟩
  · exact Eq.refl _

theorem sliceStop_le (n : ℕ) (b : Option ℤ) : sliceStop n b ≤ n := by
  cases b with
  | none => exact le_refl n
  | some b =>
    simp only [sliceStop, pyBound]
    split_ifs <;> omega

theorem SameArr.slice {A A' : Arr α} (h : SameArr A A') (d : Fin 3) (a b : Option ℤ) :
    SameArr (A.slice d a b) (A'.slice d a b) := by
  unfold Arr.slice
  rw [← h.1]
  refine ⟨Eq.refl _, fun j hj => h.2 _ fun e => ?_⟩
  have := hj e
  have hl := sliceStop_le (A.shape d) b
  simp only [Arr.InB, Function.update_apply] at this
  by_cases he : e = d
  · subst he
    simp at this ⊢
    omega
  · simpa [he] using this

theorem SameArr.cut {A A' : Arr α} (h : SameArr A A') (d : Fin 3) (a b : ℤ) :
    SameArr (A.cut d a b) (A'.cut d a b) := h.slice d _ _

theorem SameArr.box {A A' : Arr α} (h : SameArr A A') (b : Box) : SameArr (A.box b) (A'.box b) := by
  unfold Arr.box
  rw [← h.1]
  refine ⟨Eq.refl _, fun j hj => h.2 _ fun e => ?_⟩
  have := hj e
  have hl := sliceStop_le (A.shape e) (b e).2
  simp only at this ⊢
  omega

theorem SameArr.setBox {A A' B B' : Arr α} (h : SameArr A A') (h' : SameArr B B') (b : Box) :
    RelE SameArr (A.setBox b B) (A'.setBox b B') := by
  unfold Arr.setBox
  rw [← h.1, ← h'.1]
  dsimp only
  split_ifs with hc
  · refine ⟨Eq.refl _, fun j hj => ?_⟩
    dsimp only
    split_ifs with hi
    · refine h'.bix hc fun d => ?_
      have := hi d
      omega
    · exact h.2 j hj
  · exact Eq.refl _

theorem SameArr.setSlice {A A' B B' : Arr α} (h : SameArr A A') (h' : SameArr B B') (d : Fin 3)
    (a b : Option ℤ) : RelE SameArr (A.setSlice d a b B) (A'.setSlice d a b B') := by
  unfold Arr.setSlice
  rw [← h.1, ← h'.1]
  dsimp only
  split_ifs with hc
  · refine ⟨Eq.refl _, fun j hj => ?_⟩
    dsimp only
    split_ifs with hi
    · refine h'.bix hc fun e => ?_
      have := hj e
      simp only at this
      by_cases he : e = d
      · subst he
        simp
        omega
      · simpa [he] using this
    · exact h.2 j hj
  · exact Eq.refl _

theorem SameArr.anyTrue {A B : Arr Bool} (h : SameArr A B) : anyTrue A = anyTrue B := by
  unfold FVHOE.anyTrue
  rw [← h.1, Bool.eq_iff_iff, List.any_eq_true, List.any_eq_true]
  constructor
  · rintro ⟨j, hj, hv⟩
    exact ⟨j, hj, by rw [← h.2 j ((mem_indexList _ _).1 hj)]; exact hv⟩
  · rintro ⟨j, hj, hv⟩
    exact ⟨j, hj, by rw [h.2 j ((mem_indexList _ _).1 hj)]; exact hv⟩

/-! ## Detection -/

variable {ι : Type}

theorem SameArr.sed1 {A A' : Arr (ι → K)} (h : SameArr A A') (eps : K) (d : Fin 3) :
    RelE SameArr (sed1 eps A d) (sed1 eps A' d) := by
  unfold FVHOE.sed1
  refine RelE.bind ((h.cut d _ _).zip (h.cut d _ _) _) fun dU dU' hdU => ?_
  refine RelE.bind ((hdU.cut d _ _).zip (hdU.cut d _ _) _) fun d2 d2' hd2 => ?_
  refine RelE.bind ((hdU.cut d _ _).zip (hdU.cut d _ _) _) fun lc lc' hlc => ?_
  refine RelE.bind (hlc.zip (hdU.cut d _ _) _) fun lcr lcr' hlcr => ?_
  refine RelE.bind (hd2.zip hlcr _) fun al al' hal => ?_
  refine RelE.bind ((hal.cut d _ _).zip (hal.cut d _ _) _) fun m m' hm => ?_
  exact hm.zip (hal.cut d _ _) _

theorem SameArr.sed2 {A A' : Arr (ι → K)} (h : SameArr A A') (eps : K) (d e : Fin 3) :
    RelE SameArr (sed2 eps A d e) (sed2 eps A' d e) := by
  unfold FVHOE.sed2
  refine RelE.bind ((h.cut e _ _).sed1 _ _) fun _ _ h1 => ?_
  refine RelE.bind ((h.cut d _ _).sed1 _ _) fun _ _ h2 => ?_
  exact h1.zip h2 _

theorem SameArr.smoothExtrema {A A' : Arr (ι → K)} (h : SameArr A A') (eps : K) (dims : List (Fin 3)) :
    RelE SameArr (smoothExtrema eps dims A) (smoothExtrema eps dims A') := by
  unfold FVHOE.smoothExtrema
  split
  · exact h.sed1 _ _
  · exact h.sed2 _ _ _
  · unfold FVHOE.sed3
    refine RelE.bind ((h.cut 2 _ _).sed2 _ _ _) fun _ _ h1 => ?_
    refine RelE.bind (((h.cut 0 _ _).cut 1 _ _).sed1 _ _) fun _ _ h2 => ?_
    exact h1.zip h2 _
  · exact Eq.refl _

theorem SameArr.orZero {A A' : Arr (ι → K)} (h : SameArr A A') (v : ι) : A.orZero v = A'.orZero v := by
  funext k
  unfold Arr.orZero
  by_cases hk : A.InB k
  · rw [if_pos hk, if_pos (by intro d; rw [← h.1]; exact hk d), h.2 k hk]
  · rw [if_neg hk, if_neg (by intro hk'; exact hk (by intro d; rw [h.1]; exact hk' d))]

theorem SameArr.filters {A A' : Arr (ι → K)} (h : SameArr A A') (dims : List (Fin 3)) :
    SameArr (filters dims A) (filters dims A') :=
  ⟨h.1, fun j _ => by funext v; simp only [FVHOE.filters, h.orZero]⟩

theorem SameArr.interior {A A' : Arr α} (h : SameArr A A') (dims : List (Fin 3)) :
    SameArr (interior dims A) (interior dims A') := by
  have key : ∀ {B B' : Arr α} (d : Fin 3), SameArr B B' →
      SameArr (if d ∈ dims then B.slice d (some 3) (some (-3)) else B)
        (if d ∈ dims then B'.slice d (some 3) (some (-3)) else B') := by
    intro B B' d hB
    split_ifs
    · exact hB.slice _ _ _
    · exact hB
  exact key 2 (key 1 (key 0 h))

theorem SameArr.globalRange {A A' : Arr (ι → K)} (h : SameArr A A') : globalRange A = globalRange A' := by
  unfold FVHOE.globalRange
  rw [← h.1]
  split_ifs
  · rfl
  · have : ∀ v, ((indexList A.shape).map fun j => A.get j v) =
        (indexList A.shape).map fun j => A'.get j v := by
      intro v
      refine List.map_congr_left fun j hj => ?_
      rw [h.2 j ((mem_indexList _ _).1 hj)]
    simp only [this]

theorem SameArr.nadPerVar {A A' C C' : Arr (ι → K)} {B B' : Arr (ι → K × K)} (h : SameArr A A')
    (hc : SameArr C C') (hb : SameArr B B') (o : DetectOpts K) :
    RelE (fun x y => SameArr x.1 y.1 ∧ SameArr x.2 y.2) (nadPerVar o A C B) (nadPerVar o A' C' B') := by
  unfold FVHOE.nadPerVar nadRange nadBounds
  rw [h.globalRange]
  split_ifs
  · refine RelE.bind (R := SameArr) ?_ fun r r' hr => ?_
    · exact RelE.map (RelE.of_eq (Eq.refl _)) fun a b hab => by subst hab; exact hb.map _
    refine RelE.bind (hc.zip hb _) fun i i' hi => ?_
    refine RelE.bind (hi.zip hr _) fun _ _ h1 => ?_
    exact ⟨hi, h1⟩
  · refine RelE.bind (R := SameArr) (show RelE SameArr (.ok _) (.ok _) from hb.map _) fun r r' hr => ?_
    refine RelE.bind (hc.zip hb _) fun i i' hi => ?_
    refine RelE.bind (hi.zip hr _) fun _ _ h1 => ?_
    exact ⟨hi, h1⟩
  · exact Eq.refl _
  · refine RelE.bind (R := SameArr) ?_ fun r r' hr => ?_
    · exact RelE.map (RelE.of_eq (Eq.refl _)) fun a b hab => by subst hab; exact hb.map _
    refine RelE.bind (hc.zip hr _) fun i i' hi => ?_
    exact ⟨hi, hi.map _⟩
  · refine RelE.bind (R := SameArr) (show RelE SameArr (.ok _) (.ok _) from hb.map _) fun r r' hr => ?_
    refine RelE.bind (hc.zip hr _) fun i i' hi => ?_
    exact ⟨hi, hi.map _⟩
  · exact Eq.refl _
  · exact Eq.refl _

theorem SameArr.relaxSmooth {C C' : Arr (ι → K)} {B B' : Arr (ι → Bool)} (hc : SameArr C C')
    (hb : SameArr B B') (o : DetectOpts K) (dims : List (Fin 3)) :
    RelE SameArr (relaxSmooth o dims C B) (relaxSmooth o dims C' B') := by
  unfold FVHOE.relaxSmooth
  split_ifs
  · refine RelE.bind (hc.smoothExtrema _ _) fun _ _ h1 => ?_
    refine RelE.bind (h1.zip hb _) fun _ _ h2 => ?_
    exact hb.assign h2
  · exact hb

theorem SameArr.padIndicator {C C' : Arr (State K 0)} (hc : SameArr C C')
    (pad : List (Var 0 × Option K × Option K)) (P P' : Arr (WithTop K)) (hP : SameArr P P') :
    RelE SameArr (padIndicator pad C P) (padIndicator pad C' P') := by
  unfold FVHOE.padIndicator
  induction pad generalizing P P' with
  | nil => exact hP
  | cons e es ih =>
    rw [List.foldlM_cons, List.foldlM_cons]
    exact RelE.bind (hP.assign (hc.map _)) fun _ _ h => ih _ _ h

theorem SameArr.detect {A A' C C' : Arr (State K 0)} (h : SameArr A A') (hc : SameArr C C')
    (o : DetectOpts K) (dims : List (Fin 3)) :
    RelE (fun x y => SameArr x.trouble y.trouble ∧ SameArr x.nadMag y.nadMag ∧
      SameArr x.padMag y.padMag) (detectTroubledCells o dims A C) (detectTroubledCells o dims A' C') := by
  unfold detectTroubledCells
  refine RelE.bind (h.nadPerVar (hc.interior dims) ((h.filters dims).interior dims) o)
    fun r r' hr => ?_
  refine RelE.bind (hc.relaxSmooth hr.2 o dims) fun b b' hb => ?_
  dsimp only
  refine RelE.bind ((hb.map _).zip (hr.1.map _) _) fun m m' hm => ?_
  refine RelE.bind ((hc.interior dims).padIndicator _ _ _ (hm.map _)) fun P P' hP => ?_
  refine RelE.bind (hP.zip (hb.map _) _) fun t t' ht => ?_
  exact ⟨ht, hm, hP.map _⟩

/-! ## Broadcasting -/

theorem SameArr.maxFrom {A A' B B' : Arr K} (h : SameArr A A') (h' : SameArr B B') (f : K → K) (o : Ix) :
    RelE SameArr (maxFrom f A o B) (maxFrom f A' o B') := by
  unfold FVHOE.maxFrom
  refine RelE.bind (((h.box _).map f).zip (h'.box _) _) fun _ _ h1 => ?_
  exact h'.setBox h1 _

theorem SameArr.convex1 {A A' : Arr K} (h : SameArr A A') (a : Fin 3) :
    RelE SameArr (convex1 A a) (convex1 A' a) := by
  unfold FVHOE.convex1 convexCells1
  refine RelE.bind (R := SameArr) ?_ fun _ _ h1 => (h1.slice _ _ _).zip (h1.slice _ _ _) _
  refine RelE.bind (h.maxFrom h _ _) fun _ _ h1 => ?_
  refine RelE.bind (h.maxFrom h1 _ _) fun _ _ h1 => ?_
  refine RelE.bind (h1.maxFrom h1 _ _) fun _ _ h1 => ?_
  exact h1.maxFrom h1 _ _

theorem SameArr.convex2 {A A' : Arr K} (h : SameArr A A') (a b : Fin 3) :
    RelE (fun x y => SameArr x.1 y.1 ∧ SameArr x.2 y.2) (convex2 A a b) (convex2 A' a b) := by
  unfold FVHOE.convex2 convexCells2
  refine RelE.bind (R := SameArr) ?_ fun _ _ h1 => ?_
  · refine RelE.bind (h.maxFrom h _ _) fun _ _ h1 => ?_
    refine RelE.bind (h.maxFrom h1 _ _) fun _ _ h1 => ?_
    refine RelE.bind (h.maxFrom h1 _ _) fun _ _ h1 => ?_
    refine RelE.bind (h.maxFrom h1 _ _) fun _ _ h1 => ?_
    refine RelE.bind (h.maxFrom h1 _ _) fun _ _ h1 => ?_
    refine RelE.bind (h.maxFrom h1 _ _) fun _ _ h1 => ?_
    refine RelE.bind (h.maxFrom h1 _ _) fun _ _ h1 => ?_
    refine RelE.bind (h.maxFrom h1 _ _) fun _ _ h1 => ?_
    refine RelE.bind (h1.maxFrom h1 _ _) fun _ _ h1 => ?_
    refine RelE.bind (h1.maxFrom h1 _ _) fun _ _ h1 => ?_
    refine RelE.bind (h1.maxFrom h1 _ _) fun _ _ h1 => ?_
    exact h1.maxFrom h1 _ _
  · have h2 := h1.slice b (some 2) (some (-2))
    have h3 := h1.slice a (some 2) (some (-2))
    refine RelE.bind ((h2.slice _ _ _).zip (h2.slice _ _ _) _) fun _ _ h4 => ?_
    refine RelE.bind ((h3.slice _ _ _).zip (h3.slice _ _ _) _) fun _ _ h5 => ?_
    exact ⟨h4, h5⟩

theorem SameArr.convexFaces {A A' : Arr K} (h : SameArr A A') (n : Fin 3 → ℕ) (dims : List (Fin 3)) :
    RelE (fun x y => ∀ d, SameArr (x d) (y d)) (convexFaces n dims A) (convexFaces n dims A') := by
  unfold FVHOE.convexFaces
  split
  · refine RelE.bind (h.convex1 _) fun _ _ h1 => ?_
    refine RelE.bind (SameArr.rfl.assign h1) fun _ _ h1 => ?_
    intro d
    dsimp only
    split_ifs
    · exact h1
    · exact SameArr.rfl
  · split_ifs
    · exact Eq.refl _
    · refine RelE.bind (h.convex2 _ _) fun _ _ h1 => ?_
      refine RelE.bind (SameArr.rfl.assign h1.1) fun _ _ h2 => ?_
      refine RelE.bind (SameArr.rfl.assign h1.2) fun _ _ h3 => ?_
      intro d
      dsimp only
      split_ifs
      · exact h2
      · exact h3
      · exact SameArr.rfl
  · exact Eq.refl _
  · exact Eq.refl _

theorem SameArr.simpleFaces {A A' : Arr K} (h : SameArr A A') (dims : List (Fin 3)) (d : Fin 3) :
    RelE SameArr (simpleFaces A dims d) (simpleFaces A' dims d) := by
  unfold FVHOE.simpleFaces
  rw [← h.1]
  dsimp only
  split_ifs
  · refine RelE.bind (SameArr.rfl.setSlice h _ _ _) fun _ _ h1 => ?_
    refine RelE.bind ((h1.slice _ _ _).zip h _) fun _ _ h2 => ?_
    exact h1.setSlice h2 _ _ _
  · exact SameArr.rfl

theorem SameArr.broadcastTrouble {A A' : Arr Bool} (h : SameArr A A') (convex : Bool)
    (periodic : Fin 3 → Bool) (dims : List (Fin 3)) :
    RelE (fun x y => ∀ d, SameArr (x d) (y d)) (broadcastTrouble K convex periodic dims A)
      (broadcastTrouble K convex periodic dims A') := by
  have hK : SameArr (A.map (flag (K := K))) (A'.map flag) := h.map _
  unfold FVHOE.broadcastTrouble
  rw [← h.1]
  dsimp only
  split_ifs
  · refine RelE.bind (R := SameArr) ?_ fun B B' hB => ?_
    · unfold allocTrouble
      have e : (Arr.map (flag (K := K)) A).shape = (Arr.map (flag (K := K)) A').shape := hK.1
      rw [← e]
      exact SameArr.rfl.setBox hK _
    refine RelE.bind (R := SameArr) ?_ fun B B' hB => hB.convexFaces _ _
    have key : ∀ (l : List (Fin 3)) (B B' : Arr K), SameArr B B' →
        RelE SameArr (l.foldlM (wrapTrouble (A.map flag) dims periodic) B)
          (l.foldlM (wrapTrouble (A'.map flag) dims periodic) B') := by
      intro l
      induction l with
      | nil => exact fun _ _ h => h
      | cons d l ih =>
        intro B B' hB
        rw [List.foldlM_cons, List.foldlM_cons]
        refine RelE.bind ?_ fun _ _ h1 => ih _ _ h1
        unfold wrapTrouble
        split_ifs
        · refine RelE.bind (hB.setBox (hK.box _) _) fun _ _ h1 => ?_
          exact h1.setBox (hK.box _) _
        · exact hB
    exact key _ _ _ hB
  · refine RelE.bind (hK.simpleFaces _ _) fun _ _ h0 => ?_
    refine RelE.bind (hK.simpleFaces _ _) fun _ _ h1 => ?_
    refine RelE.bind (hK.simpleFaces _ _) fun _ _ h2 => ?_
    intro d
    match d with
    | 0 => exact h0
    | 1 => exact h1
    | 2 => exact h2

/-! ## The limiter -/

/-- Neither the detection nor the spreading depends on entries out of range. -/
structure Limiting.Local {V : Type} (L : Limiting K V) : Prop where
  detect : ∀ w v w' v', SameArr w v → SameArr w' v' → RelE SameArr (L.detect w w') (L.detect v v')
  broadcast : ∀ t t', SameArr t t' →
    RelE (fun x y => ∀ d, SameArr (x d) (y d)) (L.broadcast t) (L.broadcast t')

/-- The limiter of the solver is local. -/
theorem LimiterOpts.local (o : LimiterOpts K) (dims : List (Fin 3)) (periodic : Fin 3 → Bool) {np : ℕ} :
    (o.limiting dims periodic : Limiting K (State K np)).Local where
  detect := fun w v w' v' h h' =>
    RelE.map (SameArr.detect (h.map _) (h'.map _) o.toDetectOpts dims) fun _ _ hab => hab.1
  broadcast := fun t t' h => h.broadcastTrouble _ _ _

end FVHOE
