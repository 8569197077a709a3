import Mathlib.Algebra.BigOperators.Group.Finset.Sigma
import Mathlib.Algebra.Order.BigOperators.Group.Finset
import Mathlib.Data.Finset.Prod
import Mathlib.Data.Rat.Floor
import Verif.Props.C72

/-!
C73 (radial averages are the averages over the cells of each shell).
-/

set_option linter.unusedSectionVars false

namespace FVHOE

variable {K : Type} [Field K] [LinearOrder K] [IsStrictOrderedRing K]

/-! ### Statement -/

/-- Distance of a cell centre from a point. -/
def PlotSnap.radius (sqrt : K → K) (s : PlotSnap K) (c : K × K × K) (i : ℕ × ℕ × ℕ) : K :=
  let a := (s.axis 0).getD i.1 0 - c.1
  let b := (s.axis 1).getD i.2.1 0 - c.2.1
  let d := (s.axis 2).getD i.2.2 0 - c.2.2
  sqrt (a * a + b * b + d * d)

/-- All cells. -/
def PlotSnap.cellsOf (s : PlotSnap K) : Finset (ℕ × ℕ × ℕ) :=
  Finset.range (s.axis 0).length ×ˢ Finset.range (s.axis 1).length ×ˢ Finset.range (s.axis 2).length

/-- The cells with centres further than `lo` and not further than `hi`. -/
def PlotSnap.shell (sqrt : K → K) (s : PlotSnap K) (c : K × K × K) (lo hi : K) : Finset (ℕ × ℕ × ℕ) :=
  s.cellsOf.filter fun i => lo < s.radius sqrt c i ∧ s.radius sqrt c i ≤ hi

/-- The average over a set of cells, if there are any. -/
def IsAverage (S : Finset (ℕ × ℕ × ℕ)) (g : ℕ × ℕ × ℕ → K) (v : Option K) : Prop :=
  (S = ∅ → v = none) ∧ (S.Nonempty → ∃ x, v = some x ∧ x * (S.card : K) = ∑ i ∈ S, g i)

/-! ### Lemmas -/

theorem allIndices_sum (n : ℕ) (ns : List ℕ) (g : List ℕ → K) :
    ((allIndices (n :: ns)).map g).sum = ∑ i ∈ Finset.range n, ((allIndices ns).map fun l => g (i :: l)).sum := by
  rw [show allIndices (n :: ns) = (List.range n).flatMap fun i => (allIndices ns).map (i :: ·) from rfl]
  rw [Finset.sum_eq_multiset_sum, Finset.range_val, ← Multiset.coe_range, Multiset.map_coe, Multiset.sum_coe]
  generalize List.range n = L
  induction L with
  | nil => rfl
  | cons a L ih =>
    rw [List.flatMap_cons, List.map_append, List.sum_append, ih, List.map_cons, List.sum_cons, List.map_map]
    rfl

theorem sum_box (s : PlotSnap K) (g : List ℕ → K) :
    NArr.sum ⟨[(s.axis 0).length, (s.axis 1).length, (s.axis 2).length], g⟩ = ∑ i ∈ s.cellsOf, g [i.1, i.2.1, i.2.2] := by
  unfold NArr.sum PlotSnap.cellsOf
  rw [Finset.sum_product]
  simp only [Finset.sum_product, allIndices_sum]
  simp [allIndices]

theorem zip_box {α β γ : Type} (F : α → β → γ) (n0 n1 n2 : ℕ) (A : NArr α) (B : NArr β) (hA : A.shape = [n0, n1, n2])
    (hB : B.shape = [n0, n1, n2]) :
    ∃ C : NArr γ, NArr.zipWith F A B = .ok C ∧ C.shape = [n0, n1, n2] ∧
      ∀ i j k, i < n0 → j < n1 → k < n2 → C.get [i, j, k] = F (A.get [i, j, k]) (B.get [i, j, k]) := by
  have one : ∀ n i : ℕ, i < n → (if n = 1 then 0 else i) = i := by intro n i h; split_ifs <;> omega
  refine ⟨⟨[n0, n1, n2], fun l => F (A.bget l) (B.bget l)⟩, ?_, rfl, ?_⟩
  · simp [NArr.zipWith, hA, hB, bshapeRev, bind, Except.bind, pure, Except.pure]
  · intro i j k hi hj hk
    simp [NArr.bget, hA, hB, bfillRev, one _ _ hi, one _ _ hj, one _ _ hk]

theorem mapM_ok {α β : Type} (f : α → Except PyErr β) (g : α → β) : ∀ l : List α, (∀ a ∈ l, f a = .ok (g a)) →
    l.mapM f = .ok (l.map g)
  | [], _ => rfl
  | a :: l, h => by
    rw [List.mapM_cons, h a (by simp), mapM_ok f g l fun b hb => h b (by simp [hb])]
    rfl

/-! ### C73 -/

/-- **C73, bins** With a centre and radii of floating-point type the radial average of a row or of the speed
has one entry for each pair of consecutive radii: the average of the field, and of the distances, over the
cells of the chosen snapshot whose centres are further than the smaller and not further than the larger
radius, and nan where there are none. -/
theorem C73_bins [FloorRing K] (sqrt : K → K) (passives : List String) (hd : passives.Nodup)
    (hr : ∀ s ∈ passives, s ∉ reservedNames) (hs : HydroState) (hhs : HydroState.init passives 4 = .ok hs)
    (snaps : List (PlotSnap K)) (hne : snaps ≠ []) (hg : ∀ s ∈ snaps, s.Good (5 + passives.length))
    (param : String) (t : Option K) (c : K × K × K) (radii : List K) :
    ∃ s, IsChosen snaps t s ∧ ∀ f, IsField sqrt passives s param f →
      ∃ V R, circularAverage sqrt (.solver hs snaps) param t (some c) (some ⟨radii, false⟩) = .ok (V, R) ∧
        V.length = radii.length - 1 ∧ R.length = radii.length - 1 ∧
        ∀ b lo hi, radii[b]? = some lo → radii[b + 1]? = some hi → ∃ v r, V[b]? = some v ∧ R[b]? = some r ∧
          IsAverage (s.shell sqrt c lo hi) (fun i => f ![i.1, i.2.1, i.2.2]) v ∧
          IsAverage (s.shell sqrt c lo hi) (s.radius sqrt c) r := by
  obtain ⟨n, i, j, k, s, e, hitem, hmem, hch, _⟩ := getIndices_chosen snaps hne hg t none none none
  refine ⟨s, hch, fun f hf => ?_⟩
  obtain ⟨A, hA, hshape, hget⟩ := field_array sqrt passives hd hr hs hhs s (hg s hmem) param f hf
  set Rr : NArr K := ⟨[(s.axis 0).length, (s.axis 1).length, (s.axis 2).length], fun l =>
    s.radius sqrt c (l.getD 0 0, l.getD 1 0, l.getD 2 0)⟩ with hRr
  let avg : (ℕ × ℕ × ℕ → K) → K × K → Option K := fun g e =>
    if 0 < ((s.shell sqrt c e.1 e.2).card : K) then some ((∑ i ∈ s.shell sqrt c e.1 e.2, g i) / ((s.shell sqrt c e.1 e.2).card : K))
    else none
  have havg : ∀ g e, IsAverage (s.shell sqrt c e.1 e.2) g (avg g e) := by
    intro g e
    constructor
    · intro h
      simp [avg, h]
    · intro h
      have hc : (0 : K) < ((s.shell sqrt c e.1 e.2).card : K) := by exact_mod_cast h.card_pos
      exact ⟨_, if_pos hc, div_mul_cancel₀ _ hc.ne'⟩
  have hbin : ∀ e : K × K, circularBin false Rr A e.1 e.2 =
      .ok (avg (fun i => f ![i.1, i.2.1, i.2.2]) e, avg (s.radius sqrt c) e) := by
    intro e
    obtain ⟨C, hC, hCs, hCg⟩ := zip_box (fun r a => if e.1 < r ∧ r ≤ e.2 then a else 0) _ _ _ Rr A rfl hshape
    have hcount : (NArr.sum ⟨Rr.shape, fun l => if e.1 < Rr.get l ∧ Rr.get l ≤ e.2 then (1 : K) else 0⟩) =
        ((s.shell sqrt c e.1 e.2).card : K) := by
      rw [hRr, sum_box, PlotSnap.shell, Finset.card_eq_sum_ones, Finset.sum_filter]
      push_cast
      rfl
    have hrs : (NArr.sum ⟨Rr.shape, fun l => if e.1 < Rr.get l ∧ Rr.get l ≤ e.2 then Rr.get l else 0⟩) =
        ∑ i ∈ s.shell sqrt c e.1 e.2, s.radius sqrt c i := by
      rw [hRr, sum_box, PlotSnap.shell, Finset.sum_filter]
      rfl
    have hvs : C.sum = ∑ i ∈ s.shell sqrt c e.1 e.2, f ![i.1, i.2.1, i.2.2] := by
      have hCeq : C = ⟨[(s.axis 0).length, (s.axis 1).length, (s.axis 2).length], C.get⟩ := by rw [← hCs]
      rw [hCeq, sum_box, PlotSnap.shell, Finset.sum_filter]
      refine Finset.sum_congr rfl fun i hi => ?_
      simp only [PlotSnap.cellsOf, Finset.mem_product, Finset.mem_range] at hi
      rw [hCg _ _ _ hi.1 hi.2.1 hi.2.2]
      have := hget ![i.1, i.2.1, i.2.2]
      rw [← this]
      rfl
    unfold circularBin
    simp only [hcount, hrs, hC, hvs, bind, Except.bind, pure, Except.pure, avg]
    by_cases h : (0 : K) < ((s.shell sqrt c e.1 e.2).card : K)
    · simp only [if_pos h, storeLike, Bool.false_eq_true, if_false]
    · simp only [if_neg h, storeLike, Bool.false_eq_true, if_false]
  have hmap := mapM_ok (fun e : K × K => circularBin false Rr A e.1 e.2) _ (radii.dropLast.zip radii.tail)
    fun e _ => hbin e
  refine ⟨((radii.dropLast.zip radii.tail).map fun e => (avg (fun i => f ![i.1, i.2.1, i.2.2]) e, avg (s.radius sqrt c) e)).map
    Prod.fst, ((radii.dropLast.zip radii.tail).map fun e => (avg (fun i => f ![i.1, i.2.1, i.2.2]) e,
      avg (s.radius sqrt c) e)).map Prod.snd, ?_, ?_, ?_, ?_⟩
  · simp only [circularAverage, PlotSource.hydroState, PlotSource.snapshots, bind, Except.bind, pure, Except.pure, e,
      hitem, hA]
    have : (fun e : K × K => circularBin false Rr A e.1 e.2) = fun e : K × K => circularBin false
      ⟨[s.coords.x.length, s.coords.y.length, s.coords.z.length], fun l =>
        sqrt ((s.coords.x.getD (l.getD 0 0) 0 - c.1) * (s.coords.x.getD (l.getD 0 0) 0 - c.1) +
          (s.coords.y.getD (l.getD 1 0) 0 - c.2.1) * (s.coords.y.getD (l.getD 1 0) 0 - c.2.1) +
          (s.coords.z.getD (l.getD 2 0) 0 - c.2.2) * (s.coords.z.getD (l.getD 2 0) 0 - c.2.2))⟩ A e.1 e.2 := rfl
    rw [this] at hmap
    rw [hmap]
  · simp
  · simp
  · intro b lo hi hlo hhi
    have hb : b + 1 < radii.length := by
      by_contra hn
      rw [List.getElem?_eq_none (by omega)] at hhi
      cases hhi
    have hz : (radii.dropLast.zip radii.tail)[b]? = some (lo, hi) := by
      rw [List.getElem?_zip_eq_some]
      refine ⟨?_, ?_⟩
      · rw [List.getElem?_dropLast, if_pos (by omega)]
        exact hlo
      · rw [List.getElem?_tail]
        exact hhi
    refine ⟨avg (fun i => f ![i.1, i.2.1, i.2.2]) (lo, hi), avg (s.radius sqrt c) (lo, hi), ?_, ?_, havg _ (lo, hi), havg _ (lo, hi)⟩
    · rw [List.getElem?_map, List.getElem?_map, hz]; rfl
    · rw [List.getElem?_map, List.getElem?_map, hz]; rfl

/-- `y` is the integer next to `x` in the direction of zero. -/
def TowardsZero [FloorRing K] (x y : Option K) : Prop :=
  ∃ a : K, ∃ m : ℤ, x = some a ∧ y = some (m : K) ∧ |(m : K)| ≤ |a| ∧ |a - m| < 1 ∧ 0 ≤ a * m

theorem truncate_towards [FloorRing K] (x : K) : TowardsZero (some x) (some (truncate x)) := by
  unfold truncate
  split_ifs with h
  · have h0 : (0 : K) ≤ (⌊x⌋ : K) := by exact_mod_cast Int.floor_nonneg.2 h
    have h1 := Int.floor_le x
    have h2 := Int.lt_floor_add_one x
    refine ⟨x, ⌊x⌋, rfl, rfl, ?_, ?_, mul_nonneg h h0⟩
    · rwa [abs_of_nonneg h, abs_of_nonneg h0]
    · rw [abs_of_nonneg (by linarith)]
      linarith
  · have h0 : (⌈x⌉ : K) ≤ 0 := by exact_mod_cast Int.ceil_le.2 (by simpa using (not_le.1 h).le)
    have h1 := Int.le_ceil x
    have h2 := Int.ceil_lt_add_one x
    have h3 := (not_le.1 h).le
    refine ⟨x, ⌈x⌉, rfl, rfl, ?_, ?_, mul_nonneg_of_nonpos_of_nonpos h3 h0⟩
    · rw [abs_of_nonpos h3, abs_of_nonpos h0]
      linarith
    · rw [abs_lt]
      constructor <;> linarith

theorem circularBin_int [FloorRing K] (R data : NArr K) (lo hi v r : K)
    (h : circularBin false R data lo hi = .ok (some v, some r)) :
    circularBin true R data lo hi = .ok (some (truncate v), some (truncate r)) := by
  unfold circularBin at h ⊢
  cases hz : NArr.zipWith (fun r a => if lo < r ∧ r ≤ hi then a else 0) R data with
  | error e =>
    rw [hz] at h
    cases h
  | ok C =>
    rw [hz] at h
    simp only [bind, Except.bind, pure, Except.pure] at h ⊢
    split_ifs at h ⊢ with hc
    · simp only [storeLike, Bool.false_eq_true, if_false, Except.ok.injEq, Prod.mk.injEq, Option.some.injEq] at h
      simp only [storeLike, if_true, h.1, h.2]
    · simp only [storeLike, Bool.false_eq_true, if_false, Except.ok.injEq, Prod.mk.injEq, reduceCtorEq, false_and] at h

theorem bins_int [FloorRing K] (R data : NArr K) : ∀ (L : List (K × K)) (l : List (Option K × Option K)),
    L.mapM (fun e => circularBin false R data e.1 e.2) = .ok l → (∀ b ∈ l, b.1 ≠ none ∧ b.2 ≠ none) →
    ∃ l', L.mapM (fun e => circularBin true R data e.1 e.2) = .ok l' ∧
      List.Forall₂ TowardsZero (l.map Prod.fst) (l'.map Prod.fst) ∧
      List.Forall₂ TowardsZero (l.map Prod.snd) (l'.map Prod.snd)
  | [], l, h, _ => by
    cases h
    exact ⟨[], rfl, .nil, .nil⟩
  | e :: L, l, h, hl => by
    rw [List.mapM_cons] at h
    cases hb : circularBin false R data e.1 e.2 with
    | error x =>
      rw [hb] at h
      cases h
    | ok b =>
      cases hr : L.mapM (fun e => circularBin false R data e.1 e.2) with
      | error x =>
        rw [hb, hr] at h
        cases h
      | ok bs =>
        rw [hb, hr] at h
        cases h
        obtain ⟨l', e1, e2, e3⟩ := bins_int R data L bs hr fun b hb => hl b (List.mem_cons_of_mem _ hb)
        obtain ⟨h1, h2⟩ := hl b List.mem_cons_self
        obtain ⟨v, hv⟩ := Option.ne_none_iff_exists'.1 h1
        obtain ⟨r, hr⟩ := Option.ne_none_iff_exists'.1 h2
        obtain ⟨b1, b2⟩ := b
        cases hv
        cases hr
        refine ⟨(some (truncate v), some (truncate r)) :: l', ?_, .cons (truncate_towards v) e2, .cons (truncate_towards r) e3⟩
        rw [List.mapM_cons, circularBin_int R data _ _ _ _ hb, e1]
        rfl

/-- **C73, integer radii** When no shell is empty, radii of integer type give the averages of the same radii as
floating-point numbers, each replaced by the next integer in the direction of zero. -/
theorem C73_integer [FloorRing K] (sqrt : K → K) (src : PlotSource K) (param : String) (t : Option K)
    (center : Option (K × K × K)) (radii : List K) (V R : List (Option K))
    (h : circularAverage sqrt src param t center (some ⟨radii, false⟩) = .ok (V, R)) (hV : none ∉ V) (hR : none ∉ R) :
    ∃ V' R', circularAverage sqrt src param t center (some ⟨radii, true⟩) = .ok (V', R') ∧
      List.Forall₂ TowardsZero V V' ∧ List.Forall₂ TowardsZero R R' := by
  unfold circularAverage at h ⊢
  cases hs : src.hydroState with
  | error e => rw [hs] at h; cases h
  | ok hy =>
  cases hsn : src.snapshots with
  | error e => rw [hs, hsn] at h; cases h
  | ok snaps =>
  rw [hs, hsn] at h
  simp only [bind, Except.bind, pure, Except.pure] at h ⊢
  cases hix : getIndices (snaps.map PlotSnap.coords) t none none none with
  | error e => rw [hix] at h; cases h
  | ok ix =>
  rw [hix] at h
  simp only at h ⊢
  cases hit : pyItem snaps ix.1 with
  | error e => rw [hit] at h; cases h
  | ok s =>
  rw [hit] at h
  simp only at h ⊢
  cases center with
  | none => cases h
  | some c =>
  simp only at h ⊢
  cases hdat : (if param = "v" then velocityMagnitude sqrt s.w else paramRows hy s param) with
  | error e => rw [hdat] at h; cases h
  | ok data =>
  rw [hdat] at h
  simp only at h ⊢
  split at h
  · cases h
  · rename_i bins hb
    cases h
    obtain ⟨l', e1, e2, e3⟩ := bins_int _ data _ bins hb fun b hb =>
      ⟨fun e => hV (List.mem_map.2 ⟨b, hb, e⟩), fun e => hR (List.mem_map.2 ⟨b, hb, e⟩)⟩
    rw [e1]
    exact ⟨_, _, rfl, e2, e3⟩

/-- An average of three and a half. -/
example : TowardsZero (some (-(7 / 2) : ℚ)) (some ((-3 : ℤ) : ℚ)) :=
  ⟨-(7 / 2), -3, rfl, rfl, by norm_num [abs_of_pos], by norm_num [abs_lt], by norm_num⟩

/-- **C73, bounds** The average over a shell lies between any bounds of the field on the shell, and the
average distance lies in the shell. -/
theorem C73_between (sqrt : K → K) (s : PlotSnap K) (c : K × K × K) (lo hi : K) :
    (∀ (g : ℕ × ℕ × ℕ → K) (m M x : K), (∀ i ∈ s.shell sqrt c lo hi, m ≤ g i ∧ g i ≤ M) → IsAverage (s.shell sqrt c lo hi) g (some x) →
      m ≤ x ∧ x ≤ M) ∧
    ∀ x, IsAverage (s.shell sqrt c lo hi) (s.radius sqrt c) (some x) → lo < x ∧ x ≤ hi := by
  have pos : ∀ g x, IsAverage (s.shell sqrt c lo hi) g (some x) → (s.shell sqrt c lo hi).Nonempty ∧
      (0 : K) < ((s.shell sqrt c lo hi).card : K) ∧ x * ((s.shell sqrt c lo hi).card : K) = ∑ i ∈ s.shell sqrt c lo hi, g i := by
    intro g x h
    have hn : (s.shell sqrt c lo hi).Nonempty := by
      rw [Finset.nonempty_iff_ne_empty]
      intro h0
      have := h.1 h0
      cases this
    obtain ⟨y, hy, e⟩ := h.2 hn
    cases hy
    exact ⟨hn, by exact_mod_cast hn.card_pos, e⟩
  constructor
  · intro g m M x hb h
    obtain ⟨hn, hc, e⟩ := pos g x h
    have h1 := Finset.card_nsmul_le_sum _ g m fun i hi => (hb i hi).1
    have h2 := Finset.sum_le_card_nsmul _ g M fun i hi => (hb i hi).2
    rw [nsmul_eq_mul, ← e, mul_comm] at h1
    rw [nsmul_eq_mul, ← e, mul_comm (((s.shell sqrt c lo hi).card : K))] at h2
    exact ⟨le_of_mul_le_mul_right h1 hc, le_of_mul_le_mul_right h2 hc⟩
  · intro x h
    obtain ⟨hn, hc, e⟩ := pos _ x h
    have hb : ∀ i ∈ s.shell sqrt c lo hi, lo < s.radius sqrt c i ∧ s.radius sqrt c i ≤ hi := fun i hi =>
      (Finset.mem_filter.1 hi).2
    have h1 := Finset.sum_lt_sum_of_nonempty hn fun i hi => (hb i hi).1
    have h2 := Finset.sum_le_card_nsmul _ (s.radius sqrt c) hi fun i hi => (hb i hi).2
    rw [Finset.sum_const, nsmul_eq_mul, ← e, mul_comm] at h1
    rw [nsmul_eq_mul, ← e, mul_comm (((s.shell sqrt c lo hi).card : K))] at h2
    exact ⟨lt_of_mul_lt_mul_right h1 hc.le, le_of_mul_le_mul_right h2 hc⟩

/-- **C73, partition** For increasing radii every cell further than the first and not further than the last
radius is in exactly one shell, and the averages weighted by the numbers of cells add up to the sum of the
field over those cells. -/
theorem C73_partition (sqrt : K → K) (s : PlotSnap K) (c : K × K × K) (r : ℕ → K) (hr : Monotone r) (n : ℕ)
    (g : ℕ × ℕ × ℕ → K) (V : ℕ → Option K) (hV : ∀ b < n, IsAverage (s.shell sqrt c (r b) (r (b + 1))) g (V b)) :
    (∀ i ∈ s.shell sqrt c (r 0) (r n), ∃! b, b < n ∧ i ∈ s.shell sqrt c (r b) (r (b + 1))) ∧
    ∑ b ∈ Finset.range n, ((s.shell sqrt c (r b) (r (b + 1))).card : K) * (V b).getD 0 =
      ∑ i ∈ s.shell sqrt c (r 0) (r n), g i := by
  have mem : ∀ i lo hi, i ∈ s.shell sqrt c lo hi ↔ i ∈ s.cellsOf ∧ lo < s.radius sqrt c i ∧ s.radius sqrt c i ≤ hi :=
    fun i lo hi => Finset.mem_filter
  have uniq : ∀ i b b', i ∈ s.shell sqrt c (r b) (r (b + 1)) → i ∈ s.shell sqrt c (r b') (r (b' + 1)) → b ≤ b' := by
    intro i b b' h h'
    by_contra hlt
    have : r (b' + 1) ≤ r b := hr (by omega)
    exact absurd (((mem _ _ _).1 h').2.2.trans this) (not_le.2 ((mem _ _ _).1 h).2.1)
  constructor
  · intro i hi
    obtain ⟨hc, h0, hn⟩ := (mem _ _ _).1 hi
    have hex : ∃ b, s.radius sqrt c i ≤ r b := ⟨n, hn⟩
    have hb := Nat.find_spec hex
    have hmin := fun m => Nat.find_min hex (m := m)
    have hle : Nat.find hex ≤ n := Nat.find_min' hex hn
    have hpos : Nat.find hex ≠ 0 := fun h => absurd (h ▸ hb) (not_le.2 h0)
    refine ⟨Nat.find hex - 1, ⟨by omega, (mem _ _ _).2 ⟨hc, not_le.1 (hmin _ (by omega)), ?_⟩⟩, ?_⟩
    · rw [Nat.sub_add_cancel (Nat.one_le_iff_ne_zero.2 hpos)]
      exact hb
    · intro b' hb'
      have h2 : i ∈ s.shell sqrt c (r (Nat.find hex - 1)) (r (Nat.find hex - 1 + 1)) :=
        (mem _ _ _).2 ⟨hc, not_le.1 (hmin _ (by omega)), by rw [Nat.sub_add_cancel (Nat.one_le_iff_ne_zero.2 hpos)]; exact hb⟩
      exact le_antisymm (uniq i _ _ hb'.2 h2) (uniq i _ _ h2 hb'.2)
  · have hb : ∀ b < n, ((s.shell sqrt c (r b) (r (b + 1))).card : K) * (V b).getD 0 =
        ∑ i ∈ s.shell sqrt c (r b) (r (b + 1)), g i := by
      intro b hbn
      rcases Finset.eq_empty_or_nonempty (s.shell sqrt c (r b) (r (b + 1))) with h | h
      · rw [h]; simp
      · obtain ⟨x, hx, e⟩ := (hV b hbn).2 h
        rw [hx, ← e, mul_comm]; rfl
    clear hV
    induction n with
    | zero =>
      have : s.shell sqrt c (r 0) (r 0) = ∅ := by
        rw [Finset.eq_empty_iff_forall_notMem]
        intro i hi
        obtain ⟨_, h0, hn⟩ := (mem _ _ _).1 hi
        exact absurd h0 (not_lt.2 hn)
      simp [this]
    | succ n ih =>
      rw [Finset.sum_range_succ, ih fun b h => hb b (by omega), hb n (by omega), ← Finset.sum_union]
      · refine Finset.sum_congr ?_ fun _ _ => rfl
        ext i
        rw [Finset.mem_union, mem, mem, mem]
        have h1 : r 0 ≤ r n := hr (by omega)
        have h2 : r n ≤ r (n + 1) := hr (by omega)
        constructor
        · rintro (⟨a, b, d⟩ | ⟨a, b, d⟩)
          · exact ⟨a, b, d.trans h2⟩
          · exact ⟨a, h1.trans_lt b, d⟩
        · rintro ⟨a, b, d⟩
          rcases le_or_gt (s.radius sqrt c i) (r n) with h | h
          · exact Or.inl ⟨a, b, h⟩
          · exact Or.inr ⟨a, h, d⟩
      · rw [Finset.disjoint_left]
        intro i h h'
        exact absurd ((mem _ _ _).1 h).2.2 (not_le.2 ((mem _ _ _).1 h').2.1)

/-- **C73, the centre** With `r 0 = 0` a cell whose centre is the centre of the shells is in none of them. -/
theorem C73_centre (sqrt : K → K) (h0 : sqrt 0 = 0) (s : PlotSnap K) (i : ℕ × ℕ × ℕ) (hi : K) :
    i ∉ s.shell sqrt ((s.axis 0).getD i.1 0, (s.axis 1).getD i.2.1 0, (s.axis 2).getD i.2.2 0) 0 hi := by
  intro h
  have := (Finset.mem_filter.1 h).2.1
  simp [PlotSnap.radius, h0] at this

/-! ### Examples -/

/-- A square root on the squares that occur. -/
def fewRoots (x : ℚ) : ℚ := if x = 1 then 1 else if x = 4 then 2 else x

/-- The density of the last snapshot around the lowest cell, in the shells (0, 1], (1, 3/2], (3/2, 2], (2, 4]
and (4, 6]; the cell at the centre is not counted. -/
example : ∃ hs, HydroState.init [] 4 = .ok hs ∧
    circularAverage fewRoots (.solver hs plotSnaps) "rho" none (some (1 / 2, 1 / 2, 0)) (some ⟨[0, 1, 3 / 2, 2, 4, 6], false⟩) =
      .ok ([some (1055), none, some (1155), none, some 1210], [some 1, none, some 2, none, some 5]) := by
  refine ⟨_, rfl, ?_⟩
  decide +kernel

example : Monotone fun n : ℕ => (n : ℚ) := fun _ _ h => Nat.cast_le.2 h

end FVHOE
