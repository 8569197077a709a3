import Verif.Proofs.Romain
import Verif.Proofs.BC
import Mathlib.Tactic.FieldSimp
import Mathlib.Tactic.Linarith

/-!
The reference solver on shifted and mirrored data.
-/

set_option linter.unusedSectionVars false

namespace FVHOE.Romain

variable {K : Type} [Field K] [LinearOrder K] [IsStrictOrderedRing K]

theorem maxNeg (a b : K) : max (-a) (-b) = -min a b := (neg_inf a b).symm

theorem minNeg (a b : K) : min (-a) (-b) = -max a b := (neg_sup a b).symm

/-- The mirror image of a column: the velocity, or momentum, changes sign. -/
def mirrorCol : Col K →ₗ[K] Col K where
  toFun a := ⟨a.r0, -a.r1, a.r2⟩
  map_add' a b := by
    refine col_ext fun k => ?_
    rw [map_add]
    fin_cases k
    · exact (map_add (rowMap (K := K) 0) a b)
    · show -(rowMap 1 (a + b)) = -(rowMap 1 a) + -(rowMap 1 b)
      rw [map_add]; ring
    · exact (map_add (rowMap (K := K) 2) a b)
  map_smul' x a := by
    refine col_ext fun k => ?_
    rw [RingHom.id_apply, map_smul]
    fin_cases k
    · exact (map_smul (rowMap (K := K) 0) x a)
    · show -(rowMap 1 (x • a)) = x • -(rowMap 1 a)
      rw [map_smul, smul_neg]
    · exact (map_smul (rowMap (K := K) 2) x a)

theorem mirrorCol_apply (a : Col K) : mirrorCol a = ⟨a.r0, -a.r1, a.r2⟩ := rfl

theorem mirrorCol_mirror (a : Col K) : mirrorCol (mirrorCol a) = a := by
  cases a
  simp [mirrorCol_apply]

theorem consToPrim_mirror (g : K) (a : Col K) : consToPrim g (mirrorCol a) = mirrorCol (consToPrim g a) := by
  simp only [consToPrim, mirrorCol_apply, neg_div, neg_sq]

/-! ### The marker and the interpolation -/

theorem marker_swap (a b c : K) : marker (-c) (-b) (-a) = marker a b c := by
  unfold marker
  dsimp only
  rw [show -b - -c = c - b by ring, show -a - -b = b - a by ring, add_comm (c - b), min_comm]

theorem marker_neg (a b c : K) : marker (-a) (-b) (-c) = marker a b c := by
  have h1 : -b - -a = -(b - a) := by ring
  have h2 : -c - -b = -(c - b) := by ring
  unfold marker
  dsimp only
  rw [h1, h2]
  obtain ⟨p, hp⟩ : ∃ p, p = b - a := ⟨_, rfl⟩
  obtain ⟨q, hq⟩ : ∃ q, q = c - b := ⟨_, rfl⟩
  rw [← hp, ← hq]
  obtain ⟨d, hd⟩ : ∃ d, d = 1 / 2 * (p + q) := ⟨_, rfl⟩
  rw [show 1 / 2 * (-p + -q) = -d by rw [hd]; ring, ← hd]
  have hmax : ∀ x : K, max (2 * -x) 0 = -min (2 * x) 0 := fun x => by
    have := maxNeg (2 * x) 0
    rwa [neg_zero, ← mul_neg] at this
  have hmin : ∀ x : K, min (2 * -x) 0 = -max (2 * x) 0 := fun x => by
    have := minNeg (2 * x) 0
    rwa [neg_zero, ← mul_neg] at this
  simp only [hmax, hmin, neg_div_neg_eq, neg_eq_zero, gt_iff_lt, Left.neg_pos_iff]
  rcases lt_trichotomy d 0 with h | h | h
  · simp only [h.ne, if_false, if_pos h, if_neg h.not_gt]
  · simp only [h, if_true]
  · simp only [h.ne', if_false, if_pos h, if_neg h.not_gt]

theorem uleft_mirror (space : ℕ) (u u' : ℤ → K) (i i' : ℤ) (s : K)
    (hu : ∀ k, -2 ≤ k → k ≤ 2 → u' (i' + k) = s * u (i - k)) :
    uleft space u' i' = s * uright space u i ∧ uright space u' i' = s * uleft space u i ∧
      umiddle space u' i' = s * umiddle space u i := by
  have h0 := hu 0 (by omega) (by omega)
  have h1 := hu 1 (by omega) (by omega)
  have h2 := hu 2 (by omega) (by omega)
  have h3 := hu (-1) (by omega) (by omega)
  have h4 := hu (-2) (by omega) (by omega)
  rw [add_zero, sub_zero] at h0
  rw [← sub_eq_add_neg, sub_neg_eq_add] at h3 h4
  refine ⟨?_, ?_, ?_⟩
  · unfold uleft uright
    split <;> simp only [h0, h1, h2, h3, h4, mul_zero] <;> ring
  · unfold uleft uright
    split <;> simp only [h0, h1, h2, h3, h4, mul_zero] <;> ring
  · unfold umiddle
    split <;> simp only [h0, h1, h2, h3, h4, mul_zero] <;> ring

/-- Interpolation of mirrored data. -/
theorem trace_mirror (tiny : K) (space : ℕ) (u u' al al' : ℤ → K) (i i' : ℤ) (s : K) (hs : s = 1 ∨ s = -1)
    (hu : ∀ k, -2 ≤ k → k ≤ 2 → u' (i' + k) = s * u (i - k))
    (ha : ∀ k, -1 ≤ k → k ≤ 1 → al' (i' + k) = al (i - k)) :
    trace tiny space u' al' i' = (s * (trace tiny space u al i).2, s * (trace tiny space u al i).1) := by
  have h0 := hu 0 (by omega) (by omega)
  have h1 := hu 1 (by omega) (by omega)
  have h3 := hu (-1) (by omega) (by omega)
  have a0 := ha 0 (by omega) (by omega)
  have a1 := ha 1 (by omega) (by omega)
  have a3 := ha (-1) (by omega) (by omega)
  rw [add_zero, sub_zero] at h0 a0
  rw [← sub_eq_add_neg, sub_neg_eq_add] at h3 a3
  obtain ⟨el, er, em⟩ := uleft_mirror space u u' i i' s hu
  have hth : theta tiny space u' al' i' = theta tiny space u al i := by
    unfold theta
    dsimp only
    have easl : min (min (al' (i' - 1)) (al' (i' + 1))) (al' i') = min (min (al (i - 1)) (al (i + 1))) (al i) := by
      rw [a0, a1, a3, min_comm (al (i + 1))]
    rw [easl]
    have key : min (|max (u' (i' - 1)) (max (u' i') (u' (i' + 1))) - u' i'| / (|bigmj space u' i'| + tiny))
          (|min (u' (i' - 1)) (min (u' i') (u' (i' + 1))) - u' i'| / (|smallmj space u' i'| + tiny)) =
        min (|max (u (i - 1)) (max (u i) (u (i + 1))) - u i| / (|bigmj space u i| + tiny))
          (|min (u (i - 1)) (min (u i) (u (i + 1))) - u i| / (|smallmj space u i| + tiny)) := by
      rw [h0, h1, h3]
      rcases hs with rfl | rfl
      · have e1 : bigmj space u' i' = bigmj space u i := by
          unfold bigmj
          rw [el, er, em, h0]
          simp only [one_mul]
          rw [max_comm (uright space u i)]
        have e2 : smallmj space u' i' = smallmj space u i := by
          unfold smallmj
          rw [el, er, em, h0]
          simp only [one_mul]
          rw [min_comm (uright space u i)]
        rw [e1, e2]
        simp only [one_mul]
        rw [show min (u (i + 1)) (min (u i) (u (i - 1))) = min (u (i - 1)) (min (u i) (u (i + 1))) by
            rw [min_comm (u i), min_left_comm, min_comm (u (i + 1))],
          show max (u (i + 1)) (max (u i) (u (i - 1))) = max (u (i - 1)) (max (u i) (u (i + 1))) by
            rw [max_comm (u i), max_left_comm, max_comm (u (i + 1))]]
      · have e1 : bigmj space u' i' = -smallmj space u i := by
          unfold bigmj smallmj
          rw [el, er, em, h0]
          simp only [neg_one_mul, maxNeg]
          rw [min_comm (uright space u i)]
          split_ifs <;> ring
        have e2 : smallmj space u' i' = -bigmj space u i := by
          unfold bigmj smallmj
          rw [el, er, em, h0]
          simp only [neg_one_mul, minNeg]
          rw [max_comm (uright space u i)]
          split_ifs <;> ring
        rw [e1, e2, abs_neg, abs_neg]
        simp only [neg_one_mul, maxNeg, minNeg]
        rw [show ∀ x y : K, -x - -y = -(x - y) by intros; ring, abs_neg,
          show ∀ x y : K, -x - -y = -(x - y) by intros; ring, abs_neg, min_comm]
        rw [show min (u (i + 1)) (min (u i) (u (i - 1))) = min (u (i - 1)) (min (u i) (u (i + 1))) by
            rw [min_comm (u i), min_left_comm, min_comm (u (i + 1))],
          show max (u (i + 1)) (max (u i) (u (i - 1))) = max (u (i - 1)) (max (u i) (u (i + 1))) by
            rw [max_comm (u i), max_left_comm, max_comm (u (i + 1))]]
    rw [key]
  unfold trace
  split_ifs
  · rw [hth, el, er, h0]
    refine Prod.ext ?_ ?_ <;> (dsimp only; ring)
  · rw [el, er]

/-- The sign a row gets in the mirror image. -/
def rowSign (k : Fin 3) : K := if k = 1 then -1 else 1

theorem rowSign_or (k : Fin 3) : rowSign k = (1 : K) ∨ rowSign k = (-1 : K) := by
  unfold rowSign
  split_ifs
  · exact .inr rfl
  · exact .inl rfl

theorem row_mirror (k : Fin 3) (a : Col K) : rowMap k (mirrorCol a) = rowSign k * rowMap k a := by
  fin_cases k
  · exact (one_mul _).symm
  · exact (neg_one_mul _).symm
  · exact (one_mul _).symm

theorem row_colOf (k : Fin 3) (f : Fin 3 → K) : rowMap k (colOf f) = f k := by
  fin_cases k <;> rfl

theorem traceCols_mirror (tiny : K) (space : ℕ) (u u' al al' : ℤ → Col K) (i i' : ℤ)
    (hu : ∀ k, -2 ≤ k → k ≤ 2 → u' (i' + k) = mirrorCol (u (i - k)))
    (ha : ∀ k, -1 ≤ k → k ≤ 1 → al' (i' + k) = al (i - k)) :
    (traceCols tiny space u' al' i').1 = mirrorCol (traceCols tiny space u al i).2 ∧
      (traceCols tiny space u' al' i').2 = mirrorCol (traceCols tiny space u al i).1 := by
  have key : ∀ k, trace tiny space (rowsOf u' k) (rowsOf al' k) i' =
      (rowSign k * (trace tiny space (rowsOf u k) (rowsOf al k) i).2,
        rowSign k * (trace tiny space (rowsOf u k) (rowsOf al k) i).1) := fun k =>
    trace_mirror tiny space _ _ _ _ i i' _ (rowSign_or k)
      (fun j h0 h1 => by rw [rowsOf_apply, rowsOf_apply, hu j h0 h1, row_mirror])
      (fun j h0 h1 => by rw [rowsOf_apply, rowsOf_apply, ha j h0 h1])
  unfold traceCols
  constructor <;> refine col_ext fun k => ?_ <;> rw [row_mirror] <;> dsimp only <;> rw [row_colOf, row_colOf, key]

/-! ### Markers of a row given everywhere -/

/-- The marker of a row without ends. -/
def markerAll (W : ℤ → K) (j : ℤ) : K :=
  marker ((1 / 2) * (W j - W (j - 2))) ((1 / 2) * (W (j + 1) - W (j - 1))) ((1 / 2) * (W (j + 2) - W j))

/-- The cell behind a column of a periodic array. -/
def behind (n : ℕ) (j : ℤ) : ℤ := 4 + (j - 4) % n

theorem setBC_behind {V : Type} {n : ℕ} (hn : 4 ≤ n) (u : ℤ → V) (j : ℤ) (h0 : 0 ≤ j) (h1 : j < n + 8) :
    setBC n .periodic u j = u (behind n j) := by
  rw [setBC_periodic hn]
  have e : behind n j = if j < 4 then j + n else if n + 4 ≤ j then j - n else j := by
    unfold behind
    split_ifs with h2 h3
    · rw [show j - 4 = (j + n - 4) + n * (-1) by ring, Int.add_mul_emod_self_left, Int.emod_eq_of_lt (by omega) (by omega)]
      ring
    · rw [show j - 4 = (j - n - 4) + n * 1 by ring, Int.add_mul_emod_self_left, Int.emod_eq_of_lt (by omega) (by omega)]
      ring
    · rw [Int.emod_eq_of_lt (by omega) (by omega)]
      ring
  rw [e]
  by_cases h2 : j < 4
  · rw [if_pos ⟨h0, h2⟩, if_pos h2]
  · rw [if_neg (by omega), if_neg h2]
    by_cases h3 : n + 4 ≤ j
    · rw [if_pos ⟨h3, h1⟩, if_pos h3]
    · rw [if_neg (by omega), if_neg h3]

theorem behind_range {n : ℕ} (hn : 4 ≤ n) (j : ℤ) : 4 ≤ behind n j ∧ behind n j < n + 4 := by
  unfold behind
  have h1 := Int.emod_nonneg (j - 4) (show (n : ℤ) ≠ 0 by omega)
  have h2 := Int.emod_lt_of_pos (j - 4) (show (0 : ℤ) < n by omega)
  omega

theorem per_behind {V : Type} {n : ℕ} (W : ℤ → V) (hW : ∀ j q : ℤ, W (j + n * q) = W j) (j k : ℤ) :
    W (behind n j + k) = W (j + k) := by
  have e : behind n j = j + n * (-((j - 4) / n)) := by
    unfold behind
    have := Int.emod_add_mul_ediv (j - 4) n
    linarith
  rw [e, show j + n * (-((j - 4) / n)) + k = j + k + n * (-((j - 4) / n)) by ring, hW]

/-- The marker of a periodic row. -/
theorem smooth_periodic {n : ℕ} (hn : 4 ≤ n) (W w : ℤ → K) (hW : ∀ j q : ℤ, W (j + n * q) = W j)
    (hw : ∀ j : ℤ, 0 ≤ j → j < n + 8 → w j = W j) (j : ℤ) (h0 : 0 ≤ j) (h1 : j < n + 8) :
    smoothExtrema n .periodic w j = markerAll W j := by
  have e1 : ∀ j : ℤ, 0 ≤ j → j < n + 8 →
      setBC n .periodic (padOne n fun j => (1 / 2) * (w (j + 1) - w (j - 1))) j = (1 / 2) * (W (j + 1) - W (j - 1)) := by
    intro j h0 h1
    obtain ⟨b1, b2⟩ := behind_range hn j
    rw [setBC_behind hn _ j h0 h1, padOne, if_pos (by omega), hw _ (by omega) (by omega), hw _ (by omega) (by omega),
      sub_eq_add_neg (behind n j) 1, per_behind W hW, per_behind W hW, ← sub_eq_add_neg]
  unfold smoothExtrema
  obtain ⟨b1, b2⟩ := behind_range hn j
  rw [setBC_behind hn _ j h0 h1, padOne, if_pos (by omega), e1 _ (by omega) (by omega), e1 _ (by omega) (by omega),
    e1 _ (by omega) (by omega)]
  unfold markerAll
  have p := fun k => per_behind W hW j k
  rw [show behind n j - 1 + 1 = behind n j + 0 by ring, show behind n j - 1 - 1 = behind n j + (-2) by ring,
    show behind n j - 1 = behind n j + (-1) by ring, show behind n j + 1 + 1 = behind n j + 2 by ring,
    show behind n j + 1 - 1 = behind n j + 0 by ring]
  rw [p, p, p, p, p, add_zero, ← sub_eq_add_neg, ← sub_eq_add_neg]

/-! ### One evaluation with periodic ends -/

/-- The primitive columns of the cells, repeated periodically. -/
def primAll (C : Consts K) (n : ℕ) (u : ℕ → Col K) (j : ℤ) : Col K := consToPrim C.gamma (u ((j - 4) % n).toNat)

theorem primAll_period (C : Consts K) (n : ℕ) (u : ℕ → Col K) (j q : ℤ) :
    primAll C n u (j + n * q) = primAll C n u j := by
  unfold primAll
  rw [show j + n * q - 4 = j - 4 + n * q by ring, Int.add_mul_emod_self_left]

theorem primCols_periodic (C : Consts K) {n : ℕ} (hn : 4 ≤ n) (u : ℕ → Col K) (j : ℤ) (h0 : 0 ≤ j) (h1 : j < n + 8) :
    primCols C n .periodic (embed n u) j = primAll C n u j := by
  unfold primCols primAll
  obtain ⟨b1, b2⟩ := behind_range hn j
  rw [setBC_behind hn _ j h0 h1, embed, if_pos ⟨b1, b2⟩]
  unfold behind
  rw [add_sub_cancel_left]

/-- The markers of columns without ends. -/
def markersAll (W : ℤ → Col K) (j : ℤ) : Col K := colOf fun k => markerAll (rowsOf W k) j

theorem markers_periodic {n : ℕ} (hn : 4 ≤ n) (W w : ℤ → Col K) (hW : ∀ j q : ℤ, W (j + n * q) = W j)
    (hw : ∀ j : ℤ, 0 ≤ j → j < n + 8 → w j = W j) (j : ℤ) (h0 : 0 ≤ j) (h1 : j < n + 8) :
    markers n .periodic w j = markersAll W j := by
  unfold markers markersAll
  congr 1
  funext k
  exact smooth_periodic hn _ _ (fun j q => by rw [rowsOf_apply, rowsOf_apply, hW])
    (fun j h0 h1 => by rw [rowsOf_apply, rowsOf_apply, hw j h0 h1]) j h0 h1

/-- The flux at a face of columns without ends. -/
def fluxAll (C : Consts K) (f : Col K → Col K → Col K) (space : ℕ) (W : ℤ → Col K) (k : ℤ) : Col K :=
  f (traceCols C.tiny space W (markersAll W) (k + 3)).1 (traceCols C.tiny space W (markersAll W) (k + 4)).2

/-- The derivative of a cell from columns without ends. -/
def slopeAll (C : Consts K) (f : Col K → Col K → Col K) (n space : ℕ) (W : ℤ → Col K) (i : ℤ) : Col K :=
  (-(1 / (1 / (n : K)))) • (fluxAll C f space W (i + 1) - fluxAll C f space W i)

theorem rhs_periodic {C : Consts K} {n : ℕ} (hn : 4 ≤ n) {rs : Solver} {space : ℕ} {u : ℕ → Col K}
    {r : (ℕ → Col K) × (ℤ → Col K)} (h : rhs C n .periodic rs space u = .ok r) : ∃ f, solve C rs = .ok f ∧
      (∀ j : ℤ, 0 ≤ j → j < n + 8 → r.2 j = primAll C n u j) ∧
      ∀ i : ℕ, i < n → r.1 i = slopeAll C f n space (primAll C n u) i := by
  obtain ⟨f, hf, -, hw, e⟩ := rhs_ok h
  have h2 : ∀ j : ℤ, 0 ≤ j → j < n + 8 → r.2 j = primAll C n u j := fun j h0 h1 => by
    rw [hw]; exact primCols_periodic C hn u j h0 h1
  have hm : ∀ j : ℤ, 0 ≤ j → j < n + 8 → markers n .periodic r.2 j = markersAll (primAll C n u) j :=
    fun j => markers_periodic hn _ _ (primAll_period C n u) h2 j
  have ht : ∀ i : ℤ, 2 ≤ i → i ≤ n + 5 → traceCols C.tiny space r.2 (markers n .periodic r.2) i =
      traceCols C.tiny space (primAll C n u) (markersAll (primAll C n u)) i := fun i h0 h1 =>
    traceCols_congr _ _ _ _ _ _ _ _ (fun k h2' h3 => h2 _ (by omega) (by omega)) fun k h2' h3 => hm _ (by omega) (by omega)
  refine ⟨f, hf, h2, fun i hi => ?_⟩
  rw [e, slopeOf_eq]
  unfold slopeAll fluxAll
  rw [ht _ (by omega) (by omega), ht _ (by omega) (by omega), ht _ (by omega) (by omega), ht _ (by omega) (by omega)]

theorem rhs_defined {C : Consts K} {n : ℕ} {ty : BCType} {rs : Solver} {space : ℕ} {u : ℕ → Col K}
    {r : (ℕ → Col K) × (ℤ → Col K)} (h : rhs C n ty rs space u = .ok r) (u' : ℕ → Col K) :
    ∃ r', rhs C n ty rs space u' = .ok r' := by
  unfold rhs cmpFlux at h ⊢
  split_ifs at h ⊢ with hs
  · cases h
  · rcases hf : solve C rs with e | f
    · rw [hf] at h; cases h
    · exact ⟨_, rfl⟩

/-! ### The largest speed -/

theorem maxSpeed_le (C : Consts K) (n : ℕ) (w : ℤ → Col K) (x : K) :
    maxSpeed C n w ≤ x ↔ ∀ j : ℕ, j < n + 8 → |(w j).r1| + C.sqrt (C.gamma * (w j).r2 / (w j).r0) ≤ x := by
  unfold maxSpeed
  dsimp only
  have key : ∀ (l : List ℕ) (g : ℕ → K) (a : K), l.foldl (fun m j => max m (g j)) a ≤ x ↔ a ≤ x ∧ ∀ j ∈ l, g j ≤ x := by
    intro l g
    induction l with
    | nil => intro a; simp
    | cons b l ih =>
      intro a
      rw [List.foldl_cons, ih, max_le_iff]
      simp [and_assoc]
  rw [key]
  constructor
  · rintro ⟨h0, h⟩ j hj
    rcases j with _ | j
    · exact h0
    · exact_mod_cast h j (List.mem_range.2 (by omega))
  · intro h
    exact ⟨by exact_mod_cast h 0 (by omega), fun j hj => by exact_mod_cast h (j + 1) (by have := List.mem_range.1 hj; omega)⟩

theorem maxSpeed_congr (C : Consts K) (n : ℕ) (w w' : ℤ → Col K)
    (h : ∀ j : ℕ, j < n + 8 → ∃ j' : ℕ, j' < n + 8 ∧ (w' j = w j' ∨ w' j = mirrorCol (w j')))
    (h' : ∀ j : ℕ, j < n + 8 → ∃ j' : ℕ, j' < n + 8 ∧ (w j = w' j' ∨ w j = mirrorCol (w' j'))) :
    maxSpeed C n w' = maxSpeed C n w := by
  have key : ∀ w w' : ℤ → Col K,
      (∀ j : ℕ, j < n + 8 → ∃ j' : ℕ, j' < n + 8 ∧ (w' j = w j' ∨ w' j = mirrorCol (w j'))) →
      maxSpeed C n w' ≤ maxSpeed C n w := by
    intro w w' h
    rw [maxSpeed_le]
    intro j hj
    obtain ⟨j', hj', e⟩ := h j hj
    have := (maxSpeed_le C n w _).1 le_rfl j' hj'
    rcases e with e | e
    · rw [e]; exact this
    · rw [e, mirrorCol_apply]
      dsimp only
      rw [abs_neg]; exact this
  exact le_antisymm (key w w' h) (key w' w h')

/-! ### Runs of two data sets related by a linear map of the columns -/

/-- The cells of `u'` are images of those of `u`. -/
def Image (n : ℕ) (e : ℕ → ℕ) (m : Col K →ₗ[K] Col K) (u u' : ℕ → Col K) : Prop := ∀ i, i < n → u' i = m (u (e i))

/-- Evaluations of related data are related. -/
def ImageRhs (C : Consts K) (n : ℕ) (ty : BCType) (rs : Solver) (space : ℕ) (e : ℕ → ℕ) (m : Col K →ₗ[K] Col K) : Prop :=
  ∀ u u' r, Image n e m u u' → rhs C n ty rs space u = .ok r →
    ∃ r', rhs C n ty rs space u' = .ok r' ∧ Image n e m r.1 r'.1 ∧ maxSpeed C n r'.2 = maxSpeed C n r.2

theorem Image.combine {n : ℕ} {e : ℕ → ℕ} {m : Col K →ₗ[K] Col K} {u u' v v' : ℕ → Col K} (h : Image n e m u u')
    (h' : Image n e m v v') (x : K) :
    Image n e m (fun i => (u i).add ((v i).smul x)) fun i => (u' i).add ((v' i).smul x) := by
  intro i hi
  simp only [add_eq, smul_eq]
  rw [h i hi, h' i hi, map_add, map_smul]

theorem Image.plus {n : ℕ} {e : ℕ → ℕ} {m : Col K →ₗ[K] Col K} {u u' v v' : ℕ → Col K} (h : Image n e m u u')
    (h' : Image n e m v v') : Image n e m (fun i => (u i).add (v i)) fun i => (u' i).add (v' i) := by
  intro i hi
  simp only [add_eq]
  rw [h i hi, h' i hi, map_add]

theorem advance_image {C : Consts K} {n : ℕ} {ty : BCType} {rs : Solver} {space : ℕ} {e : ℕ → ℕ}
    {m : Col K →ₗ[K] Col K} (hR : ImageRhs C n ty rs space e m) (time : ℕ) (dt : K) (u u' k1 k1' v : ℕ → Col K)
    (hu : Image n e m u u') (hk : Image n e m k1 k1') (h : advance (rhs C n ty rs space) time dt u k1 = .ok v) :
    ∃ v', advance (rhs C n ty rs space) time dt u' k1' = .ok v' ∧ Image n e m v v' := by
  unfold advance at h ⊢
  split at h
  · cases h
    exact ⟨_, rfl, hu.combine hk _⟩
  · obtain ⟨r2, g2, h⟩ := bind_ok h
    obtain ⟨s2, q2, i2, -⟩ := hR _ _ _ (hu.combine hk (dt / 2)) g2
    cases h
    simp only [q2]
    exact ⟨_, rfl, hu.combine i2 _⟩
  · obtain ⟨r2, g2, h⟩ := bind_ok h
    obtain ⟨s2, q2, i2, -⟩ := hR _ _ _ (hu.combine hk (dt / 3)) g2
    obtain ⟨r3, g3, h⟩ := bind_ok h
    obtain ⟨s3, q3, i3, -⟩ := hR _ _ _ (hu.combine i2 (2 * dt / 3)) g3
    cases h
    simp only [q2, bind, Except.bind, q3]
    exact ⟨_, rfl, hu.combine (hk.combine i3 3) _⟩
  · obtain ⟨r2, g2, h⟩ := bind_ok h
    obtain ⟨s2, q2, i2, -⟩ := hR _ _ _ (hu.combine hk (dt / 2)) g2
    obtain ⟨r3, g3, h⟩ := bind_ok h
    obtain ⟨s3, q3, i3, -⟩ := hR _ _ _ (hu.combine i2 (dt / 2)) g3
    obtain ⟨r4, g4, h⟩ := bind_ok h
    obtain ⟨s4, q4, i4, -⟩ := hR _ _ _ (hu.combine i3 dt) g4
    cases h
    simp only [q2, bind, Except.bind, q3, q4]
    exact ⟨_, rfl, hu.combine (((hk.combine i2 2).combine i3 2).plus i4) _⟩
  · cases h

theorem step_image {C : Consts K} {n : ℕ} {ty : BCType} {rs : Solver} {space : ℕ} {e : ℕ → ℕ}
    {m : Col K →ₗ[K] Col K} (hR : ImageRhs C n ty rs space e m) (cfl : K) (time : ℕ) (u u' : ℕ → Col K)
    (s : K × (ℕ → Col K)) (hu : Image n e m u u') (h : step C n cfl ty rs time space u = .ok s) :
    ∃ s', step C n cfl ty rs time space u' = .ok s' ∧ s'.1 = s.1 ∧ Image n e m s.2 s'.2 := by
  obtain ⟨r, h1, h2, h3⟩ := step_ok h
  obtain ⟨r', q1, q2, q3⟩ := hR u u' r hu h1
  obtain ⟨v', q4, q5⟩ := advance_image hR time s.1 u u' r.1 r'.1 s.2 hu q2 h3
  refine ⟨(s.1, v'), ?_, rfl, q5⟩
  unfold step
  rw [q1]
  simp only [bind, Except.bind]
  rw [q3, ← h2, q4]
  rfl

/-- The runs of related data take the same times and stay related. -/
theorem loop_image {C : Consts K} {n : ℕ} {ty : BCType} {rs : Solver} {space : ℕ} {e : ℕ → ℕ}
    {m : Col K →ₗ[K] Col K} (hR : ImageRhs C n ty rs space e m) (cfl tend : K) (time : ℕ) (fuel : ℕ) :
    ∀ (t : K) (u u' : ℕ → Col K) (l : List (K × (ℕ → Col K))), Image n e m u u' →
      loop C n cfl tend ty rs time space fuel t u = .ok l →
      ∃ l', loop C n cfl tend ty rs time space fuel t u' = .ok l' ∧
        List.Forall₂ (fun a b => b.1 = a.1 ∧ Image n e m a.2 b.2) l l' := by
  induction fuel with
  | zero =>
    intro t u u' l _ h
    cases h
    exact ⟨[], rfl, .nil⟩
  | succ fuel ih =>
    intro t u u' l hu h
    rw [loop] at h ⊢
    split_ifs at h ⊢
    · obtain ⟨s, g1, h⟩ := bind_ok h
      obtain ⟨rest, g2, h⟩ := bind_ok h
      cases h
      obtain ⟨s', q1, q2, q3⟩ := step_image hR cfl time u u' s hu g1
      obtain ⟨l', q4, q5⟩ := ih (t + s.1) s.2 s'.2 rest q3 g2
      refine ⟨(t + s'.1, s'.2) :: l', ?_, .cons ⟨by rw [q2], q3⟩ q5⟩
      rw [q1]
      simp only [bind, Except.bind]
      rw [q2, q4]
      rfl
    · cases h
      exact ⟨[], rfl, .nil⟩

end FVHOE.Romain
