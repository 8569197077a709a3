import Verif.Props.C55
import Verif.Props.C68
import Verif.Proofs.RomainTurn

/-!
C112: the reference one-dimensional solver has no preferred cell and no preferred direction.
-/

set_option linter.unusedSectionVars false

namespace FVHOE

open Romain

variable {K : Type} [Field K] [LinearOrder K] [IsStrictOrderedRing K]

/-! ### Periodic ends -/

theorem primAll_image (C : Consts K) (n : ℕ) (hn : 4 ≤ n) (u u' : ℕ → Col K) (m : Col K →ₗ[K] Col K) (e : ℕ → ℕ) (g : ℤ → ℤ)
    (hm : ∀ a, consToPrim C.gamma (m a) = m (consToPrim C.gamma a)) (hu : Image n e m u u')
    (he : ∀ j : ℤ, ((g j - 4) % n).toNat = e ((j - 4) % n).toNat) (j : ℤ) :
    primAll C n u' j = m (primAll C n u (g j)) := by
  unfold primAll
  have h1 := Int.emod_nonneg (j - 4) (show (n : ℤ) ≠ 0 by omega)
  have h2 := Int.emod_lt_of_pos (j - 4) (show (0 : ℤ) < n by omega)
  rw [hu _ (by omega), hm, he]

theorem markerAll_shift (W : ℤ → K) (s j : ℤ) : markerAll (fun j => W (j + s)) j = markerAll W (j + s) := by
  unfold markerAll
  beta_reduce
  rw [show j - 2 + s = j + s - 2 by ring, show j + 1 + s = j + s + 1 by ring, show j - 1 + s = j + s - 1 by ring,
    show j + 2 + s = j + s + 2 by ring]

theorem markerAll_mirror (W : ℤ → K) (d j : ℤ) (s : K) (hs : s = 1 ∨ s = -1) :
    markerAll (fun j => s * W (d - j)) j = markerAll W (d - j) := by
  unfold markerAll
  beta_reduce
  rw [show d - (j - 2) = d - j + 2 by ring, show d - (j + 1) = d - j - 1 by ring, show d - (j - 1) = d - j + 1 by ring,
    show d - (j + 2) = d - j - 2 by ring]
  rcases hs with rfl | rfl
  · rw [← marker_swap]
    congr 1 <;> ring
  · rw [← marker_swap, ← marker_neg]
    congr 1 <;> ring

theorem markersAll_shift (W W' : ℤ → Col K) (s : ℤ) (h : ∀ j, W' j = W (j + s)) (j : ℤ) :
    markersAll W' j = markersAll W (j + s) := by
  obtain rfl : W' = fun j => W (j + s) := funext h
  unfold markersAll
  congr 1
  funext k
  rw [← markerAll_shift]
  congr 1
  funext j
  rw [rowsOf_apply, rowsOf_apply]

theorem markersAll_mirror (W W' : ℤ → Col K) (d : ℤ) (h : ∀ j, W' j = mirrorCol (W (d - j))) (j : ℤ) :
    markersAll W' j = markersAll W (d - j) := by
  unfold markersAll
  congr 1
  funext k
  rw [← markerAll_mirror _ d j (rowSign k) (rowSign_or k)]
  congr 1
  funext j
  rw [rowsOf_apply, rowsOf_apply, h, row_mirror]

theorem slopeAll_shift (C : Consts K) (f : Col K → Col K → Col K) (n space : ℕ) (W W' : ℤ → Col K) (s : ℤ)
    (h : ∀ j, W' j = W (j + s)) (i : ℤ) : slopeAll C f n space W' i = slopeAll C f n space W (i + s) := by
  have ht : ∀ i, traceCols C.tiny space W' (markersAll W') i = traceCols C.tiny space W (markersAll W) (i + s) := fun i =>
    traceCols_congr _ _ _ _ _ _ _ _ (fun k _ _ => by rw [h]; congr 1; ring)
      fun k _ _ => by rw [markersAll_shift W W' s h]; congr 1; ring
  have hF : ∀ k, fluxAll C f space W' k = fluxAll C f space W (k + s) := fun k => by
    unfold fluxAll
    rw [ht, ht, show k + 3 + s = k + s + 3 by ring, show k + 4 + s = k + s + 4 by ring]
  unfold slopeAll
  rw [hF, hF, show i + 1 + s = i + s + 1 by ring]

/-- A flux that treats both directions alike. -/
def MirrorFlux (f : Col K → Col K → Col K) (a b : Col K) : Prop := f (mirrorCol b) (mirrorCol a) = -mirrorCol (f a b)

theorem slopeAll_mirror (C : Consts K) (f : Col K → Col K → Col K) (n space : ℕ) (W W' : ℤ → Col K) (d : ℤ)
    (h : ∀ j, W' j = mirrorCol (W (d - j)))
    (hf : ∀ k, MirrorFlux f (traceCols C.tiny space W (markersAll W) (k + 3)).1
      (traceCols C.tiny space W (markersAll W) (k + 4)).2) (i : ℤ) :
    slopeAll C f n space W' i = mirrorCol (slopeAll C f n space W (d - 8 - i)) := by
  have ht := fun i => traceCols_mirror C.tiny space W W' (markersAll W) (markersAll W') (d - i) i
    (fun k _ _ => by rw [h]; congr 2; ring) fun k _ _ => by rw [markersAll_mirror W W' d h]; congr 1; ring
  have hF : ∀ k, fluxAll C f space W' k = -mirrorCol (fluxAll C f space W (d - 7 - k)) := fun k => by
    unfold fluxAll
    rw [(ht _).1, (ht _).2, show d - (k + 3) = d - 7 - k + 4 by ring, show d - (k + 4) = d - 7 - k + 3 by ring]
    exact hf _
  unfold slopeAll
  rw [hF, hF, map_smul, map_sub, show d - 8 - i + 1 = d - 7 - i by ring, show d - 7 - (i + 1) = d - 8 - i by ring]
  congr 1
  abel

theorem slopeAll_period (C : Consts K) (f : Col K → Col K → Col K) (n space : ℕ) (u : ℕ → Col K) (i : ℤ) :
    slopeAll C f n space (primAll C n u) (i % n) = slopeAll C f n space (primAll C n u) i := by
  have e := slopeAll_shift C f n space (primAll C n u) (primAll C n u) (n * (-(i / n)))
    (fun j => (primAll_period C n u j _).symm) i
  rw [e]
  congr 1
  have := Int.emod_add_mul_ediv i n
  linarith

/-- The largest speed of related periodic data. -/
theorem maxSpeed_image (C : Consts K) {n : ℕ} (hn : 4 ≤ n) (u u' : ℕ → Col K) (w w' : ℤ → Col K) (g g' : ℤ → ℤ)
    (hw : ∀ j : ℤ, 0 ≤ j → j < n + 8 → w j = primAll C n u j)
    (hw' : ∀ j : ℤ, 0 ≤ j → j < n + 8 → w' j = primAll C n u' j)
    (h : ∀ j, primAll C n u' j = primAll C n u (g j) ∨ primAll C n u' j = mirrorCol (primAll C n u (g j)))
    (h' : ∀ j, primAll C n u j = primAll C n u' (g' j) ∨ primAll C n u j = mirrorCol (primAll C n u' (g' j))) :
    maxSpeed C n w' = maxSpeed C n w := by
  have key : ∀ (v : ℕ → Col K) (x : ℤ → Col K) (hx : ∀ j : ℤ, 0 ≤ j → j < n + 8 → x j = primAll C n v j) (j : ℤ),
      ∃ j' : ℕ, j' < n + 8 ∧ primAll C n v j = x j' := by
    intro v x hx j
    have h1 := Int.emod_nonneg j (show (n : ℤ) ≠ 0 by omega)
    have h2 := Int.emod_lt_of_pos j (show (0 : ℤ) < n by omega)
    refine ⟨(j % n).toNat, by omega, ?_⟩
    rw [Int.toNat_of_nonneg h1, hx _ h1 (by omega)]
    conv_lhs => rw [← Int.emod_add_mul_ediv j n]
    rw [primAll_period]
  refine maxSpeed_congr C n w w' (fun j hj => ?_) fun j hj => ?_
  · rw [hw' j (by omega) (by omega)]
    obtain ⟨j', e1, e2⟩ := key u w hw (g j)
    exact ⟨j', e1, by rw [← e2]; exact h j⟩
  · rw [hw j (by omega) (by omega)]
    obtain ⟨j', e1, e2⟩ := key u' w' hw' (g' j)
    exact ⟨j', e1, by rw [← e2]; exact h' j⟩

theorem shift_rhs (C : Consts K) {n : ℕ} (hn : 4 ≤ n) (rs : Solver) (space s : ℕ) :
    ImageRhs C n .periodic rs space (fun i => (i + s) % n) LinearMap.id := by
  intro u u' r hu h
  obtain ⟨r', h'⟩ := rhs_defined h u'
  obtain ⟨f, f1, f2, f3⟩ := rhs_periodic hn h
  obtain ⟨f', f1', f2', f3'⟩ := rhs_periodic hn h'
  obtain rfl : f' = f := by rw [f1] at f1'; exact (Except.ok.inj f1').symm
  have hW : ∀ j, primAll C n u' j = primAll C n u (j + s) := fun j =>
    primAll_image C n hn u u' LinearMap.id _ (fun j => j + s) (fun _ => rfl) hu (fun j => by
      have h1 := Int.emod_nonneg (j - 4) (show (n : ℤ) ≠ 0 by omega)
      apply Int.ofNat_inj.1
      push_cast
      rw [Int.toNat_of_nonneg (Int.emod_nonneg _ (by omega)), Int.toNat_of_nonneg h1, Int.emod_add_emod]
      congr 1
      ring) j
  refine ⟨r', h', fun i hi => ?_, ?_⟩
  · rw [f3' i hi, slopeAll_shift C f' n space _ _ s hW, LinearMap.id_apply, f3 _ (Nat.mod_lt _ (by omega)),
      ← slopeAll_period]
    push_cast
    rfl
  · exact maxSpeed_image C hn u u' r.2 r'.2 (fun j => j + s) (fun j => j - s) f2 f2' (fun j => .inl (hW j))
      fun j => .inl (by rw [hW, sub_add_cancel])

/-- **C112** (shift) With periodic ends and at least four cells the run of data shifted by any number of cells is the
shifted run, at the same times, for every solver, order in space and time and limiter. -/
theorem C112_shift (C : Consts K) (n : ℕ) (hn : 4 ≤ n) (cfl tend : K) (rs : Solver) (time space fuel s : ℕ) (t : K)
    (u u' : ℕ → Col K) (hu : ∀ i, i < n → u' i = u ((i + s) % n)) (l : List (K × (ℕ → Col K)))
    (h : loop C n cfl tend .periodic rs time space fuel t u = .ok l) :
    ∃ l', loop C n cfl tend .periodic rs time space fuel t u' = .ok l' ∧
      List.Forall₂ (fun a b => b.1 = a.1 ∧ ∀ i, i < n → b.2 i = a.2 ((i + s) % n)) l l' :=
  loop_image (shift_rhs C hn rs space s) cfl tend time fuel t u u' l hu h

/-- The reflection of the cells of a periodic array that exchanges cells `i` and `c - i`. -/
theorem mirror_rhs (C : Consts K) {n : ℕ} (hn : 4 ≤ n) (rs : Solver) (space c : ℕ) (u u' : ℕ → Col K)
    (r : (ℕ → Col K) × (ℤ → Col K)) (hu : Image n (fun i => (c + (n - i)) % n) mirrorCol u u')
    (h : rhs C n .periodic rs space u = .ok r)
    (hf : ∀ f, solve C rs = .ok f → ∀ k : ℤ, 0 ≤ k → k ≤ n → MirrorFlux f
      (traceCols C.tiny space r.2 (markers n .periodic r.2) (k + 3)).1
      (traceCols C.tiny space r.2 (markers n .periodic r.2) (k + 4)).2) :
    ∃ r', rhs C n .periodic rs space u' = .ok r' ∧ Image n (fun i => (c + (n - i)) % n) mirrorCol r.1 r'.1 ∧
      maxSpeed C n r'.2 = maxSpeed C n r.2 := by
  obtain ⟨r', h'⟩ := rhs_defined h u'
  obtain ⟨f, f1, f2, f3⟩ := rhs_periodic hn h
  obtain ⟨f', f1', f2', f3'⟩ := rhs_periodic hn h'
  obtain rfl : f' = f := by rw [f1] at f1'; exact (Except.ok.inj f1').symm
  have hcell : ∀ x : ℤ, 0 ≤ x → x < n → (((c + (n - x.toNat)) % n : ℕ) : ℤ) = (c - x) % n := by
    intro x h1 h2
    push_cast
    rw [Nat.cast_sub (by omega), Int.toNat_of_nonneg h1, show (c : ℤ) + (n - x) = c - x + n * 1 by ring,
      Int.add_mul_emod_self_left]
  have hW : ∀ j, primAll C n u' j = mirrorCol (primAll C n u (c + 8 - j)) := fun j =>
    primAll_image C n hn u u' mirrorCol _ (fun j => c + 8 - j) (consToPrim_mirror C.gamma) hu (fun j => by
      have h1 := Int.emod_nonneg (j - 4) (show (n : ℤ) ≠ 0 by omega)
      have h2 := Int.emod_lt_of_pos (j - 4) (show (0 : ℤ) < n by omega)
      apply Int.ofNat_inj.1
      rw [hcell _ h1 h2, Int.toNat_of_nonneg (Int.emod_nonneg _ (by omega)), Int.sub_emod_emod]
      congr 1
      ring) j
  have hm : ∀ j : ℤ, 0 ≤ j → j < n + 8 → markers n .periodic r.2 j = markersAll (primAll C n u) j :=
    fun j => markers_periodic hn _ _ (primAll_period C n u) f2 j
  have ht : ∀ i : ℤ, 2 ≤ i → i ≤ n + 5 → traceCols C.tiny space r.2 (markers n .periodic r.2) i =
      traceCols C.tiny space (primAll C n u) (markersAll (primAll C n u)) i := fun i h0 h1 =>
    traceCols_congr _ _ _ _ _ _ _ _ (fun k h2' h3 => f2 _ (by omega) (by omega)) fun k h2' h3 => hm _ (by omega) (by omega)
  have hp : ∀ i q : ℤ, traceCols C.tiny space (primAll C n u) (markersAll (primAll C n u)) (i + n * q) =
      traceCols C.tiny space (primAll C n u) (markersAll (primAll C n u)) i := fun i q =>
    traceCols_congr _ _ _ _ _ _ _ _
      (fun k _ _ => by rw [show i + n * q + k = i + k + n * q by ring, primAll_period])
      fun k _ _ => by
        rw [show i + n * q + k = i + k + n * q by ring]
        exact (markersAll_shift _ _ (n * q) (fun j => (primAll_period C n u j q).symm) _).symm
  have hf' : ∀ k, MirrorFlux f' (traceCols C.tiny space (primAll C n u) (markersAll (primAll C n u)) (k + 3)).1
      (traceCols C.tiny space (primAll C n u) (markersAll (primAll C n u)) (k + 4)).2 := by
    intro k
    have h1 := Int.emod_nonneg k (show (n : ℤ) ≠ 0 by omega)
    have h2 := Int.emod_lt_of_pos k (show (0 : ℤ) < n by omega)
    have e := Int.emod_add_mul_ediv k n
    have := hf f' f1 (k % n) h1 h2.le
    rw [ht _ (by omega) (by omega), ht _ (by omega) (by omega), ← hp (k % n + 3) (k / n), ← hp (k % n + 4) (k / n),
      show k % n + 3 + n * (k / n) = k + 3 by linarith, show k % n + 4 + n * (k / n) = k + 4 by linarith] at this
    exact this
  refine ⟨r', h', fun i hi => ?_, ?_⟩
  · rw [f3' i hi, slopeAll_mirror C f' n space _ _ (c + 8) hW hf', f3 _ (Nat.mod_lt _ (by omega)),
      show (c : ℤ) + 8 - 8 - i = c - i by ring, ← slopeAll_period C f' n space u (c - i)]
    have := hcell i (by omega) (by omega)
    rw [Int.toNat_natCast] at this
    rw [this]
  · exact maxSpeed_image C hn u u' r.2 r'.2 (fun j => c + 8 - j) (fun j => c + 8 - j) f2 f2' (fun j => .inr (hW j))
      fun j => .inr (by rw [hW, sub_sub_cancel, mirrorCol_mirror])

/-! ### Ends that are not periodic -/

theorem setBC_mirror {V : Type} {n : ℕ} (hn : 1 ≤ n) (ty : BCType) (hty : ty ≠ .periodic) (u : ℤ → V) (φ : V → V) (j : ℤ) :
    setBC n ty (fun j => φ (u (n + 7 - j))) j = φ (setBC n ty u (n + 7 - j)) := by
  cases ty with
  | periodic => exact absurd rfl hty
  | unknown => rfl
  | free =>
    rw [setBC_free hn, setBC_free hn]
    by_cases h0 : 0 ≤ j ∧ j < 4
    · rw [if_pos h0, if_neg (by omega), if_pos (by omega), show (n : ℤ) + 7 - 4 = n + 3 by ring]
    · rw [if_neg h0]
      by_cases h1 : n + 4 ≤ j ∧ j < n + 8
      · rw [if_pos h1, if_pos (by omega), show (n : ℤ) + 7 - (n + 3) = 4 by ring]
      · rw [if_neg h1, if_neg (by omega), if_neg (by omega)]

theorem padOne_mirror (n : ℕ) (x : ℤ → K) (s : K) (j : ℤ) :
    padOne n (fun j => s * x (n + 7 - j)) j = s * padOne n x (n + 7 - j) := by
  unfold padOne
  by_cases h : 1 ≤ j ∧ j ≤ n + 6
  · rw [if_pos h, if_pos (by omega)]
  · rw [if_neg h, if_neg (by omega), mul_zero]

theorem smooth_mirror {n : ℕ} (hn : 1 ≤ n) (ty : BCType) (hty : ty ≠ .periodic) (u : ℤ → K) (s : K) (hs : s = 1 ∨ s = -1)
    (j : ℤ) : Romain.smoothExtrema n ty (fun j => s * u (n + 7 - j)) j = Romain.smoothExtrema n ty u (n + 7 - j) := by
  have e1 : setBC n ty (padOne n fun j => (1 / 2) * (s * u (n + 7 - (j + 1)) - s * u (n + 7 - (j - 1)))) =
      fun j => -s * setBC n ty (padOne n fun j => (1 / 2) * (u (j + 1) - u (j - 1))) (n + 7 - j) := by
    funext j
    rw [← setBC_mirror hn ty hty _ fun x => -s * x]
    congr 1
    funext j
    rw [← padOne_mirror]
    congr 1
    funext j
    rw [show (n : ℤ) + 7 - j + 1 = n + 7 - (j - 1) by ring, show (n : ℤ) + 7 - j - 1 = n + 7 - (j + 1) by ring]
    ring
  unfold Romain.smoothExtrema
  rw [e1]
  have e2 := setBC_mirror hn ty hty (padOne n fun j => marker
    (setBC n ty (padOne n fun j => (1 / 2) * (u (j + 1) - u (j - 1))) (j - 1))
    (setBC n ty (padOne n fun j => (1 / 2) * (u (j + 1) - u (j - 1))) j)
    (setBC n ty (padOne n fun j => (1 / 2) * (u (j + 1) - u (j - 1))) (j + 1))) (fun x => x) j
  rw [← e2]
  congr 1
  funext j
  have e3 := padOne_mirror n (fun j => marker
    (setBC n ty (padOne n fun j => (1 / 2) * (u (j + 1) - u (j - 1))) (j - 1))
    (setBC n ty (padOne n fun j => (1 / 2) * (u (j + 1) - u (j - 1))) j)
    (setBC n ty (padOne n fun j => (1 / 2) * (u (j + 1) - u (j - 1))) (j + 1))) 1 j
  rw [one_mul] at e3
  rw [← e3]
  congr 1
  funext j
  rw [one_mul]
  beta_reduce
  rw [show (n : ℤ) + 7 - (j - 1) = n + 7 - j + 1 by ring, show (n : ℤ) + 7 - (j + 1) = n + 7 - j - 1 by ring]
  generalize setBC n ty (padOne n fun j => (1 / 2) * (u (j + 1) - u (j - 1))) (n + 7 - j - 1) = a
  generalize setBC n ty (padOne n fun j => (1 / 2) * (u (j + 1) - u (j - 1))) (n + 7 - j) = b
  generalize setBC n ty (padOne n fun j => (1 / 2) * (u (j + 1) - u (j - 1))) (n + 7 - j + 1) = c
  rcases hs with rfl | rfl
  · rw [neg_one_mul, neg_one_mul, neg_one_mul, marker_swap]
  · rw [neg_neg, one_mul, one_mul, one_mul, ← marker_swap, marker_neg]

theorem open_rhs (C : Consts K) {n : ℕ} (hn : 1 ≤ n) (ty : BCType) (hty : ty ≠ .periodic) (rs : Solver) (space : ℕ)
    (u u' : ℕ → Col K) (r : (ℕ → Col K) × (ℤ → Col K)) (hu : Image n (fun i => n - 1 - i) mirrorCol u u')
    (h : rhs C n ty rs space u = .ok r)
    (hf : ∀ f, solve C rs = .ok f → ∀ k : ℤ, 0 ≤ k → k ≤ n → MirrorFlux f
      (traceCols C.tiny space r.2 (markers n ty r.2) (k + 3)).1 (traceCols C.tiny space r.2 (markers n ty r.2) (k + 4)).2) :
    ∃ r', rhs C n ty rs space u' = .ok r' ∧ Image n (fun i => n - 1 - i) mirrorCol r.1 r'.1 ∧
      maxSpeed C n r'.2 = maxSpeed C n r.2 := by
  obtain ⟨r', h'⟩ := rhs_defined h u'
  obtain ⟨f, f1, -, f2, f3⟩ := rhs_ok h
  obtain ⟨f', f1', -, f2', f3'⟩ := rhs_ok h'
  obtain rfl : f' = f := by rw [f1] at f1'; exact (Except.ok.inj f1').symm
  have he : embed n u' = fun j => mirrorCol (embed n u (n + 7 - j)) := by
    funext j
    unfold embed
    by_cases hj : 4 ≤ j ∧ j < n + 4
    · rw [if_pos hj, if_pos (by omega), hu _ (by omega)]
      congr 2
      show n - 1 - (j - 4).toNat = _
      omega
    · rw [if_neg hj, if_neg (by omega)]
      simp [mirrorCol_apply]
  have hW : ∀ j, r'.2 j = mirrorCol (r.2 (n + 7 - j)) := by
    intro j
    rw [f2, f2']
    unfold primCols
    rw [he, setBC_mirror hn ty hty, consToPrim_mirror]
  have hm : ∀ j, markers n ty r'.2 j = markers n ty r.2 (n + 7 - j) := by
    intro j
    have e : ∀ k, rowsOf r'.2 k = fun j => rowSign k * rowsOf r.2 k (n + 7 - j) := fun k => by
      funext j
      rw [rowsOf_apply, rowsOf_apply, hW, row_mirror]
    refine congrArg colOf (funext fun k => ?_)
    rw [e]
    exact smooth_mirror hn ty hty (rowsOf r.2 k) _ (rowSign_or k) j
  have ht := fun i => traceCols_mirror C.tiny space r.2 r'.2 (markers n ty r.2) (markers n ty r'.2) (n + 7 - i) i
    (fun k _ _ => by rw [hW]; congr 2; ring_nf) fun k _ _ => by rw [hm]; congr 1; ring
  refine ⟨r', h', fun i hi => ?_, ?_⟩
  · rw [f3, f3', slopeOf_eq, slopeOf_eq]
    have hF : ∀ k : ℤ, 0 ≤ k → k ≤ n → f' (traceCols C.tiny space r'.2 (markers n ty r'.2) (k + 3)).1
        (traceCols C.tiny space r'.2 (markers n ty r'.2) (k + 4)).2 =
        -mirrorCol (f' (traceCols C.tiny space r.2 (markers n ty r.2) (n - k + 3)).1
          (traceCols C.tiny space r.2 (markers n ty r.2) (n - k + 4)).2) := by
      intro k h0 h1
      rw [(ht _).1, (ht _).2, show (n : ℤ) + 7 - (k + 3) = n - k + 4 by ring,
        show (n : ℤ) + 7 - (k + 4) = n - k + 3 by ring]
      exact hf f' f1 _ (by omega) (by omega)
    rw [hF _ (by omega) (by omega), hF _ (by omega) (by omega), map_smul, map_sub,
      show (n : ℤ) - (i + 1) = ((n - 1 - i : ℕ) : ℤ) by omega, show (n : ℤ) - i = ((n - 1 - i : ℕ) : ℤ) + 1 by omega]
    congr 1
    abel
  · have key : ∀ j : ℕ, j < n + 8 → ((n + 7 - j : ℕ) : ℤ) = n + 7 - j := fun j hj => by omega
    exact maxSpeed_congr C n r.2 r'.2 (fun j hj => ⟨n + 7 - j, by omega, .inr (by rw [key j hj]; exact hW j)⟩)
      fun j hj => ⟨n + 7 - j, by omega, .inr (by rw [key j hj, hW, sub_sub_cancel, mirrorCol_mirror])⟩

/-! ### The fluxes -/

theorem llf_mirror (g : K) (sqrt : K → K) (a b : Col K) : MirrorFlux (Romain.llf g sqrt) a b := by
  unfold MirrorFlux
  refine col_ext fun k => ?_
  rw [map_neg, row_mirror]
  have hs : max (|-b.r1| + sqrt (g * b.r2 / b.r0)) (|-a.r1| + sqrt (g * a.r2 / a.r0)) =
      max (|a.r1| + sqrt (g * a.r2 / a.r0)) (|b.r1| + sqrt (g * b.r2 / b.r0)) := by
    rw [abs_neg, abs_neg, max_comm]
  fin_cases k
  · show (Romain.llf g sqrt (mirrorCol b) (mirrorCol a)).r0 = -(1 * (Romain.llf g sqrt a b).r0)
    simp only [Romain.llf, primToCons, primToFlux, mirrorCol_apply, hs]
    ring
  · show (Romain.llf g sqrt (mirrorCol b) (mirrorCol a)).r1 = -(-1 * (Romain.llf g sqrt a b).r1)
    simp only [Romain.llf, primToCons, primToFlux, mirrorCol_apply, hs]
    ring
  · show (Romain.llf g sqrt (mirrorCol b) (mirrorCol a)).r2 = -(1 * (Romain.llf g sqrt a b).r2)
    simp only [Romain.llf, primToCons, primToFlux, mirrorCol_apply, hs]
    ring

theorem along_mirror (d : Fin 3) (a : Col K) : (along d (mirrorCol a) : State K 0) = mirrorState d (along d a) := by
  funext v
  cases v with
  | mom e =>
    simp only [along, mirrorState, mirrorCol_apply]
    split <;> simp
  | _ => rfl

theorem hllc_mirror (g : K) (hg : 1 < g) (sqrt : K → K) (hq : IsSqrt sqrt) (a b : Col K) (ha : 0 < a.r0 ∧ 0 < a.r2)
    (hb : 0 < b.r0 ∧ 0 < b.r2) : MirrorFlux (Romain.hllc g sqrt) a b := by
  have hg0 : 0 < g := one_pos.trans hg
  have pa : 0 < g * a.r2 / a.r0 := div_pos (mul_pos hg0 ha.2) ha.1
  have pb : 0 < g * b.r2 / b.r0 := div_pos (mul_pos hg0 hb.2) hb.1
  obtain ⟨ε, h0, h1, h2⟩ : ∃ ε, 0 < ε ∧ ε < g * a.r2 / a.r0 ∧ ε < g * b.r2 / b.r0 :=
    ⟨min (g * a.r2 / a.r0) (g * b.r2 / b.r0) / 2, by positivity,
      lt_of_lt_of_le (half_lt_self (lt_min pa pb)) (min_le_left _ _),
      lt_of_lt_of_le (half_lt_self (lt_min pa pb)) (min_le_right _ _)⟩
  have key := C16_hllc (np := 0) ⟨g, ε, sqrt⟩ ⟨hq, h0, hg⟩ 0 (along 0 a) (along 0 b) ⟨ha.1, ha.2.le⟩ ⟨hb.1, hb.2.le⟩
  have e1 := C55_hllc (np := 0) ⟨g, ε, sqrt⟩ 0 a b h1 h2
  have e2 := C55_hllc (np := 0) ⟨g, ε, sqrt⟩ 0 (mirrorCol b) (mirrorCol a) h2 h1
  simp only [riemann] at e1 e2
  rw [← along_mirror, ← along_mirror, e1, e2] at key
  unfold MirrorFlux
  have v0 := congrFun key .rho
  have v1 := congrFun key (.mom 0)
  have v2 := congrFun key .en
  simp only [along, mirrorState, if_true] at v0 v1 v2
  refine col_ext fun k => ?_
  rw [map_neg, row_mirror]
  fin_cases k
  · show _ = -(1 * (Romain.hllc g sqrt a b).r0)
    rw [one_mul]; exact v0
  · show _ = -(-1 * (Romain.hllc g sqrt a b).r1)
    rw [neg_one_mul]; exact v1
  · show _ = -(1 * (Romain.hllc g sqrt a b).r2)
    rw [one_mul]; exact v2

/-! ### Mirror images -/

theorem last_cell (n i : ℕ) (hi : i < n) : (n - 1 + (n - i)) % n = n - 1 - i := by
  rw [show n - 1 + (n - i) = n - 1 - i + n by omega, Nat.add_mod_right, Nat.mod_eq_of_lt (by omega)]

theorem image_last {n : ℕ} {m : Col K →ₗ[K] Col K} {u u' : ℕ → Col K} :
    Image n (fun i => (n - 1 + (n - i)) % n) m u u' ↔ Image n (fun i => n - 1 - i) m u u' := by
  unfold Image
  exact forall₂_congr fun i hi => by beta_reduce; rw [last_cell n i hi]

theorem turn_rhs_any (C : Consts K) {n : ℕ} (hn : 1 ≤ n) (ty : BCType) (hty : ty = .periodic → 4 ≤ n) (rs : Solver)
    (space : ℕ) (u u' : ℕ → Col K) (r : (ℕ → Col K) × (ℤ → Col K)) (hu : Image n (fun i => n - 1 - i) mirrorCol u u')
    (h : rhs C n ty rs space u = .ok r)
    (hf : ∀ f, solve C rs = .ok f → ∀ k : ℤ, 0 ≤ k → k ≤ n → MirrorFlux f
      (traceCols C.tiny space r.2 (markers n ty r.2) (k + 3)).1 (traceCols C.tiny space r.2 (markers n ty r.2) (k + 4)).2) :
    ∃ r', rhs C n ty rs space u' = .ok r' ∧ Image n (fun i => n - 1 - i) mirrorCol r.1 r'.1 ∧
      maxSpeed C n r'.2 = maxSpeed C n r.2 := by
  by_cases hp : ty = .periodic
  · subst hp
    obtain ⟨r', q1, q2, q3⟩ := mirror_rhs C (hty rfl) rs space (n - 1) u u' r (image_last.2 hu) h hf
    exact ⟨r', q1, image_last.1 q2, q3⟩
  · exact open_rhs C hn ty hp rs space u u' r hu h hf

theorem solve_llf (C : Consts K) (f : Col K → Col K → Col K) (h : solve C .llf = .ok f) (a b : Col K) : MirrorFlux f a b := by
  cases h
  exact llf_mirror _ _ a b

/-- **C112** (mirror, llf) The run of mirrored data is the mirrored run, at the same times: cell `i` holds what cell
`n - 1 - i` held, with the opposite velocity. For periodic ends at least four cells are needed, otherwise one. -/
theorem C112_mirror (C : Consts K) (n : ℕ) (hn : 1 ≤ n) (ty : BCType) (hty : ty = .periodic → 4 ≤ n) (cfl tend : K)
    (time space fuel : ℕ) (t : K) (u u' : ℕ → Col K)
    (hu : ∀ i, i < n → u' i = ⟨(u (n - 1 - i)).r0, -(u (n - 1 - i)).r1, (u (n - 1 - i)).r2⟩)
    (l : List (K × (ℕ → Col K))) (h : loop C n cfl tend ty .llf time space fuel t u = .ok l) :
    ∃ l', loop C n cfl tend ty .llf time space fuel t u' = .ok l' ∧
      List.Forall₂ (fun a b => b.1 = a.1 ∧ ∀ i, i < n →
        b.2 i = ⟨(a.2 (n - 1 - i)).r0, -(a.2 (n - 1 - i)).r1, (a.2 (n - 1 - i)).r2⟩) l l' :=
  loop_image (e := fun i => n - 1 - i) (m := mirrorCol) (fun u u' r hu h =>
    turn_rhs_any C hn ty hty .llf space u u' r hu h fun f hf _ _ _ => solve_llf C f hf _ _) cfl tend time fuel t u u' l hu h

/-- **C112** (mirror, hllc) The same for one evaluation with hllc, when the states at the faces have positive density and
pressure: the derivatives of mirrored data are the mirrored derivatives, with the same largest speed. -/
theorem C112_mirror_hllc (C : Consts K) (hg : 1 < C.gamma) (hq : IsSqrt C.sqrt) (n : ℕ) (hn : 1 ≤ n) (ty : BCType)
    (hty : ty = .periodic → 4 ≤ n) (space : ℕ) (u u' : ℕ → Col K)
    (hu : ∀ i, i < n → u' i = ⟨(u (n - 1 - i)).r0, -(u (n - 1 - i)).r1, (u (n - 1 - i)).r2⟩)
    (r : (ℕ → Col K) × (ℤ → Col K)) (h : rhs C n ty .hllc space u = .ok r)
    (hfaces : ∀ k : ℤ, 0 ≤ k → k ≤ n → ∀ w,
      w = (traceCols C.tiny space r.2 (markers n ty r.2) (k + 3)).1 ∨
      w = (traceCols C.tiny space r.2 (markers n ty r.2) (k + 4)).2 → 0 < w.r0 ∧ 0 < w.r2) :
    ∃ r', rhs C n ty .hllc space u' = .ok r' ∧
      (∀ i, i < n → r'.1 i = ⟨(r.1 (n - 1 - i)).r0, -(r.1 (n - 1 - i)).r1, (r.1 (n - 1 - i)).r2⟩) ∧
      maxSpeed C n r'.2 = maxSpeed C n r.2 :=
  turn_rhs_any C hn ty hty .hllc space u u' r hu h fun f hf k h0 h1 => by
    cases hf
    exact hllc_mirror _ hg _ hq _ _ (hfaces k h0 h1 _ (.inl rfl)) (hfaces k h0 h1 _ (.inr rfl))

/-! ### The Sedov start -/

theorem sedov_start (C : Consts K) (n : ℕ) (hn : 3 ≤ n) (x : ℕ → K) : setIc C .sedov n x = .ok fun i =>
    primToCons C.gamma ⟨1, 0, if i = n / 2 ∨ i = n / 2 + 1 then 1 / 2 * n * (C.gamma - 1) else 1 / 100000⟩ := by
  rw [setIc, icPrim, if_neg (by omega)]
  rfl

/-- **C112** (Sedov) The two cells that get the energy, `n // 2` and `n // 2 + 1`, are not the middle of the domain: the start
is not its own mirror image, for any number of cells. -/
theorem C112_sedov_off_centre (C : Consts K) (n : ℕ) (hn : 3 ≤ n) (hg : 1 / 2 * (n : K) * (C.gamma - 1) ≠ 1 / 100000)
    (hg' : C.gamma ≠ 1) (x : ℕ → K) (u : ℕ → Col K) (h : setIc C .sedov n x = .ok u) :
    ¬ ∀ i, i < n → u i = ⟨(u (n - 1 - i)).r0, -(u (n - 1 - i)).r1, (u (n - 1 - i)).r2⟩ := by
  rw [sedov_start C n hn x] at h
  cases h
  intro h
  have e := congrArg Col.r2 (h (n / 2 + 1) (by omega))
  have hg0 : C.gamma - 1 ≠ 0 := sub_ne_zero.2 hg'
  simp only [primToCons, or_true, if_true] at e
  rw [if_neg (by omega)] at e
  apply hg
  have := mul_right_cancel₀ (inv_ne_zero hg0) (show _ * (C.gamma - 1)⁻¹ = _ * (C.gamma - 1)⁻¹ by
    simpa [div_eq_mul_inv] using e)
  simpa [div_eq_mul_inv] using this

theorem forall₂_same {α : Type} {R : α → α → Prop} {l : List α} (h : List.Forall₂ R l l) : ∀ x ∈ l, R x x := by
  induction l with
  | nil => intro x hx; cases hx
  | cons a l ih =>
    cases h with
    | cons h1 h2 =>
      intro x hx
      rcases List.mem_cons.1 hx with rfl | hx
      · exact h1
      · exact ih h2 x hx

theorem sedov_cell (n i : ℕ) (hn : 3 ≤ n) (hi : i < n) : (2 * (n / 2) + 1 + (n - i)) % n =
    if i ≤ 2 * (n / 2) + 1 - n then 2 * (n / 2) + 1 - n - i else 2 * (n / 2) + 1 - i := by
  split_ifs with h
  · rw [show 2 * (n / 2) + 1 + (n - i) = 2 * (n / 2) + 1 - n - i + n * 2 by omega, Nat.add_mul_mod_self_left,
      Nat.mod_eq_of_lt (by omega)]
  · rw [show 2 * (n / 2) + 1 + (n - i) = 2 * (n / 2) + 1 - i + n by omega, Nat.add_mod_right, Nat.mod_eq_of_lt (by omega)]

/-- **C112** (Sedov, periodic) With periodic ends and llf the blast stays symmetric about the face between its two cells:
cell `i` and cell `2 (n // 2) + 1 - i`, modulo `n`, hold the same density and energy and opposite momenta, in every state
returned. -/
theorem C112_sedov_run (C : Consts K) (nitermax n : ℕ) (hn : 4 ≤ n) (tend cfl : K) (time space : ℕ)
    (l : List (K × (ℕ → Col K))) (h : weno C nitermax n tend cfl .sedov .periodic .llf time space = .ok l) :
    ∀ x ∈ l, ∀ i, i < n → x.2 i = ⟨(x.2 ((2 * (n / 2) + 1 + (n - i)) % n)).r0,
      -(x.2 ((2 * (n / 2) + 1 + (n - i)) % n)).r1, (x.2 ((2 * (n / 2) + 1 + (n - i)) % n)).r2⟩ := by
  unfold weno at h
  rw [if_neg (by omega)] at h
  obtain ⟨u, h1, h⟩ := bind_ok h
  obtain ⟨l', h2, h⟩ := bind_ok h
  cases h
  rw [sedov_start C n (by omega)] at h1
  cases h1
  have start : Image n (fun i => (2 * (n / 2) + 1 + (n - i)) % n) mirrorCol
      (fun i => primToCons C.gamma ⟨1, 0, if i = n / 2 ∨ i = n / 2 + 1 then 1 / 2 * n * (C.gamma - 1) else 1 / 100000⟩)
      (fun i => primToCons C.gamma ⟨1, 0, if i = n / 2 ∨ i = n / 2 + 1 then 1 / 2 * n * (C.gamma - 1) else 1 / 100000⟩) := by
    intro i hi
    have e : ((2 * (n / 2) + 1 + (n - i)) % n = n / 2 ∨ (2 * (n / 2) + 1 + (n - i)) % n = n / 2 + 1) ↔
        (i = n / 2 ∨ i = n / 2 + 1) := by
      rw [sedov_cell n i (by omega) hi]
      split_ifs <;> omega
    simp only [e, mirrorCol_apply, primToCons, mul_zero, neg_zero]
  obtain ⟨l'', q1, q2⟩ := loop_image (fun u u' r hu h =>
    mirror_rhs C hn .llf space (2 * (n / 2) + 1) u u' r hu h fun f hf _ _ _ => solve_llf C f hf _ _) cfl tend time nitermax 0
    _ _ l' start h2
  rw [h2] at q1
  cases q1
  intro x hx
  rcases List.mem_cons.1 hx with rfl | hx
  · exact start
  · exact (forall₂_same q2 x hx).2

/-- A blast in 100 cells: the two hot cells move apart symmetrically. -/
example : ∃ l, weno someConsts 100000 100 (1 / 10) (8 / 10) .sedov .periodic .llf 3 4 = .ok l ∧
    ∀ x ∈ l, (x.2 50).r0 = (x.2 51).r0 ∧ (x.2 50).r1 = -(x.2 51).r1 := by
  obtain ⟨l, h⟩ := (C68_accepts someConsts 100000 100 (by norm_num) (by norm_num) (1 / 10) (8 / 10) (by norm_num) .sedov .periodic
    .llf 3 4).2 ⟨.inl rfl, by omega, by omega, fun _ => by omega⟩
  refine ⟨l, h, fun x hx => ?_⟩
  have e := C112_sedov_run someConsts 100000 100 (by norm_num) _ _ 3 4 l h x hx 50 (by norm_num)
  exact ⟨(congrArg Col.r0 e :), (congrArg Col.r1 e :)⟩

/-- The start of that blast is not symmetric about the middle. -/
example (u : ℕ → Col ℚ) (h : setIc someConsts .sedov 100 (fun i => (i : ℚ)) = .ok u) :
    ¬ ∀ i, i < 100 → u i = ⟨(u (100 - 1 - i)).r0, -(u (100 - 1 - i)).r1, (u (100 - 1 - i)).r2⟩ :=
  C112_sedov_off_centre someConsts 100 (by norm_num) (by norm_num [someConsts]) (by norm_num [someConsts]) _ u h

/-- Sod's tube and its mirror image, with free ends: the second run moves to the left. -/
example : ∃ l l', loop someConsts 100 (8 / 10) (1 / 10) .free .llf 3 4 1000 0
      (fun i => if i < 50 then ⟨1, 0, 5 / 2⟩ else ⟨1 / 8, 0, 1 / 4⟩) = .ok l ∧
    loop someConsts 100 (8 / 10) (1 / 10) .free .llf 3 4 1000 0
      (fun i => if i < 50 then ⟨1 / 8, 0, 1 / 4⟩ else ⟨1, 0, 5 / 2⟩) = .ok l' ∧
    List.Forall₂ (fun a b => b.1 = a.1 ∧ ∀ i, i < 100 →
        b.2 i = ⟨(a.2 (100 - 1 - i)).r0, -(a.2 (100 - 1 - i)).r1, (a.2 (100 - 1 - i)).r2⟩) l l' := by
  obtain ⟨l0, h0⟩ := (C68_accepts someConsts 1000 100 (by norm_num) (by norm_num) (1 / 10) (8 / 10) (by norm_num) .sod .free
    .llf 3 4).2 ⟨.inl rfl, by omega, by omega, fun h => by cases h⟩
  unfold weno at h0
  rw [if_neg (by norm_num)] at h0
  obtain ⟨u, h1, h0⟩ := bind_ok h0
  obtain ⟨l, h2, h0⟩ := bind_ok h0
  have hu : u = fun i => if i < 50 then ⟨1, 0, 5 / 2⟩ else ⟨1 / 8, 0, 1 / 4⟩ := by
    cases h1
    funext i
    have e : ((1 : ℚ) / 2) * (((i : ℚ) + 1) / (100 : ℕ) + (i : ℚ) / (100 : ℕ)) < 1 / 2 ↔ i < 50 := by
      push_cast
      constructor
      · intro h
        have : (i : ℚ) < 50 := by linarith
        exact_mod_cast this
      · intro h
        have : (i : ℚ) + 1 ≤ 50 := by exact_mod_cast h
        linarith
    beta_reduce
    simp only [e]
    split_ifs <;> norm_num [primToCons, someConsts]
  subst hu
  obtain ⟨l', q1, q2⟩ := C112_mirror someConsts 100 (by norm_num) .free (fun h => by cases h) (8 / 10) (1 / 10) 3 4 1000 0 _
    (fun i => if i < 50 then ⟨1 / 8, 0, 1 / 4⟩ else ⟨1, 0, 5 / 2⟩) (fun i hi => by
      by_cases h : i < 50
      · simp only [if_pos h, if_neg (show ¬ 100 - 1 - i < 50 by omega), neg_zero]
      · simp only [if_neg h, if_pos (show 100 - 1 - i < 50 by omega), neg_zero]) l h2
  exact ⟨l, l', h2, q1, q2⟩

end FVHOE
