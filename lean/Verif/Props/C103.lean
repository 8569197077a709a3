import Verif.Proofs.FloatMirror
import Verif.Props.C99
import Verif.Props.C102

/-!
C103. Mirror images, bit by bit in floating-point arithmetic.
-/

set_option linter.unusedSectionVars false

namespace FVHOE

variable {np : ℕ} {S : Type} {fl : ℚ → ℚ}

/-! ### Rounding does not depend on the sign -/

theorem roundEven_neg (x : ℚ) : roundEven (-x) = -roundEven x := by
  have h1 := Int.floor_le x
  have h2 := Int.lt_floor_add_one x
  by_cases hx : (⌊x⌋ : ℚ) = x
  · rw [← hx]
    have e (m : ℤ) : roundEven (m : ℚ) = m := by simp [roundEven]
    rw [e, ← Int.cast_neg, e]
  · have h3 : (⌊x⌋ : ℚ) < x := lt_of_le_of_ne h1 hx
    have hf : ⌊-x⌋ = -⌊x⌋ - 1 := by
      rw [Int.floor_eq_iff]
      push_cast
      constructor <;> linarith
    unfold roundEven
    rw [hf]
    push_cast
    split_ifs <;> first | omega | (exfalso; linarith)

theorem binade_neg (x : ℚ) : binade (-x) = binade x := by
  have h : (-x).num.natAbs = x.num.natAbs := by rw [Rat.neg_num, Int.natAbs_neg]
  unfold binade
  rw [h, Rat.den_neg_eq_den, abs_neg]

theorem Format.fl_odd (F : Format) : OddFl F.fl := fun x => by
  unfold Format.fl Format.lastBit
  rw [binade_neg, neg_div, roundEven_neg]
  push_cast
  ring

/-! ### The time derivative -/

theorem mirror_diff (H : OddFl fl) (d : Fin 3) (h : ℚ) (F F' : FState (Var np))
    (hF : F' = fun v i => -mirSign d v * F v (mirFace d i)) : roundedDiff fl h d F' = mirArr d (roundedDiff fl h d F) := by
  subst hF
  funext v i
  have hs := mirSign_cases d v
  have h1 : mirFace d (i + Pi.single d 1) = mirIx d i := by
    funext f
    by_cases hf : f = d
    · subst hf; simp [mirIx, mirFace]; ring
    · simp [mirIx, mirFace, Function.update_of_ne hf, Pi.single_eq_of_ne hf]
  have h2 : mirIx d i + Pi.single d 1 = mirFace d i := by
    funext f
    by_cases hf : f = d
    · subst hf; simp [mirIx, mirFace]; ring
    · simp [mirIx, mirFace, Function.update_of_ne hf, Pi.single_eq_of_ne hf]
  unfold mirArr roundedDiff FState.times
  dsimp only
  rw [h1, h2, show -mirSign d v * F v (mirIx d i) - -mirSign d v * F v (mirFace d i) =
    mirSign d v * (F v (mirFace d i) - F v (mirIx d i)) by ring, H.sign hs, mul_left_comm, H.sign hs]

theorem mirror_diff_other (H : OddFl fl) (d e : Fin 3) (he : e ≠ d) (h : ℚ) (F : FState (Var np)) :
    roundedDiff fl h e (mirArr d F) = mirArr d (roundedDiff fl h e F) := by
  funext v i
  have hs := mirSign_cases d v
  unfold mirArr roundedDiff FState.times
  dsimp only
  rw [mirIx_add d e he, ← mul_sub, H.sign hs, mul_left_comm, H.sign hs]

theorem mirror_plus (H : OddFl fl) (d : Fin 3) (a b : FState (Var np)) :
    (mirArr d a).plus fl (mirArr d b) = mirArr d (a.plus fl b) := by
  funext v i
  unfold FState.plus mirArr
  rw [← mul_add, H.sign (mirSign_cases d v)]

/-- `v` is the mirror image of `u`, on a mirror at right angles to direction `d`. -/
def Mirrored (n : Fin 3 → ℕ) (d : Fin 3) (u v : FState (Var np)) : Prop :=
  ∀ w i, InCells n i → v w i = mirSign d w * u w (Function.update i d (n d - 1 - i d))

theorem mod_mirror (n : ℕ) (hn : 0 < n) (i : ℤ) : (-1 - i) % (n : ℤ) = n - 1 - i % n := by
  have h1 := Int.emod_nonneg i (by omega : (n : ℤ) ≠ 0)
  have h2 := Int.emod_lt_of_pos i (by omega : (0 : ℤ) < n)
  have h3 := Int.emod_add_mul_ediv i n
  have h4 : -1 - i = (n - 1 - i % n) + n * (-(i / n) - 1) := by linarith
  rw [h4, Int.add_mul_emod_self_left, Int.emod_eq_of_lt (by omega) (by omega)]

theorem mirrored_iff {n : Fin 3 → ℕ} (hn : ∀ d, 0 < n d) (d : Fin 3) (u v : FState (Var np)) :
    Mirrored n d u v ↔ wrapAround n v = mirArr d (wrapAround n u) := by
  have hm (i : Ix) : (fun e => mirIx d i e % (n e : ℤ)) =
      Function.update (fun e => i e % (n e : ℤ)) d (n d - 1 - i d % (n d : ℤ)) := by
    funext e
    by_cases he : e = d
    · subst he
      simp [mirIx, mod_mirror (n e) (hn e)]
    · simp [mirIx, Function.update_of_ne he]
  constructor
  · intro h
    funext w i
    have := h w _ (mod_inCells n hn i)
    show v w _ = mirSign d w * u w _
    rw [this, hm]
  · intro h w i hi
    have e : (fun e => i e % (n e : ℤ)) = i := funext fun e => Int.emod_eq_of_lt (hi e).1 (hi e).2
    rw [← wrapAround_cell n v w i hi, h]
    show mirSign d w * u w _ = _
    rw [hm, e]
    congr 3
    exact congrArg _ (congrFun e d)

theorem Mirrored.plus (H : OddFl fl) {n : Fin 3 → ℕ} {d : Fin 3} {u v u' v' : FState (Var np)} (h : Mirrored n d u v)
    (h' : Mirrored n d u' v') : Mirrored n d (u.plus fl u') (v.plus fl v') := fun w i hi => by
  unfold FState.plus
  rw [h w i hi, h' w i hi, ← mul_add, H.sign (mirSign_cases d w)]

theorem Mirrored.times (H : OddFl fl) {n : Fin 3 → ℕ} {d : Fin 3} {u v : FState (Var np)} (a : ℚ) (h : Mirrored n d u v) :
    Mirrored n d (u.times fl a) (v.times fl a) := fun w i hi => by
  unfold FState.times
  rw [h w i hi, mul_left_comm, H.sign (mirSign_cases d w)]

/-- An array that repeats with the domain has its mirror image on the cells. -/
theorem mirrored_of_periodic {n : Fin 3 → ℕ} (d : Fin 3) (k : FState (Var np))
    (h : ∀ e : Ix, (∀ d, (n d : ℤ) ∣ e d) → k.shift e = k) : Mirrored n d k (mirArr d k) := by
  intro w i _
  have h1 := congrFun (congrFun (h (Pi.single d (n d)) fun e => by
    by_cases he : e = d
    · subst he; simp
    · simp [Pi.single_eq_of_ne he]) w) (mirIx d i)
  show mirSign d w * k w _ = _
  rw [← h1]
  show mirSign d w * k w _ = mirSign d w * k w _
  congr 2
  funext e
  by_cases he : e = d
  · subst he; simp [mirIx]; ring
  · simp [mirIx, Function.update_of_ne he, Pi.single_eq_of_ne he]

theorem mirIx_mirIx (d : Fin 3) (i : Ix) : mirIx d (mirIx d i) = i := by
  funext e
  by_cases he : e = d
  · subst he; simp [mirIx]
  · simp [mirIx, Function.update_of_ne he]

/-- The right-hand side of the mirror image of a state: the same step, and the mirror image of the time derivative. -/
theorem mirrored_rhs (H : OddFl fl) (c : RoundedConfig) (hn : ∀ d, 0 < c.n d) (d : Fin 3) (hp : c.p d = 0) (hr : c.riem = .llf)
    (u v : FState (Var np)) (h : Mirrored c.n d u v) (s' t' : ℚ) :
    ExRel (fun x y => x.1 = y.1 ∧ Mirrored c.n d x.2 y.2) ((c.scheme fl np).rhs fl s' t' u) ((c.scheme fl np).rhs fl s' t' v) := by
  have hw := (mirrored_iff hn d u v).1 h
  set P := c.scheme fl np with hP
  have hPn : P.n = c.n := rfl
  have hv : P.primAverages fl (wrapAround c.n v) = mirArr d (P.primAverages fl (wrapAround c.n u)) := by
    rw [hw, mirror_primAverages H d c hp]
  have hper (e : Ix) (he : ∀ d, (c.n d : ℤ) ∣ e d) :
      (P.primAverages fl (wrapAround c.n u)).shift e = P.primAverages fl (wrapAround c.n u) := by
    rw [← P.primAverages_shift, wrapAround_eq c.n u e he]
  have hdvd (i : Ix) : ∀ d, (c.n d : ℤ) ∣ (fun d => i d % (c.n d : ℤ) - i d) d := fun d => by
    have := Int.emod_add_mul_ediv (i d) (c.n d)
    exact ⟨-(i d / c.n d), by simp only; linarith⟩
  have hsize : P.size fl (P.primAverages fl (wrapAround c.n v)) = P.size fl (P.primAverages fl (wrapAround c.n u)) := by
    unfold RoundedScheme.size
    cases P.fixedDt with
    | some dt => rfl
    | none =>
      simp only
      rw [npMax_congr]
      intro x
      simp only [List.mem_map, mem_indexList]
      set a := P.primAverages fl (wrapAround c.n u) with ha
      have hmod (i : Ix) : (fun y => a y fun d => i d % (c.n d : ℤ)) = fun y => a y i := by
        funext y
        have := congrFun (congrFun (hper _ (hdvd i)) y) i
        rw [← this]
        show a y _ = a y _
        congr 1
        funext d
        simp
      have hsp (i : Ix) : P.speed (fun y => mirArr d a y i) = P.speed fun y => a y (mirIx d i) :=
        mirror_speed d c.gas c.ndim fun y => a y (mirIx d i)
      rw [hv]
      constructor
      · rintro ⟨i, hi, rfl⟩
        refine ⟨_, mod_inCells c.n hn (mirIx d i), ?_⟩
        rw [hmod, hsp]
      · rintro ⟨i, hi, rfl⟩
        refine ⟨_, mod_inCells c.n hn (mirIx d i), ?_⟩
        rw [hsp, ← hmod]
        have e : (fun f => mirIx d (fun e => mirIx d i e % (c.n e : ℤ)) f % (c.n f : ℤ)) = i := by
          funext f
          have e0 : i f % (c.n f : ℤ) = i f := Int.emod_eq_of_lt (hi f).1 (hi f).2
          by_cases hf : f = d
          · subst hf
            simp only [mirIx, Function.update_self]
            rw [mod_mirror _ (hn f), Int.emod_emod, mod_mirror _ (hn f), e0]
            ring
          · simp only [mirIx, Function.update_of_ne hf]
            rw [Int.emod_emod, e0]
        rw [e]
  have hflux : ∀ e, roundedDiff fl (P.h e) e (P.flux fl e (P.primAverages fl (wrapAround c.n v))) =
      mirArr d (roundedDiff fl (P.h e) e (P.flux fl e (P.primAverages fl (wrapAround c.n u)))) := by
    intro e
    rw [hv]
    by_cases he : e = d
    · subst he
      exact mirror_diff H e _ _ _ (mirror_flux_normal H e c hp hr _)
    · rw [mirror_flux H d c hp hr e he, mirror_diff_other H d e he]
  have hk : (roundedEulerEquation fl P.active P.h fun e => P.flux fl e (P.primAverages fl (wrapAround c.n v))) =
      mirArr d (roundedEulerEquation fl P.active P.h fun e => P.flux fl e (P.primAverages fl (wrapAround c.n u))) := by
    have hz : (fun _ _ => 0 : FState (Var np)) = mirArr d fun _ _ => 0 := by
      funext w i
      simp [mirArr]
    unfold roundedEulerEquation
    simp only [List.foldl_cons, List.foldl_nil, hflux]
    rw [hz]
    have step (b : Bool) (x y : FState (Var np)) : (if b = true then (mirArr d x).plus fl (mirArr d y) else mirArr d x) =
        mirArr d (if b = true then x.plus fl y else x) := by
      cases b
      · rfl
      · exact mirror_plus H d x y
    rw [step, step, step]
    rw [← hz]
  unfold RoundedScheme.rhs
  dsimp only
  rw [hPn, hsize]
  cases P.size fl (P.primAverages fl (wrapAround c.n u)) with
  | error e => exact rfl
  | ok dt =>
    rw [hk]
    have hkper (e : Ix) (he : ∀ d, (c.n d : ℤ) ∣ e d) :
        (roundedEulerEquation fl P.active P.h fun d => P.flux fl d (P.primAverages fl (wrapAround c.n u))).shift e =
          roundedEulerEquation fl P.active P.h fun d => P.flux fl d (P.primAverages fl (wrapAround c.n u)) := by
      rw [← roundedEulerEquation_shift]
      refine congrArg (roundedEulerEquation fl P.active P.h) (funext fun d => ?_)
      rw [← P.flux_shift, hper e he]
    generalize roundedEulerEquation fl P.active P.h _ = k at hkper
    exact ⟨rfl, mirrored_of_periodic d k hkper⟩

/-- **C103**. Two runs in floating-point arithmetic on a periodic domain with the `llf` solver, one from the mirror image of the
initial values of the other: cells in reverse order along `d`, momenta along `d` with the opposite sign. If the scheme has degree
zero along `d` (and any degrees along the other directions) and the one returns, so does the other, with the same exception if any, the
same times of all steps and snapshots, and exactly the mirror image of the values in all cells. All formats, with their subnormal numbers,
all integrators and requested times are admitted, and every function in place of the square root. -/
theorem C103_mirror (F : Format) (c : RoundedConfig) (hn : ∀ d, 0 < c.n d) (d : Fin 3) (hp : c.p d = 0) (hr : c.riem = .llf)
    (m : Integrator) (mk : ODEState ℚ (FState (Var np)) S → S) (T : ℚ) (downbeats : List ℚ) (logEvery : Bool) (fuel : ℕ)
    (u v : FState (Var np)) (out : Outcome ℚ (FState (Var np)) S)
    (hu : ∀ w i, InCells c.n i → v w i = (if w = .mom d then -1 else 1) * u w (Function.update i d (c.n d - 1 - i d)))
    (hrun : (ODEState.init u).integrateWith F.ops (roundedProposal F.fl ((c.scheme F.fl np).rhs F.fl) m) mk T downbeats logEvery
      fuel = some out) :
    ∃ out', (ODEState.init v).integrateWith F.ops (roundedProposal F.fl ((c.scheme F.fl np).rhs F.fl) m) mk T downbeats logEvery
        fuel = some out' ∧
      out'.2 = out.2 ∧ out'.1.t = out.1.t ∧ out'.1.timestamps = out.1.timestamps ∧ out'.1.snapshotTimes = out.1.snapshotTimes ∧
      ∀ w i, InCells c.n i →
        out'.1.u w i = (if w = .mom d then -1 else 1) * out.1.u w (Function.update i d (c.n d - 1 - i d)) := by
  have hsg (w : Var np) : (if w = .mom d then -1 else 1 : ℚ) = mirSign d w := by cases w <;> simp [mirSign]
  simp only [hsg] at hu ⊢
  have H := F.fl_odd
  unfold ODEState.integrateWith at hrun ⊢
  split at hrun
  · simp only [Option.some.injEq] at hrun
    subst hrun
    exact ⟨_, rfl, rfl, rfl, rfl, rfl, hu⟩
  · obtain ⟨out', h1, h2, h3⟩ := loopWith_inStep F.ops _ _ mk T logEvery (Mirrored c.n d)
      (roundedProposal_rel F.fl _ _ m _ (fun _ _ _ _ => Mirrored.plus H) (fun a _ _ => Mirrored.times H a)
        fun s' t' u v h => mirrored_rhs H c hn d hp hr u v h s' t') fuel _ _ ((ODEState.init u).snapshot mk)
      ((ODEState.init v).snapshot mk) out ⟨rfl, rfl, rfl, rfl, hu⟩ hrun
    exact ⟨out', h1, h2.symm, h3.t.symm, h3.timestamps.symm, h3.snapshotTimes.symm, h3.u⟩

/-- **C103** (symmetric flows). From initial values that are their own mirror image the run ends with values that are exactly their own
mirror image, however long it is. -/
theorem C103_symmetric (F : Format) (c : RoundedConfig) (hn : ∀ d, 0 < c.n d) (d : Fin 3) (hp : c.p d = 0) (hr : c.riem = .llf)
    (m : Integrator) (mk : ODEState ℚ (FState (Var np)) S → S) (T : ℚ) (downbeats : List ℚ) (logEvery : Bool) (fuel : ℕ)
    (u : FState (Var np)) (out : Outcome ℚ (FState (Var np)) S)
    (hu : ∀ w i, InCells c.n i → u w i = (if w = .mom d then -1 else 1) * u w (Function.update i d (c.n d - 1 - i d)))
    (hrun : (ODEState.init u).integrateWith F.ops (roundedProposal F.fl ((c.scheme F.fl np).rhs F.fl) m) mk T downbeats logEvery
      fuel = some out) :
    ∀ w i, InCells c.n i →
      out.1.u w i = (if w = .mom d then -1 else 1) * out.1.u w (Function.update i d (c.n d - 1 - i d)) := by
  obtain ⟨out', h1, -, -, -, -, h2⟩ := C103_mirror F c hn d hp hr m mk T downbeats logEvery fuel u u out hu hrun
  rw [hrun] at h1
  cases h1
  exact h2

/-! ### Where it ends -/

theorem roundedHllc_sqrt (fl : ℚ → ℚ) (G G' : Gas ℚ) (d : Fin 3) (wl wr : State ℚ np) (hg : G.gamma = G'.gamma)
    (hl : roundedSoundSpeed fl G wl = roundedSoundSpeed fl G' wl) (hr : roundedSoundSpeed fl G wr = roundedSoundSpeed fl G' wr) :
    roundedHllc fl G d wl wr = roundedHllc fl G' d wl wr := by
  unfold roundedHllc roundedWaves
  rw [hg, hl, hr]

/-- Gas of density `r`, velocity `v` along `x` and pressure `r / 2`: with `γ = 2` the speed of sound is 1. -/
def streamAt (r v : ℚ) : State ℚ 0
  | .rho => r
  | .mom d => if d = 0 then v else 0
  | .en => r / 2
  | .ps _ => 0

/-- The double next to 0.8. -/
def d08 : ℚ := 3602879701896397 / 2 ^ 52

/-- **C103** (`hllc`). With `hllc` mirror images are not exact, not even at degree zero: the velocity of the contact is computed from
`rcL * vl + rcR * vr + Pl - Pr` from left to right, and the mirror image adds `Pr` first. Gas of density 1 and velocity -0.8 on the
left, of density 3 at rest on the right, `γ = 2` and speed of sound 1: the mass flux and that of the mirror image differ in the last
bit; without rounding they are opposite. -/
theorem C103_hllc_violated : ∃ wl wr : State ℚ 0, (∀ v, double.Has (wl v) ∧ double.Has (wr v)) ∧
    (∀ s : ℚ → ℚ, s 1 = 1 → roundedRiemann double.fl .hllc ⟨2, 0, s⟩ 0 (fun v => mirSign 0 v * wr v) (fun v => mirSign 0 v * wl v) .rho ≠
      -roundedRiemann double.fl .hllc ⟨2, 0, s⟩ 0 wl wr .rho) ∧
    ∀ s : ℚ → ℚ, s 1 = 1 → roundedRiemann id .hllc ⟨2, 0, s⟩ 0 (fun v => mirSign 0 v * wr v) (fun v => mirSign 0 v * wl v) .rho =
      -roundedRiemann id .hllc ⟨2, 0, s⟩ 0 wl wr .rho := by
  refine ⟨streamAt 1 (-d08), streamAt 3 0, ?_, ?_, ?_⟩
  · intro v
    cases v with
    | rho => exact ⟨⟨1, 0, by norm_num [streamAt], by decide, by decide⟩, ⟨3, 0, by norm_num [streamAt], by decide, by decide⟩⟩
    | mom d =>
      by_cases h : d = 0
      · exact ⟨⟨-3602879701896397, -52, by simp [streamAt, h, d08]; norm_num, by decide, by decide⟩, by simp [streamAt, h, double.has_zero]⟩
      · exact ⟨by simp [streamAt, h, double.has_zero], by simp [streamAt, h, double.has_zero]⟩
    | en => exact ⟨⟨1, -1, by norm_num [streamAt], by decide, by decide⟩, ⟨3, -1, by norm_num [streamAt], by decide, by decide⟩⟩
    | ps j => exact j.elim0
  · intro s hs
    have hl (x : State ℚ 0) (hx : double.fl (double.fl (2 * x .en) / x .rho) = 1) :
        roundedSoundSpeed double.fl ⟨2, 0, s⟩ x = roundedSoundSpeed double.fl ⟨2, 0, fun _ => 1⟩ x := by
      unfold roundedSoundSpeed
      simp [hx, hs]
    unfold roundedRiemann
    dsimp only
    rw [roundedHllc_sqrt double.fl ⟨2, 0, s⟩ ⟨2, 0, fun _ => 1⟩ 0 (streamAt 1 (-d08)) _ rfl (hl _ (by decide +kernel)) (hl _ (by decide +kernel)),
      roundedHllc_sqrt double.fl ⟨2, 0, s⟩ ⟨2, 0, fun _ => 1⟩ 0 _ _ rfl (hl _ (by decide +kernel)) (hl _ (by decide +kernel))]
    decide +kernel
  · intro s hs
    have hl (x : State ℚ 0) (hx : id (id (2 * x .en) / x .rho) = 1) :
        roundedSoundSpeed id ⟨2, 0, s⟩ x = roundedSoundSpeed id ⟨2, 0, fun _ => 1⟩ x := by
      unfold roundedSoundSpeed
      rw [hx]
      simp [hs]
    unfold roundedRiemann
    dsimp only
    rw [roundedHllc_sqrt id ⟨2, 0, s⟩ ⟨2, 0, fun _ => 1⟩ 0 (streamAt 1 (-d08)) _ rfl (hl _ (by decide +kernel)) (hl _ (by decide +kernel)),
      roundedHllc_sqrt id ⟨2, 0, s⟩ ⟨2, 0, fun _ => 1⟩ 0 _ _ rfl (hl _ (by decide +kernel)) (hl _ (by decide +kernel))]
    decide +kernel

/-- The rounded square root of one is one. -/
example : freeSqrt 53 1 = 1 := by
  have h : binade 1 = 0 := by decide +kernel
  have h2 : Nat.sqrt (2 ^ 104) = 2 ^ 52 := Nat.sqrt_eq' (2 ^ 52)
  have h3 : ⌊(1 / 2 ^ ((0 : ℤ) / 2 + 0 / 2) * 4 ^ (53 - 1) : ℚ)⌋₊ = 2 ^ 104 := by
    rw [show (1 / 2 ^ ((0 : ℤ) / 2 + 0 / 2) * 4 ^ (53 - 1) : ℚ) = ((2 ^ 104 : ℕ) : ℚ) by norm_num, Nat.floor_natCast]
  unfold freeSqrt
  rw [h]
  dsimp only
  rw [h3, h2]
  norm_num

/-- Four cells, the gas denser in the left half and everything moving to the right, `llf` at degree zero. -/
def runConfig : RoundedConfig where
  gas := ⟨7 / 5, 0, fun _ => 1⟩
  riem := .llf
  n := ![4, 1, 1]
  active := ![true, false, false]
  h := ![1 / 4, 1, 1]
  p := ![0, 0, 0]
  cfl := 1 / 2
  fixedDt := some (1 / 16)

def runRight : FState (Var 0)
  | .rho, i => if i 0 < 2 then 2 else 1
  | .mom e, i => if e = 0 then (if i 0 < 2 then 2 else 1) * d01 else 0
  | .en, _ => 3
  | .ps _, _ => 0

def runLeft : FState (Var 0)
  | .rho, i => if i 0 < 2 then 1 else 2
  | .mom e, i => if e = 0 then -((if i 0 < 2 then 1 else 2) * d01) else 0
  | .en, _ => 3
  | .ps _, _ => 0

/-- The hypotheses hold, and the step changes the gas: one cell of it, in the two runs. -/
example : runConfig.p 0 = 0 ∧ runConfig.riem = .llf ∧ (∀ d, 0 < runConfig.n d) ∧
    (∀ w i, InCells runConfig.n i →
      runLeft w i = (if w = .mom 0 then -1 else 1) * runRight w (Function.update i 0 (runConfig.n 0 - 1 - i 0))) ∧
    ∃ go u' go' v', roundedProposal double.fl ((runConfig.scheme double.fl 0).rhs double.fl) .euler 0 runRight = .ok (1 / 16, go) ∧
      go (1 / 16) = .ok u' ∧
      roundedProposal double.fl ((runConfig.scheme double.fl 0).rhs double.fl) .euler 0 runLeft = .ok (1 / 16, go') ∧
      go' (1 / 16) = .ok v' ∧
      u' (.mom 0) ![0, 0, 0] ≠ 2 * d01 ∧ v' (.mom 0) ![3, 0, 0] = -u' (.mom 0) ![0, 0, 0] ∧ v' .rho ![3, 0, 0] = u' .rho ![0, 0, 0] := by
  refine ⟨rfl, rfl, by decide, ?_, _, _, _, _, rfl, rfl, rfl, rfl, by decide +kernel, by decide +kernel, by decide +kernel⟩
  intro w i hi
  have a0 := hi 0
  simp only [runConfig, Matrix.cons_val_zero] at a0
  have hc : (i 0 < 2) ↔ ¬ ((4 : ℤ) - 1 - i 0 < 2) := by omega
  cases w with
  | rho => by_cases h : i 0 < 2 <;> simp [runRight, runLeft, runConfig, h] <;> omega
  | mom e =>
    by_cases he : e = 0
    · subst he
      by_cases h : i 0 < 2 <;> simp [runRight, runLeft, runConfig, h] <;> omega
    · simp [runRight, runLeft, he]
  | en => simp [runRight, runLeft]
  | ps j => exact j.elim0

end FVHOE
