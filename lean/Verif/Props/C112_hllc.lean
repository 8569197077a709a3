import Verif.Props.C112
import Verif.Props.C124

/-!
C112, whole runs with hllc: the mirrored data give the mirrored run as long as the face states of every evaluation have
positive density and pressure.
-/

set_option linter.unusedSectionVars false

namespace FVHOE

open Romain

variable {K : Type} [Field K] [LinearOrder K] [IsStrictOrderedRing K]

/-- `P` holds for the states at which one step evaluates the right-hand side `f` after its first evaluation. -/
def StagesMeet (P : (ℕ → Col K) → Prop) (f : (ℕ → Col K) → Except PyErr ((ℕ → Col K) × (ℤ → Col K))) (time : ℕ) (dt : K)
    (u k1 : ℕ → Col K) : Prop :=
  match time with
  | 2 => P fun i => (u i).add ((k1 i).smul (dt / 2))
  | 3 => P (fun i => (u i).add ((k1 i).smul (dt / 3))) ∧
    ∀ r2, f (fun i => (u i).add ((k1 i).smul (dt / 3))) = .ok r2 → P fun i => (u i).add ((r2.1 i).smul (2 * dt / 3))
  | 4 => P (fun i => (u i).add ((k1 i).smul (dt / 2))) ∧
    ∀ r2, f (fun i => (u i).add ((k1 i).smul (dt / 2))) = .ok r2 →
      P (fun i => (u i).add ((r2.1 i).smul (dt / 2))) ∧
      ∀ r3, f (fun i => (u i).add ((r2.1 i).smul (dt / 2))) = .ok r3 → P fun i => (u i).add ((r3.1 i).smul dt)
  | _ => True

/-- `P` holds for every state at which a run of at most `fuel` steps evaluates its right-hand side. -/
def RunMeets (P : (ℕ → Col K) → Prop) (C : Consts K) (n : ℕ) (cfl tend : K) (ty : BCType) (rs : Solver) (time space : ℕ) :
    ℕ → K → (ℕ → Col K) → Prop
  | 0, _, _ => True
  | fuel + 1, t, u => t < tend → P u ∧
    (∀ r, rhs C n ty rs space u = .ok r →
      StagesMeet P (rhs C n ty rs space) time (cfl * (1 / (n : K)) / maxSpeed C n r.2) u r.1) ∧
    ∀ s, step C n cfl ty rs time space u = .ok s → RunMeets P C n cfl tend ty rs time space fuel (t + s.1) s.2

/-- Data of which the right-hand side respects an image, if the data meet `P`. -/
def ImageWhere (P : (ℕ → Col K) → Prop) (C : Consts K) (n : ℕ) (ty : BCType) (rs : Solver) (space : ℕ) (e : ℕ → ℕ)
    (m : Col K →ₗ[K] Col K) : Prop :=
  ∀ u u' r, P u → Image n e m u u' → rhs C n ty rs space u = .ok r →
    ∃ r', rhs C n ty rs space u' = .ok r' ∧ Image n e m r.1 r'.1 ∧ maxSpeed C n r'.2 = maxSpeed C n r.2

theorem advance_where {P : (ℕ → Col K) → Prop} {C : Consts K} {n : ℕ} {ty : BCType} {rs : Solver} {space : ℕ} {e : ℕ → ℕ}
    {m : Col K →ₗ[K] Col K} (hR : ImageWhere P C n ty rs space e m) (time : ℕ) (dt : K) (u u' k1 k1' v : ℕ → Col K)
    (hu : Image n e m u u') (hk : Image n e m k1 k1') (hP : StagesMeet P (rhs C n ty rs space) time dt u k1)
    (h : advance (rhs C n ty rs space) time dt u k1 = .ok v) :
    ∃ v', advance (rhs C n ty rs space) time dt u' k1' = .ok v' ∧ Image n e m v v' := by
  unfold advance at h ⊢
  split at h
  · cases h
    exact ⟨_, rfl, hu.combine hk _⟩
  · obtain ⟨r2, g2, h⟩ := bind_ok h
    obtain ⟨s2, q2, i2, -⟩ := hR _ _ _ hP (hu.combine hk (dt / 2)) g2
    cases h
    simp only [q2]
    exact ⟨_, rfl, hu.combine i2 _⟩
  · obtain ⟨r2, g2, h⟩ := bind_ok h
    obtain ⟨s2, q2, i2, -⟩ := hR _ _ _ hP.1 (hu.combine hk (dt / 3)) g2
    obtain ⟨r3, g3, h⟩ := bind_ok h
    obtain ⟨s3, q3, i3, -⟩ := hR _ _ _ (hP.2 r2 g2) (hu.combine i2 (2 * dt / 3)) g3
    cases h
    simp only [q2, bind, Except.bind, q3]
    exact ⟨_, rfl, hu.combine (hk.combine i3 3) _⟩
  · obtain ⟨r2, g2, h⟩ := bind_ok h
    obtain ⟨s2, q2, i2, -⟩ := hR _ _ _ hP.1 (hu.combine hk (dt / 2)) g2
    obtain ⟨r3, g3, h⟩ := bind_ok h
    obtain ⟨s3, q3, i3, -⟩ := hR _ _ _ (hP.2 r2 g2).1 (hu.combine i2 (dt / 2)) g3
    obtain ⟨r4, g4, h⟩ := bind_ok h
    obtain ⟨s4, q4, i4, -⟩ := hR _ _ _ ((hP.2 r2 g2).2 r3 g3) (hu.combine i3 dt) g4
    cases h
    simp only [q2, bind, Except.bind, q3, q4]
    exact ⟨_, rfl, hu.combine (((hk.combine i2 2).combine i3 2).plus i4) _⟩
  · cases h

theorem loop_where {P : (ℕ → Col K) → Prop} {C : Consts K} {n : ℕ} {ty : BCType} {rs : Solver} {space : ℕ} {e : ℕ → ℕ}
    {m : Col K →ₗ[K] Col K} (hR : ImageWhere P C n ty rs space e m) (cfl tend : K) (time : ℕ) (fuel : ℕ) :
    ∀ (t : K) (u u' : ℕ → Col K) (l : List (K × (ℕ → Col K))), Image n e m u u' →
      RunMeets P C n cfl tend ty rs time space fuel t u →
      loop C n cfl tend ty rs time space fuel t u = .ok l →
      ∃ l', loop C n cfl tend ty rs time space fuel t u' = .ok l' ∧
        List.Forall₂ (fun a b => b.1 = a.1 ∧ Image n e m a.2 b.2) l l' := by
  induction fuel with
  | zero =>
    intro t u u' l _ _ h
    cases h
    exact ⟨[], rfl, .nil⟩
  | succ fuel ih =>
    intro t u u' l hu hP h
    rw [loop] at h ⊢
    split_ifs at h ⊢ with ht
    · obtain ⟨p1, p2, p3⟩ := hP ht
      obtain ⟨s, g1, h⟩ := bind_ok h
      obtain ⟨rest, g2, h⟩ := bind_ok h
      cases h
      obtain ⟨r, h1, h2, h3⟩ := step_ok g1
      obtain ⟨r', q1, q2, q3⟩ := hR u u' r p1 hu h1
      have hS := p2 r h1
      rw [← h2] at hS
      obtain ⟨v', q4, q5⟩ := advance_where hR time s.1 u u' r.1 r'.1 s.2 hu q2 hS h3
      have hs : step C n cfl ty rs time space u' = .ok (s.1, v') := by
        unfold step
        rw [q1]
        simp only [bind, Except.bind]
        rw [q3, ← h2, q4]
        rfl
      obtain ⟨l', q6, q7⟩ := ih (t + s.1) s.2 v' rest q5 (p3 s g1) g2
      refine ⟨(t + s.1, v') :: l', ?_, .cons ⟨rfl, q5⟩ q7⟩
      rw [hs]
      simp only [bind, Except.bind]
      rw [q6]
      rfl
    · cases h
      exact ⟨[], rfl, .nil⟩

/-- The face states of data have positive density and pressure. -/
def SoundFaces (C : Consts K) (n : ℕ) (ty : BCType) (space : ℕ) (u : ℕ → Col K) : Prop :=
  ∀ r, rhs C n ty .hllc space u = .ok r → ∀ k : ℤ, 0 ≤ k → k ≤ n → ∀ w,
    w = (traceCols C.tiny space r.2 (markers n ty r.2) (k + 3)).1 ∨
    w = (traceCols C.tiny space r.2 (markers n ty r.2) (k + 4)).2 → 0 < w.r0 ∧ 0 < w.r2

/-- **C112** (mirror, runs with hllc) If the face states have positive density and pressure in every evaluation of a run with
hllc, then the run of the mirrored data is the mirrored run, at the same times. -/
theorem C112_mirror_hllc_run (C : Consts K) (hg : 1 < C.gamma) (hq : IsSqrt C.sqrt) (n : ℕ) (hn : 1 ≤ n) (ty : BCType)
    (hty : ty = .periodic → 4 ≤ n) (cfl tend : K) (time space fuel : ℕ) (t : K) (u u' : ℕ → Col K)
    (hu : ∀ i, i < n → u' i = ⟨(u (n - 1 - i)).r0, -(u (n - 1 - i)).r1, (u (n - 1 - i)).r2⟩)
    (hP : RunMeets (SoundFaces C n ty space) C n cfl tend ty .hllc time space fuel t u)
    (l : List (K × (ℕ → Col K))) (h : loop C n cfl tend ty .hllc time space fuel t u = .ok l) :
    ∃ l', loop C n cfl tend ty .hllc time space fuel t u' = .ok l' ∧
      List.Forall₂ (fun a b => b.1 = a.1 ∧ ∀ i, i < n →
        b.2 i = ⟨(a.2 (n - 1 - i)).r0, -(a.2 (n - 1 - i)).r1, (a.2 (n - 1 - i)).r2⟩) l l' :=
  loop_where (P := SoundFaces C n ty space) (e := fun i => n - 1 - i) (m := mirrorCol)
    (fun u u' r hP hu h => C112_mirror_hllc C hg hq n hn ty hty space u u' hu r h (hP r h)) cfl tend time fuel t u u' l hu hP h

/-! ### Cases that meet the hypotheses -/

theorem sound_first (C : Consts K) {n : ℕ} (hn : 1 ≤ n) {ty : BCType} (hty : ty = .periodic ∧ 4 ≤ n ∨ ty = .free) (u : ℕ → Col K)
    (hu : ∀ i, i < n → 0 < (u i).r0 ∧ 0 < (consToPrim C.gamma (u i)).r2) : SoundFaces C n ty 1 u := by
  intro r h k k0 k1
  obtain ⟨-, -, -, e2, -⟩ := rhs_ok h
  have col : ∀ j : ℤ, 0 ≤ j → j < n + 8 → 0 < (r.2 j).r0 ∧ 0 < (r.2 j).r2 := by
    intro j h0 h1
    obtain ⟨j', b1, b2, e⟩ := setBC_inside hn hty (embed n u) j h0 h1
    rw [e2, primCols, e, embed, if_pos ⟨b1, b2⟩]
    exact hu _ (by omega)
  rintro w (rfl | rfl)
  · exact col (k + 3) (by omega) (by omega)
  · exact col (k + 4) (by omega) (by omega)

/-- The first step of Sod's tube and of its mirror image. -/
example : ∃ l l', loop restConsts 100 (8 / 10) (1 / 10) .free .hllc 1 1 1 0
      (fun i => if i < 50 then ⟨1, 0, 5 / 2⟩ else ⟨1 / 8, 0, 1 / 4⟩) = .ok l ∧
    loop restConsts 100 (8 / 10) (1 / 10) .free .hllc 1 1 1 0
      (fun i => if i < 50 then ⟨1 / 8, 0, 1 / 4⟩ else ⟨1, 0, 5 / 2⟩) = .ok l' ∧
    List.Forall₂ (fun a b => b.1 = a.1 ∧ ∀ i, i < 100 →
        b.2 i = ⟨(a.2 (100 - 1 - i)).r0, -(a.2 (100 - 1 - i)).r1, (a.2 (100 - 1 - i)).r2⟩) l l' := by
  obtain ⟨l, h⟩ := reference_returns restConsts 100 (8 / 10) (1 / 10) .free .hllc (.inr rfl) 1 1 (by omega) (by omega) 1 0
    (fun i => if i < 50 then ⟨1, 0, 5 / 2⟩ else ⟨1 / 8, 0, 1 / 4⟩)
  obtain ⟨l', q1, q2⟩ := C112_mirror_hllc_run restConsts (by norm_num [restConsts]) restConsts_sqrt 100 (by norm_num) .free
    (fun h => by cases h) (8 / 10) (1 / 10) 1 1 1 0 _ (fun i => if i < 50 then ⟨1 / 8, 0, 1 / 4⟩ else ⟨1, 0, 5 / 2⟩)
    (fun i hi => by
      by_cases h : i < 50
      · simp only [if_pos h, if_neg (show ¬ 100 - 1 - i < 50 by omega), neg_zero]
      · simp only [if_neg h, if_pos (show 100 - 1 - i < 50 by omega), neg_zero])
    (fun _ => ⟨sound_first restConsts (by norm_num) (.inr rfl) _ fun i _ => by
      split_ifs <;> norm_num [consToPrim, restConsts], fun _ _ => trivial, fun _ _ => trivial⟩) l h
  exact ⟨l, l', h, q1, q2⟩

/-- Runs of any length: a dense slab at rest away from the middle. -/
example (fuel : ℕ) : RunMeets (SoundFaces restConsts 100 .free 1) restConsts 100 (8 / 10) 10 .free .hllc 1 1 fuel 0
    (fun i => if 10 ≤ i ∧ i < 30 then ⟨8, 0, 5 / 2⟩ else ⟨1, 0, 5 / 2⟩) := by
  suffices key : ∀ (t : ℝ) (v : ℕ → Col ℝ), (∀ i, i < 100 → v i = if 10 ≤ i ∧ i < 30 then ⟨8, 0, 5 / 2⟩ else ⟨1, 0, 5 / 2⟩) →
      RunMeets (SoundFaces restConsts 100 .free 1) restConsts 100 (8 / 10) 10 .free .hllc 1 1 fuel t v from
    key 0 _ fun _ _ => rfl
  induction fuel with
  | zero => exact fun _ _ _ => trivial
  | succ fuel ih =>
    intro t v hv ht
    refine ⟨sound_first restConsts (by norm_num) (.inr rfl) v fun i hi => ?_, fun _ _ => trivial, fun s hs => ih _ _ fun i hi => ?_⟩
    · rw [hv i hi]
      split_ifs <;> norm_num [consToPrim, restConsts]
    · have hl : loop restConsts 100 (8 / 10) 10 .free .hllc 1 1 1 t v = .ok [(t + s.1, s.2)] := by
        rw [loop, if_pos ht, hs]
        rfl
      rw [← hv i hi]
      refine C124_first restConsts (by norm_num [restConsts]) restConsts_sqrt 100 (by norm_num) .free (.inr rfl) _ _ 1 1 one_pos v
        (fun i hi => ?_) 1 t _ hl _ (List.mem_singleton.2 rfl) i hi
      rw [hv i hi]
      split_ifs <;> norm_num [restConsts]

end FVHOE
