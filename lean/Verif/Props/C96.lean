import Verif.Model.Scripting
import Verif.Props.C24_C27
import Verif.Props.C49
import Verif.Props.C52_C54
import Verif.Proofs.ForwardT
import Mathlib.Tactic.FieldSimp
import Mathlib.Tactic.Tauto

/-!
C96, C97: `EulerSolver_wrapper`.
-/

set_option linter.unusedSectionVars false

namespace FVHOE

theorem lower_upper_inj {c d : Char} (h1 : c.toLower.toNat = d.toLower.toNat) (h2 : c.isUpper = d.isUpper) : c = d := by
  have key : ∀ c : Char, c.toLower.toNat = if c.isUpper then c.toNat + 32 else c.toNat := by
    intro c
    unfold Char.toLower Char.isUpper
    split
    · rename_i h
      rw [if_pos (by simpa using h)]
      simp only [Char.toNat, UInt32.toNat_add]
      have := UInt32.le_iff_toNat_le.1 h.2
      simp at this ⊢
      omega
    · rename_i h
      rw [if_neg (by simpa using h)]
  rw [key, key, h2] at h1
  refine Char.toNat_inj.1 ?_
  split at h1 <;> omega

theorem kwKey_inj {x y : PyStr} (h : kwKey x = kwKey y) : x = y := by
  refine List.map_injective_iff.2 (fun c d hcd => ?_) h
  have := toLex.injective hcd
  exact lower_upper_inj (Prod.mk.inj this).1 (Prod.mk.inj this).2

instance : IsTrans (PyStr × PyStr) fun a b => kwKey a.1 ≤ kwKey b.1 := ⟨fun _ _ _ => le_trans⟩
instance : Std.Total fun a b : PyStr × PyStr => kwKey a.1 ≤ kwKey b.1 := ⟨fun _ _ => le_total _ _⟩

theorem sortedKwargs_perm (kw : List (PyStr × PyStr)) : (sortedKwargs kw).Perm kw := List.perm_insertionSort _ _

theorem sortedKwargs_sorted (kw : List (PyStr × PyStr)) : (sortedKwargs kw).Pairwise fun a b => kwKey a.1 ≤ kwKey b.1 :=
  List.pairwise_insertionSort _ _

/-- **C96** The directory does not depend on the order in which the keyword arguments are written. -/
theorem C96_order {K : Type} (a : WrapperArgs K) (kw : List (PyStr × PyStr)) (h : kw.Perm a.kwargs)
    (hnames : (a.kwargs.map Prod.fst).Nodup) : ({ a with kwargs := kw } : WrapperArgs K).dir = a.dir := by
  have e : sortedKwargs kw = sortedKwargs a.kwargs := by
    have hp : (sortedKwargs kw).Perm (sortedKwargs a.kwargs) :=
      (sortedKwargs_perm kw).trans (h.trans (sortedKwargs_perm a.kwargs).symm)
    refine hp.eq_of_pairwise (fun x y hx hy h1 h2 => ?_) (sortedKwargs_sorted _) (sortedKwargs_sorted _)
    have hx' : x ∈ a.kwargs := h.subset ((sortedKwargs_perm kw).subset hx)
    have hy' : y ∈ a.kwargs := (sortedKwargs_perm _).subset hy
    exact List.inj_on_of_nodup_map hnames hx' hy' (kwKey_inj (le_antisymm h1 h2))
  unfold WrapperArgs.dir WrapperArgs.projectName
  rw [e]

section

variable {K : Type} [Field K] [LinearOrder K] [IsStrictOrderedRing K] {U S : Type} [AddCommGroup U] [Module K U]

/-- Lists of states from which the snapshots and their times were taken. -/
theorem snapshots_of_states {f : RHS K U} (hf : PosDt f) (m : Integrator) (mk : ODEState K U S → S) {T : K} (hT : 0 < T)
    {downbeats : List K} (hd : ∀ d ∈ downbeats, d = 0 ∨ 0 < d) {fuel : ℕ} {u0 : U} {st : ODEState K U S}
    (h : (ODEState.init u0).integrateT (stepper f m) mk T true downbeats false fuel = some (st, none)) :
    ∃ L : List (ODEState K U S), st.snapshots = L.map mk ∧ st.snapshotTimes = L.map fun s => s.t := by
  refine (integrateT_outcome_before (posStepper_of_posDt hf m) (mk := mk)
    (fun st => ∃ L : List (ODEState K U S), st.snapshots = L.map mk ∧ st.snapshotTimes = L.map fun s => s.t) T
    (fun st target _ _ hP => ?_) (fun st hP => ?_) true downbeats false fuel _ le_rfl hT hd _ ⟨[], rfl, rfl⟩ h).1
  · obtain ⟨L, h1, h2⟩ := hP
    unfold ODEState.takeStep
    cases stepper f m st.t st.u target with
    | error e => exact ⟨L, h1, h2⟩
    | ok r => exact ⟨L, h1, h2⟩
  · obtain ⟨L, h1, h2⟩ := hP
    refine ⟨L ++ [st], ?_, ?_⟩
    · show st.snapshots ++ [mk st] = _
      rw [h1, List.map_append, List.map_singleton]
    · show st.snapshotTimes ++ [st.t] = _
      rw [h2, List.map_append, List.map_singleton]

theorem linspace_tail {T : K} (hT : 0 < T) {n : ℕ} (hn : 2 ≤ n) : ∃ M, linspace T n = 0 :: M ∧ M.Pairwise (· < ·) ∧
    ∀ x, x ∈ M ↔ x = T ∨ (x ∈ linspace T n ∧ x ≠ 0 ∧ x ≤ T) := by
  obtain ⟨m, rfl⟩ : ∃ m, n = m + 2 := ⟨n - 2, by omega⟩
  have hd : (0 : K) < ((m + 2 : ℕ) : K) - 1 := by push_cast; linarith [(Nat.cast_nonneg m : (0 : K) ≤ m)]
  have hs : 0 < T / (((m + 2 : ℕ) : K) - 1) := div_pos hT hd
  have hlast : ((m + 1 : ℕ) : K) * (T / (((m + 2 : ℕ) : K) - 1)) = T := by
    have : ((m + 1 : ℕ) : K) = ((m + 2 : ℕ) : K) - 1 := by push_cast; ring
    rw [this]
    field_simp
  set s := T / (((m + 2 : ℕ) : K) - 1) with hsd
  refine ⟨(List.range (m + 1)).map fun i : ℕ => ((i + 1 : ℕ) : K) * s, ?_, ?_, fun x => ?_⟩
  · unfold linspace
    rw [List.range_succ_eq_map, List.map_cons, List.map_map]
    refine List.cons_eq_cons.2 ⟨by simp, rfl⟩
  · rw [List.pairwise_map]
    refine List.pairwise_lt_range.imp fun {a b} hab => ?_
    have : ((a + 1 : ℕ) : K) < ((b + 1 : ℕ) : K) := by exact_mod_cast Nat.succ_lt_succ hab
    exact mul_lt_mul_of_pos_right this hs
  · constructor
    · intro hx
      obtain ⟨i, hi, rfl⟩ := List.mem_map.1 hx
      have hi := List.mem_range.1 hi
      refine .inr ⟨List.mem_map.2 ⟨i + 1, List.mem_range.2 (by omega), rfl⟩, ?_, ?_⟩
      · have : (0 : K) < ((i + 1 : ℕ) : K) := by exact_mod_cast Nat.succ_pos i
        exact (mul_pos this hs).ne'
      · rw [← hlast]
        have : ((i + 1 : ℕ) : K) ≤ ((m + 1 : ℕ) : K) := by exact_mod_cast (by omega : i + 1 ≤ m + 1)
        exact mul_le_mul_of_nonneg_right this hs.le
    · rintro (rfl | ⟨hx, h0, -⟩)
      · exact List.mem_map.2 ⟨m, List.mem_range.2 (by omega), hlast⟩
      · obtain ⟨i, hi, rfl⟩ := List.mem_map.1 hx
        have hi := List.mem_range.1 hi
        cases i with
        | zero => exact absurd (by simp) h0
        | succ i => exact List.mem_map.2 ⟨i, List.mem_range.2 (by omega), rfl⟩

/-- **C96** The method called has the order asked for: on linear problems a step is the Taylor polynomial of the exponential of
degree `integrator`, or for `integrator = -1` of degree one more than the largest polynomial degree, at most four. Other numbers
raise ValueError, and so does `-1` with negative degrees only. -/
theorem C96_method (a : WrapperArgs K) (p : Fin 3 → ℤ) :
    (∀ m, a.method p = .ok m → ∃ q : ℕ, ((a.integrator = q ∧ 1 ≤ q) ∨
        (a.integrator = -1 ∧ ∃ d, (∀ e, p e ≤ p d) ∧ (q : ℤ) = min (p d) 3 + 1)) ∧
      ∀ (A : U →ₗ[K] U) (dt t : K) (u : U), stepper (fun _ _ v => .ok (dt, A v)) m t u none = .ok (dt, taylorExp A q dt u)) ∧
    (∀ e, a.method p = .error e → e = .valueError) ∧
    ((∃ m, a.method p = .ok m) ↔ a.integrator ∈ [1, 2, 3, 4] ∨ (a.integrator = -1 ∧ ∃ d, 0 ≤ p d)) := by
  have step : ∀ (m : Integrator) (A : U →ₗ[K] U) (dt t : K) (u : U),
      stepper (fun _ _ v => .ok (dt, A v)) m t u none = .ok (dt, taylorExp A m.order dt u) := by
    intro m A dt t u
    obtain ⟨h, hh, e⟩ := C28_linear_order A dt t u none m
    cases hh
    exact e
  by_cases h1 : a.integrator = -1
  · have e : a.method p = runSolver p (fun m _ => m) () := by
      unfold WrapperArgs.method
      rw [h1]
      rfl
    rw [e]
    obtain ⟨k1, k2⟩ := C54_run p (fun m (_ : Unit) => m) ()
    by_cases hp : ∃ d, 0 ≤ p d
    · obtain ⟨m, hm, h3, d, h4⟩ := k1 hp
      obtain ⟨d', hd'⟩ : ∃ d, ∀ d', p d' ≤ p d := Finite.exists_max p
      obtain ⟨d1, hd1⟩ := hp
      refine ⟨fun m' hm' => ?_, fun e' he' => ?_, ?_⟩
      · rw [hm] at hm'
        cases hm'
        refine ⟨m.order, .inr ⟨h1, d', hd', ?_⟩, step m⟩
        have a1 := h3 d'
        have a2 := hd' d
        have a3 := hd' d1
        omega
      · rw [hm] at he'; cases he'
      · exact ⟨fun _ => .inr ⟨h1, d1, hd1⟩, fun _ => ⟨m, hm⟩⟩
    · have := k2 fun d => not_le.1 fun h => hp ⟨d, h⟩
      rw [this]
      refine ⟨fun m hm => (nomatch hm), fun e' he' => (by cases he'; rfl), ⟨fun ⟨m, hm⟩ => (nomatch hm), ?_⟩⟩
      rintro (h | ⟨-, h⟩)
      · rw [h1] at h; simp at h
      · exact absurd h hp
  · have four : ∀ (q : ℕ) (m : Integrator), a.integrator = q → 1 ≤ q → a.method p = .ok m → m.order = q → a.integrator ∈ [1, 2, 3, 4] → _ :=
      fun q m h2 h3 h4 h5 h6 => (⟨fun m' hm' => by
        rw [h4] at hm'
        cases hm'
        exact ⟨q, .inl ⟨h2, h3⟩, h5 ▸ step m⟩, fun e' he' => (by rw [h4] at he'; cases he'),
        ⟨fun _ => .inl h6, fun _ => ⟨m, h4⟩⟩⟩ : (∀ m, a.method p = .ok m → ∃ q : ℕ, ((a.integrator = q ∧ 1 ≤ q) ∨
        (a.integrator = -1 ∧ ∃ d, (∀ e, p e ≤ p d) ∧ (q : ℤ) = min (p d) 3 + 1)) ∧
      ∀ (A : U →ₗ[K] U) (dt t : K) (u : U), stepper (fun _ _ v => .ok (dt, A v)) m t u none = .ok (dt, taylorExp A q dt u)) ∧
    (∀ e, a.method p = .error e → e = .valueError) ∧
    ((∃ m, a.method p = .ok m) ↔ a.integrator ∈ [1, 2, 3, 4] ∨ (a.integrator = -1 ∧ ∃ d, 0 ≤ p d)))
    by_cases e1 : a.integrator = 1
    · exact four 1 .euler e1 le_rfl (by unfold WrapperArgs.method; rw [e1]; rfl) rfl (by rw [e1]; simp)
    by_cases e2 : a.integrator = 2
    · exact four 2 .ssprk2 e2 (by omega) (by unfold WrapperArgs.method; rw [e2]; rfl) rfl (by rw [e2]; simp)
    by_cases e3 : a.integrator = 3
    · exact four 3 .ssprk3 e3 (by omega) (by unfold WrapperArgs.method; rw [e3]; rfl) rfl (by rw [e3]; simp)
    by_cases e4 : a.integrator = 4
    · exact four 4 .rk4 e4 (by omega) (by unfold WrapperArgs.method; rw [e4]; rfl) rfl (by rw [e4]; simp)
    have : a.method p = .error .valueError := by
      unfold WrapperArgs.method
      split <;> first | contradiction | rfl
    rw [this]
    refine ⟨fun m hm => (nomatch hm), fun e' he' => (by cases he'; rfl), ⟨fun ⟨m, hm⟩ => (nomatch hm), ?_⟩⟩
    rintro (h | ⟨h, -⟩)
    · simp at h; omega
    · exact absurd h h1

/-- **C96** A call that computes (the directory does not exist yet, or is to be overwritten) and returns has saved `n_snapshots`
snapshots, of states at the times `0, T/(n-1), 2T/(n-1), …, T`. -/
theorem C96_times (P : Pickle S) (s : BuiltSolver K U S) (hf : PosDt s.f) (a : WrapperArgs K) (hT : 0 < a.T) (hn : 2 ≤ a.nSnapshots)
    (fuel : ℕ) (listing : List String) (rep : Report) (disk disk' : Disk) (hnew : disk a.dir = none ∨ a.overwrite = true) (l : List S)
    (h : wrapper P s a fuel listing rep disk = some (disk', .ok l)) :
    ∃ L : List (ODEState K U S), l = L.map s.snap ∧ L.length = a.nSnapshots ∧
      (∀ i (hi : i < L.length), L[i].t = i * a.T / (a.nSnapshots - 1)) ∧
      readSnapshots P (disk' a.dir) = .ok (some l) ∧ ∀ path, path ≠ a.dir → disk' path = disk path := by
  unfold wrapper at h
  cases hr : wrapperRun P s a fuel listing rep (disk a.dir) with
  | none => rw [hr] at h; cases h
  | some r =>
    rw [hr] at h
    simp only [Option.map_some, Option.some.injEq, Prod.mk.injEq] at h
    obtain ⟨rfl, h⟩ := h
    obtain ⟨calls, res⟩ := r
    simp only at h
    subst h
    unfold wrapperRun at hr
    cases hm : a.method s.p with
    | error e => rw [hm] at hr; simp at hr
    | ok m =>
      rw [hm] at hr
      simp only at hr
      have hr' : (match (ODEState.init s.u0).integrate (stepper s.f m) s.snap fuel
            ⟨some a.T, none, true, linspace a.T a.nSnapshots, false, none⟩ with
          | none => none
          | some (_, some e) => some ([], .error e)
          | some (st, none) =>
            match writeSnapshots P (disk a.dir) a.overwrite listing rep st.snapshots with
            | (calls, some e) => some (calls, .error e)
            | (calls, none) => some (calls, .ok st.snapshots)) = some (calls, Except.ok (ε := PyErr) l) := by
        rcases hnew with h0 | h0
        · rw [h0] at hr ⊢
          by_cases ho : a.overwrite = true
          · rw [if_pos ho] at hr
            exact hr
          · rw [if_neg ho] at hr
            exact hr
        · rw [if_pos h0] at hr
          exact hr
      cases hi : (ODEState.init s.u0).integrate (stepper s.f m) s.snap fuel
          ⟨some a.T, none, true, linspace a.T a.nSnapshots, false, none⟩ with
      | none => rw [hi] at hr'; cases hr'
      | some o =>
        obtain ⟨st, e⟩ := o
        rw [hi] at hr'
        cases e with
        | some e => simp at hr'
        | none =>
          simp only at hr'
          cases hw : writeSnapshots P (disk a.dir) a.overwrite listing rep st.snapshots with
          | mk calls' e' =>
            rw [hw] at hr'
            cases e' with
            | some e => simp at hr'
            | none =>
              simp only [Option.some.injEq, Prod.mk.injEq, Except.ok.injEq] at hr'
              obtain ⟨rfl, rfl⟩ := hr'
              have hd : ∀ d ∈ linspace a.T a.nSnapshots, d = 0 ∨ 0 < d := by
                obtain ⟨M, e, hs, hM⟩ := linspace_tail hT hn
                intro d hd
                unfold linspace at hd
                obtain ⟨i, -, rfl⟩ := List.mem_map.1 hd
                have h1 : (0 : K) ≤ i := Nat.cast_nonneg i
                have h2 : (0 : K) < (a.nSnapshots : K) - 1 := by
                  have : (2 : K) ≤ a.nSnapshots := by exact_mod_cast hn
                  linarith
                exact (mul_nonneg h1 (div_pos hT h2).le).eq_or_lt.imp Eq.symm id
              obtain ⟨L, h1, h2⟩ := snapshots_of_states hf m s.snap hT hd hi
              obtain ⟨-, L', M, -, h3, -, -, -, -, h4⟩ := C24_exact_output_times s.f m s.snap hf a.T _ false fuel _ _ le_rfl hT hd hi
              obtain ⟨h4, h5⟩ := h4 rfl
              obtain ⟨M', e, h6, h7⟩ := linspace_tail hT hn
              have hMM : M = M' := by
                refine List.Perm.eq_of_pairwise (le := (· < ·)) (fun x y _ _ h h' => absurd h (lt_asymm h')) h4 h6 ?_
                exact (List.perm_ext_iff_of_nodup (h4.imp ne_of_lt) (h6.imp ne_of_lt)).2 fun x => (h5 x).trans
                  ((by tauto : (x = a.T ∨ x ∈ linspace a.T a.nSnapshots ∧ x ≠ 0 ∧ x ≤ a.T) ↔ _).trans (h7 x).symm)
              have ht : L.map (fun s => s.t) = linspace a.T a.nSnapshots := by
                rw [← h2, h3, hMM, e]
                rfl
              have hlen : L.length = a.nSnapshots := by
                have := congrArg List.length ht
                simpa [linspace] using this
              refine ⟨L, h1, hlen, fun i hi => ?_, ?_, fun path hp => Function.update_of_ne hp _ _⟩
              · have h8 : (L.map fun s => s.t)[i]'(by simpa using hi) = L[i].t := by simp
                rw [← h8]
                simp only [ht]
                simp only [linspace, List.getElem_map, List.getElem_range]
                ring
              · rw [Function.update_self]
                have := (C49_roundtrip P (disk a.dir) a.overwrite listing rep st.snapshots).1
                rw [hw] at this
                exact this rfl

end

/-! ### C97 -/

section

variable {K : Type} [Field K] [LinearOrder K] [IsStrictOrderedRing K] {U S : Type} [AddCommGroup U] [Module K U]

/-- **C97 violated** After a call that saved its snapshots, a second call with the same keyword arguments but another initial
condition or other boundary conditions (so another solver) returns the snapshots of the first. -/
theorem C97_violated (P : Pickle S) (s₁ s₂ : BuiltSolver K U S) (a : WrapperArgs K) (ho : a.overwrite = false)
    (hm : ∃ m, a.method s₂.p = .ok m) (fuel fuel' : ℕ) (listing listing' : List String) (rep rep' : Report) (disk disk' : Disk)
    (hnew : disk a.dir = none) (l : List S) (h : wrapper P s₁ a fuel listing rep disk = some (disk', .ok l)) :
    wrapper P s₂ a fuel' listing' rep' disk' = some (disk', .ok l) := by
  have hread : readSnapshots P (disk' a.dir) = .ok (some l) := by
    unfold wrapper at h
    cases hr : wrapperRun P s₁ a fuel listing rep (disk a.dir) with
    | none => rw [hr] at h; cases h
    | some r =>
      rw [hr] at h
      simp only [Option.map_some, Option.some.injEq, Prod.mk.injEq] at h
      obtain ⟨rfl, h⟩ := h
      obtain ⟨calls, res⟩ := r
      simp only at h
      subst h
      rw [Function.update_self]
      unfold wrapperRun at hr
      cases hm : a.method s₁.p with
      | error e => rw [hm] at hr; simp at hr
      | ok m =>
        rw [hm, hnew] at hr
        simp only [ho, Bool.false_eq_true, if_false, readSnapshots] at hr
        split at hr
        · cases hr
        · simp at hr
        · rename_i st hi
          cases hw : writeSnapshots P none false listing rep st.snapshots with
          | mk calls' e' =>
            rw [hw] at hr
            cases e' with
            | some e => simp at hr
            | none =>
              simp only [Option.some.injEq, Prod.mk.injEq, Except.ok.injEq] at hr
              obtain ⟨rfl, rfl⟩ := hr
              have := (C49_roundtrip P none false listing rep st.snapshots).1
              rw [hw] at this
              rw [hnew]
              exact this rfl
  obtain ⟨m, hm⟩ := hm
  unfold wrapper wrapperRun
  rw [hm]
  simp only [ho, Bool.false_eq_true, if_false, hread, Option.map_some, runCalls, List.foldl_nil, Function.update_eq_self]

end

theorem fields_inj : ∀ {F F' : List (PyStr × PyStr)}, F.map Prod.fst = F'.map Prod.fst → (∀ x ∈ F, '=' ∉ x.1 ∧ '=' ∉ x.2) →
    (∀ x ∈ F', '=' ∉ x.2) → ∀ {t t' : PyStr}, '=' ∉ t → '=' ∉ t' →
    t ++ F.flatMap (fun kv => '_' :: (kv.1 ++ ['='] ++ kv.2)) = t' ++ F'.flatMap (fun kv => '_' :: (kv.1 ++ ['='] ++ kv.2)) →
    t = t' ∧ F = F'
  | [], [], _, _, _, _, _, _, _, h => by simpa using h
  | [], _ :: _, hk, _, _, _, _, _, _, _ => by simp at hk
  | _ :: _, [], hk, _, _, _, _, _, _, _ => by simp at hk
  | (k, v) :: F, (k', v') :: F', hk, hF, hF', t, t', ht, ht', h => by
    simp only [List.map_cons, List.cons.injEq] at hk
    obtain ⟨rfl, hk⟩ := hk
    have hkv := hF (k, v) List.mem_cons_self
    simp only [List.flatMap_cons] at h
    have h1 : (t ++ '_' :: k) ++ '=' :: (v ++ F.flatMap (fun kv => '_' :: (kv.1 ++ ['='] ++ kv.2))) =
        (t' ++ '_' :: k) ++ '=' :: (v' ++ F'.flatMap (fun kv => '_' :: (kv.1 ++ ['='] ++ kv.2))) := by
      simpa using h
    have hn : ∀ {t : PyStr}, '=' ∉ t → '=' ∉ t ++ '_' :: k := by
      intro t ht
      simp [ht, hkv.1]
    have tw : ∀ {x y : PyStr}, '=' ∉ x → (x ++ '=' :: y).takeWhile (· ≠ '=') = x := by
      intro x y hx
      rw [List.takeWhile_append_of_pos]
      · simp
      · intro c hc
        simpa using fun h : c = '=' => hx (h ▸ hc)
    have h2 : t ++ '_' :: k = t' ++ '_' :: k := by
      rw [← tw (hn ht), h1, tw (hn ht')]
    have h3 : t = t' := List.append_cancel_right h2
    rw [h2] at h1
    have h4 := List.append_cancel_left h1
    simp only [List.cons.injEq, true_and] at h4
    obtain ⟨h5, h6⟩ := fields_inj hk (fun x hx => hF x (List.mem_cons_of_mem _ hx)) (fun x hx => hF' x (List.mem_cons_of_mem _ hx))
      hkv.2 (hF' (k, v') List.mem_cons_self) h4
    exact ⟨h3, by rw [show v = v' from h5, h6]⟩

theorem intercalate_fields (l : List (PyStr × PyStr)) (hl : l ≠ []) :
    '_' :: List.intercalate ['_'] (l.map fun kv => kv.1 ++ ['='] ++ kv.2) = l.flatMap fun kv => '_' :: (kv.1 ++ ['='] ++ kv.2) := by
  induction l with
  | nil => exact absurd rfl hl
  | cons x l ih =>
    cases l with
    | nil => simp [List.intercalate]
    | cons y l =>
      have := ih (by simp)
      rw [List.flatMap_cons, ← this]
      simp [List.intercalate]

theorem sorted_names (kw kw' : List (PyStr × PyStr)) (h : (kw.map Prod.fst).Perm (kw'.map Prod.fst)) :
    (sortedKwargs kw).map Prod.fst = (sortedKwargs kw').map Prod.fst := by
  have hs : ∀ kw, ((sortedKwargs kw).map Prod.fst).Pairwise fun a b => kwKey a ≤ kwKey b := by
    intro kw
    rw [List.pairwise_map]
    exact sortedKwargs_sorted kw
  refine List.Perm.eq_of_pairwise (fun x y _ _ h1 h2 => kwKey_inj (le_antisymm h1 h2)) (hs kw) (hs kw') ?_
  exact ((sortedKwargs_perm kw).map _).trans (h.trans ((sortedKwargs_perm kw').map _).symm)

/-- **C97, what holds** Calls with the same prefix, the same parent directory and the same names of keyword arguments use the same
directory only if all values, the final time, the integrator and the number of snapshots read the same. -/
theorem C97_partial {K : Type} (a b : WrapperArgs K) (hpref : a.pref = b.pref) (hparent : a.parent = b.parent)
    (hnames : (a.kwargs.map Prod.fst).Perm (b.kwargs.map Prod.fst))
    (ha : ∀ x ∈ a.kwargs, '=' ∉ x.1 ∧ '=' ∉ x.2) (hb : ∀ x ∈ b.kwargs, '=' ∉ x.2)
    (hta : '=' ∉ a.textT ∧ '=' ∉ a.textIntegrator ∧ '=' ∉ a.textN) (htb : '=' ∉ b.textT ∧ '=' ∉ b.textIntegrator ∧ '=' ∉ b.textN)
    (h : a.dir = b.dir) :
    (∀ x, x ∈ a.kwargs ↔ x ∈ b.kwargs) ∧ a.textT = b.textT ∧ a.textIntegrator = b.textIntegrator ∧ a.textN = b.textN := by
  have hname : a.projectName = b.projectName := by
    unfold WrapperArgs.dir pathJoin at h
    have hh : a.projectName.head? = b.projectName.head? := by
      unfold WrapperArgs.projectName
      rw [hpref]
      cases b.pref <;> simp
    rw [hh, hparent] at h
    split at h
    · exact h
    · split at h
      · exact List.append_cancel_left h
      · exact List.append_cancel_left h
  let ext : WrapperArgs K → List (PyStr × PyStr) := fun a =>
    [("T".toList, a.textT), ("integrator".toList, a.textIntegrator), ("n_snapshots".toList, a.textN)]
  have hform : ∀ a : WrapperArgs K, a.projectName = a.pref ++ (if sortedKwargs a.kwargs = [] then ['_'] else []) ++
      (sortedKwargs a.kwargs ++ ext a).flatMap fun kv => '_' :: (kv.1 ++ ['='] ++ kv.2) := by
    intro a
    unfold WrapperArgs.projectName
    rw [List.flatMap_append]
    split
    · rename_i h0
      rw [h0]
      simp [ext, List.intercalate]
    · rename_i h0
      rw [← intercalate_fields _ h0]
      simp [ext]
  have hkeys := sorted_names _ _ hnames
  have hempty : (sortedKwargs a.kwargs = []) ↔ (sortedKwargs b.kwargs = []) := by
    constructor <;> intro h0
    · rw [h0] at hkeys
      exact List.map_eq_nil_iff.1 hkeys.symm
    · rw [h0] at hkeys
      exact List.map_eq_nil_iff.1 hkeys
  rw [hform, hform, hpref] at hname
  simp only [hempty] at hname
  have hname := List.append_cancel_left hname
  have hmemA : ∀ x ∈ sortedKwargs a.kwargs, '=' ∉ x.1 ∧ '=' ∉ x.2 := fun x hx => ha x ((sortedKwargs_perm _).subset hx)
  have hmemB : ∀ x ∈ sortedKwargs b.kwargs, '=' ∉ x.2 := fun x hx => hb x ((sortedKwargs_perm _).subset hx)
  obtain ⟨-, hF⟩ := fields_inj (F := sortedKwargs a.kwargs ++ ext a) (F' := sortedKwargs b.kwargs ++ ext b) (t := []) (t' := [])
    (by rw [List.map_append, List.map_append, hkeys]; rfl)
    (fun x hx => by
      rcases List.mem_append.1 hx with hx | hx
      · exact hmemA x hx
      · simp only [ext, List.mem_cons, List.not_mem_nil, or_false] at hx
        rcases hx with rfl | rfl | rfl
        · exact ⟨show '=' ∉ "T".toList by decide, hta.1⟩
        · exact ⟨show '=' ∉ "integrator".toList by decide, hta.2.1⟩
        · exact ⟨show '=' ∉ "n_snapshots".toList by decide, hta.2.2⟩)
    (fun x hx => by
      rcases List.mem_append.1 hx with hx | hx
      · exact hmemB x hx
      · simp only [ext, List.mem_cons, List.not_mem_nil, or_false] at hx
        rcases hx with rfl | rfl | rfl
        · exact htb.1
        · exact htb.2.1
        · exact htb.2.2)
    (by simp) (by simp) (by simpa using hname)
  have hlen : (sortedKwargs a.kwargs).length = (sortedKwargs b.kwargs).length := by
    simpa using congrArg List.length hkeys
  obtain ⟨h1, h2⟩ := List.append_inj hF hlen
  refine ⟨fun x => ?_, ?_⟩
  · rw [← (sortedKwargs_perm a.kwargs).mem_iff, h1, (sortedKwargs_perm b.kwargs).mem_iff]
  · simp only [ext, List.cons.injEq, Prod.mk.injEq, true_and, and_true] at h2
    exact ⟨h2.1, h2.2.1, h2.2.2⟩

/-! ### Concrete cases -/

/-- The call `EulerSolver_wrapper("kh", "data", T=1.0, integrator=1, n_snapshots=3, nx=64, P0=2)`. -/
def sampleCall : WrapperArgs ℚ :=
  ⟨"kh".toList, "data".toList, [("nx".toList, "64".toList), ("P0".toList, "2".toList)], 1, 1, 3, false, "1.0".toList, "1".toList,
    "3".toList⟩

example : sampleCall.dir = "data/kh_nx=64_P0=2_T=1.0_integrator=1_n_snapshots=3".toList := by decide +kernel

example : ({ sampleCall with kwargs := [("P0".toList, "2".toList), ("nx".toList, "64".toList)] } : WrapperArgs ℚ).dir = sampleCall.dir :=
  C96_order _ _ (List.Perm.swap _ _ _) (by decide +kernel)

/-- A solver whose state never changes, with steps of one third; the snapshots hold the state. -/
def stillSolver (u0 : ℚ) : BuiltSolver ℚ ℚ ℕ := ⟨fun _ _ _ => .ok (1 / 3, 0), fun _ => 0, fun st => st.u.num.toNat, u0⟩

def emptyDisk : Disk := fun _ => none

/-- The call saves three snapshots; after it a call with another initial value returns these and not its own. -/
example : (wrapper shiftPickle (stillSolver 5) sampleCall 10 [] ⟨[], none, []⟩ emptyDisk).map Prod.snd = some (.ok [5, 5, 5]) ∧
    (wrapper shiftPickle (stillSolver 7) sampleCall 10 [] ⟨[], none, []⟩ emptyDisk).map Prod.snd = some (.ok [7, 7, 7]) ∧
    ((wrapper shiftPickle (stillSolver 5) sampleCall 10 [] ⟨[], none, []⟩ emptyDisk).bind fun r =>
      wrapper shiftPickle (stillSolver 7) sampleCall 10 [] ⟨[], none, []⟩ r.1).map Prod.snd = some (.ok [5, 5, 5]) := by
  decide +kernel

example : PosDt (stillSolver 5).f ∧ (0 : ℚ) < sampleCall.T ∧ 2 ≤ sampleCall.nSnapshots :=
  ⟨fun s t u dt k h => by cases h; norm_num, by decide +kernel, by decide +kernel⟩

/-- Another value gives another directory. -/
example : ({ sampleCall with kwargs := [("P0".toList, "3".toList), ("nx".toList, "64".toList)] } : WrapperArgs ℚ).dir ≠
    sampleCall.dir := by
  intro h
  have := (C97_partial { sampleCall with kwargs := [("P0".toList, "3".toList), ("nx".toList, "64".toList)] } sampleCall rfl rfl
    (List.Perm.swap _ _ _) (by decide +kernel) (by decide +kernel) (by decide +kernel) (by decide +kernel) h).1 ("P0".toList, "3".toList)
  revert this
  decide +kernel

end FVHOE
