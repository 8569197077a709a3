import Verif.Proofs.Broadcast
import Verif.Proofs.Detect
import Verif.Proofs.Limited
import Verif.Proofs.Memory
import Verif.Proofs.Same

/-!
The right-hand side with the concrete limiter, evaluated.
-/

set_option linter.unusedSectionVars false

namespace FVHOE

variable {K : Type} [Field K] [LinearOrder K] [IsStrictOrderedRing K] {np : ℕ}

theorem mem_dims (c : EulerConfig K np) (d : Fin 3) : d ∈ c.dims ↔ c.scheme.active d = true := by
  unfold EulerConfig.dims
  rw [List.mem_filter]
  refine ⟨fun h => h.2, fun h => ⟨?_, h⟩⟩
  match d with
  | 0 | 1 | 2 => simp

theorem dims_ok (c : EulerConfig K np) (h : c.dims ≠ []) : DimsOK c.dims :=
  ⟨List.Nodup.filter _ (by decide), h⟩

theorem detPad_dims (c : EulerConfig K np) :
    detPad c.dims = fun d => if c.scheme.active d then 3 else 0 := by
  funext d
  unfold detPad
  by_cases h : c.scheme.active d = true
  · rw [if_pos ((mem_dims c d).2 h), if_pos h]
  · rw [if_neg (fun h' => h ((mem_dims c d).1 h')), if_neg h]

theorem dims_cells (c : EulerConfig K np) (d : Fin 3) (h : d ∉ c.dims) : c.n d = 1 := by
  rw [mem_dims] at h
  unfold Scheme.active at h
  simp at h
  exact h.1

/-- The primitive averages of the active variables that the detector sees. -/
def seenPrim (c : EulerConfig K np) (gl gr : Fin 3 → Ghost (State K np)) (U : Ix → State K np) (i : Ix) :
    State K 0 := activePart (latPrim K c.scheme.prim c.p (extAll c.n gl gr U) i)

/-- The detector reports cell `i`. -/
def Reported (o : DetectOpts K) (dims : List (Fin 3)) (n : Fin 3 → ℕ) (W W' : Ix → State K 0) (i : Ix) : Prop :=
  NadCell o dims n W W' i ∨ padAt o.pad (W' i) < 0

theorem limited_rhs (c : EulerConfig K np) (o : LimiterOpts K) (hk : o.toDetectOpts.Known)
    (hd : c.dims ≠ []) (hp : ∀ d, c.p d ≤ 8) (hn : ∀ d, 1 ≤ c.n d) (t : K)
    (gl gr gl' gr' gld grd : Fin 3 → Ghost (State K np))
    (hs : Sides c.scheme (fluxWidth c.scheme c.p) t gl gr)
    (hs' : Sides c.scheme (fluxWidth c.scheme (fallbackP c.p)) t gl' gr')
    (hsd : Sides c.scheme (detectWidth c.scheme) t gld grd)
    (junk : ℕ → Ix → State K np) (mem : Fin 3 → Ix → State K np) (t' : K) (u : Ix → State K np) :
    ∃ dt tr, IsDt c.scheme c.p (latPrim K c.scheme.prim c.p (extAll c.n gl gr u)) dt ∧ tr.shape = c.n ∧
      (∀ i, InCells c.n i → (tr.get i = true ↔ Reported o.toDetectOpts c.dims c.n (seenPrim c gld grd u)
        (seenPrim c gld grd fun i => u i + dt • latDiv c.scheme.active c.h
          (schemeFlux c.scheme c.p none (extAll c.n gl gr u)) i) i)) ∧
      solverRHS (c.limited (some o)).scheme junk mem t t' u =
        limitedResult (c.limited (some o)).scheme (o.limiting c.dims c.isPeriodic)
          (schemeFlux c.scheme c.p none (extAll c.n gl gr u))
          (schemeFlux c.scheme (fallbackP c.p) (o.slope.map (SlopeKind.fn o.tiny))
            (extAll c.n gl' gr' u)) dt (.ok tr) := by
  obtain ⟨dt, h1, h2⟩ := rhs_limited (c.limited (some o)).scheme (o.limiting c.dims c.isPeriodic) rfl
    (o.local _ _) hp hn t gl gr gl' gr' gld grd hs hs' hsd junk mem t' u u fun _ _ => rfl
  obtain ⟨D, e, hsh, hD⟩ := detect_spec o.toDetectOpts hk c.dims (dims_ok c hd) c.n hn (seenPrim c gld grd u)
    (seenPrim c gld grd fun i => u i + dt • latDiv c.scheme.active c.h
          (schemeFlux c.scheme c.p none (extAll c.n gl gr u)) i)
  rw [detPad_dims] at e
  refine ⟨dt, D.trouble, h1, hsh.1, fun i hi => (hD i hi).1, h2.trans ?_⟩
  refine congrArg _ ?_
  exact congrArg (Except.map (·.trouble)) e

theorem broadcast_shape {convex : Bool} {periodic : Fin 3 → Bool} {dims : List (Fin 3)} {tr : Arr Bool}
    {theta : Fin 3 → Arr K} (hd : dims.Pairwise (· < ·))
    (h1 : ∀ e, e ∉ dims → tr.shape e = 1)
    (h : broadcastTrouble K convex periodic dims tr = .ok theta) (d : Fin 3) :
    (theta d).shape = faceShape tr.shape d := by
  cases convex with
  | false =>
    choose F hF1 hF2 hF3 using fun d => simple_spec (K := K) tr dims d
    unfold broadcastTrouble at h
    simp only [Bool.false_eq_true, if_false] at h
    rw [hF1 0, hF1 1, hF1 2] at h
    cases h
    match d with
    | 0 => exact hF2 0
    | 1 => exact hF2 1
    | 2 => exact hF2 2
  | true =>
    match dims, hd with
    | [], _ =>
      unfold broadcastTrouble at h
      simp only [if_true] at h
      obtain ⟨A, _, h⟩ := bind_ok h
      obtain ⟨B, _, h⟩ := bind_ok h
      cases h
    | [a], _ => exact (convex_line tr a (fun e he => h1 e (by simpa using he)) periodic theta h).1 d
    | [a, b], hd =>
      refine (convex_plane tr a b (by simpa using hd) (fun e h2 h3 => h1 e (by simp [h2, h3])) periodic theta
        h).1 d
    | _ :: _ :: _ :: [], _ =>
      unfold broadcastTrouble at h
      simp only [if_true] at h
      obtain ⟨A, _, h⟩ := bind_ok h
      obtain ⟨B, _, h⟩ := bind_ok h
      cases h
    | _ :: _ :: _ :: _ :: _, _ =>
      unfold broadcastTrouble at h
      simp only [if_true] at h
      obtain ⟨A, _, h⟩ := bind_ok h
      obtain ⟨B, _, h⟩ := bind_ok h
      cases h

theorem dims_sorted (c : EulerConfig K np) : c.dims.Pairwise (· < ·) :=
  List.Pairwise.filter _ (by decide)

theorem broadcastsTo_self (n : Fin 3 → ℕ) : broadcastsTo n n := fun _ => Or.inl rfl

theorem inFaces_shape {n : Fin 3 → ℕ} {d : Fin 3} {i : Ix} (h : InFaces n d i) : InBox (faceShape n d) i := by
  intro e
  have := h e
  unfold faceShape
  by_cases he : e = d
  · subst he
    rw [Pi.single_eq_same] at this
    rw [if_pos rfl]
    push_cast
    exact this
  · rw [Pi.single_eq_of_ne he, add_zero] at this
    rw [if_neg he]
    exact this

theorem anyTrue_iff (tr : Arr Bool) : anyTrue tr = true ↔ ∃ i, InCells tr.shape i ∧ tr.get i = true := by
  unfold anyTrue
  rw [List.any_eq_true]
  constructor
  · rintro ⟨i, hi, h⟩
    exact ⟨i, (mem_indexList _ _).1 hi, h⟩
  · rintro ⟨i, hi, h⟩
    exact ⟨i, (mem_indexList _ _).2 hi, h⟩

/-- The flags used for the blending. -/
def used (o : LimiterOpts K) (tr : Arr Bool) : Arr Bool := if o.force then tr.map fun _ => true else tr

theorem used_shape (o : LimiterOpts K) (tr : Arr Bool) : (used o tr).shape = tr.shape := by
  unfold used
  split_ifs <;> rfl

theorem limitedResult_quiet (c : EulerConfig K np) (o : LimiterOpts K) (Fh Fl : Fin 3 → Ix → State K np)
    (dt : K) (tr : Arr Bool) (h : anyTrue (used o tr) = false) :
    limitedResult (c.limited (some o)).scheme (o.limiting c.dims c.isPeriodic) Fh Fl dt (.ok tr) =
      .ok (dt, fun i => if InCells c.n i then latDiv c.scheme.active c.h Fh i else 0) := by
  unfold limitedResult
  simp only [bind, Except.bind]
  unfold used at h
  have h' : anyTrue (if (o.limiting c.dims c.isPeriodic : Limiting K (State K np)).force = true then
    tr.map fun _ => true else tr) = false := h
  rw [h']
  rfl

theorem limitedResult_ok (c : EulerConfig K np) (o : LimiterOpts K) (Fh Fl : Fin 3 → Ix → State K np)
    (dt : K) (tr : Arr Bool) (htr : tr.shape = c.n) (h : anyTrue (used o tr) = true) (theta : Fin 3 → Arr K)
    (hb : broadcastTrouble K o.convex c.isPeriodic c.dims (used o tr) = .ok theta) :
    limitedResult (c.limited (some o)).scheme (o.limiting c.dims c.isPeriodic) Fh Fl dt (.ok tr) =
      .ok (dt, fun i => if InCells c.n i then
        latDiv c.scheme.active c.h (blendFlux (fun d i => (theta d).get i) Fh Fl) i else 0) := by
  have hsh : ∀ d, (theta d).shape = faceShape c.n d := fun d => by
    rw [broadcast_shape (dims_sorted c) (fun e he => by
      rw [used_shape, htr]; exact dims_cells c e he) hb d, used_shape, htr]
  unfold limitedResult
  simp only [bind, Except.bind]
  have h' : anyTrue (if (o.limiting c.dims c.isPeriodic : Limiting K (State K np)).force = true then
    tr.map fun _ => true else tr) = true := h
  have hb' : (o.limiting c.dims c.isPeriodic : Limiting K (State K np)).broadcast
      (if (o.limiting c.dims c.isPeriodic : Limiting K (State K np)).force = true then
        tr.map fun _ => true else tr) = .ok theta := hb
  rw [if_pos h', hb']
  dsimp only
  rw [if_pos (show ∀ d, broadcastsTo (theta d).shape (faceShape (c.limited (some o)).scheme.n d) from
    fun d => by rw [hsh]; exact broadcastsTo_self _)]
  congr 2
  funext i
  by_cases hi : InCells c.n i
  · refine (if_pos hi).trans (Eq.trans ?_ (if_pos hi).symm)
    refine latDiv_congr c.scheme _ _ i hi fun d j _ hj => ?_
    unfold blendFlux
    dsimp only
    rw [bix_eq (theta d) j (fun e => by rw [hsh]; exact inFaces_shape hj e)]
  · exact (if_neg hi).trans (if_neg hi).symm

theorem limitedResult_error (c : EulerConfig K np) (o : LimiterOpts K) (Fh Fl : Fin 3 → Ix → State K np)
    (dt : K) (tr : Arr Bool) (h : anyTrue (used o tr) = true) (e : PyErr)
    (hb : broadcastTrouble K o.convex c.isPeriodic c.dims (used o tr) = .error e) :
    limitedResult (c.limited (some o)).scheme (o.limiting c.dims c.isPeriodic) Fh Fl dt (.ok tr) =
      .error e := by
  unfold limitedResult
  simp only [bind, Except.bind]
  have h' : anyTrue (if (o.limiting c.dims c.isPeriodic : Limiting K (State K np)).force = true then
    tr.map fun _ => true else tr) = true := h
  have hb' : (o.limiting c.dims c.isPeriodic : Limiting K (State K np)).broadcast
      (if (o.limiting c.dims c.isPeriodic : Limiting K (State K np)).force = true then
        tr.map fun _ => true else tr) = .error e := hb
  rw [if_pos h', hb']

theorem limitedResult_inv (c : EulerConfig K np) (o : LimiterOpts K) (Fh Fl : Fin 3 → Ix → State K np)
    (dt dt' : K) (tr : Arr Bool) (htr : tr.shape = c.n) (k : Ix → State K np)
    (h : limitedResult (c.limited (some o)).scheme (o.limiting c.dims c.isPeriodic) Fh Fl dt (.ok tr) =
      .ok (dt', k)) :
    dt' = dt ∧ ((anyTrue (used o tr) = false ∧
        k = fun i => if InCells c.n i then latDiv c.scheme.active c.h Fh i else 0) ∨
      anyTrue (used o tr) = true ∧ ∃ theta,
        broadcastTrouble K o.convex c.isPeriodic c.dims (used o tr) = .ok theta ∧
        k = fun i => if InCells c.n i then
          latDiv c.scheme.active c.h (blendFlux (fun d i => (theta d).get i) Fh Fl) i else 0) := by
  cases ha : anyTrue (used o tr) with
  | false =>
    rw [limitedResult_quiet c o Fh Fl dt tr ha] at h
    cases h
    exact ⟨rfl, Or.inl ⟨rfl, rfl⟩⟩
  | true =>
    cases hb : broadcastTrouble K o.convex c.isPeriodic c.dims (used o tr) with
    | error e =>
      rw [limitedResult_error c o Fh Fl dt tr ha e hb] at h
      cases h
    | ok theta =>
      rw [limitedResult_ok c o Fh Fl dt tr htr ha theta hb] at h
      cases h
      exact ⟨rfl, Or.inr ⟨rfl, theta, rfl, rfl⟩⟩

end FVHOE
