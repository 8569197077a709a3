import Verif.Model.Construct
import Verif.Props.C60
import Verif.Proofs.SolverFlux
import Verif.Props.C41_C44

/-!
C58 and C62: which arguments the solver accepts, and what it makes of them.
-/

set_option linter.unusedSectionVars false

namespace FVHOE

variable {K : Type} [Field K] [LinearOrder K] [IsStrictOrderedRing K]

/-- A single value or a tuple of two. -/
def SideArg.WellFormed {α : Type} (x : SideArg α) : Prop := (∃ a, x = .single a) ∨ ∃ a b, x = .tuple [a, b]

theorem SideArg.pair_ok {α : Type} (x : SideArg α) : x.WellFormed ↔ ∃ p, x.pair = .ok p := by
  constructor
  · rintro (⟨a, rfl⟩ | ⟨a, b, rfl⟩)
    · exact ⟨_, rfl⟩
    · exact ⟨_, rfl⟩
  · rintro ⟨p, h⟩
    match x, h with
    | .single a, _ => exact Or.inl ⟨a, rfl⟩
    | .tuple [a, b], _ => exact Or.inr ⟨a, b, rfl⟩
    | .tuple [], h => cases h
    | .tuple [_], h => cases h
    | .tuple (_ :: _ :: _ :: _), h => cases h
    | .list _, h => cases h

/-- What a boundary argument says of each side. -/
def SideArg.at {α : Type} (x : SideArg α) (s : Side) : Option α :=
  match x, s with
  | .single a, _ => some a
  | .tuple [a, _], .l => some a
  | .tuple [_, b], .r => some b
  | _, _ => none

theorem SideArg.pair_at {α : Type} {x : SideArg α} {p : α × α} (h : x.pair = .ok p) (s : Side) :
    x.at s = some (sideOf p s) := by
  match x, h with
  | .single a, h => cases h; cases s <;> rfl
  | .tuple [a, b], h => cases h; cases s <;> rfl
  | .tuple [], h => cases h
  | .tuple [_], h => cases h
  | .tuple (_ :: _ :: _ :: _), h => cases h
  | .list _, h => cases h

theorem takeNames_ok (l : List String) : ∀ names : List String, (names ++ l).Nodup → takeNames names l = .ok (names ++ l) := by
  induction l with
  | nil => intro names _; simp [takeNames, pure, Except.pure]
  | cons x l ih =>
    intro names h
    have hx : x ∉ names := fun hm => (List.nodup_append.1 h).2.2 x hm x (by simp) rfl
    have := ih (names ++ [x]) (by simpa using h)
    unfold takeNames at this ⊢
    rw [List.foldlM_cons]
    simp only [takeName, hx, if_false]
    change List.foldlM takeName (names ++ [x]) l = _
    rw [this]
    simp

/-- All names that can occur are different. -/
theorem allNames_nodup : (["u"] ++ (slabOrder.map fun e => s!"bc_{dimName e.1}{e.2.name}_value") ++ slabNames ++
    solverArrays).Nodup := by decide +kernel

theorem valueNames_sub {V : Type} (value : Fin 3 → Side → BCValue K V) :
    (valueNames value).Sublist (slabOrder.map fun e => s!"bc_{dimName e.1}{e.2.name}_value") :=
  List.Sublist.map _ List.filter_sublist

/-- A boundary condition is accepted exactly if its arguments are single values or tuples of two; sides keep what was
given. -/
theorem BCArgs.init_ok {V : Type} (a : BCArgs K V) (slabs : Option (Fin 3 → Side → Slab K)) :
    ((∀ d, (a.kind d).WellFormed ∧ (a.value d).WellFormed) →
      ∃ bc names, a.init slabs ["u"] = .ok (bc, names) ∧ (names ++ solverArrays).Nodup) ∧
    ∀ bc names, a.init slabs ["u"] = .ok (bc, names) → (∀ d, (a.kind d).WellFormed ∧ (a.value d).WellFormed) ∧
      bc.slabs = slabs ∧ ∀ d s, (a.kind d).at s = some (bc.kind d s) ∧ (a.value d).at s = some (bc.value d s) := by
  constructor
  · intro h
    obtain ⟨k0, e0⟩ := (SideArg.pair_ok _).1 (h 0).1
    obtain ⟨v0, f0⟩ := (SideArg.pair_ok _).1 (h 0).2
    obtain ⟨k1, e1⟩ := (SideArg.pair_ok _).1 (h 1).1
    obtain ⟨v1, f1⟩ := (SideArg.pair_ok _).1 (h 1).2
    obtain ⟨k2, e2⟩ := (SideArg.pair_ok _).1 (h 2).1
    obtain ⟨v2, f2⟩ := (SideArg.pair_ok _).1 (h 2).2
    let value : Fin 3 → Side → BCValue K V := fun d => sideOf (if d = 0 then v0 else if d = 1 then v1 else v2)
    have hall := allNames_nodup
    have s1 := valueNames_sub value
    have n1 : (["u"] ++ valueNames value ++ slabNames ++ solverArrays).Nodup :=
      hall.sublist (((s1.append_left _).append_right _).append_right _)
    have t1 := takeNames_ok (valueNames value) ["u"] (n1.sublist ((List.sublist_append_left _ _).trans
      (List.sublist_append_left _ _)))
    unfold BCArgs.init
    rw [e0, f0, e1, f1, e2, f2]
    let kind : Fin 3 → Side → BCKind := fun d => sideOf (if d = 0 then k0 else if d = 1 then k1 else k2)
    have s2 : (if slabs.isSome then slabNames else []).Sublist slabNames := by
      split
      · exact List.Sublist.refl _
      · exact List.nil_sublist _
    have n2 : (["u"] ++ valueNames value ++ (if slabs.isSome then slabNames else []) ++ solverArrays).Nodup :=
      n1.sublist ((s2.append_left _).append_right _)
    have t2 := takeNames_ok (if slabs.isSome then slabNames else []) (["u"] ++ valueNames value)
      (n2.sublist (List.sublist_append_left _ _))
    refine ⟨⟨kind, value, slabs⟩, ["u"] ++ valueNames value ++ (if slabs.isSome then slabNames else []), ?_, n2⟩
    change (takeNames ["u"] (valueNames value) >>= _) = _
    rw [t1]
    change (takeNames (["u"] ++ valueNames value) (if slabs.isSome then slabNames else []) >>= _) = _
    rw [t2]
    rfl
  · intro bc names h
    unfold BCArgs.init at h
    obtain ⟨k0, e0, h⟩ := bind_ok h
    obtain ⟨v0, f0, h⟩ := bind_ok h
    obtain ⟨k1, e1, h⟩ := bind_ok h
    obtain ⟨v1, f1, h⟩ := bind_ok h
    obtain ⟨k2, e2, h⟩ := bind_ok h
    obtain ⟨v2, f2, h⟩ := bind_ok h
    obtain ⟨n1, -, h⟩ := bind_ok h
    obtain ⟨n2, -, h⟩ := bind_ok h
    cases h
    refine ⟨fun d => ?_, rfl, fun d s => ?_⟩
    · match d with
      | 0 => exact ⟨(SideArg.pair_ok _).2 ⟨_, e0⟩, (SideArg.pair_ok _).2 ⟨_, f0⟩⟩
      | 1 => exact ⟨(SideArg.pair_ok _).2 ⟨_, e1⟩, (SideArg.pair_ok _).2 ⟨_, f1⟩⟩
      | 2 => exact ⟨(SideArg.pair_ok _).2 ⟨_, e2⟩, (SideArg.pair_ok _).2 ⟨_, f2⟩⟩
    · match d with
      | 0 => exact ⟨SideArg.pair_at e0 s, SideArg.pair_at f0 s⟩
      | 1 => exact ⟨SideArg.pair_at e1 s, SideArg.pair_at f1 s⟩
      | 2 => exact ⟨SideArg.pair_at e2 s, SideArg.pair_at f2 s⟩


theorem riemannOf_ok (name : String) : (∃ k, riemannOf name = .ok k) ↔ name ∈ ["advection_upwind", "llf", "hllc"] := by
  constructor
  · rintro ⟨k, h⟩
    unfold riemannOf at h
    split at h <;> simp_all
  · intro h
    simp only [List.mem_cons, List.not_mem_nil, or_false] at h
    rcases h with rfl | rfl | rfl
    · exact ⟨_, rfl⟩
    · exact ⟨_, rfl⟩
    · exact ⟨_, rfl⟩


/-- The conditions under which a solver can be constructed. -/
structure Accepted (a : SolverArgs K) : Prop where
  cells : ∀ d, 1 ≤ a.n d
  names : (a.passives.map Prod.fst).Nodup
  ic : a.fvIc = true → a.conservativeIc = true
  active : ∃ d, ¬ (a.n d = 1 ∧ a.p d = 0)
  buffer : 1 ≤ a.slabBufferSize
  sides : ∀ b, a.bc = some b → ∀ d, (b.kind d).WellFormed ∧ (b.value d).WellFormed
  riemann : a.riemannSolver ∈ ["advection_upwind", "llf", "hllc"]

/-- The dictionary of the passive scalars has an entry for each of its keys. -/
theorem PassiveICs.get?_isSome (d : PassiveICs K) : ∀ s ∈ d.map Prod.fst, (d.get? s).isSome := by
  intro s hs
  obtain ⟨e, he, rfl⟩ := List.mem_map.1 hs
  unfold PassiveICs.get?
  rw [Option.isSome_map, List.find?_isSome]
  exact ⟨e, List.mem_reverse.2 he, by simp⟩

/-- Every key of the dictionary is a name of the state. -/
theorem init_map_isSome {passives : List String} {ndim : ℕ} {hs : HydroState}
    (h : HydroState.init passives ndim = .ok hs) : hs.passives = passives ∧ ∀ s ∈ passives, (hs.map s).isSome := by
  simp only [HydroState.init] at h
  split at h
  · cases h
  · rename_i hd
    split at h
    · cases h
      refine ⟨rfl, fun s hs => ?_⟩
      change (VarMap.set _ _ _ s).isSome
      unfold VarMap.set
      by_cases hp : s = "passive_scalars"
      · subst hp
        rw [Function.update_self]
        rfl
      · rw [Function.update_of_ne hp]
        obtain ⟨i, hi, rfl⟩ := List.mem_iff_getElem.1 hs
        rw [addPassives_get _ _ _ _ hi (not_not.1 hd)]
        rfl
    · rename_i he
      cases h
      rw [not_not.1 he]
      exact ⟨rfl, fun s hs => absurd hs (by simp)⟩

theorem writePassives_ok (hs : HydroState) (d : PassiveICs K) (m : Slab K) (l : List String)
    (h : ∀ s ∈ l, (d.get? s).isSome ∧ (hs.map s).isSome) : ∀ rows, ∃ out, writePassives hs d m l rows = .ok out := by
  induction l with
  | nil => exact fun rows => ⟨rows, rfl⟩
  | cons s l ih =>
    intro rows
    obtain ⟨h1, h2⟩ := h s (by simp)
    obtain ⟨f, hf⟩ := Option.isSome_iff_exists.1 h1
    obtain ⟨ix, hx⟩ := Option.isSome_iff_exists.1 h2
    obtain ⟨out, e⟩ := ih (fun s hs => h s (by simp [hs])) (assignRows rows ix (f m))
    exact ⟨out, by simp only [writePassives, hf, hx]; exact e⟩

theorem buildIC_ok (hs : HydroState) (ndim : ℕ) (core : Slab K → ℕ → Ix → K) (d : PassiveICs K)
    (h : HydroState.init (d.map Prod.fst) ndim = .ok hs) (junk : ℕ → Ix → K) (m : Slab K) :
    ∃ rows, buildIC hs core d junk m = .ok rows := by
  obtain ⟨e, h2⟩ := init_map_isSome h
  have hall : (hs.passives.all fun s => (d.get? s).isSome) = true := by
    rw [e]
    exact List.all_eq_true.2 d.get?_isSome
  unfold buildIC
  rw [hall]
  simp only [Bool.not_true, Bool.and_false, Bool.false_eq_true, if_false]
  split
  · exact writePassives_ok hs d m _ (fun s hs' => by rw [e] at hs'; exact ⟨d.get?_isSome s hs', h2 s hs'⟩) _
  · exact ⟨_, rfl⟩

theorem thickness_zero (a : SolverArgs K) : (∀ d, a.thickness d = 0) ↔
    ¬ ((∃ d, ¬ (a.n d = 1 ∧ a.p d = 0)) ∧ 1 ≤ a.slabBufferSize) := by
  unfold SolverArgs.thickness SolverArgs.active
  constructor
  · rintro h ⟨⟨d, hd⟩, hb⟩
    have := h d
    rw [if_pos (by simpa [imp_iff_not_or] using hd)] at this
    omega
  · intro h d
    by_cases hd : a.n d = 1 ∧ a.p d = 0
    · rw [if_neg (by simpa using hd)]
    · rw [if_pos (by simpa [imp_iff_not_or] using hd)]
      by_contra hb
      exact h ⟨⟨d, hd⟩, by omega⟩

/-- **C58 (partial)** A solver can be constructed exactly with these arguments: at least one cell per direction,
different passive names, averages only together with conserved variables, at least one active direction, a positive
buffer, boundary arguments that are single values or tuples of two, and one of three names of Riemann solvers. Missing:
the default arguments and the documented name "advection_upwinding", which are refused (`C58_violated`). -/
theorem C58_partial (a : SolverArgs K) (gauss : ℕ → List (K × K)) (junk : ℕ → Ix → K) :
    (∃ b, a.build gauss junk = .ok b) ↔ Accepted a := by
  constructor
  · rintro ⟨b, h⟩
    unfold SolverArgs.build at h
    obtain ⟨_, h1, h⟩ := bind_ok h
    obtain ⟨hs, h2, h⟩ := bind_ok h
    obtain ⟨_, -, h⟩ := bind_ok h
    obtain ⟨u, h3, h⟩ := bind_ok h
    obtain ⟨names, h4, h⟩ := bind_ok h
    cases h4
    obtain ⟨mesh, h4, h⟩ := bind_ok h
    obtain ⟨slabs, h5, h⟩ := bind_ok h
    obtain ⟨⟨bc, names⟩, h6, h⟩ := bind_ok h
    obtain ⟨names', -, h⟩ := bind_ok h
    obtain ⟨riem, h7, h⟩ := bind_ok h
    have hth : ¬ ∀ d, a.thickness d = 0 := by
      intro hz
      unfold uniformMeshgen at h4
      rw [if_pos hz] at h4
      cases h4
      cases h5
    rw [thickness_zero, not_not] at hth
    refine ⟨fun d => ?_, ?_, ?_, hth.1, hth.2, ?_, (riemannOf_ok _).1 ⟨_, h7⟩⟩
    · unfold checkCells at h1
      split at h1
      · cases h1
      · rename_i hc
        rw [not_exists] at hc
        have := hc d
        omega
    · by_contra hd
      simp only [HydroState.init] at h2
      rw [if_pos hd] at h2
      cases h2
    · intro hf
      unfold initialArray at h3
      rw [hf] at h3
      cases hc : a.conservativeIc with
      | true => rfl
      | false => rw [hc] at h3; cases h3
    · intro b' hb
      unfold SolverArgs.initBC at h6
      rw [hb] at h6
      exact ((BCArgs.init_ok b' (some slabs)).2 _ _ h6).1
  · intro h
    have h1 : checkCells a.n = .ok () := by
      unfold checkCells
      rw [if_neg]
      rintro ⟨d, hd⟩
      have := h.cells d
      omega
    obtain ⟨hs, h2⟩ : ∃ hs, HydroState.init (a.passives.map Prod.fst) 4 = .ok hs := by
      simp only [HydroState.init]
      rw [if_neg (not_not.2 h.names)]
      split
      · exact ⟨_, rfl⟩
      · exact ⟨_, rfl⟩
    obtain ⟨rows, h3⟩ := buildIC_ok hs 4 a.core a.passives h2 junk (meshgen a.n a.dom)
    obtain ⟨u, h4⟩ : ∃ u, initialArray a.gamma gauss (a.icFunc hs junk) a.conservativeIc a.fvIc a.n a.dom a.p = .ok u := by
      unfold initialArray
      cases hc : a.conservativeIc <;> cases hf : a.fvIc
      · exact ⟨_, rfl⟩
      · rw [h.ic hf] at hc; cases hc
      · exact ⟨_, rfl⟩
      · exact ⟨_, rfl⟩
    have h5 : uniformMeshgen a.n a.dom a.thickness = .ok (.pair (meshgen a.n a.dom) (meshSlab a.n a.dom a.thickness)) := by
      unfold uniformMeshgen
      rw [if_neg (by rw [thickness_zero, not_not]; exact ⟨h.active, h.buffer⟩), if_neg]
      rintro ⟨d, hd⟩
      have := h.cells d
      omega
    obtain ⟨bc, names, h6, h7⟩ : ∃ bc names, a.initBC (meshSlab a.n a.dom a.thickness) ["u"] = .ok (bc, names) ∧
        (names ++ solverArrays).Nodup := by
      unfold SolverArgs.initBC
      cases hb : a.bc with
      | none => exact (BCArgs.init_ok _ none).1 fun d => ⟨Or.inr ⟨_, _, rfl⟩, Or.inl ⟨_, rfl⟩⟩
      | some b => exact (BCArgs.init_ok b (some _)).1 (h.sides b hb)
    obtain ⟨k, h8⟩ := (riemannOf_ok _).2 h.riemann
    refine ⟨⟨(⟨⟨a.gamma, a.csqFloor, a.sqrt⟩, k, a.n, a.p, solverSpacing a.n a.dom, a.cfl, a.fixedDt,
      setIcValues bc (a.u0 hs junk), none⟩ : EulerConfig K a.np).limited a.limiter, u, names ++ solverArrays⟩, ?_⟩
    · unfold SolverArgs.build
      rw [h1, h2]
      simp only [bind, Except.bind]
      rw [h3, h4]
      simp only [takeName, List.not_mem_nil, if_false, List.nil_append]
      rw [h5]
      simp only [MeshResult.unpack]
      rw [h6]
      simp only
      rw [takeNames_ok _ _ h7, h8]
      rfl


/-- The column of variables the initial condition gives at entry `j` of a mesh. -/
def icColumn (a : SolverArgs K) (m : Slab K) (j : Ix) : State K a.np
  | .rho => a.core m 0 j
  | .mom d => a.core m (1 + d) j
  | .en => a.core m 4 j
  | .ps i => ((a.passives[i]).2 m).get j

theorem PassiveICs.get?_nodup (d : PassiveICs K) (h : (d.map Prod.fst).Nodup) (i : ℕ) (hi : i < d.length) :
    d.get? (d[i]).1 = some (d[i]).2 := by
  unfold PassiveICs.get?
  have h1 : (d.reverse.find? fun e => e.1 == (d[i]).1) = some d[i] := by
    rw [List.find?_eq_some_iff_append]
    refine ⟨by simp, (d.drop (i + 1)).reverse, (d.take i).reverse, ?_, ?_⟩
    · conv_lhs => rw [← List.take_append_drop i d, List.drop_eq_getElem_cons hi]
      simp
    · intro e he
      rw [List.mem_reverse, List.mem_drop_iff_getElem] at he
      obtain ⟨k, hk, rfl⟩ := he
      have := (List.nodup_iff_injective_get.1 h)
      simp only [Bool.not_eq_true', beq_eq_false_iff_ne, ne_eq]
      intro he
      have := @this ⟨i + 1 + k, by have := hk; simp; omega⟩ ⟨i, by simpa using hi⟩ (by simpa using he)
      simp at this
      omega
  rw [h1]
  rfl

theorem icFunc_get (a : SolverArgs K) (hs : HydroState) (h : HydroState.init (a.passives.map Prod.fst) 4 = .ok hs)
    (hn : (a.passives.map Prod.fst).Nodup) (hr : "passive_scalars" ∉ a.passives.map Prod.fst) (junk : ℕ → Ix → K)
    (m : Slab K) : (a.icFunc hs junk m).shape = (m.coord 0).shape ∧
      ∀ j, (a.icFunc hs junk m).get j = icColumn a m j := by
  refine ⟨rfl, fun j => ?_⟩
  obtain ⟨rows, e, e1, e2⟩ := C60_rows _ 4 hn hr hs h a.core a.passives a.passives.get?_isSome junk m
  funext v
  simp only [SolverArgs.icFunc, e]
  cases v with
  | rho => rw [e1 _ (by simp [varRow])]; rfl
  | mom d => rw [e1 _ (by simp only [varRow]; omega)]; rfl
  | en => rw [e1 _ (by simp [varRow])]; rfl
  | ps i =>
    obtain ⟨f, hf, hf2⟩ := e2 i (by simp)
    rw [List.getElem_map, PassiveICs.get?_nodup _ hn i i.2] at hf
    cases hf
    change rows (5 + i) j = _
    rw [hf2]
    rfl

/-- **C62** The solver built has the cells, degrees, time-step options and gas given, the spacing
`(x1 - x0) / n`, periodic sides if no boundary condition was given and otherwise the kinds and values given, with the
slab coordinates of the mesh; the "ic" sides get the initial condition in conserved variables; and the initial array is
made from the initial condition, the core in rows 0 to 4 and the passive scalars in the order of the dictionary. -/
theorem C62_built (a : SolverArgs K) (gauss : ℕ → List (K × K)) (junk : ℕ → Ix → K) (b : Built K a.np)
    (h : a.build gauss junk = .ok b) (hr : "passive_scalars" ∉ a.passives.map Prod.fst) :
    b.config.n = a.n ∧ b.config.p = a.p ∧ (∀ d, b.config.h d = ((a.dom d).2 - (a.dom d).1) / a.n d) ∧
    b.config.cfl = a.cfl ∧ b.config.fixedDt = a.fixedDt ∧ b.config.gas = ⟨a.gamma, a.csqFloor, a.sqrt⟩ ∧
    (a.limiter = none → b.config.limiting = none) ∧
    (∀ o, a.limiter = some o → b.config.limiting = some (o.limiting b.config.dims b.config.isPeriodic)) ∧
    b.config.riem = (if a.riemannSolver = "llf" then .llf else if a.riemannSolver = "hllc" then .hllc
      else .advectionUpwind) ∧
    (a.bc = none → ∀ d s, b.config.bc.kind d s = .periodic) ∧
    (∀ bc, a.bc = some bc → (∀ d s, (bc.kind d).at s = some (b.config.bc.kind d s)) ∧
      (∀ d s, b.config.bc.kind d s ≠ .ic → (bc.value d).at s = some (b.config.bc.value d s)) ∧
      b.config.bc.slabs = some (meshSlab a.n a.dom fun d => if a.n d = 1 ∧ a.p d = 0 then 0 else a.slabBufferSize)) ∧
    (∀ d s, b.config.bc.kind d s = .ic → a.fvIc = false → ∃ g, b.config.bc.value d s = .func g ∧ ∀ x y z, ∃ A,
      g x y z none = .ok A ∧ A.shape = x.shape ∧ ∀ j, A.get j = (if a.conservativeIc then icColumn a ⟨![x, y, z]⟩ j
        else conserved a.gamma (icColumn a ⟨![x, y, z]⟩ j))) ∧
    ∃ ic : Slab K → Arr (State K a.np), (∀ m, (ic m).shape = (m.coord 0).shape ∧ ∀ j, (ic m).get j = icColumn a m j) ∧
      initialArray a.gamma gauss ic a.conservativeIc a.fvIc a.n a.dom a.p = .ok b.u := by
  have hacc := (C58_partial a gauss junk).1 ⟨b, h⟩
  unfold SolverArgs.build at h
  obtain ⟨_, -, h⟩ := bind_ok h
  obtain ⟨hs, h2, h⟩ := bind_ok h
  obtain ⟨_, -, h⟩ := bind_ok h
  obtain ⟨u, h3, h⟩ := bind_ok h
  obtain ⟨names, h4, h⟩ := bind_ok h
  cases h4
  obtain ⟨mesh, h4, h⟩ := bind_ok h
  obtain ⟨slabs, h5, h⟩ := bind_ok h
  obtain ⟨⟨bc, names⟩, h6, h⟩ := bind_ok h
  obtain ⟨names', -, h⟩ := bind_ok h
  obtain ⟨riem, h7, h⟩ := bind_ok h
  have hth : a.thickness = fun d => if a.n d = 1 ∧ a.p d = 0 then 0 else a.slabBufferSize := by
    funext d
    unfold SolverArgs.thickness SolverArgs.active
    by_cases hd : a.n d = 1 ∧ a.p d = 0
    · rw [if_neg (by simpa using hd), if_pos hd]
    · rw [if_pos (by simpa [imp_iff_not_or] using hd), if_neg hd]
  have hsl : slabs = meshSlab a.n a.dom a.thickness := by
    unfold uniformMeshgen at h4
    split at h4
    · cases h4; cases h5
    · split at h4
      · cases h4
      · cases h4; cases h5; rfl
  have hic := icFunc_get a hs h2 hacc.names hr junk
  have hlim : ∀ (c : EulerConfig K a.np) (o : Option (LimiterOpts K)), (c.limited o).n = c.n ∧ (c.limited o).p = c.p ∧
      (c.limited o).h = c.h ∧ (c.limited o).cfl = c.cfl ∧ (c.limited o).fixedDt = c.fixedDt ∧ (c.limited o).gas = c.gas ∧
      (o = none → (c.limited o).limiting = none) ∧ (c.limited o).riem = c.riem ∧ (c.limited o).bc = c.bc := by
    intro c o
    cases o with
    | none => exact ⟨rfl, rfl, rfl, rfl, rfl, rfl, fun _ => rfl, rfl, rfl⟩
    | some o => exact ⟨rfl, rfl, rfl, rfl, rfl, rfl, (fun h => nomatch h), rfl, rfl⟩
  cases h
  obtain ⟨l1, l2, l3, l4, l5, l6, l7, l8, l9⟩ := hlim ⟨⟨a.gamma, a.csqFloor, a.sqrt⟩, riem, a.n, a.p,
    solverSpacing a.n a.dom, a.cfl, a.fixedDt, setIcValues bc (a.u0 hs junk), none⟩ a.limiter
  refine ⟨l1, l2, fun d => by rw [l3]; rfl, l4, l5, l6, l7, ?_, ?_, ?_, ?_, ?_, a.icFunc hs junk, hic, h3⟩
  · intro o ho
    rw [ho]
    rfl
  · rw [l8]
    change riem = _
    have := hacc.riemann
    simp only [List.mem_cons, List.not_mem_nil, or_false] at this
    rcases this with e | e | e <;> rw [e] at h7 ⊢ <;> cases h7 <;> rfl
  · intro hb d s
    rw [l9]
    change bc.kind d s = _
    unfold SolverArgs.initBC at h6
    rw [hb] at h6
    have := ((BCArgs.init_ok _ none).2 _ _ h6).2.2 d s
    have h1 := this.1
    cases s <;> exact (Option.some.inj h1).symm
  · intro bc' hb
    rw [l9]
    unfold SolverArgs.initBC at h6
    rw [hb] at h6
    obtain ⟨-, i1, i2⟩ := (BCArgs.init_ok bc' (some slabs)).2 _ _ h6
    refine ⟨fun d s => (i2 d s).1, fun d s hk => ?_, ?_⟩
    · rw [(i2 d s).2]
      exact congrArg some (if_neg hk).symm
    · rw [← hth, ← hsl]
      exact i1
  · intro d s hk hf
    rw [l9] at hk ⊢
    change bc.kind d s = .ic at hk
    refine ⟨a.u0Func hs junk, ?_, ?_⟩
    · change (if bc.kind d s = .ic then a.u0 hs junk else bc.value d s) = _
      rw [if_pos hk]
      unfold SolverArgs.u0
      rw [hf]
      rfl
    · intro x y z
      obtain ⟨c1, c2⟩ := hic ⟨![x, y, z]⟩
      refine ⟨_, rfl, ?_, fun j => ?_⟩
      · split
        · exact c1
        · exact c1
      · split
        · exact c2 j
        · change computeConservatives _ _ = _
          rw [c2 j, conservatives_eq]


/-- The boundary types that work, one side of the boundary condition of a solver built from `a`. -/
def WorkingSide (a : SolverArgs K) (c : EulerConfig K a.np) (w : ℕ) (d : Fin 3) (s : Side) : Prop :=
  c.bc.kind d s = .free ∨
  ((c.bc.kind d s = .outflow ∨ c.bc.kind d s = .reflective ∨
    (c.bc.kind d s = .periodic ∧ c.bc.kind d .l = .periodic)) ∧ w ≤ a.n d) ∨
  (c.bc.kind d s = .dirichlet ∧ a.bc ≠ none ∧ ((∃ v, c.bc.value d s = .const v) ∨
    ∃ g, c.bc.value d s = .func g ∧ ∀ x y z t, ∃ A, g x y z (some t) = .ok A ∧ A.shape = x.shape)) ∨
  (c.bc.kind d s = .ic ∧ a.bc ≠ none ∧ a.fvIc = false)

theorem fills_of_shape {V : Type} (n gw : Fin 3 → ℕ) (d : Fin 3) (s : Side) (A : Arr V)
    (hA : A.shape = fun e => if e = d then gw e else n e + 2 * gw e) :
    FillsSlab n gw d s A fun i => A.get (A.bix (i - slabLo (padLo gw) (padHi n gw) (gw d) d s)) := by
  refine ⟨fun e => Or.inl ?_, fun i _ => rfl⟩
  rw [hA]
  by_cases he : e = d
  · subst he
    cases s <;> simp [slabLo, slabHi, padLo, padHi]
  · cases s <;> simp [slabLo, slabHi, padLo, padHi, he] <;> omega

/-- **C58 (usable)** A solver built without limiting, with degrees up to 8 and sides of the working types in its active
directions, evaluates its right-hand side at every state without an exception. -/
theorem C58_usable (a : SolverArgs K) (gauss : ℕ → List (K × K)) (junk : ℕ → Ix → K) (b : Built K a.np)
    (h : a.build gauss junk = .ok b) (hr : "passive_scalars" ∉ a.passives.map Prod.fst) (hlim : a.limiter = none)
    (hp : ∀ d, a.p d ≤ 8)
    (hb : ∀ d, ¬ (a.n d = 1 ∧ a.p d = 0) → ∀ s, WorkingSide a b.config (fluxGw a.p + 2 * ((a.p d + 1) / 2)) d s)
    (hw : ∀ d s, b.config.bc.kind d s = .dirichlet ∨ b.config.bc.kind d s = .ic →
      ∀ e, ¬ (a.n e = 1 ∧ a.p e = 0) → fluxGw a.p + 2 * ((a.p e + 1) / 2) ≤ a.slabBufferSize)
    (t t' : K) (junk' : ℕ → Ix → State K a.np) (mem : Fin 3 → Ix → State K a.np) (u : Ix → State K a.np) :
    ∃ dt D, solverRHS b.config.scheme junk' mem t t' u = .ok (dt, D) := by
  have hacc := (C58_partial a gauss junk).1 ⟨b, h⟩
  obtain ⟨e1, e2, -, -, -, -, e3, -, -, -, e4, e5, -⟩ := C62_built a gauss junk b h hr
  have hact : ∀ d, b.config.scheme.active d = true ↔ ¬ (a.n d = 1 ∧ a.p d = 0) := by
    intro d
    unfold Scheme.active
    change (!(b.config.n d == 1 && b.config.p d == 0)) = true ↔ _
    rw [e1, e2]
    simp [imp_iff_not_or]
  have hW : ∀ d, fluxWidth b.config.scheme b.config.scheme.p d =
      if a.n d = 1 ∧ a.p d = 0 then 0 else fluxGw a.p + 2 * ((a.p d + 1) / 2) := by
    intro d
    unfold fluxWidth ceilHalf
    change (if _ then fluxGw b.config.p else 0) + 2 * ((b.config.p d + 1) / 2) = _
    rw [e2]
    by_cases hd : a.n d = 1 ∧ a.p d = 0
    · rw [if_pos hd, if_neg (by rw [hact]; simpa using hd), hd.2]
    · rw [if_neg hd, if_pos ((hact d).2 hd)]
  have key : ∀ d s, ∃ G, SideSpec b.config.scheme.bc b.config.scheme.negate b.config.scheme.n
      (fluxWidth b.config.scheme b.config.scheme.p) t d s G := by
    intro d s
    by_cases hd : a.n d = 1 ∧ a.p d = 0
    · exact ⟨.wrap, .inactive (by rw [hW, if_pos hd]) _⟩
    have hwd : fluxWidth b.config.scheme b.config.scheme.p d = fluxGw a.p + 2 * ((a.p d + 1) / 2) := by
      rw [hW, if_neg hd]
    have hn : ∀ d, b.config.scheme.n d = a.n d := fun d => congrFun e1 d
    have h0 : fluxWidth b.config.scheme b.config.scheme.p d ≠ 0 := by
      rw [hwd]
      unfold fluxGw
      dsimp only
      omega
    have slab : ∀ bc', a.bc = some bc' → (b.config.bc.kind d s = .dirichlet ∨ b.config.bc.kind d s = .ic) →
        ∃ c, trimSlabs b.config.scheme.bc.slabs (fluxWidth b.config.scheme b.config.scheme.p) d s = .ok c ∧
          ∀ a', (c a').shape = fun e => if e = d then fluxWidth b.config.scheme b.config.scheme.p e else
            b.config.scheme.n e + 2 * fluxWidth b.config.scheme b.config.scheme.p e := by
      intro bc' hbc hk
      obtain ⟨c, i1, i2⟩ := trimSlabs_mesh b.config.scheme.bc b.config.scheme.n _
        (fluxWidth b.config.scheme b.config.scheme.p) a.dom (fun d => by rw [hn]; exact hacc.cells d)
        (by rw [show b.config.scheme.n = a.n from e1]; exact (e4 bc' hbc).2.2) (fun e => by
          rw [hW]
          by_cases he : a.n e = 1 ∧ a.p e = 0
          · rw [if_pos he, if_pos he]
          · rw [if_neg he, if_neg he]; exact hw d s hk e he) d s h0
      exact ⟨c, i1, fun a' => (i2 a').1⟩
    rcases hb d hd s with hk | ⟨hk | hk | ⟨hk, hl⟩, hle⟩ | ⟨hk, hbc, hv⟩ | ⟨hk, hbc, hf⟩
    · exact ⟨_, .free hk (by rw [hn]; exact hacc.cells d)⟩
    · exact ⟨_, .outflow hk (by rw [hwd, hn]; exact hle)⟩
    · exact ⟨_, .reflective hk (by rw [hwd, hn]; exact hle)⟩
    · exact ⟨_, .periodic hk hl (by rw [hwd, hn]; exact hle) (by rw [hn]; exact hacc.cells d)⟩
    · obtain ⟨bc', hbc'⟩ := Option.ne_none_iff_exists'.1 hbc
      obtain ⟨c, i1, i2⟩ := slab bc' hbc' (Or.inl hk)
      rcases hv with ⟨v, hv⟩ | ⟨g, hv, hg⟩
      · exact ⟨_, .const (Or.inl hk) v hv ⟨c, i1⟩⟩
      · obtain ⟨A, j1, j2⟩ := hg (c 0) (c 1) (c 2) t
        exact ⟨_, .func g (some t) (Or.inl ⟨hk, rfl⟩) hv _ ⟨c, A, i1, j1, fills_of_shape _ _ _ _ _ (j2.trans (i2 0))⟩⟩
    · obtain ⟨bc', hbc'⟩ := Option.ne_none_iff_exists'.1 hbc
      obtain ⟨c, i1, i2⟩ := slab bc' hbc' (Or.inr hk)
      obtain ⟨g, hv, hg⟩ := e5 d s hk hf
      obtain ⟨A, j1, j2, -⟩ := hg (c 0) (c 1) (c 2)
      exact ⟨_, .func g none (Or.inr ⟨hk, rfl⟩) hv _ ⟨c, A, i1, j1, fills_of_shape _ _ _ _ _ (j2.trans (i2 0))⟩⟩
  choose G hG using key
  obtain ⟨dt, -, hrhs⟩ := rhs_spec b.config.scheme (e3 hlim) (fun d => by
    change b.config.p d ≤ 8
    rw [e2]
    exact hp d) (fun d => by
    change 1 ≤ b.config.n d
    rw [e1]
    exact hacc.cells d) t (fun d => G d .l) (fun d => G d .r) (fun d => ⟨hG d .l, hG d .r⟩) junk' mem t' u u
    (fun _ _ => rfl)
  exact ⟨dt, _, hrhs⟩


theorem foldlM_error {α β : Type} (f : α → β → Except PyErr α) (x : β) (hx : ∀ a r, f a x ≠ .ok r) (l : List β)
    (hl : x ∈ l) : ∀ a r, l.foldlM f a ≠ .ok r := by
  induction l with
  | nil => cases hl
  | cons y l ih =>
    intro a r h
    rw [List.foldlM_cons] at h
    obtain ⟨a', h1, h2⟩ := bind_ok h
    rcases List.mem_cons.1 hl with rfl | hm
    · exact hx _ _ h1
    · exact ih hm _ _ h2

/-- **C58 (violated, boundary type)** With the double-Mach boundary on a side of an active direction the solver is
built, but no evaluation of its right-hand side succeeds. -/
theorem C58_double_mach (a : SolverArgs K) (gauss : ℕ → List (K × K)) (junk : ℕ → Ix → K) (b : Built K a.np)
    (h : a.build gauss junk = .ok b) (hr : "passive_scalars" ∉ a.passives.map Prod.fst) (d : Fin 3) (s : Side)
    (hk : b.config.bc.kind d s = .doubleMach) (hd : ¬ (a.n d = 1 ∧ a.p d = 0))
    (t t' : K) (junk' : ℕ → Ix → State K a.np) (mem : Fin 3 → Ix → State K a.np) (u : Ix → State K a.np)
    (r : K × (Ix → State K a.np)) : solverRHS b.config.scheme junk' mem t t' u ≠ .ok r := by
  obtain ⟨e1, e2, -⟩ := C62_built a gauss junk b h hr
  intro he
  unfold solverRHS at he
  obtain ⟨r1, he, -⟩ := bind_ok he
  unfold hydrodynamics at he
  obtain ⟨r2, he, -⟩ := bind_ok he
  unfold solverFluxes at he
  obtain ⟨r3, he, -⟩ := bind_ok he
  unfold hydrofluxes at he
  rw [if_neg (by simp)] at he
  obtain ⟨w, he, -⟩ := bind_ok he
  unfold primitivesFromConservatives at he
  obtain ⟨A, he, -⟩ := bind_ok he
  refine foldlM_error _ (d, s) (fun A B hAB => ?_) slabOrder (by fin_cases d <;> cases s <;> simp [slabOrder]) _ _ he
  unfold applySlab at hAB
  have hact : b.config.scheme.active d = true := by
    unfold Scheme.active
    change (!(b.config.n d == 1 && b.config.p d == 0)) = true
    rw [e1, e2]
    simpa [imp_iff_not_or] using hd
  have hg : ¬ (fun d => (if b.config.scheme.active d then fluxGw b.config.scheme.p else 0) +
      2 * ceilHalf (b.config.scheme.p d)) d = 0 := by
    dsimp only
    rw [if_pos hact]
    unfold fluxGw
    dsimp only
    omega
  rw [if_neg hg, show b.config.scheme.bc.kind (d, s).1 (d, s).2 = .doubleMach from hk] at hAB
  obtain ⟨_, -, hAB⟩ := bind_ok hAB
  cases hAB

/-! ### Cases -/

/-- The arguments of a solver, the rest as in the signature (solver.py 42-82) except for the initial condition. -/
def someArgs (n p : Fin 3 → ℕ) (bc : Option (BCArgs ℚ (State ℚ 0))) (name : String) : SolverArgs ℚ where
  core := fun m r j => if r = 0 then 1 + (m.coord 0).get j else if r = 4 then 1 else 0
  passives := []
  n := n
  p := p
  dom := fun _ => (0, 1)
  cfl := 4 / 5
  fixedDt := none
  gamma := 5 / 3
  bc := bc
  riemannSolver := name
  conservativeIc := false
  fvIc := false
  limiter := none
  csqFloor := 1 / 10 ^ 10
  slabBufferSize := 30
  sqrt := id

/-- **C58 (violated)** The default arguments, which leave every direction inactive, are refused with ValueError; the
name "advection_upwinding" of the documentation is refused with TypeError, while "advection_upwind" is accepted. -/
theorem C58_violated (gauss : ℕ → List (ℚ × ℚ)) (junk : ℕ → Ix → ℚ) :
    (someArgs ![1, 1, 1] ![0, 0, 0] none "hllc").build gauss junk = .error .valueError ∧
    (someArgs ![8, 1, 1] ![0, 0, 0] none "advection_upwinding").build gauss junk = .error .typeError ∧
    ∃ b, (someArgs ![8, 1, 1] ![0, 0, 0] none "advection_upwind").build gauss junk = .ok b := by
  refine ⟨rfl, ?_, (C58_partial _ _ _).2 ⟨by decide, by decide, by decide, ⟨0, by decide⟩, by decide, nofun, by decide⟩⟩
  rfl

/-- A boundary condition with an initial-condition side, a constant, a free and a reflective side. -/
def someBC : BCArgs ℚ (State ℚ 0) :=
  ⟨![.tuple [.ic, .dirichlet], .tuple [.free, .reflective], .single .periodic],
    ![.tuple [.other, .const 1], .single .other, .single .other]⟩

example (gauss : ℕ → List (ℚ × ℚ)) (junk : ℕ → Ix → ℚ) : ∃ b, (someArgs ![8, 16, 1] ![2, 1, 0] (some someBC) "llf").build
    gauss junk = .ok b ∧ ∀ t t' junk' mem u, ∃ dt D, solverRHS b.config.scheme junk' mem t t' u = .ok (dt, D) := by
  obtain ⟨b, hb⟩ := (C58_partial (someArgs ![8, 16, 1] ![2, 1, 0] (some someBC) "llf") gauss junk).2
    ⟨by decide, by decide, by decide, ⟨0, by decide⟩, by decide, fun b hb d => by
      cases hb
      match d with
      | 0 => exact ⟨Or.inr ⟨_, _, rfl⟩, Or.inr ⟨_, _, rfl⟩⟩
      | 1 => exact ⟨Or.inr ⟨_, _, rfl⟩, Or.inl ⟨_, rfl⟩⟩
      | 2 => exact ⟨Or.inl ⟨_, rfl⟩, Or.inl ⟨_, rfl⟩⟩, by decide⟩
  refine ⟨b, hb, ?_⟩
  obtain ⟨-, -, -, -, -, -, -, -, -, -, e, -⟩ := C62_built _ _ _ b hb (by decide)
  obtain ⟨k, v, -⟩ := e someBC rfl
  have k0l := Option.some.inj (k 0 .l)
  have k0r := Option.some.inj (k 0 .r)
  have k1l := Option.some.inj (k 1 .l)
  have k1r := Option.some.inj (k 1 .r)
  intro t t' junk' mem u
  refine C58_usable _ gauss junk b hb (by decide) rfl (by decide) (fun d hd s => ?_) (fun d s _ e he => ?_) t t' junk' mem u
  · match d, s with
    | 0, .l => exact Or.inr (Or.inr (Or.inr ⟨k0l.symm, nofun, rfl⟩))
    | 0, .r => exact Or.inr (Or.inr (Or.inl ⟨k0r.symm, nofun, Or.inl ⟨1, (Option.some.inj (v 0 .r (by
        rw [← k0r]; decide))).symm⟩⟩))
    | 1, .l => exact Or.inl k1l.symm
    | 1, .r => exact Or.inr (Or.inl ⟨Or.inr (Or.inl k1r.symm), by decide⟩)
    | 2, s => exact absurd ⟨rfl, rfl⟩ hd
  · match e with
    | 0 => decide
    | 1 => decide
    | 2 => exact absurd ⟨rfl, rfl⟩ he

example (gauss : ℕ → List (ℚ × ℚ)) (junk : ℕ → Ix → ℚ) : ∃ b, (someArgs ![8, 16, 1] ![2, 1, 0]
    (some ⟨fun _ => .tuple [.doubleMach, .free], fun _ => .single .other⟩) "llf").build gauss junk = .ok b ∧
    b.config.bc.kind 1 .l = .doubleMach := by
  obtain ⟨b, hb⟩ := (C58_partial (someArgs ![8, 16, 1] ![2, 1, 0]
    (some ⟨fun _ => .tuple [.doubleMach, .free], fun _ => .single .other⟩) "llf") gauss junk).2
    ⟨by decide, by decide, by decide, ⟨0, by decide⟩, by decide, fun b hb d => by
      cases hb
      exact ⟨Or.inr ⟨_, _, rfl⟩, Or.inl ⟨_, rfl⟩⟩, by decide⟩
  obtain ⟨-, -, -, -, -, -, -, -, -, -, e, -⟩ := C62_built _ _ _ b hb (by decide)
  exact ⟨b, hb, (Option.some.inj ((e _ rfl).1 1 .l)).symm⟩

end FVHOE
