import Verif.Model.Attrs
import Verif.Props.C49

/-!
C82: a completed run can be saved, with its parameters.
-/

set_option linter.unusedSectionVars false

namespace FVHOE

variable {K : Type} [Field K]

/-! ## Writing dictionaries -/

mutual
theorem toJson_error (v : PyVal K) : ∀ e, v.toJson = .error e → e = .typeError := by
  intro e h
  cases v with
  | seq l =>
    simp only [PyVal.toJson] at h
    split at h
    · rename_i e' he
      cases h
      exact listToJson_error l _ he
    · cases h
  | dict l =>
    simp only [PyVal.toJson] at h
    split at h
    · rename_i e' he
      cases h
      exact dictToJson_error l _ he
    · cases h
  | _ => simp only [PyVal.toJson] at h; cases h <;> rfl
theorem listToJson_error (l : List (PyVal K)) : ∀ e, PyVal.listToJson l = .error e → e = .typeError := by
  intro e h
  cases l with
  | nil => simp [PyVal.listToJson] at h
  | cons v vs =>
    simp only [PyVal.listToJson] at h
    split at h
    · rename_i e' he
      cases h
      exact toJson_error v _ he
    · split at h
      · rename_i e' he
        cases h
        exact listToJson_error vs _ he
      · cases h
theorem dictToJson_error (l : List (String × PyVal K)) :
    ∀ e, PyVal.dictToJson l = .error e → e = .typeError := by
  intro e h
  cases l with
  | nil => simp [PyVal.dictToJson] at h
  | cons kv vs =>
    obtain ⟨k, v⟩ := kv
    simp only [PyVal.dictToJson] at h
    split at h
    · rename_i e' he
      cases h
      exact toJson_error v _ he
    · split at h
      · rename_i e' he
        cases h
        exact dictToJson_error vs _ he
      · cases h
end

/-- A dictionary whose values can all be written is written entry by entry. -/
theorem dictToJson_ok (l : List (String × PyVal K)) (h : ∀ e ∈ l, ∃ j, e.2.toJson = .ok j) :
    ∃ js, PyVal.dictToJson l = .ok js ∧ js.map Prod.fst = l.map Prod.fst ∧
      ∀ e ∈ l, ∀ j, e.2.toJson = .ok j → (e.1, j) ∈ js := by
  induction l with
  | nil => exact ⟨[], rfl, rfl, fun e he => by cases he⟩
  | cons kv vs ih =>
    obtain ⟨k, v⟩ := kv
    obtain ⟨j, hj⟩ := h _ (List.mem_cons_self ..)
    obtain ⟨js, h1, h2, h3⟩ := ih fun e he => h e (List.mem_cons_of_mem _ he)
    simp only at hj
    refine ⟨(k, j) :: js, ?_, ?_, ?_⟩
    · simp only [PyVal.dictToJson, hj, h1]
    · simp only [List.map_cons, h2]
    · intro e he j' hj'
      rcases List.mem_cons.1 he with rfl | he
      · simp only at hj'
        rw [hj] at hj'
        cases hj'
        exact List.mem_cons_self ..
      · exact List.mem_cons_of_mem _ (h3 e he j' hj')

/-- One value that cannot be written is enough to fail. -/
theorem dictToJson_fails (l : List (String × PyVal K)) (e : String × PyVal K) (he : e ∈ l) (x : PyErr)
    (hx : e.2.toJson = .error x) : PyVal.dictToJson l = .error .typeError := by
  have : ∃ y, PyVal.dictToJson l = .error y := by
    induction l with
    | nil => cases he
    | cons kv vs ih =>
      obtain ⟨k, v⟩ := kv
      simp only [PyVal.dictToJson]
      rcases List.mem_cons.1 he with rfl | he
      · simp only at hx
        rw [hx]
        exact ⟨_, rfl⟩
      · obtain ⟨y, hy⟩ := ih he
        rw [hy]
        cases v.toJson with
        | error z => exact ⟨_, rfl⟩
        | ok j => exact ⟨_, rfl⟩
  obtain ⟨y, hy⟩ := this
  rw [hy, dictToJson_error l y hy]

theorem listToJson_map {α : Type} (f : α → PyVal K) (g : α → Json K) (h : ∀ x, (f x).toJson = .ok (g x))
    (l : List α) : PyVal.listToJson (l.map f) = .ok (l.map g) := by
  induction l with
  | nil => rfl
  | cons x xs ih => simp only [List.map_cons, PyVal.listToJson, h, ih]

theorem dictToJson_map {α : Type} (k : α → String) (f : α → PyVal K) (g : α → Json K)
    (h : ∀ x, (f x).toJson = .ok (g x)) (l : List α) :
    PyVal.dictToJson (l.map fun x => (k x, f x)) = .ok (l.map fun x => (k x, g x)) := by
  induction l with
  | nil => rfl
  | cons x xs ih => simp only [List.map_cons, PyVal.dictToJson, h, ih]

/-! ## What is to be found in the file -/

/-- A number or nothing. -/
def optNum : Option K → Json K
  | none => .null
  | some x => .num x

/-- A text or nothing. -/
def optStr : Option String → Json K
  | none => .null
  | some s => .str s

/-- A number, or the text `inf` for no bound. -/
def bound (inf : String) : Option K → Json K
  | none => .str inf
  | some x => .num x

/-- A list of texts. -/
def strs (l : List String) : Json K := .arr (l.map .str)

/-- The settings of the solver and the state of the run that the file has to record. -/
def Settings (a : AttrArgs K) (s : AttrState K) : List (String × Json K) :=
  [("CFL", .num a.cfl), ("NAD", .num a.nad), ("NAD_mode", .str a.nadMode), ("NAD_range", .str a.nadRange),
    ("NAD_vars", match a.nadVars with | none => .null | some l => strs l),
    ("PAD", .obj (a.pad.map fun e => (e.1, .arr [bound "-inf" e.2.1, bound "inf" e.2.2]))),
    ("SED", .bool a.sed), ("SED_tolerance", .num a.sedTolerance), ("convex", .bool a.convex),
    ("a_posteriori_slope_limiting", .bool a.limiting), ("slope_limiter", optStr a.slopeLimiter),
    ("force_trouble", .bool a.forceTrouble), ("conservative_ic", .bool a.conservativeIc),
    ("fv_ic", .bool a.fvIc), ("csq_floor", .num a.csqFloor), ("density_floor", optNum a.densityFloor),
    ("pressure_floor", optNum a.pressureFloor), ("fixed_dt", optNum a.fixedDt), ("gamma", .num a.gamma),
    ("n", .arr [.int (a.n 0), .int (a.n 1), .int (a.n 2)]), ("p", .arr [.int (a.p 0), .int (a.p 1), .int (a.p 2)]),
    ("x_domain", .arr [.num (a.dom 0).1, .num (a.dom 0).2]), ("y_domain", .arr [.num (a.dom 1).1, .num (a.dom 1).2]),
    ("z_domain", .arr [.num (a.dom 2).1, .num (a.dom 2).2]), ("riemann_solver_name", .str a.riemannSolver),
    ("bc", .obj [("x", .arr [optStr (s.bcKind 0).1, optStr (s.bcKind 0).2]),
      ("y", .arr [optStr (s.bcKind 1).1, optStr (s.bcKind 1).2]),
      ("z", .arr [optStr (s.bcKind 2).1, optStr (s.bcKind 2).2])]),
    ("integrator", .str s.integrator), ("t", .num s.t), ("step_count", .int s.stepCount),
    ("snapshot_times", .arr (s.snapshotTimes.map .num))]

/-- What the loop over the attributes keeps. -/
def savedList (round : K → K) (a : AttrArgs K) (s : AttrState K) : List (String × PyVal K) :=
  (solverDict round a s).filterMap saveAttr

theorem ofName_json (o : Option String) : (PyVal.ofName o : PyVal K).toJson = .ok (optStr o) := by
  cases o <;> simp [PyVal.ofName, optStr, PyVal.toJson]

theorem ofOption_json (o : Option K) : (PyVal.ofOption o).toJson = .ok (optNum o) := by
  cases o <;> simp [PyVal.ofOption, optNum, PyVal.toJson]

theorem ofName_plain (o : Option String) :
    (PyVal.ofName o : PyVal K).isCallable = false ∧ (PyVal.ofName o : PyVal K).isArray = false := by
  cases o <;> exact ⟨rfl, rfl⟩

theorem ofOption_plain (o : Option K) : (PyVal.ofOption o).isCallable = false ∧ (PyVal.ofOption o).isArray = false := by
  cases o <;> exact ⟨rfl, rfl⟩

theorem fm_keep (k : String) (v : PyVal K) (l r : List (String × PyVal K))
    (hk : k ∉ ["w0", "am", "bc", "timer", "PAD", "progress_bar", "timestamps", "snapshots", "w0_cell_centers_cache"])
    (hv : v.isCallable = false ∧ v.isArray = false) (h : l.filterMap saveAttr = r) :
    ((k, v) :: l).filterMap saveAttr = (k, v) :: r := by
  simp only [List.mem_cons, List.not_mem_nil, or_false, not_or] at hk
  obtain ⟨h1, h2, h3, h4, h5, h6, h7, h8, h9⟩ := hk
  rw [List.filterMap_cons_some (b := (k, v)), h]
  simp [saveAttr, h1, h2, h3, h4, h5, h6, h7, h8, h9, hv.1, hv.2]

theorem fm_drop (k : String) (v : PyVal K) (l r : List (String × PyVal K)) (hk : k ≠ "w0")
    (hv : (v.isCallable ∧ k ≠ "am") ∨ v.isArray ∨
      k ∈ ["progress_bar", "timestamps", "snapshots", "w0_cell_centers_cache"])
    (h : l.filterMap saveAttr = r) : ((k, v) :: l).filterMap saveAttr = r := by
  rw [List.filterMap_cons_none, h]
  simp only [saveAttr, if_neg hk]
  rw [if_pos hv]

theorem fm_w0 (v : PyVal K) (l r : List (String × PyVal K)) (n : String) (hn : v.name = n)
    (h : l.filterMap saveAttr = r) :
    (("w0", v) :: l).filterMap saveAttr = ("w0", .str n) :: r := by
  rw [List.filterMap_cons_some (b := ("w0", .str n)), h]
  simp [saveAttr, hn]

theorem fm_object (k : String) (c : Bool) (d : PyVal K) (l r : List (String × PyVal K)) (hk : k ∈ ["am", "bc", "timer"])
    (hc : c = true → k = "am") (h : l.filterMap saveAttr = r) :
    ((k, .object c d) :: l).filterMap saveAttr = (k, d) :: r := by
  rw [List.filterMap_cons_some (b := (k, d)), h]
  simp only [List.mem_cons, List.not_mem_nil, or_false] at hk
  rcases hk with rfl | rfl | rfl
  · simp [saveAttr, PyVal.isCallable, PyVal.isArray, PyVal.toDict]
  · cases c
    · simp [saveAttr, PyVal.isCallable, PyVal.isArray, PyVal.toDict]
    · exact absurd (hc rfl) (by decide)
  · cases c
    · simp [saveAttr, PyVal.isCallable, PyVal.isArray, PyVal.toDict]
    · exact absurd (hc rfl) (by decide)

theorem fm_pad (x : List (String × PyVal K)) (l r : List (String × PyVal K)) (h : l.filterMap saveAttr = r) :
    (("PAD", .dict x) :: l).filterMap saveAttr = ("PAD", (PyVal.dict x).namePad) :: r := by
  rw [List.filterMap_cons_some (b := ("PAD", (PyVal.dict x).namePad)), h]
  simp [saveAttr, PyVal.isCallable, PyVal.isArray]

set_option maxHeartbeats 1600000 in
/-- The attributes kept, one by one. -/
theorem savedList_eq (round : K → K) (a : AttrArgs K) (s : AttrState K) :
    savedList round a s =
  [("csq_floor", .num a.csqFloor), ("density_floor", .ofOption a.densityFloor), ("gamma", .num a.gamma),
    ("pressure_floor", .ofOption a.pressureFloor), ("riemann_solver_name", .str a.riemannSolver)] ++
  ((if a.helper then [] else [("snapshot_helper_function", .null)]) ++
  ([("snapshots_as_fv_averages", .bool a.fvSnapshots),
    ("CFL", .num a.cfl), ("fixed_dt", .ofOption a.fixedDt),
    ("x_domain", .seq [.num (a.dom 0).1, .num (a.dom 0).2]), ("y_domain", .seq [.num (a.dom 1).1, .num (a.dom 1).2]),
    ("z_domain", .seq [.num (a.dom 2).1, .num (a.dom 2).2]),
    ("h", .seq [.num (((a.dom 0).2 - (a.dom 0).1) / a.n 0), .num (((a.dom 1).2 - (a.dom 1).1) / a.n 1),
      .num (((a.dom 2).2 - (a.dom 2).1) / a.n 2)]),
    ("n", .seq [.int (a.n 0), .int (a.n 1), .int (a.n 2)]),
    ("p", .seq [.int (a.p 0), .int (a.p 1), .int (a.p 2)]),
    ("xdim", .bool (!(a.n 0 == 1 && a.p 0 == 0))), ("ydim", .bool (!(a.n 1 == 1 && a.p 1 == 0))),
    ("zdim", .bool (!(a.n 2 == 1 && a.p 2 == 0))),
    ("dims", .str (dimsString a.n a.p)), ("ndim", .int (dimsString a.n a.p).length),
    ("conservative_ic", .bool a.conservativeIc), ("fv_ic", .bool a.fvIc), ("nvars", .int (5 + a.npassive)),
    ("w0", .str (if a.conservativeIc then "__name__ not found" else "ic_func"))] ++
  ((if a.conservativeIc ∧ a.fvIc then [("u0", .notImplemented)] else []) ++
  [("t", .num s.t), ("step_count", .int s.stepCount),
    ("am", managerDict s.names), ("timer", timerDict round s.timer),
    ("snapshot_times", .seq (s.snapshotTimes.map .num)), ("print_progress_bar", .bool a.progressBar),
    ("commit_details", .dict (s.commit.map fun e => (e.1, .ofName e.2))),
    ("f_evaluation_count", .int s.evaluations), ("slab_buffer_size", .int a.slabBufferSize),
    ("bc", bcDict s.bcKind), ("a_posteriori_slope_limiting", .bool a.limiting),
    ("slope_limiter", .ofName a.slopeLimiter), ("force_trouble", .bool a.forceTrouble), ("NAD", .num a.nad),
    ("NAD_mode", .str a.nadMode), ("NAD_range", .str a.nadRange),
    ("NAD_vars", match a.nadVars with | none => .null | some l => .seq (l.map .str)),
    ("PAD", (padDict a.pad).namePad), ("SED", .bool a.sed), ("SED_tolerance", .num a.sedTolerance),
    ("convex", .bool a.convex), ("trouble_counter", .int s.troubleCounter),
    ("integrator", .str s.integrator), ("snapshot_dir", .str s.snapshotDir)]))) := by
  have hv : ∀ o : Option (List String),
      (match o with | none => PyVal.null | some l => .seq (l.map .str) : PyVal K).isCallable = false ∧
      (match o with | none => PyVal.null | some l => .seq (l.map .str) : PyVal K).isArray = false :=
    fun o => by cases o <;> exact ⟨rfl, rfl⟩
  obtain ⟨_, _, _, _, _, _, _, cons, fv, _, _, _, _, _, _, nv, _, _, _, _, _, _, _, pb, _, hp, _, _⟩ := a
  unfold savedList solverDict
  cases cons <;> cases fv <;> cases pb <;> cases hp <;>
    repeat' first
      | refine fm_keep _ _ _ _ (by decide) ⟨rfl, rfl⟩ ?_
      | refine fm_keep _ _ _ _ (by decide) (ofOption_plain _) ?_
      | refine fm_keep _ _ _ _ (by decide) (ofName_plain _) ?_
      | refine fm_keep _ _ _ _ (by decide) (hv _) ?_
      | refine fm_drop _ _ _ _ (by decide) (Or.inl ⟨rfl, by decide⟩) ?_
      | refine fm_drop _ _ _ _ (by decide) (Or.inr (Or.inl rfl)) ?_
      | refine fm_drop _ _ _ _ (by decide) (Or.inr (Or.inr (by decide))) ?_
      | refine fm_w0 _ _ _ _ rfl ?_
      | refine fm_object _ _ _ _ _ (by decide) (by decide) ?_
      | refine fm_pad _ _ _ ?_
      | exact rfl

theorem pad_json (pad : List (String × Option K × Option K)) :
    ((padDict pad).namePad).toJson = .ok (.obj (pad.map fun e => (e.1, .arr [bound "-inf" e.2.1, bound "inf" e.2.2]))) := by
  simp only [padDict, PyVal.namePad, PyVal.toJson, List.map_map]
  change (match PyVal.dictToJson (pad.map fun e => (e.1, PyVal.nameInfs (.seq [.ofLower e.2.1, .ofUpper e.2.2]))) with
    | Except.error e => Except.error e
    | Except.ok js => Except.ok (Json.obj js)) = _
  rw [dictToJson_map (fun e : String × Option K × Option K => e.1) _
    (fun e => .arr [bound "-inf" e.2.1, bound "inf" e.2.2])]
  rintro ⟨k, lo, hi⟩
  cases lo <;> cases hi <;> rfl

theorem names_json (l : List String) : (PyVal.seq (l.map .str) : PyVal K).toJson = .ok (strs l) := by
  simp only [PyVal.toJson, listToJson_map PyVal.str (Json.str (K := K)) (fun x => rfl) l, strs]

theorem nums_json (l : List K) : (PyVal.seq (l.map .num) : PyVal K).toJson = .ok (.arr (l.map .num)) := by
  simp only [PyVal.toJson, listToJson_map PyVal.num (Json.num (K := K)) (fun x => rfl) l]

theorem nadVars_json (o : Option (List String)) :
    (match o with | none => PyVal.null | some l => .seq (l.map .str) : PyVal K).toJson =
      .ok (match o with | none => .null | some l => strs l) := by
  cases o with
  | none => rfl
  | some l => exact names_json l

theorem manager_json (names : List String) : (managerDict names : PyVal K).toJson =
    .ok (.obj [("names", strs names), ("using_cupy", .bool false)]) := by
  unfold managerDict
  have := names_json (K := K) names
  simp only [PyVal.toJson, PyVal.dictToJson] at this ⊢
  revert this
  cases PyVal.listToJson (names.map PyVal.str : List (PyVal K)) with
  | error e => intro h; simp at h
  | ok js => intro h; simp at h; simp [h]

theorem bc_json (kind : Fin 3 → Option String × Option String) : (bcDict kind : PyVal K).toJson =
    .ok (.obj [("x", .arr [optStr (kind 0).1, optStr (kind 0).2]), ("y", .arr [optStr (kind 1).1, optStr (kind 1).2]),
      ("z", .arr [optStr (kind 2).1, optStr (kind 2).2])]) := by
  simp [bcDict, PyVal.toJson, PyVal.dictToJson, PyVal.listToJson, ofName_json]

theorem timer_json (round : K → K) (t : Timer K) : (timerDict round t).toJson =
    .ok (.obj (t.cats.map fun c => (c, .num (round (t.cumTime c))))) := by
  simp only [timerDict, PyVal.toJson,
    dictToJson_map (fun c : String => c) (fun c => PyVal.num (round (t.cumTime c)))
      (fun c => Json.num (round (t.cumTime c))) (fun x => rfl)]

theorem commit_json (l : List (String × Option String)) :
    (PyVal.dict (l.map fun e => (e.1, .ofName e.2)) : PyVal K).toJson = .ok (.obj (l.map fun e => (e.1, optStr e.2))) := by
  simp only [PyVal.toJson, dictToJson_map (fun e : String × Option String => e.1) _ (fun e => optStr e.2)
    (fun x => ofName_json x.2) l]

/-- Without averages prescribed, every attribute kept can be written. -/
theorem saved_plain (round : K → K) (a : AttrArgs K) (s : AttrState K) (h : ¬ (a.conservativeIc ∧ a.fvIc)) :
    ∀ e ∈ savedList round a s, ∃ j, e.2.toJson = .ok j := by
  rw [savedList_eq, if_neg h]
  have hh : ∀ e ∈ (if a.helper then [] else [("snapshot_helper_function", .null)] : List (String × PyVal K)),
      ∃ j, e.2.toJson = .ok j := by
    cases a.helper <;> simp [PyVal.toJson]
  simp only [List.forall_mem_append, List.forall_mem_cons, List.not_mem_nil, false_imp_iff, implies_true, and_true,
    true_and, ofName_json, ofOption_json, nums_json, nadVars_json, manager_json, bc_json, timer_json, commit_json, pad_json]
  simp only [PyVal.toJson, PyVal.listToJson]
  refine ⟨?_, hh, ?_, ?_⟩ <;> (repeat' apply And.intro) <;> exact ⟨_, rfl⟩

theorem exists_saved {l : List (String × PyVal K)} {k : String} {v : PyVal K} {j : Json K} (h : (k, v) ∈ l)
    (hj : v.toJson = .ok j) : ∃ v, (k, v) ∈ l ∧ v.toJson = .ok j := ⟨v, h, hj⟩

/-- The settings are among the attributes kept. -/
theorem saved_settings (round : K → K) (a : AttrArgs K) (s : AttrState K) :
    ∀ e ∈ Settings a s, ∃ v, (e.1, v) ∈ savedList round a s ∧ v.toJson = .ok e.2 := by
  rw [savedList_eq]
  unfold Settings
  simp only [List.forall_mem_cons, List.not_mem_nil, false_imp_iff, implies_true, and_true]
  repeat' apply And.intro
  all_goals
    apply exists_saved
    · first
        | (apply List.mem_append_left; (repeat (first | exact List.Mem.head _ | apply List.Mem.tail)); done)
        | (apply List.mem_append_right; apply List.mem_append_right; apply List.mem_append_left
           (repeat (first | exact List.Mem.head _ | apply List.Mem.tail))
           done)
        | (apply List.mem_append_right; apply List.mem_append_right; apply List.mem_append_right
           apply List.mem_append_right
           (repeat (first | exact List.Mem.head _ | apply List.Mem.tail)))
    · first
        | exact ofName_json _
        | exact ofOption_json _
        | exact nums_json _
        | exact nadVars_json _
        | exact bc_json _
        | exact pad_json _
        | rfl

theorem saved_keys (round : K → K) (a : AttrArgs K) (s : AttrState K) :
    ((savedList round a s).map Prod.fst).Nodup := by
  rw [savedList_eq]
  obtain ⟨_, _, _, _, _, _, _, cons, fv, _, _, _, _, _, _, _, _, _, _, _, _, _, _, _, _, hp, _, _⟩ := a
  cases cons <;> cases fv <;> cases hp <;>
    simp only [List.map_append, List.map_cons, List.map_nil, Bool.false_eq_true, and_true, and_false, if_true, if_false,
      and_self] <;> decide +kernel

theorem attrs_perm (dict : List (String × PyVal K)) : (attrsToSave dict).Perm (dict.filterMap saveAttr) :=
  List.perm_insertionSort _ _

/-- What the directory holds after a save into a fresh or cleared directory. -/
theorem written {S : Type} (P : Pickle S) (fs : FS) (overwrite : Bool) (listing : List String) (rep : Report)
    (l : List S) (h : fs = none ∨ overwrite = true) :
    (writeSnapshots P fs overwrite listing rep l).2 = rep.jsonError ∧
    ∃ d, runCalls fs (writeSnapshots P fs overwrite listing rep l).1 = some d ∧ d "arrs.pkl" = some (P.dump l) ∧
      d "attrs.json" = some rep.json ∧
      d "timing.txt" = if rep.jsonError = none then some rep.timing else none := by
  have hex : ¬ (fs.isSome ∧ ¬ overwrite) := by
    rintro ⟨h1, h2⟩
    rcases h with rfl | h
    · cases h1
    · exact h2 h
  have hnone : runCalls fs (if fs.isSome ∧ overwrite then rmtree listing else []) = none := by
    by_cases ho : fs.isSome ∧ overwrite = true
    · rw [if_pos ho]
      obtain ⟨d, rfl⟩ := Option.isSome_iff_exists.1 ho.1
      obtain ⟨d', e1, _⟩ := run_unlinks listing d
      unfold rmtree
      rw [runCalls_append, e1]
      rfl
    · rw [if_neg ho]
      cases fs with
      | none => rfl
      | some d =>
        exfalso
        rcases h with h | h
        · cases h
        · exact ho ⟨rfl, h⟩
  unfold writeSnapshots
  rw [if_neg hex]
  cases hj : rep.jsonError with
  | some e =>
    refine ⟨rfl, ?_⟩
    simp only
    rw [runCalls_append, runCalls_append, runCalls_append, hnone]
    change ∃ d, runCalls (runCalls (some fun _ => none) _) _ = some d ∧ _
    rw [run_writeFile, run_writeFile]
    exact ⟨_, rfl, by simp, by simp, by simp⟩
  | none =>
    refine ⟨rfl, ?_⟩
    simp only
    rw [runCalls_append, runCalls_append, runCalls_append, runCalls_append, hnone]
    change ∃ d, runCalls (runCalls (runCalls (some fun _ => none) _) _) _ = some d ∧ _
    rw [run_writeFile, run_writeFile, run_writeFile]
    exact ⟨_, rfl, by simp, by simp, by simp⟩

/-- **C82** (partial) If the initial data are not prescribed as cell averages, the attributes of the solver can be
written: `attrs.json` holds an object with every name once, and all settings with the values given. A run that saves into a
fresh directory, or with `overwrite`, raises nothing; the snapshots can be read back and the two other files
hold the settings and the timing report. Missing: solvers with `fv_ic`, for which it is false
(`C82_violated`). -/
theorem C82_partial (round : K → K) (a : AttrArgs K) (s : AttrState K) (h : ¬ (a.conservativeIc ∧ a.fvIc)) :
    ∃ l, attrsJson (solverDict round a s) = .ok (.obj l) ∧ (l.map Prod.fst).Nodup ∧ (∀ e ∈ Settings a s, e ∈ l) ∧
    ∀ {S : Type} (P : Pickle S) (fs : FS) (overwrite : Bool) (listing : List String) (text : Json K → Bytes)
      (part : Bytes) (fmt : K → List Char) (computed : List S), (fs = none ∨ overwrite = true) →
      let out := integrateSaving P fs overwrite listing (savedReport text part fmt (solverDict round a s) s.timer) computed
      out.2 = .ok computed ∧ readSnapshots P (runCalls fs out.1) = .ok (some computed) ∧
      ∃ d, runCalls fs out.1 = some d ∧ d "attrs.json" = some (text (.obj l)) ∧
        d "timing.txt" = some ((s.timer.report fmt).map Char.toNat) := by
  have hp := attrs_perm (solverDict round a s)
  obtain ⟨js, h1, h2, h3⟩ := dictToJson_ok (attrsToSave (solverDict round a s))
    (fun e he => saved_plain round a s h e (hp.mem_iff.1 he))
  have hj : attrsJson (solverDict round a s) = .ok (.obj js) := by
    unfold attrsJson
    simp only [PyVal.toJson, h1]
  refine ⟨js, hj, ?_, ?_, ?_⟩
  · rw [h2]
    exact ((hp.map Prod.fst).nodup_iff).2 (saved_keys round a s)
  · intro e he
    obtain ⟨v, hv, hv'⟩ := saved_settings round a s e he
    exact h3 _ (hp.mem_iff.2 hv) _ hv'
  · intro S P fs overwrite listing text part fmt computed hfs out
    have hrep : savedReport text part fmt (solverDict round a s) s.timer =
        ⟨text (.obj js), none, (s.timer.report fmt).map Char.toNat⟩ := by
      unfold savedReport
      rw [hj]
    obtain ⟨w1, d, w2, w3, w4, w5⟩ := written P fs overwrite listing
      (savedReport text part fmt (solverDict round a s) s.timer) computed hfs
    have hout : out = ((writeSnapshots P fs overwrite listing
        (savedReport text part fmt (solverDict round a s) s.timer) computed).1, .ok computed) := by
      have w1 : (writeSnapshots P fs overwrite listing
          (savedReport text part fmt (solverDict round a s) s.timer) computed).2 = none := by
        rw [w1, hrep]
      simp only [out, integrateSaving]
      generalize writeSnapshots P fs overwrite listing _ computed = w at w1
      obtain ⟨w, x⟩ := w
      simp only at w1
      subst w1
      rcases hfs with rfl | rfl
      · cases overwrite <;> rfl
      · rfl
    rw [hout]
    refine ⟨rfl, ?_, d, w2, ?_, ?_⟩
    · simp only [w2, readSnapshots, w3, P.load_dump]
    · rw [w4, hrep]
    · rw [w5, hrep]
      rfl

/-- **C82** (violated) A solver whose initial data are prescribed as cell averages (`fv_ic`, which needs
`conservative_ic`) cannot be saved: after the whole run the call raises TypeError, because the attribute `u0`
is `NotImplemented`. The directory stays behind without a timing report; a second call then returns at
once with the snapshots of the first and leaves the broken files as they are. -/
theorem C82_violated (round : K → K) (a : AttrArgs K) (s : AttrState K) (h1 : a.conservativeIc = true)
    (h2 : a.fvIc = true) {S : Type} (P : Pickle S) (listing : List String) (text : Json K → Bytes) (part : Bytes)
    (fmt : K → List Char) (computed : List S) :
    let rep := savedReport text part fmt (solverDict round a s) s.timer
    let out := integrateSaving P none false listing rep computed
    out.2 = .error .typeError ∧
    (∃ d, runCalls none out.1 = some d ∧ d "attrs.json" = some part ∧ d "timing.txt" = none) ∧
    ∀ rep' computed', integrateSaving P (runCalls none out.1) false listing rep' computed' = ([], .ok computed) := by
  intro rep out
  have hmem : (("u0", .notImplemented) : String × PyVal K) ∈ attrsToSave (solverDict round a s) := by
    refine (attrs_perm _).mem_iff.2 ?_
    change _ ∈ savedList round a s
    simp [savedList_eq, h1, h2]
  have hj : attrsJson (solverDict round a s) = .error .typeError := by
    unfold attrsJson
    simp only [PyVal.toJson]
    rw [dictToJson_fails _ _ hmem .typeError rfl]
  have hrep : rep = ⟨part, some .typeError, (s.timer.report fmt).map Char.toNat⟩ := by
    simp only [rep, savedReport]
    rw [hj]
  obtain ⟨w1, d, w2, w3, w4, w5⟩ := written P none false listing rep computed (Or.inl rfl)
  have hout : out = ((writeSnapshots P none false listing rep computed).1, .error .typeError) := by
    simp only [out, integrateSaving, readSnapshots]
    have w1 : (writeSnapshots P none false listing rep computed).2 = some .typeError := by
      rw [w1, hrep]
    generalize writeSnapshots P none false listing rep computed = w at *
    obtain ⟨w, x⟩ := w
    simp only at w1
    subst w1
    rfl
  refine ⟨by rw [hout], ⟨d, by rw [hout]; exact w2, by rw [w4, hrep], by rw [w5, hrep]; rfl⟩, ?_⟩
  intro rep' computed'
  rw [hout]
  simp only [w2, integrateSaving, readSnapshots, w3, P.load_dump]
  rfl

/-- A two-dimensional blast with the data of experiments/scripts/sedov2d.py, saved after a step. -/
def blastAttrs : AttrArgs ℚ where
  n := ![256, 256, 1]
  p := ![3, 3, 0]
  dom := ![(0, 11 / 10), (0, 11 / 10), (0, 1)]
  cfl := 4 / 5
  fixedDt := none
  gamma := 7 / 5
  riemannSolver := "hllc"
  conservativeIc := true
  fvIc := true
  limiting := true
  slopeLimiter := some "minmod"
  forceTrouble := false
  nad := 1 / 100
  nadMode := "global"
  nadRange := "relative"
  nadVars := none
  pad := [("rho", some 0, none), ("P", some 0, none)]
  sed := true
  sedTolerance := 1 / 10 ^ 10
  convex := false
  densityFloor := some (1 / 10 ^ 16)
  pressureFloor := some (1 / 10 ^ 16)
  csqFloor := 1 / 10 ^ 10
  progressBar := true
  fvSnapshots := true
  helper := false
  slabBufferSize := 30
  npassive := 0

/-- The script cannot save its result; with point values instead of averages it can. -/
example : (blastAttrs.conservativeIc = true ∧ blastAttrs.fvIc = true) ∧
    ¬ ({ blastAttrs with fvIc := false }.conservativeIc = true ∧ { blastAttrs with fvIc := false }.fvIc = true) := by
  decide

/-- **C82** (order) The names in `attrs.json` come in the order of their lower-case forms, and names that differ only in
case in the order of the names. -/
theorem C82_order (dict : List (String × PyVal K)) : ((attrsToSave dict).map Prod.fst).Pairwise fun a b =>
    a.toLower.toList < b.toLower.toList ∨ (a.toLower.toList = b.toLower.toList ∧ a.toList ≤ b.toList) := by
  have htri : ∀ x y : List Char, x < y ∨ x = y ∨ y < x := fun x y => by
    by_cases h1 : x < y
    · exact .inl h1
    · by_cases h2 : y < x
      · exact .inr (.inr h2)
      · exact .inr (.inl (List.le_antisymm h2 h1))
  have htotal : Std.Total (attrLe (K := K)) := ⟨fun a b => by
    unfold attrLe
    rcases htri (attrKey a).1 (attrKey b).1 with h | h | h
    · exact .inl (.inl h)
    · rcases List.le_total (attrKey a).2 (attrKey b).2 with h' | h'
      · exact .inl (.inr ⟨h, h'⟩)
      · exact .inr (.inr ⟨h.symm, h'⟩)
    · exact .inr (.inl h)⟩
  have htrans : IsTrans _ (attrLe (K := K)) := ⟨fun a b c h1 h2 => by
    unfold attrLe at *
    rcases h1 with h1 | ⟨h1, h1'⟩
    · rcases h2 with h2 | ⟨h2, -⟩
      · exact .inl (List.lt_trans h1 h2)
      · exact .inl (h2 ▸ h1)
    · rcases h2 with h2 | ⟨h2, h2'⟩
      · exact .inl (h1 ▸ h2)
      · exact .inr ⟨h1.trans h2, List.le_trans h1' h2'⟩⟩
  rw [List.pairwise_map]
  exact List.pairwise_insertionSort attrLe _

example : (attrsToSave [("b", PyVal.null), ("a", PyVal.null (K := ℚ)), ("A", PyVal.null)]).map Prod.fst =
    ["A", "a", "b"] := by decide +kernel

end FVHOE
