import Mathlib.Data.List.Basic
import Verif.Model.Cache
import Verif.Model.Stencils

/-!
C123: the caches do not change any result.
-/

set_option linter.unusedSectionVars false

namespace FVHOE

section Lru

variable {A V : Type} {same : A → A → Bool} {hashable : A → Bool} {f : A → Except PyErr V}

/-- The entries of a cache are results of the function. -/
def Genuine (f : A → Except PyErr V) (cache : List (A × V)) : Prop := ∀ e ∈ cache, f e.1 = .ok e.2

theorem lruCall_genuine (hs : ∀ a b, same a b = true → f a = f b) (maxsize : Option ℕ) (a : A) {cache : List (A × V)}
    (hc : Genuine f cache) : (lruCall same hashable maxsize f a cache).1 = (if hashable a = true then f a else .error .typeError) ∧
      Genuine f (lruCall same hashable maxsize f a cache).2 := by
  unfold lruCall
  cases hh : hashable a
  · exact ⟨rfl, hc⟩
  rw [if_neg (by decide), if_pos rfl]
  cases hf : cache.find? fun e => same e.1 a with
  | some e =>
    have h1 := List.find?_some hf
    have h2 := List.mem_of_find?_eq_some hf
    refine ⟨?_, fun x hx => ?_⟩
    · rw [← hs e.1 a h1]
      exact (hc e h2).symm
    · rcases List.mem_cons.1 hx with rfl | hx
      · exact hc _ h2
      · exact hc _ (List.mem_of_mem_eraseP hx)
  | none =>
    cases hr : f a with
    | error x => exact ⟨rfl, hc⟩
    | ok v =>
      have hg : Genuine f ((a, v) :: cache) := by
        intro x hx
        rcases List.mem_cons.1 hx with rfl | hx
        · exact hr
        · exact hc _ hx
      cases maxsize with
      | none => exact ⟨rfl, hg⟩
      | some n => exact ⟨rfl, fun x hx => hg x (List.mem_of_mem_take hx)⟩

theorem lruCall_length (n : ℕ) (a : A) {cache : List (A × V)} (hc : cache.length ≤ n) :
    (lruCall same hashable (some n) f a cache).2.length ≤ n := by
  unfold lruCall
  split_ifs
  · exact hc
  cases hf : cache.find? fun e => same e.1 a with
  | some e =>
    have h1 : same e.1 a = true := List.find?_some (p := fun e : A × V => same e.1 a) hf
    have h2 := List.mem_of_find?_eq_some hf
    have h3 := List.length_eraseP_of_mem (p := fun e => same e.1 a) h2 h1
    have h4 := List.length_pos_of_mem h2
    simp only [List.length_cons]
    omega
  | none =>
    cases hr : f a with
    | error x => exact hc
    | ok v => exact List.length_take_le _ _

/-- **C123** Any sequence of calls of a cached function returns what the function itself returns for each of them, or TypeError for
arguments without a hash, whatever the size of the cache, if the function cannot tell arguments apart that compare equal. -/
theorem C123_lru (hs : ∀ a b, same a b = true → f a = f b) (maxsize : Option ℕ) (calls : List A) :
    (lruCalls same hashable maxsize f calls []).1 = calls.map fun a => if hashable a = true then f a else .error .typeError := by
  have key : ∀ (calls : List A) (cache : List (A × V)), Genuine f cache → (lruCalls same hashable maxsize f calls cache).1 =
      calls.map fun a => if hashable a = true then f a else .error .typeError := by
    intro calls
    induction calls with
    | nil => exact fun _ _ => rfl
    | cons a as ih =>
      intro cache hc
      obtain ⟨h1, h2⟩ := lruCall_genuine (hashable := hashable) hs maxsize a hc
      simp only [lruCalls, List.map_cons]
      rw [ih _ h2, h1]
  exact key calls [] fun _ h => absurd h (List.not_mem_nil)

/-- C123 (size). A bounded cache never holds more than `maxsize` results. -/
theorem C123_size (n : ℕ) (calls : List A) : (lruCalls same hashable (some n) f calls []).2.length ≤ n := by
  have key : ∀ (calls : List A) (cache : List (A × V)), cache.length ≤ n →
      (lruCalls same hashable (some n) f calls cache).2.length ≤ n := by
    intro calls
    induction calls with
    | nil => exact fun _ h => h
    | cons a as ih => exact fun cache hc => ih _ (lruCall_length n a hc)
  exact key calls [] (Nat.zero_le n)

theorem mem_reordered {α : Type} {p : α → Bool} {l : List α} {e x : α} (h : l.find? p = some e) (hx : x ∈ l) : x = e ∨ x ∈ l.eraseP p := by
  induction l with
  | nil => cases hx
  | cons y l ih =>
    cases hy : p y
    · rw [List.find?_cons_of_neg (by simp [hy])] at h
      rw [List.eraseP_cons_of_neg (by simp [hy])]
      rcases List.mem_cons.1 hx with rfl | hx
      · exact .inr List.mem_cons_self
      · exact (ih h hx).imp id fun h => List.mem_cons_of_mem _ h
    · rw [List.find?_cons_of_pos hy] at h
      rw [List.eraseP_cons_of_pos hy]
      rcases List.mem_cons.1 hx with rfl | hx
      · exact .inl (Option.some.inj h)
      · exact .inr hx

/-- An unbounded cache forgets nothing. -/
theorem lruCall_keeps (same : A → A → Bool) (hashable : A → Bool) (f : A → Except PyErr V) (a : A) {cache : List (A × V)} {x : A × V}
    (hx : x ∈ cache) : x ∈ (lruCall same hashable none f a cache).2 := by
  unfold lruCall
  split_ifs
  · exact hx
  cases hf : cache.find? fun e => same e.1 a with
  | some e =>
    rcases mem_reordered hf hx with rfl | h
    · exact List.mem_cons_self
    · exact List.mem_cons_of_mem _ h
  | none =>
    cases hr : f a with
    | error x => exact hx
    | ok v => exact List.mem_cons_of_mem _ hx

/-- A successful call leaves a matching entry. -/
theorem lruCall_stores (hrefl : ∀ a, same a a = true) {a : A} {v : V} {cache : List (A × V)}
    (h : (lruCall same hashable none f a cache).1 = .ok v) :
    ∃ x ∈ (lruCall same hashable none f a cache).2, same x.1 a = true := by
  unfold lruCall at h ⊢
  split_ifs at h ⊢
  cases hf : cache.find? fun e => same e.1 a with
  | some e => exact ⟨e, List.mem_cons_self, List.find?_some (p := fun e : A × V => same e.1 a) hf⟩
  | none =>
    rw [hf] at h
    cases hr : f a with
    | error x => rw [hr] at h; cases h
    | ok w => exact ⟨_, List.mem_cons_self, hrefl a⟩

/-- C123 (once). With an unbounded cache a result that has been computed is not computed again: after any further calls, the call
returns it whatever function `g` is there to compute it. -/
theorem C123_once (hs : ∀ a b, same a b = true → f a = f b) (hrefl : ∀ a, same a a = true) (before after : List A) (a : A) (v : V)
    (hv : hashable a = true) (ha : f a = .ok v) (g : A → Except PyErr V) :
    (lruCall same hashable none g a (lruCalls same hashable none f (before ++ a :: after) []).2).1 = .ok v := by
  have key : ∀ (calls : List A) (cache : List (A × V)), Genuine f cache → Genuine f (lruCalls same hashable none f calls cache).2 ∧
      (∀ x ∈ cache, x ∈ (lruCalls same hashable none f calls cache).2) ∧
      (a ∈ calls → ∃ x ∈ (lruCalls same hashable none f calls cache).2, same x.1 a = true) := by
    intro calls
    induction calls with
    | nil => exact fun _ hc => ⟨hc, fun _ hx => hx, fun h => absurd h List.not_mem_nil⟩
    | cons b bs ih =>
      intro cache hc
      obtain ⟨h1, h2⟩ := lruCall_genuine (hashable := hashable) hs none b hc
      obtain ⟨k1, k2, k3⟩ := ih _ h2
      refine ⟨k1, fun x hx => k2 x (lruCall_keeps _ _ _ _ hx), fun hm => ?_⟩
      rcases List.mem_cons.1 hm with rfl | hm
      · rw [if_pos hv, ha] at h1
        obtain ⟨x, hx, hxa⟩ := lruCall_stores hrefl h1
        exact ⟨x, k2 x hx, hxa⟩
      · exact k3 hm
  obtain ⟨k1, -, k3⟩ := key (before ++ a :: after) [] fun _ h => absurd h List.not_mem_nil
  obtain ⟨x, hx, hxa⟩ := k3 (by simp)
  set cache := (lruCalls same hashable none f (before ++ a :: after) []).2
  unfold lruCall
  rw [if_neg (by simp [hv])]
  cases hf : cache.find? fun e => same e.1 a with
  | none => exact absurd hxa (by simpa using List.find?_eq_none.1 hf x hx)
  | some e =>
    have h1 : same e.1 a = true := List.find?_some (p := fun e : A × V => same e.1 a) hf
    have h2 := k1 e (List.mem_of_find?_eq_some hf)
    rw [hs _ _ h1, ha] at h2
    exact h2.symm

end Lru

/-! ### The slicer -/

/-- The arguments of the last successful creation of an object at address `i`. -/
def lastMade (i : ℕ) (ops : List SlicerOp) : Option (List String × ℕ) :=
  ops.foldl (fun last op => match op with
    | .new passives ndim j => if j = i ∧ passives.Nodup then some (passives, ndim) else last
    | _ => last) none

theorem lastMade_snoc (i : ℕ) (ops : List SlicerOp) (op : SlicerOp) : lastMade i (ops ++ [op]) = (match op with
    | .new passives ndim j => if j = i ∧ passives.Nodup then some (passives, ndim) else lastMade i ops
    | _ => lastMade i ops) := by
  unfold lastMade
  rw [List.foldl_append]
  rfl

theorem init_nodup {passives : List String} {ndim : ℕ} {hs : HydroState} (h : HydroState.init passives ndim = .ok hs) : passives.Nodup := by
  by_contra hn
  rw [HydroState.init, if_pos hn] at h
  cases h

/-- What holds in the memory of every program. -/
structure SlicerInv (ops : List SlicerOp) (w : SlicerWorld) : Prop where
  made : ∀ i hs, w.heap i = some hs → ∃ p n, lastMade i ops = some (p, n) ∧ HydroState.init p n = .ok hs
  genuine : ∀ e ∈ w.cache, ∃ hs, w.heap e.1.addr = some hs ∧ hs.slices e.1.args = .ok e.2

theorem step_inv {ops : List SlicerOp} {w w' : SlicerWorld} {op : SlicerOp} {r : Except PyErr (Option SlicerOut)} (hi : SlicerInv ops w)
    (h : w.step op = some (w', r)) : SlicerInv (ops ++ [op]) w' := by
  cases op with
  | new passives ndim i =>
    cases hh : w.heap i with
    | some hs => simp only [SlicerWorld.step, hh] at h; cases h
    | none =>
      cases hn : HydroState.init passives ndim with
      | error e =>
        simp only [SlicerWorld.step, hh, hn] at h
        cases h
        refine ⟨fun j hs hj => ?_, hi.genuine⟩
        obtain ⟨p, n, h1, h2⟩ := hi.made j hs hj
        refine ⟨p, n, ?_, h2⟩
        rw [lastMade_snoc]
        dsimp only
        rw [if_neg]
        · exact h1
        · rintro ⟨rfl, -⟩
          rw [hh] at hj
          cases hj
      | ok hs =>
        simp only [SlicerWorld.step, hh, hn] at h
        cases h
        constructor
        · intro j hs' hj
          rw [lastMade_snoc]
          dsimp only at hj ⊢
          by_cases hji : j = i
          · subst hji
            rw [Function.update_self] at hj
            cases hj
            exact ⟨passives, ndim, if_pos ⟨rfl, init_nodup hn⟩, hn⟩
          · rw [Function.update_of_ne hji] at hj
            rw [if_neg fun h => hji h.1.symm]
            exact hi.made j hs' hj
        · intro e he
          obtain ⟨hs', h1, h2⟩ := hi.genuine e he
          have : e.1.addr ≠ i := by
            rintro rfl
            rw [hh] at h1
            cases h1
          exact ⟨hs', (Function.update_of_ne this _ _).trans h1, h2⟩
  | call i form a =>
    cases hh : w.heap i with
    | none => simp only [SlicerWorld.step, hh] at h; cases h
    | some hs =>
      simp only [SlicerWorld.step, hh] at h
      cases h
      refine ⟨fun j hs' hj => ?_, fun e he => ?_⟩
      · rw [lastMade_snoc]
        exact hi.made j hs' hj
      · dsimp only at he ⊢
        unfold lruCall at he
        rw [if_neg (by simp)] at he
        cases hf : w.cache.find? fun e => e.1 == (⟨i, form, a⟩ : SlicerKey) with
        | some x =>
          rw [hf] at he
          rcases List.mem_cons.1 he with rfl | he
          · exact hi.genuine _ (List.mem_of_find?_eq_some hf)
          · exact hi.genuine _ (List.mem_of_mem_eraseP he)
        | none =>
          rw [hf] at he
          cases hr : hs.slices a with
          | error x =>
            simp only [hr] at he
            exact hi.genuine _ he
          | ok v =>
            simp only [hr] at he
            rcases List.mem_cons.1 he with rfl | he
            · exact ⟨hs, hh, hr⟩
            · exact hi.genuine _ he
  | drop i =>
    simp only [SlicerWorld.step] at h
    split_ifs at h with hc
    · cases h
      exact ⟨fun j hs hj => by rw [lastMade_snoc]; exact hi.made j hs hj, hi.genuine⟩
    · cases h
      refine ⟨fun j hs hj => ?_, fun e he => ?_⟩
      · rw [lastMade_snoc]
        dsimp only at hj ⊢
        by_cases hji : j = i
        · subst hji
          rw [Function.update_self] at hj
          cases hj
        · rw [Function.update_of_ne hji] at hj
          exact hi.made j hs hj
      · obtain ⟨hs, h1, h2⟩ := hi.genuine e he
        refine ⟨hs, (Function.update_of_ne ?_ _ _).trans h1, h2⟩
        rintro rfl
        exact hc (List.any_eq_true.2 ⟨e, he, by simp⟩)

theorem SlicerRun.inv {ops : List SlicerOp} {w : SlicerWorld} (h : SlicerRun ops w) : SlicerInv ops w := by
  induction h with
  | start => exact ⟨fun _ _ h => (by cases h), fun _ h => absurd h List.not_mem_nil⟩
  | next _ hs ih => exact step_inv ih hs

/-- C123 (slicer). Whatever objects a program has created, called and given up before, at whatever addresses, a call returns what the
undecorated method of the object last created at that address returns. -/
theorem C123_slicer {ops : List SlicerOp} {w w' : SlicerWorld} (h : SlicerRun ops w) (i form : ℕ) (a : SlicerArgs)
    (r : Except PyErr (Option SlicerOut)) (hr : w.step (.call i form a) = some (w', r)) :
    ∃ p n hs, lastMade i ops = some (p, n) ∧ HydroState.init p n = .ok hs ∧
      r = (hs.call a.var a.x a.y a.z a.axis a.cut a.step).map some := by
  cases hh : w.heap i with
  | none => simp only [SlicerWorld.step, hh] at hr; cases hr
  | some hs =>
    obtain ⟨p, n, h1, h2⟩ := h.inv.made i hs hh
    refine ⟨p, n, hs, h1, h2, ?_⟩
    simp only [SlicerWorld.step, hh] at hr
    have hr : _ = r := congrArg Prod.snd (Option.some.inj hr)
    rw [← hr]
    refine congrArg (Except.map some) ?_
    unfold lruCall
    rw [if_neg (by simp)]
    cases hf : w.cache.find? fun e => e.1 == (⟨i, form, a⟩ : SlicerKey) with
    | some x =>
      have hx : x.1 = ⟨i, form, a⟩ := by simpa using List.find?_some (p := fun e : SlicerKey × SlicerOut => e.1 == ⟨i, form, a⟩) hf
      obtain ⟨hs', k1, k2⟩ := h.inv.genuine x (List.mem_of_find?_eq_some hf)
      rw [hx] at k1 k2
      rw [hh] at k1
      cases k1
      exact k2.symm
    | none =>
      show _ = hs.slices a
      cases hq : hs.slices a with
      | error x => simp only [hq]
      | ok v => simp only [hq]

/-- `w₂` is the memory after the further operations `more`. -/
inductive SteppedTo (w : SlicerWorld) : List SlicerOp → SlicerWorld → Prop where
  | here : SteppedTo w [] w
  | next {more w₁ op w₂ r} : SteppedTo w more w₁ → w₁.step op = some (w₂, r) → SteppedTo w (more ++ [op]) w₂

/-- C123 (kept). The price: an object that has been called with success stays in memory for ever, whatever the program does later. -/
theorem C123_kept {w w₁ : SlicerWorld} (i form : ℕ) (a : SlicerArgs) (out : SlicerOut)
    (hr : w.step (.call i form a) = some (w₁, .ok (some out))) {more : List SlicerOp} {w₂ : SlicerWorld}
    (h₂ : SteppedTo w₁ more w₂) : (w₂.heap i).isSome = true ∧ w₂.heap i = w.heap i := by
  have hc : ∃ e ∈ w₁.cache, e.1.addr = i := by
    cases hh : w.heap i with
    | none => simp only [SlicerWorld.step, hh] at hr; cases hr
    | some hs =>
      simp only [SlicerWorld.step, hh] at hr
      have e1 : _ = w₁ := congrArg Prod.fst (Option.some.inj hr)
      have e2 : Except.map some _ = Except.ok (some out) := congrArg Prod.snd (Option.some.inj hr)
      have e3 : (lruCall (fun k l : SlicerKey => k == l) (fun _ => true) none (fun k => hs.slices k.args) ⟨i, form, a⟩ w.cache).1 =
          .ok out := by
        revert e2
        generalize (lruCall (fun k l : SlicerKey => k == l) (fun _ => true) none (fun k => hs.slices k.args) ⟨i, form, a⟩ w.cache).1 = q
        cases q with
        | error x => intro e2; cases e2
        | ok v => intro e2; cases e2; rfl
      obtain ⟨x, hx, hxa⟩ := lruCall_stores (fun k => by simp) e3
      rw [← e1]
      refine ⟨x, hx, ?_⟩
      have : x.1 = ⟨i, form, a⟩ := by simpa using hxa
      rw [this]
  have hw : w₁.heap i = w.heap i ∧ (w₁.heap i).isSome = true := by
    cases hh : w.heap i with
    | none => simp only [SlicerWorld.step, hh] at hr; cases hr
    | some hs =>
      simp only [SlicerWorld.step, hh] at hr
      have e1 : _ = w₁ := congrArg Prod.fst (Option.some.inj hr)
      rw [← e1]
      exact ⟨hh, by simp [hh]⟩
  suffices H : (∃ e ∈ w₂.cache, e.1.addr = i) ∧ w₂.heap i = w₁.heap i by
    rw [H.2]
    exact ⟨hw.2, hw.1⟩
  induction h₂ with
  | here => exact ⟨hc, rfl⟩
  | @next more w₃ op w₂ r _ hs ih =>
    obtain ⟨⟨e, he, hei⟩, ih2⟩ := ih
    rw [← ih2]
    cases op with
    | new passives ndim j =>
      simp only [SlicerWorld.step] at hs
      split at hs
      · cases hs
      · rename_i hj
        split at hs
        · cases hs
          exact ⟨⟨e, he, hei⟩, rfl⟩
        · cases hs
          refine ⟨⟨e, he, hei⟩, Function.update_of_ne ?_ _ _⟩
          rintro rfl
          rw [ih2] at hj
          rw [hj] at hw
          exact absurd hw.2 (by simp)
    | call j form' a' =>
      simp only [SlicerWorld.step] at hs
      split at hs
      · cases hs
      · cases hs
        exact ⟨⟨e, lruCall_keeps _ _ _ _ he, hei⟩, rfl⟩
    | drop j =>
      simp only [SlicerWorld.step] at hs
      split_ifs at hs with hcj
      · cases hs
        exact ⟨⟨e, he, hei⟩, rfl⟩
      · cases hs
        refine ⟨⟨e, he, hei⟩, Function.update_of_ne ?_ _ _⟩
        rintro rfl
        exact hcj (List.any_eq_true.2 ⟨e, he, by simp [hei]⟩)

/-- `get_symmetric_slices` (fv.py 88): the calls of a sweep of degree 1, of a wrong one, and of the first again. -/
example : (lruCalls (fun a b => a == b) (fun _ => true) none (fun a : ℕ × ℤ × ℤ => getSymmetricSlices a.1 a.2.1 a.2.2)
    [(4, 3, 1), (4, 0, 1), (4, 3, 1)] []).1 =
      [getSymmetricSlices 4 3 1, .error .valueError, getSymmetricSlices 4 3 1] ∧ (getSymmetricSlices 4 3 1).isOk = true :=
  ⟨C123_lru (fun a b h => by rw [show a = b by simpa using h]) none _, by decide +kernel⟩

/-- The slicer of the pressure. -/
def askP : SlicerArgs := ⟨.str "P", .none, .none, .none, none, .none, none⟩

/-- An object is created, asked twice, given up; the next object gets another address. -/
example : ∃ w, SlicerRun [.new [] 4 0, .call 0 0 askP, .call 0 0 askP, .drop 0, .new ["dye"] 1 1] w ∧ w.step (.new [] 1 0) = none ∧
    ∃ w', w.step (.call 1 0 askP) = some (w', .ok (some (.one (.sel (.ix (.row 4)))))) :=
  ⟨_, .next (ops := [_, _, _, _]) (.next (ops := [_, _, _]) (.next (ops := [_, _]) (.next (ops := [_]) (.next (ops := []) .start rfl) rfl) rfl) rfl) rfl,
    rfl, _, rfl⟩

end FVHOE
