import Verif.Catalog.Lemmas

/-!
# Properties C02, C03, C04, C31, C40, C41: shared catalogues, freezing, library scopes
-/

namespace Verif.Catalog

open Verif

set_option linter.unusedSectionVars false
set_option linter.unusedSimpArgs false

variable {K I F H : Type} [LinearOrder K] [DecidableEq F] [DecidableEq H]

/-! ## C02: frozen catalogues -/

/-- The shared data that must not change under concurrent readers: all catalogues and the magnetics cache. -/
def shared (s : State K I F H) : Catalogs K I F × SMap K I := (s.cat, s.mcache)

/-- Every public call except the four that the code does not guard (`evict` of the magnetics cache, the
destructor and move-assignment of a scope) and except unfreezing itself. -/
def Guarded : Op K I F H → Prop
  | .setFrozen b => b = true
  | .cacheEvict _ => False
  | .cacheEvictMany _ => False
  | .closeScope _ => False
  | .moveScope _ _ => False
  | _ => True

theorem frozen_step (e : Env K I F) (s : State K I F H) (op : Op K I F H) (hop : Guarded op)
    (hs : s.frozen = true) :
    shared (step e s op).1 = shared s ∧ (step e s op).1.frozen = true := by
  cases op <;> simp only [Guarded] at hop
  case setFrozen b => subst hop; exact ⟨rfl, rfl⟩
  case openScope h c =>
    simp only [step, openScope]
    cases c with
    | none => exact ⟨rfl, hs⟩
    | some c => simp only [hs, if_true]; split <;> exact ⟨rfl, by first | rfl | exact hs⟩
  case resetSettings =>
    simp only [step, resetSettings, whenM, clearCores, andThen, hs, if_true]
    split <;> exact ⟨rfl, by first | rfl | exact hs⟩
  all_goals
    simp only [step, loadAll, loadCores, loadMap, loadShapes, loadAdvanced, clearCores, clearShapes,
      clearAll, loadDatabases, lazyMap, lazyShapes, lazyCores, whenM, hs, if_true]
    constructor <;> repeat' first | trivial | exact hs | rfl | split

/-- **C02 (partial)**: while frozen, no sequence of guarded calls changes any catalogue or the magnetics
cache.  Missing with respect to C02: `evict`, and scopes that end, while frozen — see
`frozen_evict_changes` and `frozen_scope_end_changes`, which show that the full claim is false. -/
theorem frozen_unchanged_partial (e : Env K I F) (s : State K I F H) (ops : List (Op K I F H))
    (hops : ∀ op ∈ ops, Guarded op) (hs : s.frozen = true) :
    shared (run e s ops) = shared s ∧ (run e s ops).frozen = true := by
  induction ops generalizing s with
  | nil => exact ⟨rfl, hs⟩
  | cons a l ih =>
    have h1 := frozen_step e s a (hops a List.mem_cons_self) hs
    have h2 := ih (step e s a).1 (fun op hop => hops op (List.mem_cons_of_mem _ hop)) h1.2
    exact ⟨h2.1.trans h1.1, h2.2⟩

/-- **C02 (partial)**: a guarded call that returns normally while frozen is one that would not have changed
the shared data when not frozen; so every call that has to change them throws. -/
theorem frozen_call_would_not_change_partial (e : Env K I F) (s : State K I F H) (op : Op K I F H)
    (hop : Guarded op) (hs : s.frozen = true) (hret : (step e s op).2 = false) :
    shared (step e { s with frozen := false } op).1 = shared s := by
  cases op <;> simp only [Guarded] at hop
  case setFrozen b => rfl
  case openScope h c =>
    simp only [step, openScope] at hret ⊢
    cases c with
    | none => rfl
    | some c =>
      simp only [hs, if_true] at hret ⊢
      split at hret
      · rename_i he; simp only [he, if_true]; rfl
      · simp at hret
  case resetSettings =>
    simp only [step, resetSettings, whenM, clearCores, andThen, hs, if_true] at hret ⊢
    split at hret
    · simp at hret
    · rename_i he; simp only [he]; rfl
  case adviseCores =>
    simp only [step, loadCores, whenM, hs, if_true] at hret ⊢
    split at hret
    · simp at hret
    · rename_i he; simp only [he]; rfl
  case adviseWires =>
    simp only [step, loadMap, whenM, hs, if_true] at hret ⊢
    split at hret
    · simp at hret
    · rename_i he; simp only [he]; rfl
  case queryMap k =>
    simp only [step, lazyMap, loadMap, whenM, hs, if_true] at hret ⊢
    split at hret
    · simp at hret
    · rename_i he; simp only [he]; rfl
  case queryShapes a =>
    simp only [step, lazyShapes, loadShapes, whenM, hs, if_true] at hret ⊢
    split at hret
    · simp at hret
    · rename_i he; simp only [he]; rfl
  case queryCores =>
    simp only [step, lazyCores, loadCores, whenM, hs, if_true] at hret ⊢
    split at hret
    · simp at hret
    · rename_i he; simp only [he]; rfl
  case setToroidal b => rfl
  case setConcentric b => rfl
  case setStock b => rfl
  all_goals
    simp [step, loadAll, loadCores, loadMap, loadShapes, loadAdvanced, clearCores, clearShapes,
      clearAll, loadDatabases, hs] at hret

section Witness

/-- An environment for concrete examples: one internal core, one internal shape of family 7, one internal
entry named 1 in every other catalogue. -/
def env0 : Env Nat Nat Nat :=
  { fam := fun i => i % 10, isToroidal := fun f => f == 9, supported := fun f => f != 8
    internalCores := fun _ => [.entry 100 false true, .entry 109 true true]
    internalShapes := [.entry 50 57 true [51]]
    internalMap := fun _ => [.entry 1 11]
    autocomplete := fun i => i }

/-- The initial state for concrete examples. -/
def start0 : State Nat Nat Nat Nat := init

/-- A Merge context adding the wire 5. -/
def ctxMerge : Ctx Nat Nat :=
  { cores := none, maps := fun k => if k = .wires then some [(5, 55)] else none, shapes := none
    replace := false }

/-- A Replace context with one shape of family 4 and nothing else. -/
def ctxReplace : Ctx Nat Nat :=
  { cores := none, maps := fun _ => none, shapes := some [(2, 24)], replace := true }

/-- **C02 is false as stated**: evicting from the shared magnetics cache is allowed while frozen. -/
theorem frozen_evict_changes :
    ∃ (s : State Nat Nat Nat Nat), s.frozen = true ∧ (step env0 s (.cacheEvict 3)).2 = false ∧
      shared (step env0 s (.cacheEvict 3)).1 ≠ shared s := by
  refine ⟨run env0 start0 [.cacheLoad 3 30, .setFrozen true], rfl, rfl, ?_⟩
  intro h
  have := congrArg Prod.snd h
  revert this; decide

/-- **C02 is false as stated**: a scope opened before freezing and ended while frozen changes the catalogues
without any error. -/
theorem frozen_scope_end_changes :
    ∃ (s : State Nat Nat Nat Nat), s.frozen = true ∧ (step env0 s (.closeScope 1)).2 = false ∧
      shared (step env0 s (.closeScope 1)).1 ≠ shared s := by
  refine ⟨run env0 start0 [.openScope 1 (some ctxMerge), .setFrozen true], rfl, rfl, ?_⟩
  intro h
  have := congrArg (fun x => x.1.maps .wires) h
  revert this; decide

/-- The hypotheses of `frozen_unchanged_partial` hold for a non-trivial trace. -/
example : shared (run env0 (run env0 start0 [.loadAll, .setFrozen true])
    [.loadAll, .queryMap .wires, .clearAll, .cacheLoad 1 1, .resetSettings, .openScope 1 (some ctxMerge)])
    = shared (run env0 start0 [.loadAll, .setFrozen true]) :=
  (frozen_unchanged_partial env0 _ _ (by simp [Guarded]) rfl).1

end Witness

/-! ## C03: scopes are transparent after they end -/

/-- Properly nested traces: the scope objects are destroyed in reverse order of construction, as C++ block
scoping does, also when a block is left by an exception.  `used` are the handles of the enclosing objects. -/
inductive Nested : List H → List (Op K I F H) → Prop where
  | nil (used) : Nested used []
  | call (used op rest) : isScopeOp op = false → Nested used rest → Nested used (op :: rest)
  | block (used h ctx body rest) : h ∉ used → Nested (h :: used) body → Nested used rest →
      Nested used (.openScope h ctx :: (body ++ .closeScope h :: rest))

theorem lookupScope_cons_self (h : H) (b) (l : List (H × Option (Catalogs K I F))) :
    lookupScope h ((h, b) :: l) = some b := by simp [lookupScope]

theorem dropScope_cons_self (h : H) (b) (l : List (H × Option (Catalogs K I F))) :
    dropScope h ((h, b) :: l) = l := by simp [dropScope]

theorem nested_scopes (e : Env K I F) {used : List H} {ops : List (Op K I F H)} (hn : Nested used ops)
    (s : State K I F H) (hs : ∀ h, h ∉ used → lookupScope h s.scopes = none) :
    scopePart (run e s ops) = scopePart s := by
  induction hn generalizing s with
  | nil used => rfl
  | call used op rest hop _ ih =>
    rw [run_cons]
    have h1 := step_scope e s op hop
    have h2 : (step e s op).1.scopes = s.scopes := congrArg Prod.snd h1
    rw [ih _ (by rw [h2]; exact hs), h1]
  | block used h ctx body rest hh _ _ ih1 ih2 =>
    rw [run_cons, run_append, run_cons]
    -- the state after the constructor
    have hlook := hs h hh
    have key : ∀ s1 : State K I F H, scopePart (run e s1 body) = scopePart s1 →
        (∃ b, s1.scopes = (h, b) :: s.scopes ∧
          s1.activeScopeCount = s.activeScopeCount + (if b.isSome then 1 else 0)) →
        scopePart (step e (run e s1 body) (.closeScope h)).1 = scopePart s := by
      rintro s1 hr ⟨b, hsc, hcnt⟩
      have hr2 : (run e s1 body).scopes = (h, b) :: s.scopes := (congrArg Prod.snd hr).trans hsc
      have hr1 : (run e s1 body).activeScopeCount = _ := (congrArg Prod.fst hr).trans hcnt
      simp only [step, closeScope, hr2, lookupScope_cons_self, dropScope_cons_self]
      cases b with
      | none => simp [restore, scopePart, hr1]
      | some c => simp [restore, scopePart, hr1]
    have fresh : ∀ s1 : State K I F H, (∃ b, s1.scopes = (h, b) :: s.scopes) →
        ∀ h', h' ∉ h :: used → lookupScope h' s1.scopes = none := by
      rintro s1 ⟨b, hsc⟩ h' hh'
      rw [List.mem_cons, not_or] at hh'
      rw [hsc]; simp [lookupScope, hh'.1, hs h' hh'.2]
    have goal : scopePart (step e (run e (step e s (.openScope h ctx)).1 body) (.closeScope h)).1
        = scopePart s := by
      have hopen : (∃ b, (step e s (.openScope h ctx)).1.scopes = (h, b) :: s.scopes ∧
          (step e s (.openScope h ctx)).1.activeScopeCount
            = s.activeScopeCount + (if b.isSome then 1 else 0)) ∨
          (step e s (.openScope h ctx)).1 = s := by
        simp only [step, openScope]
        cases ctx with
        | none => exact Or.inl ⟨none, rfl, by simp⟩
        | some c =>
          simp only
          split
          · exact Or.inl ⟨none, rfl, by simp⟩
          · split
            · exact Or.inr rfl
            · exact Or.inl ⟨some s.cat, rfl, rfl⟩
      rcases hopen with ho | ho
      · have ho' := ho
        obtain ⟨b, hb, _⟩ := ho
        exact key _ (ih1 _ (fresh _ ⟨b, hb⟩)) ho'
      · rw [ho]
        have hr := ih1 s (fun h' hh' => hs h' (fun hu => hh' (List.mem_cons_of_mem _ hu)))
        have hr2 : (run e s body).scopes = s.scopes := congrArg Prod.snd hr
        simp only [step, closeScope, hr2, hlook]
        exact hr
    have goal2 : (step e (run e (step e s (.openScope h ctx)).1 body) (.closeScope h)).1.scopes
        = s.scopes := congrArg Prod.snd goal
    rw [ih2 _ (by rw [goal2]; exact hs), goal]

/-- **C03**: a scope over a non-empty context, opened while not frozen, leaves every catalogue exactly as it
was, whatever properly nested calls and inner scopes the body makes (thrown or not), and leaves no trace in
the bookkeeping of live scopes. -/
theorem scope_restores (e : Env K I F) (s : State K I F H) (h : H) (c : Ctx K I)
    (body : List (Op K I F H)) (used : List H)
    (hne : c.isEmpty = false) (hfrozen : s.frozen = false)
    (hused : ∀ h', h' ∉ used → lookupScope h' s.scopes = none)
    (hbody : Nested (h :: used) body) :
    let s' := run e s (.openScope h (some c) :: (body ++ [.closeScope h]))
    s'.cat = s.cat ∧ s'.scopes = s.scopes ∧ s'.activeScopeCount = s.activeScopeCount := by
  intro s'
  have hopen : (step e s (.openScope h (some c))).1
      = { s with activeScopeCount := s.activeScopeCount + 1, scopes := (h, some s.cat) :: s.scopes
                 cat := overlay e c s.cat } := by
    simp [step, openScope, hne, hfrozen]
  have hs' : s' = (step e (run e (step e s (.openScope h (some c))).1 body) (.closeScope h)).1 := by
    show run e s _ = _
    rw [run_cons, run_append, run_cons, run_nil]
  rw [hs', hopen]
  have hr := nested_scopes e hbody
    { s with activeScopeCount := s.activeScopeCount + 1, scopes := (h, some s.cat) :: s.scopes
             cat := overlay e c s.cat }
    (by
      intro h' hh'
      rw [List.mem_cons, not_or] at hh'
      simp [lookupScope, hh'.1, hused h' hh'.2])
  generalize run e _ body = t at hr ⊢
  have hr2 : t.scopes = (h, some s.cat) :: s.scopes := congrArg Prod.snd hr
  have hr1 : t.activeScopeCount = s.activeScopeCount + 1 := congrArg Prod.fst hr
  simp only [step, closeScope, hr2, lookupScope_cons_self, dropScope_cons_self, restore, hr1]
  exact ⟨by trivial, by trivial, by omega⟩

/-- A non-trivial instance of `scope_restores`: nested scopes, loads and clears in the body. -/
example : (run env0 (run env0 start0 [.loadAll])
    (.openScope 1 (some ctxMerge) :: ([.clearAll, .openScope 2 (some ctxReplace), .loadAll,
      .closeScope 2, .queryCores] ++ [.closeScope 1]))).cat = (run env0 start0 [.loadAll]).cat :=
  (scope_restores env0 _ 1 ctxMerge _ [] rfl rfl (fun _ _ => rfl)
    (.call _ _ _ rfl (.block _ 2 _ [.loadAll] _ (by simp) (.call _ _ _ rfl (.nil _))
      (.call _ _ _ rfl (.nil _))))).1

/-- Why C03 says "properly nested": scopes destroyed in the order of construction (possible through the
movable `Scope` that `applyScoped()` returns) leave the custom items of the first scope installed for good. -/
theorem scope_leak_when_not_nested :
    (run env0 start0 [.queryMap .wires, .openScope 1 (some ctxMerge), .openScope 2 (some ctxReplace),
      .closeScope 1, .closeScope 2]).cat.maps .wires
    ≠ (run env0 start0 [.queryMap .wires]).cat.maps .wires := by decide

/-- The same through move assignment `scope = other.applyScoped()`: afterwards the user's wire stays. -/
theorem scope_leak_after_move_assign :
    (run env0 start0 [.queryMap .wires, .openScope 1 (some ctxMerge), .openScope 2 (some ctxReplace),
      .moveScope 1 2, .closeScope 2, .closeScope 1]).cat.maps .wires
    ≠ (run env0 start0 [.queryMap .wires]).cat.maps .wires := by decide

/-! ## C04: overlays -/

/-- Specification of the overlay, as a function of names. -/
def specLookup (replace : Bool) (custom old : K → Option I) (k : K) : Option I :=
  match custom k with
  | some v => some v
  | none => if replace then none else old k

/-- The custom items of the context as a function of names. -/
def customLookup (m : Option (SMap K I)) (k : K) : Option I :=
  match m with
  | some m => SMap.find? m k
  | none => none

/-- **C04 (catalogue content)**: right after opening a scope over a non-empty context, every map catalogue
and the shapes show exactly the requested overlay, and the cores are the old ones (Merge only) followed by
the custom ones. -/
theorem overlay_lookup (e : Env K I F) (s : State K I F H) (h : H) (c : Ctx K I)
    (hne : c.isEmpty = false) (hfrozen : s.frozen = false)
    (hsorted : ∀ k m, c.maps k = some m → SMap.Sorted m) (hsortedS : ∀ m, c.shapes = some m → SMap.Sorted m) :
    let s' := (step e s (.openScope h (some c))).1
    (∀ k name, (s'.cat.maps k).find? name
        = specLookup c.replace (customLookup (c.maps k)) (s.cat.maps k).find? name) ∧
    (∀ name, s'.cat.shapes.find? name
        = specLookup c.replace (customLookup c.shapes) s.cat.shapes.find? name) ∧
    s'.cat.cores = (if c.replace then [] else s.cat.cores) ++ (c.cores.getD []) := by
  have key : ∀ (r : Bool) (old : SMap K I) (cu : Option (SMap K I)) (_ : ∀ m, cu = some m → SMap.Sorted m)
      (name : K), (overlayMap r old cu).find? name = specLookup r (customLookup cu) old.find? name := by
    intro r old cu hcu name
    cases cu with
    | none => cases r <;> simp [overlayMap, specLookup, customLookup, SMap.find?]
    | some m =>
      simp only [overlayMap, SMap.find?_insertAll_sorted _ (hcu m rfl), specLookup, customLookup]
      cases SMap.find? m name with
      | some v => simp
      | none => cases r <;> simp [SMap.find?]
  simp only [step, openScope, hne, hfrozen, Bool.false_eq_true, if_false]
  refine ⟨fun k name => key _ _ _ (hsorted k) name, fun name => key _ _ _ hsortedS name, ?_⟩
  simp only [overlay]
  cases c.cores <;> rfl

/-- **C04 (families)**: the families listed in a scope that replaces or adds shapes have no duplicates and
are exactly the families of the shapes visible there. -/
theorem overlay_families (e : Env K I F) (s : State K I F H) (h : H) (c : Ctx K I)
    (hne : c.isEmpty = false) (hfrozen : s.frozen = false) (hsh : c.replace = true ∨ c.shapes.isSome = true) :
    let s' := (step e s (.openScope h (some c))).1
    s'.cat.families.Nodup ∧ ∀ f, f ∈ s'.cat.families ↔ ∃ kv ∈ s'.cat.shapes, e.fam kv.2 = f := by
  have hc : (c.replace || c.shapes.isSome) = true := by rcases hsh with h | h <;> simp [h]
  simp only [step, openScope, hne, hfrozen, Bool.false_eq_true, if_false, overlay, hc, if_true]
  exact ⟨rebuild_nodup _ _, fun f => mem_rebuild _ _ f⟩

/-- What a lookup by exact name in a map catalogue shows to a caller: the lookup first loads the embedded
catalogue when the catalogue is empty (e.g. `find_wire_by_name`, Utils.cpp:1123-1133). -/
def seen (e : Env K I F) (s : State K I F H) (k : MapKind) (name : K) : Option I :=
  ((step e s (.queryMap k)).1.cat.maps k).find? name

/-- **C04 (lookups, partial)**: inside the scope a lookup through the API shows exactly the overlay for every
catalogue kind that is not empty in the scope. Missing: empty kinds, see `replace_scope_shows_internal`. -/
theorem scope_lookup_partial (e : Env K I F) (s : State K I F H) (h : H) (c : Ctx K I)
    (hne : c.isEmpty = false) (hfrozen : s.frozen = false)
    (hsorted : ∀ k m, c.maps k = some m → SMap.Sorted m) (hsortedS : ∀ m, c.shapes = some m → SMap.Sorted m)
    (k : MapKind) (name : K)
    (hnonempty : ((step e s (.openScope h (some c))).1.cat.maps k).isEmpty = false) :
    seen e (step e s (.openScope h (some c))).1 k name
      = specLookup c.replace (customLookup (c.maps k)) (s.cat.maps k).find? name := by
  rw [← (overlay_lookup e s h c hne hfrozen hsorted hsortedS).1 k name]
  show ((lazyMap e k _).1.cat.maps k).find? name = _
  rw [lazyMap, whenM, hnonempty]
  rfl

/-- **C04 is false as stated for lookups**: in a Replace scope whose context has no wires, looking up a wire
that the user's library does not contain loads the embedded catalogue and returns the internal wire. -/
theorem replace_scope_shows_internal :
    seen env0 (step env0 start0 (.openScope 1 (some ctxReplace))).1 .wires 1 = some 11 ∧
      customLookup (ctxReplace.maps .wires) 1 = none ∧ ctxReplace.replace = true := by decide

/-- Non-trivial instance of `overlay_lookup` and `overlay_families`. -/
example : ((step env0 (run env0 start0 [.loadAll]) (.openScope 1 (some ctxMerge))).1.cat.maps
    .wires) = [(1, 11), (5, 55)] := by decide
example : (step env0 (run env0 start0 [.loadAll]) (.openScope 1 (some ctxReplace))).1.cat.families
    = [4] := by decide

/-! ## C31: families of the catalogue -/

/-- **C31 (no duplicates)**: whatever the history of calls, the list of families has no duplicates. -/
theorem families_nodup (e : Env K I F) (ops : List (Op K I F H)) :
    (run e init ops).cat.families.Nodup := by
  refine (run_inv (e := e) (P := fun c => c.families.Nodup) (okLines := fun _ => True)
    (okDoc := fun _ => True) (okCtx := fun _ => True) ⟨?_, ?_, ?_, trivial, ?_, ?_, ?_⟩ init ops ?_ ?_).1
  · exact fun c l h => h
  · exact fun c f h => h
  · exact fun c h => List.nodup_nil
  · exact fun c t cc a ls _ h => loadShapeLines_nodup e t cc a ls _ _ h
  · exact fun c a d _ h => h
  · intro c x _ h
    simp only [overlay]
    split
    · exact rebuild_nodup _ _
    · exact h
  · intro op _
    unfold OpOk
    split <;> trivial
  · exact ⟨List.nodup_nil, by simp [init]⟩

/-- **C31 (partial, completeness)**: in every history in which `load_databases` is not given shapes, every
shape of the catalogue has its family listed. -/
theorem families_complete_partial (e : Env K I F) (ops : List (Op K I F H))
    (hdoc : ∀ d a i, Op.loadDatabases d a i ∈ ops → d.shapes = []) :
    ∀ kv ∈ (run e init ops).cat.shapes, e.fam kv.2 ∈ (run e init ops).cat.families := by
  refine (run_inv (e := e) (P := fun c => Covered e c.families c.shapes) (okLines := fun _ => True)
    (okDoc := fun d => d.shapes = []) (okCtx := fun _ => True) ⟨?_, ?_, ?_, trivial, ?_, ?_, ?_⟩
    init ops ?_ ?_).1
  · exact fun c l h => h
  · exact fun c f h => h
  · exact fun c h => by simp [Covered]
  · exact fun c t cc a ls _ h => loadShapeLines_covered e t cc a ls _ _ h
  · intro c a d hd h; simp only [hd, loadDocShapes]; exact h
  · intro c x _ h
    simp only [overlay]
    split
    · intro kv hkv; exact (mem_rebuild _ _ _).mpr ⟨kv, hkv, rfl⟩
    · rename_i hc
      simp only [Bool.or_eq_true, not_or, Bool.not_eq_true] at hc
      have h1 : x.shapes = none := by
        cases hx : x.shapes with
        | none => rfl
        | some m => rw [hx] at hc; simp at hc
      simp only [overlayMap, hc.1, h1]
      exact h
  · intro op hop
    unfold OpOk
    split
    · trivial
    · exact hdoc _ _ _ hop
    · trivial
    · trivial
  · exact ⟨by simp [Covered, init], by simp [init]⟩

/-- **C31 (partial, exactness)**: if in addition every shape record loaded, embedded or provided by a context
keeps to one family per name, the list of families is exactly the set of families of the shapes. -/
theorem families_exact_partial (e : Env K I F) (famOf : K → F) (ops : List (Op K I F H))
    (hint : ∀ l ∈ e.internalShapes, LineFollows e famOf l)
    (hfile : ∀ a ls, Op.loadShapes a (some ls) ∈ ops → ∀ l ∈ ls, LineFollows e famOf l)
    (hctx : ∀ h c m, Op.openScope h (some c) ∈ ops → c.shapes = some m → ∀ kv ∈ m, e.fam kv.2 = famOf kv.1)
    (hdoc : ∀ d a i, Op.loadDatabases d a i ∈ ops → d.shapes = []) :
    let c := (run e init ops).cat
    c.families.Nodup ∧ ∀ f, f ∈ c.families ↔ ∃ kv ∈ c.shapes, e.fam kv.2 = f := by
  intro c
  refine ⟨families_nodup e ops, fun f => ⟨?_, ?_⟩⟩
  · intro hf
    have := (run_inv (e := e) (P := fun c => FamOk e famOf c.families c.shapes)
      (okLines := fun ls => ∀ l ∈ ls, LineFollows e famOf l)
      (okDoc := fun d => d.shapes = [])
      (okCtx := fun c => ∀ m, c.shapes = some m → ∀ kv ∈ m, e.fam kv.2 = famOf kv.1)
      ⟨?_, ?_, ?_, hint, ?_, ?_, ?_⟩ init ops ?_ ?_).1
    · exact this.listed f hf
    · exact fun c l h => h
    · exact fun c f h => h
    · exact fun c h => ⟨by simp, by simp⟩
    · exact fun c t cc a ls hls h => loadShapeLines_famOk t cc a ls hls _ _ h
    · intro c a d hd h; simp only [hd, loadDocShapes]; exact h
    · intro c x hx h
      have hnames : ∀ kv ∈ overlayMap x.replace c.shapes x.shapes, e.fam kv.2 = famOf kv.1 := by
        have hbase : ∀ kv ∈ (if x.replace then [] else c.shapes), e.fam kv.2 = famOf kv.1 := by
          split
          · simp
          · exact h.names
        unfold overlayMap
        cases hxs : x.shapes with
        | none => exact hbase
        | some m => exact names_insertAll hbase (hx m hxs)
      simp only [overlay]
      split
      · exact ⟨fun f hf => (mem_rebuild _ _ _).mp hf, hnames⟩
      · rename_i hc
        refine ⟨?_, hnames⟩
        simp only [Bool.or_eq_true, not_or, Bool.not_eq_true] at hc
        have h1 : x.shapes = none := by
          cases hx : x.shapes with
          | none => rfl
          | some m => rw [hx] at hc; simp at hc
        simp only [overlayMap, hc.1, h1]
        exact h.listed
    · intro op hop
      unfold OpOk
      split
      · exact hfile _ _ hop
      · exact hdoc _ _ _ hop
      · exact fun m hm => hctx _ _ m hop hm
      · trivial
    · exact ⟨⟨by simp [init], by simp [init]⟩, by simp [init]⟩
  · rintro ⟨kv, hkv, rfl⟩
    exact families_complete_partial e ops hdoc kv hkv

/-- **C31 is false as stated (1)**: `load_databases` adds shapes without their families, so
`get_core_shape_families` misses them. -/
theorem families_missing_after_load_databases :
    let c := (run env0 start0
      [.loadDatabases ⟨[], [.entry 2 24 true []], [], [], [], []⟩ true false, .queryShapes true]).cat
    c.shapes = [(2, 24)] ∧ c.families = [] := by decide

/-- **C31 is false as stated (2)**: reloading a shape under the same name with another family leaves the old
family listed although no shape has it any more. -/
theorem families_stale_after_overwrite :
    let c := (run env0 start0
      [.loadShapes true (some [.entry 2 24 true []]), .loadShapes true (some [.entry 2 25 true []]),
        .queryShapes true]).cat
    c.shapes = [(2, 25)] ∧ c.families = [4, 5] := by decide

/-- The hypotheses of `families_exact_partial` hold for a history with loads, scopes and clears. -/
example : let c := (run env0 start0 [.loadAll, .openScope 1 (some ctxReplace), .loadAll,
      .closeScope 1, .clearShapes, .queryShapes true]).cat
    c.families.Nodup ∧ ∀ f, f ∈ c.families ↔ ∃ kv ∈ c.shapes, env0.fam kv.2 = f := by
  refine families_exact_partial env0 (fun k => if k = 2 then 4 else 7) _ ?_ ?_ ?_ ?_
  · intro l hl
    simp only [env0, List.mem_singleton] at hl
    subst hl
    exact ⟨by decide, by decide⟩
  · intro a ls h; simp at h
  · intro h c m hc hm
    simp at hc
    rw [hc.2, ctxReplace] at hm
    simp at hm; subst hm
    decide
  · intro d a i h; simp at h

/-! ## C40: resetting the settings gives back the default view of the catalogue -/

/-- The three settings that decide which embedded cores are loaded have their defaults. -/
def DefaultFlags (s : State K I F H) : Prop :=
  s.useToroidal = true ∧ s.useConcentric = true ∧ s.useStock = true

/-- **C40 (partial)**: after `Settings::reset()` on an unfrozen process the three flags have their defaults,
and if any of them was changed at that moment the cores shown by the next query are the full embedded list. -/
theorem reset_refreshes_cores_partial (e : Env K I F) (s : State K I F H) (hfrozen : s.frozen = false) :
    DefaultFlags (step e s .resetSettings).1 ∧
    (¬ DefaultFlags s →
      (step e (step e s .resetSettings).1 .queryCores).1.cat.cores
        = (loadCoreLines true true [] (e.internalCores true)).1 ∧
      (step e s .resetSettings).1.cat.shapes = []) := by
  have hflags : (step e s .resetSettings).1.useToroidal = true ∧
      (step e s .resetSettings).1.useConcentric = true ∧ (step e s .resetSettings).1.useStock = true := by
    simp only [step, resetSettings, whenM, clearCores, clearShapes, andThen, hfrozen]
    split <;> simp
  refine ⟨hflags, fun hd => ?_⟩
  have hchg : ((s.useToroidal != true) || (s.useConcentric != true) || (s.useStock != true)) = true := by
    simp only [DefaultFlags] at hd
    revert hd
    cases s.useToroidal <;> cases s.useConcentric <;> cases s.useStock <;> simp
  simp only [step, resetSettings, hchg, whenM, if_true, clearCores, clearShapes, andThen, hfrozen,
    Bool.false_eq_true, if_false, lazyCores, loadCores, List.isEmpty_nil]
  trivial

/-- **C40 is false as stated**: when the flag was changed, the cores were loaded, and the flag was set back
by its setter before `reset()`, the stale (filtered) list of cores survives the reset. -/
theorem reset_keeps_stale_cores :
    (run env0 start0 [.setToroidal false, .queryCores, .setToroidal true, .resetSettings,
      .queryCores]).cat.cores = [100] ∧
    (run env0 start0 [.queryCores]).cat.cores = [100, 109] := by decide

/-- Instance of `reset_refreshes_cores_partial` with a changed flag. -/
example : (run env0 start0 [.setToroidal false, .queryCores, .resetSettings, .queryCores]).cat.cores
    = [100, 109] := by decide

/-! ## C41: `anyActive` -/

/-- Number of live scope objects that are active. -/
def liveActive (s : State K I F H) : Int := (s.scopes.countP (fun x => x.2.isSome) : Nat)

/-- The handles of live objects are distinct (distinct C++ objects). -/
def Distinct (s : State K I F H) : Prop := (s.scopes.map Prod.fst).Nodup

/-- Every scope object of the trace is a new object when it is constructed. -/
def FreshTrace (e : Env K I F) : State K I F H → List (Op K I F H) → Prop
  | _, [] => True
  | s, op :: ops => (∀ h c, op = .openScope h c → h ∉ s.scopes.map Prod.fst) ∧
      FreshTrace e (step e s op).1 ops

theorem not_mem_of_lookup_none {h : H} {l : List (H × Option (Catalogs K I F))}
    (hl : h ∉ l.map Prod.fst) : lookupScope h l = none := by
  induction l with
  | nil => rfl
  | cons a l ih =>
    obtain ⟨h', b⟩ := a
    simp only [List.map_cons, List.mem_cons, not_or] at hl
    simp [lookupScope, hl.1, ih hl.2]

theorem count_dropScope {h : H} {l : List (H × Option (Catalogs K I F))} {b}
    (hl : lookupScope h l = some b) :
    ((dropScope h l).countP (fun x => x.2.isSome) : Int)
      = l.countP (fun x => x.2.isSome) - (if b.isSome then 1 else 0) := by
  induction l with
  | nil => simp [lookupScope] at hl
  | cons a l ih =>
    obtain ⟨h', b'⟩ := a
    simp only [lookupScope] at hl
    simp only [dropScope]
    split at hl
    · rename_i heq
      simp at hl; subst hl
      simp only [heq, if_true, List.countP_cons]
      split <;> simp
    · rename_i hne
      simp only [hne, if_false, List.countP_cons]
      have := ih hl
      push_cast
      rw [this]; omega

theorem nodup_dropScope {h : H} {l : List (H × Option (Catalogs K I F))}
    (hl : (l.map Prod.fst).Nodup) : ((dropScope h l).map Prod.fst).Nodup := by
  refine List.Pairwise.sublist (List.Sublist.map _ ?_) hl
  clear hl
  induction l with
  | nil => exact List.Sublist.refl _
  | cons a l ih =>
    obtain ⟨h', b⟩ := a
    simp only [dropScope]
    split
    · exact List.sublist_cons_self _ _
    · exact ih.cons_cons _

theorem map_fst_replace {dst src : H} {bs : Option (Catalogs K I F)} (l : List (H × Option (Catalogs K I F))) :
    (l.map (fun x => if x.1 = dst then (x.1, bs) else if x.1 = src then (x.1, none) else x)).map Prod.fst
      = l.map Prod.fst := by
  rw [List.map_map]
  refine List.map_congr_left ?_
  intro x _
  simp only [Function.comp]
  split
  · rfl
  · split <;> rfl

theorem count_replace_aux {dst src : H} {bs : Option (Catalogs K I F)}
    (l : List (H × Option (Catalogs K I F))) (hd : dst ∉ l.map Prod.fst) (hs : src ∉ l.map Prod.fst) :
    l.map (fun x => if x.1 = dst then (x.1, bs) else if x.1 = src then (x.1, none) else x) = l := by
  induction l with
  | nil => rfl
  | cons a l ih =>
    simp only [List.map_cons, List.mem_cons, not_or] at hd hs
    rw [List.map_cons, ih hd.2 hs.2]
    simp [Ne.symm hd.1, Ne.symm hs.1]

theorem count_replace_one {dst src : H} {bs b : Option (Catalogs K I F)}
    (l : List (H × Option (Catalogs K I F))) (hn : (l.map Prod.fst).Nodup) (hs : src ∉ l.map Prod.fst)
    (hl : lookupScope dst l = some b) :
    ((l.map (fun x => if x.1 = dst then (x.1, bs) else if x.1 = src then (x.1, none) else x)).countP
        (fun x => x.2.isSome) : Int)
      = l.countP (fun x => x.2.isSome) - (if b.isSome then 1 else 0) + (if bs.isSome then 1 else 0) := by
  induction l with
  | nil => simp [lookupScope] at hl
  | cons a l ih =>
    obtain ⟨h', b'⟩ := a
    simp only [List.map_cons, List.nodup_cons, List.mem_cons, not_or] at hn hs
    simp only [lookupScope] at hl
    split at hl
    · rename_i heq; subst heq
      simp at hl; subst hl
      rw [List.map_cons, count_replace_aux l hn.1 hs.2]
      simp only [if_true, List.countP_cons]
      push_cast
      omega
    · rename_i hne
      have := ih hn.2 hs.2 hl
      rw [List.map_cons]
      simp only [Ne.symm hne, if_false, Ne.symm hs.1, List.countP_cons]
      push_cast
      rw [this]; omega

theorem count_replace_src {dst src : H} {bs b : Option (Catalogs K I F)}
    (l : List (H × Option (Catalogs K I F))) (hn : (l.map Prod.fst).Nodup) (hs : dst ∉ l.map Prod.fst)
    (hl : lookupScope src l = some b) :
    ((l.map (fun x => if x.1 = dst then (x.1, bs) else if x.1 = src then (x.1, none) else x)).countP
        (fun x => x.2.isSome) : Int)
      = l.countP (fun x => x.2.isSome) - (if b.isSome then 1 else 0) := by
  induction l with
  | nil => simp [lookupScope] at hl
  | cons a l ih =>
    obtain ⟨h', b'⟩ := a
    simp only [List.map_cons, List.nodup_cons, List.mem_cons, not_or] at hn hs
    simp only [lookupScope] at hl
    split at hl
    · rename_i heq; subst heq
      simp at hl; subst hl
      rw [List.map_cons, count_replace_aux l hs.2 hn.1]
      simp only [Ne.symm hs.1, if_false, if_true, List.countP_cons]
      push_cast
      simp only [Option.isSome_none, Bool.false_eq_true, if_false]
      split <;> omega
    · rename_i hne
      have := ih hn.2 hs.2 hl
      rw [List.map_cons]
      simp only [Ne.symm hne, if_false, Ne.symm hs.1, List.countP_cons]
      push_cast
      rw [this]; omega

theorem count_replace {dst src : H} {bd bs : Option (Catalogs K I F)} (hne : dst ≠ src)
    (l : List (H × Option (Catalogs K I F))) (hn : (l.map Prod.fst).Nodup)
    (hd : lookupScope dst l = some bd) (hs : lookupScope src l = some bs) :
    ((l.map (fun x => if x.1 = dst then (x.1, bs) else if x.1 = src then (x.1, none) else x)).countP
        (fun x => x.2.isSome) : Int)
      = l.countP (fun x => x.2.isSome) - (if bd.isSome then 1 else 0) := by
  induction l with
  | nil => simp [lookupScope] at hd
  | cons a l ih =>
    obtain ⟨h', b'⟩ := a
    simp only [List.map_cons, List.nodup_cons] at hn
    simp only [lookupScope] at hd hs
    split at hd
    · rename_i heq; subst heq
      simp at hd; subst hd
      simp only [Ne.symm hne, if_false] at hs
      rw [List.map_cons]
      simp only [if_true, List.countP_cons]
      have := count_replace_src (bs := bs) l hn.2 hn.1 hs
      push_cast
      rw [this]; split <;> split <;> omega
    · rename_i hne1
      split at hs
      · rename_i heq; subst heq
        simp at hs; subst hs
        rw [List.map_cons]
        simp only [Ne.symm hne1, if_false, if_true, List.countP_cons]
        have := count_replace_one (bs := b') l hn.2 hn.1 hd
        push_cast
        simp only [Option.isSome_none, Bool.false_eq_true, if_false]
        rw [this]; split <;> split <;> omega
      · rename_i hne2
        rw [List.map_cons]
        simp only [Ne.symm hne1, Ne.symm hne2, if_false, List.countP_cons]
        have := ih hn.2 hd hs
        push_cast
        rw [this]; omega

/-- **C41**: after any history of calls in which every scope object is constructed once, `anyActive` counts
exactly the live objects that hold a swapped catalogue: opening, closing in any order, moving and failing to
open never make it drift. -/
theorem active_count_exact (e : Env K I F) (s : State K I F H) (ops : List (Op K I F H))
    (hfresh : FreshTrace e s ops) (hs : s.activeScopeCount = liveActive s) (hd : Distinct s) :
    (run e s ops).activeScopeCount = liveActive (run e s ops) ∧ Distinct (run e s ops) := by
  induction ops generalizing s with
  | nil => exact ⟨hs, hd⟩
  | cons op ops ih =>
    rw [run_cons]
    refine ih _ hfresh.2 ?_ ?_ <;> by_cases hop : isScopeOp op = false
    · have h := step_scope e s op hop
      have h1 : (step e s op).1.activeScopeCount = s.activeScopeCount := congrArg Prod.fst h
      have h2 : (step e s op).1.scopes = s.scopes := congrArg Prod.snd h
      rw [h1, liveActive, h2]; exact hs
    · cases op <;> simp only [isScopeOp, not_true_eq_false] at hop
      case openScope h c =>
        simp only [step, openScope]
        cases c with
        | none => simpa [liveActive] using hs
        | some c =>
          simp only
          split
          · simpa [liveActive] using hs
          · split
            · exact hs
            · simp only [liveActive, List.countP_cons] at hs ⊢
              simp [hs]
      case closeScope h =>
        simp only [step, closeScope]
        split
        · exact hs
        · rename_i b hb
          have hc := count_dropScope hb
          cases b with
          | none => simp only [restore, liveActive] at hs ⊢; simp at hc; rw [hc]; exact hs
          | some c => simp only [restore, liveActive] at hs ⊢; simp at hc; rw [hc, hs]
      case moveScope dst src =>
        simp only [step, moveScope]
        split
        · exact hs
        · rename_i hne
          split
          · rename_i bd bs hbd hbs
            have hc := count_replace hne s.scopes hd hbd hbs
            simp only [liveActive, restore_scopes]
            rw [hc]
            cases bd with
            | none => simpa [restore, liveActive] using hs
            | some c => simp only [restore]; rw [hs, liveActive]; simp
          · exact hs
    · have h := step_scope e s op hop
      have h2 : (step e s op).1.scopes = s.scopes := congrArg Prod.snd h
      rw [Distinct, h2]; exact hd
    · cases op <;> simp only [isScopeOp, not_true_eq_false] at hop
      case openScope h c =>
        have hf := hfresh.1 h c rfl
        have hcons : ∀ b, (((h, b) :: s.scopes).map Prod.fst).Nodup := fun b => by
          rw [List.map_cons, List.nodup_cons]; exact ⟨hf, hd⟩
        simp only [step, openScope]
        cases c with
        | none => exact hcons _
        | some c =>
          simp only
          split
          · exact hcons _
          · split
            · exact hd
            · exact hcons _
      case closeScope h =>
        simp only [step, closeScope]
        split
        · exact hd
        · simp only [Distinct, restore_scopes]; exact nodup_dropScope hd
      case moveScope dst src =>
        simp only [step, moveScope]
        split
        · exact hd
        · split
          · simp only [Distinct, restore_scopes, map_fst_replace]; exact hd
          · exact hd

/-- A trace with non-nested closing and a move that meets the hypotheses. -/
example : (run env0 start0 [.openScope 1 (some ctxMerge), .openScope 2 (some ctxReplace),
    .openScope 3 none, .moveScope 3 1, .closeScope 2]).activeScopeCount = 1 := by decide
example : FreshTrace env0 start0 [.openScope 1 (some ctxMerge), .openScope 2 (some ctxReplace),
    .openScope 3 none, .moveScope 3 1, .closeScope 2] := by
  simp [FreshTrace, step, openScope, start0, init, ctxMerge, ctxReplace, Ctx.isEmpty]

end Verif.Catalog
