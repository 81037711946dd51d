import Verif.Catalog.Props

/-!
# Properties C50, C51, C52: loading catalogue files, failing loads, advisers inside scopes
-/

namespace Verif.Catalog

open Verif

set_option linter.unusedSectionVars false
set_option linter.unusedSimpArgs false

variable {K I F H : Type} [LinearOrder K] [DecidableEq F] [DecidableEq H]

/-! ## Specification -/

/-- The file gives `name` the item `v`: that is its last entry with the name. -/
def Provides (file : List (Line K I)) (name : K) (v : I) : Prop :=
  ∃ before after, file = before ++ .entry name v :: after ∧ ∀ w, Line.entry name w ∉ after

/-- The file does not mention `name`. -/
def Silent (file : List (Line K I)) (name : K) : Prop := ∀ w, Line.entry name w ∉ file

/-- `m` is what a catalogue `old` becomes when the entries of the file are written over it. -/
def Written (file : List (Line K I)) (old m : SMap K I) : Prop :=
  (∀ name v, Provides file name v → m.find? name = some v) ∧
  (∀ name, Silent file name → m.find? name = old.find? name)

/-- A shape record passes the selection by family and by the two settings. -/
def Admitted (e : Env K I F) (toroidal concentric : Bool) (v : I) : Prop :=
  e.supported (e.fam v) = true ∧
    (toroidal = true ∧ e.isToroidal (e.fam v) = true ∨ concentric = true ∧ e.isToroidal (e.fam v) = false)

/-- The names under which a shape record is stored. -/
def storedNames (withAliases : Bool) (name : K) (aliases : List K) : List K :=
  if withAliases then name :: aliases else [name]

/-! ## Helpers -/

theorem loadLines_written (file : List (Line K I)) (hf : Line.bad ∉ file) (m : SMap K I) :
    (loadLines m file).2 = false ∧ Written file m (loadLines m file).1 := by
  induction file generalizing m with
  | nil =>
    refine ⟨rfl, ?_, fun _ _ => rfl⟩
    rintro name v ⟨b, a, h, -⟩
    simp at h
  | cons x l ih =>
    cases x with
    | bad => simp at hf
    | entry k w =>
      have hl : Line.bad ∉ l := fun h => hf (List.mem_cons_of_mem _ h)
      obtain ⟨h1, h2, h3⟩ := ih hl (m.insert k w)
      refine ⟨h1, ?_, ?_⟩
      · rintro name v ⟨b, a, he, ha⟩
        cases b with
        | nil =>
          simp only [List.nil_append, List.cons.injEq, Line.entry.injEq] at he
          obtain ⟨⟨rfl, rfl⟩, rfl⟩ := he
          have := h3 k ha
          rw [SMap.find?_insert, if_pos rfl] at this
          exact this
        | cons y b =>
          simp only [List.cons_append, List.cons.injEq] at he
          exact h2 name v ⟨b, a, he.2, ha⟩
      · intro name hs
        have hne : name ≠ k := by
          rintro rfl
          exact hs w List.mem_cons_self
        have := h3 name (fun w' hw' => hs w' (List.mem_cons_of_mem _ hw'))
        rw [SMap.find?_insert, if_neg hne] at this
        exact this

theorem loadLines_bad (good rest : List (Line K I)) (m : SMap K I) (hg : Line.bad ∉ good) :
    loadLines m (good ++ .bad :: rest) = ((loadLines m good).1, true) := by
  induction good generalizing m with
  | nil => rfl
  | cons x l ih =>
    cases x with
    | bad => simp at hg
    | entry k w => exact ih (m.insert k w) (fun h => hg (List.mem_cons_of_mem _ h))

theorem loadCoreLines_ok (t c : Bool) (ls : List (CoreLine I)) (hok : ∀ x ∈ ls, ∃ v b, x = .entry v b true) (cs : List I) :
    loadCoreLines t c cs ls =
      (cs ++ ls.filterMap (fun x => match x with
        | .entry v b _ => if (t && b) || (c && !b) then some v else none
        | .bad => none), false) := by
  induction ls generalizing cs with
  | nil => simp [loadCoreLines]
  | cons x l ih =>
    obtain ⟨v, b, rfl⟩ := hok x List.mem_cons_self
    have hl := fun y hy => hok y (List.mem_cons_of_mem _ hy)
    simp only [loadCoreLines, List.filterMap_cons]
    cases h : (t && b || c && !b)
    · simp [ih hl]
    · simp [ih hl, List.append_assoc]

/-! ## C50 -/

/-- **C50** (materials, wires, bobbins, insulation and wire materials). Loading a well-formed file into catalogues
that are not frozen returns, every name in the file is afterwards found with its last entry, every other name is found
as before, and nothing else changes. Missing with respect to C50: the file is ignored after internal data were switched
off, see `file_ignored_without_internal_data`. -/
theorem load_shows_file_partial (e : Env K I F) (s : State K I F H) (k : MapKind) (file : List (Line K I))
    (hfrozen : s.frozen = false) (hint : s.addInternalData = true) (hfile : Line.bad ∉ file) :
    let r := step e s (.loadMap k (some file))
    r.2 = false ∧ Written file (s.cat.maps k) (r.1.cat.maps k) ∧ (∀ k', k' ≠ k → r.1.cat.maps k' = s.cat.maps k') ∧
      r.1.cat.cores = s.cat.cores ∧ r.1.cat.shapes = s.cat.shapes ∧ r.1.cat.families = s.cat.families ∧
      r.1.mcache = s.mcache ∧ r.1.scopes = s.scopes := by
  obtain ⟨h1, h2⟩ := loadLines_written file hfile (s.cat.maps k)
  simp only [step, loadMap, hfrozen, hint, Bool.false_eq_true, if_false, Bool.not_true, Catalogs.setMap, if_true]
  refine ⟨h1, h2, fun k' hk' => if_neg hk', ?_⟩
  simp

/-- **C50** (cores). Loading a well-formed file of cores appends exactly the cores whose kind is switched on, in the
order of the file. -/
theorem load_cores_appends (e : Env K I F) (s : State K I F H) (file : List (CoreLine I)) (hfrozen : s.frozen = false)
    (hfile : ∀ x ∈ file, ∃ v b, x = .entry v b true) :
    let r := step e s (.loadCores (some file))
    r.2 = false ∧ ∃ added, r.1.cat.cores = s.cat.cores ++ added ∧
      added = file.filterMap (fun x => match x with
        | .entry v toroidal _ => if (if toroidal then s.useToroidal else s.useConcentric) then some v else none
        | .bad => none) ∧ r.1.cat.maps = s.cat.maps ∧ r.1.cat.shapes = s.cat.shapes := by
  simp only [step, loadCores, hfrozen, Bool.false_eq_true, if_false, loadCoreLines_ok _ _ _ hfile]
  refine ⟨trivial, _, rfl, ?_, trivial, trivial⟩
  congr 1
  funext x
  cases x with
  | bad => rfl
  | entry v b g => cases b <;> cases s.useToroidal <;> cases s.useConcentric <;> rfl

theorem find?_foldl_insert (l : List K) (v : I) (m : SMap K I) (name : K) :
    (l.foldl (fun m a => m.insert a v) m).find? name = if name ∈ l then some v else m.find? name := by
  induction l generalizing m with
  | nil => simp
  | cons a l ih =>
    rw [List.foldl_cons, ih, SMap.find?_insert]
    by_cases h1 : name ∈ l
    · simp [h1]
    · by_cases h2 : name = a
      · simp [h2]
      · simp [h1, h2]

/-- **C50** (shapes). After a well-formed file of shapes, a name is found with the item of the last admitted record
that carries it (as its name, or as an alias when aliases are asked for); without such a record it is found as
before. -/
theorem load_shapes_shows_file_partial (e : Env K I F) (s : State K I F H) (withAliases : Bool) (file : List (ShapeLine K I))
    (hfrozen : s.frozen = false) (hint : s.addInternalData = true)
    (hfile : ∀ x ∈ file, ∃ n v a, x = .entry n v true a) :
    let r := step e s (.loadShapes withAliases (some file))
    r.2 = false ∧ ∀ name,
      ((∃ before after n v a, file = before ++ .entry n v true a :: after ∧
          Admitted e s.useToroidal s.useConcentric v ∧ name ∈ storedNames withAliases n a ∧
          (∀ n' v' a', ShapeLine.entry n' v' true a' ∈ after → Admitted e s.useToroidal s.useConcentric v' →
            name ∉ storedNames withAliases n' a') ∧
          r.1.cat.shapes.find? name = some v) ∨
       ((∀ n v a, ShapeLine.entry n v true a ∈ file → Admitted e s.useToroidal s.useConcentric v →
            name ∉ storedNames withAliases n a) ∧ r.1.cat.shapes.find? name = s.cat.shapes.find? name)) := by
  simp only [step, loadShapes, hfrozen, hint, Bool.false_eq_true, if_false, Bool.not_true]
  generalize s.cat.families = fs
  generalize s.cat.shapes = m
  induction file generalizing fs m with
  | nil =>
    refine ⟨rfl, fun name => Or.inr ⟨?_, rfl⟩⟩
    intro n v a h; simp at h
  | cons x l ih =>
    obtain ⟨n, v, a, rfl⟩ := hfile x List.mem_cons_self
    have hl := fun y hy => hfile y (List.mem_cons_of_mem _ hy)
    simp only [loadShapeLines, Bool.not_true, Bool.false_eq_true, if_false]
    by_cases hadm : Admitted e s.useToroidal s.useConcentric v
    · obtain ⟨h1, h2⟩ := hadm
      have hc : (s.useToroidal && e.isToroidal (e.fam v) || s.useConcentric && !e.isToroidal (e.fam v)) = true := by
        rcases h2 with ⟨ha, hb⟩ | ⟨ha, hb⟩ <;> simp [ha, hb]
      simp only [h1, Bool.not_true, Bool.false_eq_true, if_false, hc, if_true]
      obtain ⟨i1, i2⟩ := ih hl (pushNew fs (e.fam v))
        (if withAliases = true then a.foldl (fun m a => m.insert a v) (m.insert n v) else m.insert n v)
      refine ⟨i1, fun name => ?_⟩
      rcases i2 name with ⟨b, af, n', v', a', he, h3, h4, h5, h6⟩ | ⟨h3, h4⟩
      · exact Or.inl ⟨.entry n v true a :: b, af, n', v', a', by rw [he]; rfl, h3, h4, h5, h6⟩
      · have hfind : (if withAliases = true then a.foldl (fun m a => m.insert a v) (m.insert n v)
            else m.insert n v).find? name = if name ∈ storedNames withAliases n a then some v else m.find? name := by
          cases withAliases with
          | true =>
            simp only [if_true, storedNames, find?_foldl_insert, SMap.find?_insert, List.mem_cons]
            by_cases p : name ∈ a
            · simp [p]
            · by_cases q : name = n <;> simp [p, q]
          | false =>
            simp [storedNames, SMap.find?_insert]
        rw [hfind] at h4
        by_cases hn : name ∈ storedNames withAliases n a
        · rw [if_pos hn] at h4
          exact Or.inl ⟨[], l, n, v, a, rfl, ⟨h1, h2⟩, hn, h3, h4⟩
        · rw [if_neg hn] at h4
          refine Or.inr ⟨?_, h4⟩
          intro n' v' a' hm ha'
          rcases List.mem_cons.mp hm with h | h
          · simp only [ShapeLine.entry.injEq] at h
            obtain ⟨rfl, rfl, -, rfl⟩ := h
            exact hn
          · exact h3 n' v' a' h ha'
    · have hskip : loadShapeLines e s.useToroidal s.useConcentric withAliases fs m (.entry n v true a :: l) =
          loadShapeLines e s.useToroidal s.useConcentric withAliases fs m l := by
        simp only [loadShapeLines, Bool.not_true, Bool.false_eq_true, if_false]
        by_cases h1 : e.supported (e.fam v) = true
        · have hc : (s.useToroidal && e.isToroidal (e.fam v) || s.useConcentric && !e.isToroidal (e.fam v)) = false := by
            by_contra hh
            apply hadm
            refine ⟨h1, ?_⟩
            revert hh
            cases s.useToroidal <;> cases s.useConcentric <;> cases e.isToroidal (e.fam v) <;> simp
          simp [h1, hc]
        · have h1' : e.supported (e.fam v) = false := by simpa using h1
          simp [h1']
      simp only [loadShapeLines, Bool.not_true, Bool.false_eq_true, if_false] at hskip
      rw [hskip]
      obtain ⟨i1, i2⟩ := ih hl fs m
      refine ⟨i1, fun name => ?_⟩
      rcases i2 name with ⟨b, af, n', v', a', he, h3, h4, h5, h6⟩ | ⟨h3, h4⟩
      · exact Or.inl ⟨.entry n v true a :: b, af, n', v', a', by rw [he]; rfl, h3, h4, h5, h6⟩
      · refine Or.inr ⟨?_, h4⟩
        intro n' v' a' hm ha'
        rcases List.mem_cons.mp hm with h | h
        · simp only [ShapeLine.entry.injEq] at h
          obtain ⟨rfl, rfl, -, rfl⟩ := h
          exact absurd ha' hadm
        · exact h3 n' v' a' h ha'

theorem find?_updateAt (m : SMap K I) (k : K) (v : I) (name : K) :
    (updateAt m k v).find? name = if name = k then (m.find? k).map (fun _ => v) else m.find? name := by
  induction m with
  | nil => simp [updateAt, SMap.find?]
  | cons a m ih =>
    obtain ⟨k', w⟩ := a
    simp only [updateAt, List.map_cons] at ih ⊢
    by_cases h1 : k' = k
    · subst h1
      simp only [if_true, SMap.find?]
      by_cases h2 : name = k'
      · simp [h2]
      · rw [if_neg h2, ih, if_neg h2, if_neg h2, if_neg h2]
    · rw [if_neg h1]
      simp only [SMap.find?]
      by_cases h2 : name = k'
      · subst h2; simp [h1]
      · rw [if_neg h2, ih]
        by_cases h3 : name = k
        · have h4 : ¬ k = k' := fun h => h2 (h3.trans h)
          rw [if_pos h3, if_pos h3, if_neg h4]
        · rw [if_neg h3, if_neg h3, if_neg h2]

/-- The updates the file holds for a name, applied in the order of the file. -/
def updates (file : List (AdvLine K I)) (name : K) (v : I) : I :=
  file.foldl (fun v x => match x with
    | .entry k u => if k = name then (u v).1 else v
    | .bad => v) v

/-- **C50** (advanced material data). When no record throws, every material already in the catalogue gets the updates
the file holds under its name, in order; the records of unknown materials are skipped, and no material appears or
disappears. -/
theorem load_advanced_updates (e : Env K I F) (s : State K I F H) (file : List (AdvLine K I)) (hfrozen : s.frozen = false)
    (hfile : ∀ x ∈ file, ∃ k u, x = .entry k u ∧ ∀ v, (u v).2 = false) :
    let r := step e s (.loadAdvanced file)
    r.2 = false ∧ ∀ name, (r.1.cat.maps .coreMaterials).find? name =
      ((s.cat.maps .coreMaterials).find? name).map (updates file name) := by
  simp only [step, loadAdvanced, hfrozen, Bool.false_eq_true, if_false, Catalogs.setMap, if_true]
  generalize s.cat.maps .coreMaterials = m
  induction file generalizing m with
  | nil => exact ⟨rfl, fun name => by cases h : m.find? name <;> simp [loadAdvLines, updates, h]⟩
  | cons x l ih =>
    obtain ⟨k, u, rfl, hu⟩ := hfile x List.mem_cons_self
    have hl := fun y hy => hfile y (List.mem_cons_of_mem _ hy)
    have hupd : ∀ name v, updates (.entry k u :: l) name v = updates l name (if k = name then (u v).1 else v) := by
      intro name v; rfl
    simp only [loadAdvLines]
    cases hk : m.find? k with
    | none =>
      simp only
      obtain ⟨i1, i2⟩ := ih hl m
      refine ⟨i1, fun name => ?_⟩
      rw [i2]
      by_cases hn : k = name
      · subst hn; rw [hk]; rfl
      · cases m.find? name with
        | none => rfl
        | some v => simp [hupd, hn]
    | some v =>
      simp only [hu, Bool.false_eq_true, if_false]
      obtain ⟨i1, i2⟩ := ih hl (updateAt m k (u v).1)
      refine ⟨i1, fun name => ?_⟩
      rw [i2, find?_updateAt]
      by_cases hn : name = k
      · subst hn; simp [hk, hupd]
      · have hn' : ¬ k = name := fun h => hn h.symm
        rw [if_neg hn]
        cases m.find? name with
        | none => rfl
        | some w => simp [hupd, hn']

/-- **C50 is false as stated**: once the user's document was loaded without internal data, loading a file of wires
returns normally and shows nothing of it. -/
theorem file_ignored_without_internal_data :
    let s := run env0 start0 [.loadDatabases ⟨[], [], [.entry 4 40], [], [], []⟩ true false]
    (step env0 s (.loadMap .wires (some [.entry 6 60]))).2 = false ∧
      ((step env0 s (.loadMap .wires (some [.entry 6 60]))).1.cat.maps .wires).find? 6 = none := by decide

/-- A file with a repeated name, loaded over a catalogue that has the name already. -/
example : ((step env0 (run env0 start0 [.queryMap .wires]) (.loadMap .wires
    (some [.entry 1 7, .entry 6 60, .entry 1 8]))).1.cat.maps .wires) = [(1, 8), (6, 60)] ∧
    Line.bad ∉ ([.entry 1 7, .entry 6 60, .entry 1 8] : List (Line Nat Nat)) := ⟨by decide, by simp⟩

/-- Two shapes, one of an unsupported family, with an alias that repeats a name. -/
example : ((step env0 start0 (.loadShapes true (some [.entry 2 24 true [3], .entry 5 28 true [], .entry 3 25 true []]))).1
    |>.cat.shapes) = [(2, 24), (3, 25)] := by decide

/-- Advanced data for a known and an unknown material. -/
example : ((step env0 (run env0 start0 [.loadMap .coreMaterials (some [.entry 1 7, .entry 2 8])]) (.loadAdvanced
    [.entry 2 (fun v => (v + 100, false)), .entry 9 (fun v => (v + 1, false))])).1.cat.maps .coreMaterials)
    = [(1, 7), (2, 108)] := by decide

/-! ## C51 -/

/-- **C51 (partial)**: a load that meets a malformed line throws, keeps exactly what the lines before it wrote, and
shows nothing of the lines after it. -/
theorem failed_load_prefix_partial (e : Env K I F) (s : State K I F H) (k : MapKind) (good rest : List (Line K I))
    (hfrozen : s.frozen = false) (hint : s.addInternalData = true) (hgood : Line.bad ∉ good) :
    let r := step e s (.loadMap k (some (good ++ .bad :: rest)))
    r.2 = true ∧ Written good (s.cat.maps k) (r.1.cat.maps k) := by
  obtain ⟨_, h2⟩ := loadLines_written good hgood (s.cat.maps k)
  simp only [step, loadMap, hfrozen, hint, Bool.false_eq_true, if_false, Bool.not_true, Catalogs.setMap, if_true,
    loadLines_bad _ _ _ hgood]
  exact ⟨trivial, h2⟩

/-- **C51 is false as stated (1)**: after a failed load of the embedded wires the next query is answered, without any
exception, from the part of the catalogue before the malformed line. -/
theorem truncated_catalogue_after_failed_load :
    let e : Env Nat Nat Nat := { env0 with internalMap := fun _ => [.entry 1 11, .bad, .entry 2 22] }
    (step e start0 (.queryMap .wires)).2 = true ∧
      (step e (step e start0 (.queryMap .wires)).1 (.queryMap .wires)).2 = false ∧
      (step e (step e start0 (.queryMap .wires)).1 (.queryMap .wires)).1.cat.maps .wires = [(1, 11)] := by decide

/-- **C51 is false as stated (2)**: a core whose gapping does not fit makes the load throw but stays in the
catalogue, where the next query finds it. -/
theorem corrupt_core_stays :
    let s := (step env0 start0 (.loadCores (some [.entry 200 false false]))).1
    (step env0 start0 (.loadCores (some [.entry 200 false false]))).2 = true ∧
      (step env0 s .queryCores).2 = false ∧ (step env0 s .queryCores).1.cat.cores = [200] := by decide

/-! ## C52 -/

/-- **C52**: while a library scope is in force, the adviser entry points neither change a catalogue nor throw, so that
they work on what the scope shows, even when that is nothing. -/
theorem advisers_keep_scope (e : Env K I F) (s : State K I F H) (h : 0 < s.activeScopeCount) :
    step e s .adviseCores = (s, false) ∧ step e s .adviseWires = (s, false) := by
  simp [step, whenM, h]

/-- **C52**, outside scopes: an empty catalogue that is not frozen is filled with the embedded one. -/
theorem advisers_refill (e : Env K I F) (s : State K I F H) (h : s.activeScopeCount = 0) (hfrozen : s.frozen = false)
    (hcores : s.cat.cores = []) :
    (step e s .adviseCores).1.cat.cores = (loadCoreLines s.useToroidal s.useConcentric [] (e.internalCores s.useStock)).1 := by
  simp [step, whenM, h, hcores, loadCores, hfrozen]

/-- A scope that replaces everything by nothing but one wire: no cores for the adviser. -/
example : (run env0 start0 [.loadAll, .openScope 1 (some ctxReplace), .adviseCores]).cat.cores = [] ∧
    0 < (run env0 start0 [.loadAll, .openScope 1 (some ctxReplace)]).activeScopeCount ∧
    (run env0 start0 [.loadAll, .openScope 1 (some ctxReplace), .queryCores]).cat.cores ≠ [] := by decide

end Verif.Catalog
