import Verif.Common.SMap
import Verif.Cache.Model

/-!
# Model of the process-global catalogues, the freeze flag, lazy loading and library scopes

Source: `/repo/src/support/Utils.h` (globals, thread-safety contract, 92-132),
`/repo/src/support/Utils.cpp` (loaders and lookups, 109-1272),
`/repo/src/support/LibraryContext.cpp` (scopes), `/repo/src/support/Settings.cpp` (reset),
`/repo/src/support/Cache.h`/`.cpp` (magnetics cache).

Simplifications: all catalogue entries share one item type `I` (the code never mixes catalogues);
the MAS classes behind the items are opaque; a line of an NDJSON file is already parsed (`Line`), a line
on which parsing or construction throws is `bad`.  `operator[]` on maps is only reached for present keys.
-/

namespace Verif.Catalog

open Verif

/-- The five `std::map` catalogues that are handled alike (Utils.h:110-116); core shapes, which come with
the list of families, are separate. -/
inductive MapKind where
  | coreMaterials | wires | bobbins | insulationMaterials | wireMaterials
  deriving DecidableEq, Repr

variable {K I F H : Type} [LinearOrder K] [DecidableEq F] [DecidableEq H]

/-- The shared catalogues (Utils.h:109-116). -/
structure Catalogs (K I F : Type) where
  cores : List I
  maps : MapKind → SMap K I
  shapes : SMap K I
  families : List F

/-- A line of an NDJSON catalogue, or an element of a JSON list: an entry, or something that throws. -/
inductive Line (K I : Type) where
  | entry (name : K) (item : I)
  | bad

/-- A record of `cores.ndjson` (Utils.cpp:257-301): its type is toroidal or not, and its gapping fits. -/
inductive CoreLine (I : Type) where
  | entry (item : I) (toroidal : Bool) (gapFits : Bool)
  | bad

/-- A record of `core_shapes.ndjson` (Utils.cpp:484-506); `geometryOk` is the outcome of
`check_core_shape_geometry`. -/
inductive ShapeLine (K I : Type) where
  | entry (name : K) (item : I) (geometryOk : Bool) (aliases : List K)
  | bad

/-- A record given to `load_advanced_core_materials`: an in-place update, which may throw half way
(`true`), leaving the material in the returned state (Utils.cpp:339-406). -/
inductive AdvLine (K I : Type) where
  | entry (name : K) (update : I → I × Bool)
  | bad

/-- What does not change during a run: embedded resource files and classification of items. -/
structure Env (K I F : Type) where
  /-- `get_family()` of a shape. -/
  fam : I → F
  /-- `family == CoreShapeFamily::T`. -/
  isToroidal : F → Bool
  /-- `CorePiece::is_family_supported`. -/
  supported : F → Bool
  /-- embedded core file, chosen by the use-only-cores-in-stock setting (Utils.cpp:247-249). -/
  internalCores : Bool → List (CoreLine I)
  internalShapes : List (ShapeLine K I)
  /-- the other embedded files. -/
  internalMap : MapKind → List (Line K I)
  /-- `magnetic_autocomplete`. -/
  autocomplete : I → I

/-- A `LibraryContext` (LibraryContext.h): optional kinds plus the load mode. -/
structure Ctx (K I : Type) where
  cores : Option (List I)
  maps : MapKind → Option (SMap K I)
  shapes : Option (SMap K I)
  replace : Bool

/-- `LibraryContext::empty` (LibraryContext.cpp:200-203). -/
def Ctx.isEmpty (c : Ctx K I) : Bool :=
  c.cores.isNone && (c.maps .coreMaterials).isNone && c.shapes.isNone &&
  (c.maps .wires).isNone && (c.maps .bobbins).isNone && (c.maps .insulationMaterials).isNone &&
  (c.maps .wireMaterials).isNone

/-- The whole process state that the modelled operations read or write.  `scopes` are the live
`LibraryContext::Scope` objects by handle, `none` when the object is inactive. -/
structure State (K I F H : Type) where
  cat : Catalogs K I F
  mcache : SMap K I
  frozen : Bool
  addInternalData : Bool
  useToroidal : Bool
  useConcentric : Bool
  useStock : Bool
  activeScopeCount : Int
  scopes : List (H × Option (Catalogs K I F))

/-- A call either returns (`false`) or throws (`true`); in both cases it leaves a state behind. -/
abbrev Res (K I F H : Type) := State K I F H × Bool

/-- Sequencing with exceptions: the second part runs only if the first did not throw. -/
def andThen (r : Res K I F H) (g : State K I F H → Res K I F H) : Res K I F H :=
  if r.2 then r else g r.1

/-- `if (cond) f();` -/
def whenM (c : Bool) (f : State K I F H → Res K I F H) (s : State K I F H) : Res K I F H :=
  if c then f s else (s, false)

/-- Update of one map catalogue. -/
def Catalogs.setMap (c : Catalogs K I F) (k : MapKind) (m : SMap K I) : Catalogs K I F :=
  { c with maps := fun k' => if k' = k then m else c.maps k' }

/-- `parse_ndjson` with a callback `database[name] = item` (e.g. Utils.cpp:333-336): stops at the first
line that throws, keeping what was inserted before. -/
def loadLines (m : SMap K I) : List (Line K I) → SMap K I × Bool
  | [] => (m, false)
  | .bad :: _ => (m, true)
  | .entry k v :: ls => loadLines (m.insert k v) ls

/-- Body of `load_cores` (Utils.cpp:257-301): the record is appended BEFORE its gapping is checked. -/
def loadCoreLines (toroidal concentric : Bool) (cs : List I) : List (CoreLine I) → List I × Bool
  | [] => (cs, false)
  | .bad :: _ => (cs, true)
  | .entry v t ok :: ls =>
    if !((toroidal && t) || (concentric && !t)) then loadCoreLines toroidal concentric cs ls
    else if !ok then (cs ++ [v], true)
    else loadCoreLines toroidal concentric (cs ++ [v]) ls

/-- `push_back` unless already present (Utils.cpp:492-494, LibraryContext.cpp:214-218). -/
def pushNew (l : List F) (f : F) : List F := if f ∈ l then l else l ++ [f]

/-- Body of `load_core_shapes` (Utils.cpp:484-506) on the pair (families, shapes). -/
def loadShapeLines (e : Env K I F) (toroidal concentric withAliases : Bool)
    (fs : List F) (m : SMap K I) : List (ShapeLine K I) → List F × SMap K I × Bool
  | [] => (fs, m, false)
  | .bad :: _ => (fs, m, true)
  | .entry name v ok aliases :: ls =>
    if !ok then (fs, m, true)
    else if !e.supported (e.fam v) then loadShapeLines e toroidal concentric withAliases fs m ls
    else if (toroidal && e.isToroidal (e.fam v)) || (concentric && !e.isToroidal (e.fam v)) then
      let fs' := pushNew fs (e.fam v)
      let m' := m.insert name v
      let m'' := if withAliases then aliases.foldl (fun m a => m.insert a v) m' else m'
      loadShapeLines e toroidal concentric withAliases fs' m'' ls
    else loadShapeLines e toroidal concentric withAliases fs m ls

/-- In-place update of one entry of a map. -/
def updateAt (m : SMap K I) (k : K) (v : I) : SMap K I :=
  m.map (fun kv => if kv.1 = k then (k, v) else kv)

/-- Body of `load_advanced_core_materials` (Utils.cpp:341-405): unknown names are skipped. -/
def loadAdvLines (m : SMap K I) : List (AdvLine K I) → SMap K I × Bool
  | [] => (m, false)
  | .bad :: _ => (m, true)
  | .entry k u :: ls => match m.find? k with
    | none => loadAdvLines m ls
    | some v => if (u v).2 then (updateAt m k (u v).1, true) else loadAdvLines (updateAt m k (u v).1) ls

/-- `load_cores` (Utils.cpp:240-302). -/
def loadCores (e : Env K I F) (file : Option (List (CoreLine I))) (s : State K I F H) : Res K I F H :=
  if s.frozen then (s, true) else
    let r := loadCoreLines s.useToroidal s.useConcentric s.cat.cores
      (match file with | some f => f | none => e.internalCores s.useStock)
    ({ s with cat := { s.cat with cores := r.1 } }, r.2)

/-- `load_core_materials`, `load_wires`, `load_bobbins`, `load_insulation_materials`,
`load_wire_materials` (Utils.cpp:327-337, 524-570). -/
def loadMap (e : Env K I F) (k : MapKind) (file : Option (List (Line K I))) (s : State K I F H) :
    Res K I F H :=
  if s.frozen then (s, true)
  else if !s.addInternalData then (s, false)
  else
    let r := loadLines (s.cat.maps k) (match file with | some f => f | none => e.internalMap k)
    ({ s with cat := s.cat.setMap k r.1 }, r.2)

/-- `load_core_shapes` (Utils.cpp:468-522). -/
def loadShapes (e : Env K I F) (withAliases : Bool) (file : Option (List (ShapeLine K I)))
    (s : State K I F H) : Res K I F H :=
  if s.frozen then (s, true)
  else if !s.addInternalData then (s, false)
  else
    let r := loadShapeLines e s.useToroidal s.useConcentric withAliases s.cat.families
      (s.cat.shapes) (match file with | some f => f | none => e.internalShapes)
    ({ s with cat := { s.cat with shapes := r.2.1, families := r.1 } }, r.2.2)

/-- `load_advanced_core_materials` (Utils.cpp:339-406). -/
def loadAdvanced (ls : List (AdvLine K I)) (s : State K I F H) : Res K I F H :=
  if s.frozen then (s, true)
  else
    let r := loadAdvLines (s.cat.maps .coreMaterials) ls
    ({ s with cat := s.cat.setMap .coreMaterials r.1 }, r.2)

/-- `if (database.empty()) load_...();` for a map other than shapes (e.g. Utils.cpp:703-705). -/
def lazyMap (e : Env K I F) (k : MapKind) (s : State K I F H) : Res K I F H :=
  whenM (s.cat.maps k).isEmpty (loadMap e k none) s

/-- `if (coreShapeDatabase.empty()) load_core_shapes(...);` (e.g. Utils.cpp:734-736, 847-849). -/
def lazyShapes (e : Env K I F) (withAliases : Bool) (s : State K I F H) : Res K I F H :=
  whenM (s.cat.shapes).isEmpty (loadShapes e withAliases none) s

/-- `if (coreDatabase.empty()) load_cores();` (e.g. Utils.cpp:674-676). -/
def lazyCores (e : Env K I F) (s : State K I F H) : Res K I F H :=
  whenM s.cat.cores.isEmpty (loadCores e none) s

/-- `load_all_databases` (Utils.cpp:134-157).  Default argument of `load_core_shapes` is
`withAliases = true` (Utils.h). -/
def loadAll (e : Env K I F) (s : State K I F H) : Res K I F H :=
  if s.frozen then (s, true) else
  andThen (lazyCores e s) fun s => andThen (lazyMap e .coreMaterials s) fun s =>
  andThen (lazyShapes e true s) fun s => andThen (lazyMap e .wires s) fun s =>
  andThen (lazyMap e .bobbins s) fun s => andThen (lazyMap e .insulationMaterials s) fun s =>
  lazyMap e .wireMaterials s

/-- `clear_loaded_cores` (Utils.cpp:304-307). -/
def clearCores (s : State K I F H) : Res K I F H :=
  if s.frozen then (s, true) else ({ s with cat := { s.cat with cores := [] } }, false)

/-- `clear_loaded_core_shapes` (Utils.cpp:309-313). -/
def clearShapes (s : State K I F H) : Res K I F H :=
  if s.frozen then (s, true)
  else ({ s with cat := { s.cat with shapes := [], families := [] } }, false)

/-- `clear_databases` (Utils.cpp:315-325). -/
def clearAll (s : State K I F H) : Res K I F H :=
  if s.frozen then (s, true) else ({ s with cat := ⟨[], fun _ => [], [], []⟩ }, false)

/-- The document given to `load_databases` (Utils.cpp:596-670); a shape carries its aliases. -/
structure DbDoc (K I : Type) where
  materials : List (Line K I)
  shapes : List (ShapeLine K I)
  wires : List (Line K I)
  bobbins : List (Line K I)
  insulation : List (Line K I)
  wireMaterials : List (Line K I)

/-- The shapes loop of `load_databases` (Utils.cpp:609-636): no geometry check, no family bookkeeping. -/
def loadDocShapes (withAliases : Bool) (m : SMap K I) : List (ShapeLine K I) → SMap K I × Bool
  | [] => (m, false)
  | .bad :: _ => (m, true)
  | .entry name v _ aliases :: ls =>
    let m' := m.insert name v
    loadDocShapes withAliases (if withAliases then aliases.foldl (fun m a => m.insert a v) m' else m') ls

/-- One of the loops of `load_databases` over a map catalogue. -/
def docMap (k : MapKind) (ls : List (Line K I)) (s : State K I F H) : Res K I F H :=
  let r := loadLines (s.cat.maps k) ls
  ({ s with cat := s.cat.setMap k r.1 }, r.2)

/-- The shapes loop of `load_databases` on the state. -/
def docShapes (withAliases : Bool) (ls : List (ShapeLine K I)) (s : State K I F H) : Res K I F H :=
  let r := loadDocShapes withAliases (s.cat.shapes) ls
  ({ s with cat := { s.cat with shapes := r.1 } }, r.2)

/-- `load_databases` (Utils.cpp:572-671). -/
def loadDatabases (e : Env K I F) (d : DbDoc K I) (withAliases addInternal : Bool) (s : State K I F H) :
    Res K I F H :=
  if s.frozen then (s, true) else
  andThen ({ s with addInternalData := addInternal }, false) fun s =>
  andThen (whenM addInternal (fun s =>
    andThen (lazyMap e .coreMaterials s) fun s => andThen (lazyShapes e true s) fun s =>
    andThen (lazyMap e .wires s) fun s => andThen (lazyMap e .bobbins s) fun s =>
    andThen (lazyMap e .insulationMaterials s) fun s => lazyMap e .wireMaterials s) s) fun s =>
  andThen (docMap .coreMaterials d.materials s) fun s => andThen (docShapes withAliases d.shapes s) fun s =>
  andThen (docMap .wires d.wires s) fun s => andThen (docMap .bobbins d.bobbins s) fun s =>
  andThen (docMap .insulationMaterials d.insulation s) fun s => docMap .wireMaterials d.wireMaterials s

/-- `rebuildShapeFamilies` (LibraryContext.cpp:210-220). -/
def rebuildFamilies (e : Env K I F) (shapes : SMap K I) : List F :=
  shapes.foldl (fun fs kv => pushNew fs (e.fam kv.2)) []

/-- What a scope makes of one map catalogue (LibraryContext.cpp:263-296). -/
def overlayMap (replace : Bool) (old : SMap K I) (custom : Option (SMap K I)) : SMap K I :=
  let base := if replace then [] else old
  match custom with
  | none => base
  | some m => SMap.insertAll base m

/-- Catalogues installed by the constructor of an active scope (LibraryContext.cpp:255-296). -/
def overlay (e : Env K I F) (c : Ctx K I) (old : Catalogs K I F) : Catalogs K I F :=
  let shapes := overlayMap c.replace old.shapes c.shapes
  { cores := (if c.replace then [] else old.cores) ++ (match c.cores with | some l => l | none => [])
    maps := fun k => overlayMap c.replace (old.maps k) (c.maps k)
    shapes := shapes
    families := if c.replace || c.shapes.isSome then rebuildFamilies e shapes
      else old.families }

/-- `Scope::Scope(ctx)` (LibraryContext.cpp:224-297): creates the object `h`. When the constructor throws
no object exists. -/
def openScope (e : Env K I F) (h : H) (ctx : Option (Ctx K I)) (s : State K I F H) : Res K I F H :=
  match ctx with
  | none => ({ s with scopes := (h, none) :: s.scopes }, false)
  | some c =>
    if c.isEmpty then ({ s with scopes := (h, none) :: s.scopes }, false)
    else if s.frozen then (s, true)
    else ({ s with activeScopeCount := s.activeScopeCount + 1
                   scopes := (h, some s.cat) :: s.scopes
                   cat := overlay e c s.cat }, false)

/-- The object behind a handle. -/
def lookupScope (h : H) : List (H × Option (Catalogs K I F)) → Option (Option (Catalogs K I F))
  | [] => none
  | (h', b) :: l => if h = h' then some b else lookupScope h l

/-- Removal of the object behind a handle. -/
def dropScope (h : H) : List (H × Option (Catalogs K I F)) → List (H × Option (Catalogs K I F))
  | [] => []
  | (h', b) :: l => if h = h' then l else (h', b) :: dropScope h l

/-- The destructor body (LibraryContext.cpp:299-310) for an object whose backup is `b`. -/
def restore (b : Option (Catalogs K I F)) (s : State K I F H) : State K I F H :=
  match b with
  | none => s
  | some c => { s with activeScopeCount := s.activeScopeCount - 1, cat := c }

/-- `Scope::~Scope()` of object `h` (LibraryContext.cpp:299-310). -/
def closeScope (h : H) (s : State K I F H) : Res K I F H :=
  match lookupScope h s.scopes with
  | none => (s, false)
  | some b => (restore b { s with scopes := dropScope h s.scopes }, false)

/-- `dst = std::move(src)` (LibraryContext.cpp:325-331 with the move constructor 312-323): destroys `dst`,
then takes over the backup of `src`, which becomes inactive. -/
def moveScope (dst src : H) (s : State K I F H) : Res K I F H :=
  if dst = src then (s, false) else
  match lookupScope dst s.scopes, lookupScope src s.scopes with
  | some bd, some bs =>
    let s' := restore bd s
    ({ s' with scopes := s'.scopes.map (fun x =>
        if x.1 = dst then (x.1, bs) else if x.1 = src then (x.1, none) else x) }, false)
  | _, _ => (s, false)

/-- `Settings::reset` as far as catalogues are concerned (Settings.cpp:72-77, 99, 207-212). -/
def resetSettings (s : State K I F H) : Res K I F H :=
  let changed := (s.useToroidal != true) || (s.useConcentric != true) || (s.useStock != true)
  let s' := { s with useToroidal := true, useConcentric := true, useStock := true }
  whenM changed (fun s => andThen (clearCores s) fun s => clearShapes s) s'

/-- The public calls modelled. -/
inductive Op (K I F H : Type) where
  | setFrozen (b : Bool)
  | loadAll
  | loadCores (file : Option (List (CoreLine I)))
  | loadMap (k : MapKind) (file : Option (List (Line K I)))
  | loadShapes (withAliases : Bool) (file : Option (List (ShapeLine K I)))
  | loadAdvanced (ls : List (AdvLine K I))
  | clearCores | clearShapes | clearAll
  | loadDatabases (d : DbDoc K I) (withAliases addInternal : Bool)
  /-- any `find_*` / `get_*` on a map catalogue other than shapes -/
  | queryMap (k : MapKind)
  /-- any `find_*` / `get_*` on the shapes -/
  | queryShapes (withAliases : Bool)
  /-- any `find_*` / `get_*` on the cores -/
  | queryCores
  /-- adviser entry points that refill cores only outside scopes (CoreAdviser.cpp:161, 199, 243) -/
  | adviseCores
  /-- adviser entry points that refill wires only outside scopes (CoilAdviser.cpp:341, WireAdviser.cpp:362) -/
  | adviseWires
  | setToroidal (b : Bool) | setConcentric (b : Bool) | setStock (b : Bool)
  | resetSettings
  | cacheLoad (ref : K) (v : I)
  | cacheClear
  | cacheAutocomplete
  | cacheEvict (ref : K)
  | cacheEvictMany (refs : List K)
  | openScope (h : H) (ctx : Option (Ctx K I))
  | closeScope (h : H)
  | moveScope (dst src : H)

/-- One public call. The `cache*` cases are `magneticsCache.load/clear/autocomplete_magnetics`
(Cache.h:129-134, Cache.cpp:14-35, guarded by the freeze flag) and the inherited `evict`
(Cache.h:84-103, NOT guarded). -/
def step (e : Env K I F) (s : State K I F H) : Op K I F H → Res K I F H
  | .setFrozen b => ({ s with frozen := b }, false)
  | .loadAll => loadAll e s
  | .loadCores f => loadCores e f s
  | .loadMap k f => loadMap e k f s
  | .loadShapes a f => loadShapes e a f s
  | .loadAdvanced ls => loadAdvanced ls s
  | .clearCores => clearCores s
  | .clearShapes => clearShapes s
  | .clearAll => clearAll s
  | .loadDatabases d a i => loadDatabases e d a i s
  | .queryMap k => lazyMap e k s
  | .queryShapes a => lazyShapes e a s
  | .queryCores => lazyCores e s
  | .adviseCores => whenM (s.cat.cores.isEmpty && !decide (0 < s.activeScopeCount)) (loadCores e none) s
  | .adviseWires =>
    whenM ((s.cat.maps .wires).isEmpty && !decide (0 < s.activeScopeCount)) (loadMap e .wires none) s
  | .setToroidal b => ({ s with useToroidal := b }, false)
  | .setConcentric b => ({ s with useConcentric := b }, false)
  | .setStock b => ({ s with useStock := b }, false)
  | .resetSettings => resetSettings s
  | .cacheLoad r v => if s.frozen then (s, true) else ({ s with mcache := Cache.load s.mcache r v }, false)
  | .cacheClear => if s.frozen then (s, true) else ({ s with mcache := [] }, false)
  | .cacheAutocomplete => if s.frozen then (s, true)
      else ({ s with mcache := s.mcache.map (fun kv => (kv.1, e.autocomplete kv.2)) }, false)
  | .cacheEvict r => match Cache.evict s.mcache r with
      | some (_, c) => ({ s with mcache := c }, false)
      | none => (s, true)
  | .cacheEvictMany rs => ({ s with mcache := (Cache.evictMany s.mcache rs).2 }, false)
  | .openScope h c => openScope e h c s
  | .closeScope h => closeScope h s
  | .moveScope d r => moveScope d r s

/-- The state after a trace of calls (exceptions are caught by somebody, so the trace goes on). -/
def run (e : Env K I F) (s : State K I F H) (ops : List (Op K I F H)) : State K I F H :=
  ops.foldl (fun s op => (step e s op).1) s

/-- A process that has just started (Utils.cpp:114 and the in-class initialisers). -/
def init : State K I F H :=
  { cat := ⟨[], fun _ => [], [], []⟩, mcache := [], frozen := false, addInternalData := true
    useToroidal := true, useConcentric := true, useStock := true, activeScopeCount := 0, scopes := [] }

end Verif.Catalog
