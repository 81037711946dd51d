import Verif.Common.SMap
import Verif.Common.Json

/-!
# Model of `LibraryContext` loading and of the adviser constraints

Source: `/repo/src/support/LibraryContext.cpp` 20-203, 333-443; `/repo/src/support/LibraryContext.h` 108-135.
The constructors of MAS classes from JSON are opaque (`parse`, `none` = throws).
-/

namespace Verif.LibCtx

open Verif

/-! ### loading -/

/-- The kinds of a document in the order in which `loadFromJson` handles them
(LibraryContext.cpp:52-162); `cores` is a vector, the others are maps. -/
inductive Kind where
  | coreShapes | coreMaterials | cores | wires | bobbins | insulationMaterials | wireMaterials
  deriving DecidableEq, Repr

/-- Key of a kind in the document. -/
def Kind.key : Kind → String
  | .coreShapes => "coreShapes"
  | .coreMaterials => "coreMaterials"
  | .cores => "cores"
  | .wires => "wires"
  | .bobbins => "bobbins"
  | .insulationMaterials => "insulationMaterials"
  | .wireMaterials => "wireMaterials"

/-- The order of the blocks of `loadFromJson`. -/
def kindOrder : List Kind :=
  [.coreShapes, .coreMaterials, .cores, .wires, .bobbins, .insulationMaterials, .wireMaterials]

variable {K I : Type} [LinearOrder K]

/-- The members of a context.  Every kind holds its parsed entries with their names in the order of the
document; for the map kinds the observable content is `asMap` of it, for `cores` the items in order. -/
structure Ctx (I : Type) where
  replace : Bool
  kinds : Kind → Option (List (String × I))

/-- `forEachEntry` with a callback that may throw (LibraryContext.cpp:24-48), array case. -/
def entriesOfArray (parse : String → Json → Option I) : List Json → Option (List (String × I))
  | [] => some []
  | el :: els => match el.get? "name" with
    | some (.str name) => match parse name el with
      | some v => match entriesOfArray parse els with
        | some r => some ((name, v) :: r)
        | none => none
      | none => none
    | _ => none

/-- Name of an entry of an object node (LibraryContext.cpp:38-41). -/
def entryName (key : String) (el : Json) : String :=
  match el.get? "name" with
  | some (.str n) => n
  | _ => key

/-- `forEachEntry`, object case: the entry's own string `name` wins over the key
(LibraryContext.cpp:35-43). -/
def entriesOfObject (parse : String → Json → Option I) : List (String × Json) → Option (List (String × I))
  | [] => some []
  | (key, el) :: els =>
    match parse (entryName key el) el with
    | some v => match entriesOfObject parse els with
      | some r => some ((entryName key el, v) :: r)
      | none => none
    | none => none

/-- `forEachEntry` (LibraryContext.cpp:24-48); `none` = an exception left it. -/
def forEachEntry (parse : String → Json → Option I) : Json → Option (List (String × I))
  | .null => some []
  | .arr els => entriesOfArray parse els
  | .obj ms => entriesOfObject parse ms
  | _ => none

/-- One block `if (data.contains(kind)) { ...; _kind = std::move(out); }` (e.g. LibraryContext.cpp:92-104).
Returns the context left behind and whether it threw. -/
def loadKind (parse : Kind → String → Json → Option I) (data : Json) (k : Kind) (c : Ctx I) : Ctx I × Bool :=
  match data.get? k.key with
  | none => (c, false)
  | some node => match forEachEntry (parse k) node with
    | none => (c, true)
    | some l => ({ c with kinds := fun k' => if k' = k then some l else c.kinds k' }, false)

/-- The blocks in sequence, stopping at the first exception. -/
def loadKinds (parse : Kind → String → Json → Option I) (data : Json) : List Kind → Ctx I → Ctx I × Bool
  | [], c => (c, false)
  | k :: ks, c =>
    let r := loadKind parse data k c
    if r.2 then r else loadKinds parse data ks r.1

/-- `LibraryContext::loadFromJson` (LibraryContext.cpp:52-163): the mode is set first. -/
def loadFromJson (parse : Kind → String → Json → Option I) (data : Json) (replace : Bool) (c : Ctx I) :
    Ctx I × Bool :=
  loadKinds parse data kindOrder { c with replace := replace }

/-- The content of a map kind: later entries overwrite earlier ones (`out[name] = ...`). -/
def asLookup (l : List (String × I)) (name : String) : Option I :=
  match l with
  | [] => none
  | (n, v) :: l => match asLookup l name with
    | some w => some w
    | none => if n = name then some v else none

/-! ### constraints -/

/-- `TypeFilterSet` (LibraryContext.h:110-119) over names; `std::set` as list. -/
structure FilterSet (N : Type) where
  allowed : List N
  blocked : List N

variable {N : Type} [DecidableEq N]

/-- `TypeFilterSet::empty`. -/
def FilterSet.isEmpty (f : FilterSet N) : Bool := f.allowed.isEmpty && f.blocked.isEmpty

/-- `TypeFilterSet::accepts` (LibraryContext.h:114-118), case sensitive. -/
def FilterSet.accepts (f : FilterSet N) (v : N) : Bool :=
  if !f.allowed.isEmpty && !f.allowed.contains v then false
  else if f.blocked.contains v then false
  else true

/-- The lambda `contains` in `acceptsEnum` (LibraryContext.cpp:350-355). -/
def containsFolded (up : N → N) (upper : N) : List N → Bool
  | [] => false
  | v :: l => if up v = upper then true else containsFolded up upper l

/-- `acceptsEnum` (LibraryContext.cpp:344-360); `up` is `toUpperCopy`, `name` the `magic_enum` name. -/
def acceptsEnum (up : N → N) (f : FilterSet N) (name : N) : Bool :=
  if f.isEmpty then true
  else if !f.allowed.isEmpty && !containsFolded up (up name) f.allowed then false
  else if !f.blocked.isEmpty && containsFolded up (up name) f.blocked then false
  else true

/-- A reference that is inline (with its class name) or by catalogue name (`std::variant`). -/
inductive Ref (N K : Type) where
  | inline (cls : N)
  | named (name : K)

/-- The parts of a core that the constraints look at. -/
structure CoreRefs (N K : Type) where
  shape : Ref N K
  material : Ref N K

/-- Body of the loop of `filterCoresByConstraints` for the shape (LibraryContext.cpp:383-399) and the
material (403-426): class of the reference looked up in the catalogue, not found = not accepted. -/
def refOk (up : N → N) (catalog : SMap K N) (f : FilterSet N) (r : Ref N K) : Bool :=
  if f.isEmpty then true
  else match r with
    | .inline n => acceptsEnum up f n
    | .named k => match catalog.find? k with
      | none => false
      | some n => acceptsEnum up f n

/-- `filterCoresByConstraints` (LibraryContext.cpp:375-430). -/
def filterCores {C : Type} (up : N → N) (refs : C → CoreRefs N K) (shapes materials : SMap K N)
    (fShape fMaterial : FilterSet N) (cores : List C) : List C :=
  if fShape.isEmpty && fMaterial.isEmpty then cores
  else go cores
where
  /-- the loop -/
  go : List C → List C
    | [] => []
    | c :: cs =>
      if !refOk up shapes fShape (refs c).shape then go cs
      else if !refOk up materials fMaterial (refs c).material then go cs
      else c :: go cs

/-- `filterWiresByConstraints` (LibraryContext.cpp:432-443). -/
def filterWires {W : Type} (up : N → N) (typeOf : W → N) (f : FilterSet N) (wires : SMap K W) : SMap K W :=
  if f.isEmpty then wires else go wires []
where
  /-- the loop: `out.emplace(name, wire)` -/
  go : SMap K W → SMap K W → SMap K W
    | [], out => out
    | (k, w) :: ws, out =>
      if acceptsEnum up f (typeOf w) then
        go ws (match out.find? k with | some _ => out | none => out.insert k w)
      else go ws out

end Verif.LibCtx
