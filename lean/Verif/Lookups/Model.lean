import Verif.Common.SMap

/-!
# Model of lookups by name and of the memoised wire query

Source: `/repo/src/support/Utils.cpp` 673-760, 1028-1076, 1123-1133, 1234-1272.  The catalogues are taken
after the lazy load that every lookup performs first (that load is modelled in `Verif.Catalog`).
A `none` result is the exception (or `std::nullopt` for `try_find_core_shape_by_name`).
-/

namespace Verif.Lookups

open Verif

variable {K I : Type} [LinearOrder K]

/-- `find_wire_by_name`, `find_insulation_material_by_name`, `find_wire_material_by_name`
(Utils.cpp:1123-1133, 1250-1272). -/
def findExact (db : SMap K I) (name : K) : Option I := db.find? name

/-- `find_bobbin_by_name` (Utils.cpp:1234-1248): four sentinel names give an empty bobbin. -/
def findBobbin (sentinels : List K) (emptyBobbin : I) (db : SMap K I) (name : K) : Option I :=
  match db.find? name with
  | some b => some b
  | none => if name ∈ sentinels then some emptyBobbin else none

/-- `find_core_by_name` (Utils.cpp:673-697): first core carrying that name; nameless cores are skipped. -/
def findCore (nameOf : I → Option K) : List I → K → Option I
  | [], _ => none
  | c :: cs, name => match nameOf c with
    | none => findCore nameOf cs name
    | some n => if n = name then some c else findCore nameOf cs name

/-- The fallback scan of `find_core_material_by_name` in key order (Utils.cpp:710-722). -/
def scanCommercial (commercialName : I → K) : SMap K I → K → Option I
  | [], _ => none
  | (_, m) :: db, name => if commercialName m = name then some m else scanCommercial commercialName db name

/-- `find_core_material_by_name` (Utils.cpp:699-725). `norm` is `normalize_micro_sign` (Utils.cpp:49-65),
`commercialName` the commercial name or "manufacturer name" (Utils.cpp:711-717). -/
def findMaterial (norm : K → K) (commercialName : I → K) (db : SMap K I) (query : K) : Option I :=
  match db.find? (norm query) with
  | some m => some m
  | none => scanCommercial commercialName db (norm query)

/-- The fallback scan of `try_find_core_shape_by_name` (Utils.cpp:740-746): compares the query with every
key without its spaces. -/
def scanStripped (strip : K → K) : SMap K I → K → Option I
  | [], _ => none
  | (k, v) :: db, name => if name = strip k then some v else scanStripped strip db name

/-- `try_find_core_shape_by_name` (Utils.cpp:733-748). -/
def tryFindShape (strip : K → K) (db : SMap K I) (name : K) : Option I :=
  match db.find? name with
  | some v => some v
  | none => scanStripped strip db name

/-- `core_shape_exists` (Utils.cpp:750-752). -/
def shapeExists (strip : K → K) (db : SMap K I) (name : K) : Bool := (tryFindShape strip db name).isSome

section Wires

variable {T S : Type} [DecidableEq T] [DecidableEq S]

/-- The loop of `get_wires` (Utils.cpp:1058-1072). -/
def filterWires (typeOf : I → T) (standardOf : I → Option S) (t : Option T) (s : Option S) :
    SMap K I → List I
  | [] => []
  | (_, w) :: db =>
    if s.isSome && (standardOf w).isNone then filterWires typeOf standardOf t s db
    else if s.isSome && decide (standardOf w ≠ s) then filterWires typeOf standardOf t s db
    else if t.isSome && decide (some (typeOf w) ≠ t) then filterWires typeOf standardOf t s db
    else w :: filterWires typeOf standardOf t s db

/-- The two thread-local statics of `get_wires` (Utils.cpp:1042-1043).  The key pairs two enum values or
`-1`; enum values are non-negative, so it is modelled as a pair of options. -/
structure Memo (I T S : Type) where
  entries : List ((Option T × Option S) × List I)
  size : Nat

/-- The statics before the first call. -/
def Memo.empty : Memo I T S := ⟨[], 0⟩

/-- `filteredWiresCache.find(key)`. -/
def Memo.get (m : Memo I T S) (key : Option T × Option S) : Option (List I) :=
  match m.entries.find? (fun x => decide (x.1 = key)) with
  | some x => some x.2
  | none => none

/-- `get_wires` (Utils.cpp:1028-1076) on the catalogue as it is after the lazy load. -/
def getWires (typeOf : I → T) (standardOf : I → Option S) (m : Memo I T S) (db : SMap K I)
    (t : Option T) (s : Option S) : List I × Memo I T S :=
  let m := if m.size ≠ db.length then ⟨[], db.length⟩ else m
  match m.get (t, s) with
  | some ws => (ws, m)
  | none =>
    let ws := filterWires typeOf standardOf t s db
    (ws, { m with entries := ((t, s), ws) :: m.entries })

/-- A thread's history of queries: at each query the catalogue may be any other one (loads, clears, scopes
happened in between); the results are collected. -/
def runQueries (typeOf : I → T) (standardOf : I → Option S) :
    Memo I T S → List (SMap K I × Option T × Option S) → List (List I)
  | _, [] => []
  | m, (db, t, s) :: qs =>
    (getWires typeOf standardOf m db t s).1 ::
      runQueries typeOf standardOf (getWires typeOf standardOf m db t s).2 qs

end Wires

end Verif.Lookups
