import Mathlib.Algebra.Order.Field.Basic
import Mathlib.Algebra.Order.Floor.Ring
import Mathlib.Data.List.Sort
import Verif.WireByDim.Model

/-!
# Diameters and filling factors read off the catalogue (src/constructive_models/Wire.cpp 206-945)

The functions interpolate over the wires of the catalogue that meet a specification, and keep the interpolators by a key in maps of the
thread. Numbers are those of an ordered field; π, the root and the spline are given. The catalogue is already loaded, and its wires have
the fields the code takes the value of without looking. Only diameters are modelled, not the width and height of rectangular wires.
-/

namespace Verif.Wire

open Verif.WireByDim (WireType)

variable {K : Type} [Field K] [LinearOrder K]

/-- `InsulationWireCoatingType` as far as catalogues are asked. -/
inductive CoatingKind
  | bare | enamelled | served | insulated
  deriving DecidableEq

/-- The coating of a catalogue wire. -/
structure CoatingRow (K : Type) where
  kind : CoatingKind
  layers : Option ℤ
  thickness : Option K
  /-- the grade of the coating; that of the coating of the strand in litz -/
  grade : Option ℤ

/-- A wire of the catalogue: `conducting` is the conducting diameter (of the strand in litz), `strandOuter` the outer one of the strand. -/
structure Row (K : Type) where
  type : WireType
  standard : Option String
  coating : Option (CoatingRow K)
  conducting : K
  outer : K
  strandOuter : K
  conductors : ℕ

/-- What the wires are asked to meet. -/
structure Query (K : Type) where
  type : WireType
  kind : CoatingKind
  conductors : ℤ
  grade : Option ℤ
  layers : Option ℤ
  thickness : Option K
  standard : String

/-- An optional demand on an optional datum: one not given is met by all, and a missing datum meets none. -/
def meets {α : Type} [DecidableEq α] (asked given : Option α) : Bool :=
  match asked with
  | none => true
  | some a => decide (given = some a)

/-- The wires `create_interpolators` uses (Wire.cpp 225-274). -/
def matching (q : Query K) (r : Row K) : Bool :=
  decide (r.type = q.type) && match r.coating with
    | none => false
    | some c => meets q.grade c.grade && (decide (q.conductors ≤ 1) || decide (1 < r.conductors)) && meets q.layers c.layers &&
      decide (c.kind = q.kind) && meets q.thickness c.thickness && decide (r.standard = some q.standard)

/-- `wireFillingFactor` of a row (Wire.cpp 319-337). -/
def fillingOf (π : K) (air : Bool) (r : Row K) : K :=
  π * (r.conducting / 2) ^ 2 * r.conductors / (if air then r.outer ^ 2 else π * (r.outer / 2) ^ 2)

/-- `wireCoatingThicknessProportion` of a row (Wire.cpp 338-339). -/
def proportionOf (r : Row K) : K := (r.outer - r.conducting) / 2 / r.conducting

/-- `std::stable_sort` by an abscissa (Wire.cpp 353-355, 456-458). -/
def sortBy {α : Type} (key : α → K) (l : List α) : List α := l.insertionSort fun a b => key a ≤ key b

/-- Only the first of a run with the same abscissa is kept (Wire.cpp 360-370, 463-468). -/
def firsts {α : Type} (key : α → K) : Option K → List α → List α
  | _, [] => []
  | last, r :: rs => if last = some (key r) then firsts key last rs else r :: firsts key (some (key r)) rs

/-- The interpolators of a key: `wireFillingFactorInterps`, `wireCoatingThicknessProportionInterps` and both limits, always written
together (Wire.cpp 357-358, 377-378). -/
structure Table (K : Type) where
  filling : List (K × K)
  proportion : List (K × K)
  lowest : K
  highest : K

/-- `create_interpolators` (Wire.cpp 206-382) for diameters; `none`: no wire meets the query and nothing is written. -/
def build (π : K) (catalogue : List (Row K)) (q : Query K) (air : Bool) : Option (Table K) :=
  let sorted := sortBy Row.conducting (catalogue.filter (matching q))
  match sorted.head?, sorted.getLast? with
  | some lo, some hi => some
      { filling := (firsts Row.conducting none sorted).map fun r => (r.conducting, fillingOf π air r)
        proportion := (firsts Row.conducting none sorted).map fun r => (r.conducting, proportionOf r)
        lowest := lo.conducting
        highest := hi.conducting }
  | _, _ => none

/-- The interpolator of packing factors of a key and its limits (Wire.cpp 460-473). -/
structure Packing (K : Type) where
  points : List (K × K)
  lowest : K
  highest : K

/-- `wirePackingFactor` of a litz wire (Wire.cpp 438-442). -/
def packingOf (sqrt : K → K) (r : Row K) : K :=
  let served := match r.coating with
    | some c => match c.thickness, c.layers with
      | some t, some n => r.outer - 2 * n * t
      | _, _ => r.outer
    | none => r.outer
  served / (sqrt r.conductors * r.strandOuter)

/-- `create_packing_factor_interpolator` (Wire.cpp 384-474): any number of conductors is used. -/
def buildPacking (sqrt : K → K) (catalogue : List (Row K)) (q : Query K) : Option (Packing K) :=
  let sorted := sortBy (fun r : Row K => (r.conductors : K)) (catalogue.filter (matching { q with conductors := 1 }))
  match sorted.head?, sorted.getLast? with
  | some lo, some hi => some
      { points := (firsts (fun r : Row K => (r.conductors : K)) none sorted).map fun r => ((r.conductors : K), packingOf sqrt r)
        lowest := lo.conductors
        highest := hi.conductors }
  | _, _ => none

/-- The keys of the maps (Wire.cpp 764, 786, 813, 841, 860, 902, 924). The thickness in micrometres is written with six decimals:
`microns` is that number without its point. -/
inductive Key
  | enamelled (type : WireType) (grade : ℤ) (standard : String)
  | insulated (type : WireType) (layers microns : ℤ) (standard : String)
  deriving DecidableEq

/-- The maps of the thread (Wire.h 20-27). -/
structure Memo (K : Type) where
  tables : Key → Option (Table K)
  packings : Key → Option (Packing K)

/-- The maps before any call. -/
def Memo.empty : Memo K := { tables := fun _ => none, packings := fun _ => none }

section memo

variable [FloorRing K]

/-- `std::to_string(thicknessLayers * 1e6)`, in units of its last decimal. -/
def microns (thickness : K) : ℤ := ⌊thickness * 10 ^ 12 + 1 / 2⌋

/-- The calls that read the maps. -/
inductive Call (K : Type)
  | fillingRound (d : K) (grade : ℤ) (standard : String) (air : Bool)
  | outerRound (d : K) (grade : ℤ) (standard : String)
  | fillingInsulated (d : K) (layers : ℤ) (thickness : K) (standard : String) (air : Bool)
  | outerInsulated (d : K) (layers : ℤ) (thickness : K) (standard : String)
  | fillingServedLitz (d : K) (conductors grade layers : ℤ) (standard : String) (air : Bool)
  | fillingInsulatedLitz (d : K) (conductors layers : ℤ) (thickness : K) (grade : ℤ) (standard : String) (air : Bool)
  | packingInsulatedLitz (conductors layers : ℤ) (thickness : K) (grade : ℤ) (standard : String)

/-- The guards on insulated round wires (Wire.cpp 803-809, 831-837). -/
def supported (layers : ℤ) (thickness : K) : Bool :=
  decide (layers ≠ 0 ∧ layers ≤ 3) && decide (thickness ∈ [508 / 10 ^ 7, 762 / 10 ^ 7, 381 / 10 ^ 7, 254 / 10 ^ 7, (127 / 10 ^ 6 : K)])

/-- What is asked for enamelled round wires (Wire.cpp 765-776, 787-797). -/
def roundQuery (grade : ℤ) (standard : String) : Query K :=
  { type := .round, kind := .enamelled, conductors := 1, grade := some grade, layers := none, thickness := none, standard }

/-- What is asked for insulated round wires (Wire.cpp 814-825, 842-852). -/
def insulatedQuery (layers : ℤ) (thickness : K) (standard : String) : Query K :=
  { type := .round, kind := .insulated, conductors := 1, grade := none, layers := some layers, thickness := some thickness, standard }

/-- What is asked for served litz (Wire.cpp 862-873). -/
def servedQuery (conductors grade layers : ℤ) (standard : String) : Query K :=
  { type := .litz, kind := .served, conductors, grade := some grade, layers := some layers, thickness := none, standard }

/-- What is asked for insulated litz (Wire.cpp 904-915, 926-932). -/
def insulatedLitzQuery (conductors layers : ℤ) (thickness : K) (grade : ℤ) (standard : String) : Query K :=
  { type := .litz, kind := .insulated, conductors, grade := some grade, layers := some layers, thickness := some thickness, standard }

/-- The table of a key, built on the first demand (Wire.cpp 546-559, 605-618). -/
def demand (π : K) (catalogue : List (Row K)) (m : Memo K) (key : Key) (q : Query K) (air : Bool) : Memo K × Option (Table K) :=
  match m.tables key with
  | some t => (m, some t)
  | none => match build π catalogue q air with
    | some t => ({ m with tables := fun k => if k = key then some t else m.tables k }, some t)
    | none => (m, none)

/-- `get_filling_factor` (Wire.cpp 561-583) with the table at hand; `none` = throws. -/
def fillingWith (spline : List (K × K) → K → K) (d : K) (t : Option (Table K)) : Option K :=
  t.map fun t => spline t.filling (min (max d t.lowest) t.highest)

/-- `get_outer_dimension` (Wire.cpp 620-644) with the table at hand; `none` = throws. -/
def outerWith (spline : List (K × K) → K → K) (d : K) (t : Option (Table K)) : Option K :=
  t.map fun t => spline t.proportion (min (max d t.lowest) t.highest) * d * 2 + d

/-- A call on a catalogue: the maps it leaves and what it answers; `none` = throws. -/
def call (π : K) (sqrt : K → K) (spline : List (K × K) → K → K) (catalogue : List (Row K)) (m : Memo K) : Call K → Memo K × Option K
  | .fillingRound d grade standard air =>
    let r := demand π catalogue m (.enamelled .round grade standard) (roundQuery grade standard) air
    (r.1, fillingWith spline d r.2)
  | .outerRound d grade standard =>
    let r := demand π catalogue m (.enamelled .round grade standard) (roundQuery grade standard) false
    (r.1, outerWith spline d r.2)
  | .fillingInsulated d layers thickness standard air =>
    if supported layers thickness then
      let r := demand π catalogue m (.insulated .round layers (microns thickness) standard) (insulatedQuery layers thickness standard) air
      (r.1, fillingWith spline d r.2)
    else (m, none)
  | .outerInsulated d layers thickness standard =>
    if supported layers thickness then
      let r := demand π catalogue m (.insulated .round layers (microns thickness) standard) (insulatedQuery layers thickness standard) false
      (r.1, outerWith spline d r.2)
    else (m, none)
  | .fillingServedLitz d conductors grade layers standard air =>
    let r := demand π catalogue m (.enamelled .litz grade standard) (servedQuery conductors grade layers standard) air
    (r.1, fillingWith spline d r.2)
  | .fillingInsulatedLitz d conductors layers thickness grade standard air =>
    let r := demand π catalogue m (.insulated .litz layers (microns thickness) standard)
      (insulatedLitzQuery conductors layers thickness grade standard) air
    (r.1, fillingWith spline d r.2)
  | .packingInsulatedLitz conductors layers thickness grade standard =>
    let key := Key.insulated .litz layers (microns thickness) standard
    let m' := match m.packings key with
      | some _ => m
      | none => match buildPacking sqrt catalogue (insulatedLitzQuery conductors layers thickness grade standard) with
        | some p => { m with packings := fun k => if k = key then some p else m.packings k }
        | none => m
    (m', some (match m'.packings key with
      | some p => spline p.points (min (max (conductors : K) p.lowest) p.highest)
      | none => 0))

/-- The maps after a history of calls, each with the catalogue of its time. -/
def after (π : K) (sqrt : K → K) (spline : List (K × K) → K → K) (history : List (List (Row K) × Call K)) : Memo K :=
  history.foldl (fun m c => (call π sqrt spline c.1 m c.2).1) Memo.empty

end memo

end Verif.Wire
