import Mathlib.Algebra.Order.Field.Basic
import Mathlib.Data.List.Basic

/-!
# Bobbins (src/constructive_models/Bobbin.cpp)

Numbers are those of an ordered field and π is given. A map of dimensions is a function to `Option`, and `dimensions["x"]` of a key that is
not declared is zero, which is what `std::map::operator[]` makes. The value of an empty optional throws (`Failure.badOptional`) when it is
taken with `.value()`, and is undefined when it is taken with `->`. NaN and infinity are not modelled, except the starting value of both
minimum thicknesses.
-/

namespace Verif.Bobbin

variable {K : Type} [Field K] [LinearOrder K]

/-- The exceptions of Bobbin.cpp, by the place that throws them. -/
inductive Failure
  /-- lines 325, 959, 986 -/
  | noDescription
  /-- line 1003 -/
  | noWindow
  /-- line 1021 -/
  | noArea
  /-- lines 883, 920, 935, 950, 1067, 1083 -/
  | noSuchWindow
  /-- lines 909, 1061, 1122, 1141, 1165, 1189, 1239, 1246 -/
  | notProcessed
  /-- line 722 -/
  | coreNotProcessed
  /-- lines 817, 825 -/
  | firstDimension
  /-- lines 820, 828 -/
  | secondDimension
  /-- line 710 -/
  | thinWall
  /-- line 966, from `find_core_shape_by_name` -/
  | unknownShape
  /-- `std::bad_optional_access` -/
  | badOptional
  deriving DecidableEq

/-- What a call ends in. -/
inductive Outcome (α : Type)
  | value (a : α)
  | throws (f : Failure)
  | undefined
  deriving DecidableEq

namespace Outcome

/-- One call after another. -/
def bind {α β : Type} (o : Outcome α) (f : α → Outcome β) : Outcome β :=
  match o with
  | value a => f a
  | throws e => throws e
  | undefined => undefined

/-- `.value()` of an optional. -/
def take {α : Type} : Option α → Outcome α
  | some a => value a
  | none => throws .badOptional

/-- `->` or `[]` of something that may not be there. -/
def deref {α : Type} : Option α → Outcome α
  | some a => value a
  | none => undefined

end Outcome

/-- `BobbinFamily` (Bobbin.cpp 332-373). -/
inductive Family
  | e | ec | efd | el | ep | er | etd | p | pm | pq | rm | t | u
  deriving DecidableEq

/-- `ColumnShape` as far as this file uses it. -/
inductive ColumnShape
  | round | rectangular | other
  deriving DecidableEq

/-- `WindingWindowShape`. -/
inductive WindowShape
  | round | rectangular
  deriving DecidableEq

/-- `WindingOrientation`. -/
inductive Orientation
  | contiguous | overlapping
  deriving DecidableEq

/-- `CoilAlignment`. -/
inductive Alignment
  | centered | innerOrTop | outerOrBottom | spread
  deriving DecidableEq

/-- `WindingWindowElement`. -/
structure Window (K : Type) where
  shape : Option WindowShape := none
  width : Option K := none
  height : Option K := none
  radialHeight : Option K := none
  angle : Option K := none
  area : Option K := none
  coordinates : Option (List K) := none
  column : Option ℕ := none
  order : Option ℕ := none
  orientation : Option Orientation := none
  alignment : Option Alignment := none

/-- `CoreBobbinProcessedDescription`. A `columnDepth` of `none` was never written: the getter does not return an optional. -/
structure Desc (K : Type) where
  columnShape : ColumnShape
  columnThickness : K
  wallThickness : K
  columnWidth : Option K
  columnDepth : Option K
  windows : List (Window K)

/-- The functional description of a bobbin: family, name of the shape of its core, and dimensions. -/
structure Func (K : Type) where
  family : Family
  shape : String
  dimensions : String → Option K

/-- A bobbin. -/
structure Bobbin (K : Type) where
  functional : Option (Func K) := none
  processed : Option (Desc K) := none

/-- `dimensions["x"]` (Utils.cpp 1592-1599 and `std::map::operator[]`). -/
def dim (d : String → Option K) (key : String) : K := (d key).getD 0

/-- The description all families with a rectangular window write, from the edge of the column, and the width and height of the window
(Bobbin.cpp 41-56, 72-88, 103-120, 138-155, 170-186, 202-218, 234-250, 265-279). -/
def rectangularDesc (shape : ColumnShape) (columnThickness wallThickness width innerEdge height : K) : Desc K :=
  { columnShape := shape
    columnThickness := columnThickness
    wallThickness := wallThickness
    columnWidth := some innerEdge
    columnDepth := if shape = .round then some innerEdge else none
    windows := [{ width := some width
                  height := some height
                  area := some (height * width)
                  coordinates := some [innerEdge + width / 2, 0] }] }

/-- `BobbinEDataProcessor` (Bobbin.cpp 29-59). -/
def processE (d : String → Option K) : Desc K :=
  rectangularDesc .rectangular (dim d "s1") (dim d "s2") ((dim d "e" - dim d "f" - 2 * dim d "s1") / 2) (dim d "f" / 2 + dim d "s1")
    (dim d "l2" - 2 * dim d "s2")

/-- `BobbinRmDataProcessor` (Bobbin.cpp 61-91). -/
def processRm (d : String → Option K) : Desc K :=
  rectangularDesc .round ((dim d "D2" - dim d "D3") / 2) (dim d "H5") ((dim d "D1" - dim d "D2") / 2) (dim d "D2" / 2)
    (dim d "H2" - dim d "H4" - dim d "H5")

/-- `BobbinEpDataProcessor` (Bobbin.cpp 93-123). -/
def processEp (d : String → Option K) : Desc K :=
  rectangularDesc .round ((dim d "d2" - dim d "d3") / 2) (dim d "s") ((dim d "d1" - dim d "d2") / 2) (dim d "d2" / 2)
    (dim d "h" - 2 * dim d "s")

/-- `BobbinEtdDataProcessor` (Bobbin.cpp 125-158). -/
def processEtd (d : String → Option K) : Desc K :=
  rectangularDesc .round ((dim d "d2" - dim d "d3") / 2) ((dim d "h1" - dim d "h2") / 2) ((dim d "d1" - dim d "d2") / 2) (dim d "d2" / 2)
    (dim d "h2")

/-- `BobbinPmDataProcessor` (Bobbin.cpp 160-189). -/
def processPm (d : String → Option K) : Desc K :=
  rectangularDesc .round ((dim d "d2" - dim d "d3") / 2) (dim d "s1") ((dim d "d1" - dim d "d2") / 2) (dim d "d2" / 2)
    (dim d "h" - dim d "s1" - dim d "s2")

/-- `BobbinPqDataProcessor` and `BobbinEcDataProcessor`, which are the same (Bobbin.cpp 191-221, 223-253). -/
def processPq (d : String → Option K) : Desc K :=
  rectangularDesc .round ((dim d "D2" - dim d "D3") / 2) ((dim d "H1" - dim d "H2") / 2) ((dim d "D1" - dim d "D2") / 2) (dim d "D2" / 2)
    (dim d "H2")

/-- `BobbinEfdDataProcessor` (Bobbin.cpp 255-282). -/
def processEfd (d : String → Option K) : Desc K :=
  rectangularDesc .rectangular (dim d "S1") (dim d "S2") ((dim d "e" - dim d "f1" - 2 * dim d "S1") / 2) (dim d "f1" / 2 + dim d "S1")
    (dim d "d" - 2 * dim d "S2")

/-- `BobbinTDataProcessor` (Bobbin.cpp 284-309). -/
def processT (π : K) (d : String → Option K) : Desc K :=
  { columnShape := .rectangular
    columnThickness := 0
    wallThickness := 0
    columnWidth := some ((dim d "A" - dim d "B") / 2 / 2)
    columnDepth := some (dim d "C" / 2)
    windows := [{ shape := some .round
                  radialHeight := some (dim d "B" / 2)
                  angle := some 360
                  area := some (π * (dim d "B" / 2) ^ 2)
                  coordinates := some [dim d "B" / 2, 0, 0] }] }

/-- `BobbinDataProcessor::factory` and the processor it makes (Bobbin.cpp 311-374). -/
def processFamily (π : K) : Family → (String → Option K) → Desc K
  | .e => processE
  | .rm => processRm
  | .ep => processEp
  | .etd => processEtd
  | .pm => processPm
  | .pq => processPq
  | .ec => processPq
  | .efd => processEfd
  | .t => processT π
  | .er => processE
  | .el => processE
  | .p => processE
  | .u => processE

/-- `Bobbin::process_data` (Bobbin.cpp 980-1030): the bobbin left behind and what the call ends in. -/
def processData (π : K) (b : Bobbin K) : Bobbin K × Outcome Unit :=
  match b.functional with
  | none => (b, .throws .noDescription)
  | some f =>
    let desc := processFamily π f.family f.dimensions
    match desc.windows with
    | [] => (b, .throws .noWindow)
    | w :: _ =>
      match w.area with
      | none => (b, .throws .noArea)
      | some a => if 0 < a then ({ b with processed := some desc }, .value ()) else (b, .throws .noArea)

/-- `Bobbin(json, includeProcessedDescription)` once the JSON has been read into `b` (Bobbin.h 52-60). -/
def construct (π : K) (includeProcessed : Bool) (b : Bobbin K) : Bobbin K × Outcome Unit :=
  if b.functional.isSome && includeProcessed then processData π b else (b, .value ())

/-- `Bobbin::get_winding_window_shape` (Bobbin.cpp 948-978). `toroid` says whether the shape of a name is a toroid, if there is one. -/
def windowShape (toroid : String → Option Bool) (b : Bobbin K) (i : ℕ) : Outcome WindowShape :=
  match b.processed with
  | some p =>
    match p.windows[i]? with
    | none => .throws .noSuchWindow
    | some w => .value (w.shape.getD .rectangular)
  | none =>
    match b.functional with
    | none => .throws .noDescription
    | some f =>
      match toroid f.shape with
      | none => .throws .unknownShape
      | some true => .value .round
      | some false => .value .rectangular

/-- `get_processed_description()->get_winding_windows()[i]`. -/
def rawWindow (b : Bobbin K) (i : ℕ) : Outcome (Window K) :=
  (Outcome.deref b.processed).bind fun p => Outcome.deref p.windows[i]?

/-- `Bobbin::get_winding_window_dimensions(size_t)` (Bobbin.cpp 867-878). -/
def windowDimensions (toroid : String → Option Bool) (b : Bobbin K) (i : ℕ) : Outcome (K × K) :=
  (windowShape toroid b i).bind fun
    | .rectangular => (rawWindow b i).bind fun w => (Outcome.take w.width).bind fun x => (Outcome.take w.height).bind fun y => .value (x, y)
    | .round =>
      (rawWindow b i).bind fun w => (Outcome.take w.radialHeight).bind fun x => (Outcome.take w.angle).bind fun y => .value (x, y)

/-- `Bobbin::get_winding_window_area` (Bobbin.cpp 881-901). -/
def windowArea (π : K) (toroid : String → Option Bool) (b : Bobbin K) (i : ℕ) : Outcome K :=
  match b.processed with
  | none => .undefined
  | some p =>
    match p.windows[i]? with
    | none => .throws .noSuchWindow
    | some w =>
      match w.area with
      | some a => .value a
      | none => (windowShape toroid b i).bind fun
        | .rectangular => (Outcome.take w.width).bind fun x => (Outcome.take w.height).bind fun y => .value (x * y)
        | .round => (Outcome.take w.radialHeight).bind fun x => (Outcome.take w.angle).bind fun y => .value (π * x ^ 2 * y / 360)

/-- `Bobbin::get_winding_window_coordinates` (Bobbin.cpp 903-905). -/
def windowCoordinates (b : Bobbin K) (i : ℕ) : Outcome (List K) :=
  (rawWindow b i).bind fun w => Outcome.take w.coordinates

/-- `Bobbin::get_column_and_wall_thickness` (Bobbin.cpp 907-916). -/
def thicknesses (b : Bobbin K) : Outcome (K × K) :=
  match b.processed with
  | none => .throws .notProcessed
  | some p => .value (p.columnThickness, p.wallThickness)

/-- `Bobbin::get_winding_window_sections_orientation` (Bobbin.cpp 918-931, defaults in Defaults.h 61-62): the shape asked for is that of the
first window. -/
def sectionsOrientation (toroid : String → Option Bool) (b : Bobbin K) (i : ℕ) : Outcome Orientation :=
  match b.processed with
  | none => .undefined
  | some p =>
    match p.windows[i]? with
    | none => .throws .noSuchWindow
    | some w =>
      match w.orientation with
      | some o => .value o
      | none => (windowShape toroid b 0).bind fun
        | .round => .value .contiguous
        | .rectangular => .value .overlapping

/-- `Bobbin::get_winding_window_sections_alignment` (Bobbin.cpp 933-946, defaults in Defaults.h 63-64). -/
def sectionsAlignment (toroid : String → Option Bool) (b : Bobbin K) (i : ℕ) : Outcome Alignment :=
  match b.processed with
  | none => .undefined
  | some p =>
    match p.windows[i]? with
    | none => .throws .noSuchWindow
    | some w =>
      match w.alignment with
      | some o => .value o
      | none => (windowShape toroid b 0).bind fun
        | .round => .value .spread
        | .rectangular => .value .innerOrTop

/-- `Bobbin::set_winding_orientation` (Bobbin.cpp 1059-1072). -/
def setOrientation (b : Bobbin K) (o : Orientation) (i : ℕ) : Bobbin K × Outcome Unit :=
  match b.processed with
  | none => (b, .throws .notProcessed)
  | some p =>
    match p.windows[i]? with
    | none => (b, .throws .noSuchWindow)
    | some w => ({ b with processed := some { p with windows := p.windows.set i { w with orientation := some o } } }, .value ())

/-- `Bobbin::get_winding_orientation` (Bobbin.cpp 1075-1090). -/
def getOrientation (b : Bobbin K) (i : ℕ) : Outcome (Option Orientation) :=
  match b.processed with
  | none => .value none
  | some p =>
    match p.windows[i]? with
    | none => .throws .noSuchWindow
    | some w => .value w.orientation

/-- `Bobbin::check_if_fits` (Bobbin.cpp 1032-1055). -/
def fits (π : K) (toroid : String → Option Bool) (b : Bobbin K) (size : K) (horizontal : Bool) (i : ℕ) : Outcome Bool :=
  (windowShape toroid b i).bind fun shape => (windowDimensions toroid b i).bind fun d =>
    match shape, horizontal with
    | _, true => .value (decide (size < d.1))
    | .rectangular, false => .value (decide (size < d.2))
    | .round, false => .value (decide (size < π * d.1))

/-- `Bobbin::get_maximum_dimensions` (Bobbin.cpp 1092-1114). A `columnDepth` never written is undefined when read. -/
def maximumDimensions (π : K) (toroid : String → Option Bool) (b : Bobbin K) : Bobbin K × Outcome (K × K × K) :=
  let r := if b.processed.isSome then (b, Outcome.value ()) else processData π b
  (r.1, r.2.bind fun _ => (Outcome.take r.1.processed).bind fun p => (windowDimensions toroid r.1 0).bind fun d =>
    (windowShape toroid r.1 0).bind fun
      | .rectangular => (Outcome.take p.columnWidth).bind fun cw => (Outcome.deref p.columnDepth).bind fun cd =>
          .value (2 * (cw + d.1), 2 * p.wallThickness + d.2, 2 * (cd + d.1))
      | .round => .value (0, 0, 0))

/-- `Bobbin::get_winding_window_height` (Bobbin.cpp 1216-1225). -/
def windowHeight (toroid : String → Option Bool) (b : Bobbin K) (i : ℕ) : Outcome K :=
  (windowShape toroid b i).bind fun
    | .rectangular => (rawWindow b i).bind fun w => Outcome.take w.height
    | .round => (rawWindow b i).bind fun w => Outcome.take w.radialHeight

/-- `Bobbin::get_winding_window_width` (Bobbin.cpp 1227-1235). -/
def windowWidth (toroid : String → Option Bool) (b : Bobbin K) (i : ℕ) : Outcome K :=
  (windowShape toroid b i).bind fun
    | .rectangular => (rawWindow b i).bind fun w => Outcome.take w.width
    | .round => (rawWindow b i).bind fun w => Outcome.take w.radialHeight

/-- `Bobbin::get_column_width` (Bobbin.cpp 1237-1242). -/
def columnWidth (b : Bobbin K) : Outcome K :=
  match b.processed with
  | none => .throws .notProcessed
  | some p => Outcome.take p.columnWidth

/-- `Bobbin::get_column_depth` (Bobbin.cpp 1244-1249). -/
def columnDepth (b : Bobbin K) : Outcome K :=
  match b.processed with
  | none => .throws .notProcessed
  | some p => Outcome.deref p.columnDepth

/-- `Bobbin::get_column_right_face_area` (Bobbin.cpp 1120-1137). -/
def columnRightFace (π : K) (toroid : String → Option Bool) (b : Bobbin K) (depth : K) (i : ℕ) : Outcome K :=
  match b.processed with
  | none => .throws .notProcessed
  | some p => (windowHeight toroid b i).bind fun h =>
      if p.columnShape = .rectangular then .value (h * depth) else (columnWidth b).bind fun r => .value (π * r * h)

/-- `Bobbin::get_column_top_face_area` (Bobbin.cpp 1139-1156). -/
def columnTopFace (π : K) (b : Bobbin K) (depth : K) : Outcome K :=
  match b.processed with
  | none => .throws .notProcessed
  | some p => if p.columnShape = .rectangular then .value (p.wallThickness * depth) else (columnWidth b).bind fun r => .value (π * r * r)

/-- `Bobbin::get_column_bottom_face_area` (Bobbin.cpp 1158-1161). -/
def columnBottomFace (π : K) (b : Bobbin K) (depth : K) : Outcome K := columnTopFace π b depth

/-- `Bobbin::get_yoke_interior_face_area` (Bobbin.cpp 1163-1185): the yoke asked for is not looked at. -/
def yokeInteriorFace (π : K) (toroid : String → Option Bool) (b : Bobbin K) (depth : K) (_top : Bool) (i : ℕ) : Outcome K :=
  match b.processed with
  | none => .throws .notProcessed
  | some p => (windowWidth toroid b i).bind fun w => (columnWidth b).bind fun c =>
      if p.columnShape = .rectangular then .value (w * depth) else .value (1 / 2 * π * ((c + w) * (c + w) - c * c))

/-- `Bobbin::get_yoke_exterior_face_area` (Bobbin.cpp 1187-1208). -/
def yokeExteriorFace (π : K) (toroid : String → Option Bool) (b : Bobbin K) (depth : K) (_top : Bool) (i : ℕ) : Outcome K :=
  match b.processed with
  | none => .throws .notProcessed
  | some p => (windowWidth toroid b i).bind fun w => (columnWidth b).bind fun c =>
      if p.columnShape = .rectangular then .value ((w + p.wallThickness) * depth)
      else .value (1 / 2 * π * ((c + w + p.wallThickness) * (c + w + p.wallThickness) - c * c))

/-- `Bobbin::get_yoke_right_face_area` (Bobbin.cpp 1210-1214). -/
def yokeRightFace (wall depth : K) : K := wall * depth / 2

/-! ## Bobbins made for a core -/

/-- A winding window of a core. -/
structure CoreWindow (K : Type) where
  width : Option K := none
  height : Option K := none
  radialHeight : Option K := none
  angle : Option K := none
  coordinates : Option (List K) := none
  column : Option ℕ := none
  order : Option ℕ := none

/-- A column of a core. -/
structure CoreColumn (K : Type) where
  shape : ColumnShape
  width : K
  depth : K

/-- A processed core: whether it is a toroid, the thickness of its coating if it declares one, its windows and its columns. -/
structure Core (K : Type) where
  toroid : Bool
  coating : Option K
  windows : List (CoreWindow K)
  columns : List (CoreColumn K)

/-- The sign that mirrors a window after the first (Bobbin.cpp 776-777, 791-792). -/
def mirror (w : CoreWindow K) : Outcome K :=
  (Outcome.take w.coordinates).bind fun c => (Outcome.deref c.head?).bind fun x => .value (if x < 0 then -1 else 1)

/-- The sign of window `i` (Bobbin.cpp 769, 776-777, 786, 791-792). -/
def signOf (i : ℕ) (w : CoreWindow K) : Outcome K := if i = 0 then .value 1 else mirror w

/-- A window of a rectangular bobbin, and whether the dimensions of the core were kept instead (Bobbin.cpp 758-795, 803-822). -/
def quickRectangular (column : CoreColumn K) (wall thick : K) (i : ℕ) (w : CoreWindow K) : Outcome (Window K × Bool) :=
  (Outcome.take w.width).bind fun cw => (Outcome.take w.height).bind fun ch =>
    let bw := max 0 (cw - thick)
    let bh := max 0 (ch - wall * 2)
    (signOf i w).bind fun s =>
      let made : Window K × Bool :=
        if bw < 0 ∨ 1 < bw ∨ bh < 0 ∨ 1 < bh then
          ({ width := some cw, height := some ch, coordinates := some [s * column.width / 2, 0, 0], shape := some .rectangular
             column := w.column, order := w.order }, true)
        else
          ({ width := some bw, height := some bh, area := some (bw * bh), shape := some .rectangular
             coordinates := some [s * (column.width / 2 + thick + bw / 2), 0, 0], column := w.column, order := w.order }, false)
      (Outcome.take made.1.width).bind fun x => (Outcome.take made.1.height).bind fun y =>
        if x < 0 ∨ 1 < x then .throws .firstDimension else if y < 0 ∨ 1 < y then .throws .secondDimension else .value made

/-- A window of a toroid (Bobbin.cpp 761-763, 797-813, 823-830). -/
def quickRound (π : K) (w : CoreWindow K) : Outcome (Window K) :=
  (Outcome.take w.radialHeight).bind fun r => (Outcome.take w.angle).bind fun a =>
    if r < 0 ∨ 1 < r then .throws .firstDimension else if a < 0 ∨ 360 < a then .throws .secondDimension
    else .value { radialHeight := some r, angle := some a, area := some (π * r ^ 2 * a / 360), coordinates := some [r, 0, 0]
                  shape := some .round, column := w.column, order := w.order }

/-- The loop over the windows of the core (Bobbin.cpp 753-832), from window `i` on, with whether any kept the dimensions of the core. -/
def quickWindows (π : K) (toroid : Bool) (column : CoreColumn K) (wall thick : K) : ℕ → List (CoreWindow K) → Outcome (List (Window K) × Bool)
  | _, [] => .value ([], false)
  | i, w :: ws =>
    (if toroid then (quickRound π w).bind fun x => .value (x, false) else quickRectangular column wall thick i w).bind fun made =>
      (quickWindows π toroid column wall thick (i + 1) ws).bind fun rest => .value (made.1 :: rest.1, made.2 || rest.2)

/-- `create_quick_bobbin(Core, double, double)` (Bobbin.cpp 720-865). A core that has not been processed is `none`. -/
def quickBobbin (π : K) (core : Option (Core K)) (wall columnThickness : K) : Outcome (Bobbin K) :=
  match core with
  | none => .throws .coreNotProcessed
  | some core =>
    let thick := if core.toroid then columnThickness + core.coating.getD 0 else columnThickness
    (Outcome.deref core.columns.head?).bind fun column =>
      (quickWindows π core.toroid column wall thick 0 core.windows).bind fun made =>
        let b : Bobbin K :=
          { processed := some
              { columnShape := column.shape
                columnThickness := if !core.toroid && made.2 then 0 else thick
                wallThickness := if core.toroid || made.2 then 0 else wall
                columnWidth := some (column.width / 2 + thick)
                columnDepth := some (column.depth / 2 + thick)
                windows := made.1 } }
        (windowCoordinates b 0).bind fun _ => .value b

/-- `create_quick_bobbin(double, double, ColumnShape)` (Bobbin.cpp 648-667). -/
def quickByDimensions (height width : K) (shape : ColumnShape) : Bobbin K :=
  { processed := some
      { columnShape := shape
        columnThickness := 1 / 1000
        wallThickness := 1 / 1000
        columnWidth := some (width / 2)
        columnDepth := some (width / 2)
        windows := [{ width := some width, height := some height, area := some (height * width), coordinates := some [width, 0, 0] }] } }

/-- `std::max` and `std::min` with the limits of an interpolator (Bobbin.cpp 600-601, 605-606, 618-619, 628-629). -/
def saturate (limits : K × K) (x : K) : K := min (max x limits.1) limits.2

/-- `std::clamp(x, 0.0, 0.999)` (Bobbin.cpp 624, 631). -/
def physical (x : K) : K := max 0 (min x (999 / 1000))

/-- What `load_interpolators` leaves in the variables of the thread (Bobbin.h 26-45), with the splines as the functions they are. A least
thickness of `none` is infinity. -/
structure Tables (K : Type) where
  fillingWidth : K → K
  fillingHeight : K → K
  proportionWidth : K → K
  proportionHeight : K → K
  bobbinWidth : K × K
  bobbinHeight : K × K
  coreWidth : K × K
  coreHeight : K × K
  leastWall : Option K
  leastColumn : Option K

/-- `Bobbin::get_filling_factor` (Bobbin.cpp 597-611). -/
def fillingFactor (t : Tables K) (width height : K) : K :=
  (t.fillingWidth (saturate t.bobbinWidth width) + t.fillingHeight (saturate t.bobbinHeight height)) / 2

/-- `Bobbin::get_winding_window_dimensions(double, double)` (Bobbin.cpp 613-646). -/
def dimensionsFor (t : Tables K) (w h : K) : K × K :=
  let bw := physical (t.proportionWidth (saturate t.coreWidth w)) * w
  let bh := physical (t.proportionHeight (saturate t.coreHeight h)) * h
  let least := min (w - bw) ((h - bh) / 2)
  (if least * (6 / 5) < w - bw then w - least * (6 / 5) else bw, if least * (6 / 5) < (h - bh) / 2 then h - least * (6 / 5) * 2 else bh)

/-- A thickness raised to the least of the catalogue, unless that is infinite (Bobbin.cpp 703-708). -/
def floored (least : Option K) (x : K) : K :=
  match least with
  | none => x
  | some l => if x < l then l else x

/-- `create_quick_bobbin(Core, bool)` for a core already processed (Bobbin.cpp 669-714). -/
def quickFor (π : K) (t : Tables K) (core : Core K) (nullDimensions : Bool) : Outcome (Bobbin K) :=
  (Outcome.deref core.windows.head?).bind fun w =>
    if !nullDimensions && !core.toroid then
      (Outcome.take w.width).bind fun cw => (Outcome.take w.height).bind fun ch =>
        let d := dimensionsFor t cw ch
        let wall := floored t.leastWall ((ch - d.2) / 2)
        let thick := floored t.leastColumn (cw - d.1)
        if wall ≤ 0 then .throws .thinWall else quickBobbin π (some core) wall thick
    else quickBobbin π (some core) 0 0

/-! ## The catalogue -/

/-- A bobbin of the catalogue as `load_interpolators` sees it (Bobbin.cpp 423-460): whether it has a functional description, the window of
the core of its shape if the shape is known (`none` inside: `CorePiece::factory` throws, or the window lacks a dimension), its own window
as area, width and height if all are there, and its thicknesses. -/
structure CatalogueRow (K : Type) where
  functional : Bool
  /-- area, width and height of the window of half the core -/
  coreWindow : Option (Option (K × K × K))
  /-- area, width and height of the window of the bobbin -/
  bobbinWindow : Option (K × K × K)
  wall : K
  column : K

/-- The numbers of a row that can be used, `none` if it is reported as not usable (Bobbin.cpp 430-460, 498-504). -/
def usable (r : CatalogueRow K) : Option ((K × K × K) × (K × K × K)) :=
  if r.functional then
    match r.coreWindow, r.bobbinWindow with
    | some (some c), some b => some (c, b)
    | _, _ => none
  else none

/-- What is taken from a row that can be used (Bobbin.cpp 461-496). -/
structure Sample (K : Type) where
  bobbinWidth : K
  bobbinHeight : K
  filling : K
  coreWidth : K
  coreHeight : K
  proportionWidth : K
  proportionHeight : K
  wall : K
  column : K

/-- The sample of a row (Bobbin.cpp 461-482): the core is two pieces. -/
def sampleOf (r : CatalogueRow K) (c b : K × K × K) : Sample K :=
  { bobbinWidth := b.2.1
    bobbinHeight := b.2.2
    filling := b.1 / (c.1 * 2)
    coreWidth := c.2.1
    coreHeight := c.2.2 * 2
    proportionWidth := b.2.1 / c.2.1
    proportionHeight := b.2.2 / (c.2.2 * 2)
    wall := if 0 < r.wall then r.wall else (c.2.2 * 2 - b.2.2) / 2
    column := if 0 < r.column then r.column else c.2.1 - b.2.1 }

/-- The rows used and how many were not (Bobbin.cpp 423-515). -/
def scan : List (CatalogueRow K) → List (Sample K) × ℕ
  | [] => ([], 0)
  | r :: rs =>
    match usable r with
    | some (c, b) => (sampleOf r c b :: (scan rs).1, (scan rs).2)
    | none => ((scan rs).1, (scan rs).2 + 1)

/-- The least of the positive thicknesses, `none` for infinity (Bobbin.cpp 414-415, 483-488). -/
def leastPositive : List K → Option K
  | [] => none
  | x :: xs => if 0 < x then (match leastPositive xs with | none => some x | some l => some (min x l)) else leastPositive xs

/-- The points of a spline, from samples already sorted: one is left out when it is within a nanometre of the last one taken
(Bobbin.cpp 527-532, 547-552, 567-572, 586-591). -/
def thinned : Option K → List (K × K) → List (K × K)
  | _, [] => []
  | none, p :: ps => p :: thinned (some p.1) ps
  | some x, p :: ps => if 1 / 1000000000 < |p.1 - x| then p :: thinned (some p.1) ps else thinned (some x) ps

/-- The points and limits of one of the four splines from its samples as `std::sort` left them (Bobbin.cpp 517-536 and the three blocks
after it); with no samples the first of an empty vector is read. -/
def splineOf (sorted : List (K × K)) : Outcome (List (K × K) × (K × K)) :=
  match sorted.head?, sorted.getLast? with
  | some lo, some hi => .value (thinned none sorted, (lo.1, hi.1))
  | _, _ => .undefined

/-- Whether a list of samples is one that `std::sort` by the abscissa may leave: samples with the same one end up in any order
(Bobbin.cpp 521-523). -/
def SortedFrom (samples sorted : List (K × K)) : Prop := samples.Perm sorted ∧ sorted.Pairwise fun a b => a.1 ≤ b.1

/-- When `load_interpolators` builds anything (Bobbin.cpp 376-389): the catalogue the variables are built from, if they are. `shipped` is
what `load_bobbins` loads. Returns the catalogue left and the one the variables come from. -/
def loadInterpolators {α : Type} (shipped : List α) (catalogue : List α) (memo : Option (List α)) : List α × Option (List α) :=
  if catalogue.isEmpty then (shipped, some shipped)
  else match memo with
    | some m => (catalogue, some m)
    | none => (catalogue, some catalogue)

end Verif.Bobbin
