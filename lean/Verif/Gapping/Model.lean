import Verif.Common.Round
import Mathlib.Algebra.Order.Field.Rat

/-!
# Model of the gapping of a core

Source: `/repo/src/constructive_models/Core.cpp`. How the gaps a caller writes are laid on the columns of a core, and
how they are read back on a second pass.

Doubles are exact rational numbers and `roundFloat` is exact at nine decimals. Three coordinates are always there (the
source reads three entries of a vector). The processed description is already there, with its columns and the widths
of its winding windows; its dimensions come from the shape and are not modelled, and the number of stacks is.
-/

namespace Verif.Gapping

open Verif.Round (roundFloat)

/-- `roundFloat` with the number of decimals it has by default. Models src/support/Utils.h:228 and
src/support/Utils.cpp:1576-1578. -/
def rd (x : ℚ) : ℚ := roundFloat x 9

/-- Kinds of gap: the three of MAS. -/
inductive Kind
  | subtractive
  | additive
  | residual
  deriving DecidableEq, Repr

/-- Kinds of column: the two of MAS. -/
inductive Place
  | central
  | lateral
  deriving DecidableEq, Repr

/-- A column, as processed. The shape is a number. -/
structure Column where
  place : Place
  shape : Nat
  x : ℚ
  y : ℚ
  z : ℚ
  height : ℚ
  width : ℚ
  depth : ℚ
  area : ℚ
  deriving DecidableEq, Repr

/-- A gap, as a caller writes it or as processed. -/
structure Gap where
  kind : Kind
  length : ℚ
  coords : Option (ℚ × ℚ × ℚ) := none
  shape : Option Nat := none
  normal : Option ℚ := none          -- distanceClosestNormalSurface
  parallel : Option ℚ := none        -- distanceClosestParallelSurface
  area : Option ℚ := none
  dims : Option (ℚ × ℚ) := none      -- sectionDimensions
  deriving DecidableEq, Repr

/-- What a core says of its columns and of the width of every winding window. -/
structure Core where
  columns : List Column
  windows : List (Option ℚ)
  deriving DecidableEq, Repr

/-- Length of the gaps that are there although nobody asked for them. Models src/Constants.h:13. -/
def residualLength : ℚ := 5 / 1000000

/-- Outcome of laying gaps: gaps, one that does not fit, or undefined behaviour. -/
inductive Step (α : Type) where
  | ok (a : α)
  | fails
  | ub
  deriving DecidableEq, Repr

/-- Sequencing. -/
def Step.bind {α β : Type} : Step α → (α → Step β) → Step β
  | .ok a, f => f a
  | .fails, _ => .fails
  | .ub, _ => .ub

/-- One after the other, stopping at the first that does not fit. -/
def Step.each {α β : Type} (f : α → Step β) : List α → Step (List β)
  | [] => .ok []
  | a :: rest => (f a).bind fun b => (Step.each f rest).bind fun bs => .ok (b :: bs)

/-- A gap laid on a column, with the area and the section of the column. Models the body shared by the loops of
`distribute_and_process_gap` and `process_gap` (src/constructive_models/Core.cpp:808-825, 847-864, 879-896, 958-977,
990-1007, 1012-1037, 1270-1290): a negative distance is a failure, and the first winding window is read after that
check. -/
def layGap (c : Core) (col : Column) (kind : Kind) (length : ℚ) (coords : ℚ × ℚ × ℚ) (normal : ℚ) : Step Gap :=
  if normal < 0 then .fails
  else match c.windows with
    | [] => .ub
    | w :: _ => .ok { kind := kind, length := length, coords := some coords, shape := some col.shape,
                      normal := some normal, parallel := w, area := some col.area,
                      dims := some (col.width, col.depth) }

/-- A gap in the middle of a column. Models src/constructive_models/Core.cpp:842-865, and the same lines for the
other loops over columns (807-826, 878-897, 989-1008, 1011-1038). -/
def inMiddle (c : Core) (col : Column) (kind : Kind) (length : ℚ) : Step Gap :=
  layGap c col kind length (col.x, col.y, col.z) (col.height / 2 - length / 2)

/-- A gap without more than its kind and its length. -/
def bare (kind : Kind) (length : ℚ) : Gap := { kind := kind, length := length }

/-- Gaps of a kind. Models `Core::find_gaps_by_type` (src/constructive_models/Core.cpp:674-682). -/
def ofKind (k : Kind) (gaps : List Gap) : List Gap := gaps.filter fun g => g.kind = k

/-- Columns of a kind. Models `Core::find_columns_by_type` (src/constructive_models/Core.cpp:597-606). -/
def columnsOf (p : Place) (c : Core) : List Column := c.columns.filter fun col => col.place = p

/-- The gaps down the winding column: the height and the distance move by one chunk after every gap. Models the loop
src/constructive_models/Core.cpp:957-986; `total` is the number of gaps, `chunk` is `coreChunkSizePlusGap` and `rise`
what is added to the height (979). The comparisons with `total / 2. - 1` are doubled. -/
def downColumn (c : Core) (col : Column) (total : Nat) (chunk rise : ℚ) :
    Nat → ℚ → ℚ → List Gap → Step (List Gap)
  | _, _, _, [] => .ok []
  | i, offset, distance, g :: rest =>
    (layGap c col g.kind g.length (col.x, col.y + offset, col.z) distance).bind fun laid =>
      (downColumn c col total chunk rise (i + 1) (offset + rise)
        (if 2 * (i + 1) < total then rd (distance + chunk)
         else if total < 2 * (i + 1) then rd (distance - chunk)
         else distance) rest).bind fun more => .ok (laid :: more)

/-- The column the windings go around, and the others. Models src/constructive_models/Core.cpp:900-912: the first
central column, or the first lateral one when there is none; no column at all is a read past the end. -/
def splitColumns (c : Core) : Option (Column × List Column) :=
  match columnsOf .central c, columnsOf .lateral c with
  | [], [] => none
  | [], first :: others => some (first, others)
  | first :: _, laterals => some (first, laterals)

/-- Gaps down the winding column and residual gaps in the others. Models the last branch of
`distribute_and_process_gap` (src/constructive_models/Core.cpp:899-1040). -/
def overColumns (c : Core) (nonResidual residuals : List Gap) : Step (List Gap) :=
  match splitColumns c with
  | none => .ub
  | some (winding, returns) =>
    let total := nonResidual.length
    let rise := rd (winding.height / ((total : ℚ) + 1))
    let first := (nonResidual.map Gap.length).head?
    let laid : Step (List Gap) :=
      match first with
      | none => .ub   -- `nonResidualGaps[0]` at 954; never so, see `overColumns_not_empty`
      | some len =>
        if total = 1 then
          downColumn c winding total 0 rise 0 (if len < winding.height then rd (len / 2) else 0)
            (rd (winding.height / 2 - len / 2)) nonResidual
        else
          downColumn c winding total rise rise 0 (rd (-rise * ((total : ℚ) - 1) / 2)) (rd (rise - len / 2)) nonResidual
    laid.bind fun down =>
      (if residuals.length < returns.length then
        Step.each (fun col => inMiddle c col .residual residualLength) returns
      else
        Step.each (fun p : Column × Gap => inMiddle c p.1 p.2.kind p.2.length) (returns.zip residuals)).bind fun others =>
          .ok (down ++ others)

/-- The gap of every column, the last one again for the columns that are left. Models
src/constructive_models/Core.cpp:842-865. -/
def spread (c : Core) (gaps : List Gap) : Step (List Gap) :=
  Step.each (fun p : Column × Nat =>
    match gaps[min p.2 (gaps.length - 1)]? with
    | none => .ub
    | some g => inMiddle c p.1 g.kind g.length) (c.columns.zipIdx)

/-- What happened, and the gapping left behind. -/
inductive Result
  | ok
  | fails       -- false
  | throws      -- GapException
  | badOptional
  | notImplemented
  | ub
  deriving DecidableEq, Repr

/-- Gaps kept of residual ones when there are more than columns. Models src/constructive_models/Core.cpp:798-804. -/
def trimmed (c : Core) (gaps : List Gap) : List Gap :=
  if gaps.all (fun g => g.kind = .residual) ∧ c.columns.length < gaps.length then gaps.take c.columns.length else gaps

/-- The branches on the numbers of gaps. Models src/constructive_models/Core.cpp:806-1040, after the surplus has been
dropped. -/
def layout (c : Core) (gaps : List Gap) : Step (List Gap) :=
  let subtractive := ofKind .subtractive gaps
  let additive := ofKind .additive gaps
  let residuals := ofKind .residual gaps
  if gaps.length = 0 then
    Step.each (fun col => inMiddle c col .residual residualLength) c.columns
  else if gaps.length < c.columns.length ∧ subtractive.length = 0 then spread c gaps
  else if (residuals.length = c.columns.length ∨ additive.length = c.columns.length) ∧
      gaps.length = c.columns.length then
    Step.each (fun p : Column × Gap => inMiddle c p.1 p.2.kind p.2.length) (c.columns.zip gaps)
  else overColumns c (subtractive ++ additive) residuals

/-- Writing back what was laid. -/
def store (gaps : List Gap) : Step (List Gap) → Result × List Gap
  | .ok laid => (.ok, laid)
  | .fails => (.fails, gaps)
  | .ub => (.ub, gaps)

/-- Models `Core::distribute_and_process_gap` (src/constructive_models/Core.cpp:760-1044): the gapping is replaced at
the end only (1042), except for the surplus dropped at 798-804. -/
def distribute (c : Core) (gaps : List Gap) : Result × List Gap :=
  store (trimmed c gaps) (layout c (trimmed c gaps))

/-- Distance between a place and a column, along x and z. Models src/constructive_models/Core.cpp:614-621. -/
def away (col : Column) (p : ℚ × ℚ × ℚ) : ℚ := |col.x - p.1| + |col.z - p.2.2|

/-- Whether a place is on a column. Models the test src/constructive_models/Core.cpp:634-646. -/
def onColumn (p : ℚ × ℚ × ℚ) (col : Column) : Bool :=
  decide (away col p / max |col.z| (max |col.x| (1 / 1000000)) < 1 / 100)

/-- The closest of two columns, the first when they are as close. -/
def closer (p : ℚ × ℚ × ℚ) (best : Option Column) (col : Column) : Option Column :=
  match best with
  | none => some col
  | some b => if away col p < away b p then some col else some b

/-- Models `Core::find_closest_column_index_by_coordinates` (src/constructive_models/Core.cpp:608-628); the column
instead of its index, none for -1. -/
def closest (c : Core) (p : ℚ × ℚ × ℚ) : Option Column := c.columns.foldl (closer p) none

/-- Models `Core::is_gapping_misaligned` (src/constructive_models/Core.cpp:1144-1157). -/
def misaligned (c : Core) (gaps : List Gap) : Bool :=
  gaps.any fun g =>
    match g.coords with
    | none => true
    | some p => !(c.columns.any (onColumn p))

/-- A gap read back where it says it is. Models the body of the loop src/constructive_models/Core.cpp:1269-1291. -/
def whereItIs (c : Core) (g : Gap) : Step Gap :=
  match g.coords with
  | none => .ub
  | some p =>
    match closest c p with
    | none => .ub
    | some col => layGap c col g.kind g.length p (rd (col.height / 2 - |p.2.1| - g.length / 2))

/-- Dimensions of a drum with its ring; one that is missing is zero, as for `operator[]`. -/
structure Drum where
  a : ℚ
  a2 : Option ℚ
  b : ℚ
  d : ℚ
  f : ℚ
  k : ℚ
  pi : ℚ    -- π
  deriving DecidableEq, Repr

/-- Families, as far as gaps go. -/
inductive Family
  | toroid
  | molded
  | semishielded
  | drumRing (dims : Drum)
  | other
  deriving DecidableEq, Repr

/-- One of the two gaps between a drum and its ring. Models the body src/constructive_models/Core.cpp:1249-1258; the
rectangular shape is number 0. -/
def annular (dims : Drum) (thickness centre width : ℚ) : Gap :=
  let mean := (dims.a + dims.k) / 4
  { kind := .residual, length := rd ((dims.k - dims.a) / 2), coords := some (rd mean, rd centre, 0), shape := some 0,
    normal := some (rd (thickness / 2)), parallel := some width, area := some (rd (2 * dims.pi * mean * thickness)),
    dims := some (rd (2 * dims.pi * mean), rd thickness) }

/-- Flanges of different diameters. Models src/constructive_models/Core.cpp:1230-1231. -/
def uneven (dims : Drum) : Bool :=
  match dims.a2 with
  | none => false
  | some v => decide (0 < v ∧ rd v ≠ rd dims.a)

/-- Models the branch of `process_gap` for a drum with a ring (src/constructive_models/Core.cpp:1217-1262). -/
def drumRing (c : Core) (dims : Drum) (gaps : List Gap) : Result × List Gap :=
  if gaps.any (fun g => g.kind ≠ .residual) then (.throws, gaps)
  else if uneven dims then (.notImplemented, gaps)
  else match c.windows with
    | [] => (.ub, gaps)
    | none :: _ => (.badOptional, gaps)
    | some w :: _ =>
      (.ok, [annular dims dims.d ((dims.b - dims.d) / 2) w, annular dims dims.f (-(dims.b - dims.f) / 2) w])

/-- Models `Core::process_gap` (src/constructive_models/Core.cpp:1168-1296), once the shape is resolved and the
description processed (1176-1186). -/
def process (family : Family) (c : Core) (gaps : List Gap) : Result × List Gap :=
  match family with
  | .toroid => if gaps ≠ [] then (.throws, gaps) else (.ok, [])
  | .molded => if gaps ≠ [] then (.throws, gaps) else (.ok, [])
  | .semishielded => if gaps ≠ [] then (.throws, gaps) else (.ok, [])
  | .drumRing dims => drumRing c dims gaps
  | .other => if misaligned c gaps || gaps.isEmpty then distribute c gaps else store gaps (Step.each (whereItIs c) gaps)

/-- Models `Core::process_gap_or_throw` (src/constructive_models/Core.cpp:1298-1304). -/
def processOrThrow (family : Family) (c : Core) (gaps : List Gap) : Result × List Gap :=
  match process family c gaps with
  | (.fails, left) => (.throws, left)
  | r => r

/-- Models `Core::set_gap_length` (src/constructive_models/Core.cpp:746-753): what `distribute_and_process_gap` returns
is dropped, so a failure is not told. -/
def setLength (c : Core) (len : ℚ) (gaps : List Gap) : Result × List Gap :=
  match distribute c (gaps.map fun g => if g.kind = .residual then g else { g with length := len }) with
  | (.fails, left) => (.ok, left)
  | r => r

/-- Models `Core::create_ground_gapping` (src/constructive_models/Core.cpp:1052-1069). The loop at 1061 goes to
`numberColumns - 1` unsigned, so it does not end for no columns: none. -/
def ground (len : ℚ) (columns : Nat) : Option (List Gap) :=
  if columns = 0 then none
  else some (bare .subtractive len :: List.replicate (columns - 1) (bare .residual residualLength))

/-- Models `Core::create_distributed_gapping` (src/constructive_models/Core.cpp:1080-1095). -/
def distributed (len : ℚ) (number columns : Nat) : Option (List Gap) :=
  if columns = 0 then none
  else some (List.replicate number (bare .subtractive len) ++
    List.replicate (columns - 1) (bare .residual residualLength))

/-- Models `Core::create_spacer_gapping` (src/constructive_models/Core.cpp:1106-1116). -/
def spacer (len : ℚ) (columns : Nat) : List Gap := List.replicate columns (bare .additive len)

/-- Models `Core::create_residual_gapping` (src/constructive_models/Core.cpp:1127-1137). -/
def residual (columns : Nat) : List Gap := List.replicate columns (bare .residual residualLength)

/-- The columns of a stack. Models src/constructive_models/Core.cpp:722-725. -/
def stackColumns (n : Nat) (c : Core) : Core :=
  { c with columns := c.columns.map fun col => { col with area := col.area * n, depth := col.depth * n } }

/-- The gaps of a stack: the area and the second dimension of what a gap already carries are multiplied. Models
src/constructive_models/Core.cpp:728-743. -/
def stackGaps (n : Nat) (gaps : List Gap) : List Gap :=
  gaps.map fun g => { g with area := g.area.map (· * n), dims := g.dims.map fun d => (d.1, d.2 * n) }

/-- What `Core::process_data` does to columns and gaps (src/constructive_models/Core.cpp:1691-1862): the columns are
those of the piece again (`piece`), then `scale_to_stacks` (713-744) multiplies columns and gaps. -/
def processData (piece : Core) (n : Nat) (gaps : List Gap) : Core × List Gap :=
  (stackColumns n piece, stackGaps n gaps)

/-- Processing a core from nothing: its data, then its gaps. Models the constructor from JSON
(src/constructive_models/Core.cpp:33-43) and `create_quick_core` (2446-2447); a gapping that does not fit is not told. -/
def processAll (family : Family) (piece : Core) (n : Nat) (gaps : List Gap) : Result × List Gap :=
  process family (processData piece n gaps).1 (processData piece n gaps).2

end Verif.Gapping
