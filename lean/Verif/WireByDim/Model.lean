import Mathlib.Algebra.Order.Field.Basic
import Mathlib.Algebra.Order.Group.Abs

/-! # Model of `find_wire_by_dimension` (src/support/Utils.cpp:1136-1231)

Dimensions are finite numbers of an ordered field. The catalogue is the list of its wires in the order of
their keys. `resolve_dimensional_values` (modelled in `Verif.Requirements`) has been applied to the dimensions
already. `DBL_MAX`, the initial minimum, is represented by "no wire chosen yet": every finite distance is below
it. -/

namespace Verif.WireByDim

variable {K : Type} [Field K] [LinearOrder K]

inductive WireType where
  | round
  | litz
  | rectangular
  | foil
  | planar
  deriving DecidableEq

/-- What the search reads of a wire. `outer` is `get_maximum_outer_dimension()`. -/
structure Wire (K : Type) where
  name : Option String
  coated : Bool
  type : WireType
  standard : Option String
  diameter : Option K
  height : Option K
  width : Option K
  outer : K
  deriving DecidableEq

/-- The filters on standard and type (src/support/Utils.cpp:1152-1160). -/
def eligible (type : Option WireType) (standard : Option String) (w : Wire K) : Bool :=
  (match standard with
    | none => true
    | some s => match w.standard with
      | none => false
      | some s' => decide (s' = s)) &&
  (match type with
    | none => true
    | some t => decide (w.type = t))

/-- The conducting dimension compared (src/support/Utils.cpp:1164-1196): outer `none` is `continue` (litz),
inner `none` is the exception on a missing dimension. -/
def conducting (w : Wire K) : Option (Option K) :=
  match w.type with
  | .litz => none
  | .round => some w.diameter
  | .planar => some w.height
  | .rectangular => some w.height
  | .foil => some w.width

/-- `fabs(x - dimension) / dimension` (src/support/Utils.cpp:1173, 1183, 1192). -/
def distance (d x : K) : K := |x - d| / d

/-- State of the first loop: minimum distance with the chosen wire, and the ties. -/
abbrev St (K : Type) := Option (K × Wire K) × List (Wire K)

/-- The first loop (src/support/Utils.cpp:1149-1206). `none`: exception. -/
def loop (type : Option WireType) (standard : Option String) (d : K) : List (Wire K) → St K → Option (St K)
  | [], st => some st
  | w :: ws, st =>
    if eligible type standard w = false then loop type standard d ws st
    else match conducting w with
      | none => loop type standard d ws st
      | some none => none
      | some (some x) =>
        match st.1 with
        | none => loop type standard d ws (some (distance d x, w), [])
        | some (m, c) =>
          if distance d x < m then loop type standard d ws (some (distance d x, w), [])
          else if distance d x = m then loop type standard d ws (some (m, c), st.2 ++ [w])
          else loop type standard d ws st

/-- The tie break (src/support/Utils.cpp:1216-1223), seeded with the chosen wire (1208-1214). -/
def tieBreak (best : Wire K) : List (Wire K) → Wire K
  | [] => best
  | w :: ws => tieBreak (if w.outer < best.outer then w else best) ws

/-- Outcome: a wire, the exception, or a default-constructed wire when nothing was eligible. -/
inductive Out (K : Type) where
  | wire (w : Wire K)
  | defaultWire
  | throws
  deriving DecidableEq

/-- `set_name(nullopt)`, `set_coating(nullopt)` (src/support/Utils.cpp:1225-1228). -/
def obfuscated (obfuscate : Bool) (w : Wire K) : Wire K :=
  if obfuscate then { w with name := none, coated := false } else w

/-- Models `find_wire_by_dimension` (src/support/Utils.cpp:1136-1231). -/
def find (catalogue : List (Wire K)) (type : Option WireType) (standard : Option String) (obfuscate : Bool)
    (d : K) : Out K :=
  match loop type standard d catalogue (none, []) with
  | none => .throws
  | some (none, _) => .defaultWire
  | some (some (_, c), ties) => .wire (obfuscated obfuscate (tieBreak c ties))

end Verif.WireByDim
