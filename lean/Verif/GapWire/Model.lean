import Mathlib.Algebra.Order.Field.Basic
import Verif.Filters.Basic

/-! # The wire that stands for a gap in the model of Albach

Models the range of validity of the model and the wire that makes the field of a gap (src/physical_models/MagneticField.cpp:1271-1327). Numbers
are of an ordered field; the width of a section is above zero wherever the theorems need it. -/

namespace Verif.GapWire

open Verif.Filters

/-- A gap: its length, the first of its section dimensions, and the first two of its coordinates, as read in
src/physical_models/MagneticField.cpp:1271-1327. -/
structure Gap (K : Type) where
  length : K
  width : Option K
  place : Option (K × K)

variable {K : Type} [Field K] [LinearOrder K]

/-- The ratio of the gap to its column (src/physical_models/MagneticField.cpp:1275-1276, 1289-1290). -/
def ratio (length width : K) : K := length / (2 * (width / 2))

/-- The place of the wire in its column (src/physical_models/MagneticField.cpp:1277, 1291). -/
def offset (xi : K) : K := 1 - 105 / 100 * xi - 288 / 100 * xi ^ 2 - 88 / 10 * xi ^ 3

/-- The denominator of its current (src/physical_models/MagneticField.cpp:1278, 1299). -/
def denominator (xi : K) : K := 25 / 100 - 1569 / 1000 * xi + 434 / 100 * xi ^ 2 - 7042 / 1000 * xi ^ 3

/-- `MagneticFieldStrengthAlbachModel::is_gap_within_validity_range` (src/physical_models/MagneticField.cpp:1271-1280). -/
def valid (gap : Gap K) : Bool :=
  match gap.width, gap.place with
  | some w, some _ => decide (0 ≤ offset (ratio gap.length w)) && decide (0 < denominator (ratio gap.length w))
  | _, _ => false

/-- `MagneticFieldStrengthAlbachModel::get_equivalent_inducing_point_for_gap`
(src/physical_models/MagneticField.cpp:1282-1327): the place of the wire and its current. -/
def wire (gap : Gap K) (field : K) : Outcome ((K × K) × K) :=
  match gap.width, gap.place with
  | some w, some p =>
    let xi := ratio gap.length w
    if offset xi < 0 then .throws
    else if denominator xi ≤ 0 then .throws
    else
      let current := field * gap.length / denominator xi
      let eta := offset xi * (w / 2)
      if w / 2 < eta then .throws
      else if 0 < p.1 then .value ((p.1 - eta, p.2), current)
      else if p.1 < 0 then .value ((p.1 + eta, p.2), current)
      else .value ((eta, p.2), current)
  | _, _ => .throws

end Verif.GapWire
