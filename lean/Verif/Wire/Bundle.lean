import Mathlib.Analysis.Real.Sqrt
import Mathlib.Algebra.Order.Floor.Ring
import Verif.WireByDim.Model

/-!
# Litz bundles, equivalent wires, wires cut to a section and layers of insulation (src/constructive_models/Wire.cpp)
-/

namespace Verif.Wire

open Verif.WireByDim (WireType)

/-! ## Bundles -/

/-- `get_packing_factor_from_standard` (Wire.cpp 710-733). -/
noncomputable def packing (iec : Bool) (n : ℕ) : ℝ :=
  if iec then
    if n = 2 then Real.sqrt 2
    else if n < 12 then 1.25
    else if n < 16 then 1.26
    else if n < 20 then 1.27
    else 1.28
  else 1.155

/-- `get_serving_thickness_from_standard` (Wire.cpp 735-755); `none` = throws. -/
noncomputable def serving (layers : ℤ) : Option ℝ :=
  if layers = 0 then some 0 else if layers ≤ 2 then some (0.0000255 * layers) else none

/-- `get_outer_diameter_bare_litz` (Wire.cpp 888-895), given the outer diameter of the strand. -/
noncomputable def bareLitz (iec : Bool) (n : ℕ) (strand : ℝ) : ℝ := packing iec n * Real.sqrt n * strand

/-- `get_outer_diameter_served_litz` (Wire.cpp 876-886). -/
noncomputable def servedLitz (iec : Bool) (n : ℕ) (strand : ℝ) (layers : ℤ) : Option ℝ :=
  (serving layers).map fun t => bareLitz iec n strand + t * 2

/-- `get_outer_diameter_insulated_litz` (Wire.cpp 919-945), given the packing factor interpolated from the catalogue (0 without one). -/
noncomputable def insulatedLitz (catalogue : ℝ) (iec : Bool) (n : ℕ) (strand : ℝ) (layers : ℤ) (thickness : ℝ) : ℝ :=
  (if catalogue < 1 / Real.sqrt 0.9069 then packing iec n else catalogue) * Real.sqrt n * strand + 2 * thickness * layers

/-! ## Equivalent wires -/

variable {K : Type} [Field K] [LinearOrder K]

/-- What equivalence reads of a wire: its conducting area and its minimum conducting dimension, and for litz its conductors and the
conducting diameter of its strand. -/
structure Plain (K : Type) where
  type : WireType
  area : K
  minimum : K
  conductors : ℕ := 1
  deriving DecidableEq

/-- `get_equivalent_wire` (Wire.cpp 2156-2355); `none` = throws. `closest` is `find_wire_by_dimension`, `skin` the skin depth, `root` the
square root. The coating and outer dimensions are not modelled. -/
def equivalent [FloorRing K] (π : K) (root : K → K) (closest : WireType → K → Option (Plain K)) (skin : K) (old : Plain K) (new : WireType) :
    Option (Plain K) :=
  if old.type = new then some old
  else if new = .litz then
    (closest .round skin).map fun strand =>
      let n := ⌊old.area / (π * (skin / 2) ^ 2) + 1 / 2⌋.toNat
      { type := .litz, area := π * (strand.minimum / 2) ^ 2 * n, minimum := strand.minimum, conductors := n }
  else if old.type = .planar ∧ new = .foil then none
  else (closest new (if old.type = .litz then root (old.area / π) * 2 else old.minimum)).map fun w => { w with type := new }

/-! ## Cut to a section, insulation -/

/-- The dimensions of a flat wire, and the conducting area stored with it. -/
structure Flat (K : Type) where
  conductingWidth : K
  conductingHeight : K
  outerWidth : K
  outerHeight : K
  area : K
  deriving DecidableEq

/-- `cut_foil_wire_to_section` (Wire.cpp 1634-1643) of a foil, with the margin of Constants.h 75. -/
def cutFoil (sectionHeight : K) (w : Flat K) : Flat K :=
  let height := sectionHeight * (1 - 5 / 100)
  { w with conductingHeight := height, outerWidth := w.conductingWidth, outerHeight := height }

/-- `cut_planar_wire_to_section` (Wire.cpp 1645-1663) of a planar wire, with the margin of Constants.h 76. -/
def cutPlanar (sectionWidth : K) (w : Flat K) : Flat K :=
  let width := sectionWidth * (1 - 5 / 100)
  { w with conductingWidth := width, outerWidth := width, outerHeight := w.conductingHeight, area := width * w.conductingHeight }

/-- What the number of equivalent layers ends in. -/
inductive Layers
  | undefined
  | throws
  | count (n : ℤ)
  deriving DecidableEq

/-- `get_equivalent_insulation_layers` (Wire.cpp 1007-1024): `coated` whether there is a coating, with its breakdown voltage and layers. A
zero voltage makes an infinite quotient (or NaN), which has no integer. The quotient is taken to be within the range of `int`. -/
def equivalentLayers [FloorRing K] (coated : Bool) (breakdown : Option K) (layers : Option ℤ) (voltage : K) : Layers :=
  if !coated then .count 0
  else match breakdown with
    | none => .throws
    | some b => if voltage = 0 then .undefined else .count (min (layers.getD 1) ⌊b * (85 / 100) / voltage⌋)

/-- The end of `get_coating_thickness` (Wire.cpp 1750-1773) for a wire that is not litz: no coating, a thickness stated, layers stated, or
the dimensions. -/
def coatingThickness (coated : Bool) (stated : Option K) (layers : Option (K × ℤ)) (outerWidth outerHeight conductingWidth conductingHeight : K) : K :=
  if !coated then 0
  else match stated, layers with
    | some t, _ => t
    | none, some (t, n) => t * n
    | none, none => min ((outerWidth - conductingWidth) / 2) ((outerHeight - conductingHeight) / 2)

end Verif.Wire
