import Mathlib.Analysis.SpecialFunctions.Pow.Real
import Verif.Columns.Model

/-! # Faces of the parts of a thermal network, and the air around them

Models the resistances of `src/physical_models/ThermalNode.cpp` and `src/physical_models/ThermalResistance.h`, the faces that
`ThermalNetworkNode` gives to turns, how much of a face its turns leave exposed, and the coefficients of convection of
`src/physical_models/ThermalResistance.cpp`.

Numbers are exact; those of convection are real. The places of the faces (`limitCoordinates`) are not modelled. -/

namespace Verif.Faces

section
variable {K : Type} [Field K] [LinearOrder K] [IsStrictOrderedRing K]

/-! ## Resistances -/

/-- The resistance without contact (src/physical_models/ThermalNode.cpp:33-35, 58-60, src/physical_models/ThermalResistance.h:76). -/
def blocked : K := 10 ^ 9

/-- Models `ThermalResistance::calculateConductionResistance` (src/physical_models/ThermalResistance.h:74-78). -/
def conduction (length conductivity area : K) : K :=
  if length ≤ 0 then 0
  else if conductivity ≤ 0 ∨ area ≤ 0 then blocked
  else length / (conductivity * area)

/-- A face, what resistances use of it (`ThermalNodeQuadrant`, src/physical_models/ThermalNode.h:193-206): its area, the length
of the way through it, its conductivity, and the part of it that is exposed. -/
structure Face (K : Type) where
  area : K
  length : K
  conductivity : K
  exposed : K

/-- Models `ThermalNodeQuadrant::calculateConductionResistance` (src/physical_models/ThermalNode.cpp:32-51). -/
def touching (a b : Face K) (contact : K) : K :=
  if contact ≤ 0 then blocked
  else conduction a.length a.conductivity contact + conduction b.length b.conductivity contact

/-- Models `WireCoatingUtils::calculateCoatingResistance` (src/physical_models/ThermalNode.cpp:14-26), at the thickness and the
conductivity of the coating. -/
def coating (thickness conductivity area : K) : K :=
  if area ≤ 0 then 0 else if thickness ≤ 0 ∨ conductivity ≤ 0 then 0 else thickness / (conductivity * area)

/-- The resistance of a coating, if there is one (src/physical_models/Temperature.cpp:1719-1724): thickness and conductivity. -/
def coated (c : Option (K × K)) (area : K) : K :=
  match c with
  | none => 0
  | some p => coating p.1 p.2 area

/-- The resistance between the segments of a toroid (src/physical_models/Temperature.cpp:1715-1724). -/
def joined (a b : Face K) (ca cb : Option (K × K)) : K :=
  touching a b (min a.area b.area) + coated ca (min a.area b.area) + coated cb (min a.area b.area)

/-- Models `ThermalNodeQuadrant::calculateConvectionResistance` (src/physical_models/ThermalNode.cpp:53-62). -/
def convection (f : Face K) (h : K) : K :=
  if h ≤ 0 ∨ f.area * f.exposed ≤ 0 then blocked else 1 / (h * (f.area * f.exposed))

/-! ## Faces of turns -/

/-- The least radius (src/physical_models/ThermalNode.cpp:135-136, 253, 268). -/
def least : K := 1 / 10 ^ 6

/-- Models `ThermalNetworkNode::computeTurnLengthAtRadius` (src/physical_models/ThermalNode.cpp:247-271): columns neither round
nor oblong are taken as rectangular. -/
def turnLength (pi : K) (shape : Columns.Shape) (width depth radius : K) : K :=
  match shape with
  | .round => 2 * pi * max radius least
  | .oblong => 2 * pi * max radius least + 4 * (depth - width)
  | _ => 4 * depth + 4 * width + 2 * pi * max (max radius least - width) least

/-- Areas of the four faces of a turn: towards the axis, away from it, and the two others. -/
structure Areas (K : Type) where
  inner : K
  outer : K
  left : K
  right : K

/-- `getTotalSurfaceArea` (src/physical_models/ThermalNode.h:411-417). -/
def Areas.total (a : Areas K) : K := a.inner + a.outer + a.left + a.right

/-- Models the areas of `ThermalNetworkNode::initializeConcentricTurnQuadrants` (src/physical_models/ThermalNode.cpp:285-307,
315, 323, 331, 339). `centre`: the horizontal coordinate of the turn, with its sign
(src/physical_models/Temperature.cpp:1654-1655). -/
def columnFaces (pi : K) (shape : Columns.Shape) (width depth wireWidth wireHeight centre : K) : Areas K where
  inner := wireHeight * turnLength pi shape width depth (centre - wireWidth / 2)
  outer := wireHeight * turnLength pi shape width depth (centre + wireWidth / 2)
  left := wireWidth * turnLength pi shape width depth centre
  right := wireWidth * turnLength pi shape width depth centre

/-- The radius of the centre of a turn of a toroid (src/physical_models/ThermalNode.cpp:130): that given if it is positive,
otherwise that of a circle as long as the turn. -/
def centreRadius (pi turn centre : K) : K := if 0 < centre then centre else turn / (2 * pi)

/-- Models the areas of `ThermalNetworkNode::initializeToroidalQuadrants` (src/physical_models/ThermalNode.cpp:130-149, 159,
172, 185, 199), for half of a turn. `centre`: the distance from the half to the axis of the toroid
(src/physical_models/Temperature.cpp:1507, 1542, 1550-1559, 1577, 1586-1587). -/
def toroidFaces (pi wireWidth wireHeight turn centre : K) : Areas K where
  inner := wireHeight * (pi * max (centreRadius pi turn centre - wireWidth / 2) least)
  outer := wireHeight * (pi * max (centreRadius pi turn centre + wireWidth / 2) least)
  left := wireWidth * (pi * centreRadius pi turn centre)
  right := wireWidth * (pi * centreRadius pi turn centre)

/-! ## Exposure -/

/-- Models `calculateToroidalSurfaceCoverage` and `calculateConcentricSurfaceCoverage`
(src/physical_models/ThermalNode.cpp:480-527): the exposed part of a length with turns of some widths on it. -/
def exposure (length : K) (widths : List K) : K :=
  if length ≤ 0 then 1 else max 0 (min 1 (max 0 (length - widths.sum) / length))

/-- A turn of a toroid: angle, distance from the axis and width (src/physical_models/Temperature.cpp:576-598). The distance is
only kept (`isInner`), nothing looks at it. -/
structure Wound (K : Type) where
  angle : K
  radius : K
  width : K

/-- An angle brought to a positive one (src/physical_models/Temperature.cpp:650-651). Angles come from `atan2`, so that one turn
is enough. -/
def positive (full a : K) : K := if a < 0 then a + full else a

/-- Whether an angle is counted in a segment that starts at `start` and has an angle `step`
(src/physical_models/Temperature.cpp:653-668). -/
def counted (full step start a : K) : Bool :=
  if start - step / 10 ≤ a ∧ a < start + step + step / 10 then true
  else if start - step / 10 < 0 ∧ full + (start - step / 10) ≤ a then true
  else decide (full < start + step + step / 10 ∧ a < start + step + step / 10 - full)

/-- The exposed part of a segment of a toroid, at the inside or at the outside (src/physical_models/Temperature.cpp:644-684). -/
def segmentExposure (full step radius start : K) (turns : List (Wound K)) : K :=
  exposure (radius * step) ((turns.filter fun t => counted full step start (positive full t.angle)).map Wound.width)

end

/-! ## Convection -/

noncomputable section

/-- The temperature in kelvin (src/physical_models/ThermalResistance.h:32). -/
def kelvin (t : ℝ) : ℝ := t + 273.15

/-- The kinematic viscosity of air (src/physical_models/ThermalResistance.h:34-43). -/
def viscosity (t : ℝ) : ℝ :=
  1.716e-5 * (kelvin t / 273.15) ^ (1.5 : ℝ) * (273.15 + 110.4) / (kelvin t + 110.4) / (101325 / (287.05 * kelvin t))

/-- The conductivity of air (src/physical_models/ThermalResistance.h:46). -/
def airConductivity (t : ℝ) : ℝ := 0.0241 + 7.5e-5 * t

/-- The number of Prandtl of air (src/physical_models/ThermalResistance.h:51-52). -/
def prandtl (t : ℝ) : ℝ := max 0.680 (min 0.720 (0.7150 - 7.5e-5 * t))

/-- The number of Rayleigh (src/physical_models/ThermalResistance.cpp:54-60), with the expansion of air
(src/physical_models/ThermalResistance.h:55) and the acceleration of gravity (src/Constants.h:19). -/
def rayleigh (film difference length : ℝ) : ℝ :=
  9.80665 * (1 / kelvin film) * difference * length ^ 3 / viscosity film ^ 2 * prandtl film

/-- `SurfaceOrientation` (src/physical_models/ThermalNode.h:123-127). -/
inductive Facing where
  | vertical
  | up
  | down

/-- The number of Nusselt by correlations (src/physical_models/ThermalResistance.cpp:62-85). -/
def correlation (facing : Facing) (pr ra : ℝ) : ℝ :=
  match facing with
  | .vertical => (0.825 + 0.387 * ra ^ (1 / 6 : ℝ) / (1 + (0.492 / pr) ^ (9 / 16 : ℝ)) ^ (8 / 27 : ℝ)) ^ 2
  | .up => if ra < 10 ^ 7 then 0.54 * ra ^ (1 / 4 : ℝ) else 0.15 * ra ^ (1 / 3 : ℝ)
  | .down => 0.27 * ra ^ (1 / 4 : ℝ)

/-- Models `ThermalResistance::calculateNaturalConvectionCoefficient` (src/physical_models/ThermalResistance.cpp:38-97). -/
def still (surface ambient length : ℝ) (facing : Facing) : ℝ :=
  max (correlation facing (prandtl ((surface + ambient) / 2))
    (rayleigh ((surface + ambient) / 2) (if |surface - ambient| < 0.1 then 0.1 else |surface - ambient|) length)) 1 *
    airConductivity ((surface + ambient) / 2) / length

/-- The number of Nusselt in moving air (src/physical_models/ThermalResistance.cpp:114-122). -/
def flow (re pr : ℝ) : ℝ :=
  if re < 5e5 then 0.664 * re ^ (1 / 2 : ℝ) * pr ^ (1 / 3 : ℝ) else 0.037 * re ^ (4 / 5 : ℝ) * pr ^ (1 / 3 : ℝ)

/-- Models `ThermalResistance::calculateForcedConvectionCoefficient` (src/physical_models/ThermalResistance.cpp:101-132). -/
def moving (velocity length temperature : ℝ) : ℝ :=
  if velocity ≤ 0 then still (temperature + 20) temperature length .vertical
  else flow (velocity * length / viscosity temperature) (prandtl temperature) * airConductivity temperature / length

end

end Verif.Faces
