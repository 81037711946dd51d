import Mathlib.Algebra.Order.Field.Basic
import Mathlib.Algebra.Order.Floor.Ring
import Verif.WireByDim.Model

/-!
# Conducting area of a wire and parallels needed (src/constructive_models/Wire.cpp)

Numbers are those of an ordered field, and π is a number of it. Dimensions are already resolved to one value.
-/

namespace Verif.Wire

open Verif.WireByDim (WireType)

variable {K : Type} [Field K] [LinearOrder K]

/-- What the areas read of a wire. `strand` is the conducting diameter of the strand, once resolved. -/
structure Conductor (K : Type) where
  type : WireType
  conductors : Option ℕ
  strand : Option K
  diameter : Option K
  width : Option K
  height : Option K

/-- The number of conductors (Wire.cpp 1159-1166): one if missing, but for litz. -/
def conductorsOf (c : Conductor K) : Option ℕ :=
  match c.conductors with
  | some n => some n
  | none => if c.type = .litz then none else some 1

/-- `calculate_conducting_area` (Wire.cpp 1158-1221); `none` = throws. `rect` is `get_conducting_area_rectangular`. -/
def conductingArea (π : K) (rect : K → K → K) (c : Conductor K) : Option K :=
  match conductorsOf c with
  | none => none
  | some n => match c.type with
    | .litz => c.strand.map fun d => π * (d / 2) ^ 2 * n
    | .round => c.diameter.map fun d => π * (d / 2) ^ 2 * n
    | .rectangular => match c.width, c.height with
      | some w, some h => some (rect w h * n)
      | _, _ => none
    | .foil => match c.width, c.height with
      | some w, some h => some (w * (h * n))
      | _, _ => none
    | .planar => match c.width, c.height with
      | some w, some h => some (w * (h * n))
      | _, _ => none

/-- The smallest conducting dimension (Wire.cpp 1384-1414). -/
def smallest (c : Conductor K) : Option K :=
  match c.type with
  | .litz => c.strand
  | .round => c.diameter
  | _ => match c.width, c.height with
    | some w, some h => some (min w h)
    | _, _ => none

/-- `nonConductingArea` (Wire.cpp 1430-1453) for the area already calculated. -/
def hollow (π : K) (c : Conductor K) (area skin : K) : Option K :=
  match conductorsOf c with
  | none => none
  | some n => match c.type with
    | .litz => c.strand.map fun d => π * (d / 2 - skin) ^ 2 * n
    | .round => c.diameter.map fun d => π * (d / 2 - skin) ^ 2 * n
    | _ => match c.width, c.height with
      | some w, some h => some ((w - skin * 2) * (h - skin * 2) * n * (area / (w * h)))
      | _, _ => none

/-- `calculate_effective_conducting_area` (Wire.cpp 1380-1466); `none` = throws. The depth of the skin at the frequency and temperature is
given; without dimensions below twice of it (so, not zero) no quotient is made. -/
def effectiveArea (π : K) (rect : K → K → K) (c : Conductor K) (frequency skin : K) : Option K :=
  match smallest c, conductingArea π rect c with
  | some d, some area =>
    if frequency = 0 then some area
    else if skin < d / 2 then
      match hollow π c area skin with
      | none => none
      | some inner => if area - inner < 0 then none else some (area - inner)
    else if area < 0 then none else some area
  | _, _ => none

/-- `get_conducting_area_rectangular_from_interpolator` (Wire.cpp 679-708) once there is an interpolator, `proportion` at the
theoretical area; without wires of the standard it is the theoretical area. -/
def rectangularArea (proportion : Option (K → K)) (w h : K) : K :=
  match proportion with
  | none => w * h
  | some p =>
    if p (w * h) * (w * h) ≤ 0 ∨ p (w * h) * (w * h) < w * h / 2 ∨ p (w * h) > 3 / 2 ∨ p (w * h) < 1 / 2 then w * h
    else p (w * h) * (w * h)

/-- `calculate_effective_current_density` (Wire.cpp 1468-1470). -/
def density (rms area : K) : K := rms / area

/-- `calculate_number_parallels_needed` of one current (Wire.cpp 1484-1500), for numbers an `int` holds. -/
def parallelsNeeded [FloorRing K] (rms area maximum : K) : ℤ := ⌈density rms area / maximum⌉

/-- `calculate_number_parallels_needed` of all operating points (Wire.cpp 1472-1482), with the current and the effective area at each. -/
def parallelsNeededAll [FloorRing K] (maximum : K) (points : List (K × K)) : ℤ :=
  points.foldl (fun n p => max n (parallelsNeeded p.1 p.2 maximum)) 0

end Verif.Wire
