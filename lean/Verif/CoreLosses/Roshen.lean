import Mathlib.Algebra.Order.Field.Basic
import Mathlib.Algebra.Order.Floor.Ring
import Mathlib.Data.Rat.Floor
import Verif.CoreLosses.Formula

/-!
# Core losses by Roshen's model (src/physical_models/CoreLosses.cpp 1806-2354)

The hysteresis loop, in exact arithmetic of any ordered field; `rt` is the square root.
-/

namespace Verif.CoreLosses

section
variable {K : Type} [Field K] [LinearOrder K] [IsStrictOrderedRing K]

/-- The coercive force and the parameters of the major loop. -/
structure Loop (K : Type) where
  coercive : K
  a : K
  b1 : K
  b2 : K
  deriving DecidableEq, Repr

/-- `get_major_loop_parameters` (CoreLosses.cpp 1968-1990): the field and flux density of saturation, the coercive force and the
remanence; none when something is divided by zero. -/
def loopOf (hs bs hc br : K) : Option (Loop K) :=
  if bs = 0 ∨ br = 0 ∨ hs = 0 ∨ hs = hc then none
  else
    let b1 := (hs / bs + hc / bs - 0 / br - hc / br) / (hs - 0)
    let a := (hc - br * b1 * hc) / br
    some ⟨hc, a, b1, (-hs + hc - -bs * a) / (-bs * |-hs + hc|)⟩

/-- `bh_curve_half_loop` (CoreLosses.cpp 2094-2096); none when it divides by zero. -/
def halfLoop (l : Loop K) (b field : K) : Option K :=
  if l.a + b * |field + l.coercive| = 0 then none else some ((field + l.coercive) / (l.a + b * |field + l.coercive|))

/-- The upper branch (CoreLosses.cpp 2100-2107). -/
def upper (l : Loop K) (field : K) : Option K := if field < -l.coercive then halfLoop l l.b2 field else halfLoop l l.b1 field

/-- The lower branch (CoreLosses.cpp 2108-2115). -/
def lower (l : Loop K) (field : K) : Option K :=
  (if field < l.coercive then halfLoop l l.b1 (-field) else halfLoop l l.b2 (-field)).map fun x => -x

/-- `A` (CoreLosses.cpp 2022). -/
def middle (l : Loop K) (peak : K) : K :=
  2 * peak * l.coercive * l.b1 * l.b2 + peak * l.a * (l.b1 + l.b2) - l.coercive * (l.b1 + l.b2) - l.a

/-- `C` (CoreLosses.cpp 2025). -/
def leading (l : Loop K) (peak : K) : K := -2 * peak * l.b1 * l.b2 + l.b1 + l.b2

/-- `D` (CoreLosses.cpp 2028-2041). -/
def discriminant (l : Loop K) (peak : K) : K :=
  4 * peak * peak * l.coercive * l.coercive * l.b1 * l.b1 * l.b2 * l.b2
  - 4 * peak * peak * l.coercive * l.a * l.b1 * l.b1 * l.b2
  + 4 * peak * peak * l.coercive * l.a * l.b1 * l.b2 * l.b2
  + peak * peak * l.a * l.a * l.b1 * l.b1
  - 2 * peak * peak * l.a * l.a * l.b1 * l.b2
  + peak * peak * l.a * l.a * l.b2 * l.b2
  - 4 * peak * l.coercive * l.coercive * l.b1 * l.b1 * l.b2
  - 4 * peak * l.coercive * l.coercive * l.b1 * l.b2 * l.b2
  + 2 * peak * l.coercive * l.a * l.b1 * l.b1
  - 2 * peak * l.coercive * l.a * l.b2 * l.b2
  + l.coercive * l.coercive * l.b1 * l.b1
  + 2 * l.coercive * l.coercive * l.b1 * l.b2
  + l.coercive * l.coercive * l.b2 * l.b2
  + l.a * l.a

/-- `u` (CoreLosses.cpp 2048-2056). -/
def rootOf (rt : K → K) (l : Loop K) (peak : K) : K :=
  if (middle l peak + rt (discriminant l peak)) / leading l peak ≤ 0 then (middle l peak - rt (discriminant l peak)) / leading l peak
  else (middle l peak + rt (discriminant l peak)) / leading l peak

/-- `roshen_compute_analytical_delta` (CoreLosses.cpp 2019-2071); none when it is not a finite number, as it is not whenever `C` is
zero (both roots are then a number other than zero or zero divided by it, and the infinite one gives infinite over infinite). -/
def delta (rt : K → K) (l : Loop K) (peak : K) : Option K :=
  if discriminant l peak < 0 then some 0
  else if leading l peak = 0 then none
  else if rootOf rt l peak ≤ 0 then some 0
  else if l.a + l.b2 * rootOf rt l peak = 0 ∨ l.a + l.b1 * (2 * l.coercive + rootOf rt l peak) = 0 then none
  else some ((-rootOf rt l peak / (l.a + l.b2 * rootOf rt l peak) -
    -(2 * l.coercive + rootOf rt l peak) / (l.a + l.b1 * (2 * l.coercive + rootOf rt l peak))) / 2)

/-- The values within the swing (CoreLosses.cpp 2148-2160); one that is not a number, or infinite, is not. -/
def kept (peak : K) (l : List (Option K)) : List K :=
  l.filterMap fun x => x.bind fun v => if v ≤ peak ∧ -peak ≤ v then some v else none

variable [FloorRing K]

/-- The fields looked at (CoreLosses.cpp 2089-2092), their sum being exact. -/
def fields (step hs : K) : List K :=
  if hs < 0 then [] else (List.range (⌊2 * hs / step⌋.toNat + 1)).map fun i : Nat => -hs + (i : K) * step

/-- `CoreLossesRoshenModel::get_bh_loop` (CoreLosses.cpp 2073-2163), from the major loop. -/
def bhLoop (rt : K → K) (step hs : K) (l : Loop K) (peak : K) : List K × List K :=
  match delta rt l peak with
  | none => ([], [])
  | some d => (kept peak ((fields step hs).map fun h => (upper l h).map fun x => x - d),
      kept peak ((fields step hs).map fun h => (lower l h).map fun x => x + d))

/-- `CoreLossesRoshenModel::get_hysteresis_losses_density` (CoreLosses.cpp 2186-2208): `step` is a tenth (Constants.h 74); the
exception of line 2204 cannot be reached, what is added being absolute values. `nan` stands for a major loop that divides by zero,
the outcome of which is not looked into. -/
def hysteresis (rt : K → K) (step hs bs hc br f peak : K) : Res K :=
  match loopOf hs bs hc br with
  | none => .nan
  | some l => .ok ((List.zipWith (fun x y => |x - y| * step) (bhLoop rt step hs l peak).1 (bhLoop rt step hs l peak).2).sum * f)

end

/-! ## Eddy currents, and the sum -/

/-- The resistivity of get_roshen_parameters (CoreLosses.cpp 1907-1942): with coefficients (offset, of temperature, of flux density, of
frequency) refused unless positive, and without that of the material. -/
noncomputable def roshenResistivity (coefficients : Option (ℝ × ℝ × ℝ × ℝ)) (ofMaterial temperature peak f : ℝ) : Res ℝ :=
  match coefficients with
  | some (c0, ct, cb, cf) =>
    if c0 + ct * (temperature - 25) + cb * peak + cf * f ≤ 0 then .throws .calculationError
    else .ok (c0 + ct * (temperature - 25) + cb * peak + cf * f)
  | none => .ok ofMaterial

/-- `get_eddy_current_losses_density` (CoreLosses.cpp 2236-2285), of the points of one period: the area is that of the first column. -/
noncomputable def eddy (area resistivity f : ℝ) (points : List (ℝ × ℝ)) : Res ℝ :=
  (overSteps (fun dt db => .ok ((db / dt) ^ 2 * dt)) points).bind fun s =>
    if resistivity = 0 then .nan else .ok (area / 8 / Real.pi / resistivity * f * s)

/-- `get_excess_eddy_current_losses_density` (CoreLosses.cpp 2312-2354); the square root of a negative number is not one. -/
noncomputable def excess (coefficient resistivity f : ℝ) (points : List (ℝ × ℝ)) : Res ℝ :=
  (overSteps (fun dt db => (cpow (|db| / dt) (3 / 2)).bind fun x => .ok (x * dt)) points).bind fun s =>
    if resistivity = 0 ∨ coefficient / resistivity < 0 then .nan else .ok (Real.sqrt (coefficient / resistivity) * f * s)

/-- What `CoreLossesRoshenModel::get_core_losses` reports. -/
structure RoshenOutput where
  losses : ℝ
  eddy : ℝ
  hysteresis : ℝ
  volumetric : ℝ

/-- `CoreLossesRoshenModel::get_core_losses` (CoreLosses.cpp 1840-1866) from the losses by volume of each kind. -/
noncomputable def roshenOutput (volume hyst edd exc : ℝ) : RoshenOutput :=
  ⟨(hyst + edd + exc) * volume, (edd + exc) * volume, hyst * volume, hyst + edd + exc⟩

/-- The correction of the bias (CoreLosses.cpp 283-291) on that output: only the sum is. -/
noncomputable def roshenCorrected (o : RoshenOutput) (factor : ℝ) : RoshenOutput :=
  if factor > 1 then { o with losses := o.losses * factor, volumetric := o.volumetric * factor } else o

/-- The losses by volume of each function: those of a core (CoreLosses.cpp 1846-1853, 1863), with its area, and those asked for alone
(1868-1892), with the area of a ring. `exc` are the excess ones when there are coefficients. -/
noncomputable def roshenVolumetric (hyst : Res ℝ) (area resistivity f : ℝ) (points : List (ℝ × ℝ)) (coefficient : Option ℝ) : Res ℝ :=
  hyst.bind fun h => (eddy area resistivity f points).bind fun e =>
    match coefficient with
    | none => .ok (h + e + 0)
    | some c => (excess c resistivity f points).bind fun x => .ok (h + e + x)

end Verif.CoreLosses
