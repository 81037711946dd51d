import Mathlib.Analysis.SpecialFunctions.Pow.Real
import Verif.CoreData.Model

/-!
# Temperature of the core, and the filters by size and temperature

Sources: src/physical_models/CoreTemperature.cpp, src/advisers/MagneticFilterGeometry.cpp 119-202, src/advisers/MagneticFilterInternal.h 378-385 and
src/support/Utils.cpp 178-204, all in /repo.  Numbers are exact; a value that is not a finite number is an outcome of its own.
-/

namespace Verif.CoreTemp

/-- What a function answers. -/
inductive Out (α : Type)
  | ok (a : α)
  | throws
  | undefined
  | notFinite

/-- One after the other. -/
def Out.bind {α β : Type} : Out α → (α → Out β) → Out β
  | .ok a, f => f a
  | .throws, _ => .throws
  | .undefined, _ => .undefined
  | .notFinite, _ => .notFinite

/-! ## The models -/

/-- The processed description of a core: effective volume, outer dimensions, areas of its columns and of its winding windows. -/
structure Core where
  volume : ℝ
  width : ℝ
  height : ℝ
  depth : ℝ
  columns : List ℝ
  windows : List (Option ℝ)

/-- The five models (src/physical_models/CoreTemperature.cpp 20-40). -/
inductive Model
  | kazimierczuk
  | maniktala
  | tdk
  | dixon
  | amidon
  deriving DecidableEq

/-- `pow` with an exponent that is neither zero nor an integer. -/
noncomputable def power (x y : ℝ) : Out ℝ :=
  if 0 < x then .ok (x ^ y) else if x = 0 ∧ 0 < y then .ok 0 else .notFinite

/-- A division of doubles. -/
noncomputable def ratio (x y : ℝ) : Out ℝ := if y = 0 then .notFinite else .ok (x / y)

/-- The surface of the core (src/physical_models/CoreTemperature.cpp 65 and 123). -/
def surface (c : Core) : ℝ := 2 * c.depth * c.height + 2 * c.height * c.width + 2 * c.width * c.depth

/-- The product of areas of Dixon (src/physical_models/CoreTemperature.cpp 100-102): the first of no columns or windows is undefined behaviour, a window
without area throws. -/
def areaProduct (c : Core) : Out ℝ :=
  match c.columns, c.windows with
  | [], _ => .undefined
  | _ :: _, [] => .undefined
  | _ :: _, none :: _ => .throws
  | a :: _, some w :: _ => .ok (a * w * 100000000)

/-- The rise over the ambient temperature (src/physical_models/CoreTemperature.cpp 45-47, 62-66, 82-84, 100-104 and 120-124). -/
noncomputable def rise (m : Model) (c : Core) (losses : ℝ) : Out ℝ :=
  match m with
  | .maniktala => (power (c.volume * 1000000) (-0.54)).bind fun r => .ok (losses * (53 * r))
  | .tdk => if 0 < c.volume * 1000000 then .ok (losses * (1 / Real.sqrt (c.volume * 1000000))) else .notFinite
  | .dixon => (areaProduct c).bind fun a => (power a (-0.37)).bind fun r => .ok (losses * (23 * r))
  | .kazimierczuk => (ratio (0.1 * losses) (surface c)).bind fun x => power x 0.826
  | .amidon => (ratio (losses * 1000) (surface c * 10000)).bind fun x => power x 0.833

/-- What is answered: thermal resistance, initial and maximum temperatures. -/
structure Output where
  resistance : ℝ
  initial : ℝ
  maximum : ℝ

/-- The output from a rise (src/physical_models/CoreTemperature.cpp 48-53 and the same lines of the other models). -/
noncomputable def output (losses ambient r : ℝ) : Output :=
  { resistance := if 0 < losses then (ambient + r - ambient) / losses else 0
    initial := ambient
    maximum := ambient + r }

/-- `get_core_temperature` of each model; `none`: the core has not been processed. -/
noncomputable def temperature (m : Model) (c : Option Core) (losses ambient : ℝ) : Out Output :=
  match c with
  | none => .throws
  | some c => (rise m c losses).bind fun r => .ok (output losses ambient r)

/-! ## The filters -/

/-- The filters that are looked at here. -/
inductive Filter
  | losses
  | lossesNoProximity
  | volume
  | area
  | height
  | temperatureRise
  | lossesTimesVolume
  | volumeTimesTemperature
  | lossesTimesVolumeTimesTemperature
  | noProximityTimesVolume
  | noProximityTimesVolumeTimesTemperature
  deriving DecidableEq, Repr

section Filters

variable {K : Type} [Field K] [LinearOrder K] [IsStrictOrderedRing K]

/-- A magnetic with its inputs, as far as these filters go: reference, dimensions, mean losses of both kinds, rise for some losses, and the ambient
temperature: the largest of the inputs (`Verif.Maxima.temperature`) or that by default. -/
structure Part (K : Type) where
  reference : Option String
  width : K
  height : K
  depth : K
  losses : K
  noProximity : K
  rise : K → K
  ambient : K

/-- `Magnetic::get_reference` (src/constructive_models/Magnetic.cpp 44-51). -/
def name (p : Part K) : String := p.reference.getD "Custom component made with OpenMagnetic"

/-- The scores that are kept, by filter and reference (src/support/Utils.cpp 178-204). -/
def Memo (K : Type) := Filter → String → Option K

/-- Nothing kept: `clear_scoring` (src/support/Utils.cpp 159-160). -/
def cleared : Memo K := fun _ _ => none

/-- `add_scoring` (src/support/Utils.cpp 178-194) of a number. -/
def keep (memo : Memo K) (f : Filter) (n : String) (v : K) : Memo K :=
  fun g m => if v ≠ -1 ∧ g = f ∧ m = n then some v else memo g m

/-- `cached_or_compute_scoring` (src/advisers/MagneticFilterInternal.h 378-385). -/
def recall (memo : Memo K) (p : Part K) (f : Filter) (own : K) : K := (memo f (name p)).getD own

/-- `MagneticFilterVolume` (src/advisers/MagneticFilterGeometry.cpp 133-137). -/
def volume (p : Part K) : K := p.width * p.height * p.depth

/-- `MagneticFilterTemperatureRise` (src/advisers/MagneticFilterGeometry.cpp 151-168). -/
def temperatureScore (memo : Memo K) (p : Part K) : K := p.ambient + p.rise (recall memo p .lossesNoProximity p.noProximity)

/-- The scores of the filters (src/advisers/MagneticFilterGeometry.cpp 133-202). All of these accept every magnetic, but for those by losses, whose
acceptance is not modelled here. -/
def score (memo : Memo K) (p : Part K) : Filter → K
  | .losses => p.losses
  | .lossesNoProximity => p.noProximity
  | .volume => volume p
  | .area => p.width * p.depth
  | .height => p.height
  | .temperatureRise => temperatureScore memo p
  | .lossesTimesVolume => recall memo p .losses p.losses * volume p
  | .volumeTimesTemperature => volume p * recall memo p .temperatureRise (temperatureScore memo p)
  | .lossesTimesVolumeTimesTemperature =>
    recall memo p .losses p.losses * volume p * recall memo p .temperatureRise (temperatureScore memo p)
  | .noProximityTimesVolume => recall memo p .lossesNoProximity p.noProximity * volume p
  | .noProximityTimesVolumeTimesTemperature =>
    recall memo p .lossesNoProximity p.noProximity * volume p * recall memo p .temperatureRise (temperatureScore memo p)

/-- Magnetics and filters one after the other, each score being kept, as the advisers do (src/advisers/MagneticAdviser.cpp 1004-1016 and
src/advisers/CoilAdviser.cpp 300-310). -/
def run (memo : Memo K) : List (Part K × Filter) → List K
  | [] => []
  | (p, f) :: rest => score memo p f :: run (keep memo f (name p) (score memo p f)) rest

end Filters

/-! ## The filter by maximum dimensions -/

/-- `MagneticFilterMaximumDimensions` (src/advisers/MagneticFilterGeometry.cpp 119-131): whether it is accepted, and the square of the score; the
dimensions that are asked for are read with `.value()`. -/
def maximumDimensions (s : CoreData.Size) : Option CoreData.Maximum → Out (Bool × ℚ)
  | none => .ok (true, 0)
  | some m =>
    match m.width, m.height, m.depth with
    | some w, some h, some d => .ok (CoreData.fits s m true, (w - s.width) ^ 2 + (h - s.height) ^ 2 + (d - s.depth) ^ 2)
    | _, _, _ => .throws

end Verif.CoreTemp
