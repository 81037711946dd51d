import Mathlib.Analysis.SpecialFunctions.Pow.Real
import Verif.CoreLosses.Formula

/-!
# Series resistance of a core, and losses by loss factor (src/physical_models/CoreLosses.cpp 911-937, 2617-2765)
-/

namespace Verif.CoreLosses

/-- The turns of line 924 of CoreLosses.cpp, truncated from the square root. -/
noncomputable def seriesTurns (inductance reluctance : ℝ) : ℕ := ⌊Real.sqrt (inductance * reluctance)⌋₊

/-- The amplitude of the flux density of a sinusoidal current of one ampere rms through those turns (CoreLosses.cpp 924-930, and
MagneticField.cpp 35-66). -/
noncomputable def seriesFlux (inductance reluctance area : ℝ) : ℝ :=
  Real.sqrt 2 * (seriesTurns inductance reluctance : ℝ) / reluctance / area

/-- `CoreLossesModel::get_core_losses_series_resistance` (CoreLosses.cpp 911-937): `losses` are those of the core at an amplitude of a
sinusoidal flux density. -/
noncomputable def seriesResistance (losses : ℝ → ℝ) (inductance reluctance area : ℝ) : ℝ :=
  losses (seriesFlux inductance reluctance area) / 1 ^ 2

/-- `calculate_magnetizing_inductance_from_excitation` (CoreLosses.cpp 2617-2630): no current divides by zero, and what is not a finite
number has no conversion to an integer. -/
noncomputable def inductanceOf (fluxPeak currentPeak reluctance area : ℝ) : Res ℝ :=
  if currentPeak = 0 then .ub
  else if reluctance = 0 then .nan
  else .ok ((⌈fluxPeak / currentPeak * reluctance * area⌉ : ℝ) * ⌈fluxPeak / currentPeak * reluctance * area⌉ / reluctance)

/-- The resistance (CoreLosses.cpp 2752-2764) from the loss factor at the frequency and the initial permeability. -/
noncomputable def factorResistance (factor permeability f inductance : ℝ) : Res ℝ :=
  if factor < 0 then .throws .calculationError else .ok (factor * permeability * 2 * Real.pi * f * inductance)

/-- `CoreLossesLossFactorModel::get_core_losses` (CoreLosses.cpp 2632-2693): losses, and losses by volume. -/
noncomputable def factorLosses (factor permeability f fluxPeak currentPeak rms reluctance area volume : ℝ) : Res (ℝ × ℝ) :=
  (inductanceOf fluxPeak currentPeak reluctance area).bind fun l => (factorResistance factor permeability f l).bind fun r =>
    if volume = 0 then .nan else .ok (r * rms ^ 2, r * rms ^ 2 / volume)

end Verif.CoreLosses
