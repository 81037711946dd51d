import Verif.Common.Round

/-!
# The gap for an inductance
(src/physical_models/MagnetizingInductance.cpp:922-1090)

Doubles are exact numbers.
-/

namespace Verif.Magnetizing.Gap

open Verif.Round (roundFloat)

variable {K : Type} [Field K] [LinearOrder K] [FloorRing K]

/-- `constants.residualGap` (src/Constants.h:13). -/
def residual : K := 5 / 1000000

/-- `constants.initialGapLengthForSearching` (src/Constants.h:72). -/
def initialStep : K := 1 / 1000

/-- The correction of the permeability by the bias (src/physical_models/MagnetizingInductance.cpp:971-988). `field` is the offset of the field strength
for a permeability and `permeability` that of the material at such an offset. -/
def settle (permeability field : K → K) : ℕ → K → K
  | 0, current => current
  | left + 1, current =>
    if |current - permeability (field current)| < 1 then current else settle permeability field left (permeability (field current))

/-- The permeability that the gap is calculated with (src/physical_models/MagnetizingInductance.cpp:964-988). `given` is whether the primary excitation
had a magnetizing current before the call: the one that line 967 sets is not in the copy that line 972 looks at. -/
def permeabilityUsed (permeability field : K → K) (unbiased : K) (given : Bool) : K :=
  if given then settle permeability field 10 unbiased else unbiased

/-- One step of the search (src/physical_models/MagnetizingInductance.cpp:1055-1068): the next length, step and direction. -/
def move (reluctance needed : K) (gap step : K) (increasing : Bool) : K × K × Bool :=
  if needed < reluctance ∧ increasing = true then (max residual (gap - max (step / 2) residual), max (step / 2) residual, false)
  else if needed > reluctance ∧ increasing = false then (gap + max (step / 2) residual, max (step / 2) residual, true)
  else if increasing then (gap + step, step, true)
  else (max residual (gap - step), step, false)

/-- The search of the gap (src/physical_models/MagnetizingInductance.cpp:1005-1072), for ground gaps and spacers: `reluctance` is that of the core with
a gap of a length. The number of distributed gaps, which changes along the search, is not modelled. -/
def search (reluctance : K → K) (needed : K) : ℕ → K → K → Bool → K
  | 0, gap, _, _ => gap
  | left + 1, gap, step, increasing =>
    if |needed - reluctance gap| / needed < 1 / 1000 then gap
    else search reluctance needed left (move (reluctance gap) needed gap step increasing).1
      (move (reluctance gap) needed gap step increasing).2.1 (move (reluctance gap) needed gap step increasing).2.2

/-- The length before it is rounded (src/physical_models/MagnetizingInductance.cpp:962, 995-1002). -/
def found (reluctance : K → K) (turns inductance : K) : K := search reluctance (turns ^ 2 / inductance) 100 residual initialStep true

/-- Models the length of `calculate_gapping_from_number_turns_and_inductance` (src/physical_models/MagnetizingInductance.cpp:922-1090) for ground gaps and
spacers. -/
def gapFor (reluctance : K → K) (turns inductance : K) (decimals : ℕ) : K := max residual (roundFloat (found reluctance turns inductance) decimals)

end Verif.Magnetizing.Gap
