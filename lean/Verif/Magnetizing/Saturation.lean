import Verif.Magnetizing.Turns

/-!
# Gaps and turns out of a saturation
(src/physical_models/MagnetizingInductance.cpp:785-865, 1092-1307)

Doubles are exact numbers; not a number and infinities are not expressed.
-/

namespace Verif.Magnetizing.Saturation

open Verif.Magnetizing (rootRound toInt)

variable {K : Type} [Field K] [LinearOrder K] [FloorRing K]

/-- What the gap and the turns are worked out for: the inductance wanted (`inductance`), the peak of the magnetizing current (`peak`), the flux density
wanted (`limit`), the effective area and length, the area and width of the first column, the permeability of the material and that of the vacuum. -/
structure Case (K : Type) where
  inductance : K
  peak : K
  limit : K
  area : K
  length : K
  columnArea : K
  columnWidth : K
  permeability : K
  vacuum : K

/-- The reluctance of the core (src/physical_models/MagnetizingInductance.cpp:838, 1254). -/
def coreReluctance (c : Case K) : K := c.length / (c.vacuum * c.permeability * c.area)

/-- The reluctance with a gap, without fringing (src/physical_models/MagnetizingInductance.cpp:841-844). -/
def classic (c : Case K) (gap : K) : K := coreReluctance c + gap / (c.vacuum * c.columnArea)

/-- The flux density of some turns on a reluctance (src/physical_models/MagnetizingInductance.cpp:851-852, 1133-1134). -/
def fluxDensity (c : Case K) (turns reluctance : K) : K := turns * c.peak / reluctance / c.area

/-- The first gap (src/physical_models/MagnetizingInductance.cpp:801-802). -/
def initialGap (c : Case K) : K := c.inductance * c.peak ^ 2 * c.vacuum / (c.area * c.limit ^ 2)

/-- The turns for a gap (src/physical_models/MagnetizingInductance.cpp:847-848). `none` is undefined behaviour. -/
def turnsAt (c : Case K) (gap : K) : Option ℤ := (toInt (rootRound (c.inductance * classic c gap))).map fun n : ℤ => max 1 n

/-- The loop that grows the gap (src/physical_models/MagnetizingInductance.cpp:808-864). Exceptions of `process_gap_or_throw` (830) are not expressed; the
core that is put together in it is otherwise only asked for what does not depend on the gap. -/
def grow (c : Case K) : ℕ → K → Option K
  | 0, gap => some gap
  | left + 1, gap => (turnsAt c gap).bind fun n : ℤ =>
    if fluxDensity c n (classic c gap) ≤ c.limit then some gap else grow c left (gap * (3 / 2))

/-- Models `calculate_gap_from_saturation_constraint` (src/physical_models/MagnetizingInductance.cpp:785-865). -/
def gapFromSaturation (c : Case K) : Option K := grow c 15 (initialGap c)

/-- Models `calculate_turns_for_gap` (src/physical_models/MagnetizingInductance.cpp:1092-1111). -/
def turnsForGap (c : Case K) (reluctance : K) : ℤ := max 1 (rootRound (c.inductance * reluctance) : ℤ)

/-- What is answered for gap and turns: `{-1.0, -1.0}` is `tooSmall`, a gap of `0.0` is `ungapped`. -/
inductive Answer (K : Type) where
  | tooSmall
  | ungapped (turns : ℤ)
  | gapped (gap : K) (turns : ℤ)
  deriving DecidableEq

/-- `ceil` of the turns that the flux density asks for (src/physical_models/MagnetizingInductance.cpp:1236-1237, 1296). -/
def ceilTurns (c : Case K) : ℤ := ⌈c.inductance * c.peak / (c.limit * c.area)⌉

/-- The reluctance that is left for the gap (src/physical_models/MagnetizingInductance.cpp:1241, 1257, 1298-1299). -/
def neededReluctance (c : Case K) (turns : ℤ) : K := (turns : K) * turns / c.inductance - coreReluctance c

/-- The last step (src/physical_models/MagnetizingInductance.cpp:1289-1306), from a gap whose reluctance with fringing is `reluctance`. -/
def finish (c : Case K) (minGap gap reluctance : K) : Answer K :=
  if fluxDensity c (turnsForGap c reluctance : ℤ) reluctance > c.limit * (105 / 100) then
    if neededReluctance c (ceilTurns c) > 0 then
      .gapped (min (4 / 10 * c.columnWidth) (max minGap (neededReluctance c (ceilTurns c) * c.vacuum * c.columnArea))) (ceilTurns c)
    else .gapped gap (ceilTurns c)
  else .gapped gap (turnsForGap c reluctance)

/-- Models `calculate_optimal_gap_and_turns` (src/physical_models/MagnetizingInductance.cpp:1208-1307). `reluctance` is that of the core with a ground gap
of a length, by the model of reluctance that is set; `minGap` the residual gap. The permeability is the one at the temperature and frequency of the first
operating point (1219-1224, 1249-1250). -/
def optimal (c : Case K) (minGap : K) (reluctance : K → K) : Answer K :=
  if neededReluctance c (max 1 (ceilTurns c)) ≤ 0 then .ungapped (turnsForGap c (coreReluctance c))
  else if neededReluctance c (max 1 (ceilTurns c)) * c.vacuum * c.columnArea > 4 / 10 * c.columnWidth then .tooSmall
  else finish c minGap (max minGap (neededReluctance c (max 1 (ceilTurns c)) * c.vacuum * c.columnArea))
    (reluctance (max minGap (neededReluctance c (max 1 (ceilTurns c)) * c.vacuum * c.columnArea)))

/-- Models `calculate_flux_density_peak_from_voltage` (src/physical_models/MagnetizingInductance.cpp:1139-1158). `omega` is twice pi times the frequency. -/
def fluxFromVoltage (area turns voltage omega : K) : K :=
  if turns ≤ 0 ∨ area ≤ 0 ∨ omega ≤ 0 then 0 else voltage / (turns * area * omega)

/-- Models `calculate_flux_density_peak_from_volt_seconds` (src/physical_models/MagnetizingInductance.cpp:1160-1173). -/
def fluxFromVoltSeconds (area turns voltSeconds : K) : K :=
  if turns ≤ 0 ∨ area ≤ 0 ∨ voltSeconds ≤ 0 then 0 else voltSeconds / (turns * area)

/-- Models `calculate_turns_from_volt_seconds_and_max_flux_density` (src/physical_models/MagnetizingInductance.cpp:1175-1186). -/
def turnsFromVoltSeconds (area voltSeconds limit : K) : ℤ :=
  if area ≤ 0 ∨ limit ≤ 0 ∨ voltSeconds ≤ 0 then 0 else max 1 ⌈voltSeconds / (limit * area)⌉

/-- Models `calculate_turns_from_voltage_and_max_flux_density` (src/physical_models/MagnetizingInductance.cpp:1188-1206). -/
def turnsFromVoltage (area voltage omega limit : K) : ℤ :=
  if area ≤ 0 ∨ omega ≤ 0 ∨ limit ≤ 0 then 1 else max 1 ⌈voltage / (area * omega * limit)⌉

end Verif.Magnetizing.Saturation
