import Mathlib.Algebra.Order.Field.Basic
import Mathlib.Algebra.Order.Floor.Ring
import Mathlib.Data.Rat.Floor
import Verif.CoreLosses.Select

/-!
# Core losses: frequency, amplitude and points used (src/processors/Inputs.cpp, src/physical_models/CoreLosses.cpp)
-/

namespace Verif.CoreLosses

variable {K : Type} [Field K] [LinearOrder K]

/-- What `get_switching_frequency` reads of the current: the number of points of its waveform, if it has one, and frequencies and
amplitudes of its harmonics, if it has them. -/
structure Current (K : Type) where
  points : Option ℕ
  harmonics : Option (List (K × K))

/-- The loop over the harmonics after the main one (Inputs.cpp 3299-3306): the amplitude and the frequency found so far. -/
def strongest (main : K) : List (K × K) → K × K → K × K
  | [], best => best
  | h :: l, best => strongest main l (if h.2 > main / 100 ∧ h.2 > best.1 then (h.2, h.1) else best)

/-- `Inputs::get_switching_frequency` (Inputs.cpp 3288-3315); `setting` is the number of sampled points of line 3293. Fewer than two
harmonics are read out of bounds (3296). -/
def switching (setting : ℕ) (f : K) (current : Option (Current K)) : Res K :=
  if f < 400 then
    match current with
    | some ⟨some n, some hs⟩ =>
      if n > setting then
        match hs with
        | _ :: m :: l => .ok (strongest m.2 l (0, m.1)).2
        | _ => .ub
      else .ok f
    | _ => .ok f
  else .ok f

/-- The harmonic of a frequency, from the second on, unless the second has it (Inputs.cpp 3336-3345 and 3369-3378). -/
def harmonicAt (harmonics : Option (List (K × K))) (f : K) : Option K :=
  match harmonics with
  | some (_ :: m :: l) => if m.1 ≠ f then ((m :: l).find? fun h => h.1 = f).map Prod.snd else none
  | _ => none

/-- `Inputs::get_magnetic_flux_density_peak` (Inputs.cpp 3317-3348), of the harmonics of the flux density, calculated from its
waveform if it has none (3320-3334), and the peak of its processed data. -/
def fluxPeak (harmonics : Option (List (K × K))) (f peak : K) : K := (harmonicAt harmonics f).getD peak

/-- `Inputs::get_magnetic_flux_density_peak_to_peak` (Inputs.cpp 3350-3381). -/
def fluxPeakToPeak (harmonics : Option (List (K × K))) (f peakToPeak : K) : K :=
  match harmonicAt harmonics f with
  | some a => a * 2
  | none => peakToPeak

/-- The peak, the offset and the peak to peak of a flux density of which the largest and the smallest value are known
(WaveformProcessor.cpp 944-960), with the offset of triangular, sinusoidal and custom ones (126-162). -/
def processed (largest smallest : K) : K × K × K := (max largest (-smallest), (largest + smallest) / 2, largest - smallest)

/-- The absolute value of the peak less the offset, the amplitude the losses depend on (CoreLosses.cpp 879-883). -/
def amplitude (largest smallest : K) : K := |(processed largest smallest).1 - (processed largest smallest).2.1|

variable [FloorRing K]

/-- `round` of what is not negative. -/
def roundUp (x : K) : ℕ := ⌊x + 1 / 2⌋.toNat

/-- The points of a single period out of some (CoreLosses.cpp 1054-1061, 1444-1451 and 1557-1564): their number is divided by that of
periods when they last more than one and a half. Reading beyond the points is undefined. -/
def onePeriod (f : K) (times : List K) (n : ℕ) : Res ℕ :=
  if n > 1 then
    match times[n - 1]?, times[0]? with
    | some b, some a => if b - a > 3 / 2 * (1 / f) then .ok (max 2 (roundUp (n / ((b - a) * f)))) else .ok n
    | _, _ => .ub
  else .ok n

/-- The points over which the loop of iGSE goes (CoreLosses.cpp 1042-1063), for the frequency of switching and that of the
excitation; none at all makes the bound of the loop overflow. -/
def igsePoints (f excitation : K) (times : List K) : Res ℕ :=
  (onePeriod f times
    (if f / excitation > 1 then max 2 (roundUp (times.length / (f / excitation))) else times.length)).bind fun n =>
    if n = 0 ∨ n > times.length then .ub else .ok n

/-- The same for the models of equivalent frequency (CoreLosses.cpp 1443-1453 and 1556-1566). -/
def equivalentPoints (f : K) (times : List K) : Res ℕ :=
  (onePeriod f times times.length).bind fun n => if n = 0 ∨ n > times.length then .ub else .ok n

/-- The same for NSE (CoreLosses.cpp 1683): all of them. -/
def nsePoints (times : List K) : Res ℕ := if times.length = 0 then .ub else .ok times.length

end Verif.CoreLosses
