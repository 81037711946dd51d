import Mathlib.Analysis.SpecialFunctions.Pow.Real
import Mathlib.Analysis.SpecialFunctions.Trigonometric.Basic
import Verif.CoreLosses.Select

/-!
# Core losses: the formulas (src/physical_models/CoreLosses.cpp, CoreLosses.h)

Losses by volume or by mass of the models, over the reals. `pow` of C is `cpow`; results that are not finite are `nan`.
-/

namespace Verif.CoreLosses

open scoped Classical in
/-- `pow` of C: not a finite number for zero to a negative power and for a negative number to a power that is not an integer. -/
noncomputable def cpow (x y : ℝ) : Res ℝ :=
  if 0 < x ∨ (x = 0 ∧ 0 ≤ y) ∨ (x < 0 ∧ ∃ n : ℤ, y = n) then .ok (x ^ y) else .nan

/-- What the losses by volume depend on: the frequency of switching (`Inputs::get_switching_frequency`), the peak and the
offset of the processed flux density, the peak and the peak to peak at the frequency of switching
(`Inputs::get_magnetic_flux_density_peak` and `…_peak_to_peak`), and the instants and values of the waveform once
`Inputs::standardize_waveform` has been applied and the points beyond one period are left out (CoreLosses.cpp 1017-1061). -/
structure Excitation where
  f : ℝ
  peak : ℝ
  offset : ℝ
  peakAt : ℝ
  peakToPeak : ℝ
  points : List (ℝ × ℝ)

/-- The amplitude of the flux density, of its processed data (CoreLosses.cpp 879). -/
noncomputable def Excitation.main (e : Excitation) : ℝ := e.peak - e.offset

/-- The amplitude at the frequency of switching (CoreLosses.cpp 880, 883). -/
noncomputable def Excitation.ac (e : Excitation) : ℝ := |e.peakAt - e.offset|

/-- The polynomial of the temperature (CoreLosses.h 130), when there are the three coefficients. -/
noncomputable def scale (d : Datum ℝ) (temperature : ℝ) : Option ℝ :=
  match d.ct0, d.ct1, d.ct2 with
  | some a, some b, some c => some (c * temperature ^ 2 - b * temperature + a)
  | _, _, _ => none

/-- `apply_temperature_coefficients` (CoreLosses.h 122-136). -/
noncomputable def applyTemperature (losses : ℝ) (d : Datum ℝ) (temperature : ℝ) : ℝ :=
  match scale d temperature with
  | some s => if s > 0 then losses * s else losses
  | none => losses

/-- The product of all the models with exponent of the amplitude: `head` times the amplitude to the exponent, of which all but
a square is that of `main` when it is over two (CoreLosses.cpp 901-906, 1470-1475, 1582-1587, 1784-1789, 2433-2438). -/
noncomputable def amplitudes (head main ac beta : ℝ) : Res ℝ :=
  if beta > 2 then (cpow main (beta - 2)).bind fun b => .ok (head * b * ac ^ 2)
  else (cpow ac beta).bind fun b => .ok (head * b)

/-- `CoreLossesSteinmetzModel::get_core_volumetric_losses` (CoreLosses.cpp 871-909), with the coefficients of the frequency. -/
noncomputable def steinmetz (d : Datum ℝ) (e : Excitation) (temperature : ℝ) : Res ℝ :=
  (cpow e.f d.alpha).bind fun a => (amplitudes (d.k * a) |e.main| e.ac d.beta).bind fun p =>
    .ok (applyTemperature p d temperature)

/-- The intervals between consecutive points, and the changes (CoreLosses.cpp 1063-1073). -/
noncomputable def steps : List (ℝ × ℝ) → List (ℝ × ℝ)
  | p :: q :: l => (q.1 - p.1, q.2 - p.2) :: steps (q :: l)
  | _ => []

/-- The sum of a quantity of each interval, not finite when an interval is null; a waveform without points reads out of bounds,
its number of points less one being the largest of the type (CoreLosses.cpp 1063). -/
noncomputable def overSteps (g : ℝ → ℝ → Res ℝ) (points : List (ℝ × ℝ)) : Res ℝ :=
  if points = [] then .ub
  else (steps points).foldr (fun s r => if s.1 = 0 then .nan else (g s.1 s.2).bind fun a => r.bind fun b => .ok (a + b)) (.ok 0)

/-- The integral of the absolute slope to a power (CoreLosses.cpp 1070-1072, 1695-1697). -/
noncomputable def slopes (alpha : ℝ) (points : List (ℝ × ℝ)) : Res ℝ :=
  overSteps (fun dt db => (cpow |db / dt| alpha).bind fun a => .ok (a * dt)) points

/-- The sum over the angles (CoreLosses.cpp 963-972 and 1613-1621), but for the factor of line 970. -/
noncomputable def angles (setting : ℕ) (alpha : ℝ) : ℝ :=
  ∑ n ∈ Finset.range setting, |Real.cos (n * 2 * Real.pi / setting)| ^ alpha * 2 * Real.pi / setting

/-- `CoreLossesIGSEModel::get_ki` (CoreLosses.cpp 959-976); an exponent that is positive and some sampled points are needed, or
else the quotient is not modelled. -/
noncomputable def ki (setting : ℕ) (d : Datum ℝ) : ℝ :=
  d.k / ((2 * Real.pi) ^ (d.alpha - 1) * (2 ^ (d.beta - d.alpha) * angles setting d.alpha))

/-- `CoreLossesNSEModel::get_kn` (CoreLosses.cpp 1610-1625), as `ki`. -/
noncomputable def kn (setting : ℕ) (d : Datum ℝ) : ℝ := d.k / ((2 * Real.pi) ^ (d.alpha - 1) * angles setting d.alpha)

/-- `CoreLossesIGSEModel::get_core_volumetric_losses` (CoreLosses.cpp 1013-1078), from the coefficients of the frequency. -/
noncomputable def igse (setting : ℕ) (d : Datum ℝ) (e : Excitation) (temperature : ℝ) : Res ℝ :=
  (slopes d.alpha e.points).bind fun s => (cpow e.peakToPeak (d.beta - d.alpha)).bind fun b =>
    .ok (applyTemperature (ki setting d * b * e.f * s) d temperature)

/-- `CoreLossesciGSEModel::get_core_volumetric_losses` (CoreLosses.cpp 1274-1288): as no coefficients are ever found (1182-1199),
that of a new iGSE model, which ignores the coefficients set by `set_steinmetz_datum` (`own`) and takes those of the material. -/
noncomputable def cigse (setting : ℕ) (_own : Option (Datum ℝ)) (ofMaterial : Datum ℝ) (e : Excitation) (temperature : ℝ) : Res ℝ :=
  igse setting ofMaterial e temperature

/-- The coefficients the other models of the family take: those set, or else those of the material (CoreLosses.cpp 888-894). -/
def datumUsed (own : Option (Datum ℝ)) (ofMaterial : Datum ℝ) : Datum ℝ := own.getD ofMaterial

/-- `CoreLossesNSEModel::get_core_volumetric_losses` (CoreLosses.cpp 1652-1702). -/
noncomputable def nse (setting : ℕ) (d : Datum ℝ) (e : Excitation) (temperature : ℝ) : Res ℝ :=
  (slopes d.alpha e.points).bind fun s => (cpow e.main (d.beta - d.alpha)).bind fun b =>
    .ok (applyTemperature (kn setting d * b * e.f * s) d temperature)

/-- What the models of equivalent frequency do with it (CoreLosses.cpp 1469-1477 and 1581-1589). -/
noncomputable def atEquivalent (d : Datum ℝ) (e : Excitation) (temperature equivalent : ℝ) : Res ℝ :=
  (cpow equivalent (d.alpha - 1)).bind fun a => (amplitudes (d.k * e.f * a) e.main e.ac d.beta).bind fun p =>
    .ok (applyTemperature p d temperature)

/-- `CoreLossesAlbachModel::get_core_volumetric_losses` (CoreLosses.cpp 1405-1478); a null swing divides by zero (1461). -/
noncomputable def albach (d : Datum ℝ) (e : Excitation) (temperature : ℝ) : Res ℝ :=
  (overSteps (fun dt db => if e.peakToPeak = 0 then .nan else .ok ((db / e.peakToPeak) ^ 2 / dt)) e.points).bind fun s =>
    atEquivalent d e temperature (2 / Real.pi ^ 2 * s)

/-- `CoreLossesMSEModel::get_core_volumetric_losses` (CoreLosses.cpp 1518-1590); a null swing divides by zero (1579). -/
noncomputable def mse (d : Datum ℝ) (e : Excitation) (temperature : ℝ) : Res ℝ :=
  (overSteps (fun dt db => .ok ((db / dt) ^ 2 * dt)) e.points).bind fun s =>
    if e.peakToPeak = 0 then .nan else atEquivalent d e temperature (2 / Real.pi ^ 2 / e.peakToPeak ^ 2 * s)

/-- `get_plateau_duty_cycle` (CoreLosses.cpp 1704-1714); a waveform without points reads nothing, one with a null maximum compares
with a quotient that is not a number, and counts no points, unless a value is not null, when it is infinite. -/
noncomputable def plateauDuty (data : List ℝ) : Res ℝ :=
  match data.max? with
  | none => .ub
  | some m =>
    let plateau := (data.filter fun x => m ≠ 0 ∧ |m - x| / m < 2 / 100).length
    .ok ((data.length / 2 - plateau) / data.length)

/-- `CoreLossesBargModel::get_core_volumetric_losses` (CoreLosses.cpp 1749-1804); the spline of lines 1792-1801 is a parameter. -/
noncomputable def barg (spline : ℝ → ℝ) (d : Datum ℝ) (e : Excitation) (temperature : ℝ) : Res ℝ :=
  (plateauDuty (e.points.map Prod.snd)).bind fun duty => (cpow e.f d.alpha).bind fun a =>
    (amplitudes (Real.pi / 4 * d.k * a) e.main e.ac d.beta).bind fun p =>
      .ok (max 1 (spline (max (1 / 10) (min duty (1 / 2)))) * applyTemperature p d temperature)

/-! ## Formulas of the manufacturers -/

/-- `CoreLossesProprietaryModel::get_core_volumetric_losses` for Micrometals (CoreLosses.cpp 2419-2426); a null amplitude divides by
zero: the denominator is infinite when the three coefficients are not negative and the first is positive, which gives no
losses, and the other cases are not modelled. -/
noncomputable def micrometals (a b c d f ac : ℝ) : Res ℝ :=
  if ac = 0 then (if 0 < a ∧ 0 ≤ b ∧ 0 ≤ c then .ok 0 else .nan)
  else if a / ac ^ 3 + b / ac ^ (23 / 10 : ℝ) + c / ac ^ (165 / 100 : ℝ) = 0 then .nan
  else .ok (f / (a / ac ^ 3 + b / ac ^ (23 / 10 : ℝ) + c / ac ^ (165 / 100 : ℝ)) + d * ac ^ 2 * f ^ 2)

/-- The same for Magnetics (CoreLosses.cpp 2428-2439). -/
noncomputable def magnetics (a b c f main ac : ℝ) : Res ℝ :=
  (cpow f c).bind fun p => amplitudes (a * p) main ac b

/-- The same for Poco (CoreLosses.cpp 2440-2446). -/
noncomputable def poco (a b c f ac : ℝ) : Res ℝ :=
  (cpow (ac * 10) b).bind fun p => .ok (1000 * (a * p * f / 1000 + c * (ac * 10 * f / 1000) ^ 2))

/-- The same for TDG (CoreLosses.cpp 2448-2455). -/
noncomputable def tdg (a b c d f ac : ℝ) : Res ℝ :=
  (cpow (ac * 10) a).bind fun p => (cpow (f / 1000) d).bind fun q => .ok (1000 * p * (b * f / 1000 + c * q))

/-- `CoreLossesProprietaryModel::get_core_mass_losses`, for Magnetec (CoreLosses.cpp 2508-2527). -/
noncomputable def magnetec (f main : ℝ) : Res ℝ :=
  (cpow (f / 100000) (18 / 10)).bind fun p => .ok (80 * p * (main * 2 / (3 / 10)) ^ 2)

/-! ## Flux density and frequency from losses -/

/-- `CoreLossesSteinmetzModel::get_magnetic_flux_density_from_core_losses` (CoreLosses.cpp 2588-2615), the amplitude it sets. -/
noncomputable def fluxFromLosses (d : Datum ℝ) (f temperature volume losses : ℝ) : Res ℝ :=
  (cpow f d.alpha).bind fun a =>
    if volume = 0 ∨ d.k * a = 0 ∨ d.beta = 0 then .nan
    else cpow (losses / volume / applyTemperature 1 d temperature / (d.k * a)) (1 / d.beta)

/-- `get_magnetic_flux_density_from_volumetric_losses` (CoreLosses.h 108-120). -/
noncomputable def fluxFromVolumetric (d : Datum ℝ) (losses f temperature : ℝ) : Res ℝ :=
  (cpow f d.alpha).bind fun a =>
    if d.k = 0 ∨ a = 0 ∨ (scale d temperature).getD 1 = 0 ∨ d.beta = 0 then .nan
    else cpow (losses / d.k / a / (scale d temperature).getD 1) (1 / d.beta)

/-- The frequency of one turn of the loop of `get_frequency_from_core_losses` (CoreLosses.cpp 2554-2564); exponents that are not
positive, which make quotients by zero vanish, are not modelled. -/
noncomputable def frequencyOf (d : Datum ℝ) (main temperature volume losses : ℝ) : Res ℝ :=
  match cpow main d.beta with
  | .ok b =>
    if volume = 0 ∨ d.k * b = 0 ∨ d.alpha = 0 then .throws .nanResult
    else match cpow (losses / volume / applyTemperature 1 d temperature / (d.k * b)) (1 / d.alpha) with
      | .ok f => .ok f
      | _ => .throws .nanResult
  | _ => .throws .nanResult

/-- The loop (CoreLosses.cpp 2553-2583), with the turns left before it gives up (`fuel`), the coefficients and the frequency found
last; `look` gives the coefficients of a frequency. -/
noncomputable def frequencyLoop (look : ℝ → Res (Datum ℝ)) (main temperature volume losses : ℝ) :
    ℕ → Datum ℝ → ℝ → Res ℝ
  | 0, _, _ => .throws .diverged
  | fuel + 1, d, previous =>
    (frequencyOf d main temperature volume losses).bind fun f => (look f).bind fun d' =>
      if d'.alpha = d.alpha then .ok f
      else if previous > 0 ∧ |f - previous| / previous < 1 / 1000000 then .ok f
      else frequencyLoop look main temperature volume losses fuel d' f

/-- `CoreLossesSteinmetzModel::get_frequency_from_core_losses` (CoreLosses.cpp 2529-2586): at most 50 turns, from 100 kHz. -/
noncomputable def frequencyFromLosses (look : ℝ → Res (Datum ℝ)) (main temperature volume losses : ℝ) : Res ℝ :=
  (look 100000).bind fun d => frequencyLoop look main temperature volume losses 50 d 100000

/-- The positive root for Micrometals (CoreLosses.cpp 2781-2791, 2824); the peak is not diminished by the offset. A null quadratic
coefficient divides zero by zero, and that is not less than zero (line 2824): the result is not a number. -/
noncomputable def micrometalsFrequency (a b c d peak volumetric : ℝ) : Res ℝ :=
  if peak ≤ 0 then .nan
  else if a / peak ^ 3 + b / peak ^ (23 / 10 : ℝ) + c / peak ^ (165 / 100 : ℝ) = 0 then .nan
  else
    let qa := d * peak ^ 2
    let qb := 1 / (a / peak ^ 3 + b / peak ^ (23 / 10 : ℝ) + c / peak ^ (165 / 100 : ℝ))
    if qa = 0 ∨ qb ^ 2 + 4 * qa * volumetric < 0 then .nan
    else
      let f := (-qb + Real.sqrt (qb ^ 2 + 4 * qa * volumetric)) / (2 * qa)
      if f < 0 then .throws .materialDataMissing else .ok f

/-- The same for Magnetics (CoreLosses.cpp 2793-2799, 2824). -/
noncomputable def magneticsFrequency (a b c peak volumetric : ℝ) : Res ℝ :=
  (cpow peak b).bind fun p => if a * p = 0 ∨ c = 0 then .nan
    else (cpow (volumetric / (a * p)) (1 / c)).bind fun f => if f < 0 then .throws .materialDataMissing else .ok f

/-- The same for Poco (CoreLosses.cpp 2801-2810, 2824). -/
noncomputable def pocoFrequency (a b c peak volumetric : ℝ) : Res ℝ :=
  (cpow (peak * 10) b).bind fun p =>
    let qa := c * (peak * 10) ^ 2
    let qb := a * p
    if qa = 0 ∨ qb ^ 2 + 4 * qa * (volumetric / 1000) < 0 then .nan
    else
      let f := 1000 * (-qb + Real.sqrt (qb ^ 2 + 4 * qa * (volumetric / 1000))) / (2 * qa)
      if f < 0 then .throws .materialDataMissing else .ok f

/-- The same for Magnetec (CoreLosses.cpp 2818-2822, 2824). -/
noncomputable def magnetecFrequency (peak mass losses : ℝ) : Res ℝ :=
  if mass = 0 ∨ peak = 0 then .nan
  else (cpow (losses / mass / 80 / (peak * 2 / (3 / 10)) ^ 2) (10 / 18)).bind fun p =>
    if p * 100000 < 0 then .throws .materialDataMissing else .ok (p * 100000)

/-! ## Bias -/

/-- `calculate_dple_factor` (CoreLosses.cpp 126-162): `flux` is the offset of the processed flux density, when there is one;
`permeability` is the relative permeability at a field (`none` for NaN; NaN without bias, which would be carried to the second
evaluation, is taken to give no correction), and `mu0` that of vacuum. -/
noncomputable def biasFactor (mu0 : ℝ) (flux : Option ℝ) (dependent : Bool) (permeability : ℝ → Option ℝ) : ℝ :=
  match flux with
  | none => 1
  | some b =>
    if |b| < 1 / 1000000 then 1
    else if dependent = false then 1
    else match permeability 0 with
      | none => 1
      | some m0 =>
        if m0 ≤ 0 then 1
        else match permeability (|b| / (mu0 * m0)) with
          | none => 1
          | some m => if m ≤ 0 then 1 else
            let r := m0 / m
            let r := if r < 1 then 1 else r
            if r > 10 then 10 else r

/-- What is corrected: the losses, and those by volume and by mass if present. -/
structure Output where
  losses : Res ℝ
  volumetric : Option (Res ℝ)
  mass : Option (Res ℝ)

/-- A result times a factor. -/
noncomputable def times (r : Res ℝ) (c : ℝ) : Res ℝ := r.bind fun x => .ok (x * c)

/-- The end of `CoreLosses::calculate_core_losses` (CoreLosses.cpp 268-308, from 278 on), of the output of a model and the factor of the bias. -/
noncomputable def corrected (o : Output) (factor : ℝ) : Res Output :=
  let o' := if factor > 1 then ⟨times o.losses factor, o.volumetric.map fun x => times x factor, o.mass.map fun x => times x factor⟩ else o
  match o'.losses with
  | .ok _ => .ok o'
  | .nan => .throws .nanResult
  | .throws e => .throws e
  | .ub => .ub

/-- `CoreLosses::get_core_volumetric_losses` (CoreLosses.cpp 310-322). -/
noncomputable def volumetricCorrected (x : Model) (losses : Res ℝ) (factor : ℝ) : Res ℝ :=
  if x = .roshen then losses else times losses factor

/-! ## Semi-shielded drums -/

/-- `CoreLosses::calculate_semishielded_core_losses` (CoreLosses.cpp 194-266): from the constants of the drum and of the shell, the
losses by volume of the drum as a function of the ratio by which its flux density is scaled, and those of the shell if its
material has any. -/
noncomputable def semishielded (c1 c2 s1 s2 : ℝ) (drum : ℝ → Res ℝ) (shell : Option (ℝ → Res ℝ)) : Res (ℝ × ℝ × Bool) :=
  if c2 = 0 ∨ s2 = 0 ∨ c2 + s2 = 0 ∨ c1 = 0 ∨ s1 = 0 ∨ c1 ^ 3 / c2 ^ 2 + s1 ^ 3 / s2 ^ 2 = 0 then .nan
  else
    let whole := (c1 + s1) / (c2 + s2)
    let volume := c1 ^ 3 / c2 ^ 2
    let shellVolume := s1 ^ 3 / s2 ^ 2
    (drum (whole / (c1 / c2))).bind fun p =>
      match shell with
      | none => .ok (p * volume, p * volume / (volume + shellVolume), false)
      | some g => (g (whole / (s1 / s2))).bind fun q =>
        .ok (p * volume + q * shellVolume, (p * volume + q * shellVolume) / (volume + shellVolume), true)

/-- `excitationForArea` (CoreLosses.cpp 215-235): the processed data are scaled, the waveform and its harmonics are not. The peak at
the frequency of switching is that of the processed data unless a harmonic has it (Inputs.cpp 3336-3347); `own` says that it does. -/
noncomputable def forArea (e : Excitation) (own : Bool) (ratio : ℝ) : Excitation :=
  { e with peak := e.peak * ratio, offset := e.offset * ratio,
           peakAt := if own then e.peakAt else e.peakAt * ratio,
           peakToPeak := if own then e.peakToPeak else e.peakToPeak * ratio }

end Verif.CoreLosses
