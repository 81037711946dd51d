import Verif.Impedance.Model
import Verif.Sampling.Model
import Verif.Waveforms.Model

/-!
# Sweeps (src/processors/Sweeper.cpp)

Numbers are exact. The models swept are those of `Verif.Impedance`; a value that is not a finite number is `none`.
-/

namespace Verif.Sweeper

open Verif.Impedance

/-- Outcome of a sweep. -/
inductive Res (α : Type) where
  | ok (a : α)
  | throws
  | ub

/-- The values on the axis of a sweep (Sweeper.cpp 22-31, the same lines at the start of every sweep); `none` = throws. -/
noncomputable def axis (mode : String) (start stop : ℝ) (n : ℕ) : Option (List ℝ) :=
  if mode = "linear" then some (Sampling.linearSpaced start stop n)
  else if mode = "log" then some (Sampling.logarithmicSpaced start stop n)
  else none

/-- A curve: its points, abscissa and value. -/
abbrev Curve := List (ℝ × Option ℝ)

/-- A sweep that evaluates each point by itself: `sweep_q_factor_over_frequency` (Sweeper.cpp 121-142),
`sweep_winding_resistance_over_frequency` (Sweeper.cpp 240-259), and those of magnetizing inductance and resistance. -/
noncomputable def sweepEach (value : ℝ → Option ℝ) (mode : String) (start stop : ℝ) (n : ℕ) : Res Curve :=
  match axis mode start stop n with
  | none => .throws
  | some fs => .ok (fs.map fun f => (f, value f))

/-- The magnitude of what may not be a finite number. -/
noncomputable def magnitude (z : Option ℂ) : Option ℝ := z.map fun z => ‖z‖

/-- `sweep_impedance_over_frequency` (Sweeper.cpp 21-60): `build` is `build_wideband_impedance_model` with its reference frequency. The
element in the middle of no elements is read out of the vector. -/
noncomputable def sweepImpedance (build : ℝ → Wideband) (mode : String) (start stop : ℝ) (n : ℕ) : Res Curve :=
  match axis mode start stop n with
  | none => .throws
  | some fs => match fs[fs.length / 2]? with
    | none => .ub
    | some reference => .ok (fs.map fun f => (f, magnitude (impedance (build reference) f)))

/-- `sweep_common_mode_impedance_over_frequency` (Sweeper.cpp 62-90). -/
noncomputable def sweepCommon (m : Wideband) (mode : String) (start stop : ℝ) (n : ℕ) : Res Curve :=
  match axis mode start stop n with
  | none => .throws
  | some fs => .ok (fs.map fun f => (f, magnitude (impedance m f)))

/-- `sweep_differential_mode_impedance_over_frequency` (Sweeper.cpp 92-119): `leakage` at a reference frequency. -/
noncomputable def sweepDifferential (leakage : ℝ → ℝ) (resistance capacitance : ℝ) (mode : String) (start stop : ℝ) (n : ℕ) : Res Curve :=
  match axis mode start stop n with
  | none => .throws
  | some fs => match fs.head?, fs.getLast? with
    | some a, some b => .ok (fs.map fun f => (f, magnitude (differential (leakage (Real.sqrt (a * b))) resistance capacitance f)))
    | _, _ => .ub

/-- The model of `calculate_impedance` (Impedance.cpp 443-455) and of `build_common_mode_impedance_model` (Impedance.cpp 424-441): the
magnetizing tank alone. -/
def magnetizingModel (permeability : Option (ℝ → ℝ × ℝ)) (attenuation : ℝ → ℂ) (tank : Tank) : Wideband where
  permeability := permeability
  attenuation := attenuation
  scaling := 1
  tanks := [tank]
  dc := []
  perMetre := []
  perMetreAt := fun _ _ => 0
  skin := false
  proximity := false
  field := fun _ _ => 0
  fast := true

/-- What `build_wideband_impedance_model` (Impedance.cpp 341-422) reads of the windings besides the magnetizing tank. -/
structure Windings where
  primaryTurns : ℝ
  /-- Every winding but the first, for the leakage at a reference frequency. -/
  secondaries : ℝ → List Secondary
  dc : List ℝ
  perMetre : List ℝ
  perMetreAt : ℕ → ℝ → ℝ
  field : ℕ → ℝ → ℝ

/-- `build_wideband_impedance_model` (Impedance.cpp 341-422): without other windings nothing is added to the magnetizing tank. -/
noncomputable def wideband (permeability : Option (ℝ → ℝ × ℝ)) (attenuation : ℝ → ℂ) (tank : Tank) (w : Windings) (fast : Bool)
    (reference : ℝ) : Wideband :=
  if w.secondaries reference = [] then { magnetizingModel permeability attenuation tank with fast := fast }
  else
    { permeability := permeability, attenuation := attenuation, scaling := 1
      tanks := tank :: leakageTanks w.primaryTurns 1 (w.secondaries reference)
      dc := w.dc
      perMetre := if fast then w.perMetre else []
      perMetreAt := w.perMetreAt
      skin := fast
      proximity := !fast
      field := w.field
      fast := fast }

/-- The flux density of a winding alone with a current in `sweep_core_losses_over_frequency` (Sweeper.cpp 387-392 and 424-425, with
MagneticField.cpp 35-95): the times of the current are scaled to the frequency, and its values, times the turns, over the reluctance and
over the area, are the flux density. A sampled waveform would be compressed before (MagneticField.cpp 43-45); this is not modelled here. -/
def sweepFlux {K : Type} [Field K] [LinearOrder K] (current : Waveforms.Waveform K) (turns reluctance area frequency : K) :
    Waveforms.Res (Waveforms.Waveform K) :=
  (Waveforms.scaleTime current frequency).bind fun w => .ok { w with data := w.data.map fun i => i * turns / reluctance / area }

/-- The core losses by frequency (Sweeper.cpp 376-433) of a winding alone with a current: `losses` are those of the waveform of flux density. -/
def sweepCoreLosses {K L : Type} [Field K] [LinearOrder K] (losses : Waveforms.Waveform K → K → L) (current : Waveforms.Waveform K)
    (turns reluctance area : K) (frequencies : List K) : List (Waveforms.Res L) :=
  frequencies.map fun f => (sweepFlux current turns reluctance area f).bind fun b => .ok (losses b f)

end Verif.Sweeper
