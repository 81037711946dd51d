import Verif.Excitation.Integrity

/-! # Model of the completion of inputs (src/support/Utils.cpp:2423-2436, 2494-2594)

Signals, excitations and what completes them are those of `Verif.Excitation`. The inductance of the magnetic at an operating point, or that of the design
requirements when there is no magnetic, is a parameter; so are the overloads of the processing of waveforms that are used here. -/

namespace Verif.Autocomplete

open Verif.Waveforms (Waveform Label Res)
open Verif.Excitation

set_option linter.unusedSectionVars false

variable {K : Type} [Field K] [LinearOrder K] [IsStrictOrderedRing K] [FloorRing K]

/-- What is used besides the rest: `calculate_processed_data` of harmonics with a waveform and of a waveform with a frequency, both with advanced data
(src/support/Utils.cpp:2427, 2431). -/
structure Extra (K : Type) where
  builders : Builders K
  tools : Tools K
  processHarmonics : Harmonics K → Waveform K → Res (Processed K)
  processWaveform : Waveform K → K → Res (Processed K)

/-- Models `standardize_signal_descriptor` (src/support/Utils.cpp:2423-2436). -/
def standardSignal (X : Extra K) (frequency : K) (s : Signal K) : Res (Signal K) :=
  (standardize X.builders frequency s).bind fun s =>
    match s.waveform with
    | none => .throws
    | some w =>
      (match s.harmonics with
        | some h => X.processHarmonics h w
        | none => X.processWaveform w frequency).bind fun p => .ok { s with processed := some p }

/-- The harmonics of a signal without them (src/support/Utils.cpp:2528-2532, 2541-2545). -/
def withHarmonics (X : Extra K) (frequency : K) (s : Signal K) : Res (Signal K) :=
  match s.harmonics with
  | some _ => .ok s
  | none => match s.waveform with
    | none => .throws
    | some w => (Waveforms.sampled w frequency none X.tools.setting).bind fun sw =>
      (X.tools.harmonics sw frequency).bind fun h => .ok { s with harmonics := some h }

/-- What is done to a signal that is there (src/support/Utils.cpp:2523-2533, 2536-2546). -/
def completeSignal (X : Extra K) (frequency : K) (s : Signal K) : Res (Signal K) :=
  (if s.waveform.isNone || s.processed.isNone then standardSignal X frequency s else .ok s).bind fun s =>
    withHarmonics X frequency s

/-- The same for one that may be missing (src/support/Utils.cpp:2522, 2535). -/
def completeIf (X : Extra K) (frequency : K) : Option (Signal K) → Res (Option (Signal K))
  | none => .ok none
  | some s => (completeSignal X frequency s).bind fun s => .ok (some s)

/-- What is done to the signals of a winding (src/support/Utils.cpp:2522-2547): the current first. -/
def completeWinding (X : Extra K) (e : Exc K) : Res (Exc K) :=
  (completeIf X e.frequency e.current).bind fun c =>
    (completeIf X e.frequency e.voltage).bind fun v => .ok { e with current := c, voltage := v }

/-- The loop over the windings of an operating point (src/support/Utils.cpp:2521-2548), the first `n` of its excitations: one that is not there is read
out of the vector. -/
def completeFirst (X : Extra K) : ℕ → List (Exc K) → Res (List (Exc K))
  | 0, l => .ok l
  | _ + 1, [] => .ub
  | n + 1, e :: l => (completeWinding X e).bind fun e => (completeFirst X n l).bind fun l => .ok (e :: l)

/-- The duty cycle of the voltage goes into the magnetizing current (src/support/Utils.cpp:2568-2576). -/
def withDuty (e : Exc K) (m : Signal K) : Res (Signal K) :=
  match e.voltage.bind fun v => v.processed.bind fun p => p.duty with
  | none => .ok m
  | some d => match m.processed with
    | none => .throws
    | some p => .ok { m with processed := some { p with duty := some d } }

/-- The magnetizing current of a winding with an inductance (src/support/Utils.cpp:2566-2576, src/processors/Inputs.cpp:1939-1952). -/
def magnetizingOf (X : Extra K) (inductance : K) (e : Exc K) : Res (Signal K) :=
  match e.voltage with
  | none => .throws
  | some v => (standardize X.builders e.frequency v).bind fun v =>
    match v.waveform with
    | none => .throws
    | some w => (Waveforms.sampled w e.frequency none X.tools.setting).bind fun s =>
      (magnetizingCurrent X.tools e s inductance true 0).bind fun m => withDuty e m

/-- The loop for the magnetizing currents (src/support/Utils.cpp:2555-2590): `inductance` is worked out anew for each winding with the operating point as it
is by then. What is done with a single excitation of two windings (2579-2589) is never reached, since the second was read before (2522). -/
def magnetizeFirst (X : Extra K) (inductance : List (Exc K) → Res K) : ℕ → List (Exc K) → List (Exc K) → Res (List (Exc K))
  | 0, done, l => .ok (done ++ l)
  | _ + 1, _, [] => .ub
  | n + 1, done, e :: l => (inductance (done ++ e :: l)).bind fun L =>
      (magnetizingOf X L e).bind fun m => magnetizeFirst X inductance n (done ++ [{ e with magnetizing := some m }]) l

/-- The isolation sides of `n` windings from the one of index `i` on (src/support/Utils.cpp:2496-2516): those given and, where there are none, those of the
index. -/
def sides {S : Type} (side : ℕ → S) : List S → ℕ → ℕ → List S
  | _, _, 0 => []
  | [], i, n + 1 => side i :: sides side [] (i + 1) n
  | s :: given, i, n + 1 => s :: sides side given (i + 1) n

/-- Models `inputs_autocomplete` (src/support/Utils.cpp:2494-2594): the isolation sides and the operating points. `ratios` are what the turns ratios
resolve to in `check_integrity` (2518), and there is one winding more than turns ratios (2496); `requirement` is the inductance there. -/
def inputs {S : Type} (X : Extra K) (side : ℕ → S) (inductance : List (Exc K) → Res K) (ratios : Res (List K)) (requirement : Res K)
    (given : Option (List S)) (number : ℕ) (points : List (List (Exc K))) : Res (List S × List (List (Exc K))) :=
  (checked X.builders X.tools ratios requirement points).bind fun (ps, _) =>
    (overAll (completeFirst X (number + 1)) ps).bind fun ps =>
      (overAll (magnetizeFirst X inductance (number + 1) []) ps).bind fun ps =>
        .ok (sides side (given.getD []) 0 (number + 1), ps)

end Verif.Autocomplete
