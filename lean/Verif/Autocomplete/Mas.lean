import Verif.Autocomplete.Inputs

/-! # Model of the completion of a magnetic with its inputs (src/support/Utils.cpp:2460-2492)

The completions of the magnetic and of the inputs are those of `Magnetic.lean` and `Inputs.lean`, here functions that answer or do not; the simulation, the
inductance at an operating point and the processing of an operating point are parameters. -/

namespace Verif.Autocomplete

open Verif.Waveforms (Waveform Label Res)
open Verif.Excitation

set_option linter.unusedSectionVars false

variable {K : Type} [Field K] [LinearOrder K] [IsStrictOrderedRing K] [FloorRing K]

/-- The magnetizing current put in a winding at the end (src/support/Utils.cpp:2483-2487, src/processors/Inputs.cpp:1939-1952): without offset, with the
processed data of the compressed waveform. -/
def magnetizingAgain (X : Extra K) (inductance : K) (e : Exc K) : Res (Signal K) :=
  match e.voltage with
  | none => .throws
  | some v => (standardize X.builders e.frequency v).bind fun v =>
    match v.waveform with
    | none => .throws
    | some w => (Waveforms.sampled w e.frequency none X.tools.setting).bind fun s =>
      (magnetizingCurrent X.tools e s inductance true 0).bind fun m => match m.waveform with
        | none => .throws
        | some w => (X.processWaveform w e.frequency).bind fun p => .ok { m with processed := some p }

/-- The loop over the windings (src/support/Utils.cpp:2482-2488), the first `n` of the excitations: one that is not there is read out of the vector. -/
def magnetizeAgain (X : Extra K) (inductance : K) : ℕ → List (Exc K) → Res (List (Exc K))
  | 0, l => .ok l
  | _ + 1, [] => .ub
  | n + 1, e :: l => (magnetizingAgain X inductance e).bind fun m =>
      (magnetizeAgain X inductance n l).bind fun l => .ok ({ e with magnetizing := some m } :: l)

/-- An operating point at the end (src/support/Utils.cpp:2480-2488): `inductance` answers the inductance and the operating point it leaves, since it is
given a pointer to it. -/
def pointAgain (X : Extra K) (inductance : List (Exc K) → Res (K × List (Exc K))) (process : List (Exc K) → K → Res (List (Exc K))) (n : ℕ)
    (p : List (Exc K)) : Res (List (Exc K)) :=
  (inductance p).bind fun (L, p) => (process p L).bind fun p => magnetizeAgain X L n p

/-- The simulation, if it is asked for (src/support/Utils.cpp:2473-2476). -/
def simulated {M I : Type} (simulation : Option (I → M → Res (M × I))) (m : M) (i : I) : Res (M × I) :=
  match simulation with
  | none => .ok (m, i)
  | some f => f i m

/-- Models `mas_autocomplete` (src/support/Utils.cpp:2460-2492): `ratios` is the number of turns ratios of inputs, `points` their operating points and
`setPoints` puts them back. -/
def mas {M I : Type} (X : Extra K) (magnetic : M → I → Res M) (inputs : I → M → Res I) (simulation : Option (I → M → Res (M × I)))
    (ratios : I → ℕ) (points : I → List (List (Exc K))) (setPoints : I → List (List (Exc K)) → I)
    (inductance : M → List (Exc K) → Res (K × List (Exc K))) (process : List (Exc K) → K → Res (List (Exc K))) (m : M) (i : I) : Res (M × I) :=
  (magnetic m i).bind fun m => (inputs i m).bind fun i =>
    (simulated simulation m i).bind fun (m, j) =>
      (overAll (pointAgain X (inductance m) process (ratios i + 1)) (points j)).bind fun ps => .ok (m, setPoints j ps)

end Verif.Autocomplete
