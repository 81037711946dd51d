import Verif.Excitation.Integrity

/-! # Model of the processing of operating points (src/processors/Inputs.cpp:2106-2338)

The frequency of each excitation has been settled by then (1970-2104, modelled in `Frequency.lean`). The voltage induced
by a current and the magnetizing current of a common mode choke are parameters. -/

namespace Verif.Excitation

open Verif.Waveforms (Waveform Label Res)

set_option linter.unusedSectionVars false

variable {K : Type} [Field K] [LinearOrder K] [IsStrictOrderedRing K] [FloorRing K]

/-- What the functions below call besides the rest. -/
structure Processors (K : Type) where
  builders : Builders K
  tools : Tools K
  /-- `calculate_induced_voltage` (src/processors/Inputs.cpp:850-930). -/
  induced : Exc K → K → Res (Signal K)
  /-- `get_common_mode_choke_magnetizing_current` (src/processors/Inputs.cpp:616-669). -/
  common : List (Exc K) → Res (Signal K)

/-- The frequency of the period of sampled times, if it is positive (src/processors/Inputs.cpp:2106-2116). -/
def physicalFrequency (w : Waveform K) (fallback : K) : K :=
  match w.time with
  | some (t0 :: t1 :: ts) =>
    let period := (t1 - t0) * (((t0 :: t1 :: ts).length : Nat) : K)
    if period > 0 then 1 / period else fallback
  | _ => fallback

/-- A waveform sampled unless it is (src/processors/Inputs.cpp:2133-2139 and others). -/
def sampledUnless (T : Tools K) (frequency : K) (w : Waveform K) : Res (Waveform K) :=
  if Waveforms.isSampled w T.setting then .ok w else Waveforms.sampled w frequency none T.setting

/-- The harmonics and processed data of a signal (src/processors/Inputs.cpp:2132-2142, 2148-2158, 2168-2179, 2191-2202),
with its sampled waveform. `start` are the processed data to start from. -/
def analyse (T : Tools K) (frequency : K) (s : Signal K) (start : Option (Processed K)) :
    Res (Signal K × Waveform K) :=
  match s.waveform with
  | none => .throws
  | some w => (sampledUnless T frequency w).bind fun sw =>
    (T.harmonics sw (physicalFrequency sw frequency)).bind fun h =>
      (T.process { s with harmonics := some h } sw start).bind fun p =>
        .ok ({ s with harmonics := some h, processed := some p }, sw)

/-- A signal given: standardized unless it is, and analysed (src/processors/Inputs.cpp:2129-2142, 2165-2179). Only that of
a current starts from the processed data it has. -/
def given (P : Processors K) (frequency : K) (keep : Bool) (s : Signal K) : Res (Signal K × Waveform K) :=
  (if isStandard s then .ok s else standardize P.builders frequency s).bind fun s =>
    analyse P.tools frequency s (if keep then s.processed else none)

/-- A signal reflected from the first winding (src/processors/Inputs.cpp:2146-2158, 2189-2202). -/
def reflected (P : Processors K) (frequency : K) (s : Signal K) (ratio : K) : Res (Signal K × Waveform K) :=
  (reflect s ratio).bind fun s => analyse P.tools frequency s s.processed

/-- What a winding without a signal reads from the first, when it is the second of two and there are turns ratios
(src/processors/Inputs.cpp:2145, 2188). The vector of turns ratios is read at zero even when it is empty. -/
def fromFirst (windings : List (Exc K)) (index : Nat) (ratios : Option (List K))
    (signal : Exc K → Option (Signal K)) : Option (Signal K × Option K) :=
  match windings, ratios with
  | [first, _], some rs => if index = 1 then (signal first).map fun s => (s, rs.head?) else none
  | _, _ => none

/-- The current of a winding (src/processors/Inputs.cpp:2126-2161). -/
def processCurrent (P : Processors K) (windings : List (Exc K)) (index : Nat) (ratios : Option (List K)) (e : Exc K) :
    Res (Option (Signal K)) :=
  match e.current with
  | some c => (given P e.frequency true c).bind fun r => .ok (some r.1)
  | none => match fromFirst windings index ratios (fun e => e.current) with
    | none => .ok none
    | some (_, none) => .ub
    | some (c, some n) => (reflected P e.frequency c n).bind fun r => .ok (some r.1)

/-- What comes out of a winding: the excitation, the sampled voltage pushed if any, and whether it had a voltage. -/
structure Step (K : Type) where
  excitation : Exc K
  pushed : Option (Waveform K)
  voltage : Bool
  deriving DecidableEq

/-- The voltage of a winding whose current is done (src/processors/Inputs.cpp:2163-2207). -/
def processVoltage (P : Processors K) (windings : List (Exc K)) (index : Nat) (ratios : Option (List K))
    (inductance : K) (e : Exc K) : Res (Step K) :=
  match e.voltage with
  | some v => (given P e.frequency false v).bind fun r => .ok ⟨{ e with voltage := some r.1 }, some r.2, true⟩
  | none => match windings, e.current with
    | [_], some c => (P.induced e inductance).bind fun v =>
        .ok ⟨{ e with voltage := some v, magnetizing := some c }, none, false⟩
    | _, _ => match fromFirst windings index ratios (fun e => e.voltage) with
      | none => .ok ⟨e, none, false⟩
      | some (_, none) => .ub
      | some (v, some n) =>
        if n = 0 then .nan
        else (reflected P e.frequency v (1 / n)).bind fun r => .ok ⟨{ e with voltage := some r.1 }, some r.2, true⟩

/-- One winding (src/processors/Inputs.cpp:2122-2209). -/
def processWinding (P : Processors K) (windings : List (Exc K)) (ratios : Option (List K)) (inductance : K) (index : Nat)
    (e : Exc K) : Res (Step K) :=
  (processCurrent P windings index ratios e).bind fun c =>
    processVoltage P windings index ratios inductance { e with current := c }

/-- The loop over the windings from one on (src/processors/Inputs.cpp:2122-2209). -/
def processFrom (P : Processors K) (windings : List (Exc K)) (ratios : Option (List K)) (inductance : K) :
    Nat → List (Exc K) → Res (List (Step K))
  | _, [] => .ok []
  | i, e :: es => (processWinding P windings ratios inductance i e).bind fun s =>
      (processFrom P windings ratios inductance (i + 1) es).bind fun ss => .ok (s :: ss)

/-- The effective voltage of a winding (src/processors/Inputs.cpp:2215, 2218). -/
def voltageRms (e : Exc K) : Res K :=
  match e.voltage with
  | none => .ub
  | some v => match v.processed with
    | none => .ub
    | some p => match p.rms with
      | none => .throws
      | some r => .ok r

/-- The magnetizing current of a winding out of its voltage, unless it has one or there is no inductance
(src/processors/Inputs.cpp:2284-2293): `pushed` is its sampled voltage, if there is one at its position. -/
def genericOne (T : Tools K) (inductance : K) (offset : Bool) (pushed : Option (Waveform K)) (e : Exc K) : Res (Exc K) :=
  if e.magnetizing = none ∧ inductance > 0 then
    match e.voltage.bind fun v => v.waveform with
    | none => .ub
    | some w => (magnetizingWithOffset T e (pushed.getD w) inductance false offset).bind fun (e, c) =>
        .ok { e with magnetizing := some c }
  else .ok e

/-- The magnetizing current of each winding out of its voltage (src/processors/Inputs.cpp:2283-2294): `pushed` are the
sampled voltages from this winding on. -/
def generic (T : Tools K) (inductance : K) (offset : Bool) : List (Waveform K) → List (Exc K) → Res (List (Exc K))
  | _, [] => .ok []
  | pushed, e :: es => (genericOne T inductance offset pushed.head? e).bind fun e =>
      (generic T inductance offset pushed.tail es).bind fun es => .ok (e :: es)

/-- Every winding gets the same magnetizing current (src/processors/Inputs.cpp:2272-2274, 2278-2280). -/
def stamp (es : List (Exc K)) (c : Signal K) : List (Exc K) := es.map fun e => { e with magnetizing := some c }

/-- Which of the ways the magnetizing current is worked out (src/processors/Inputs.cpp:2247-2265). -/
def kindOf (isTopology : Bool) (windings : List (Exc K)) : Res (Bool × Bool) :=
  match windings with
  | [] => .ub
  | first :: _ =>
    if first.magnetizing ≠ none then .ok (false, false)
    else if differentialMode isTopology windings then .ok (true, false)
    else (commonMode windings).bind fun c => .ok (false, c)

/-- What is done when every winding has a voltage (src/processors/Inputs.cpp:2212-2297). The turns ratios out of the
effective voltages (2214-2221) are only counted by what they are passed to (2223). -/
def magnetize (P : Processors K) (isTopology : Bool) (inductance : K) (pushed : List (Waveform K))
    (windings : List (Exc K)) : Res (List (Exc K)) :=
  match windings with
  | [] => .ub
  | _ :: others =>
    (overAll voltageRms windings).bind fun _ =>
      (includeOffset P.tools.setting windings others.length).bind fun offset =>
        (kindOf isTopology windings).bind fun (dmc, cmc) =>
          if dmc then (chokeCurrent P.tools windings).bind fun c => .ok (stamp windings c)
          else if cmc then (P.common windings).bind fun c => .ok (stamp windings c)
          else generic P.tools inductance offset pushed windings

/-- Models `process_operating_point` from the frequencies on (src/processors/Inputs.cpp:2106-2300). -/
def processPoint (P : Processors K) (isTopology : Bool) (ratios : Option (List K)) (inductance : K)
    (windings : List (Exc K)) : Res (List (Exc K)) :=
  (processFrom P windings ratios inductance 0 windings).bind fun steps =>
    if steps.all fun s => s.voltage then
      magnetize P isTopology inductance (steps.filterMap fun s => s.pushed) (steps.map fun s => s.excitation)
    else .ok (steps.map fun s => s.excitation)

/-- The inductance asked for in `process`: none, one for all, or one per operating point
(src/processors/Inputs.cpp:2302, 2315-2334). -/
inductive Asked (K : Type) where
  | nothing
  | one (L : K)
  | each (Ls : List K)

/-- The inductance for an operating point (src/processors/Inputs.cpp:2314-2334); `required` is what the requirement
resolves to. -/
def inductanceFor (asked : Asked K) (required : Res K) (index : Nat) : Res K :=
  match asked with
  | .nothing => required
  | .one L => .ok L
  | .each Ls => match Ls.getLast? with
    | none => required
    | some last => .ok ((Ls[index]?).getD last)

/-- Models the loop of `process` (src/processors/Inputs.cpp:2312-2336). -/
def processAll (P : Processors K) (isTopology : Bool) (asked : Asked K) (required : Res K) :
    Nat → List (List (Exc K)) → Res (List (List (Exc K)))
  | _, [] => .ok []
  | i, p :: ps => (inductanceFor asked required i).bind fun L =>
      (processPoint P isTopology none L p).bind fun q =>
        (processAll P isTopology asked required (i + 1) ps).bind fun qs => .ok (q :: qs)

end Verif.Excitation
