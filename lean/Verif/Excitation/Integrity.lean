import Verif.Excitation.Current

/-! # Model of the completion of the operating points when inputs are read
(src/processors/Inputs.cpp:344-383, 1185-1324) -/

namespace Verif.Excitation

open Verif.Waveforms (Waveform Label Res)

set_option linter.unusedSectionVars false

variable {K : Type} [Field K] [LinearOrder K] [IsStrictOrderedRing K] [FloorRing K]

/-- What builds a waveform out of the other descriptions of a signal: `create_waveform` out of processed data and
`reconstruct_signal` out of harmonics (src/processors/Inputs.cpp:366, 370). -/
structure Builders (K : Type) where
  create : Processed K → K → Res (Waveform K)
  reconstruct : Harmonics K → K → Res (Waveform K)

/-- Models `is_standardized` (src/processors/Inputs.cpp:344-354). -/
def isStandard (s : Signal K) : Bool := ((s.waveform.bind fun w => w.time).map fun _ => true).getD false

/-- The part of `standardize_waveform` that gives times to a waveform without them (src/processors/Inputs.cpp:375-380). A
frequency that rounds to zero makes them infinite. -/
def withTimes (frequency : K) (s : Signal K) (w : Waveform K) : Res (Signal K) :=
  match w.time with
  | some _ => .ok { s with waveform := some w }
  | none =>
    if Round.roundFloat frequency 9 = 0 then .nan
    else
      let times := Sampling.linearSpaced 0 (1 / Round.roundFloat frequency 9) w.data.length
      .ok { s with waveform := some { w with time := some times } }

/-- Models `standardize_waveform` (src/processors/Inputs.cpp:358-383). -/
def standardize (B : Builders K) (frequency : K) (s : Signal K) : Res (Signal K) :=
  match s.waveform with
  | some w => withTimes frequency s w
  | none => match s.processed with
    | some p => (B.create p frequency).bind fun w => withTimes frequency s w
    | none => match s.harmonics with
      | some h => (B.reconstruct h frequency).bind fun w => withTimes frequency s w
      | none => .throws

/-- A signal that may be missing (src/processors/Inputs.cpp:1229-1239). -/
def standardizeIf (B : Builders K) (frequency : K) : Option (Signal K) → Res (Option (Signal K))
  | none => .ok none
  | some s => (standardize B frequency s).bind fun s => .ok (some s)

/-- What a winding without a current gets (src/processors/Inputs.cpp:1241-1260): `windings` is the operating point as it
is by then, and `inductance` what the requirement resolves to. -/
def derive (T : Tools K) (windings : List (Exc K)) (ratios : Nat) (inductance : Res K) (e : Exc K) : Res (Exc K) :=
  match e.voltage.bind fun v => v.waveform with
  | none => .throws
  | some w => (Waveforms.sampled w e.frequency none T.setting).bind fun s =>
    (includeOffset T.setting windings ratios).bind fun offset =>
      inductance.bind fun L =>
        (magnetizingWithOffset T e s L true offset).bind fun (e, c) => .ok { e with current := some c }

/-- What is done to one winding (src/processors/Inputs.cpp:1227-1262): `done` are the windings before it, already
completed, and `rest` those after, as they came. -/
def complete (B : Builders K) (T : Tools K) (ratios : Nat) (inductance : Res K) (done : List (Exc K)) (e : Exc K)
    (rest : List (Exc K)) : Res (Exc K) :=
  (standardizeIf B e.frequency e.voltage).bind fun v =>
    match e.current with
    | some c => (standardize B e.frequency c).bind fun c => .ok { e with voltage := v, current := some c }
    | none => derive T (done ++ { e with voltage := v } :: rest) ratios inductance { e with voltage := v }

/-- The loop over the windings (src/processors/Inputs.cpp:1227-1262). -/
def completeFrom (B : Builders K) (T : Tools K) (ratios : Nat) (inductance : Res K) :
    List (Exc K) → List (Exc K) → Res (List (Exc K))
  | done, [] => .ok done
  | done, e :: rest => (complete B T ratios inductance done e rest).bind fun e =>
      completeFrom B T ratios inductance (done ++ [e]) rest

/-- A signal reflected, if there is one (src/processors/Inputs.cpp:1297-1304). -/
def reflectIf (s : Option (Signal K)) (ratio : K) : Res (Option (Signal K)) :=
  match s with
  | none => .ok none
  | some s => (reflect s ratio).bind fun r => .ok (some r)

/-- The secondary made out of the primary (src/processors/Inputs.cpp:1284-1305). A turns ratio of zero is a division by
zero, but only with a voltage. -/
def secondary (primary : Exc K) (ratio : K) : Res (Exc K) :=
  match primary.voltage, primary.current with
  | none, none => .throws
  | v, c =>
    if ratio = 0 ∧ v ≠ none then .nan
    else (reflectIf v (1 / ratio)).bind fun v => (reflectIf c ratio).bind fun c =>
      .ok { primary with voltage := v, current := c }

/-- What is done about missing windings in one operating point (src/processors/Inputs.cpp:1268-1318), and whether one had
to be made. The size of no windings less one wraps, and no number of turns ratios is above it. -/
def addMissing (ratios : List K) (windings : List (Exc K)) : Res (List (Exc K) × Bool) :=
  match windings with
  | [] => .ok ([], false)
  | primary :: others =>
    if ratios.length > others.length then
      match ratios, others with
      | [n], [] => (secondary primary n).bind fun s => .ok ([primary, s], true)
      | _, _ => .throws
    else .ok (windings, false)

/-- All the operating points, one after the other. -/
def overAll {A B : Type} (f : A → Res B) : List A → Res (List B)
  | [] => .ok []
  | a :: l => (f a).bind fun b => (overAll f l).bind fun bs => .ok (b :: bs)

/-- Models `check_integrity` (src/processors/Inputs.cpp:1185-1324): `ratios` and `inductance` are what the design
requirements resolve to. The answer is the operating points that are set at the end (1321) and whether a winding had to
be made. -/
def checked (B : Builders K) (T : Tools K) (ratios : Res (List K)) (inductance : Res K) (points : List (List (Exc K))) :
    Res (List (List (Exc K)) × Bool) :=
  if points.any fun p => p = [] then .throws
  else ratios.bind fun rs =>
    (overAll (completeFrom B T rs.length inductance []) points).bind fun ps =>
      (overAll (addMissing rs) ps).bind fun r => .ok (r.map Prod.fst, r.any Prod.snd)

/-- The operating points the inputs are left with: it works on a copy (src/processors/Inputs.cpp:1186), which takes the
place of the others only at the end (1321). -/
def afterCheck (B : Builders K) (T : Tools K) (ratios : Res (List K)) (inductance : Res K)
    (points : List (List (Exc K))) : List (List (Exc K)) :=
  match checked B T ratios inductance points with
  | .ok (ps, _) => ps
  | _ => points

end Verif.Excitation
