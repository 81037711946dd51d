import Verif.Waveforms.Model
import Verif.Excitation.Frequency

/-! # Signals, excitations and the decisions taken on the currents of an operating point
(src/processors/Inputs.cpp:213-327, 344-383, 453-575, 671-687)

Doubles are the exact numbers of an ordered field `K`; waveforms, and the outcomes of a call, are those of
`Verif.Waveforms`. The fields of a signal that these functions read are kept: its waveform, its harmonics and, out
of the processed data, the label, offset, peak to peak, peak, rms and duty cycle. -/

namespace Verif.Excitation

open Verif.Waveforms (Waveform Label Res)

set_option linter.unusedSectionVars false

variable {K : Type} [Field K] [LinearOrder K] [IsStrictOrderedRing K] [FloorRing K]

/-- `ProcessedWaveform`, as far as it is read here. -/
structure Processed (K : Type) where
  label : Label
  offset : K
  peakToPeak : Option K
  peak : Option K
  rms : Option K
  duty : Option K
  deriving DecidableEq

/-- `SignalDescriptor`. -/
structure Signal (K : Type) where
  waveform : Option (Waveform K)
  harmonics : Option (Harmonics K)
  processed : Option (Processed K)
  deriving DecidableEq

/-- `OperatingPointExcitation`, as far as it is read here. -/
structure Exc (K : Type) where
  frequency : K
  voltage : Option (Signal K)
  current : Option (Signal K)
  magnetizing : Option (Signal K)
  deriving DecidableEq

/-- Models `is_close_enough` (src/processors/Inputs.cpp:213-215). -/
abbrev closeEnough (x y error : K) : Prop := |x - y| ≤ error

/-! ## Whether the offset of the current goes into the magnetizing current -/

/-- Models `include_dc_offset_into_magnetizing_current_rosano` (src/processors/Inputs.cpp:217-236). -/
def rosano (voltage : List K) : Bool :=
  let maximum := voltage.foldl (fun m v => max m |v|) 0
  let close := (voltage.filter fun v => |v| < maximum * (5 / 100)).length
  !decide ((close : K) > (voltage.length : K) * (2 / 100))

/-- The number of points both waveforms of a winding are sampled with (src/processors/Inputs.cpp:262-274).
`round_up_size_to_power_of_2` is the smallest power of two not below, which a power of two is itself. -/
def commonPoints (current voltage setting : Nat) : Nat :=
  let maxSize := max current voltage
  if maxSize > setting then 2 ^ Nat.clog 2 maxSize else setting

/-- The products of the points of current and voltage (src/processors/Inputs.cpp:284-287). The loop goes through the
points of the current. -/
def products : List K → List K → Res (List K)
  | [], _ => .ok []
  | c :: cs, v :: vs => (products cs vs).bind fun r => .ok (c * v :: r)
  | _ :: _, [] => .ub

/-- The power of one winding (src/processors/Inputs.cpp:257-288): the points of both waveforms when there are as many
of one as of the other, and else of both sampled. The largest is read even out of none (288). -/
def powerOf (setting : Nat) (frequency : K) (current voltage : Waveform K) : Res (List K) :=
  (if current.data.length ≠ voltage.data.length then
      (Waveforms.sampled current frequency (some (commonPoints current.data.length voltage.data.length setting))
        setting).bind fun c =>
      (Waveforms.sampled voltage frequency (some (commonPoints current.data.length voltage.data.length setting))
        setting).bind fun v => products c.data v.data
    else products current.data voltage.data).bind fun p => if p = [] then .ub else .ok p

/-- What the loop over the windings finds (src/processors/Inputs.cpp:242-292). -/
inductive Powers (K : Type) where
  /-- A winding without current or voltage settles it. -/
  | settled (conducting : Bool)
  | powers (l : List (List K))

/-- The loop over the windings (src/processors/Inputs.cpp:242-292). -/
def powersOf (setting : Nat) : List (Exc K) → Res (Powers K)
  | [] => .ok (.powers [])
  | e :: es =>
    match e.current with
    | none => .ok (.settled true)
    | some c => match e.voltage with
      | none => .ok (.settled false)
      | some v => match c.waveform, v.waveform with
        | some cw, some vw => (powerOf setting e.frequency cw vw).bind fun p =>
            (powersOf setting es).bind fun r => match r with
              | .settled b => .ok (.settled b)
              | .powers l => .ok (.powers (p :: l))
        | _, _ => .throws

/-- Whether two windings next to each other differ at a point: the loop over the windings, which stops at the first two
that do (src/processors/Inputs.cpp:296-304). A point that a winding does not have is read out of range. -/
def differAt (threshold : K) (i : Nat) : List (List K) → Res Bool
  | p :: q :: ps => match p[i]?, q[i]? with
    | some a, some b =>
      if decide (|a| > threshold) != decide (|b| > threshold) then .ok true else differAt threshold i (q :: ps)
    | _, _ => .ub
  | _ => .ok false

/-- The number of points at which two windings next to each other differ (src/processors/Inputs.cpp:294-305). -/
def differing (threshold : K) (powers : List (List K)) : List Nat → Res Nat
  | [] => .ok 0
  | i :: is => (differAt threshold i powers).bind fun d =>
      (differing threshold powers is).bind fun n => .ok (if d then n + 1 else n)

/-- The largest of the powers, or zero (src/processors/Inputs.cpp:241, 288-291). -/
def maximumPower (powers : List (List K)) : K := powers.flatten.foldl max 0

/-- Models `is_instantaneously_conducting_power` (src/processors/Inputs.cpp:238-313). -/
def conducting (setting : Nat) (windings : List (Exc K)) : Res Bool :=
  (powersOf setting windings).bind fun r => match r with
    | .settled b => .ok b
    | .powers [] => .ub
    | .powers (p :: ps) =>
      (differing (maximumPower (p :: ps) * (1 / 100)) (p :: ps) (List.range p.length)).bind fun n =>
        .ok (!decide ((n : K) > (p.length : K) * (1 / 10)))

/-- Models `Inputs::include_dc_offset_into_magnetizing_current` (src/processors/Inputs.cpp:315-327); `ratios` is the
number of turns ratios. -/
def includeOffset (setting : Nat) (windings : List (Exc K)) (ratios : Nat) : Res Bool :=
  match windings with
  | [] => .ub
  | e :: _ => match e.voltage with
    | none => .ub
    | some v => match v.waveform with
      | none => .throws
      | some w => (Waveforms.sampled w e.frequency none setting).bind fun s =>
        (conducting setting windings).bind fun c =>
          .ok ((decide (ratios = 0) && decide (windings.length ≤ 1)) || (rosano s.data && !c))

/-! ## What the currents are those of -/

/-- Whether the harmonics of two windings agree (src/processors/Inputs.cpp:538-547): those of the first are gone
through, and those of the second read past their end are undefined. -/
def harmonicsAgree : List (K × K) → List (K × K) → Res Bool
  | [], _ => .ok true
  | (f, a) :: l, (g, b) :: m =>
    if ¬ closeEnough f g (1 / 10000) then .ok false
    else if ¬ closeEnough a b (1 / 10000) then .ok false
    else harmonicsAgree l m
  | _ :: _, [] => .ub

/-- The loop over the other windings (src/processors/Inputs.cpp:532-549): a winding without current throws, one
without harmonics is passed over. Frequencies and amplitudes are taken to be as many. -/
def allHarmonicsAgree (primary : Harmonics K) : List (Exc K) → Res Bool
  | [] => .ok true
  | e :: es => match e.current with
    | none => .throws
    | some c => match c.harmonics with
      | none => allHarmonicsAgree primary es
      | some h => (harmonicsAgree primary.bins h.bins).bind fun b =>
          if b then allHarmonicsAgree primary es else .ok false

/-- The effective current of a winding, if it is there (src/processors/Inputs.cpp:561-565). -/
def rmsOf (e : Exc K) : Option K := e.current.bind fun c => c.processed.bind fun p => p.rms

/-- The loop over the effective currents (src/processors/Inputs.cpp:560-570). -/
def allRmsAgree (primary : K) : List (Exc K) → Bool
  | [] => true
  | e :: es => match rmsOf e with
    | none => false
    | some r => if ¬ closeEnough primary r (5 / 100 * primary) then false else allRmsAgree primary es

/-- What is left when the harmonics do not settle it (src/processors/Inputs.cpp:558-574). -/
def byRms (first : Exc K) (others : List (Exc K)) : Bool :=
  match rmsOf first with
  | none => false
  | some r => allRmsAgree r others

/-- Models `can_be_common_mode_choke` (src/processors/Inputs.cpp:509-575). -/
def commonMode (windings : List (Exc K)) : Res Bool :=
  if windings.length < 2 ∨ windings.length > 4 then .ok false
  else match windings with
    | [] => .ok false
    | first :: others => match first.current with
      | none => .throws
      | some c => match c.harmonics with
        | none => .ok (byRms first others)
        | some h => (allHarmonicsAgree h others).bind fun b => if b then .ok true else .ok (byRms first others)

/-- Models `can_be_differential_mode_choke` (src/processors/Inputs.cpp:671-687). -/
def differentialMode (isTopology : Bool) (windings : List (Exc K)) : Bool :=
  isTopology && decide (2 ≤ windings.length ∧ windings.length ≤ 4)

/-- Whether a label is one of a flyback (src/processors/Inputs.cpp:478, 485). -/
def isFlyback (l : Label) : Bool := l = .flybackPrimary || l = .flybackSecondary

/-- Whether the current carries the label of a flyback, in the waveform or the processed data
(src/processors/Inputs.cpp:472-488). -/
def flybackLabel (c : Signal K) : Bool :=
  ((c.waveform.bind fun w => w.label).map isFlyback).getD false ||
    (c.processed.map fun p => isFlyback p.label).getD false

/-- Models `is_multiport_inductor` (src/processors/Inputs.cpp:453-506); the sides of the isolation are of any type.
`get_primary_excitation` is the first excitation. -/
def multiport {S : Type} [DecidableEq S] (windings : List (Exc K)) (sides : Option (List S)) : Res Bool :=
  match windings with
  | first :: _ :: _ =>
    let same := match sides with
      | none => false
      | some [] => true
      | some (s :: ss) => ss.all fun x => s = x
    if same then .ok true
    else match first.current with
      | none => .ub
      | some c =>
        if flybackLabel c then
          .ok (match sides with
            | some (s :: ss) => !(ss.any fun x => x = s)
            | _ => true)
        else .ok false
  | _ => .ok false

end Verif.Excitation
