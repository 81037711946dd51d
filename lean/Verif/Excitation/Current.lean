import Verif.Excitation.Signals

/-! # Model of the magnetizing current, the voltage induced, the current of a differential mode choke and reflection
(src/processors/Inputs.cpp:689-766, 850-930, 1099-1183, 1698-1768, 1850-1937)

What these functions call and is not modelled here is a parameter (`Tools`): the harmonics of a waveform, its
processed data and the guess of its duty cycle. `DBL_MAX` is a parameter as well. -/

namespace Verif.Excitation

open Verif.Waveforms (Waveform Label Res)

set_option linter.unusedSectionVars false

variable {K : Type} [Field K] [LinearOrder K] [IsStrictOrderedRing K] [FloorRing K]

/-- What the functions below call. -/
structure Tools (K : Type) where
  /-- The number of points of sampled waveforms in the settings. -/
  setting : Nat
  /-- `DBL_MAX`. -/
  huge : K
  sine : K → K
  twoPi : K
  /-- `calculate_harmonics_data` (src/processors/Inputs.cpp:1402-1407). -/
  harmonics : Waveform K → K → Res (Harmonics K)
  /-- `calculate_processed_data` of a signal and its sampled waveform, starting from processed data if any
  (src/processors/Inputs.cpp:1326-1332). -/
  process : Signal K → Waveform K → Option (Processed K) → Res (Processed K)
  /-- `calculate_processed_data` of a waveform alone (src/processors/Inputs.cpp:1384-1392). -/
  processAlone : Waveform K → Res (Processed K)
  /-- `try_guess_duty_cycle` (src/processors/Inputs.cpp:330-342). -/
  guessDuty : Waveform K → Label → Res K

/-! ## The offset of the current -/

/-- `*max_element`, and undefined of nothing. -/
def largest : List K → Res K
  | [] => .ub
  | a :: l => .ok (l.foldl max a)

/-- `*min_element`, and undefined of nothing. -/
def smallest : List K → Res K
  | [] => .ub
  | a :: l => .ok (l.foldl min a)

/-- The loop of `get_ac_ripple` (src/processors/Inputs.cpp:1718-1725): minimum and maximum of the values of a magnitude
above the threshold, starting from `DBL_MAX` and from zero. -/
def rippleLoop (huge threshold : K) (data : List K) : K × K :=
  data.foldl (fun r d => if |d| > threshold then (min r.1 d, max r.2 d) else r) (huge, 0)

/-- The part of `get_ac_ripple` on sampled data (src/processors/Inputs.cpp:1713-1727). -/
def rippleOf (huge : K) (data : List K) : Res K :=
  (largest data).bind fun m =>
    .ok ((rippleLoop huge (m * (5 / 100)) data).2 - (rippleLoop huge (m * (5 / 100)) data).1)

/-- Models `get_ac_ripple` (src/processors/Inputs.cpp:1698-1728). -/
def ripple (T : Tools K) (w : Waveform K) (frequency : K) : Res K :=
  if Waveforms.isSampled w T.setting then rippleOf T.huge w.data
  else if frequency > 0 then (Waveforms.sampled w frequency none T.setting).bind fun s => rippleOf T.huge s.data
  else .ok 0

/-- The current of an excitation with its harmonics and processed data worked out
(src/processors/Inputs.cpp:1743-1748, 3268-3282 and others). -/
def analysed (T : Tools K) (frequency : K) (c : Signal K) : Res (Signal K) :=
  match c.waveform with
  | none => .throws
  | some w => (Waveforms.sampled w frequency none T.setting).bind fun s =>
    (T.harmonics s frequency).bind fun h =>
      (T.process { c with harmonics := some h } s c.processed).bind fun p =>
        .ok { c with harmonics := some h, processed := some p }

/-- The offset out of a current that is processed (src/processors/Inputs.cpp:1751-1765), with the current left behind.
-/
def offsetOf (T : Tools K) (frequency : K) (c : Signal K) (p : Processed K) : Res (Signal K × K) :=
  match c.waveform with
  | none => .ok (c, p.offset)
  | some w => (ripple T w frequency).bind fun r => match p.peak with
    | some peak => .ok (c, peak - r / 2)
    | none => (T.processAlone w).bind fun q => match q.peak with
      | none => .throws
      | some peak => .ok ({ c with processed := some q }, peak - r / 2)

/-- The current, processed if it was not (src/processors/Inputs.cpp:1742-1749). -/
def ensureProcessed (T : Tools K) (frequency : K) (c : Signal K) : Res (Signal K) :=
  match c.processed with
  | some _ => .ok c
  | none => analysed T frequency c

/-- The part of `calculate_magnetizing_current` that finds the offset to add (src/processors/Inputs.cpp:1735-1766), with
the excitation it leaves behind. -/
def offsetToAdd (T : Tools K) (e : Exc K) (addOffset : Bool) : Res (Exc K × K) :=
  if addOffset then
    match e.current with
    | none => .ok (e, 0)
    | some c =>
      (ensureProcessed T e.frequency c).bind fun c => match c.processed with
          | none => .ub
          | some p => (offsetOf T e.frequency c p).bind fun (c, dc) => .ok ({ e with current := some c }, dc)
  else .ok (e, 0)

/-! ## The magnetizing current -/

/-- Whether the label is one of those whose magnetizing current is built from the current itself
(src/processors/Inputs.cpp:1864-1866). -/
def isRamp (l : Label) : Bool := l = .flybackPrimary || l = .flybackSecondary || l = .unipolarTriangular

/-- The duty cycle of a current (src/processors/Inputs.cpp:1871-1878). -/
def dutyOf (T : Tools K) (c : Signal K) (p : Processed K) : Res K :=
  match p.duty with
  | some d => .ok d
  | none => match c.waveform with
    | some w => T.guessDuty w p.label
    | none => .ok (1 / 2)

/-- The waveform out of a current with one of those labels (src/processors/Inputs.cpp:1868-1886): a triangle from the
offset of the current up. -/
def fromRamp (T : Tools K) (frequency : K) (c : Signal K) (p : Processed K) : Res (Waveform K) :=
  match p.peakToPeak with
  | none => .throws
  | some pp => (dutyOf T c p).bind fun d =>
    (Waveforms.create T.sine T.twoPi .triangular pp frequency d (p.offset + pp / 2) 0 0 0 T.setting).bind fun w =>
      Waveforms.sampled w frequency none T.setting

/-- The waveform out of the voltage (src/processors/Inputs.cpp:1906-1911). -/
def fromVoltage (voltage : Waveform K) (inductance dc : K) : Res (Waveform K) :=
  (Waveforms.integral voltage true).bind fun w =>
    .ok (Waveforms.sum (Waveforms.multiply w (1 / inductance)) dc)

/-- The waveform of the magnetizing current before it is compressed (src/processors/Inputs.cpp:1863-1912). A current
without processed data is `->` on an empty optional. -/
def magnetizingWaveform (T : Tools K) (e : Exc K) (voltage : Waveform K) (inductance dc : K) : Res (Waveform K) :=
  match e.current with
  | none => fromVoltage voltage inductance dc
  | some c => match c.processed with
    | none => .ub
    | some p => if isRamp p.label then fromRamp T e.frequency c p else fromVoltage voltage inductance dc

/-- Models `calculate_magnetizing_current` with the offset given (src/processors/Inputs.cpp:1850-1937). -/
def magnetizingCurrent (T : Tools K) (e : Exc K) (voltage : Waveform K) (inductance : K) (compress : Bool) (dc : K) :
    Res (Signal K) :=
  if inductance ≤ 0 then .throws
  else (magnetizingWaveform T e voltage inductance dc).bind fun s =>
    (if compress then Waveforms.compress s else .ok s).bind fun w =>
      (T.harmonics s e.frequency).bind fun h =>
        (T.process ⟨some w, some h, none⟩ s none).bind fun p =>
          (largest s.data).bind fun hi => (smallest s.data).bind fun lo =>
            .ok ⟨some w, some h, some { p with offset := (hi + lo) / 2 - dc }⟩

/-- Models `calculate_magnetizing_current` with the offset asked for (src/processors/Inputs.cpp:1730-1768), with the
excitation it leaves behind. -/
def magnetizingWithOffset (T : Tools K) (e : Exc K) (voltage : Waveform K) (inductance : K) (compress addOffset : Bool) :
    Res (Exc K × Signal K) :=
  if inductance ≤ 0 then .throws
  else (offsetToAdd T e addOffset).bind fun (e', dc) =>
    (magnetizingCurrent T e' voltage inductance compress dc).bind fun s => .ok (e', s)

/-! ## The voltage induced -/

/-- The loop over a waveform that is sampled or imported (src/processors/Inputs.cpp:886-898); `last` is the value pushed
before, zero at first. -/
def inducedSteps (inductance : K) (last : K) : List K → List K → Res (List K)
  | [], _ => .ok []
  | d :: ds, t :: ts =>
    let v := if t = 0 then last else inductance * d / t
    (inducedSteps inductance v ds ts).bind fun r => .ok (v :: r)
  | _ :: _, [] => .ub

/-- The time appended after the last (src/processors/Inputs.cpp:867-877). -/
def nextTime (isSampled : Bool) (ts : List K) : Res K :=
  if isSampled then
    match ts.reverse with
    | tl :: tp :: _ => .ok (tl + (tl - tp))
    | _ => .ub
  else match Waveforms.span ts, ts.getLast? with
    | some period, some tl => .ok (tl + period)
    | _, _ => .ub

/-- The waveform of `calculate_induced_voltage` before it is sampled, for a waveform that is sampled or imported
(src/processors/Inputs.cpp:867-900). -/
def inducedSampled (setting : Nat) (w : Waveform K) (inductance : K) : Res (Waveform K) :=
  match w.time with
  | none => .throws
  | some ts => match w.data with
    | [] => .ub
    | d0 :: _ =>
      (nextTime (Waveforms.isSampled w setting) ts).bind fun next =>
        (inducedSteps inductance 0 (Waveforms.differences (w.data ++ [d0])) (Waveforms.differences (ts ++ [next]))).bind
          fun v => .ok { data := v, time := some ts, label := none }

/-! ## Differential mode chokes -/

/-- The current of one winding (src/processors/Inputs.cpp:721-734): sampled unless its size is a power of two. -/
def chokeWaveform (T : Tools K) (frequency : K) (e : Exc K) : Res (Waveform K) :=
  match e.current with
  | none => .throws
  | some c => match c.waveform with
    | none => .throws
    | some w =>
      if w.data = [] ∨ ¬ Verif.Sampling.isSizePowerOf2 w.data.length then
        Waveforms.sampled w frequency none T.setting
      else .ok w

/-- The currents of all windings (src/processors/Inputs.cpp:719-734). -/
def chokeWaveforms (T : Tools K) (frequency : K) : List (Exc K) → Res (List (Waveform K))
  | [] => .ok []
  | e :: es => (chokeWaveform T frequency e).bind fun w => (chokeWaveforms T frequency es).bind fun ws => .ok (w :: ws)

/-- The sum of the windings at a point (src/processors/Inputs.cpp:747-751). -/
def sumAt (i : Nat) (ws : List (Waveform K)) : K := ws.foldl (fun s w => s + w.data.getD i 0) 0

/-- The waveform of `get_differential_mode_choke_magnetizing_current` (src/processors/Inputs.cpp:689-758). Once the sizes
are checked no point is read that is not there. -/
def chokeSum (T : Tools K) (windings : List (Exc K)) : Res (Waveform K) :=
  match windings with
  | [] => .ub
  | e :: _ =>
    if windings.length < 2 ∨ windings.length > 4 then .throws
    else (chokeWaveforms T e.frequency windings).bind fun ws => match ws with
      | [] => .ub
      | w :: rest =>
        if rest.any fun x => x.data.length ≠ w.data.length then .throws
        else .ok { data := (List.range w.data.length).map fun i => sumAt i (w :: rest), time := w.time, label := none }

/-- Models `get_differential_mode_choke_magnetizing_current` (src/processors/Inputs.cpp:689-766). -/
def chokeCurrent (T : Tools K) (windings : List (Exc K)) : Res (Signal K) :=
  (chokeSum T windings).bind fun w =>
    (T.harmonics w ((windings.head?.map fun e => e.frequency).getD 0)).bind fun h =>
      (T.process ⟨some w, some h, none⟩ w none).bind fun p => .ok ⟨some w, some h, some p⟩

/-! ## Reflection -/

/-- Models `reflect_waveform` (src/processors/Inputs.cpp:1099-1113). -/
def reflect (s : Signal K) (ratio : K) : Res (Signal K) :=
  match s.waveform with
  | none => .throws
  | some w => .ok ⟨some { w with data := w.data.map (· * ratio) }, none, none⟩

/-- The shapes that `reflect_waveform` with a label builds (src/processors/Inputs.cpp:1142-1173), for processed data of
that peak to peak, offset and duty cycle, and a period: `none` for the labels left to the other function. -/
def reflectedShape (sine : K → K) (twoPi : K) (setting : Nat) (label : Label) (peakToPeak offset duty period : K) :
    Option (Res (Waveform K)) :=
  match label with
  | .flybackPrimary =>
    some (Waveforms.create sine twoPi .flybackSecondary peakToPeak (1 / period) duty offset 0 0 0 setting)
  | .flybackSecondary =>
    some (Waveforms.create sine twoPi .flybackPrimary peakToPeak (1 / period) duty offset 0 0 0 setting)
  | .unipolarTriangular =>
    some (if 1 - duty = 0 then .nan
      else .ok { data := [offset, offset, peakToPeak * duty / (1 - duty) + offset, offset],
                 time := some [0, duty * period, duty * period, period], label := none })
  | .unipolarRectangular =>
    some (if 1 - duty = 0 then .nan
      else .ok { data := [-offset, -offset, -(peakToPeak * duty / (1 - duty) + offset),
                          -(peakToPeak * duty / (1 - duty) + offset), -offset],
                 time := some [0, duty * period, duty * period, period, period], label := none })
  | _ => none

/-- Models `reflect_waveform` with a label (src/processors/Inputs.cpp:1115-1183) for a signal that has processed data;
without, they are worked out first (1123-1129), which is not modelled here. The dead time of the processed data, read
by none of the shapes built, is left out; with a period of zero nothing more is said than that an infinity appears. -/
def reflectAs (T : Tools K) (s : Signal K) (p : Processed K) (ratio : K) (label : Label) : Res (Signal K) :=
  if label = .custom then reflect s ratio
  else match s.waveform with
    | none => .ub
    | some w => match w.time with
      | none => .ub
      | some ts => match Waveforms.span ts with
        | none => .ub
        | some period => match p.peakToPeak, p.duty with
          | some pp, some duty =>
            if period = 0 then .nan
            else match reflectedShape T.sine T.twoPi T.setting label (pp * ratio) (p.offset * ratio) duty period with
              | some r => r.bind fun w => .ok ⟨some w, none, none⟩
              | none => reflect s ratio
          | _, _ => .throws

end Verif.Excitation
