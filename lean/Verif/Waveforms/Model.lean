import Verif.Common.Round
import Verif.Sampling.Model
import Mathlib.Data.List.Rotate

/-! # Model of waveforms: averages, arithmetic, sampling, compression, derivatives and integrals, standard shapes
(src/processors/WaveformProcessor.cpp, src/processors/Inputs.cpp)

Doubles are the exact numbers of an ordered field `K`. Where the code would divide by zero, and so carry an
infinity or a NaN on, the outcome is `nan` and nothing more is said about it. `std::vector::operator[]`, `front`
and `back` out of range, `->` on an empty optional and iterators past the end are `ub`; `.value()` on an empty
optional throws. The number of points of sampled waveforms, which `Inputs` reads from the settings and
`WaveformProcessor` takes as an argument, is the argument `setting`. The field `numberPeriods` of a waveform,
which none of these functions reads, is left out. -/

namespace Verif.Waveforms

open Verif.Round (roundFloat)

set_option linter.unusedSectionVars false

variable {K : Type} [Field K] [LinearOrder K] [IsStrictOrderedRing K] [FloorRing K]

/-- Outcome of a call. -/
inductive Res (α : Type) where
  | ok (a : α)
  /-- An exception leaves the call. -/
  | throws
  /-- An infinity or a NaN appears. -/
  | nan
  /-- Undefined behaviour. -/
  | ub
  deriving DecidableEq

def Res.bind {α β : Type} : Res α → (α → Res β) → Res β
  | .ok a, f => f a
  | .throws, _ => .throws
  | .nan, _ => .nan
  | .ub, _ => .ub

/-- `WaveformLabel`, in the spelling of the switches of src/processors/WaveformProcessor.cpp:127-162, 607-736. -/
inductive Label where
  | triangular | triangularWithDeadtime | unipolarTriangular | rectangular | rectangularWithDeadtime
  | secondaryRectangular | secondaryRectangularWithDeadtime | unipolarRectangular | bipolarRectangular
  | bipolarTriangular | flybackPrimary | flybackSecondary | flybackSecondaryWithDeadtime | sinusoidal | custom
  deriving DecidableEq, Repr

/-- `Waveform`: values, the times they are taken at, the label attached by whoever made it. -/
structure Waveform (K : Type) where
  data : List K
  time : Option (List K)
  label : Option Label
  deriving DecidableEq

/-! ## Averages and arithmetic -/

/-- The integration loop of `calculate_waveform_average`: one trapezium per segment
(src/processors/WaveformProcessor.cpp:196-200). -/
def trapezia : List K → List K → Res K
  | d0 :: d1 :: ds, t0 :: t1 :: ts =>
    (trapezia (d1 :: ds) (t1 :: ts)).bind fun r => .ok ((d1 + d0) / 2 * (t1 - t0) + r)
  | _ :: _ :: _, _ => .ub
  | _, _ => .ok 0

/-- `time->back() - time->front()` (src/processors/WaveformProcessor.cpp:195 and many others). -/
def span (ts : List K) : Option K :=
  match ts.head?, ts.getLast? with
  | some a, some b => some (b - a)
  | _, _ => none

/-- Models `calculate_waveform_average` (src/processors/WaveformProcessor.cpp:193-202, the same code in
src/processors/Inputs.cpp:95-104). With no data `size() - 1` wraps and the loop runs out of the vector. -/
def average (w : Waveform K) : Res K :=
  match w.time with
  | none => .ub
  | some ts => match span ts with
    | none => .ub
    | some period =>
      if w.data = [] then .ub
      else (trapezia w.data ts).bind fun a => if period = 0 then .nan else .ok (a / period)

/-- Models `multiply_waveform` (src/processors/Inputs.cpp:106-112). -/
def multiply (w : Waveform K) (s : K) : Waveform K := { w with data := w.data.map (· * s) }

/-- Models `sum_waveform` (src/processors/Inputs.cpp:114-120). -/
def sum (w : Waveform K) (s : K) : Waveform K := { w with data := w.data.map (· + s) }

/-- Models `add_waveforms` (src/processors/Inputs.cpp:122-134): times and label are those of the first. -/
def add (a b : Waveform K) : Res (Waveform K) :=
  if a.data.length ≠ b.data.length then .throws
  else .ok { a with data := List.zipWith (· + ·) a.data b.data }

/-- Models `subtract_waveforms` (src/processors/Inputs.cpp:136-148). -/
def subtract (a b : Waveform K) : Res (Waveform K) :=
  if a.data.length ≠ b.data.length then .throws
  else .ok { a with data := List.zipWith (· - ·) a.data b.data }

/-- The shift normalised into `[0, n)` (src/processors/Inputs.cpp:157-158): `%` of C++ truncates. -/
def normalised (samples : Int) (n : Nat) : Nat :=
  let s := samples.tmod n
  (if s < 0 then s + n else s).toNat

/-- The loop `shifted[(i + s) % n] = data[i]` (src/processors/Inputs.cpp:160-163). -/
def scatter (s n : Nat) : Nat → List K → List K → List K
  | _, [], out => out
  | i, d :: ds, out => scatter s n (i + 1) ds (out.set ((i + s) % n) d)

/-- Models `shift_waveform` (src/processors/Inputs.cpp:150-166). The size is taken to fit an `int`. -/
def shift (w : Waveform K) (samples : Int) : Res (Waveform K) :=
  let n := w.data.length
  if n = 0 then .throws
  else
    let s := normalised samples n
    if s = 0 then .ok w else .ok { w with data := scatter s n 0 w.data (List.replicate n 0) }

/-! ## Sampling -/

/-- Models `is_waveform_imported` (src/processors/WaveformProcessor.cpp:172-179,
src/processors/Inputs.cpp:443-451). -/
def isImported (w : Waveform K) (setting : Nat) : Bool :=
  match w.time with
  | none => false
  | some _ => decide (w.data.length > setting)

/-- Models `is_waveform_sampled` (src/processors/WaveformProcessor.cpp:181-191,
src/processors/Inputs.cpp:430-441). -/
def isSampled (w : Waveform K) (setting : Nat) : Bool :=
  match w.time with
  | none => false
  | some _ =>
    if isImported w setting then Sampling.isSizePowerOf2 w.data.length
    else decide (w.data.length = setting)

/-- What the search for a segment finds. -/
inductive Found (K : Type) where
  | value (v : K)
  | nothing
  | ub
  deriving DecidableEq

/-- The search for the segment holding a time (src/processors/WaveformProcessor.cpp:817-840): a segment without
length counts only for its own instant and gives its first value, any other counts with both its ends. -/
def interpolate (t : K) : List K → List K → Found K
  | d0 :: d1 :: ds, t0 :: t1 :: ts =>
    if t1 = t0 then (if t = t0 then .value d0 else interpolate t (d1 :: ds) (t1 :: ts))
    else if t0 ≤ t ∧ t ≤ t1 then .value (d0 + (t - t0) / (t1 - t0) * (d1 - d0))
    else interpolate t (d1 :: ds) (t1 :: ts)
  | _ :: _ :: _, _ => .ub
  | _, _ => .nothing

/-- The loop over the sampled times (src/processors/WaveformProcessor.cpp:815-844). -/
def sampleAll (data time : List K) : List K → Res (List K)
  | [] => .ok []
  | t :: ts => match interpolate t data time with
    | .value v => (sampleAll data time ts).bind fun vs => .ok (v :: vs)
    | .nothing => .throws
    | .ub => .ub

/-- The number of points sampled (src/processors/WaveformProcessor.cpp:797-809). `round_up_size_to_power_of_2` is
the next power of two, as `Sampling.roundUpSize_next` proves of it. -/
def pointsForSampling (size : Nat) (numberPoints : Option Nat) (setting : Nat) : Nat :=
  let n := numberPoints.getD setting
  if size > n then (if Sampling.isSizePowerOf2 size then size else 2 ^ Nat.clog 2 size) else n

/-- The times and the frequency a waveform is sampled with (src/processors/WaveformProcessor.cpp:767-795). With
times of its own the frequency given is not used. -/
def timeBase (w : Waveform K) (frequency : K) : Res (List K × K) :=
  match w.time with
  | none =>
    if frequency ≤ 0 then .throws
    else if frequency < 1 then .throws
    else .ok (Sampling.linearSpaced 0 (1 / roundFloat frequency 9) w.data.length, frequency)
  | some ts => match span ts with
    | none => .ub
    | some period => if period ≤ 0 then .throws else .ok (ts, 1 / period)

/-- The sampled times: `linear_spaced_array(0, 1. / roundFloat(frequency, 9), n + 1)` without its last
(src/processors/WaveformProcessor.cpp:811, 850). -/
def sampleTimes (frequency : K) (n : Nat) : List K :=
  (Sampling.linearSpaced 0 (1 / roundFloat frequency 9) (n + 1)).take n

/-- Models `calculate_sampled_waveform` (src/processors/WaveformProcessor.cpp:758-859). -/
def sampled (w : Waveform K) (frequency : K) (numberPoints : Option Nat) (setting : Nat) : Res (Waveform K) :=
  if w.data.length < 2 then .throws
  else (timeBase w frequency).bind fun (time, f) =>
    let n := pointsForSampling w.data.length numberPoints setting
    if roundFloat f 9 = 0 then .nan
    else (sampleAll w.data time (sampleTimes f n)).bind fun vs =>
      .ok { data := vs, time := some (sampleTimes f n), label := w.label }

/-- The waveform of what `add_signals` returns (src/processors/Inputs.cpp:168-182); its harmonics and processed data
are left out. -/
def addSignals (a b : Waveform K) (frequency : K) (setting : Nat) : Res (Waveform K) :=
  (sampled a frequency none setting).bind fun sa => (sampled b frequency none setting).bind fun sb => add sa sb

/-- The waveform of what `subtract_signals` returns (src/processors/Inputs.cpp:184-198); its harmonics and processed
data are left out. -/
def subtractSignals (a b : Waveform K) (frequency : K) (setting : Nat) : Res (Waveform K) :=
  (sampled a frequency none setting).bind fun sa => (sampled b frequency none setting).bind fun sb => subtract sa sb

/-- The waveform of what `shift_signal` returns (src/processors/Inputs.cpp:200-211); its harmonics and processed data
are left out. -/
def shiftSignal (w : Waveform K) (samples : Int) (frequency : K) (setting : Nat) : Res (Waveform K) :=
  (sampled w frequency none setting).bind fun s => shift s samples

/-! ## Compression -/

/-- The slope of a segment; `jump` stands for the `±DBL_MAX` of a segment without length. A slope that happens
to equal `±DBL_MAX` is not told apart in the code; here it is an ordinary slope. -/
inductive Slope (K : Type) where
  | jump
  | val (s : K)
  deriving DecidableEq

/-- The slope between two points (src/processors/WaveformProcessor.cpp:221-226). -/
def slopeOf (d0 t0 d1 t1 : K) : Slope K := if t1 = t0 then .jump else .val ((d1 - d0) / (t1 - t0))

/-- Whether a point is kept, given the slopes before and after it
(src/processors/WaveformProcessor.cpp:229-243). -/
def keeps (previous current : Slope K) : Bool :=
  match previous, current with
  | .val p, .val s =>
    if |p| > 1 / 10 ^ 9 then decide (|(s - p) / p| > 1 / 100) else decide (|s| > 1 / 10 ^ 9)
  | _, _ => true

/-- The loop of `compress_waveform` (src/processors/WaveformProcessor.cpp:219-248). -/
def compressLoop : Slope K → List K → List K → Res (List K × List K)
  | previous, d0 :: d1 :: ds, t0 :: t1 :: ts =>
    let s := slopeOf d0 t0 d1 t1
    (compressLoop s (d1 :: ds) (t1 :: ts)).bind fun (cd, ct) =>
      .ok (if keeps previous s then (d0 :: cd, t0 :: ct) else (cd, ct))
  | _, _ :: _ :: _, _ => .ub
  | _, _, _ => .ok ([], [])

/-- Models `compress_waveform` (src/processors/WaveformProcessor.cpp:204-257, the same code in
src/processors/Inputs.cpp:1643-1696). -/
def compress (w : Waveform K) : Res (Waveform K) :=
  match w.data with
  | d0 :: _ :: _ => match w.time with
    | none => .throws
    | some ts => match ts.reverse with
      | tl :: tp :: _ =>
        (compressLoop .jump (w.data ++ [d0]) (ts ++ [tl + (tl - tp)])).bind fun (cd, ct) =>
          .ok { data := cd ++ [d0], time := some (ct ++ [tl + (tl - tp)]), label := w.label }
      | _ => .ok w
  | _ => .ok w

/-! ## Derivative and integral -/

/-- `std::adjacent_difference` without its first element. -/
def differences : List K → List K
  | a :: b :: l => (b - a) :: differences (b :: l)
  | _ => []

/-- The loop over a sampled waveform (src/processors/Inputs.cpp:966-968). -/
def quotients : List K → List K → Res (List K)
  | [], _ => .ok []
  | d :: ds, t :: ts => if t = 0 then .nan else (quotients ds ts).bind fun r => .ok (d / t :: r)
  | _ :: _, [] => .ub

/-- The loop over the other waveforms (src/processors/Inputs.cpp:973-981): two points per segment with length, the
values before the times. Arguments: differences of the data but the last, differences of the times, the times. -/
def steps : List K → List K → List K → Res (List K × List K)
  | [], _, _ => .ok ([], [])
  | d :: ds, dt :: dts, t0 :: t1 :: ts =>
    if dt = 0 then steps ds dts (t1 :: ts)
    else (steps ds dts (t1 :: ts)).bind fun (vs, us) => .ok (d / dt :: d / dt :: vs, t0 :: t1 :: us)
  | _ :: _, _, _ => .ub

/-- Models `calculate_derivative_waveform` (src/processors/Inputs.cpp:932-991). The result carries no label. -/
def derivative (w : Waveform K) (setting : Nat) : Res (Waveform K) :=
  match w.time with
  | none => .throws
  | some ts => match w.data with
    | [] => .ub
    | d0 :: _ =>
      let n := w.data.length
      if isSampled w setting then
        match ts.reverse with
        | tl :: tp :: _ =>
          (quotients (differences (w.data ++ [d0])) (differences (ts ++ [tl + (tl - tp)]))).bind fun v =>
            .ok { data := v, time := some ts, label := none }
        | _ => .ub
      else match span ts with
        | none => .ub
        | some period =>
          let dts := differences (ts ++ [ts.getLast?.getD 0 + period])
          (steps ((differences (w.data ++ [d0])).take (n - 1)) dts ts).bind fun (vs, us) =>
            match dts[n - 1]? with
            | none => .ub
            | some dtl =>
              if dtl = 0 then .ok { data := vs, time := some us, label := none }
              else match us.head?, vs.getLast? with
                | some u, some v => .ok { data := v :: vs, time := some (u :: us), label := none }
                | _, _ => .ub

/-- The accumulating loop (src/processors/Inputs.cpp:1003-1007) from a value of the integral on; the vectors are
already cut to the smaller size. -/
def accumulate (acc : K) : List K → List K → List K
  | d0 :: d1 :: ds, t0 :: t1 :: ts =>
    (acc + d0 * (t1 - t0)) :: accumulate (acc + d0 * (t1 - t0)) (d1 :: ds) (t1 :: ts)
  | _, _ => []

/-- The loop that drops repeated points, once a point has been kept (src/processors/Inputs.cpp:1017-1025). -/
def distinctFrom (d t : K) : List K → List K → Res (List K × List K)
  | d1 :: ds, t1 :: ts =>
    if d1 = d ∧ t1 = t then distinctFrom d t ds ts
    else (distinctFrom d1 t1 ds ts).bind fun (a, b) => .ok (d1 :: a, t1 :: b)
  | _ :: _, [] => .ub
  | [], _ => .ok ([], [])

/-- The whole loop, including the first point (src/processors/Inputs.cpp:1017-1025). -/
def distinct : List K → List K → Res (List K × List K)
  | d :: ds, t :: ts => (distinctFrom d t ds ts).bind fun (a, b) => .ok (d :: a, t :: b)
  | _ :: _, [] => .ub
  | [], _ => .ok ([], [])

/-- Models `calculate_integral_waveform` (src/processors/Inputs.cpp:993-1031). With no data or no times the size
minus one wraps. -/
def integral (w : Waveform K) (subtractAverage : Bool) : Res (Waveform K) :=
  match w.time with
  | none => .throws
  | some ts =>
    let m := min w.data.length ts.length
    if m = 0 then .ub
    else
      let r : Waveform K := { w with data := 0 :: accumulate 0 (w.data.take m) (ts.take m) }
      (if subtractAverage then (average r).bind fun a => .ok (sum r (-a)) else .ok r).bind fun r =>
        (distinct r.data ts).bind fun (d, t) => .ok { r with data := d, time := some t }

/-- Models `scale_time_to_frequency` of a waveform (src/processors/Inputs.cpp:2898-2907). -/
def scaleTime (w : Waveform K) (newFrequency : K) : Res (Waveform K) :=
  match w.time with
  | none => .throws
  | some ts => match span ts with
    | none => .ub
    | some period =>
      if period = 0 ∨ newFrequency = 0 then .nan
      else .ok { w with time := some (ts.map fun t => t * (1 / period) / newFrequency) }

/-! ## Volt-seconds -/

/-- The loop of `calculate_max_volt_seconds` (src/processors/Inputs.cpp:818-825): running integral and largest
magnitude so far. The vectors are already cut to the smaller size. -/
def voltSecondsLoop (tEnd : K) : K → K → List K → List K → K
  | acc, best, d0 :: d1 :: ds, t0 :: t1 :: ts =>
    if t0 ≥ tEnd then best
    else
      let acc' := acc + d0 * (t1 - t0)
      voltSecondsLoop tEnd acc' (max best |acc'|) (d1 :: ds) (t1 :: ts)
  | _, best, _, _ => best

/-- The signal of a voltage, as far as this function reads it: its waveform and the peak of its processed data. -/
structure Voltage (K : Type) where
  waveform : Option (Waveform K)
  peak : Option K

/-- Models `calculate_max_volt_seconds` of one excitation (src/processors/Inputs.cpp:773-840); `twoPi` is `2π`. -/
def maxVoltSeconds (twoPi : K) (voltage : Option (Voltage K)) (frequency : K) : K :=
  match voltage with
  | none => 0
  | some v =>
    let fallback : K := match v.peak with
      | none => 0
      | some p =>
        let omega := twoPi * (if frequency > 0 then frequency else 100000)
        if omega > 0 then p / omega else 0
    match v.waveform with
    | none => fallback
    | some w => match w.time with
      | none => fallback
      | some ts =>
        let n := min w.data.length ts.length
        if n < 2 then 0
        else match ts.head?, ts.getLast? with
          | some t0, some tl =>
            let tEnd := if frequency > 0 then t0 + 1 / frequency else tl + 1
            voltSecondsLoop tEnd 0 0 (w.data.take n) (ts.take n)
          | _, _ => 0

/-- Models `calculate_max_volt_seconds` of an operating point (src/processors/Inputs.cpp:842-848). -/
def maxVoltSecondsOfPoint (twoPi : K) (windings : List (Option (Voltage K) × K)) : K :=
  windings.foldl (fun best e => max best (maxVoltSeconds twoPi e.1 e.2)) 0

/-! ## Standard shapes -/

/-- The vertices of the shapes (src/processors/WaveformProcessor.cpp:607-736) for a period; `sine` is the sine,
`twoPi` is `2π`. A sinusoidal waveform of one point divides by zero. -/
def vertices (sine : K → K) (twoPi : K) (label : Label) (p2p period duty offset dead phase : K) (setting : Nat) :
    Res (List K × List K) :=
  let dc := duty * period
  match label with
  | .triangular =>
    .ok ([-p2p / 2 + offset, p2p / 2 + offset, -p2p / 2 + offset], [0, dc, period])
  | .triangularWithDeadtime =>
    .ok ([-p2p / 2 + offset, p2p / 2 + offset, -p2p / 2 + offset, 0], [0, dc, period - dead, period])
  | .unipolarTriangular => .ok ([offset, p2p + offset, offset, offset], [0, dc, dc, period])
  | .rectangular =>
    let mx := p2p * (1 - duty) + offset
    let mn := -p2p * duty + offset
    .ok ([mn, mx, mx, mn, mn], [0, 0, dc, dc, period])
  | .rectangularWithDeadtime =>
    let mx := p2p * (1 - duty) + offset
    let mn := -p2p * duty + offset
    .ok ([0, mx, mx, mn, mn, 0, 0], [0, 0, dc, dc, period - dead, period - dead, period])
  | .secondaryRectangular =>
    let mx := -p2p * (1 - duty) + offset
    let mn := p2p * duty + offset
    .ok ([mn, mx, mx, mn, mn], [0, 0, dc, dc, period])
  | .secondaryRectangularWithDeadtime =>
    let mx := -p2p * (1 - duty) + offset
    let mn := p2p * duty + offset
    .ok ([0, mx, mx, mn, mn, 0, 0], [0, 0, dc, dc, period - dead, period - dead, period])
  | .unipolarRectangular =>
    let dc := min (1 / 2) duty * period
    .ok ([offset, p2p + offset, p2p + offset, offset, offset], [0, 0, dc, dc, period])
  | .bipolarRectangular =>
    .ok ([0, 0, p2p / 2, p2p / 2, 0, 0, -p2p / 2, -p2p / 2, 0, 0],
      [0, 1 / 4 * period - dc / 2, 1 / 4 * period - dc / 2, 1 / 4 * period + dc / 2, 1 / 4 * period + dc / 2,
        3 / 4 * period - dc / 2, 3 / 4 * period - dc / 2, 3 / 4 * period + dc / 2, 3 / 4 * period + dc / 2, period])
  | .bipolarTriangular =>
    let dc := min (1 / 2) duty * period
    .ok ([-p2p / 2, -p2p / 2, p2p / 2, p2p / 2, -p2p / 2, -p2p / 2],
      [0, 1 / 4 * period - dc / 2, 1 / 4 * period + dc / 2, 3 / 4 * period - dc / 2, 3 / 4 * period + dc / 2, period])
  | .flybackPrimary => .ok ([0, offset, p2p + offset, 0, 0], [0, 0, dc, dc, period])
  | .flybackSecondary => .ok ([0, 0, p2p + offset, offset, 0], [0, dc, dc, period, period])
  | .flybackSecondaryWithDeadtime =>
    .ok ([0, 0, p2p + offset, offset, 0, 0], [0, dc, dc, period - dead, period - dead, period])
  | .sinusoidal =>
    if setting = 1 then .nan
    else .ok
      ((List.range setting).map fun i : Nat =>
          sine ((i : K) * twoPi / ((setting - 1 : Nat) : K) + phase) * p2p / 2 + offset,
        (List.range setting).map fun i : Nat => (i : K) * period / ((setting - 1 : Nat) : K))
  | .custom => .ok ([], [])

/-- `std::rotate` on the reversed range: the last `k` elements come first
(src/processors/WaveformProcessor.cpp:749). -/
def rotateRight (l : List K) (k : Nat) : List K := l.rotate (l.length - k)

/-- The part of `create_waveform` for a positive skew (src/processors/WaveformProcessor.cpp:742-753); rotating by
more than the size is undefined. -/
def skewed (w : Waveform K) (frequency period skew : K) (setting : Nat) : Res (Waveform K) :=
  (sampled w frequency none setting).bind fun s =>
    let steps := (Round.round (skew / (period / (s.data.length : K)))).toNat
    if steps > s.data.length then .ub else compress { s with data := rotateRight s.data steps }

/-- Models `create_waveform` (src/processors/WaveformProcessor.cpp:601-756). -/
def create (sine : K → K) (twoPi : K) (label : Label) (p2p frequency duty offset dead skew phase : K)
    (setting : Nat) : Res (Waveform K) :=
  if frequency = 0 then .nan
  else (vertices sine twoPi label p2p (1 / frequency) duty offset dead phase setting).bind fun (d, t) =>
    let w : Waveform K := { data := d, time := some t, label := some label }
    if skew > 0 then skewed w frequency (1 / frequency) skew setting else .ok w

end Verif.Waveforms
