import Verif.Waveforms.Model

/-! # Model of what is measured on waveforms: duty cycle, offset, label, processed data
(src/processors/WaveformProcessor.cpp) -/

namespace Verif.Waveforms

open Verif.Round (roundFloat)

set_option linter.unusedSectionVars false

variable {K : Type} [Field K] [LinearOrder K] [IsStrictOrderedRing K] [FloorRing K]

/-- `*max_element(begin, end)`; dereferencing the end of an empty vector is undefined. -/
def maxElement : List K → Res K
  | [] => .ub
  | x :: l => .ok (l.foldl max x)

/-- `*min_element(begin, end)`. -/
def minElement : List K → Res K
  | [] => .ub
  | x :: l => .ok (l.foldl min x)

/-- `vector[i]`, undefined out of range. -/
def at' (l : List K) (i : Nat) : Res K := match l[i]? with
  | some x => .ok x
  | none => .ub

/-! ## Duty cycle -/

/-- The loop adding the time spent at or above the middle level (src/processors/WaveformProcessor.cpp:292-297). -/
def timeOn (mid : K) : List K → List K → K
  | d0 :: d1 :: ds, t0 :: t1 :: ts =>
    (if (d0 + d1) / 2 ≥ mid then t1 - t0 else 0) + timeOn mid (d1 :: ds) (t1 :: ts)
  | _, _ => 0

/-- The count of the points at or above the middle level (src/processors/WaveformProcessor.cpp:304-310). -/
def pointsOn (mid : K) (data : List K) : K :=
  ((data.filter fun d => decide (d ≥ mid)).length : K) / (data.length : K)

/-- Models `measure_duty_cycle_from_samples` (src/processors/WaveformProcessor.cpp:270-311). -/
def measuredDuty (w : Waveform K) : Res K :=
  if w.data.length < 2 then .throws
  else (maxElement w.data).bind fun mx => (minElement w.data).bind fun mn =>
    let mid := (mx + mn) / 2
    match w.time with
    | none => .ok (pointsOn mid w.data)
    | some ts =>
      if ts.length = w.data.length then
        match span ts with
        | none => .ub
        | some period => if period > 0 then .ok (timeOn mid w.data ts / period) else .ok (pointsOn mid w.data)
      else .ok (pointsOn mid w.data)

/-- A duration as a fraction of the span of the times. -/
def fractionOf (ts : List K) (d : Res K) : Res K :=
  d.bind fun d => match span ts with
    | none => .ub
    | some period => if period = 0 then .nan else .ok (d / period)

/-- `time[i] - time->front()` as a fraction of the span (src/processors/WaveformProcessor.cpp:318, 326, 329 and
others). -/
def reached (ts : List K) (i : Nat) : Res K :=
  fractionOf ts ((at' ts i).bind fun a => (at' ts 0).bind fun z => .ok (a - z))

/-- `time[j] - time[i]` as a fraction of the span (src/processors/WaveformProcessor.cpp:335, 338). -/
def between (ts : List K) (i j : Nat) : Res K :=
  fractionOf ts ((at' ts j).bind fun b => (at' ts i).bind fun a => .ok (b - a))

/-- The mean of `time[1]` and `time[2]` from the front, as a fraction of the span
(src/processors/WaveformProcessor.cpp:321, 380). -/
def middleReached (ts : List K) : Res K :=
  fractionOf ts ((at' ts 1).bind fun a => (at' ts 2).bind fun b => (at' ts 0).bind fun z => .ok ((a + b) / 2 - z))

/-- What the switch over the labels returns, if it returns (src/processors/WaveformProcessor.cpp:314-364); reading
a waveform without times is undefined. -/
def dutyOfLabel (ts : Option (List K)) (label : Label) : Option (Res K) :=
  match label with
  | .triangular => match ts with
    | none => some .ub
    | some ts => if ts.length = 3 then some (reached ts 1) else if ts.length = 4 then some (middleReached ts) else none
  | .unipolarTriangular => some (match ts with | none => .ub | some ts => reached ts 1)
  | .rectangular => some (match ts with | none => .ub | some ts => reached ts 2)
  | .unipolarRectangular => some (match ts with | none => .ub | some ts => reached ts 2)
  | .bipolarRectangular => some (match ts with | none => .ub | some ts => between ts 2 3)
  | .bipolarTriangular => some (match ts with | none => .ub | some ts => between ts 1 2)
  | .flybackPrimary => match ts with
    | none => some .ub
    | some ts => if ts.length = 4 then some (reached ts 1) else if ts.length = 5 then some (reached ts 2) else none
  | .flybackSecondary => match ts with
    | none => some .ub
    | some ts => if ts.length = 4 then some (reached ts 1) else if ts.length = 5 then some (reached ts 2) else none
  | .sinusoidal => some (.ok (1 / 2))
  | _ => none

/-- The result rounded to two decimals. -/
def rounded (r : Res K) : Res K := r.bind fun x => .ok (roundFloat x 2)

/-- The duty cycle read off three, four or five corner times (src/processors/WaveformProcessor.cpp:366-388). -/
def dutyOfVertices (w : Waveform K) (setting : Nat) : Option (Res K) :=
  if isSampled w setting then none
  else match w.time with
    | none => none
    | some ts =>
      if ts.length ≥ 3 then
        match span ts with
        | none => none
        | some period =>
          if period > 0 then
            if w.data.length = 3 then some (rounded (reached ts 1))
            else if w.data.length = 4 then some (rounded (middleReached ts))
            else if w.data.length = 5 then some (rounded (reached ts 2))
            else none
          else none
      else none

/-- Models `try_guess_duty_cycle` (src/processors/WaveformProcessor.cpp:313-401); the frequency it is given is not
used. -/
def guessDuty (w : Waveform K) (label : Label) (setting : Nat) : Res K :=
  match dutyOfLabel w.time label with
  | some r => r
  | none => match dutyOfVertices w setting with
    | some r => r
    | none => measuredDuty w

/-! ## Offset -/

/-- Models `calculate_offset` (src/processors/WaveformProcessor.cpp:126-164). -/
def offsetOf (data : List K) (label : Label) : Res K :=
  let middle : Res K := (maxElement data).bind fun mx => (minElement data).bind fun mn => .ok ((mx + mn) / 2)
  match label with
  | .triangular => (at' data 0).bind fun a => (at' data 1).bind fun b => .ok ((a + b) / 2)
  | .unipolarTriangular | .unipolarRectangular => minElement data
  | .rectangular | .bipolarRectangular | .bipolarTriangular | .rectangularWithDeadtime | .secondaryRectangular
  | .secondaryRectangularWithDeadtime => .ok 0
  | .sinusoidal | .custom | .triangularWithDeadtime | .flybackSecondaryWithDeadtime => middle
  | .flybackPrimary => if data.length = 4 then at' data 0 else at' data 1
  | .flybackSecondary => at' data 3

/-! ## Label -/

/-- Models `is_close_enough` (src/processors/WaveformProcessor.cpp:122-124). -/
def close (x y error : K) : Bool := decide (|x - y| ≤ error)

/-- The sum of the distances to the reference sine (src/processors/WaveformProcessor.cpp:447-455); the arguments
are the angles and the values. -/
def sineError (sine : K → K) (p2p offset : K) (angles data : List K) : K :=
  (List.zipWith (fun a d => |sine a * p2p / 2 + offset - d|) angles data).sum

/-- Models `guess_sinusoidal_or_custom` (src/processors/WaveformProcessor.cpp:415-469). -/
def sineOrCustom (sine : K → K) (twoPi : K) (w : Waveform K) : Res Label :=
  let n := w.data.length
  if n = 0 then .throws
  else (maxElement w.data).bind fun mx => (minElement w.data).bind fun mn =>
    let angles : List K :=
      let byIndex := (List.range n).map fun i : Nat => (i : K) * twoPi / (n : K)
      match w.time with
      | none => byIndex
      | some ts => match ts.head?, span ts with
        | some t0, some sp =>
          if ts.length = n ∧ n > 1 ∧ sp > 0 then
            ts.map fun t => twoPi * (t - t0) / (sp * (n : K) / ((n : K) - 1))
          else byIndex
        | _, _ => byIndex
    let error := sineError sine (mx - mn) ((mx + mn) / 2) angles w.data / (n : K)
    let area := (w.data.map fun d => |d|).sum / (n : K)
    if area = 0 then .ok .custom
    else if error / area < 5 / 100 then .ok .sinusoidal else .ok .custom

/-- The chain of tests on the corners (src/processors/WaveformProcessor.cpp:484-571). `tol` is one and a half
sampling steps, `period` the span of the times. The second test for a unipolar rectangular waveform repeats the
first and is left out. Times fewer than values are declared undefined whenever the number of values is one that
the chain looks at, even if a test would fail before reaching the missing time. -/
def cornersLabel (tol period : K) (data : List K) (time : List K) : Res (Option Label) :=
  match data, time with
  | [a, _, c], _ => .ok (if a = c then some .triangular else none)
  | [a, _, c, d], _ :: t1 :: t2 :: _ :: _ =>
    .ok (if close t1 t2 tol ∧ c = d ∧ a = d then some .unipolarTriangular else none)
  | [_, _, _, _], _ => .ub
  | [a, b, c, d, e], t0 :: t1 :: t2 :: t3 :: t4 :: _ =>
    let edges := close t0 t1 tol ∧ b = c ∧ close t2 t3 tol ∧ d = e ∧ a = e
    if ¬ close ((t2 - t0) * c + (t4 - t2) * e) 0 period ∧ edges then .ok (some .unipolarRectangular)
    else if close ((t2 - t0) * c + (t4 - t2) * e) 0 period ∧ edges then .ok (some .rectangular)
    else if close ((t1 - t0) * b + (t3 - t2) * d) 0 period ∧ close t1 t2 tol ∧ a = b ∧ close t3 t4 tol ∧ c = d
        ∧ a = e then .ok (some .rectangular)
    else if close t0 t1 tol ∧ b < c ∧ close t2 t3 tol ∧ d = e ∧ a = e then .ok (some .flybackPrimary)
    else if a = b ∧ close t1 t2 tol ∧ c > d ∧ close t3 t4 tol ∧ a = e then .ok (some .flybackSecondary)
    else .ok none
  | [_, _, _, _, _], _ => .ub
  | [a, b, c, d, e, f], _ :: t1 :: t2 :: t3 :: t4 :: _ :: _ =>
    .ok (if a = b ∧ close (t2 - t1) (t4 - t3) tol ∧ c = d ∧ e = f ∧ a = f then some .bipolarTriangular else none)
  | [_, _, _, _, _, _], _ => .ub
  | [a, b, c, d, e, f, g, h, i, j], _ :: t1 :: t2 :: t3 :: t4 :: t5 :: t6 :: t7 :: t8 :: _ :: _ =>
    .ok (if a = b ∧ close t1 t2 tol ∧ c = d ∧ close t3 t4 tol ∧ e = f ∧ close t5 t6 tol ∧ g = h ∧ close t7 t8 tol
      ∧ i = j ∧ a = j then some .bipolarRectangular else none)
  | [_, _, _, _, _, _, _, _, _, _], _ => .ub
  | _, _ => .ok none

/-- The waveform the label is read from (src/processors/WaveformProcessor.cpp:476-478). -/
def forLabel (w : Waveform K) (setting : Nat) : Res (Waveform K) :=
  if isSampled w setting then compress w else .ok w

/-- Models `try_guess_waveform_label` (src/processors/WaveformProcessor.cpp:471-575). A setting of no points, which
makes the tolerances infinite, is outcome `nan`. Without times only the test for a triangular waveform is made. -/
def guessLabel (sine : K → K) (twoPi : K) (w : Waveform K) (setting : Nat) : Res Label :=
  match w.label with
  | some l => .ok l
  | none => (forLabel w setting).bind fun c =>
    let fallback := sineOrCustom sine twoPi w
    match c.time with
    | none => match c.data with
      | [a, _, z] => if a = z then .ok .triangular else fallback
      | _ => fallback
    | some ts => match span ts with
      | none => .ub
      | some period =>
        if setting = 0 then .nan
        else (cornersLabel (3 / 2 * period / (setting : K)) period c.data ts).bind fun
          | some l => .ok l
          | none => fallback

/-! ## Processed data -/

/-- `ProcessedWaveform`, as far as these functions fill it. -/
structure Processed (K : Type) where
  label : Label
  offset : K
  peakToPeak : Option K
  peak : Option K
  positivePeak : Option K
  negativePeak : Option K
  dutyCycle : Option K
  average : Option K
  rms : Option K
  effectiveFrequency : Option K
  acEffectiveFrequency : Option K
  thd : Option K
  deriving DecidableEq

/-- The mean of the values: `accumulate(...) / size()`. -/
def mean (data : List K) : Res K := if data = [] then .nan else .ok (data.sum / (data.length : K))

/-- Models `calculate_basic_processed_data` (src/processors/WaveformProcessor.cpp:914-972). Values are numbers, so
the test for NaN never fires. -/
def basicProcessed (sine : K → K) (twoPi : K) (w : Waveform K) (setting : Nat) : Res (Processed K) :=
  (forLabel w setting).bind fun c =>
  (guessLabel sine twoPi c setting).bind fun label =>
  (if isSampled w setting then (mean w.data).bind fun a => .ok (some a) else .ok none).bind fun average =>
  (offsetOf c.data label).bind fun offset =>
  (maxElement c.data).bind fun mx =>
  (minElement c.data).bind fun mn =>
  let p2p := if label = .flybackPrimary ∨ label = .flybackSecondary then mx - mn - offset else mx - mn
  (if label = .custom then guessDuty w label setting else guessDuty c label setting).bind fun duty =>
  .ok { label := label, offset := offset, peakToPeak := some p2p, peak := some (max mx (-mn)),
        positivePeak := some mx, negativePeak := some mn, dutyCycle := some duty, average := average,
        rms := none, effectiveFrequency := none, acEffectiveFrequency := none, thd := none }

/-- The two sums of the effective frequency (src/processors/WaveformProcessor.cpp:1036-1045): amplitudes squared
times frequencies squared, and amplitudes squared. -/
def powerSums : List K → List K → Res (K × K)
  | a :: as, f :: fs => (powerSums as fs).bind fun (p, q) => .ok (a ^ 2 * f ^ 2 + p, a ^ 2 + q)
  | [], _ => .ok (0, 0)
  | _ :: _, [] => .ub

/-- An effective frequency (src/processors/WaveformProcessor.cpp:1035-1049, 1052-1066); `rt` is the square root. -/
def effectiveFrequency (rt : K → K) (amplitudes frequencies : List K) : Res K :=
  (powerSums amplitudes frequencies).bind fun (p, q) => .ok (if q > 0 then rt (p / q) else 0)

/-- The root mean square of the values (src/processors/WaveformProcessor.cpp:1069-1075). -/
def rmsOf (rt : K → K) (data : List K) : Res K :=
  if data = [] then .nan else .ok (rt ((data.map fun d => d * d).sum / (data.length : K)))

/-- The total harmonic distortion (src/processors/WaveformProcessor.cpp:1078-1087). -/
def thdOf (rt : K → K) (amplitudes : List K) : Res K :=
  match amplitudes with
  | _ :: a1 :: rest => .ok (if a1 > 0 then rt ((rest.map fun a => a ^ 2).sum) / a1 else 0)
  | _ => .ub

/-- Models `calculate_processed_data` from harmonics and a waveform
(src/processors/WaveformProcessor.cpp:999-1092). -/
def processed (sine rt : K → K) (twoPi : K) (amplitudes frequencies : List K) (w : Waveform K) (advanced : Bool)
    (given : Option (Processed K)) (setting : Nat) : Res (Processed K) :=
  (if w.time.isSome ∧ w.data.length < setting then
      (at' frequencies 1).bind fun f => sampled w f none setting
    else .ok w).bind fun s =>
  (match given with
    | some p => Res.ok p
    | none => basicProcessed sine twoPi s setting).bind fun p =>
  (if isSampled w setting ∨ w.time = none then mean s.data else average w).bind fun a =>
  let p := { p with average := some a }
  if advanced then
    (effectiveFrequency rt amplitudes frequencies).bind fun ef =>
    (effectiveFrequency rt amplitudes.tail frequencies.tail).bind fun acef =>
    (rmsOf rt s.data).bind fun rms =>
    (thdOf rt amplitudes).bind fun thd =>
    .ok { p with effectiveFrequency := some ef, acEffectiveFrequency := some acef, rms := some rms, thd := some thd }
  else .ok p

end Verif.Waveforms
