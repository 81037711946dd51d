import Mathlib.Algebra.Order.Field.Basic
import Mathlib.Data.List.Zip
import Mathlib.Tactic.Linarith

/-! # Model of the frequency an operating point is worked out at
(the first loop of `Inputs::process_operating_point`, src/processors/Inputs.cpp:1970-2104)

Doubles are the exact numbers of an ordered field `K`; of the frequency stated, what is not a finite number is
told apart (`notFinite`). Of the signals only their harmonics are read here. -/

namespace Verif.Excitation

set_option linter.unusedSectionVars false

variable {K : Type} [Field K] [LinearOrder K] [IsStrictOrderedRing K]

/-- `Harmonics`, as far as this loop reads them. -/
structure Harmonics (K : Type) where
  amplitudes : List K
  frequencies : List K
  deriving DecidableEq

/-- The pairs frequency, amplitude that the loops go through (src/processors/Inputs.cpp:1983, 1996, 2024). -/
def Harmonics.bins (h : Harmonics K) : List (K × K) := h.frequencies.zip h.amplitudes

/-- The largest amplitude at a positive frequency, or zero (src/processors/Inputs.cpp:1982-1987). -/
def peakAmplitude (bins : List (K × K)) : K :=
  bins.foldl (fun peak b => if b.1 > 0 ∧ b.2 > peak then b.2 else peak) 0

/-- One round of the loop that keeps the best score and its frequency (src/processors/Inputs.cpp:1996-2004). -/
def scoreStep (threshold : K) (best : K × K) (b : K × K) : K × K :=
  if b.1 ≤ 0 then best
  else if b.2 < threshold then best
  else if b.1 * b.2 > best.1 then (b.1 * b.2, b.1) else best

/-- Models `effectiveFrequencyFromHarmonics` (src/processors/Inputs.cpp:1972-2006). -/
def effective (signal : Option (Harmonics K)) : K :=
  match signal with
  | none => 0
  | some h =>
    if h.frequencies.length ≠ h.amplitudes.length ∨ h.frequencies.length < 2 then 0
    else
      let peak := peakAmplitude h.bins
      if peak ≤ 0 then 0
      else (h.bins.foldl (scoreStep (peak * (1 / 100))) (0, 0)).2

/-- One round of the search for the closest frequency (src/processors/Inputs.cpp:2024-2031): the smallest
difference so far, infinite (`none`) at first, and the amplitude at it. -/
def closestStep (target : K) (best : Option K × K) (b : K × K) : Option K × K :=
  if b.1 ≤ 0 then best
  else match best.1 with
    | none => (some |b.1 - target|, b.2)
    | some d => if |b.1 - target| < d then (some |b.1 - target|, b.2) else best

/-- Models `amplitudeAtFrequency` (src/processors/Inputs.cpp:2012-2033). Without a positive frequency it is the
first amplitude. -/
def amplitudeAt (signal : Option (Harmonics K)) (target : K) : K :=
  match signal with
  | none => 0
  | some h =>
    if target ≤ 0 then 0
    else if h.frequencies.length ≠ h.amplitudes.length then 0
    else match h.amplitudes with
      | [] => 0
      | a :: _ => (h.bins.foldl (closestStep target) (none, a)).2

/-- The frequency stated in an excitation. -/
inductive Stated (K : Type) where
  | number (f : K)
  /-- NaN or an infinity. -/
  | notFinite
  deriving DecidableEq

/-- An excitation, as far as this loop reads it: the frequency, and the harmonics, if any, of the current and the
voltage, if any. -/
structure Tone (K : Type) where
  stated : Stated K
  current : Option (Option (Harmonics K))
  voltage : Option (Option (Harmonics K))
  deriving DecidableEq

/-- The effective frequency and the signal it comes from: the current, or, with none there, the voltage
(src/processors/Inputs.cpp:2041-2047, 2060-2079). -/
def driving (t : Tone K) : K × Option (Harmonics K) :=
  let fromCurrent := (t.current.map effective).getD 0
  if fromCurrent > 0 then (fromCurrent, t.current.getD none)
  else ((t.voltage.map effective).getD 0, t.voltage.getD none)

/-- Models the loop over the excitations, for one of them (src/processors/Inputs.cpp:2036-2103). -/
def settle (t : Tone K) : Tone K :=
  match t.stated with
  | .notFinite => if (driving t).1 > 0 then { t with stated := .number (driving t).1 } else t
  | .number f =>
    if f ≤ 0 then if (driving t).1 > 0 then { t with stated := .number (driving t).1 } else t
    else if f ≥ 400 then t
    else if (driving t).1 ≥ 400 ∧ (driving t).1 > f ∧
        amplitudeAt (driving t).2 f < 1 / 2 * amplitudeAt (driving t).2 (driving t).1 then
      { t with stated := .number (driving t).1 }
    else t

end Verif.Excitation
