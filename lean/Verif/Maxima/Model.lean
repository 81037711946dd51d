import Mathlib.Order.Lattice
import Mathlib.Order.Defs.LinearOrder
import Mathlib.Algebra.Group.Defs

/-!
# The maxima of a set of inputs

Model of `Inputs::get_maximum_*` (src/processors/Inputs.cpp 2909-3190): the largest voltage, current, frequency, direct current and ambient
temperature, over the operating points and either all windings or one.

Numbers are an ordered field.  What `Inputs::calculate_processed_data` makes of a waveform of voltage is given.
-/

namespace Verif.Maxima

/-- What is read of a processed signal. -/
structure Processed (K : Type) where
  peak : Option K
  rms : Option K
  /-- effective frequency -/
  effective : Option K
  offset : K
  deriving DecidableEq, Repr

/-- A signal; `redo` is what processing its waveform would give, nothing without a waveform. -/
structure Signal (K : Type) where
  processed : Option (Processed K)
  redo : Option (Processed K)
  deriving DecidableEq, Repr

/-- The excitation of a winding. -/
structure Excitation (K : Type) where
  frequency : K
  voltage : Option (Signal K)
  current : Option (Signal K)
  deriving DecidableEq, Repr

/-- An operating point. -/
structure Point (K : Type) where
  windings : List (Excitation K)
  ambient : K
  deriving DecidableEq, Repr

/-- An outcome: a value, an exception, or an index past the end of a vector, which is undefined behaviour. -/
inductive Out (α : Type) where
  | ok (a : α)
  | throws
  | undefined
  deriving DecidableEq, Repr

/-- One after another. -/
def Out.bind {α β : Type} : Out α → (α → Out β) → Out β
  | .ok a, f => f a
  | .throws, _ => .throws
  | .undefined, _ => .undefined

/-- A value that must be there: `value()` of an optional throws otherwise. -/
def need {α : Type} : Option α → Out α
  | some a => .ok a
  | none => .throws

variable {K : Type}

/-- `process_voltage` and what is read after it (src/processors/Inputs.cpp 2909-2917). -/
def again (get : Processed K → Option K) (s : Signal K) : Out K := (need s.redo).bind fun p => need (get p)

/-- A value of the voltage of a winding, processed if it was not or the value is missing (src/processors/Inputs.cpp 2929-2939, 2956-2970,
3027-3036, 3052-3061). -/
def voltageOf (get : Processed K → Option K) (e : Excitation K) : Out K :=
  (need e.voltage).bind fun s =>
    match s.processed with
    | none => again get s
    | some p =>
      match get p with
      | none => again get s
      | some v => .ok v

/-- A value of the current of a winding, which must be processed (src/processors/Inputs.cpp 2987-2991, 3007-3011, 3077-3081, 3096-3100,
3115-3119, 3135-3139, 3154-3158). -/
def currentOf (get : Processed K → Option K) (e : Excitation K) : Out K :=
  (need e.current).bind fun s => (need s.processed).bind fun p => need (get p)

/-- The values of a list, up to the first exception. -/
def gather {α β : Type} (f : α → Out β) : List α → Out (List β)
  | [] => .ok []
  | a :: l => (f a).bind fun b => (gather f l).bind fun bs => .ok (b :: bs)

/-- The values of all windings of an operating point, which must have some (src/processors/Inputs.cpp 2925-2940 and alike). -/
def ofAll (f : Excitation K → Out K) (p : Point K) : Out (List K) := if p.windings = [] then .throws else gather f p.windings

/-- The value of one winding of an operating point, which must have some: an index past them is undefined behaviour
(src/processors/Inputs.cpp 3023-3036 and alike). -/
def ofOne (f : Excitation K → Out K) (i : ℕ) (p : Point K) : Out (List K) :=
  if p.windings = [] then .throws
  else
    match p.windings[i]? with
    | none => .undefined
    | some e => (f e).bind fun v => .ok [v]

section
variable [LinearOrder K] [Zero K]

/-- The largest of the values of the operating points, starting from zero (src/processors/Inputs.cpp 2920-2943 and alike).  Simplified: the values are
all found before they are compared, which makes no difference. -/
def largest (f : Point K → Out (List K)) (ps : List (Point K)) : Out K :=
  if ps = [] then .throws else (gather f ps).bind fun vs => .ok (vs.flatten.foldl max 0)

/-- `get_maximum_voltage_peak()` (src/processors/Inputs.cpp 2919-2944). -/
def voltagePeak (ps : List (Point K)) : Out K := largest (ofAll (voltageOf Processed.peak)) ps

/-- `get_maximum_voltage_rms()` (src/processors/Inputs.cpp 2946-2975). -/
def voltageRms (ps : List (Point K)) : Out K := largest (ofAll (voltageOf Processed.rms)) ps

/-- `get_maximum_current_rms()` (src/processors/Inputs.cpp 2977-2995). -/
def currentRms (ps : List (Point K)) : Out K := largest (ofAll (currentOf Processed.rms)) ps

/-- `get_maximum_current_peak()` (src/processors/Inputs.cpp 2997-3015). -/
def currentPeak (ps : List (Point K)) : Out K := largest (ofAll (currentOf Processed.peak)) ps

/-- `get_maximum_voltage_peak(windingIndex)` (src/processors/Inputs.cpp 3017-3040). -/
def voltagePeakOf (i : ℕ) (ps : List (Point K)) : Out K := largest (ofOne (voltageOf Processed.peak) i) ps

/-- `get_maximum_voltage_rms(windingIndex)` (src/processors/Inputs.cpp 3042-3065). -/
def voltageRmsOf (i : ℕ) (ps : List (Point K)) : Out K := largest (ofOne (voltageOf Processed.rms) i) ps

/-- `get_maximum_current_rms(windingIndex)` (src/processors/Inputs.cpp 3067-3084). -/
def currentRmsOf (i : ℕ) (ps : List (Point K)) : Out K := largest (ofOne (currentOf Processed.rms) i) ps

/-- `get_maximum_current_peak(windingIndex)` (src/processors/Inputs.cpp 3086-3103). -/
def currentPeakOf (i : ℕ) (ps : List (Point K)) : Out K := largest (ofOne (currentOf Processed.peak) i) ps

/-- `get_maximum_current_effective_frequency()` (src/processors/Inputs.cpp 3105-3123). -/
def currentFrequency (ps : List (Point K)) : Out K := largest (ofAll (currentOf Processed.effective)) ps

/-- `get_maximum_current_dc_bias` (src/processors/Inputs.cpp 3125-3142). -/
def currentBias (i : ℕ) (ps : List (Point K)) : Out K := largest (ofOne (currentOf fun p => some p.offset) i) ps

/-- `get_maximum_current_effective_frequency(windingIndex)` (src/processors/Inputs.cpp 3144-3161). -/
def currentFrequencyOf (i : ℕ) (ps : List (Point K)) : Out K := largest (ofOne (currentOf Processed.effective) i) ps

/-- `get_maximum_frequency` (src/processors/Inputs.cpp 3163-3178). -/
def frequency (ps : List (Point K)) : Out K := largest (ofAll fun e => .ok e.frequency) ps

/-- `get_maximum_temperature` (src/processors/Inputs.cpp 3180-3190). -/
def temperature (ps : List (Point K)) : Out K := largest (fun p => .ok [p.ambient]) ps

end

end Verif.Maxima
