import Mathlib.Analysis.SpecialFunctions.Complex.Circle
import Mathlib.Algebra.Ring.Defs
import Verif.Sampling.Model
import Verif.Waveforms.Process

/-! # Model of the Fourier transform, of harmonics and of signals made from them
(src/processors/WaveformProcessor.cpp, src/processors/Inputs.cpp)

The transform is over any commutative ring with the root it starts from as a parameter; harmonics are over the complex
numbers. Numbers are exact: rounding of doubles is not modelled. Sizes are below `2 ^ 32`, the range of `unsigned int`. -/

namespace Verif.Fft

set_option linter.unusedSectionVars false

/-- Outcome of a call. -/
inductive Res (α : Type) where
  | ok (a : α)
  | throws
  | ub
  deriving DecidableEq

def Res.bind {α β : Type} : Res α → (α → Res β) → Res β
  | .ok a, f => f a
  | .throws, _ => .throws
  | .ub, _ => .ub

section Transform

variable {F : Type} [CommRing F]

/-- The innermost body (src/processors/WaveformProcessor.cpp:49-52); an index past the end is undefined. -/
def butterfly (k : Nat) (T : F) (a : Nat) (x : List F) : Res (List F) :=
  match x[a]?, x[a + k]? with
  | some u, some v => .ok ((x.set a (u + v)).set (a + k) ((u - v) * T))
  | _, _ => .ub

/-- The values `a = l; a < N; a += n` (src/processors/WaveformProcessor.cpp:48). -/
def strides (N n l : Nat) : List Nat := List.range' l ((N - l + n - 1) / n) n

/-- The loop over `a` (src/processors/WaveformProcessor.cpp:48-53). -/
def inner (k : Nat) (T : F) : List Nat → List F → Res (List F)
  | [], x => .ok x
  | a :: as, x => (butterfly k T a x).bind (inner k T as)

/-- The loop over `l`, with `T` multiplied by `phiT` each time (src/processors/WaveformProcessor.cpp:47-55). -/
def outer (N n k : Nat) (phi : F) : List Nat → F → List F → Res (List F)
  | [], _, x => .ok x
  | l :: ls, T, x => (inner k T (strides N n l) x).bind (outer N n k phi ls (T * phi))

/-- The loop `while (k > 1)` (src/processors/WaveformProcessor.cpp:42-56). -/
def stages (N k : Nat) (phi : F) (x : List F) : Res (List F) :=
  if k > 1 then
    (outer N k (k / 2) (phi * phi) (List.range (k / 2)) 1 x).bind (stages N (k / 2) (phi * phi))
  else .ok x
termination_by k

/-- The five exchanges of bits and the final shift (src/processors/WaveformProcessor.cpp:62-66). -/
def reversed (m : Nat) (b : BitVec 32) : BitVec 32 :=
  let b := ((b &&& 0xaaaaaaaa#32) >>> 1) ||| ((b &&& 0x55555555#32) <<< 1)
  let b := ((b &&& 0xcccccccc#32) >>> 2) ||| ((b &&& 0x33333333#32) <<< 2)
  let b := ((b &&& 0xf0f0f0f0#32) >>> 4) ||| ((b &&& 0x0f0f0f0f#32) <<< 4)
  let b := ((b &&& 0xff00ff00#32) >>> 8) ||| ((b &&& 0x00ff00ff#32) <<< 8)
  ((b >>> 16) ||| (b <<< 16)) >>> (32 - m)

/-- `b` of a loop index `a` (src/processors/WaveformProcessor.cpp:60-66). -/
def partner (m a : Nat) : Nat := (reversed m (BitVec.ofNat 32 a)).toNat

/-- The exchange of two values (src/processors/WaveformProcessor.cpp:67-71). -/
def exchange (a b : Nat) (x : List F) : Res (List F) :=
  if b > a then
    match x[a]?, x[b]? with
    | some u, some v => .ok ((x.set a v).set b u)
    | _, _ => .ub
  else .ok x

/-- The loop that decimates (src/processors/WaveformProcessor.cpp:59-72). -/
def decimate (m : Nat) : List Nat → List F → Res (List F)
  | [], x => .ok x
  | a :: as, x => (exchange a (partner m a) x).bind (decimate m as)

/-- Models `fft` (src/processors/WaveformProcessor.cpp:37-73, the same code in src/processors/Inputs.cpp:35-71). The root
`phi` is `cos(π / N) - i sin(π / N)`. Without values the logarithm of zero is converted to an integer, which is undefined;
with one value the last shift is by 32 bits, which is undefined for 32 bits. -/
def fft (phi : F) (x : List F) : Res (List F) :=
  (stages x.length x.length phi x).bind fun y =>
    if x.length = 0 then .ub
    else if Nat.log 2 x.length = 0 then .ub
    else decimate (Nat.log 2 x.length) (List.range x.length) y

end Transform

/-! ## Over the complex numbers -/

/-- `cos(π / N) - i sin(π / N)` (src/processors/WaveformProcessor.cpp:40-41). -/
noncomputable def rootOf (N : Nat) : ℂ := ⟨Real.cos (Real.pi / N), -Real.sin (Real.pi / N)⟩

/-- Models `fft` of complex numbers (src/processors/WaveformProcessor.cpp:37-73). -/
noncomputable def transform (x : List ℂ) : Res (List ℂ) := fft (rootOf x.length) x

/-- Models `ifft` (src/processors/Inputs.cpp:74-93). -/
noncomputable def inverse (x : List ℂ) : Res (List ℂ) :=
  (transform (x.map (starRingEnd ℂ))).bind fun y =>
    .ok ((y.map (starRingEnd ℂ)).map fun z => z / (x.length : ℂ))

/-! ## Harmonics -/

/-- `Harmonics`. -/
structure Harmonics where
  amplitudes : List ℝ
  frequencies : List ℝ

/-- The amplitudes and frequencies of a transform (src/processors/WaveformProcessor.cpp:875-881); reading the first value
of none is undefined. -/
noncomputable def harmonicsOf (X : List ℂ) (frequency : ℝ) : Res Harmonics :=
  match X with
  | [] => .ub
  | x0 :: _ => .ok
    { amplitudes := ‖x0 / (X.length : ℂ)‖ ::
        ((X.take (X.length / 2)).drop 1).map fun x => ‖2 * x / (X.length : ℂ)‖
      frequencies := (List.range (X.length / 2)).map fun i : Nat => frequency * i }

/-- Models `calculate_harmonics_data` of values that are not imported or not to be trimmed
(src/processors/WaveformProcessor.cpp:861-881, 901); for `size() & (size() - 1)` see the area Sampling. -/
noncomputable def harmonics (data : List ℝ) (frequency : ℝ) : Res Harmonics :=
  if 0 < data.length ∧ ¬ Sampling.isSizePowerOf2 data.length then .throws
  else (transform (data.map fun d : ℝ => (d : ℂ))).bind fun X => harmonicsOf X frequency

/-- The loop of `get_main_harmonic_indexes` that finds the largest weight
(src/processors/WaveformProcessor.cpp:99-104): amplitude times the root of the frequency. -/
noncomputable def largestWeight (h : Harmonics) : ℝ :=
  ((h.amplitudes.zip h.frequencies).drop 1).foldl (fun m p => max (p.1 * Real.sqrt p.2) m) 0

/-- What `calculate_harmonics_data` leaves of the harmonics of imported values
(src/processors/WaveformProcessor.cpp:884-899): the first two, and of the others those of
`get_main_harmonic_indexes` (110-119), whose indexes are each met once; fewer than two is undefined. -/
noncomputable def trimmed (threshold : ℝ) (h : Harmonics) : Res Harmonics :=
  match h.amplitudes, h.frequencies with
  | a0 :: a1 :: as, f0 :: f1 :: fs =>
    let kept := (as.zip fs).filter fun p => decide (¬ p.1 * Real.sqrt p.2 < largestWeight h * threshold)
    .ok { amplitudes := a0 :: a1 :: kept.map Prod.fst, frequencies := f0 :: f1 :: kept.map Prod.snd }
  | _, _ => .ub

/-- Models `calculate_harmonics_data` (src/processors/WaveformProcessor.cpp:861-902); `imported` is
`is_waveform_imported`. -/
noncomputable def harmonicsData (data : List ℝ) (frequency : ℝ) (imported trim : Bool) (threshold : ℝ) : Res Harmonics :=
  (harmonics data frequency).bind fun h => if imported && trim then trimmed threshold h else .ok h

/-! ## Signals from harmonics -/

/-- The number of points of a reconstructed signal (src/processors/Inputs.cpp:386): `ratio` is the quotient of the last
frequency and that of the signal, cut to an integer; `round_up_size_to_power_of_2` is the next power of two, and zero of
zero, for which the logarithm is minus infinity. -/
def pointsFor (setting ratio : Nat) : Nat := max setting (if ratio = 0 then 0 else 16 * 2 ^ Nat.clog 2 ratio)

/-- What one harmonic adds at one point (src/processors/Inputs.cpp:391-403). -/
noncomputable def contribution (frequency amplitude f : ℝ) (n i : Nat) : ℝ :=
  if f > 0 then Real.sin ((i : ℝ) * (2 * Real.pi / (n : ℝ) * (f / frequency))) * amplitude else amplitude

/-- The values of `reconstruct_signal` (src/processors/Inputs.cpp:386-405) in `n` points; harmonics with fewer amplitudes
than frequencies are undefined. -/
noncomputable def reconstructed (h : Harmonics) (frequency : ℝ) (n : Nat) : Res (List ℝ) :=
  if h.amplitudes.length < h.frequencies.length then .ub
  else .ok ((List.range n).map fun i =>
    ((h.amplitudes.zip h.frequencies).map fun p => contribution frequency p.1 p.2 n i).sum)

/-- Models `reconstruct_signal` (src/processors/Inputs.cpp:385-417) but for the times it sets, which are `n` equal steps of a
period; reading the last of no frequencies is undefined. -/
noncomputable def reconstruct (setting : Nat) (h : Harmonics) (frequency : ℝ) : Res (List ℝ) :=
  match h.frequencies.getLast? with
  | none => .ub
  | some last => reconstructed h frequency (pointsFor setting ⌊last / frequency⌋₊)

/-! ## Processed data of a waveform -/

/-- An outcome among those of the area Waveforms. -/
def Res.lift {α : Type} : Res α → Waveforms.Res α
  | .ok a => .ok a
  | .throws => .throws
  | .ub => .ub

/-- The frequency data are processed with (src/processors/WaveformProcessor.cpp:981-990): the one given, or that of the
times. -/
noncomputable def frequencyOf (w : Waveforms.Waveform ℝ) (frequency : Option ℝ) : Waveforms.Res ℝ :=
  match frequency with
  | some f => .ok f
  | none => match w.time with
    | none => .throws
    | some ts => match Waveforms.span ts with
      | none => .ub
      | some T => if T = 0 then .nan else .ok (1 / T)

/-- The harmonics data are processed with (src/processors/WaveformProcessor.cpp:991-995): sampled first unless the number
of values is a power of two. -/
noncomputable def harmonicsFor (w : Waveforms.Waveform ℝ) (f : ℝ) (trim : Bool) (threshold : ℝ) (setting : Nat) :
    Waveforms.Res Harmonics :=
  (if Sampling.isSizePowerOf2 w.data.length then Waveforms.Res.ok w else Waveforms.sampled w f none setting).bind fun s =>
    (harmonicsData s.data f (Waveforms.isImported s setting) trim threshold).lift

/-- Models `calculate_processed_data` of a waveform (src/processors/WaveformProcessor.cpp:974-997). -/
noncomputable def processedData (w : Waveforms.Waveform ℝ) (frequency : Option ℝ) (advanced : Bool)
    (given : Option (Waveforms.Processed ℝ)) (trim : Bool) (threshold : ℝ) (setting : Nat) :
    Waveforms.Res (Waveforms.Processed ℝ) :=
  (frequencyOf w frequency).bind fun f =>
    (harmonicsFor w f trim threshold setting).bind fun h =>
      Waveforms.processed Real.sin Real.sqrt (2 * Real.pi) h.amplitudes h.frequencies w advanced given setting

end Verif.Fft
