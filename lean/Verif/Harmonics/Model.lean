import Mathlib.Algebra.Order.Field.Basic

/-! # Model of the selection of main harmonics (src/support/Utils.cpp:2218-2365)

Amplitudes and frequencies are finite numbers of an ordered field; `rt` is the square root. The computation of
missing harmonics from a waveform (2243-2250) is not modelled: signals come with their harmonics. -/

namespace Verif.Harmonics

variable {K : Type} [Field K] [LinearOrder K]

/-- `Harmonics`: the parallel vectors of amplitudes and frequencies. -/
structure Harmonics (K : Type) where
  amplitudes : List K
  frequencies : List K

/-- Outcome of a call. -/
inductive Res (α : Type) where
  | ok (a : α)
  | throws
  | ub
  deriving DecidableEq

def Res.bind {α β : Type} : Res α → (α → Res β) → Res β
  | .ok a, f => f a
  | .throws, _ => .throws
  | .ub, _ => .ub

/-- `amplitudes[i] * sqrt(frequencies[i])`; out of range is undefined behaviour
(src/support/Utils.cpp:2255, 2259, 2268). -/
def weight (rt : K → K) (h : Harmonics K) (i : Nat) : Res K :=
  match h.amplitudes[i]?, h.frequencies[i]? with
  | some a, some f => .ok (a * rt f)
  | _, _ => .ub

/-- The loop that finds the largest weight (src/support/Utils.cpp:2254-2256, 2346-2348), over the indexes given.
`std::max(a, b)` is `a < b ? b : a`. -/
def maxLoop (rt : K → K) (h : Harmonics K) : List Nat → K → Res K
  | [], acc => .ok acc
  | i :: is, acc => (weight rt h i).bind fun w => maxLoop rt h is (if w < acc then acc else w)

/-- The indexes `1 .. amplitudes.size() - 1` of the loops. -/
def indexes (h : Harmonics K) : List Nat := List.range' 1 (h.amplitudes.length - 1)

/-- The reference weight (src/support/Utils.cpp:2253-2260, 2345-2352). -/
def reference (rt : K → K) (h : Harmonics K) (main : Option Nat) : Res K :=
  match main with
  | none => maxLoop rt h (indexes h) 0
  | some i => weight rt h i

/-- `if (std::find(l, i) == end) l.push_back(i)`. -/
def pushNew (l : List Nat) (i : Nat) : List Nat := if i ∈ l then l else l ++ [i]

/-- The selection loop (src/support/Utils.cpp:2266-2275, 2355-2363). -/
def selectLoop (rt : K → K) (h : Harmonics K) (limit : K) : List Nat → List Nat → Res (List Nat)
  | [], acc => .ok acc
  | i :: is, acc => (weight rt h i).bind fun w =>
    selectLoop rt h limit is (if w < limit then acc else pushNew acc i)

/-- Models the selection of `get_main_harmonic_indexes(excitation, ...)` once the harmonics are known
(src/support/Utils.cpp:2251-2278). -/
def mainIndexes (rt : K → K) (h : Harmonics K) (threshold : K) (main : Option Nat) : Res (List Nat) :=
  (reference rt h main).bind fun m =>
    if m = 0 then .ok [] else selectLoop rt h (m * threshold) (indexes h) []

/-- Models `get_main_harmonic_indexes(harmonics, ...)` (src/support/Utils.cpp:2343-2365). -/
def mainIndexesOfHarmonics (rt : K → K) (h : Harmonics K) (threshold : K) (main : Option Nat) :
    Res (List Nat) :=
  (reference rt h main).bind fun m => selectLoop rt h (m * threshold) (indexes h) []

/-- The signals of one winding. -/
structure Excitation (K : Type) where
  current : Option (Harmonics K)
  voltage : Option (Harmonics K)
  magnetizing : Option (Harmonics K)

/-- The argument `signal`. -/
inductive Signal where
  | current
  | voltage
  | magnetizing
  | other

/-- Models `get_main_harmonic_indexes(excitation, ...)` (src/support/Utils.cpp:2218-2278). -/
def ofExcitation (rt : K → K) (e : Excitation K) (threshold : K) (s : Signal) (main : Option Nat) :
    Res (List Nat) :=
  match s with
  | .current => match e.current with
    | none => .throws
    | some h => mainIndexes rt h threshold main
  | .voltage => match e.voltage with
    | none => .throws
    | some h => mainIndexes rt h threshold main
  | .magnetizing => match e.magnetizing with
    | none => .ok []
    | some h => mainIndexes rt h threshold main
  | .other => .throws

/-- The merging loops: append what is not there yet (src/support/Utils.cpp:2285-2289, 2302-2316, 2325-2339). -/
def merge (acc new : List Nat) : List Nat := new.foldl pushNew acc

/-- The loop over the windings (src/support/Utils.cpp:2282-2290). -/
def windingsLoop (rt : K → K) (threshold : K) (s : Signal) (main : Option Nat) :
    List (Excitation K) → List Nat → Res (List Nat)
  | [], acc => .ok acc
  | e :: es, acc => (ofExcitation rt e threshold s main).bind fun l =>
    windingsLoop rt threshold s main es (merge acc l)

/-- Models `get_main_harmonic_indexes(operatingPoint, ...)` (src/support/Utils.cpp:2280-2293). -/
def ofOperatingPoint (rt : K → K) (op : List (Excitation K)) (threshold : K) (s : Signal)
    (main : Option Nat) : Res (List Nat) := windingsLoop rt threshold s main op []

/-- Models `get_operating_point_harmonic_indexes` (src/support/Utils.cpp:2296-2318). -/
def operatingPointIndexes (rt : K → K) (op : List (Excitation K)) (threshold : K) (main : Option Nat) :
    Res (List Nat) :=
  (ofOperatingPoint rt op threshold .current main).bind fun c =>
  (ofOperatingPoint rt op threshold .voltage main).bind fun v =>
  (ofOperatingPoint rt op threshold .magnetizing main).bind fun m =>
    .ok (merge (merge (merge [] c) v) m)

/-- Models `get_excitation_harmonic_indexes` (src/support/Utils.cpp:2319-2341). -/
def excitationIndexes (rt : K → K) (e : Excitation K) (threshold : K) (main : Option Nat) :
    Res (List Nat) :=
  (ofExcitation rt e threshold .current main).bind fun c =>
  (ofExcitation rt e threshold .voltage main).bind fun v =>
  (ofExcitation rt e threshold .magnetizing main).bind fun m =>
    .ok (merge (merge (merge [] c) v) m)

end Verif.Harmonics
