import Mathlib.Algebra.Order.Field.Basic
import Verif.Filters.Basic

/-!
# The score by losses and the outputs that are written with it

Models `MagneticFilterLosses::evaluate_magnetic` and `MagneticFilterLossesNoProximity::evaluate_magnetic`
(src/advisers/MagneticFilterLosses.cpp:498-526, 532-565). The losses themselves are parameters; they may throw.
-/

namespace Verif.LossScore

open Verif.Filters

variable {K : Type} [Field K] [LinearOrder K]

/-- Outputs of an operating point: what is written and the rest. -/
structure Output (K O : Type) where
  core : Option K
  winding : Option K
  rest : O

/-- A vector grown with new ones up to a size (src/advisers/MagneticFilterLosses.cpp:515-517, 554-556). -/
def grow {A : Type} (new : A) (n : Nat) (l : List A) : List A := l ++ List.replicate (n - l.length) new

/-- What is written for a point (src/advisers/MagneticFilterLosses.cpp:514-520, 553-559). -/
def write {O : Type} (new : O) (n : Nat) (core winding : K) (l : List (Output K O)) : List (Output K O) :=
  (grow ⟨none, none, new⟩ (n + 1) l).modify n fun o => { o with core := some core, winding := some winding }

/-- The loop over the points (src/advisers/MagneticFilterLosses.cpp:505-521, 539-560): the sum of the losses, and the outputs if there are. Of an
exception the outputs written before stay with the caller. -/
def walk {P O : Type} (core winding : P → Outcome K) (new : O) : Nat → List P → K → Option (List (Output K O)) →
    Outcome K × Option (List (Output K O))
  | _, [], s, out => (.value s, out)
  | n, p :: ps, s, out =>
    match winding p with
    | .value w =>
      match core p with
      | .value c => walk core winding new (n + 1) ps (s + (w + c)) (out.map (write new n c w))
      | .throws => (.throws, out)
      | .undefined => (.undefined, out)
    | .throws => (.throws, out)
    | .undefined => (.undefined, out)

/-- The whole filter (src/advisers/MagneticFilterLosses.cpp:498-526, 532-565). `excitations`: how many a point has. Without points the score is zero by
zero. -/
def evaluate {P O : Type} (core winding : P → Outcome K) (new : O) (windings : Nat) (excitations : P → Nat) (ps : List P)
    (out : Option (List (Output K O))) : Outcome (Answer K) × Option (List (Output K O)) :=
  if ps.head?.any (fun p => windings != excitations p) then (.value rejected, out)
  else
    let r := walk core winding new 0 ps 0 out
    (r.1.bind fun s => .value ⟨true, mean s ps.length⟩, r.2)

/-- A score times a number; what is not a number stays so. -/
def times (s : Score K) (x : K) : Score K :=
  match s with
  | .num y => .num (y * x)
  | .nan => .nan

/-- Models `MagneticFilterLossesTimesVolume::evaluate_magnetic` and `MagneticFilterLossesNoProximityTimesVolume::evaluate_magnetic`
(src/advisers/MagneticFilterGeometry.cpp:170-175, 191-195) with `cached_or_compute_scoring` (src/advisers/MagneticFilterInternal.h:378-385): `kept` is the score
by losses under the reference of the component, if there is one; otherwise they are computed, and only the score is used. -/
def timesVolume {P O : Type} (core winding : P → Outcome K) (new : O) (windings : Nat) (excitations : P → Nat) (ps : List P)
    (out : Option (List (Output K O))) (kept : Option K) (volume : K) : Outcome (Answer K) :=
  match kept with
  | some x => .value ⟨true, .num (x * volume)⟩
  | none => (evaluate core winding new windings excitations ps out).1.bind fun a => .value ⟨true, times a.score volume⟩

end Verif.LossScore
