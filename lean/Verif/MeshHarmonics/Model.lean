import Verif.Harmonics.Model

/-! # The harmonics of a mesh

Models `CoilMesher::get_common_harmonic_indexes` (src/support/CoilMesher.cpp) over the selection of main harmonics of the area
Harmonics. Currents that are there have their harmonics. -/

namespace Verif.MeshHarmonics

open Verif.Harmonics

variable {K : Type} [Field K] [LinearOrder K]

/-- A winding has a fundamental with a frequency (src/support/CoilMesher.cpp:46-53). -/
def fundamental (e : Excitation K) : Bool :=
  match e.current with
  | none => false
  | some h =>
    match h.frequencies[1]? with
    | some f => decide (0 < f)
    | none => false

/-- `get_common_harmonic_indexes` (src/support/CoilMesher.cpp:34-67). The factor `_quickModeForManyHarmonicsThreshold` is one
(src/support/CoilMesher.h:30). `none` is the end of the calls allowed, which the code does not have. -/
def common (rt : K → K) (op : List (Excitation K)) : Nat → K → Option (Res (List Nat))
  | 0, _ => none
  | calls + 1, threshold =>
    match ofOperatingPoint rt op threshold .current none with
    | .throws => some .throws
    | .ub => some .ub
    | .ok [] => some (.ok (if op.any fundamental then [1] else []))
    | .ok (i :: is) =>
      match op with
      | [] => some .ub
      | e :: _ =>
        match e.current with
        | none => some .throws
        | some h => if h.amplitudes.length < (i :: is).length then common rt op calls (threshold * 3) else some (.ok (i :: is))

end Verif.MeshHarmonics
