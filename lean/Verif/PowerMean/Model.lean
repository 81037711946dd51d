import Verif.Filters.Basic
import Verif.Scoring.Model

/-!
# The power by which the budget of losses is set

Models `require_voltage_and_current_for_power` and `compute_maximum_power_mean_and_maybe_force_steinmetz`
(src/advisers/MagneticFilterInternal.h:210-232, 239-272). The sampling of a waveform is a parameter.
-/

namespace Verif.PowerMean

open Verif.Filters Verif.Scoring

variable {K : Type} [Field K] [LinearOrder K]

/-- A waveform: its data and when they are. -/
structure Wave (K : Type) where
  times : List K
  data : List K

/-- The primary excitation of an operating point: the waveforms of voltage and current, if there are. -/
structure Point (K : Type) where
  voltage : Option (Wave K)
  current : Option (Wave K)

/-- The data of both, sampled alike if they are not as many (src/advisers/MagneticFilterInternal.h:248-259). `sample` gives a
waveform a number of points. -/
def alike (sample : Wave K → Nat → List K) (p : Point K) : Outcome (List K × List K) :=
  match p.voltage, p.current with
  | some v, some i =>
    if v.data.length ≠ i.data.length then
      let v' := sample v (max v.data.length i.data.length)
      .value (v', sample i (max v'.length i.data.length))
    else .value (v.data, i.data)
  | _, _ => .throws

/-- The mean of the products (src/advisers/MagneticFilterInternal.h:263-266). The current is read without a check. -/
def meanOf (v i : List K) : Outcome (Num K) :=
  if i.length < v.length then .undefined
  else if v.length = 0 then .value .nan
  else .value (.fin ((v.zipWith (fun x y => |x * y|) i).sum / v.length))

/-- The loop over the operating points (src/advisers/MagneticFilterInternal.h:246-267): the means, and whether some current has more
than twice the points of the setting. -/
def means (sample : Wave K → Nat → List K) (points : Nat) : List (Point K) → Bool → Outcome (List (Num K) × Bool)
  | [], large => .value ([], large)
  | p :: ps, large =>
    (alike sample p).bind fun d =>
      (meanOf d.1 d.2).bind fun m =>
        (means sample points ps (if points * 2 < d.2.length then true else large)).bind fun r => .value (m :: r.1, r.2)

/-- The whole function (src/advisers/MagneticFilterInternal.h:239-272): the largest mean, and whether the losses are changed to
those of Steinmetz. Without operating points the end of an empty vector is read. -/
def maximum (sample : Wave K → Nat → List K) (points : Nat) (ps : List (Point K)) : Outcome (Num K × Bool) :=
  (means sample points ps false).bind fun r =>
    match r.1 with
    | [] => .undefined
    | m :: ms => .value (maxElement m ms, r.2)

end Verif.PowerMean
