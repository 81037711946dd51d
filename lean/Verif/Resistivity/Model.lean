import Mathlib.Algebra.Order.Field.Rat

/-! # Model of resistivities
(src/physical_models/Resistivity.cpp:15-57)

Numbers are exact. The spline is a parameter: its source is not in the repository. -/

namespace Verif.Resistivity

/-- What a call does. -/
inductive Res (α : Type) where
  | ok (a : α)
  | missing
  | badOptional
  | spline
  deriving DecidableEq

variable {K : Type} [Field K] [LinearOrder K] [IsStrictOrderedRing K]

/-- An entry of the data of a material: its temperature, if it has one, and its value. -/
structure Entry (K : Type) where
  temperature : Option K
  value : K
  deriving DecidableEq

/-- The loop over the data (src/physical_models/Resistivity.cpp:27-34), with the temperature pushed last; none when an entry has no
temperature. `gap`: 1e-9. -/
def kept (gap : K) : Option K → List (Entry K) → Option (List (K × K))
  | _, [] => some []
  | last, e :: rest =>
    match e.temperature with
    | none => none
    | some t =>
      match last with
      | none => (kept gap (some t) rest).map fun ps => (t, e.value) :: ps
      | some b =>
        if gap < |t - b| then (kept gap (some t) rest).map fun ps => (t, e.value) :: ps
        else kept gap (some b) rest

/-- `ResistivityCoreMaterialModel::get_resistivity` (src/physical_models/Resistivity.cpp:15-40). `interp`: what the spline through some
points is worth at a temperature; none where it cannot be built. -/
def coreResistivity (interp : List (K × K) → K → Option K) (gap : K) (data : List (Entry K)) (temperature : K) : Res K :=
  match data with
  | [] => .missing
  | [e] => .ok e.value
  | _ :: _ :: _ =>
    match kept gap none data with
    | none => .badOptional
    | some ps =>
      match interp ps temperature with
      | none => .spline
      | some v => .ok v

/-- `ResistivityWireMaterialModel::get_resistivity` (src/physical_models/Resistivity.cpp:42-45). -/
def wireResistivity (reference coefficient referenceTemperature temperature : K) : K :=
  reference * (1 + coefficient * (temperature - referenceTemperature))

end Verif.Resistivity
