import Mathlib.Algebra.Order.Field.Basic
import Mathlib.Algebra.Order.Ring.Rat
import Mathlib.Algebra.Field.Rat

/-! # Model of the insulation tables and of the coordinator (src/constructive_models/Insulation.cpp)

Numbers are an ordered field `K` (exact arithmetic). A table is the list of its rows. -/

namespace Verif.Insulation

variable {K : Type} [Field K] [LinearOrder K]

/-- A table: `std::vector<std::pair<double, double>>`. -/
abbrev Table (K : Type) := List (K × K)

/-- What a table look-up gives. -/
inductive Val (K : Type) where
  | ok (v : K)
  /-- `DBL_MAX`, the value returned when no segment matches -/
  | dblMax
  /-- a division by zero: infinite or NaN -/
  | notFinite
  /-- undefined behaviour: `back()` of an empty vector -/
  | ub
  deriving DecidableEq, Repr

/-- Models `std::lerp(a, b, t)` in exact arithmetic. -/
def lerp (a b t : K) : K := a + t * (b - a)

/-- Models the loop over the segments (src/constructive_models/Insulation.cpp:26-34). -/
def segments (x : K) : Table K → Val K
  | a :: b :: l =>
    if a.1 ≤ x ∧ x ≤ b.1 then
      if b.1 - a.1 = 0 then .notFinite
      else .ok (lerp a.2 b.2 ((x - a.1) / (b.1 - a.1)))
    else segments x (b :: l)
  | _ => .dblMax

/-- The last row of a non-empty table given as head and tail (`table.back()`). -/
def lastRow : K × K → Table K → K × K
  | a, [] => a
  | _, b :: l => lastRow b l

/-- The last but one row, if there are two (`table[table.size() - 2]`). -/
def prevRow : K × K → Table K → Option (K × K)
  | _, [] => none
  | a, [_] => some a
  | _, b :: c :: l => prevRow b (c :: l)

/-- The extrapolation beyond the last row (src/constructive_models/Insulation.cpp:13-15). -/
def extrapolate (x : K) (last : K × K) : Option (K × K) → Val K
  | none => .ok last.2
  | some prev =>
    if last.1 - prev.1 = 0 then .notFinite
    else .ok ((x - last.1) * ((last.2 - prev.2) / (last.1 - prev.1)) + last.2)

/-- Models `linear_table_interpolation` (src/constructive_models/Insulation.cpp:11-35). -/
def interp (t : Table K) (x : K) : Val K :=
  match t with
  | [] => .ub
  | a :: l =>
    if (lastRow a l).1 < x then extrapolate x (lastRow a l) (prevRow a l)
    else if x < a.1 then .ok a.2
    else segments x (a :: l)

/-- Models the look-up loops `if (v <= row.first) return row.second;` … `throw` (for instance
src/constructive_models/Insulation.cpp:516-523, 528-535, 1503-1513, 1552-1561). `none`: the exception. -/
def lookupLe (t : Table K) (v : K) : Option K :=
  match t with
  | [] => none
  | a :: l => if v ≤ a.1 then some a.2 else lookupLe l v

/-- Models the look-up loops `if (v < row.first) return row.second;` … `throw`
(src/constructive_models/Insulation.cpp:562-569, 583-589, 888-893). `none`: the exception. -/
def lookupLt (t : Table K) (v : K) : Option K :=
  match t with
  | [] => none
  | a :: l => if v < a.1 then some a.2 else lookupLt l v

/-! ## Coordinator -/

/-- `InsulationStandards`. -/
inductive Standard where
  | iec60335 | iec60664 | iec61558 | iec62368
  deriving DecidableEq, Repr

/-- Models the loop of `calculate_withstand_voltage`, `calculate_clearance`, `calculate_creepage_distance` and
`calculate_distance_through_insulation` of the coordinator (src/constructive_models/Insulation.cpp:356-467): a
running maximum from 0 over the standards in their order. `req` is what the model of each standard answers on
the same inputs, `none` the exception it throws. -/
def foldStandards (req : Standard → Option K) : List Standard → K → Option K
  | [], acc => some acc
  | s :: l, acc =>
    match req s with
    | none => none
    | some v => foldStandards req l (max acc v)

/-- Models the four coordinator functions: `standards = none` when the design requirements carry no insulation
(src/constructive_models/Insulation.cpp:357-359, 384-386, 412-414, 440-442). A missing list of standards inside
the insulation requirements throws (src/processors/Inputs.cpp:3246-3253); that case is not modelled. -/
def coordinate (req : Standard → Option K) (standards : Option (List Standard)) : Option K :=
  match standards with
  | none => some 0
  | some l => foldStandards req l 0

/-- Models `can_fully_insulated_wire_be_used` (src/constructive_models/Insulation.cpp:48-56). -/
def canFullyInsulated : List Standard → Bool
  | [] => true
  | s :: l => if s = .iec60335 ∨ s = .iec60664 then false else canFullyInsulated l

/-! ## Electric field limit and thickness search -/

/-- Models `electric_field_strength_is_valid` (src/constructive_models/Insulation.cpp:469-482 and
1248-1261, identical). -/
def fieldValid (dti voltage : K) : Bool :=
  if dti = 0 then false
  else if dti < 30 / 10 ^ 6 then decide (voltage / dti < 10 * 10 ^ 6)
  else if dti > 75 / 10 ^ 5 then decide (voltage / dti < 2 * 10 ^ 6)
  else decide (voltage / dti < (1 / 4 / (dti * 1000) + 1667 / 1000) * 10 ^ 6)

/-- The thickness after `n` steps of one micrometre (`dti += 1e-6`; in exact arithmetic). -/
def microns (n : Nat) : K := (n : K) / 10 ^ 6

/-- Models `n` more turns at most of the loop of `calculate_distance_through_insulation_over_30kHz`
(src/constructive_models/Insulation.cpp:484-491 and 1263-1270), the loop being at step `k`. `none`: still
running. A working voltage of `none` is NaN, for which every comparison is false. -/
def search (voltage : Option K) (k : Nat) : Nat → Option K
  | 0 => none
  | fuel + 1 =>
    if (match voltage with
        | some v => fieldValid (microns k) v
        | none => false) = true then some (microns k)
    else search voltage (k + 1) fuel

/-- The loop terminates with the given thickness. -/
def SearchReturns (voltage : Option K) (d : K) : Prop := ∃ fuel, search voltage 0 fuel = some d

end Verif.Insulation
