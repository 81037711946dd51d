import Mathlib.Algebra.Order.Field.Basic
import Mathlib.Algebra.Order.Group.Abs

/-! # Model of the datasheet filter (src/advisers/MagneticFilterDatasheet.cpp)

Numbers are finite and from an ordered field. -/

namespace Verif.Datasheet

variable {K : Type} [Field K] [LinearOrder K]

/-- Models `datasheet_headroom` (src/advisers/MagneticFilterDatasheet.cpp:25-30). -/
def headroom (limit operating : K) : K :=
  if limit ≤ 0 then 1
  else
    let x := (limit - operating) / limit
    if x < 0 then 0 else if 1 < x then 1 else x

/-- What the filter reads of a published electrical entry. -/
structure Entry (K : Type) where
  turns : Option K
  ratedCurrents : Option (List K)
  saturationPeak : Option K
  voltageAc : Option K
  voltageDc : Option K

/-- What the filter reads of an excitation: each value is there when the signal and its processed data are. -/
structure Excitation (K : Type) where
  currentRms : Option K
  currentPeak : Option K
  voltageRms : Option K
  voltageOffset : Option K

/-- The search for the entry with the turns of the coil
(src/advisers/MagneticFilterDatasheet.cpp:49-56). -/
def matchTurns (coilTurns : K) : List (Entry K) → Nat → Option Nat
  | [], _ => none
  | e :: es, i =>
    match e.turns with
    | some n => if |n - coilTurns| < 1 / 2 then some i else matchTurns coilTurns es (i + 1)
    | none => matchTurns coilTurns es (i + 1)

/-- `std::min_element` on a non-empty vector. -/
def minOf : K → List K → K
  | m, [] => m
  | m, x :: l => minOf (if x < m then x else m) l

/-- The smallest rated current an entry publishes. -/
def smallestRated (e : Entry K) : Option K :=
  match e.ratedCurrents with
  | some (x :: l) => some (minOf x l)
  | _ => none

/-- The search for the most conservative entry (src/advisers/MagneticFilterDatasheet.cpp:61-74). The best so far
is `none` while `smallestRated` is `DBL_MAX`: every published current is below it. -/
def conservative : List (Entry K) → Nat → Option (Nat × K) → Nat
  | [], _, best => match best with
    | some (i, _) => i
    | none => 0
  | e :: es, i, best =>
    match smallestRated e with
    | none => conservative es (i + 1) best
    | some s => match best with
      | none => conservative es (i + 1) (some (i, s))
      | some (j, b) => if s < b then conservative es (i + 1) (some (i, s))
        else conservative es (i + 1) (some (j, b))

/-- Models `select_electrical_entry` (src/advisers/MagneticFilterDatasheet.cpp:36-75). `windingTurns` are the
turns of the windings of the coil. -/
def select (electricals : List (Entry K)) (windingTurns : List K) : Nat :=
  if electricals.length = 1 then 0
  else
    match windingTurns with
    | [] => conservative electricals 0 none
    | t :: _ => match matchTurns t electricals 0 with
      | some i => i
      | none => conservative electricals 0 none

/-- The running verdict: valid, worst score, any limit checked. -/
structure Verdict (K : Type) where
  valid : Bool
  worst : K
  checked : Bool

/-- One check of a limit (e.g. src/advisers/MagneticFilterDatasheet.cpp:129-134). -/
def Verdict.check (v : Verdict K) (limit operating : K) : Verdict K :=
  { valid := if limit < operating then false else v.valid
    worst := if headroom limit operating < v.worst then headroom limit operating else v.worst
    checked := true }

/-- The limit for the current of one winding (src/advisers/MagneticFilterDatasheet.cpp:122-127). -/
def ratedLimit (rated : Option (List K)) (i : Nat) : Option K :=
  match rated with
  | none => none
  | some [] => none
  | some [x] => some x
  | some l => l[i]?

/-- The check of a limit that may be absent against a value that may be absent. -/
def Verdict.check? (v : Verdict K) (limit operating : Option K) : Verdict K :=
  match limit, operating with
  | some l, some o => v.check l o
  | _, _ => v

/-- `maxWindingPeak`, zero before any peak was seen (src/advisers/MagneticFilterDatasheet.cpp:109). -/
def peakSoFar : Option K → K
  | some q => q
  | none => 0

/-- The loop over the windings of one operating point (src/advisers/MagneticFilterDatasheet.cpp:112-165). The
last component is the largest peak with its flag. -/
def windings (e : Entry K) : List (Excitation K) → Nat → Verdict K → Option K → Verdict K × Option K
  | [], _, v, peak => (v, peak)
  | x :: xs, i, v, peak =>
    let v1 := v.check? (ratedLimit e.ratedCurrents i) x.currentRms
    let peak' := match e.saturationPeak, x.currentPeak with
      | some _, some p =>
        some (if peakSoFar peak < p then p else peakSoFar peak)
      | _, _ => peak
    let v2 := v1.check? e.voltageAc x.voltageRms
    let v3 := v2.check? e.voltageDc (x.voltageOffset.map abs)
    windings e xs (i + 1) v3 peak'

/-- The loop over the operating points (src/advisers/MagneticFilterDatasheet.cpp:105-175). -/
def points (e : Entry K) : List (List (Excitation K)) → Verdict K → Verdict K
  | [], v => v
  | op :: ops, v =>
    let r := windings e op 0 v none
    points e ops (r.1.check? e.saturationPeak r.2)

/-- Models `MagneticFilterDatasheetLimits::evaluate_magnetic`
(src/advisers/MagneticFilterDatasheet.cpp:79-185). `electricals = none`: no manufacturer information, no datasheet or
no electrical section. The outer `none`: index out of range. -/
def evaluate (electricals : Option (List (Entry K))) (windingTurns : List K) (ops : List (List (Excitation K))) :
    Option (Bool × K) :=
  match electricals with
  | none => some (true, 1)
  | some [] => some (true, 1)
  | some es => match es[select es windingTurns]? with
    | none => none
    | some e =>
      let v := points e ops ⟨true, 1, false⟩
      if v.checked then some (v.valid, v.worst) else some (true, 1)

end Verif.Datasheet
