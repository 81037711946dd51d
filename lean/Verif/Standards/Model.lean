import Verif.Insulation.Model
import Verif.Common.Round

/-! # Model of the four insulation standards (src/constructive_models/Insulation.cpp:469-1745)

The tables the constructors read from the JSON files are a parameter (src/constructive_models/Insulation.h:55-447);
`Verif.Standards.Tables` holds the shipped ones. Numbers are an ordered field (exact arithmetic). The inputs are
what the accessors of `Inputs` return (src/processors/Inputs.cpp:2919-3245): the maxima over windings and
operating points, and the fields of the insulation requirements, all of them present. A missing field throws in
the accessor; that is not modelled. -/

set_option linter.unusedSectionVars false

namespace Verif.Standards

open Verif.Insulation Verif.Round

/-- `WiringTechnology`. -/
inductive Wiring where
  | wound | printed
  deriving DecidableEq, Repr

/-- `PollutionDegree`. -/
inductive Pd where
  | pd1 | pd2 | pd3
  deriving DecidableEq, Repr

/-- `OvervoltageCategory`. -/
inductive Ovc where
  | i | ii | iii | iv
  deriving DecidableEq, Repr

/-- `IsolationClass`. -/
inductive Cls where
  | functional | basic | supplementary | reinforced | double
  deriving DecidableEq, Repr

/-- `Cti`. -/
inductive Cti where
  | groupI | groupII | groupIIIA | groupIIIB
  deriving DecidableEq, Repr

/-- What a standard is asked about: the answers of the accessors of `Inputs`
(src/processors/Inputs.cpp:2919-2974, 3017-3065, 3163-3245). -/
structure Query (K : Type) where
  /-- `get_wiring_technology()` of the design requirements, an optional -/
  wiring : Option Wiring
  pd : Pd
  ovc : Ovc
  cls : Cls
  cti : Cti
  /-- the resolved maximum altitude (m) -/
  altitude : K
  /-- the resolved main supply voltage -/
  main : K
  /-- greatest rms voltage of any winding in any operating point -/
  vrms : K
  /-- greatest peak voltage of any winding in any operating point -/
  vpeak : K
  /-- greatest rms voltage of winding 0 -/
  vrms0 : K
  /-- greatest peak voltage of winding 0 -/
  vpeak0 : K
  /-- greatest frequency -/
  freq : K

/-- What a standard answers. -/
inductive Out (K : Type) where
  | ok (v : K)
  /-- `std::invalid_argument` -/
  | threw
  /-- an interpolation on an unsuitable table: `DBL_MAX`, an infinite or not-a-number value, or undefined
  behaviour (`back()` of an empty vector). Simplified: whatever the code would go on to do with it is not followed. -/
  | odd
  deriving DecidableEq, Repr

namespace Out

variable {K K' : Type}

/-- Sequencing: an exception ends the function. -/
def bind (o : Out K) (f : K → Out K') : Out K' :=
  match o with
  | ok v => f v
  | threw => threw
  | odd => odd

/-- A step-table look-up that throws when no row matches. -/
def ofOption : Option K → Out K
  | some v => ok v
  | none => threw

/-- The outcome of `linear_table_interpolation`. -/
def ofVal : Val K → Out K
  | .ok v => ok v
  | _ => odd

/-- Both operands are evaluated, then `std::max`. -/
def max2 [LinearOrder K] (a b : Out K) : Out K := a.bind fun x => b.bind fun y => ok (max x y)

end Out

variable {K : Type} [Field K] [LinearOrder K]

/-- The test `insulationType == REINFORCED || insulationType == DOUBLE` that recurs in every standard. -/
def Cls.strong : Cls → Bool
  | .reinforced => true
  | .double => true
  | _ => false

/-- `iec60664Part1MaximumFrequency`, `iec62368LowerFrequency`, `iec61558MaximumStandardFrequency`,
`ieC60335MaximumStandardFrequency` (src/constructive_models/Insulation.h:56, 84, 176, 277, 413). -/
def lineFrequency : K := 30000

/-- `lowerAltitudeLimit` (src/constructive_models/Insulation.h:57). -/
def altitudeLimit : K := 2000

/-- A step table read with "reinforced takes the next row": the rows of the table each with the value of its
successor, the last one with `last` applied to its own. -/
def nextRows (last : K → K) : Table K → Table K
  | [] => []
  | [a] => [(a.1, last a.2)]
  | a :: b :: l => (a.1, b.2) :: nextRows last (b :: l)

/-- A `std::map<double, table>` indexed by frequency, in ascending key order
(src/constructive_models/Insulation.h:93, 184, 287-292). -/
abbrev FreqTable (K : Type) := List (K × Table K)

/-- The greatest key (`rbegin()->first`) of a non-empty map given as head and tail. -/
def lastKey : K × Table K → FreqTable K → K
  | a, [] => a.1
  | _, b :: l => lastKey b l

/-- Models the loop over the standard frequencies (src/constructive_models/Insulation.cpp:606-626, 1367-1386):
`prev` is `previousStandardFrequency`, `before` is `previousTable`. -/
def freqLoop (volt freq : K) : K → Table K → FreqTable K → Out K
  | _, _, [] => .threw
  | prev, before, (std, rows) :: l =>
    if prev ≤ freq ∧ freq ≤ std then
      (Out.ofVal (interp rows volt)).bind fun top =>
        if before = [] then .ok top
        else (Out.ofVal (interp before volt)).bind fun bottom =>
          if std - prev = 0 then .odd else .ok (lerp bottom top ((freq - prev) / (std - prev)))
    else freqLoop volt freq std rows l

/-- Models `get_creepage_distance_over_30kHz` (src/constructive_models/Insulation.cpp:590-627) and the common
part of `calculate_creepage_distance_over_30kHz` (1354-1387): clamp to the greatest key, then the loop. -/
def overFreq (t : FreqTable K) (volt freq : K) : Out K :=
  match t with
  | [] => .threw
  | a :: l => freqLoop volt (if lastKey a l < freq then lastKey a l else freq) lineFrequency [] (a :: l)

/-- The factor of the pollution degree on the high-frequency creepage
(src/constructive_models/Insulation.cpp:796-805, 1016-1025). -/
def pdFactor : Pd → K
  | .pd1 => 1
  | .pd2 => 12 / 10
  | .pd3 => 14 / 10

/-! ## IEC 60664 -/

/-- The tables of `InsulationIEC60664Model` that its functions read (src/constructive_models/Insulation.h:85-126).
Only the inhomogeneous-field columns of F.2, F.8, 2 and 3 are ever read, and only the `wound` part of F.5: the
wiring argument of `get_creepage_distance` keeps its default. -/
structure T60664 (K : Type) where
  a2 : Table K
  f1 : Ovc → Table K
  f2 : Pd → Table K
  f3 : Table K
  /-- `none`: the key is missing -/
  f5 : Pd → Cti → Option (Table K)
  f8 : Table K
  p4t1 : Table K
  p4t2 : FreqTable K
  p5t2 : Table K
  p5t3 : Table K
  /-- `none`: the key is missing -/
  p5t4 : Pd → Cti → Option (Table K)

/-- What the model of the standard takes from elsewhere: `sqrt(2)` and the skin depth of copper at 20 °C
(`WindingSkinEffectLosses::calculate_skin_depth`, src/constructive_models/Insulation.cpp:660-661). -/
structure Phys (K : Type) where
  sqrt2 : K
  skin : K → K

/-- Models `get_rated_impulse_withstand_voltage` (src/constructive_models/Insulation.cpp:493-512). -/
def impulse664 (T : T60664 K) (ovc : Ovc) (v : K) (c : Cls) : Out K :=
  .ofOption (lookupLe (if c.strong then nextRows (· * (16 / 10)) (T.f1 ovc) else T.f1 ovc) v)

/-- Models the `insideTable` loop (src/constructive_models/Insulation.cpp:545-550, 640-645). -/
def inside (t : Table K) (v : K) : Bool := t.any fun r => decide (v < r.1)

/-- Models `get_clearance_planar` (src/constructive_models/Insulation.cpp:536-558) followed by its fall-back
`other` (732-742, 744-758). -/
def planarOr (t : Table K) (v : K) (other : Out K) : Out K :=
  if inside t v then .ofVal (interp t v) else other

/-- The table `get_clearance_planar` picks (src/constructive_models/Insulation.cpp:538-543). -/
def planarTable (T : T60664 K) (altitude : K) : Table K :=
  if altitude ≤ altitudeLimit then T.p5t2 else T.p5t3

/-- Models `get_clearance_over_30kHz` (src/constructive_models/Insulation.cpp:659-682). -/
def over30k664 (P : Phys K) (T : T60664 K) (peak freq clearance : K) : Out K :=
  if P.skin freq ≥ clearance * (2 / 10) then
    if freq / 10 ^ 6 < 2 / 10 / clearance then .ok clearance
    else if freq / 10 ^ 6 > 3 then .ok (clearance * (125 / 100))
    else if 3 - 2 / 10 / clearance = 0 then .odd
    else .ok (clearance *
      (1 + (freq / 10 ^ 6 - 2 / 10 / clearance) / (3 - 2 / 10 / clearance) * (25 / 100)))
  else .ofVal (interp T.p4t1 peak)

/-- The steady-state peak voltage, raised for the strong classes (src/constructive_models/Insulation.cpp:726-730). -/
def steady664 (q : Query K) : K := if q.cls.strong then q.vpeak * (16 / 10) else q.vpeak

/-- Models the transient part of `calculate_clearance` (src/constructive_models/Insulation.cpp:732-742). -/
def transientClearance (T : T60664 K) (q : Query K) (imp : K) : Out K :=
  if q.wiring = some .printed then
    planarOr (planarTable T q.altitude) imp (.ofOption (lookupLe (T.f2 q.pd) imp))
  else .ofOption (lookupLe (T.f2 q.pd) imp)

/-- Table F.8 with its high-frequency correction (src/constructive_models/Insulation.cpp:754-757). -/
def steadyWound (P : Phys K) (T : T60664 K) (q : Query K) (v : K) : Out K :=
  (Out.ofOption (lookupLe T.f8 v)).bind fun c =>
    if q.freq > lineFrequency then over30k664 P T v q.freq c else .ok c

/-- Models the steady-state part of `calculate_clearance` (src/constructive_models/Insulation.cpp:744-758). -/
def steadyClearance (P : Phys K) (T : T60664 K) (q : Query K) (v : K) : Out K :=
  if q.wiring = some .printed then planarOr (planarTable T q.altitude) v (steadyWound P T q v)
  else steadyWound P T q v

/-- The altitude correction (src/constructive_models/Insulation.cpp:655-657, 762-764). -/
def altitude664 (T : T60664 K) (altitude clearance : K) : Out K :=
  if altitude > altitudeLimit then
    (Out.ofVal (interp T.a2 altitude)).bind fun f => .ok (clearance * f)
  else .ok clearance

/-- Models `InsulationIEC60664Model::calculate_clearance` (src/constructive_models/Insulation.cpp:717-767). -/
def clearance664 (P : Phys K) (T : T60664 K) (q : Query K) : Out K :=
  (impulse664 T q.ovc q.vrms q.cls).bind fun imp =>
    ((transientClearance T q imp).max2 (steadyClearance P T q (steady664 q))).bind (altitude664 T q.altitude)

/-- Models `get_creepage_distance` with its default wiring (src/constructive_models/Insulation.cpp:569-588). -/
def creepageF5 (T : T60664 K) (pd : Pd) (cti : Cti) (v : K) : Out K :=
  match T.f5 pd cti with
  | none => .threw
  | some t => .ofOption (lookupLt t v)

/-- The creepage of wound components, with the high-frequency maximum (src/constructive_models/Insulation.cpp:791-808). -/
def creepageWound (T : T60664 K) (q : Query K) (v : K) : Out K :=
  if q.freq > lineFrequency then
    (creepageF5 T q.pd q.cti v).max2
      ((overFreq T.p4t2 q.vpeak q.freq).bind fun x => .ok (x * pdFactor q.pd))
  else creepageF5 T q.pd q.cti v

/-- The creepage before doubling (src/constructive_models/Insulation.cpp:629-653, 782-808). -/
def creepageBase664 (T : T60664 K) (q : Query K) (v : K) : Out K :=
  if q.wiring = some .printed then
    match T.p5t4 q.pd q.cti with
    | none => .threw
    | some t => planarOr t v (creepageWound T q v)
  else creepageWound T q v

/-- The doubling for the strong classes (src/constructive_models/Insulation.cpp:810-812, 1722-1724). -/
def doubled (c : Cls) (x : K) : K := if c.strong then x * 2 else x

/-- Models `allowSmallerCreepageDistanceThanClearance` (src/constructive_models/Insulation.cpp:815-823): whether
the creepage distance may stay below the clearance. -/
def maySkipClearance (T : T60664 K) (q : Query K) (creepage : K) : Option Bool :=
  if q.pd = .pd1 ∨ q.pd = .pd2 then
    match (impulse664 T q.ovc q.vrms q.cls).bind fun imp => .ofOption (lookupLe (T.f2 q.pd) imp) with
    | .ok f2 => some (decide (f2 < creepage))
    | _ => none
  else some false

/-- The creepage distance before the clearance is considered (src/constructive_models/Insulation.cpp:777-812). -/
def creepageRaw664 (T : T60664 K) (q : Query K) : Out K :=
  (Out.ofOption (lookupLt T.f3 q.main)).bind fun rated =>
    (creepageBase664 T q (max q.vrms rated)).bind fun c => .ok (doubled q.cls c)

variable [IsStrictOrderedRing K] [FloorRing K]

/-- Models `InsulationIEC60664Model::calculate_creepage_distance` (src/constructive_models/Insulation.cpp:769-830). -/
def creepage664 (P : Phys K) (T : T60664 K) (q : Query K) (includeClearance : Bool) : Out K :=
  (creepageRaw664 T q).bind fun c =>
    match maySkipClearance T q c with
    | none => .threw
    | some skip =>
      if !skip && includeClearance then
        (clearance664 P T q).bind fun cl => .ok (roundFloat (max c cl) 5)
      else .ok (roundFloat c 5)

/-- Models `InsulationIEC60664Model::calculate_withstand_voltage` (src/constructive_models/Insulation.cpp:695-715). -/
def withstand664 (P : Phys K) (T : T60664 K) (q : Query K) : Out K :=
  (impulse664 T q.ovc q.vrms q.cls).bind fun imp =>
    .ok (max imp (max (doubled q.cls (q.vrms + 1200))
      (max (if q.cls.strong then 12 / 10 * (11 / 10) * P.sqrt2 * q.vrms * (125 / 100)
            else 12 / 10 * (11 / 10) * P.sqrt2 * q.vrms) q.vpeak)))

/-- Models `InsulationIEC60664Model::calculate_distance_through_insulation`
(src/constructive_models/Insulation.cpp:684-693): the thickness search of `Verif.Insulation` above 30 kHz. -/
def Dti664 (q : Query K) (d : K) : Prop :=
  if q.freq > lineFrequency then ∃ s, SearchReturns (some q.vrms) s ∧ d = ceilFloat (max 0 s) 5
  else d = ceilFloat 0 5

/-! ## IEC 62368 -/

/-- The tables of `InsulationIEC62368Model` that its four calculations read
(src/constructive_models/Insulation.h:177-224). The Boolean is the strong column (`Reinforced`), else `Basic`. -/
structure T62368 (K : Type) where
  t10 : Bool → Pd → Table K
  t11 : Bool → Table K
  t12 : Ovc → Table K
  t14 : Bool → Pd → Table K
  t16 : Table K
  t17 : Pd → Cti → Table K
  t18 : FreqTable K
  t25 : Bool → Table K
  t26 : Bool → Table K
  t27 : Bool → Table K
  g13 : Bool → Table K

/-- Models `get_voltage_due_to_temporary_overvoltages_procedure_1` (src/constructive_models/Insulation.cpp:844-852). -/
def temporary623 (supply : K) : K := if supply ≤ 250 then max 2000 (supply + 1200) else max 2500 (supply + 1200)

/-- The rounding of clearances (src/constructive_models/Insulation.cpp:915-920, 935-940, 964-969). -/
def ceilClearance (x : K) : K := if x < 5 / 1000 then ceilFloat x 5 else ceilFloat x 4

/-- Models `get_clearance_table_10` and `get_clearance_table_14` (src/constructive_models/Insulation.cpp:903-941). -/
def clearanceTable (t : Table K) (v : K) : Out K :=
  (Out.ofVal (interp t v)).bind fun x => .ok (ceilClearance x)

/-- The factor of the pollution degree in table 11 (src/constructive_models/Insulation.cpp:954-962). -/
def pdFactor11 : Pd → K
  | .pd1 => 8 / 10
  | .pd2 => 1
  | .pd3 => 14 / 10

/-- Models `get_clearance_table_11` (src/constructive_models/Insulation.cpp:943-970). -/
def clearance11 (T : T62368 K) (c : Cls) (pd : Pd) (v : K) : Out K :=
  (Out.ofVal (interp (T.t11 c.strong) v)).bind fun x => .ok (ceilClearance (x * pdFactor11 pd))

/-- Models `get_distance_table_G13` (src/constructive_models/Insulation.cpp:972-983). -/
def distanceG13 (T : T62368 K) (c : Cls) (v : K) : Out K :=
  (Out.ofVal (interp (T.g13 c.strong) v)).bind fun x => .ok (ceilFloat x 4)

/-- Models `get_creepage_distance_table_17` (src/constructive_models/Insulation.cpp:985-998). -/
def creepage17 (T : T62368 K) (q : Query K) : Out K :=
  (Out.ofVal (interp (T.t17 q.pd q.cti) q.vrms)).bind fun x => .ok (ceilFloat (doubled q.cls x) 4)

/-- Models the loop of `get_creepage_distance_table_18` (src/constructive_models/Insulation.cpp:1001-1014). -/
def loop18 (volt freq : K) : K → FreqTable K → Out K
  | _, [] => .threw
  | prev, (std, rows) :: l =>
    if (prev ≤ freq ∧ freq ≤ std) ∨ std = 400000 then .ofVal (interp rows volt)
    else loop18 volt freq std l

/-- Models `get_creepage_distance_table_18` (src/constructive_models/Insulation.cpp:1000-1033). -/
def creepage18 (T : T62368 K) (q : Query K) : Out K :=
  (loop18 q.vrms q.freq lineFrequency T.t18).bind fun x =>
    .ok (ceilFloat (doubled q.cls (x * pdFactor q.pd)) 5)

/-- Models `get_altitude_factor` (src/constructive_models/Insulation.cpp:1035-1042). -/
def altitudeFactor623 (T : T62368 K) (altitude : K) : Out K :=
  (Out.ofVal (interp T.t16 altitude)).bind fun x => .ok (ceilFloat (max 1 x) 5)

/-- Models `InsulationIEC62368Model::calculate_clearance` (src/constructive_models/Insulation.cpp:1115-1148). -/
def clearance623 (T : T62368 K) (q : Query K) : Out K :=
  if q.wiring = some .printed then distanceG13 T q.cls q.vpeak
  else
    (if q.freq ≤ lineFrequency then
        clearanceTable (T.t10 q.cls.strong q.pd) (max q.vpeak (max q.vpeak (temporary623 q.main)))
      else clearance11 T q.cls q.pd q.vpeak).bind fun c1 =>
    (Out.ofOption (lookupLe (T.t12 q.ovc) q.main)).bind fun mains =>
    (clearanceTable (T.t14 q.cls.strong q.pd) (max q.vpeak mains)).bind fun c2 =>
    (altitudeFactor623 T q.altitude).bind fun f => .ok (ceilFloat (f * max c1 c2) 5)

/-- The creepage distance before the clearance is considered (src/constructive_models/Insulation.cpp:1163-1171). -/
def creepageRaw623 (T : T62368 K) (q : Query K) : Out K :=
  if q.freq ≤ lineFrequency then creepage17 T q else (creepage17 T q).max2 (creepage18 T q)

/-- Models `InsulationIEC62368Model::calculate_creepage_distance` (src/constructive_models/Insulation.cpp:1150-1180). -/
def creepage623 (T : T62368 K) (q : Query K) (includeClearance : Bool) : Out K :=
  if q.wiring = some .printed then distanceG13 T q.cls q.vpeak
  else if includeClearance then (creepageRaw623 T q).max2 (clearance623 T q)
  else creepageRaw623 T q

/-- Models `InsulationIEC62368Model::calculate_withstand_voltage` (src/constructive_models/Insulation.cpp:854-890,
1070-1094). -/
def withstand623 (T : T62368 K) (q : Query K) : Out K :=
  (Out.ofVal (interp (T.t25 q.cls.strong) q.vpeak)).max2
    ((Out.ofVal (interp (T.t26 q.cls.strong) q.vpeak)).max2
      (.ofOption (lookupLt (T.t27 q.cls.strong) q.main)))

/-- Models `get_es2_voltage_limit` (src/constructive_models/Insulation.cpp:1055-1068). -/
def es2Limit (freq : K) : K :=
  if freq < 1 then 120
  else if freq < 1000 then 50
  else if freq < 100000 then 50 + 9 / 10 * (freq / 1000)
  else 140

/-- Models `InsulationIEC62368Model::calculate_distance_through_insulation`
(src/constructive_models/Insulation.cpp:1096-1113). -/
def dti623 (q : Query K) : K :=
  if q.vrms ≤ es2Limit q.freq then 0
  else if q.cls = .functional ∨ q.cls = .basic then 0
  else 4 / 10000

/-! ## IEC 61558 -/

/-- The tables of `InsulationIEC61558Model` that its calculations read
(src/constructive_models/Insulation.h:278-355). -/
structure T61558 (K : Type) where
  t14 : Ovc → Cls → Table K
  t20 : Ovc → Cls → Pd → Table K
  t21 : Cti → Cls → Pd → Table K
  /-- thin layers -/
  t22 : Cls → Table K
  t103 : Bool → Table K
  t104 : Bool → Table K
  /-- tables 105 to 107 (not strong) and 108 to 110 (strong) -/
  tHigh : Bool → Pd → FreqTable K

/-- `iec61558MaximumSupplyVoltage` (src/constructive_models/Insulation.h:276): above it every calculation throws
(src/constructive_models/Insulation.cpp:1390-1393, 1410-1413, 1429-1432, 1470-1473). -/
def guardSupply (q : Query K) (o : Out K) : Out K := if q.main > 1100 then .threw else o

/-- The pollution degree used: printed wiring counts as degree 1 (src/constructive_models/Insulation.cpp:1445-1447,
1486-1488). -/
def pd615 (q : Query K) : Pd := if q.wiring = some .printed then .pd1 else q.pd

/-- Models `get_clearance_table_20` (src/constructive_models/Insulation.cpp:1198-1214). -/
def clearance20 (T : T61558 K) (ovc : Ovc) (pd : Pd) (c : Cls) (v : K) : Out K :=
  if v < 25 ∨ pd = .pd1 ∨ c = .functional then .ok 0 else .ofOption (lookupLe (T.t20 ovc c pd) v)

/-- Models `calculate_clearance_over_30kHz` (src/constructive_models/Insulation.cpp:1272-1318): the value of
table 103, raised to that of table 104 when that table reaches the voltage; without a row in table 103 the
running value is still `DBL_MAX` and the function throws. -/
def clearanceHigh615 (T : T61558 K) (c : Cls) (v : K) : Out K :=
  if v < 25 ∨ c = .functional then .ok 0
  else (Out.ofOption (lookupLe (T.t103 c.strong) v)).bind fun x =>
    match lookupLe (T.t104 c.strong) v with
    | some y => .ok (max x y)
    | none => .ok x

/-- Models `InsulationIEC61558Model::calculate_clearance` (src/constructive_models/Insulation.cpp:1428-1467). -/
def clearance615 (P : Phys K) (T6 : T60664 K) (T : T61558 K) (q : Query K) : Out K :=
  guardSupply q <|
    if q.cls = .functional then .ok 0
    else (clearance20 T q.ovc (pd615 q) q.cls q.vrms).bind fun c =>
      if q.altitude > altitudeLimit then clearance664 P T6 q
      else if q.freq > lineFrequency then
        (clearanceHigh615 T q.cls q.vpeak).bind fun h => .ok (ceilFloat (max c h) 5)
      else .ok (ceilFloat c 5)

/-- Models `get_creepage_distance_table_21` (src/constructive_models/Insulation.cpp:1216-1229). -/
def creepage21 (T : T61558 K) (q : Query K) : Out K :=
  if q.vrms < 25 ∨ q.cls = .functional then .ok 0 else .ofVal (interp (T.t21 q.cti q.cls (pd615 q)) q.vrms)

/-- Models `calculate_creepage_distance_over_30kHz` (src/constructive_models/Insulation.cpp:1320-1387). -/
def creepageHigh615 (T : T61558 K) (q : Query K) : Out K :=
  if q.vpeak < 25 ∨ q.cls = .functional then .ok 0
  else overFreq (T.tHigh q.cls.strong (pd615 q)) q.vpeak q.freq

/-- The creepage distance before the clearance is considered (src/constructive_models/Insulation.cpp:1490-1494). -/
def creepageRaw615 (T : T61558 K) (q : Query K) : Out K :=
  if q.freq > lineFrequency then (creepage21 T q).max2 (creepageHigh615 T q) else creepage21 T q

/-- Models `InsulationIEC61558Model::calculate_creepage_distance` (src/constructive_models/Insulation.cpp:1469-1501). -/
def creepage615 (P : Phys K) (T6 : T60664 K) (T : T61558 K) (q : Query K) (includeClearance : Bool) : Out K :=
  guardSupply q <|
    if q.cls = .functional then .ok 0
    else (if includeClearance then (creepageRaw615 T q).max2 (clearance615 P T6 T q)
          else creepageRaw615 T q).bind fun c => .ok (ceilFloat c 5)

/-- Models `InsulationIEC61558Model::calculate_withstand_voltage` (src/constructive_models/Insulation.cpp:1190-1196,
1409-1426). -/
def withstand615 (T : T61558 K) (q : Query K) : Out K :=
  guardSupply q <|
    (Out.ofVal (interp (T.t14 q.ovc q.cls) q.vrms)).bind fun w =>
      if q.freq > lineFrequency then .ok (max w (q.vrms + 500)) else .ok w

/-- Models `get_distance_through_insulation_table_22` with thin layers (src/constructive_models/Insulation.cpp:1231-1246). -/
def dti22 (T : T61558 K) (q : Query K) : Out K :=
  if q.vrms < 25 ∨ q.cls = .functional ∨ q.cls = .basic then .ok 0 else .ofVal (interp (T.t22 q.cls) q.vrms)

/-- Models `InsulationIEC61558Model::calculate_distance_through_insulation` as the coordinator calls it
(src/constructive_models/Insulation.cpp:1389-1407): `Dti615 T q (some d)` when it returns `d`, `Dti615 T q none`
when it throws. -/
def Dti615 (T : T61558 K) (q : Query K) (r : Option K) : Prop :=
  if q.main > 1100 then r = none
  else if q.cls = .functional then r = some 0
  else ∃ d, dti22 T q = .ok d ∧
    if q.freq > lineFrequency then ∃ s, SearchReturns (some q.vrms) s ∧ r = some (ceilFloat (max d s) 5)
    else r = some (ceilFloat d 5)

/-! ## IEC 60335 -/

/-- The tables of `InsulationIEC60335Model` (src/constructive_models/Insulation.h:414-447). -/
structure T60335 (K : Type) where
  /-- the functional class is refused before the table is read -/
  t7 : Cls → Table K
  t15 : Ovc → Table K
  t16 : Table K
  t17 : Pd → Cti → Table K
  t18 : Pd → Cti → Table K
  t19 : Ovc → Table K

/-- Models `get_clearance_table_16` (src/constructive_models/Insulation.cpp:1514-1550). -/
def clearance16 (T : T60335 K) (pd : Pd) (w : Option Wiring) (c : Cls) (imp : K) : Out K :=
  (Out.ofOption (lookupLe (if c.strong then nextRows id T.t16 else T.t16) imp)).bind fun base =>
    let r := if imp ≤ (if c.strong then 800 else 1500) ∧ pd = .pd3 then 8 / 10000 else base
    .ok (if imp ≤ (if c.strong then 500 else 800) ∧ (pd = .pd1 ∨ pd = .pd2) ∧ w = some .printed then 2 / 10000
         else r)

/-- `ratedVoltage` (src/constructive_models/Insulation.cpp:1630-1632, 1652-1655, 1672-1677). -/
def rated603 (q : Query K) : K := max q.main q.vrms0

/-- Whether the clearance of IEC 60664 is consulted as well (src/constructive_models/Insulation.cpp:1689-1691). -/
def Uses664 (q : Query K) : Prop := q.vrms > q.vrms0 ∨ q.altitude > altitudeLimit ∨ q.freq > lineFrequency

instance (q : Query K) : Decidable (Uses664 q) := by unfold Uses664; infer_instance

/-- Models `InsulationIEC60335Model::calculate_clearance` (src/constructive_models/Insulation.cpp:1667-1705). -/
def clearance603 (P : Phys K) (T6 : T60664 K) (T : T60335 K) (q : Query K) : Out K :=
  if q.ovc = .iv then .threw
  else (Out.ofOption (lookupLe (T.t15 q.ovc) (rated603 q))).bind fun imp =>
    (clearance16 T q.pd q.wiring q.cls imp).bind fun c =>
      if Uses664 q then (clearance664 P T6 q).bind fun c6 => .ok (max c c6) else .ok c

/-- The creepage distance before the clearance is considered (src/constructive_models/Insulation.cpp:1716-1738). -/
def creepageRaw603 (P : Phys K) (T6 : T60664 K) (T : T60335 K) (q : Query K) : Out K :=
  if q.freq ≤ lineFrequency then
    if q.cls = .functional then .ofOption (lookupLe (T.t18 q.pd q.cti) q.vpeak0)
    else (Out.ofOption (lookupLe (T.t17 q.pd q.cti) q.vpeak0)).bind fun c => .ok (doubled q.cls c)
  else creepage664 P T6 q false

/-- Models `InsulationIEC60335Model::calculate_creepage_distance` (src/constructive_models/Insulation.cpp:1707-1745). -/
def creepage603 (P : Phys K) (T6 : T60664 K) (T : T60335 K) (q : Query K) (includeClearance : Bool) : Out K :=
  (if includeClearance then (creepageRaw603 P T6 T q).max2 (clearance603 P T6 T q)
   else creepageRaw603 P T6 T q).bind fun c => .ok (roundFloat c 5)

/-- Models `get_withstand_voltage_formula_table_7` (src/constructive_models/Insulation.cpp:1589-1600). -/
def formula7 (c : Cls) (v : K) : K :=
  match c with
  | .functional => 0
  | .basic => 12 / 10 * v + 950
  | .supplementary => 12 / 10 * v + 1450
  | .reinforced => 24 / 10 * v + 2400
  | .double => 24 / 10 * v + 2400

/-- Models `InsulationIEC60335Model::calculate_withstand_voltage` (src/constructive_models/Insulation.cpp:1563-1587,
1650-1665). -/
def withstand603 (T : T60335 K) (q : Query K) : Out K :=
  if q.cls = .functional then .ok 0
  else (Out.ofOption (lookupLe (T.t7 q.cls) (rated603 q))).bind fun w => .ok (max w (formula7 q.cls q.vpeak))

/-- Models `InsulationIEC60335Model::calculate_distance_through_insulation`
(src/constructive_models/Insulation.cpp:1552-1561, 1628-1648). -/
def dti603 (T : T60335 K) (q : Query K) : Out K :=
  if q.ovc = .iv then .threw
  else if q.cls = .reinforced then
    (Out.ofOption (lookupLe (T.t19 q.ovc) (rated603 q))).bind fun d => .ok (max (2 / 1000) d)
  else if q.cls = .supplementary ∨ q.cls = .double then .ok (1 / 1000)
  else .ok 0

/-! ## The coordinator on the four standards -/

/-- The tables of the four models. -/
structure Tables (K : Type) where
  t664 : T60664 K
  t623 : T62368 K
  t615 : T61558 K
  t603 : T60335 K

/-- The clearance each standard requires (src/constructive_models/Insulation.cpp:390-409). -/
def clearanceOf (P : Phys K) (T : Tables K) (q : Query K) : Standard → Out K
  | .iec60335 => clearance603 P T.t664 T.t603 q
  | .iec60664 => clearance664 P T.t664 q
  | .iec61558 => clearance615 P T.t664 T.t615 q
  | .iec62368 => clearance623 T.t623 q

/-- The creepage distance each standard requires (src/constructive_models/Insulation.cpp:418-437). -/
def creepageOf (P : Phys K) (T : Tables K) (q : Query K) (includeClearance : Bool) : Standard → Out K
  | .iec60335 => creepage603 P T.t664 T.t603 q includeClearance
  | .iec60664 => creepage664 P T.t664 q includeClearance
  | .iec61558 => creepage615 P T.t664 T.t615 q includeClearance
  | .iec62368 => creepage623 T.t623 q includeClearance

/-- The withstand voltage each standard requires (src/constructive_models/Insulation.cpp:361-380). -/
def withstandOf (P : Phys K) (T : Tables K) (q : Query K) : Standard → Out K
  | .iec60335 => withstand603 T.t603 q
  | .iec60664 => withstand664 P T.t664 q
  | .iec61558 => withstand615 T.t615 q
  | .iec62368 => withstand623 T.t623 q

/-- The distance through insulation each standard requires, `none` when it throws
(src/constructive_models/Insulation.cpp:446-465). -/
def DtiOf (T : Tables K) (q : Query K) : Standard → Option K → Prop
  | .iec60335, r => (dti603 T.t603 q = .threw ∧ r = none) ∨ ∃ d, dti603 T.t603 q = .ok d ∧ r = some d
  | .iec60664, r => ∃ d, Dti664 q d ∧ r = some d
  | .iec61558, r => Dti615 T.t615 q r
  | .iec62368, r => r = some (dti623 q)

/-- An answer as the coordinator's loop sees it: only a number goes on. -/
def Out.toOption : Out K → Option K
  | .ok v => some v
  | _ => none

end Verif.Standards
