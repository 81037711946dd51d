import Mathlib.Algebra.Order.Field.Basic
import Mathlib.Algebra.Order.BigOperators.Group.List
import Mathlib.Algebra.BigOperators.Group.List.Basic
import Mathlib.Algebra.Order.Floor.Ring
import Mathlib.Data.Rat.Floor

/-!
# Model of the stray capacitances of a coil

Source: `/repo/src/physical_models/StrayCapacitance.cpp`.

Doubles are the elements of an ordered field: sums have no rounding, and the checks for values that are not finite
(580-585, 1960-1971) never fire. The capacitance between two neighbouring turns and between a turn and the core are inputs here
(`near`, `fixed`, `toCore`); the formula of the latter is in `TurnToCore.lean`. A quotient 0 / 0 is a distinct outcome.
-/

set_option linter.unusedSectionVars false

namespace Verif.StrayCapacitance

variable {K : Type} [Field K] [LinearOrder K] [IsStrictOrderedRing K]

/-- A winding, as far as its capacitances go (`get_name`, `get_number_turns`). -/
structure Winding where
  name : String
  turns : Int
  deriving DecidableEq, Repr

/-- A turn: its winding and its parallel (`get_winding`, `get_parallel`). -/
structure Turn where
  winding : String
  parallel : Nat
  deriving DecidableEq, Repr

/-- Exceptions thrown here. -/
inductive Err
  | noTurns          -- 541, 1721
  | noExcitation     -- 1864
  | noVoltage        -- 1870
  | notProcessed     -- 1874
  | noRms            -- 1879
  | energyNoDrop     -- 2018
  | missingWinding   -- 2164
  | ladderAb         -- 2195
  | ladderAs         -- 2208
  | noCore           -- 2244
  deriving DecidableEq, Repr

/-! ## Voltages of the turns -/

/-- `numberTurnsPerWinding` (544-547) read with `operator[]`: the last winding of a name counts, an unknown name has 0. -/
def numberTurns (ws : List Winding) (name : String) : Int :=
  match ws.reverse.find? (fun w => w.name = name) with
  | some w => w.turns
  | none => 0

/-- What is computed for a turn: the fractions of the voltage of its winding at its start and at its end, and its voltage. -/
structure TurnVoltage (K : Type) where
  start : K
  stop : K
  volt : K
  deriving DecidableEq, Repr

/-- Lines 564-586: the dividers of a turn which is number `k` of its parallel, in a winding of `N` turns and `v` volts. -/
def turnVoltage (N : Int) (k : Nat) (v : K) : TurnVoltage K :=
  if N > 1 then
    { start := ((N : K) - (k : K)) / (N : K)
      stop := ((N : K) - (k : K) - 1) / (N : K)
      volt := v * ((((N - 1 : Int) : K) - (k : K)) / ((N - 1 : Int) : K)) }
  else { start := 1, stop := 0, volt := v * (1 / 2) }

/-- The loop of 560-588. `count` is `turnIndexPerWindingPerParallel` (549-554), where what is not there reads 0;
`rms` is `voltageRmsPerWinding` read with `operator[]`, 0 for a name which is not there. -/
def voltLoop (ws : List Winding) (rms : String → K) (count : String × Nat → Nat) : List Turn → List (TurnVoltage K)
  | [] => []
  | t :: ts =>
    turnVoltage (numberTurns ws t.winding) (count (t.winding, t.parallel)) (rms t.winding) ::
      voltLoop ws rms
        (fun key => if key = (t.winding, t.parallel) then count key + 1 else count key) ts

/-- `calculate_voltages_per_turn` from the voltage of each winding (539-595). -/
def voltagesPerTurn (ws : List Winding) (rms : String → K) (turns : Option (List Turn)) : Except Err (List (TurnVoltage K)) :=
  match turns with
  | none => .error .noTurns
  | some ts => .ok (voltLoop ws rms (fun _ => 0) ts)

/-- An excitation: whether it has a voltage, whether that is processed, and its rms (1867-1880). -/
abbrev Excitation (K : Type) := Option (Option (Option K))

/-- The voltages of the windings taken from an operating point (1862-1883), in the order of the windings. -/
def rmsOfExcitations : List Winding → List (Excitation K) → Except Err (List (String × K))
  | [], _ => .ok []
  | _ :: _, [] => .error .noExcitation
  | _ :: _, none :: _ => .error .noVoltage
  | _ :: _, some none :: _ => .error .notProcessed
  | _ :: _, some (some none) :: _ => .error .noRms
  | w :: ws, some (some (some v)) :: es =>
    match rmsOfExcitations ws es with
    | .error e => .error e
    | .ok r => .ok ((w.name, v) :: r)

/-- Reading a map filled in order: the last value written, 0 if there is none (`operator[]`). -/
def readMap (m : List (String × K)) (name : String) : K :=
  match m.reverse.find? (fun p => p.1 = name) with
  | some p => p.2
  | none => 0

/-- The voltages taken when none are given (1849-1854): 10 V for the first winding, the others by turns. A winding without turns
makes the ratio infinite and its voltage 0 (or not a number if the first has none either, which is not modelled). -/
def defaultRms (ws : List Winding) : List (String × K) :=
  match ws with
  | [] => []
  | w0 :: _ => ws.map fun w => (w.name, 10 / ((w0.turns : K) / (w.turns : K)))

/-! ## Two layers of insulation -/

/-- `get_effective_relative_permittivity` (597-613); `none` is an infinite thickness. -/
def effectivePermittivity (d1 : Option K) (e1 : K) (d2 : Option K) (e2 : K) : K :=
  match d1, d2 with
  | some d1, some d2 =>
    if d1 = 0 then e2
    else if d2 = 0 then e1
    else e1 * e2 * (d1 + d2) / (d1 * e2 + d2 * e1)
  | _, _ => max e1 e2

/-! ## The core as a floating conductor -/

/-- Sum of capacitances times potentials (1626, 1693). -/
def sumCV (l : List (K × K)) : K := (l.map fun p => p.1 * p.2).sum

/-- Sum of capacitances (1627, 1694). -/
def sumC (l : List (K × K)) : K := (l.map fun p => p.1).sum

/-- Energy of the elements with the core at a potential (1639, 1702). -/
def coreEnergyAt (l : List (K × K)) (v : K) : K := (l.map fun p => 1 / 2 * p.1 * (p.2 - v) ^ 2).sum

/-- `corePotential` (1633, 1699). -/
def corePotential (l : List (K × K)) : K := sumCV l / sumC l

/-- The largest of the elements of a list, none if it is empty. The initial values ± `max()` of 1636-1637 and 1911-1914 are seen
only if the list is empty. -/
def maxOf (l : List K) : Option K :=
  match l with
  | [] => none
  | x :: xs => some (xs.foldl max x)

/-- The smallest of the elements of a list. -/
def minOf (l : List K) : Option K :=
  match l with
  | [] => none
  | x :: xs => some (xs.foldl min x)

/-- The elements considered for two windings (1601-1628): those of other windings are skipped and the second has its sign
changed. `toCore` is the element of each turn, `volt` its voltage. -/
def throughElements (toCore volt : Nat → K) (first second : String) (turns : List Turn) : List (K × K) :=
  turns.zipIdx.filterMap fun ti =>
    if ti.1.winding = first then some (toCore ti.2, 1 * volt ti.2)
    else if ti.1.winding = second then some (toCore ti.2, -1 * volt ti.2)
    else none

/-- `calculate_through_core_capacitance` from 1630 on. If no potential is negative, or none is not, the difference of 1649 is
below zero because of the initial values, and the result is 0. -/
def throughOf (l : List (K × K)) : K :=
  if sumC l ≤ 0 then 0
  else
    match maxOf ((l.map Prod.snd).filter (fun v => 0 ≤ v)), minOf ((l.map Prod.snd).filter (fun v => ¬ 0 ≤ v)) with
    | some hi, some lo =>
      if hi - lo ≤ 0 then 0
      else 2 * coreEnergyAt l (corePotential l) / ((hi - lo) * (hi - lo))
    | _, _ => 0

/-- `calculate_through_core_capacitance` (1569-1654). -/
def throughCore (toCore volt : Nat → K) (first second : String) (turns : List Turn) : K :=
  throughOf (throughElements toCore volt first second turns)

/-- The elements of one winding (1681-1695). -/
def selfElements (toCore volt : Nat → K) (name : String) (turns : List Turn) : List (K × K) :=
  turns.zipIdx.filterMap fun ti => if ti.1.winding ≠ name then none else some (toCore ti.2, volt ti.2)

/-- `calculate_winding_to_core_self_energy` (1656-1705). -/
def selfCoreEnergy (toCore volt : Nat → K) (name : String) (turns : List Turn) : K :=
  let l := selfElements toCore volt name turns
  if sumC l ≤ 0 then 0 else coreEnergyAt l (corePotential l)

/-- The sum of `calculate_winding_to_core_capacitance` (1555-1566). -/
def windingToCore (toCore : Nat → K) (name : String) (turns : List Turn) : K :=
  ((turns.zipIdx.filter fun ti => ti.1.winding = name).map fun ti => toCore ti.2).sum

/-! ## Capacitances among turns -/

/-- Going through keys, skipping those which, or whose inverse, were taken before (1742-1744 and 1750; 1907-1909; 1948-1951). -/
def visit {β α : Type} [DecidableEq α] (key : β → α × α) (seen : List (α × α)) : List β → List β
  | [] => []
  | b :: bs =>
    if key b ∈ seen ∨ (key b).swap ∈ seen then visit key seen bs
    else b :: visit key (key b :: seen) bs

/-- The pairs of 1734-1739: every turn with each of its surrounding turns. `near` is `get_surrounding_turns`. -/
def nearPairs (near : Nat → List Nat) (number : Nat) : List (Nat × Nat) :=
  (List.range number).flatMap fun a => (near a).map fun b => (a, b)

/-- `calculate_capacitance_among_turns` (1719-1755), as the function which the map is: `fixed a b` is the capacitance computed for
turn `a` and its surrounding turn `b`. -/
def amongTurns (near : Nat → List Nat) (fixed : Nat → Nat → K) (number : Nat) (a b : Nat) : Option K :=
  let kept := visit id [] (nearPairs near number)
  if (a, b) ∈ kept then some (fixed a b)
  else if (b, a) ∈ kept then some (fixed b a)
  else none

/-! ## Capacitances between windings -/

/-- The matrix of `calculate_capacitance_matrix_between_windings` (1797-1821), `none` when the quotient of 1803 is 0 / 0 or
infinite. -/
structure Multipole (K : Type) where
  c11 : K
  c12 : K
  c13 : K
  c22 : K
  c23 : K
  c33 : K
  deriving DecidableEq, Repr

def multipole (energy drop ratio : K) : Option (Multipole K) :=
  if drop = 0 then none
  else
    let c0 := energy * 2 / drop ^ 2
    let g1 := -c0 / 6
    let g2 := -c0 / 6
    let g3 := c0 / 3
    let g4 := c0 / 3
    let g5 := c0 / 6
    let g6 := c0 / 6
    some { c11 := g1 + ratio * (g4 + g5), c12 := -2 * g4, c13 := 2 * ratio * g5,
           c22 := g2 + g4 + g6, c23 := 2 * g6, c33 := g3 + g5 + g6 }

/-- Line 2007: the potential of the third node; `none` is not a number (or infinite, when 2018 throws). -/
def thirdNode (m : Option (Multipole K)) (max1 min2 : K) : Option K :=
  match m with
  | none => none
  | some m => if m.c33 = 0 then none else some |(-(m.c13 * max1 + m.c23 * |min2|)) / m.c33|

/-- What the capacitances of the windings are computed from: the windings, the turns, the capacitance among turns (1895), the
voltage of each turn (1897-1898) and, when a core is given, the element of each turn to it. -/
structure Coil (K : Type) where
  windings : List Winding
  turns : List Turn
  cap : Nat → Nat → Option K
  volt : Nat → K
  core : Option (Nat → K)

/-- `get_turns_indexes_by_winding` (Coil.cpp 5451-5461). -/
def turnsOf (turns : List Turn) (name : String) : List Nat :=
  (turns.zipIdx.filter fun ti => ti.1.winding = name).map Prod.snd

/-- The pairs of turns visited for two windings (1932-1951). -/
def turnPairs (c : Coil K) (first second : String) : List (Nat × Nat) :=
  visit id [] ((turnsOf c.turns first).flatMap fun a => (turnsOf c.turns second).map fun b => (a, b))

/-- The pairs with a capacitance and it (1952). -/
def coupled (c : Coil K) (first second : String) : List ((Nat × Nat) × K) :=
  (turnPairs c first second).filterMap fun p =>
    match c.cap p.1 p.2 with
    | none => none
    | some x => some (p, x)

/-- Voltage of a turn of the second winding (1939-1942). -/
def secondVolt (c : Coil K) (first second : String) (b : Nat) : K :=
  if first ≠ second then -c.volt b else c.volt b

/-- Voltage drop between two turns (1954). -/
def dropOf (c : Coil K) (first second : String) (v3 : K) (p : Nat × Nat) : K :=
  v3 + c.volt p.1 - secondVolt c first second p.2

/-- Energy of the pairs of turns (1955-1956). -/
def pairEnergy (c : Coil K) (first second : String) (v3 : K) : K :=
  ((coupled c first second).map fun q => 1 / 2 * q.2 * dropOf c first second v3 q.1 ^ 2).sum

/-- Energy of two windings (1920-1985): that of the pairs, and that of the core for a winding and itself. -/
def energyOf (c : Coil K) (first second : String) (v3 : K) : K :=
  pairEnergy c first second v3 +
    (match c.core with
     | some toCore => if first = second then selfCoreEnergy toCore c.volt first c.turns else 0
     | none => 0)

/-- What an iteration leaves: the capacitance of the pair, the potential to compare with and the matrix. `none` for the
potential is not a number, for the matrix that it was not computed. -/
structure Iter (K : Type) where
  cap : K
  v3 : Option K
  deriving DecidableEq, Repr

/-- The largest voltage of the first winding and the smallest of the second (1935-1944). -/
def max1 (c : Coil K) (first : String) : Option K := maxOf ((turnsOf c.turns first).map c.volt)
def min2 (c : Coil K) (first second : String) : Option K :=
  minOf ((turnsOf c.turns second).map (secondVolt c first second))

/-- Capacitance of windings without neighbouring turns (1995-1999). -/
def notAdjacentCap (c : Coil K) (first second : String) : K :=
  match c.core with
  | some toCore => if first ≠ second then throughCore toCore c.volt first second c.turns else 0
  | none => 0

/-- An iteration of 1924-2024 with the third node at `v3`. The ratio of turns needs a second winding with turns; a coil with turns
of a winding declared with none is not modelled (the ratio would be infinite). -/
def iterate (c : Coil K) (first second : Winding) (v3 : K) : Except Err (Iter K) :=
  match coupled c first.name second.name, max1 c first.name, min2 c first.name second.name with
  | _ :: _, some hi, some lo =>
    let energy := energyOf c first.name second.name v3
    let drop := hi - lo + v3
    let ratio := (first.turns : K) / (second.turns : K)
    let next := if first.name ≠ second.name then thirdNode (multipole energy drop ratio) hi lo else some v3
    if energy = 0 then .ok { cap := 0, v3 := next }
    else if drop = 0 then .error .energyNoDrop
    else .ok { cap := energy * 2 / drop ^ 2, v3 := next }
  | _, _, _ => .ok { cap := notAdjacentCap c first.name second.name, v3 := some v3 }

/-- `std::numeric_limits<double>::min()`. -/
def dblMin : K := 1 / 2 ^ 1022

/-- The condition of 1924: not a number compares false. -/
def again (v3 : K) (next : Option K) : Bool :=
  match next with
  | none => false
  | some w => decide (|v3 - w| > 1 / 1000 * max |v3| dblMin)

/-- The loop of 1924-2024, with at most `fuel` iterations; `none` when they were not enough. -/
def loop (c : Coil K) (first second : Winding) : Nat → K → Option (Except Err K)
  | 0, _ => none
  | fuel + 1, v3 =>
    match iterate c first second v3 with
    | .error e => some (.error e)
    | .ok it =>
      match it.v3 with
      | none => some (.ok it.cap)
      | some w => if again v3 (some w) then loop c first second fuel w else some (.ok it.cap)

/-- The capacitance of two windings (1911-2024). The loop ends in two iterations, see `loop_ends`. -/
def pairCap (c : Coil K) (first second : Winding) : Except Err K :=
  match loop c first second 2 0 with
  | some r => r
  | none => .ok 0

/-- The pairs of windings computed (1901-1909). -/
def windingPairs (ws : List Winding) : List (Winding × Winding) :=
  visit (fun p => (p.1.name, p.2.name)) [] (ws.flatMap fun a => ws.map fun b => (a, b))

/-- `capacitanceMapPerWindings` (1900-2031). -/
def pairCaps (c : Coil K) : Except Err (List ((String × String) × K)) :=
  (windingPairs c.windings).mapM fun p =>
    match pairCap c p.1 p.2 with
    | .error e => .error e
    | .ok x => .ok ((p.1.name, p.2.name), x)

/-- Reading `staticCapacitanceMapPerWindings` (2033-2051): what was computed for the pair, in either order. -/
def staticOf (m : List ((String × String) × K)) (a b : String) : Option K :=
  match m.find? (fun q => q.1 = (a, b)) with
  | some q => some q.2
  | none =>
    match m.find? (fun q => q.1 = (b, a)) with
    | some q => some q.2
    | none => none

/-- `calculate_capacitance_with_voltages` (1888-2051): the capacitance among windings. -/
def amongWindings (c : Coil K) : Except Err (String → String → Option K) :=
  match pairCaps c with
  | .error e => .error e
  | .ok m => .ok (staticOf m)

/-- The coil whose capacitances are computed for given voltages (1895-1898). -/
def coilOf (ws : List Winding) (rms : String → K) (turns : List Turn) (near : Nat → List Nat) (fixed : Nat → Nat → K)
    (core : Option (Nat → K)) : Coil K :=
  { windings := ws, turns := turns, cap := amongTurns near fixed turns.length,
    volt := fun i => match (voltLoop ws rms (fun _ => 0) turns)[i]? with
      | some v => v.volt
      | none => 0
    core := core }

/-! ## Networks and matrices -/

/-- `calculate_six_capacitor_network` (1835-1845). -/
structure SixCap (K : Type) where
  c1 : K
  c2 : K
  c3 : K
  c4 : K
  c5 : K
  c6 : K
  deriving DecidableEq, Repr

def sixCap (c0 : K) : SixCap K :=
  { c1 := -c0 / 6, c2 := -c0 / 6, c3 := c0 / 3, c4 := c0 / 3, c5 := c0 / 6, c6 := c0 / 6 }

/-- A tripole (2071-2074). -/
structure Tripole (K : Type) where
  c1 : K
  c2 : K
  c3 : K
  deriving DecidableEq, Repr

/-- The tripoles written in the loop of 2060-2082, the last one for a key being that kept. -/
def tripoleWrites (ws : List String) (st : String → String → Option K) : List ((String × String) × Tripole K) :=
  match ws with
  | [] => []
  | wi :: rest =>
    (rest.flatMap fun wj =>
      match st wi wj with
      | none => []
      | some cinter =>
        let t : Tripole K := { c1 := (st wi wi).getD 0, c2 := (st wj wj).getD 0, c3 := cinter }
        [((wi, wj), t), ((wj, wi), t)]) ++ tripoleWrites rest st

/-- The last value written for a key. -/
def lastWritten {α V : Type} [DecidableEq α] (m : List (α × V)) (k : α) : Option V :=
  match m.reverse.find? (fun q => q.1 = k) with
  | some q => some q.2
  | none => none

def tripole (ws : List String) (st : String → String → Option K) (a b : String) : Option (Tripole K) :=
  lastWritten (tripoleWrites ws st) (a, b)

/-- Writes of a row of `calculate_maxwell_capacitance_matrix` (2150-2167). -/
def maxwellRow (ws : List String) (c : String → String → Option K) (a : String) : List ((String × String) × K) :=
  (ws.flatMap fun b =>
    match c a b with
    | none => []
    | some x => if a ≠ b then [((a, b), -x), ((b, a), -x)] else []) ++
  [((a, a), (ws.map fun b => (c a b).getD 0).sum)]

/-- `calculate_maxwell_capacitance_matrix` (2142-2171): `rows` are the names the map has, `c` its values. -/
def maxwell (ws : List String) (rows : List String) (c : String → String → Option K) :
    Except Err (String → String → Option K) :=
  if ws.all (fun a => decide (a ∈ rows)) then
    .ok fun a b => lastWritten (ws.flatMap (maxwellRow ws c)) (a, b)
  else .error .missingWinding

/-! ## What is reported for pairs of turns -/

/-- The potential of the third node of the last iteration, for two windings: that used for the energies which remain in the maps
(1957-1958; every iteration writes the same keys). -/
def lastNode (c : Coil K) (first second : Winding) : Nat → K → K
  | 0, v3 => v3
  | fuel + 1, v3 =>
    match iterate c first second v3 with
    | .error _ => v3
    | .ok it =>
      match it.v3 with
      | none => v3
      | some w => if again v3 (some w) then lastNode c first second fuel w else v3

/-- The maps of 1957-1958: energy and voltage drop of each pair of turns. -/
def turnMaps (c : Coil K) : List ((Nat × Nat) × (K × K)) :=
  (windingPairs c.windings).flatMap fun p =>
    let v3 := lastNode c p.1 p.2 2 0
    (coupled c p.1.name p.2.name).map fun q =>
      (q.1, (1 / 2 * q.2 * dropOf c p.1.name p.2.name v3 q.1 ^ 2, dropOf c p.1.name p.2.name v3 q.1))

/-- Electric energy reported for two turns (2097-2104). -/
def reportedEnergy (m : List ((Nat × Nat) × (K × K))) (a b : Nat) : K :=
  match lastWritten m (a, b) with
  | some x => x.1
  | none =>
    match lastWritten m (b, a) with
    | some x => x.1
    | none => 0

/-- Voltage drop reported for two turns (2106-2114). -/
def reportedDrop (m : List ((Nat × Nat) × (K × K))) (a b : Nat) : K :=
  match lastWritten m (a, b) with
  | some x => x.2
  | none =>
    match lastWritten m (b, a) with
    | some x => -x.2
    | none => 0

/-! ## One layer -/

/-- A step of the ladders (2200 with halves, 2212). -/
def rung (ctt cts value : K) : K := (value * ctt) / (value + ctt) + cts

section Floor
variable [FloorRing K]

/-- `cab` (2188-2203). The loop of 2199-2201 makes `(n - 2) / 2` steps for an even number and `(n - 3) / 2` for an odd one. -/
def cab (n ctt cts : K) : Except Err K :=
  if n < 2 ∨ n ≠ (⌊n⌋ : K) then .error .ladderAb
  else
    let m := ⌊n⌋.toNat
    if m % 2 = 0 then .ok ((rung (ctt / 2) (cts / 2))^[(m - 2) / 2] (ctt + cts / 2))
    else .ok ((rung (ctt / 2) (cts / 2))^[(m - 3) / 2] (ctt / 2 + cts / 2))

/-- `cas` (2205-2215). -/
def cas (n ctt cts : K) : Except Err K :=
  if n < 1 ∨ n ≠ (⌊n⌋ : K) then .error .ladderAs
  else .ok ((rung ctt cts)^[⌊n⌋.toNat - 1] cts)

/-- The end of `StrayCapacitanceOneLayer::calculate_capacitance` (2307-2350), from the two elementary capacitances; `layers` is the
number of layers of the first winding, if there are layers. The test of 2243-2248 comes first in the code (2238); the fallback for
conductors which touch (2281-2285) is not modelled. -/
def oneLayer (toroidal hasCore : Bool) (n ctt cts : K) (layers : Option Nat) : Except Err K :=
  if toroidal ∧ n > 1 then
    if hasCore then .ok (ctt / (n - 1) + n * cts / 12) else .error .noCore
  else
    match cas n ctt cts with
    | .error e => .error e
    | .ok a =>
      let c2 : Except Err K :=
        if n > 1 then
          match cab n ctt cts with
          | .error e => .error e
          | .ok b =>
            let c2 := 2 * b * a / (4 * b - a) * 2
            let c1 := b - b * a / (4 * b - a)
            if c1 > 1 / 10 ^ 13 then .ok (1 / (1 / c2 + 1 / c1)) else .ok c2
        else .ok a
      match c2 with
      | .error e => .error e
      | .ok x =>
        match layers with
        | none => .ok x
        | some l => .ok (x * (l : K))

end Floor

end Verif.StrayCapacitance
