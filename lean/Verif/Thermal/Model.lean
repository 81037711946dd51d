import Mathlib.Algebra.Order.Field.Basic
import Mathlib.Algebra.Order.BigOperators.Group.Finset
import Mathlib.Algebra.BigOperators.Fin
import Mathlib.Logic.Function.Basic

/-!
# Model of the thermal network of a magnetic and of its temperatures

Sources: `/repo/src/physical_models/Temperature.cpp`, `ThermalNode.h`, `ThermalResistance.cpp`,
`/repo/src/constructive_models/CorePiece.cpp`.

Doubles are the elements of an ordered field, so that sums have no rounding and nothing is infinite: the check for temperatures
that are not finite (Temperature.cpp 5130-5140) never fires. The coefficients of convection are parameters: they are any
functions of the temperatures, which is how the solver sees them. Which nodes touch which and what resistance a contact has is
an input of the solver; how it is found from geometry is not modelled.
-/

namespace Verif.Thermal

variable {K : Type} [Field K] [LinearOrder K] [IsStrictOrderedRing K] {n : Nat}

/-- Exceptions thrown by the solver and the cooling. -/
inductive Err
  | noNodes        -- Temperature.cpp 4999
  | noHeight       -- Temperature.cpp 4965
  | badIndex       -- Temperature.cpp 5039
  | disconnected   -- Temperature.cpp 5113
  | singular       -- Temperature.cpp 5122, 5126
  | notConverged   -- Temperature.cpp 5233
  | noVelocity     -- Temperature.cpp 5453
  | noTopYoke      -- Temperature.cpp 5522
  | noBottom       -- Temperature.cpp 5639
  | noMaximum      -- Temperature.cpp 5592
  | noLosses       -- Temperature.cpp 1483, 1623
  | unevenLosses   -- Temperature.cpp 1489
  | noTurns        -- Temperature.cpp 1407, 1411
  | noColumns      -- Temperature.cpp 745
  | noVolume       -- CorePiece.cpp 3139
  | fewCoordinates -- Temperature.cpp 5400
  | emptyTable     -- ThermalResistance.cpp 263
  deriving DecidableEq, Repr

/-- Outcome: a value, an exception, a quotient 0 / 0 or undefined behaviour. -/
inductive Res (α : Type) where
  | ok (a : α)
  | throws (e : Err)
  | nan
  | ub
  deriving DecidableEq, Repr

/-! ## Solving linear equations -/

abbrev Vec (n : Nat) (K : Type) := Fin n → K
abbrev Mat (n : Nat) (K : Type) := Fin n → Fin n → K

/-- The augmented matrix: coefficients and right hand sides (Temperature.cpp 55-59). -/
structure Eqs (n : Nat) (K : Type) where
  a : Mat n K
  b : Vec n K

/-- The row of the largest pivot, the first of equals (Temperature.cpp 61-65). -/
def largest (a : Mat n K) (c : Fin n) : Fin n :=
  (List.finRange n).foldl (fun best r => if c < r ∧ |a r c| > |a best c| then r else best) c

/-- Rows exchanged (Temperature.cpp 66). -/
def swapRows {α : Type} (a : Fin n → α) (p q : Fin n) : Fin n → α := fun i => if i = p then a q else if i = q then a p else a i

/-- What the rows below lose of a row (Temperature.cpp 68-71); coefficients before the column are left alone. -/
def clearBelow (c : Fin n) (s : Eqs n K) : Eqs n K where
  a := fun i j => if c < i ∧ c ≤ j then s.a i j - s.a i c / s.a c c * s.a c j else s.a i j
  b := fun i => if c < i then s.b i - s.a i c / s.a c c * s.b c else s.b i

/-- The least pivot (Temperature.cpp 67). -/
def tiny : K := 1 / 10 ^ 15

/-- The step of a column (Temperature.cpp 60-72). -/
def columnStep (c : Fin n) (s : Eqs n K) : Option (Eqs n K) :=
  let s' : Eqs n K := ⟨swapRows s.a c (largest s.a c), swapRows s.b c (largest s.a c)⟩
  if |s'.a c c| < tiny then none else some (clearBelow c s')

/-- The augmented matrix after some columns. -/
def sweep (s : Eqs n K) : Nat → Option (Eqs n K)
  | 0 => some s
  | k + 1 => (sweep s k).bind fun t => if h : k < n then columnStep ⟨k, h⟩ t else some t

/-- Substitution from the last row up (Temperature.cpp 73-78); `x` is what is known of the later unknowns. -/
def back (s : Eqs n K) : Nat → Vec n K → Vec n K
  | 0, x => x
  | k + 1, x =>
    if h : k < n then
      back s k (Function.update x ⟨k, h⟩
        ((s.b ⟨k, h⟩ - (((List.finRange n).filter fun j => k < j.val).map fun j => s.a ⟨k, h⟩ j * x j).sum) / s.a ⟨k, h⟩ ⟨k, h⟩))
    else back s k x

/-- `SimpleMatrix::solve` (Temperature.cpp 51-80); nothing when success is false. -/
def solve (a : Mat n K) (b : Vec n K) : Option (Vec n K) :=
  if n = 0 then none else (sweep ⟨a, b⟩ n).map fun s => back s n fun _ => 0

/-! ## The network -/

/-- `ThermalNodePartType` (ThermalNode.h 153-167). -/
inductive Part
  | coreCentral | coreLateral | coreTop | coreBottom | coreSegment
  | bobbinCentral | bobbinTop | bobbinBottom
  | turn | insulation | heatsink | coldPlate | ambient
  deriving DecidableEq, Repr

/-- `HeatTransferType` (ThermalNode.h 112-118). -/
inductive Kind
  | conduction | natural | forced | radiation | heatsink
  deriving DecidableEq, Repr

/-- `SurfaceOrientation` (ThermalNode.h 123-127). -/
inductive Facing
  | vertical | top | bottom
  deriving DecidableEq, Repr

/-- What is used of `ThermalNetworkNode` (ThermalNode.h 326-363): two coordinates, always given, and the total of its surfaces. -/
structure Node (K : Type) where
  name : List Char
  part : Part
  power : K
  temperature : K
  fixed : Bool
  winding : Option Nat
  x : K
  y : K
  area : K
  deriving DecidableEq, Repr

/-- `ThermalResistanceElement` (ThermalNode.h), without the faces. -/
structure Element (K : Type) where
  source : Nat
  target : Nat
  kind : Kind
  facing : Facing
  resistance : K
  area : K
  deriving DecidableEq, Repr

/-- A resistance between nodes there are: its conductance. -/
structure Link (n : Nat) (K : Type) where
  i : Fin n
  j : Fin n
  g : K

/-- The conductance of a resistance (Temperature.cpp 5045). -/
def conductance (e : Element K) : K := 1 / max e.resistance (1 / 10 ^ 9)

/-- A resistance as it is stamped, if both nodes are there (Temperature.cpp 5030-5045). -/
def toLink (n : Nat) (e : Element K) : Option (Link n K) :=
  if h : e.source < n ∧ e.target < n then some ⟨⟨e.source, h.1⟩, ⟨e.target, h.2⟩, conductance e⟩ else none

/-- A stamp of a conductance (Temperature.cpp 5046-5049). -/
def stamp (m : Mat n K) (l : Link n K) : Mat n K := fun r c =>
  m r c + (if r = l.i ∧ c = l.i then l.g else 0) + (if r = l.j ∧ c = l.j then l.g else 0)
    - (if r = l.i ∧ c = l.j then l.g else 0) - (if r = l.j ∧ c = l.i then l.g else 0)

/-- The conductances (Temperature.cpp 5027-5050). -/
def conductances (ls : List (Link n K)) : Mat n K := ls.foldl stamp fun _ _ => 0

/-- The left hand side, with the rows of given temperatures replaced (Temperature.cpp 5053-5064). -/
def lhs (ls : List (Link n K)) (given : Fin n → Option K) : Mat n K := fun i j =>
  if (given i).isSome then (if i = j then 1 else 0) else conductances ls i j

/-- The right hand side (Temperature.cpp 5015-5017, 5055, 5062). -/
def rhs (given : Fin n → Option K) (power : Vec n K) : Vec n K := fun i => (given i).getD (power i)

/-- The temperatures at some resistances (Temperature.cpp 5027-5128). -/
def solveOnce (ls : List (Link n K)) (given : Fin n → Option K) (power : Vec n K) : Res (Vec n K) :=
  if (List.finRange n).any fun i => (given i).isNone && decide (lhs ls given i i < 1 / 10 ^ 12) then .throws .disconnected
  else match solve (lhs ls given) (rhs given power) with
    | none => .throws .singular
    | some t => .ok t

/-- `TemperatureConfig` (Temperature.h), what the solver uses of it, and the height of the core if it is processed. -/
structure Config (K : Type) where
  ambient : K
  tolerance : K
  maxIterations : Nat
  requireConvergence : Bool
  airVelocity : K
  emissivity : K
  height : Option K

/-- The coefficients of convection (ThermalResistance.cpp 38-132) at a temperature. -/
structure Air (K : Type) where
  natural : K → K → K → Facing → K
  forced : K → K → K → K

/-- Kelvin at 0 °C (Constants.h 20). -/
def kelvin : K := 27315 / 100

/-- The constant of Stefan and Boltzmann (Constants.h 21). -/
def sigma : K := 5670374419 / 10 ^ 17

/-- `calculateRadiationCoefficient` (ThermalResistance.cpp 134-148). -/
def radiationCoefficient (surface other emissivity : K) : K :=
  emissivity * sigma * ((surface + kelvin) * (surface + kelvin) + (other + kelvin) * (other + kelvin)) *
    ((surface + kelvin) + (other + kelvin))

/-- The resistance at a coefficient, if it is positive (Temperature.cpp 4978, 4982, 4991). -/
def atCoefficient (e : Element K) (h : K) : Element K := if h > 0 then { e with resistance := 1 / (h * e.area) } else e

/-- A resistance at temperatures (Temperature.cpp 4971-4993). -/
def recalculate (cfg : Config K) (air : Air K) (length : K) (t : Vec n K) (e : Element K) : Element K :=
  if h : e.source < n then
    match e.kind with
    | .natural => if e.area > 0 then atCoefficient e (air.natural (t ⟨e.source, h⟩) cfg.ambient length e.facing) else e
    | .forced => if e.area > 0 then atCoefficient e (air.forced cfg.airVelocity length (t ⟨e.source, h⟩)) else e
    | .radiation =>
      if e.area > 0 then
        atCoefficient e (radiationCoefficient (t ⟨e.source, h⟩) (if h' : e.target < n then t ⟨e.target, h'⟩ else cfg.ambient) cfg.emissivity)
      else e
    | _ => e
  else e

/-- `recalculateConvectionResistances` (Temperature.cpp 4947-4994); nothing for its exception. -/
def recalculateAll (cfg : Config K) (air : Air K) (t : Vec n K) (es : List (Element K)) : Option (List (Element K)) :=
  match cfg.height with
  | none => none
  | some l => if l ≤ 0 then none else some (es.map (recalculate cfg air l t))

/-- The node of the ambient: the first of that part, or the last node (Temperature.cpp 5004-5010). -/
def ambientIndex (nodes : List (Node K)) : Nat := ((nodes.findIdx? fun v => v.part = .ambient)).getD (nodes.length - 1)

/-- The temperatures that are given: the ambient's and those of fixed nodes (Temperature.cpp 5053-5064). -/
def given (cfg : Config K) (nodes : List (Node K)) (i : Fin nodes.length) : Option K :=
  if i.val = ambientIndex nodes then some cfg.ambient
  else if nodes[i].fixed then some nodes[i].temperature
  else none

/-- Half way to the solution, but where temperatures are given (Temperature.cpp 5151-5156). -/
def relax (given : Fin n → Option K) (old new : Vec n K) : Vec n K := fun i =>
  if (given i).isSome then new i else 1 / 2 * new i + 1 / 2 * old i

/-- The step from temperatures to temperatures is within the tolerance (Temperature.cpp 5158-5164). -/
def close (tolerance : K) (old new : Vec n K) : Bool := (List.finRange n).all fun i => !decide (|new i - old i| > tolerance)

/-- Where a loop ended: the resistances, the temperatures, whether they settled and after how many iterations. -/
structure Ended (n : Nat) (K : Type) where
  elements : List (Element K)
  temperatures : Vec n K
  converged : Bool
  iterations : Nat

/-- How a loop ends: with temperatures, or with an exception and the resistances it leaves. -/
inductive Loop (n : Nat) (K : Type)
  | ended (e : Ended n K)
  | failed (err : Err) (elements : List (Element K))

/-- One iteration (Temperature.cpp 5024-5164); `first` is the iteration without recalculation and relaxation. The exceptions
    come in the order of the source: no height, a node out of range, a node without connections, a singular matrix. -/
def iteration (cfg : Config K) (air : Air K) (given : Fin n → Option K) (power : Vec n K) (first : Bool) (es : List (Element K))
    (old : Vec n K) : Loop n K :=
  match if first then some es else recalculateAll cfg air old es with
  | none => .failed .noHeight es
  | some es' =>
    match es'.mapM (toLink n) with
    | none => .failed .badIndex es'
    | some ls =>
      match solveOnce ls given power with
      | .ok s =>
        let t := if first then s else relax given old s
        .ended ⟨es', t, close cfg.tolerance old t, 1⟩
      | .throws e => .failed e es'
      | _ => .failed .singular es'

/-- The loop (Temperature.cpp 5019-5168), with the iterations left and those done. -/
def loop (cfg : Config K) (air : Air K) (given : Fin n → Option K) (power : Vec n K) : Nat → Nat → List (Element K) → Vec n K → Loop n K
  | 0, done, es, t => .ended ⟨es, t, false, done⟩
  | k + 1, done, es, t =>
    match iteration cfg air given power (done == 0) es t with
    | .failed e es' => .failed e es'
    | .ended r =>
      if r.converged then .ended { r with iterations := done + 1 }
      else loop cfg air given power k (done + 1) r.elements r.temperatures

/-- `ThermalResult` (Temperature.h), without the name of the method. -/
structure Result (K : Type) where
  maximum : K
  averageCore : K
  averageCoil : K
  nodes : List (List Char × K)
  thermalResistance : K
  iterations : Nat
  converged : Bool
  elements : List (Element K)

/-- Nodes of the core (Temperature.cpp 5277-5281). -/
def isCore : Part → Bool
  | .coreCentral | .coreLateral | .coreTop | .coreBottom | .coreSegment => true
  | _ => false

/-- Nodes with the temperatures found (Temperature.cpp 5170-5172). -/
def withTemperatures (nodes : List (Node K)) (t : Vec nodes.length K) : List (Node K) :=
  List.ofFn fun i : Fin nodes.length => { nodes[i] with temperature := t i }

/-- A value of a map set: a later one replaces an earlier one of the same name (Temperature.cpp 5252). -/
def setEntry (m : List (List Char × K)) (k : List Char) (v : K) : List (List Char × K) :=
  if m.any fun e => e.1 = k then m.map fun e => if e.1 = k then (k, v) else e else m ++ [(k, v)]

/-- The maximum reported (Temperature.cpp 5245-5259). -/
def maximumOf (ambient : K) (nodes : List (Node K)) : K :=
  nodes.foldl (fun m v => if v.part = .ambient then m else if v.temperature > m then v.temperature else m) ambient

/-- The temperatures reported by name (Temperature.cpp 5246-5252). -/
def byName (nodes : List (Node K)) : List (List Char × K) :=
  nodes.foldl (fun m v => if v.part = .ambient then m else setEntry m v.name v.temperature) []

/-- The total of the losses (Temperature.cpp 5260-5263, 5298-5301). -/
def totalPower (nodes : List (Node K)) : K := (nodes.map (·.power)).sum

/-- An average of temperatures, the ambient's if there are none (Temperature.cpp 5271-5291). -/
def averageOf (ambient : K) (nodes : List (Node K)) (p : Part → Bool) : K :=
  let l := (nodes.filter fun v => p v.part).map (·.temperature)
  if l.length > 0 then l.sum / (l.length : K) else ambient

/-- The report (Temperature.cpp 5240-5294), of nodes that have their temperatures. -/
def report (cfg : Config K) (nodes : List (Node K)) (es : List (Element K)) (converged : Bool) (iterations : Nat) : Result K where
  maximum := maximumOf cfg.ambient nodes
  averageCore := averageOf cfg.ambient nodes isCore
  averageCoil := averageOf cfg.ambient nodes fun p => p = .turn
  nodes := byName nodes
  thermalResistance := if totalPower nodes > 0 then (maximumOf cfg.ambient nodes - cfg.ambient) / totalPower nodes else 0
  iterations := iterations
  converged := converged
  elements := es

/-- What a calculation leaves: the nodes, the resistances, and the result or its exception. -/
structure Out (K : Type) where
  nodes : List (Node K)
  elements : List (Element K)
  result : Res (Result K)

/-- `solveThermalCircuit` (Temperature.cpp 4996-5295); the heat budget that is only printed (5174-5221) is left out. -/
def solveCircuit (cfg : Config K) (air : Air K) (nodes : List (Node K)) (es : List (Element K)) : Out K :=
  if nodes.length = 0 then ⟨nodes, es, .throws .noNodes⟩
  else
    match loop cfg air (given cfg nodes) (fun i => nodes[i].power) cfg.maxIterations 0 es (fun _ => cfg.ambient) with
    | .failed e es' => ⟨nodes, es', .throws e⟩
    | .ended r =>
      if r.converged = false ∧ cfg.requireConvergence then ⟨withTemperatures nodes r.temperatures, r.elements, .throws .notConverged⟩
      else
        ⟨withTemperatures nodes r.temperatures, r.elements,
          .ok (report cfg (withTemperatures nodes r.temperatures) r.elements r.converged r.iterations)⟩

/-- `getBulkThermalResistance` (Temperature.cpp 5297-5313). -/
def bulkResistance (ambient : K) (nodes : List (Node K)) : K :=
  if totalPower nodes ≤ 0 then 0
  else (nodes.foldl (fun m v => if v.temperature > m then v.temperature else m) ambient - ambient) / totalPower nodes

/-! ## Losses given to nodes -/

/-- Volumes of the parts of a core (CorePiece.cpp 3074-3122): of its columns, the first is the central one and the second one of the
    two lateral ones; the cross section and the height of each column and the width of the first, the width and the depth of
    the piece. -/
structure Piece (K : Type) where
  columns : List (K × K)
  mainWidth : K
  width : K
  depth : K

/-- `CoreLossFractions` (CorePiece.h 37). -/
structure Fractions (K : Type) where
  central : K
  lateral : K
  top : K
  bottom : K

/-- The volume of a column (CorePiece.cpp 3097-3109), 0 if it is not there. -/
def columnVolume (p : Piece K) (i : Nat) : K := ((p.columns[i]?).map fun c => c.1 * c.2).getD 0

/-- The volume of a yoke (CorePiece.cpp 3113-3114), 0 without columns (3077-3079). -/
def yokeVolume (p : Piece K) : K := if p.columns = [] then 0 else p.width * (p.mainWidth / 2) * p.depth

/-- `calculate_core_loss_fractions` (CorePiece.cpp 3124-3170). -/
def fractions (p : Piece K) : Res (Fractions K) :=
  let total := columnVolume p 0 + 2 * columnVolume p 1 + yokeVolume p + yokeVolume p
  if total < 1 / 10 ^ 18 then .throws .noVolume
  else .ok ⟨columnVolume p 0 / total, 2 * columnVolume p 1 / total, yokeVolume p / total, yokeVolume p / total⟩

/-- Losses of the nodes of a core that is no toroid (Temperature.cpp 739-845), in the order the nodes are made. -/
def concentricCorePowers (p : Piece K) (losses : K) : Res (List (Part × K)) :=
  if p.columns = [] then .throws .noColumns
  else match fractions p with
    | .ok f => .ok ([(.coreCentral, losses * f.central), (.coreTop, losses * f.top), (.coreBottom, losses * f.bottom)] ++
        if p.columns.length > 1 then [(.coreLateral, losses * f.lateral)] else [])
    | .throws e => .throws e
    | .nan => .nan
    | .ub => .ub

/-- Losses of the segments of a toroid (Temperature.cpp 602-630). -/
def toroidalCorePowers (segments : Nat) (losses : K) : List (Part × K) :=
  (List.range segments).map fun _ => (.coreSegment, losses * (1 / ((List.range segments).map fun _ => (1 : K)).sum))

/-- Losses of a turn given by a simulation: ohmic, by skin effect and by proximity, the last two by harmonic. -/
structure TurnLosses (K : Type) where
  ohmic : Option K
  skin : Option (List K)
  proximity : Option (List K)

/-- The losses of a turn (Temperature.cpp 1450-1465). -/
def lossOf (t : TurnLosses K) : K := t.ohmic.getD 0 + (t.skin.getD []).sum + (t.proximity.getD []).sum

/-- The losses of turns that are at hand (Temperature.cpp 1440-1476): from the output of a simulation, if it has any, or none of
    them has losses if the total is not positive. -/
def turnLossesOf (output : Option (Option (List (TurnLosses K)))) (windingLosses : K) (turns : Nat) : Option (List K) :=
  match output with
  | some (some l) => if l = [] then none else some (l.map lossOf)
  | some none => none
  | none => if windingLosses ≤ 0 then some (List.replicate turns 0) else none

/-- Losses of the nodes of turns (Temperature.cpp 1478-1664): `split` says of each turn whether it has additional coordinates.
    In a toroid such a turn has two nodes. -/
def turnPowers (toroidal : Bool) (split : List Bool) (losses : Option (List K)) : Res (List K) :=
  if split = [] then .throws .noTurns
  else if toroidal then
    match losses with
    | none => .throws .noLosses
    | some l =>
      if l.length ≠ split.length then .throws .unevenLosses
      else .ok ((split.zip l).flatMap fun t => if t.1 then [t.2 / 2, t.2 / 2] else [t.2])
  else
    match losses with
    | none => .throws .noLosses
    | some l => if l.length < split.length then .throws .noLosses else .ok (l.take split.length)

/-! ## Cooling -/

/-- `MAS::Cooling`, what is used of it. -/
structure Cooling (K : Type) where
  maximumTemperature : Option K
  velocity : Option (List K)
  thermalResistance : Option K
  temperature : Option K
  interfaceResistance : Option K
  interfaceThickness : Option K
  deriving DecidableEq, Repr

/-- `CoolingType` (Temperature.h 138-144). -/
inductive CoolingKind
  | natural | forced | heatsink | coldPlate | unknown
  deriving DecidableEq, Repr

/-- `detectCoolingType` (Temperature.cpp 88-111). -/
def detect (c : Cooling K) : CoolingKind :=
  if c.maximumTemperature.isSome then .coldPlate
  else if c.velocity.isSome ∧ c.velocity.getD [] ≠ [] then .forced
  else if c.thermalResistance.isSome then .heatsink
  else if c.temperature.isSome then .natural
  else .unknown

/-- The resistance of an interface when none is given (Constants.h 111). -/
def defaultInterface : K := 1 / 2

/-- The resistance of the interface of a heat sink (Temperature.cpp 5546-5554). -/
def sinkInterface (c : Cooling K) (area : K) : K :=
  match c.interfaceResistance with
  | some r => if area > 0 then r / area else defaultInterface
  | none => defaultInterface

/-- The resistance of the interface of a cold plate (Temperature.cpp 5668-5679). -/
def plateInterface (c : Cooling K) (area : K) : K :=
  match c.interfaceThickness, c.interfaceResistance with
  | some _, some r => if area > 0 then r / area else defaultInterface
  | _, _ => defaultInterface

/-- `applyHeatsinkCooling` (Temperature.cpp 5507-5588), for a cooling with a resistance. -/
def heatsink (c : Cooling K) (ambient : K) (nodes : List (Node K)) (es : List (Element K)) : Res (List (Node K) × List (Element K)) :=
  match nodes.findIdx? fun v => v.part = .coreTop ∨ v.part = .bobbinTop with
  | none => .throws .noTopYoke
  | some top =>
    match nodes[top]?, c.thermalResistance with
    | some yoke, some r =>
      let sink : Node K := ⟨"Heatsink".toList, .heatsink, 0, ambient, false, none, yoke.x, yoke.y + 2 / 100, 0⟩
      let nodes' := nodes ++ [sink]
      let es' := es ++ [⟨top, nodes.length, .conduction, .vertical, sinkInterface c yoke.area, yoke.area⟩]
      match nodes'.findIdx? fun v => v.part = .ambient with
      | some a => .ok (nodes', es' ++ [⟨nodes.length, a, .heatsink, .vertical, r, 1⟩])
      | none => .ok (nodes', es')
    | _, _ => .ub

/-- The lowest node that could touch a plate (Temperature.cpp 5603-5612). -/
def lowest (nodes : List (Node K)) : K :=
  nodes.foldl (fun m v => if v.part = .coreBottom ∨ v.part = .bobbinBottom ∨ v.part = .coreSegment then min m v.y else m) (10 ^ 9)

/-- A node touches the plate (Temperature.cpp 5626-5636); the threshold is 5 mm or a tenth of the radius of a toroid (5616-5623). -/
def touches (threshold low : K) (v : Node K) : Bool :=
  v.part = .coreBottom ∨ v.part = .bobbinBottom ∨ (v.part = .coreSegment ∧ |v.y - low| < threshold)

/-- The nodes that touch the plate. -/
def surfaceNodes (threshold : K) (nodes : List (Node K)) : List (Nat × Node K) :=
  nodes.zipIdx.filterMap fun v => if touches threshold (lowest nodes) v.1 then some (v.2, v.1) else none

/-- `applyColdPlateCooling` (Temperature.cpp 5590-5691). -/
def coldPlate (c : Cooling K) (threshold : K) (nodes : List (Node K)) (es : List (Element K)) : Res (List (Node K) × List (Element K)) :=
  match c.maximumTemperature with
  | none => .throws .noMaximum
  | some t =>
    let l := surfaceNodes threshold nodes
    if l = [] then .throws .noBottom
    else
      let plate : Node K := ⟨"ColdPlate".toList, .coldPlate, 0, t, true, none,
        (l.map (·.2.x)).sum / (l.length : K), (l.map (·.2.y)).sum / (l.length : K) - 1 / 100, 0⟩
      .ok (nodes ++ [plate],
        es ++ l.map fun v => ⟨v.1, nodes.length, .conduction, .vertical, plateInterface c v.2.area, v.2.area⟩)

/-- A resistance in moving air (Temperature.cpp 5473-5504), at the coefficient `mixed` makes of the natural one and the area. -/
def blow (mixed : K → K → K) (e : Element K) : Element K :=
  if e.kind = .natural ∧ ¬ e.area ≤ 1 / 10 ^ 15 then
    if mixed (1 / (max e.resistance (1 / 10 ^ 9) * e.area)) e.area > 1 / 10 ^ 9 then
      { e with resistance := 1 / (mixed (1 / (max e.resistance (1 / 10 ^ 9) * e.area)) e.area * e.area), kind := .forced }
    else e
  else e

/-- `applyForcedConvection` (Temperature.cpp 5451-5505): the configuration with the speed of the air and the resistances. `rt` is
    the square root, `mixed` the coefficient at a speed. -/
def forcedCooling (rt : K → K) (mixed : K → K → K → K) (c : Cooling K) (cfg : Config K) (es : List (Element K)) :
    Res (Config K × List (Element K)) :=
  match c.velocity with
  | none => .throws .noVelocity
  | some [] => .throws .noVelocity
  | some v =>
    .ok ({ cfg with airVelocity := rt ((v.map fun x => x * x).sum) }, es.map (blow (mixed (rt ((v.map fun x => x * x).sum)))))

/-- `ThermalResistance::calculateForcedConvectionCoefficient` in laminar flow (ThermalResistance.cpp 109-131), at a positive speed:
    the viscosity, the conductivity and the cubic root of the number of Prandtl of the air at that temperature are given. -/
def laminar (rt : K → K) (viscosity conductivity prandtl speed length : K) : K :=
  664 / 1000 * rt (speed * length / viscosity) * prandtl * conductivity / length

/-! ## Queries -/

/-- Digits of a number. -/
def digits (i : Nat) : List Char := (toString i).toList

/-- The category of a node (Temperature.cpp 5321-5353). -/
def category (v : Node K) : Option (List Char) :=
  match v.part with
  | .ambient => none
  | .coreCentral | .coreLateral | .coreTop | .coreBottom | .coreSegment => some "core".toList
  | .bobbinCentral | .bobbinTop | .bobbinBottom => some "bobbin".toList
  | .turn => some (match v.winding with | some i => "winding ".toList ++ digits i | none => "winding".toList)
  | .insulation => some "insulation".toList
  | .heatsink => some "heatsink".toList
  | .coldPlate => some "cold plate".toList

/-- The largest by key (Temperature.cpp 5355-5360, 5387-5392). -/
def raise (m : List (List Char × K)) (k : List Char) (v : K) : List (List Char × K) :=
  match m with
  | [] => [(k, v)]
  | e :: m => if e.1 = k then (k, max e.2 v) :: m else e :: raise m k v

/-- `getTemperaturesByComponentType` (Temperature.cpp 5315-5364). -/
def byComponent (nodes : List (Node K)) : List (List Char × K) :=
  nodes.foldl (fun m v => match category v with | some k => raise m k v.temperature | none => m) []

/-- The key of a turn: the name of its node without the half of the toroid it is in (Temperature.cpp 5375-5385). -/
def turnKey (name : List Char) : List Char :=
  if name.length > 6 ∧ name.drop (name.length - 6) = "_Inner".toList then name.take (name.length - 6)
  else if name.length > 6 ∧ name.drop (name.length - 6) = "_Outer".toList then name.take (name.length - 6)
  else name

/-- `getTemperaturePerTurn` (Temperature.cpp 5366-5396). -/
def perTurn (nodes : List (Node K)) : List (List Char × K) :=
  nodes.foldl (fun m v => if v.part = .turn then raise m (turnKey v.name) v.temperature else m) []

/-- The square of the distance (Temperature.cpp 5409-5411); the code takes its root, which orders as it does. -/
def distance2 (v : Node K) (x y : K) : K := (v.x - x) * (v.x - x) + (v.y - y) * (v.y - y)

/-- `getTemperatureAtPoint` (Temperature.cpp 5398-5420). -/
def atPoint (ambient : K) (nodes : List (Node K)) (point : List K) : Res K :=
  match point with
  | x :: y :: _ => .ok (nodes.foldl (fun m v => if v.part = .ambient then m
      else if distance2 v x y < m.1 then (distance2 v x y, v.temperature) else m) (10 ^ 18, ambient)).2
  | _ => .throws .fewCoordinates

/-! ## Conductivities -/

/-- The pieces of a table (ThermalResistance.cpp 267-278): a value, a quotient 0 / 0, or nothing. -/
def between (t : K) : List (K × K) → Option (Res K)
  | p :: q :: l =>
    if p.1 ≤ t ∧ t ≤ q.1 then
      if q.1 - p.1 = 0 then some .nan else some (.ok (p.2 + (t - p.1) / (q.1 - p.1) * (q.2 - p.2)))
    else between t (q :: l)
  | _ => none

/-- The table of a wire material (ThermalResistance.cpp 251-286): temperatures and conductivities. -/
def fromTable (l : List (K × K)) (t : K) : Res K :=
  match l with
  | [] => .throws .emptyTable
  | [p] => .ok p.2
  | p :: q :: l =>
    match between t (p :: q :: l) with
    | some r => r
    | none => if t < p.1 then .ok p.2 else .ok ((q :: l).getLastD q).2

/-- A wire material: its name and its table. -/
structure WireMaterial (K : Type) where
  name : List Char
  table : Option (List (K × K))

/-- The conductivity by name and by wire material, which call each other (ThermalResistance.cpp 158-239, 241-249), with calls to
    spend: nothing when they run out. The other databases and the list of known materials are in `others`. -/
def materialConductivity (wires : List (List Char × WireMaterial K)) (others : List Char → Res K) : Nat → List Char → Option (Res K)
  | 0, _ => none
  | k + 1, name =>
    match (wires.find? fun e => e.1 = name.map Char.toLower) with
    | none => some (others name)
    | some e =>
      match e.2.table with
      | some l =>
        match fromTable l 25 with
        | .throws _ => some (others name)
        | r => some r
      | none =>
        match materialConductivity wires others k e.2.name with
        | none => none
        | some (.throws _) => some (others name)
        | some r => some r

end Verif.Thermal
