import Mathlib.Algebra.Order.Field.Basic
import Mathlib.Data.Rat.Defs
import Verif.Faces.Model

/-! # Turns of a thermal network that touch

Models `Temperature::createConcentricTurnToTurnConnections`, the choice of faces of
`Temperature::createToroidalTurnToTurnConnections` and `Temperature::getInsulationLayerThermalResistance`
(src/physical_models/Temperature.cpp), and `StrayCapacitance::get_insulation_layers_between_two_turns`
(src/physical_models/StrayCapacitance.cpp:451-520).

Numbers are exact. The square root is a parameter. -/

namespace Verif.Contacts

section
variable {K : Type} [Field K] [LinearOrder K] [IsStrictOrderedRing K]

/-! ## Insulation between two turns -/

/-- A layer of insulation as looked at between turns (src/physical_models/StrayCapacitance.cpp:473-477): its dimension and
coordinate in the direction of the layers. -/
structure Tape (K : Type) where
  thickness : K
  place : K
  deriving DecidableEq

/-- The layers between two places (src/physical_models/StrayCapacitance.cpp:473-477, 499-503, 509-513). -/
def tapesBetween (layers : List (Tape K)) (x1 x2 : K) : List (Tape K) :=
  layers.filter fun l => decide (0 < l.thickness) && decide (min x1 x2 < l.place) && decide (l.place < max x1 x2)

/-- The layers beyond an angle (src/physical_models/StrayCapacitance.cpp:485-489, 492-496). -/
def tapesBeyond (layers : List (Tape K)) (y : K) : List (Tape K) :=
  layers.filter fun l => decide (0 < l.thickness) && decide (y < l.place)

/-- The layers between two turns of sections side by side in a round window (src/physical_models/StrayCapacitance.cpp:481-504);
places are angles in degrees. -/
def tapesRound (layers : List (Tape K)) (y1 y2 : K) : List (Tape K) :=
  if y1 < 90 ∧ 270 < y2 then tapesBeyond layers y2
  else if y2 < 90 ∧ 270 < y1 then tapesBeyond layers y1
  else tapesBetween layers y1 y2

/-! ## Turns and their numbers -/

/-- A turn as a node of the network (src/physical_models/Temperature.cpp:1618-1660): its place, its dimensions, the number of the
turn, the areas of its faces, and thickness and conductivity of its coating. -/
structure Node (K : Type) where
  x : K
  y : K
  width : K
  height : K
  number : Nat
  areas : Faces.Areas K
  coat : Option (K × K)

/-- The number of each turn: that within its winding (src/physical_models/Temperature.cpp:1432-1439). `seen`: the windings of the
turns before. -/
def numbers (seen : List Nat) : List Nat → List Nat
  | [] => []
  | w :: ws => seen.count w :: numbers (w :: seen) ws

/-! ## Whether turns touch -/

/-- The least dimension of a turn (src/physical_models/Temperature.cpp:2129-2130). -/
def least (a : Node K) : K := min a.width a.height

/-- The distance of the centres (src/physical_models/Temperature.cpp:2124-2126). -/
def distance (root : K → K) (a b : Node K) : K := root ((a.x - b.x) * (a.x - b.x) + (a.y - b.y) * (a.y - b.y))

/-- The distance of the surfaces (src/physical_models/Temperature.cpp:2135-2145). -/
def gap (root : K → K) (a b : Node K) : K :=
  if distance root a b < 1 / 10 ^ 9 then 0 else distance root a b - least a / 2 - least b / 2

/-- The test whether turns are near enough (src/physical_models/Temperature.cpp:2131, 2147). -/
def near (root : K → K) (a b : Node K) : Bool := decide (gap root a b ≤ min (least a) (least b) / 4)

/-- The faces of a turn (src/physical_models/Temperature.cpp:2149-2178): left, right, top and bottom. -/
inductive Side where
  | left
  | right
  | top
  | bottom
  deriving DecidableEq

/-- Whether the connection is horizontal (src/physical_models/Temperature.cpp:2153). -/
def horizontal (a b : Node K) : Bool := decide (|a.y - b.y| < |a.x - b.x|)

/-- The faces that are connected (src/physical_models/Temperature.cpp:2155-2178). -/
def facing (a b : Node K) : Side × Side :=
  if horizontal a b then (if 0 < a.x - b.x then (.left, .right) else (.right, .left))
  else if 0 < a.y - b.y then (.bottom, .top) else (.top, .bottom)

/-- The area of a face (src/physical_models/ThermalNode.cpp:309-340). -/
def Side.area (s : Side) (r : Faces.Areas K) : K :=
  match s with
  | .left => r.inner
  | .right => r.outer
  | .top => r.left
  | .bottom => r.right

/-- A layer of insulation as a node: its place and dimensions (src/physical_models/Temperature.cpp:2232-2236). -/
structure Plate (K : Type) where
  x : K
  y : K
  width : K
  height : K

/-- Whether a layer of insulation is taken to be between two turns (src/physical_models/Temperature.cpp:2238-2276). -/
def between (a b : Node K) (p : Plate K) : Bool :=
  if horizontal a b then
    decide (p.x - p.width / 2 < max a.x b.x) && decide (min a.x b.x < p.x + p.width / 2) &&
      decide (|p.y - a.y| < p.height / 2 + a.height / 2)
  else
    decide (p.y - p.height / 2 < max a.y b.y) && decide (min a.y b.y < p.y + p.height / 2) &&
      decide (|p.x - a.x| < p.width / 2 + a.width / 2)

/-! ## Connections -/

/-- What becomes of a pair of turns: no connection, an exception, or a connection with its resistance. -/
inductive Outcome (K : Type) where
  | none
  | throws
  | link (faces : Side × Side) (resistance : K)
  deriving DecidableEq

/-- The insulation of a coil: the thickness and conductivity of the layers between two turns given by their positions in the
description of turns, which has `count` of them. `none`: the search throws (src/physical_models/StrayCapacitance.cpp:452-457).
Layers have a material with a conductivity. -/
structure Insulation (K : Type) where
  count : Nat
  layers : Nat → Nat → Option (List (K × K))

/-- The insulation of a coil of layers upon each other in a rectangular window (src/physical_models/StrayCapacitance.cpp:459-478):
the places of its turns, its layers, and the conductivity of their material. -/
def Insulation.ofCoil (places : List K) (layers : List (Tape K)) (conductivity : K) : Insulation K :=
  { count := places.length
    layers := fun m n =>
      match places[m]?, places[n]? with
      | some x1, some x2 => some ((tapesBetween layers x1 x2).map fun l => (l.thickness, conductivity))
      | _, _ => none }

/-- Whether there is solid insulation between turns of two numbers (src/physical_models/Temperature.cpp:2206-2224). -/
def solid (i : Insulation K) (m n : Nat) : Bool :=
  if m < i.count ∧ n < i.count then
    match i.layers m n with
    | none => false
    | some l => !l.isEmpty
  else false

/-- The resistances of layers added (src/physical_models/Temperature.cpp:4788-4825). -/
def layered (area : K) : List (K × K) → K
  | [] => 0
  | l :: ls => Faces.conduction l.1 l.2 area + layered area ls

/-- Models `Temperature::getInsulationLayerThermalResistance` between two turns (src/physical_models/Temperature.cpp:4750-4829).
`none`: it throws. -/
def insulating (i : Insulation K) (m n : Nat) (area : K) : Option K :=
  if area ≤ 0 then none
  else if m < i.count ∧ n < i.count then (i.layers m n).map (layered area)
  else none

/-- The area of contact of two faces (src/physical_models/Temperature.cpp:2190). -/
def contact (a b : Node K) : K := min ((facing a b).1.area a.areas) ((facing a b).2.area b.areas)

/-- What becomes of a pair of turns (src/physical_models/Temperature.cpp:2124-2293). -/
def pair (root : K → K) (i : Insulation K) (plates : List (Plate K)) (a b : Node K) : Outcome K :=
  if near root a b = false then .none
  else if solid i a.number b.number || plates.any (between a b) then .none
  else
    match insulating i a.number b.number (contact a b) with
    | none => .throws
    | some r => .link (facing a b) (r + Faces.coated a.coat (contact a b) + Faces.coated b.coat (contact a b))

/-- A connection: the positions of its turns, its faces and its resistance. -/
structure Link (K : Type) where
  first : Nat
  second : Nat
  faces : Side × Side
  resistance : K
  deriving DecidableEq

/-- The connections of one turn to those after it (src/physical_models/Temperature.cpp:2120-2294). `none`: an exception. -/
def linksOf (f : Node K → Node K → Outcome K) (a : Node K) (m : Nat) : Nat → List (Node K) → Option (List (Link K))
  | _, [] => some []
  | n, b :: bs =>
    match f a b with
    | .throws => none
    | .none => linksOf f a m (n + 1) bs
    | .link s r => (linksOf f a m (n + 1) bs).map (⟨m, n, s, r⟩ :: ·)

/-- Models `Temperature::createConcentricTurnToTurnConnections` (src/physical_models/Temperature.cpp:2112-2296). -/
def links (f : Node K → Node K → Outcome K) : Nat → List (Node K) → Option (List (Link K))
  | _, [] => some []
  | m, a :: as =>
    match linksOf f a m (m + 1) as with
    | none => none
    | some l => (links f (m + 1) as).map (l ++ ·)

/-! ## Faces of turns of a toroid -/

/-- The directions of the faces of a turn of a toroid, as cosine and sine of the angle of the turn
(src/physical_models/Temperature.cpp:2339-2366), in the order tried: away from the axis, towards it, left, right. Sums of angles
are written out. -/
def directions (c s : K) : List (K × K) := [(c, s), (-c, -s), (-s, c), (s, -c)]

/-- The face that looks most in a direction, and how much (src/physical_models/Temperature.cpp:2368-2377): its position in the list,
if any. -/
def best (dx dy : K) : Nat → List (K × K) → Option Nat × K → Option Nat × K
  | _, [], acc => acc
  | n, q :: qs, acc => best dx dy (n + 1) qs (if acc.2 < q.1 * dx + q.2 * dy then (some n, q.1 * dx + q.2 * dy) else acc)

/-- The face of a turn of a toroid that looks at another (src/physical_models/Temperature.cpp:2361-2377). -/
def looks (c s dx dy : K) : Option Nat × K := best dx dy 0 (directions c s) (none, -1)

end

end Verif.Contacts
