import Mathlib.Algebra.Order.Field.Rat
import Mathlib.Algebra.Order.Field.Basic
import Verif.CoreData.Model

/-!
# Magnetics as a whole (src/constructive_models/Magnetic.cpp, Magnetic.h, Mas.h, Wire.h, Coil.cpp)

Their dimensions, their saturation and rated currents, and when two of them are taken to be the same. Numbers are exact; what the physical
models answer (inductances, temperatures) is given, and ranges over everything they could answer.
-/

namespace Verif.Magnetic

open Verif.CoreData (Size Maximum fits)

/-! ## Dimensions -/

/-- A turn: its coordinates, its additional ones if it has them (those outside the ring in a toroid), and its dimensions, in that order across
and along. The list of additional coordinates is taken to have one pair, the first, which is the one read (Coil.cpp 13758-13759). -/
structure Turn where
  place : ℚ × ℚ
  outside : Option (ℚ × ℚ)
  size : Option (ℚ × ℚ)
  deriving DecidableEq

/-- Where a turn is, as far as the dimensions of the coil go (Coil.cpp 13756-13764). -/
def Turn.seat (t : Turn) : ℚ × ℚ := t.outside.getD t.place

/-- The loop over the turns (Coil.cpp 13753-13768), from the width and height so far; `none` = throws, `.value()` of dimensions that are not
there. -/
def reach : List Turn → ℚ × ℚ → Option (ℚ × ℚ)
  | [], a => some a
  | t :: ts, a =>
    match t.size with
    | none => none
    | some s => reach ts (max a.1 (|t.seat.1| + s.1 / 2), max a.2 (|t.seat.2| + s.2 / 2))

/-- A coil as far as its dimensions go: those of its bobbin (`Bobbin::get_maximum_dimensions`) and its turns. -/
structure Coil where
  bobbin : Size
  turns : Option (List Turn)
  deriving DecidableEq

/-- `Coil::get_maximum_dimensions` (Coil.cpp 13741-13778); `none` = throws. -/
def coilSize (c : Coil) : Option Size :=
  match c.turns with
  | none => none
  | some ts => (reach ts (0, 0)).map fun r =>
      { width := max r.1 c.bobbin.width
        height := max r.2 c.bobbin.height
        depth := max (r.1 + (c.bobbin.width - c.bobbin.depth)) c.bobbin.depth }

/-- A magnetic as far as its dimensions go: those of its core (`Core::get_maximum_dimensions`, Core.cpp 2401-2408), its coil, and the dimensions
it remembers (`_maximumDimensions`, Magnetic.h 25). -/
structure Object where
  core : Option Size
  coil : Option Coil
  memo : Option Size
  deriving DecidableEq

/-- The dimensions of the parts (Magnetic.cpp 55-59); `none` = throws, without a core or a coil (Magnetic.h 41-57). -/
def sizeOf (core : Option Size) (coil : Option Coil) : Option Size :=
  match core, coil with
  | some a, some c => (coilSize c).map fun b => { width := max a.width b.width, height := max a.height b.height, depth := max a.depth b.depth }
  | _, _ => none

/-- `Magnetic::get_maximum_dimensions` (Magnetic.cpp 53-62): the object left behind and the answer. -/
def ask (o : Object) : Object × Option Size :=
  match o.memo with
  | some s => (o, some s)
  | none => match sizeOf o.core o.coil with
    | some s => ({ o with memo := some s }, some s)
    | none => (o, none)

/-- `Magnetic::fits` (Magnetic.cpp 95-173), whose branches are those of `Core::fits` (`Verif.CoreData.fits`). -/
def fitsIn (o : Object) (m : Maximum) (rotation : Bool) : Object × Option Bool :=
  ((ask o).1, (ask o).2.map fun s => fits s m rotation)

/-- What may be done to a magnetic: other parts are put in it (`set_core`, `set_coil`, Magnetic.h 45 and 58, or the references that
`get_mutable_core` and `get_mutable_coil` give), it is read from a JSON (Magnetic.h 203-208, where a part that is not there is left as it
was), or it is asked. -/
inductive Op
  | setCore (s : Size)
  | setCoil (c : Coil)
  | read (core : Option Size) (coil : Option Coil)
  | ask
  | fits (m : Maximum) (rotation : Bool)

/-- What `to_json` writes of the parts (Magnetic.h 214-225). -/
def write (o : Object) : Option Size × Option Coil := (o.core, o.coil)

/-- The object after an operation. -/
def step (o : Object) : Op → Object
  | .setCore s => { o with core := some s }
  | .setCoil c => { o with coil := some c }
  | .read core coil => { o with core := core.or o.core, coil := coil.or o.coil }
  | .ask => (ask o).1
  | .fits m r => (fitsIn o m r).1

/-- The object after some operations. -/
def run (o : Object) (ops : List Op) : Object := ops.foldl step o

/-! ## Currents -/

variable {K : Type} [Field K] [LinearOrder K]

/-- `Magnetic::calculate_saturation_current` (Magnetic.cpp 175-199 and 201-251) from the flux density of saturation, the turns of the first
winding, the effective area and the inductance; `none` = throws. -/
def saturationCurrent (flux : K) (turns : ℕ) (area : K) (inductance : Option K) : Option K :=
  match inductance with
  | none => none
  | some l => if l ≤ 0 then none else some (flux * turns * area / l)

/-- The fixed point of the temperature of the winding (Magnetic.cpp 291-312), with the turns left and the largest temperature so far: `solve`
answers the largest temperature and the average of the coil for a temperature of the copper. -/
def steadyLoop (solve : K → K × K) : ℕ → K → K → K
  | 0, _, largest => largest
  | left + 1, winding, _ =>
    if |(solve winding).2 - winding| < 5 / 100 then (solve winding).1
    else steadyLoop solve left (solve winding).2 (solve winding).1

/-- `steadyStateTemperature` (Magnetic.cpp 291-312). -/
def steady (solve : K → K → K × K) (ambient current : K) : K := steadyLoop (solve current) 6 ambient ambient

/-- How the search of a bound ends. -/
inductive Bound (K : Type)
  | found (upper : K)
  | throws
  | fuel
  deriving DecidableEq

/-- The bound is doubled until its rise is enough (Magnetic.cpp 318-324), at most `fuel` times. -/
def grow (rise : K → K) (target : K) : ℕ → K → Bound K
  | 0, _ => .fuel
  | fuel + 1, upper =>
    if rise upper < target then (if upper * 2 > 1000000 then .throws else grow rise target fuel (upper * 2)) else .found upper

/-- The bisection (Magnetic.cpp 326-340), with the turns left. -/
def bisect (rise : K → K) (target : K) : ℕ → K → K → K
  | 0, lower, upper => 1 / 2 * (lower + upper)
  | left + 1, lower, upper =>
    if |rise (1 / 2 * (lower + upper)) - target| < 1 / 10 then 1 / 2 * (lower + upper)
    else if rise (1 / 2 * (lower + upper)) < target then bisect rise target left (1 / 2 * (lower + upper)) upper
    else bisect rise target left lower (1 / 2 * (lower + upper))

/-- `Magnetic::calculate_rated_current` (Magnetic.cpp 253-341), of the rise of temperature as a function of the current; `none` = throws. The
twenty rounds given to the search of a bound are enough (`grow_never_out_of_fuel`). -/
def ratedCurrent (rise : K → K) (target : K) : Option K :=
  if target ≤ 0 then none
  else match grow rise target 20 1 with
    | .found upper => some (bisect rise target 40 0 upper)
    | _ => none

/-! ## When two are the same -/

/-- What `operator==` reads of a core, and its gaps, which it does not. -/
structure Core where
  shape : String
  material : String
  stacked : ℤ
  gaps : List ℚ
  deriving DecidableEq

/-- What it reads of a winding; `wire` is the type of the wire once resolved, `none` if it cannot be. -/
structure Winding where
  turns : ℤ
  parallels : ℤ
  wire : Option ℕ
  deriving DecidableEq

/-- A magnetic as far as `operator==` goes. -/
structure Part where
  reference : String
  core : Option Core
  coil : Option (List Winding)
  deriving DecidableEq

/-- The loop over the windings (Magnetic.h 156-164), of two lists of the same length; `none` = throws. -/
def sameWindings : List Winding → List Winding → Bool → Option Bool
  | a :: as, b :: bs, acc =>
    match a.wire, b.wire with
    | some x, some y => sameWindings as bs (acc && (decide (a.turns = b.turns) && decide (a.parallels = b.parallels) && decide (x = y)))
    | _, _ => none
  | _, _, acc => some acc

/-- The comparison of the cores (Magnetic.h 147-151). -/
def sameCores : Option Core → Option Core → Bool
  | some a, some b => decide (a.shape = b.shape) && decide (a.material = b.material) && decide (a.stacked = b.stacked)
  | _, _ => true

/-- `operator==` of magnetics (Magnetic.h 137-169); `none` = throws. -/
def same (a b : Part) : Option Bool :=
  if a.core.isSome ≠ b.core.isSome ∨ a.coil.isSome ≠ b.coil.isSome then some false
  else
    let acc := decide (a.reference = b.reference) && sameCores a.core b.core
    match a.coil, b.coil with
    | some as, some bs =>
      if acc && decide (as.length = bs.length) then sameWindings as bs true else some false
    | _, _ => some acc

/-- What `operator==` reads of a wire (Wire.h 303-357): the dimensions, already resolved, are those of lines 310-339 in order (conducting
diameter, height and width, outer diameter, height and width). -/
structure Wire where
  type : ℕ
  name : Option String
  dimensions : Fin 6 → Option ℚ
  conductors : Option ℕ
  standard : Option ℕ
  standardName : Option String

/-- Both are there and differ. -/
def differ {α : Type} [DecidableEq α] (a b : Option α) : Bool :=
  match a, b with
  | some x, some y => decide (x ≠ y)
  | _, _ => false

/-- `operator==` of wires (Wire.h 303-357). -/
def sameWire (a b : Wire) : Bool :=
  if a.type ≠ b.type then false
  else match a.name, b.name with
    | some x, some y => decide (x = y)
    | _, _ => !(decide (∃ k, differ (a.dimensions k) (b.dimensions k) = true) || differ a.conductors b.conductors || differ a.standard b.standard ||
        differ a.standardName b.standardName)

/-- What `operator==` reads of some inputs (Inputs.h 264-281): the inductance and the ratios, already resolved, and how many excitations each
operating point has. -/
structure Inputs where
  inductance : ℚ
  ratios : List ℚ
  excitations : List ℕ
  deriving DecidableEq

/-- `operator==` of inputs (Inputs.h 264-281). -/
def sameInputs (a b : Inputs) : Bool :=
  if decide (a.inductance = b.inductance) && decide (a.excitations.length = b.excitations.length) then
    if a.ratios.length ≠ b.ratios.length then false
    else (List.zipWith (fun x y => decide (x = y)) a.ratios b.ratios).all id && (List.zipWith (fun x y => decide (x = y)) a.excitations b.excitations).all id
  else false

/-- `operator==` of a whole MAS (Mas.h 53-55): the outputs are not read. -/
def sameMas (a b : Part × Inputs) : Option Bool := (same a.1 b.1).map fun x => x && sameInputs a.2 b.2

end Verif.Magnetic
