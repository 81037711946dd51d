import Mathlib.Analysis.SpecialFunctions.Trigonometric.Inverse
import Mathlib.Algebra.Order.Floor.Ring
import Mathlib.Algebra.Order.Field.Rat
import Mathlib.Data.Rat.Floor

/-! # Model of the rings of a toroid
(src/constructive_models/Coil.cpp:6766-6815, 8897-8912, 9943-9984, 10008-10013, 9988-9990, 10071-10107;
src/support/Utils.cpp:2189-2203)

Lengths and angles are exact. Numbers of turns are unbounded: the conversions to 64 bits are not modelled. -/

namespace Verif.Rings

/-! ## Angles -/

/-- Models `wound_distance_to_angle` (src/support/Utils.cpp:2189-2199) for radii that are not negative: the arc sine of what is
above one, and the quotient by zero, are not a number. -/
noncomputable def woundAngle (distance radius : ℝ) : ℝ :=
  if radius = 0 ∨ 1 < distance / 2 / radius then 360
  else 2 * Real.arcsin (distance / 2 / radius) * 180 / Real.pi

/-- Models `angle_to_wound_distance` (src/support/Utils.cpp:2201-2203). -/
noncomputable def woundDistance (angle radius : ℝ) : ℝ := 2 * Real.sin (angle / 2 / 180 * Real.pi) * radius

variable {K : Type} [Field K] [LinearOrder K] [IsStrictOrderedRing K]

/-! ## Capacity of rings -/

/-- The radius of each ring (src/constructive_models/Coil.cpp:6798-6800). `w`: width of the wire. -/
def radius (w r0 : K) : Nat → K
  | 0 => r0
  | k + 1 => if w < radius w r0 k then radius w r0 k - w else radius w r0 k

/-- The radius of the first ring (src/constructive_models/Coil.cpp:6778-6783). `outer`: radius of the window, `start`: radial height
at which the section starts. -/
def firstRadius (rectangular : Bool) (outer w start : K) : K :=
  if rectangular then outer - w - start else outer - w / 2 - start

/-- Turns that fit in a ring (src/constructive_models/Coil.cpp:6788-6793). -/
def ringTurns [FloorRing K] (angle wireAngle : K) (blocked : Int) : Nat := (max 1 (⌊angle / wireAngle⌋ - blocked)).toNat

/-- What is needed of a wire and a section. `angleOf`: the angle of a distance at a radius. -/
structure Shape (K : Type) where
  width : K
  height : K
  first : K
  blocked : List Int

/-- The turns that fit in ring `k`; the slots of the rings beyond the list are not blocked
(src/constructive_models/Coil.cpp:6787-6793). -/
def capacity [FloorRing K] (angleOf : K → K → K) (s : Shape K) (angle : K) (k : Nat) : Nat :=
  ringTurns angle (angleOf s.height (max s.width (radius s.width s.first k))) (s.blocked[k]?.getD 0)

/-- The rings opened until all turns have a place, with the turns that fit in each, at least one
(src/constructive_models/Coil.cpp:6787-6801). -/
def fill (cap : Nat → Nat) (k remaining : Nat) : List Nat :=
  if remaining = 0 then []
  else max 1 (cap k) :: fill cap (k + 1) (remaining - max 1 (cap k))
termination_by remaining
decreasing_by omega

/-- The turns taken back one by one from the last ring towards the first and again from the last
(src/constructive_models/Coil.cpp:6803-6812). -/
def shave (n : Nat) : List Int → Nat → Nat → List Int
  | l, _, 0 => l
  | l, cur, e + 1 => shave n (l.modify cur (· - 1)) (if cur = 0 then n - 1 else cur - 1) e

/-- Models `get_number_layers_needed_and_number_physical_turns` (src/constructive_models/Coil.cpp:6766-6815): the turns of each
ring. Foil and planar wires are refused and not modelled. -/
def distribute (cap : Nat → Nat) (turns : Nat) : List Int :=
  let l := fill cap 0 turns
  shave l.length (l.map Int.ofNat) (l.length - 1) (l.sum - turns)

/-! ## Planning of a section -/

/-- Models the loop that finds the rings of a section and the angles of its margins
(src/constructive_models/Coil.cpp:8897-8911). `rings`: the rings needed in an angle; `margins`: the angles of both margins at
the radius of the last ring, if there is such radius. `none`: the loop has not ended yet. -/
def planLoop (angle : K) (rings : K → Nat) (margins : Nat → Option (K × K)) : Nat → Option Nat → K × K → Option (Nat × (K × K))
  | 0, _, _ => none
  | fuel + 1, prev, mg =>
    match margins (rings (angle - mg.1 - mg.2)) with
    | none => some (rings (angle - mg.1 - mg.2), mg)
    | some mg' =>
      if prev = some (rings (angle - mg.1 - mg.2)) then some (rings (angle - mg.1 - mg.2), mg')
      else planLoop angle rings margins fuel (some (rings (angle - mg.1 - mg.2))) mg'

/-- The angles of the margins after the last ring (src/constructive_models/Coil.cpp:8905-8910). -/
def marginAngles (angleOf : K → K → K) (outer start w m0 m1 : K) (n : Nat) : Option (K × K) :=
  if outer - (start + n * w) < 0 then none
  else some (angleOf m0 (outer - (start + n * w)), angleOf m1 (outer - (start + n * w)))

/-! ## Layers of a section -/

/-- What becomes of the layers of a section. -/
inductive Outcome where
  | refused
  | layers (turns : List Int)
  | ub
  deriving DecidableEq

/-- The number of layers and how many are needed, before what is asked (src/constructive_models/Coil.cpp:9959-9974). `fitting`:
layers that fit in the section; `perLayer`: turns that fit in an average layer. -/
def layerNumber (fitting perLayer : Nat) (rings : List Int) : Nat × Nat :=
  if fitting = 0 then (rings.length, 0)
  else if perLayer = 0 then (fitting, 0)
  else (min rings.length fitting, rings.length)

/-- The turns of each layer (src/constructive_models/Coil.cpp:9976-9984, 10015-10028). `asked`: the number of layers of the section, if it has one. -/
def layersOf (fitting perLayer : Nat) (asked : Option Nat) (rings : List Int) (turns : Nat) : Outcome :=
  let n := min (asked.getD (layerNumber fitting perLayer rings).1) turns
  if n < (layerNumber fitting perLayer rings).2 then .refused
  else if rings.length < n then .ub
  else .layers (rings.take n)

/-- Whether parallels are wound consecutively (src/constructive_models/Coil.cpp:10008-10013). `byParallels`: what the section asks. -/
def keepsParallels (byParallels : Bool) (perLayer parallels : Nat) (rings : List Int) : Bool :=
  let least := rings.foldl min (rings.headD 0)
  byParallels && !(decide (perLayer < parallels) || (decide (0 < least) && decide (least < parallels)))

/-- The radial height of the centre of each layer (src/constructive_models/Coil.cpp:9989, 10072, 10084, 10098, 10107), without the
rounding to nine decimals. `h`: radial height of the section, `c` of its centre; `w`: width of the wire; `t`: thickness of
the insulation between layers, zero if there is none. -/
def layerCentre (c h w t : K) : Nat → K
  | 0 => c - h / 2 + w / 2
  | k + 1 => layerCentre c h w t k + w / 2 + t / 2 + t / 2 + w / 2

end Verif.Rings
