import Mathlib.Algebra.Order.Floor.Ring
import Mathlib.Algebra.Order.Field.Rat
import Mathlib.Data.Rat.Floor
import Verif.Rings.Model

/-! # Model of the filters by temperature, by leakage and by cost
(src/advisers/MagneticFilterAdvanced.cpp:81-213, src/advisers/MagneticFilterEnergyCost.cpp:65-176,
src/constructive_models/Wire.cpp:1665-1698)

Numbers are exact. What the physical models answer is a parameter. -/

namespace Verif.Costs

/-- What a call does: it answers, it throws, or it is undefined. -/
inductive Res (α : Type) where
  | ok (a : α)
  | throws
  | ub
  deriving DecidableEq

/-- One call after another. -/
def Res.bind {α β : Type} : Res α → (α → Res β) → Res β
  | .ok a, f => f a
  | .throws, _ => .throws
  | .ub, _ => .ub

/-- `std::optional::value`: throws when there is none. -/
def need {α : Type} : Option α → Res α
  | some a => .ok a
  | none => .throws

variable {K : Type} [Field K] [LinearOrder K] [IsStrictOrderedRing K]

/-! ## Temperature -/

/-- An operating point for the filter by temperature (src/advisers/MagneticFilterAdvanced.cpp:167-206): its ambient temperature,
whether it has a first excitation, the flux density that another filter left for it, the one that is calculated, and its cooling. -/
structure Point (K B C : Type) where
  ambient : K
  excited : Bool
  cached : Option B
  computed : Res B
  cooling : Option C

/-- The flux density of a point (src/advisers/MagneticFilterAdvanced.cpp:178-186). -/
def fluxOf {B C : Type} (p : Point K B C) : Res B :=
  match p.cached with
  | some b => .ok b
  | none => p.computed

/-- The losses of a point (src/advisers/MagneticFilterAdvanced.cpp:168-193). Reading the first of no excitations is undefined. -/
def lossesOf {B C : Type} (core : B → K → Res K) (p : Point K B C) : Res K :=
  if p.excited then (fluxOf p).bind fun b => core b p.ambient else .ub

/-- The loop over the points (src/advisers/MagneticFilterAdvanced.cpp:161-162, 167-195): the losses so far and the last ambient temperature. -/
def temperatureLoop {B C : Type} (core : B → K → Res K) : List (Point K B C) → K → K → Res (K × K)
  | [], total, ambient => .ok (total, ambient)
  | p :: rest, total, _ => (lossesOf core p).bind fun l => temperatureLoop core rest (total + l) p.ambient

/-- The losses of which the temperature is asked (src/advisers/MagneticFilterAdvanced.cpp:196-197). -/
def meanLosses (total : K) (count : Nat) : K := if count = 0 then total else total / count

/-- The cooling (src/advisers/MagneticFilterAdvanced.cpp:204-207): that of the first point. -/
def coolingOf {B C : Type} (ps : List (Point K B C)) : Option C := ps.head?.bind fun p => p.cooling

/-- `MagneticFilterTemperature::evaluate_magnetic` (src/advisers/MagneticFilterAdvanced.cpp:152-213). `solve`: the maximum temperature
for the losses of the core, the ambient temperature and the cooling; `limit`: the maximum that is allowed. -/
def temperature {B C : Type} (core : B → K → Res K) (solve : K → K → Option C → Res K) (limit : K) (ps : List (Point K B C)) :
    Res (Bool × K) :=
  (temperatureLoop core ps 0 25).bind fun r =>
    (solve (meanLosses r.1 ps.length) r.2 (coolingOf ps)).bind fun t => .ok (decide (t ≤ limit), t)

/-! ## Leakage -/

/-- The inductances of an output: the leakage and what else there is. -/
structure Inductances (L M : Type) where
  leakage : Option L
  magnetizing : Option M
  deriving DecidableEq

/-- An output: the inductances, if any, and what else there is. -/
structure Out (L M O : Type) where
  inductances : Option (Inductances L M)
  other : Option O
  deriving DecidableEq

/-- The leakage written in an output (src/advisers/MagneticFilterAdvanced.cpp:135-140). -/
def setLeakage {L M O : Type} (l : L) (o : Out L M O) : Out L M O :=
  { o with inductances := some { (o.inductances.getD ⟨none, none⟩) with leakage := some l } }

/-- The outputs after the filter (src/advisers/MagneticFilterAdvanced.cpp:130-142): one for each point at least, all those of the
points with the leakage. -/
def writeLeakage {L M O : Type} (l : L) : Nat → List (Out L M O) → List (Out L M O)
  | 0, outs => outs
  | n + 1, [] => setLeakage l ⟨none, none⟩ :: writeLeakage l n []
  | n + 1, o :: outs => setLeakage l o :: writeLeakage l n outs

/-- The frequency of the leakage (src/advisers/MagneticFilterAdvanced.cpp:93-96). `points`: the frequencies of the excitations of each
point. -/
def leakageFrequency (standard : K) (points : List (List K)) : Res K :=
  match points with
  | [] => .ok standard
  | [] :: _ => .ub
  | (f :: _) :: _ => .ok f

/-- What is made of the leakage and of the magnetizing inductance (src/advisers/MagneticFilterAdvanced.cpp:118-144). -/
def leakageScore {M O : Type} (points : Nat) (outs : List (Out K M O)) (leak lm : K) : Res ((Bool × K) × List (Out K M O)) :=
  if lm ≤ 0 then .throws else .ok ((true, leak / lm), writeLeakage leak points outs)

/-- `MagneticFilterLeakageInductance::evaluate_magnetic` (src/advisers/MagneticFilterAdvanced.cpp:81-145) with outputs. `leak`: the
leakage of the first winding with the second at a frequency; `magnetizing`: the magnetizing inductance. What is written is the
number, not the whole of what the model of the leakage answers. -/
def leakage {M O : Type} (windings : Nat) (standard : K) (points : List (List K)) (leak : K → Res K) (magnetizing : Res K)
    (outs : List (Out K M O)) : Res ((Bool × K) × List (Out K M O)) :=
  if windings < 2 then .ok ((true, 0), outs)
  else (leakageFrequency standard points).bind fun f => (leak f).bind fun l =>
    magnetizing.bind fun lm => leakageScore points.length outs l lm

/-! ## Estimated cost -/

/-- What the constructor leaves (src/advisers/MagneticFilter.h:72-76). -/
structure Estimate (K : Type) where
  parallels : K
  wireArea : K
  filling : K
  depth : K
  margin : K

/-- The largest of what the points answer, from zero (src/advisers/MagneticFilterEnergyCost.cpp:66-76). -/
def largest : List K → K := fun xs => xs.foldl max 0

/-- The parallels (src/advisers/MagneticFilterEnergyCost.cpp:83-84). `density`: the maximum current density; `area`: the area of a
conductor of two skin depths, not zero. -/
def parallelsFor [FloorRing K] (rms density area : K) : K := (⌈rms / density / area⌉ : ℤ)

/-- `MagneticFilterEstimatedCost::MagneticFilterEstimatedCost` (src/advisers/MagneticFilterEnergyCost.cpp:65-90). `currents` and
`frequencies` are those of the primaries, `skin` the skin depth in copper at a frequency and `filling` the filling factor of a round
wire of a diameter; `creepage` is there when the settings and the requirements ask for margins. -/
def construct [FloorRing K] (π density : K) (skin filling : K → K) (currents frequencies : List K) (creepage : Option K) :
    Estimate K :=
  { depth := skin (largest frequencies)
    filling := filling (2 * skin (largest frequencies))
    wireArea := π * skin (largest frequencies) ^ 2 / filling (2 * skin (largest frequencies))
    parallels := parallelsFor (largest currents) density (π * skin (largest frequencies) ^ 2)
    margin := creepage.getD 0 }

/-- The window of a core that is not a toroid, or of one that is. -/
inductive Window (K : Type) where
  | straight (area height width : K)
  | round (area radial : K)

/-- The area that is needed (src/advisers/MagneticFilterEnergyCost.cpp:95-96). -/
def neededArea (e : Estimate K) (turns ratios : Nat) : K := turns * e.parallels * e.wireArea * (ratios + 1)

/-- The layers that are needed along a length (src/advisers/MagneticFilterEnergyCost.cpp:138, 146). -/
def neededLayers (e : Estimate K) (turns : Nat) (length : K) : K := turns * e.parallels * (2 * e.depth / e.filling) / length

/-- The area left by the margin in a window that is not round (src/advisers/MagneticFilterEnergyCost.cpp:108-117). -/
def straightArea (margin area height width : K) : K :=
  if 0 < margin then (if width < height then area - width * margin else area - height * margin) else area

/-- The area left by the margin in a round window (src/advisers/MagneticFilterEnergyCost.cpp:118-130): none when the candidate is
rejected. `angle`: that of a chord on a circumference. -/
def roundArea (angle : K → K → K) (margin area radial : K) : Option K :=
  if 0 < margin then
    (if radial / 2 < margin then none else some (area * ((360 - angle margin (radial / 2)) / 360)))
  else some area

/-- The cost of layers in a round window (src/advisers/MagneticFilterEnergyCost.cpp:150-155). -/
def roundCost (layers : K) : K := if 1 < layers then layers * 2 else layers

/-- Cores of several stacks (src/advisers/MagneticFilterEnergyCost.cpp:157-159). -/
def stackCost (count : Nat) (cost : K) : K := if 1 < count then cost * 2 else cost

/-- The end for a round window (src/advisers/MagneticFilterEnergyCost.cpp:133, 142-161). -/
def roundAnswer (π threshold : K) (e : Estimate K) (turns ratios count : Nat) (left radial : K) : Res (Bool × K) :=
  if radial ≤ e.depth then .ok (false, 0)
  else if neededLayers e turns (2 * π * (radial - e.depth)) < 0 then .throws
  else .ok (decide (neededArea e turns ratios * threshold ≤ left),
    stackCost count (roundCost (neededLayers e turns (2 * π * (radial - e.depth)))))

/-- `MagneticFilterEstimatedCost::evaluate_magnetic` (src/advisers/MagneticFilterEnergyCost.cpp:92-162), once there is a window
with its dimensions. `threshold` is `coreAdviserThresholdValidity`. The height is not zero in the quotient of line 138. That an angle
is not a number (line 124) cannot be here. -/
def estimatedCost (π : K) (angle : K → K → K) (threshold : K) (e : Estimate K) (turns ratios count : Nat) : Window K → Res (Bool × K)
  | .straight area height width =>
    .ok (decide (neededArea e turns ratios * threshold ≤ straightArea e.margin area height width),
      stackCost count (neededLayers e turns height))
  | .round area radial =>
    match roundArea angle e.margin area radial with
    | none => .ok (false, 0)
    | some left => roundAnswer π threshold e turns ratios count left radial

/-! ## Cost of wires -/

/-- A coating, with what the cost reads of it. -/
inductive Coating where
  | insulated (layers : Option Nat)
  | enamelled (grade : Option Nat)
  | other
  deriving DecidableEq

/-- The cost of the strands of a litz wire (src/constructive_models/Wire.cpp:1667-1678). -/
def litzCost (conductors : Nat) : Nat :=
  1 + (if 100 < conductors then 1 else 0) + (if 500 < conductors then 1 else 0) + (if 1000 < conductors then 1 else 0)

/-- The cost of layers of insulation (src/constructive_models/Wire.cpp:1683-1690). -/
def insulatedCost (layers : Nat) : Nat := layers + (if layers = 1 ∨ layers = 2 then 2 else 0)

/-- The cost of a coating (src/constructive_models/Wire.cpp:1680-1695). -/
def coatingCost : Option Coating → Res Nat
  | none => .ok 0
  | some (.insulated l) => (need l).bind fun l => .ok (insulatedCost l)
  | some (.enamelled g) => need g
  | some .other => .ok 0

/-- A wire: `litz` says if it is one, and then `conductors` is read. Layers and grades are not negative here. -/
structure Wire where
  litz : Bool
  conductors : Option Nat
  coating : Option Coating
  deriving DecidableEq

/-- The cost of what a wire is made of (src/constructive_models/Wire.cpp:1666-1678). -/
def strandCost (w : Wire) : Res Nat := if w.litz then (need w.conductors).bind fun n => .ok (litzCost n) else .ok 0

/-- `Wire::get_relative_cost` (src/constructive_models/Wire.cpp:1665-1698), once the coating is resolved. -/
def wireCost (w : Wire) : Res Nat := (strandCost w).bind fun a => (coatingCost w.coating).bind fun b => .ok (a + b)

/-- The sum over wires (src/advisers/MagneticFilterEnergyCost.cpp:165-169). -/
def wiresCost : List Wire → Res Nat
  | [] => .ok 0
  | w :: ws => (wireCost w).bind fun a => (wiresCost ws).bind fun b => .ok (a + b)

/-- `MagneticFilterCost::evaluate_magnetic` (src/advisers/MagneticFilterEnergyCost.cpp:164-176). `layers`: how many layers the coil
has, if it has them. -/
def cost (wires : List Wire) (layers : Option Nat) : Res (Bool × Nat) :=
  (wiresCost wires).bind fun c => (need layers).bind fun n => .ok (true, n + c)

end Verif.Costs
