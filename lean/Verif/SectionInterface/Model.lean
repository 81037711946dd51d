import Verif.Common.Round

/-! # Model of the insulation between coil sections
(src/constructive_models/Insulation.cpp:58-128, 184-354, src/constructive_models/InsulationMaterial.cpp:33-48)

Numbers are an ordered field with floor (exact arithmetic). Wires are reduced to what the function reads: their
resolved coating, whether they are litz, and the coating of the strand. -/

namespace Verif.SectionInterface

open Verif.Round

variable {K : Type} [Field K] [LinearOrder K] [IsStrictOrderedRing K] [FloorRing K]

/-- `IsolationClass`. -/
inductive Cls where
  | functional | basic | supplementary | double | reinforced
  deriving DecidableEq, Repr

/-- `InsulationWireCoating`: the fields read here. `get_number_layers()` is an `int64_t` in the code; a negative
number of layers (which would wrap around when added to a `size_t`) is not modelled. -/
structure Coating (K : Type) where
  breakdown : Option K
  layers : Option Nat
  grade : Option Int
  deriving DecidableEq, Repr

/-- `Wire`: the fields read here. `strandCoating` is `Wire::resolve_coating(wire.resolve_strand())`. -/
structure Wire (K : Type) where
  litz : Bool
  coating : Option (Coating K)
  strandCoating : Option (Coating K)
  deriving DecidableEq, Repr

/-- What one wire contributes to `times_withstand_voltage_is_covered_by_wires`. -/
inductive Share where
  | count (n : Nat)
  /-- the breakdown voltage is missing: the function returns 0 for both wires -/
  | unknown
  /-- `value()` on a missing strand coating throws -/
  | throw
  deriving DecidableEq, Repr

/-- The contribution of a coating with a known breakdown voltage
(src/constructive_models/Insulation.cpp:76-93). -/
def coatingShare (c : Coating K) (bd v : K) (fiw : Bool) : Nat :=
  if bd > v then
    match c.layers with
    | some n => n
    | none =>
      match c.grade with
      | some g => if fiw then (if g > 3 then 3 else 1) else 1
      | none => 1
  else 0

/-- One of the two halves of the function (src/constructive_models/Insulation.cpp:63-95 and 96-126). -/
def wireShare (w : Wire K) (v : K) (fiw : Bool) : Share :=
  match w.coating with
  | none => .count 0
  | some c =>
    match c.breakdown with
    | some bd => .count (coatingShare c bd v fiw)
    | none =>
      if w.litz then
        match w.strandCoating with
        | none => .throw
        | some s =>
          match s.breakdown with
          | some bd => .count (coatingShare s bd v fiw)
          | none => .unknown
      else .unknown

/-- Models `times_withstand_voltage_is_covered_by_wires` (src/constructive_models/Insulation.cpp:58-128).
`none`: exception. -/
def times (left right : Wire K) (v : K) (fiw : Bool) : Option Nat :=
  match wireShare left v fiw with
  | .throw => none
  | .unknown => some 0
  | .count n =>
    match wireShare right v fiw with
    | .throw => none
    | .unknown => some 0
    | .count m => some (n + m)

/-- Models `InsulationMaterial::get_thicker_tape` (src/constructive_models/InsulationMaterial.cpp:33-48): a
running maximum of the thickness over the dielectric strength elements that state a thickness, starting at
thickness 0 and strength 0. -/
def thickerTape : List (Option K × K) → K × K → K × K
  | [], acc => acc
  | (none, _) :: l, acc => thickerTape l acc
  | (some th, v) :: l, acc => thickerTape l (if th > acc.1 then (th, v) else acc)

/-- `std::max(1.0, ceil(roundFloat(v / tapeDielectricStrength / tapeThickness, 1)))` converted to `size_t`
(src/constructive_models/Insulation.cpp:227 and others). `none`: dielectric strength zero, the quotient is
infinite or NaN and its conversion undefined. -/
def layersFor (v ds t : K) : Option Nat :=
  if ds = 0 then none else some (max 1 ⌈roundFloat (v / ds / t) 1⌉).toNat

/-- The choice of the `switch` (src/constructive_models/Insulation.cpp:217-339): number of layers, whether the
purpose is mechanical, and the remaining clearance and creepage distance. -/
structure Choice (K : Type) where
  layers : Nat
  mechanical : Bool
  creepage : K
  deriving DecidableEq, Repr

/-- Outcome of a computation that can throw or be undefined. -/
inductive Res (A : Type) where
  | ok (a : A)
  | throw
  | ub
  deriving DecidableEq, Repr

/-- Use the number of layers for a voltage. -/
def withLayers {A : Type} (v ds t : K) (f : Nat → A) : Res A :=
  match layersFor v ds t with
  | none => .ub
  | some n => .ok (f n)

/-- The cases FUNCTIONAL, BASIC and SUPPLEMENTARY (src/constructive_models/Insulation.cpp:218-277); they
differ only in that FUNCTIONAL also declares the layer mechanical when the wires cover the voltage twice. -/
def chooseSimple (functional : Bool) (left right : Wire K) (fiw allowWire : Bool) (v creepage ds t : K) :
    Res (Choice K) :=
  match times left right v fiw with
  | none => .throw
  | some n =>
    if n > 0 ∧ allowWire = true then
      if creepage > 0 ∧ n ≥ 3 then .ok ⟨1, true, 0⟩
      else if creepage > 0 ∧ n = 2 then withLayers v ds t (fun k => ⟨k, functional, 0⟩)
      else .ok ⟨1, false, creepage⟩
    else withLayers v ds t (fun k => ⟨k, false, creepage⟩)

/-- One of the two alternatives of the case DOUBLE (src/constructive_models/Insulation.cpp:282-294 and
308-320), from the state left by what came before. -/
def chooseDoubleStep (left right : Wire K) (fiw allowWire : Bool) (v ds t : K) (mechanical : Bool)
    (creepage : K) : Res (Choice K) :=
  match times left right v fiw with
  | none => .throw
  | some n =>
    if n ≥ 3 ∧ allowWire = true then .ok ⟨1, true, 0⟩
    else if creepage > 0 ∧ n = 2 ∧ allowWire = true then withLayers v ds t (fun k => ⟨k, mechanical, 0⟩)
    else withLayers v ds t (fun k => ⟨k, mechanical, creepage⟩)

/-- The whole case DOUBLE (src/constructive_models/Insulation.cpp:278-325). `wv` is what
`calculate_withstand_voltage` answers on the inputs with the given insulation type (`none`: throws). The second
component is the insulation type the inputs are left with: the two evaluations are done on inputs whose type
has been overwritten, and the type is written back only afterwards. -/
def chooseDouble (left right : Wire K) (fiw allowWire : Bool) (wv : Cls → Option K) (v creepage ds t : K) :
    Res (Choice K) × Cls :=
  match chooseDoubleStep left right fiw allowWire v ds t false creepage with
  | .throw => (.throw, .double)
  | .ub => (.ub, .double)
  | .ok together =>
    match wv .basic with
    | none => (.throw, .basic)
    | some vb =>
      match wv .supplementary with
      | none => (.throw, .supplementary)
      | some vs =>
        match chooseDoubleStep left right fiw allowWire (max vb vs) ds t together.mechanical
            together.creepage with
        | .throw => (.throw, .double)
        | .ub => (.ub, .double)
        | .ok sep => (.ok ⟨min together.layers sep.layers, sep.mechanical, sep.creepage⟩, .double)

/-- The case REINFORCED (src/constructive_models/Insulation.cpp:326-338). -/
def chooseReinforced (left right : Wire K) (fiw allowWire : Bool) (v creepage ds t : K) : Res (Choice K) :=
  match times left right v fiw with
  | none => .throw
  | some n =>
    if n ≥ 3 ∧ allowWire = true then .ok ⟨1, true, 0⟩
    else withLayers v ds t (fun k => ⟨k, false, creepage⟩)

/-- The returned `CoilSectionInterface`. -/
structure Interface (K : Type) where
  layers : Nat
  thickness : K
  margin : K
  mechanical : Bool
  deriving DecidableEq, Repr

/-- `if (tapeThickness * N <= minimumDistanceThroughInsulation) N = ceil(roundFloat(dti / tapeThickness, 1))`
(src/constructive_models/Insulation.cpp:340-342). -/
def raiseToDti (t dti : K) (n : Nat) : Nat :=
  if t * n ≤ dti then ⌈roundFloat (dti / t) 1⌉.toNat else n

/-- The end of the function (src/constructive_models/Insulation.cpp:340-353). -/
def finish (allowMargin : Bool) (t dti : K) (c : Choice K) : Option (Interface K) :=
  if c.creepage > 0 ∧ allowMargin = false then none
  else some ⟨raiseToDti t dti c.layers, t * raiseToDti t dti c.layers, c.creepage, c.mechanical⟩

/-- What the coordinator answers on the inputs (`calculate_insulation_coordination`). -/
structure Coordination (K : Type) where
  withstand : K
  creepage : K
  dti : K

/-- Models `calculate_coil_section_interface_layers` (src/constructive_models/Insulation.cpp:184-354).
`coord = none`: the coordination throws. `ok none` is `std::nullopt`. The second component is the insulation
type the inputs are left with. -/
def calculate (cls : Cls) (tapes : List (Option K × K)) (left right : Wire K) (fiw : Bool)
    (allowMargin allowWire : Bool) (coord : Option (Coordination K)) (wv : Cls → Option K) :
    Res (Option (Interface K)) × Cls :=
  let tape := thickerTape tapes (0, 0)
  let t := tape.1
  let ds := tape.2
  if t = 0 then (.ok none, cls)
  else
    match coord with
    | none => (.throw, cls)
    | some co =>
      if allowMargin = false ∧ allowWire = false then (.throw, cls)
      else
        let r : Res (Choice K) × Cls :=
          match cls with
          | .functional => (chooseSimple true left right fiw allowWire co.withstand co.creepage ds t, cls)
          | .basic => (chooseSimple false left right fiw allowWire co.withstand co.creepage ds t, cls)
          | .supplementary => (chooseSimple false left right fiw allowWire co.withstand co.creepage ds t, cls)
          | .double => chooseDouble left right fiw allowWire wv co.withstand co.creepage ds t
          | .reinforced => (chooseReinforced left right fiw allowWire co.withstand co.creepage ds t, cls)
        match r.1 with
        | .throw => (.throw, r.2)
        | .ub => (.ub, r.2)
        | .ok c => (.ok (finish allowMargin t co.dti c), r.2)

end Verif.SectionInterface
