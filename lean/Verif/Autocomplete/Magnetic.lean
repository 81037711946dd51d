import Verif.Pattern.Model
import Mathlib.Algebra.Order.Field.Basic
import Mathlib.Algebra.Order.Field.Rat

/-! # Model of the completion of a magnetic (src/support/Utils.cpp:2596-2984)

`K` are the numbers and `A` is all data that are passed on without being looked into. What is calculated elsewhere (processing of the core, its geometry,
outer dimensions of wires, quick bobbins, winding, catalogues) is any function that answers or throws (`none`). -/

namespace Verif.Autocomplete.Magnetic

/-- What comes out: `wire i` is the exception that names the winding whose wire has no outer dimensions (src/support/Utils.cpp:2763-2768). -/
inductive Res (A : Type) where
  | ok (a : A)
  | throws
  | wire (i : ℕ)
  | ub
  deriving DecidableEq

/-- One step after another. -/
def Res.bind {A B : Type} (r : Res A) (f : A → Res B) : Res B :=
  match r with
  | .ok a => f a
  | .throws => .throws
  | .wire i => .wire i
  | .ub => .ub

/-- What answers or throws. -/
def Res.of {A : Type} : Option A → Res A
  | some a => .ok a
  | none => .throws

/-- The families of shapes that are told apart (src/support/Utils.cpp:2600-2626). -/
inductive Family where
  | t | drum | molded | ui | pqi | drumRing | drumSemishielded | other (n : ℕ)
  deriving DecidableEq

/-- The types of cores that are set (src/support/Utils.cpp:2601-2627). -/
inductive CoreType where
  | toroidal | openShape | closedShape | pieceAndPlate | twoPieceSet
  deriving DecidableEq

/-- `MagneticCircuit`. -/
inductive Circuit where
  | opened | closed
  deriving DecidableEq

/-- A name in a catalogue or the data themselves. -/
inductive Named (X : Type) where
  | name (s : String)
  | data (x : X)
  deriving DecidableEq

/-- A core shape. -/
structure Shape (A : Type) where
  family : Family
  circuit : Option Circuit
  rest : A
  deriving DecidableEq

/-- The material of a core, or those of its pieces, the primary one first (src/constructive_models/Core.cpp:1364-1367). -/
inductive Material (A : Type) where
  | one (m : Named A)
  | several (ms : List (Named A))
  deriving DecidableEq

/-- A gap. -/
structure Gap (K A : Type) where
  length : K
  rest : A
  deriving DecidableEq

/-- A core: functional, processed and geometrical descriptions. -/
structure Core (K A : Type) where
  type : CoreType
  shape : Named (Shape A)
  material : Material A
  gaps : List (Gap K A)
  processed : Option A
  geometry : Option A
  deriving DecidableEq

/-- `InsulationWireCoatingType`, as far as it is told apart. -/
inductive CoatingKind where
  | bare | enamelled | other (n : ℕ)
  deriving DecidableEq

/-- The coating of a wire; all but kind and material is `rest`, which is `none` when it was made here. -/
structure Coating (A : Type) where
  kind : Option CoatingKind
  material : Option (Named A)
  rest : Option A
  deriving DecidableEq

/-- `WireType`. -/
inductive WireType where
  | round | litz | rectangular | foil | planar
  deriving DecidableEq

/-- A wire. -/
structure Wire (K A : Type) where
  type : WireType
  coating : Option (Named (Coating A))
  strand : Option (Named A)
  diameter : Option K
  width : Option K
  height : Option K
  rest : A
  deriving DecidableEq

/-- A winding. -/
structure Winding (K A : Type) where
  name : String
  turns : ℤ
  parallels : ℤ
  wire : Named (Wire K A)
  deriving DecidableEq

/-- `WindingOrientation`. -/
inductive Orientation where
  | contiguous | overlapping
  deriving DecidableEq

/-- `CoilAlignment`. -/
inductive Alignment where
  | inner | outer | spread | centered
  deriving DecidableEq

/-- A winding window of a bobbin. -/
structure Window (A : Type) where
  orientation : Option Orientation
  alignment : Option Alignment
  rest : A
  deriving DecidableEq

/-- A bobbin: `processed` are the winding windows of the processed description, whose other fields are part of `rest`. -/
structure Bobbin (A : Type) where
  functional : Option A
  processed : Option (List (Window A))
  rest : A
  deriving DecidableEq

/-- A layer of a wound coil. -/
structure Layer (A : Type) where
  name : String
  material : Option (Named A)
  rest : A
  deriving DecidableEq

/-- What winding leaves: sections, layers and turns, each if it is there. -/
structure Wound (A : Type) where
  sections : Option (List Pattern.Section)
  layers : Option (List (Layer A))
  turns : Option A
  deriving DecidableEq

/-- A coil: its descriptions and the members that are set here (src/constructive_models/Coil.h:290-293). -/
structure Coil (K A : Type) where
  windings : List (Winding K A)
  bobbin : Named (Bobbin A)
  wound : Wound A
  level : ℕ
  layersOrientation : Orientation
  turnsAlignment : Alignment
  inputs : Option A
  columns : Option A
  deriving DecidableEq

/-- A magnetic. -/
structure Magnetic (K A : Type) where
  core : Core K A
  coil : Coil K A
  deriving DecidableEq

/-- The configuration, a json: the values of the orientations and alignments are their texts. -/
structure Configuration where
  windingOrientation : Option String
  sectionAlignment : Option String
  layersOrientation : Option String
  turnsAlignment : Option String
  level : Option ℤ
  pattern : Option (List ℕ)

/-- What is found in catalogues or calculated elsewhere. `process` is `process_data` and `process_gap_or_throw`, that answer the processed description and
the gaps as placed; `wind` is given the coil, the pattern and the repetitions, and what it does besides setting the three descriptions is left out.
`sideName` is total here: past the last of the sides the code throws (src/support/Utils.cpp:2033-2046). -/
structure Env (K A : Type) where
  findShape : String → Option (Shape A)
  findMaterial : String → Option A
  findWire : String → Option (Wire K A)
  findStrand : String → Option A
  findInsulation : String → Option A
  findBobbin : String → Option (Bobbin A)
  process : Core K A → Option (A × List (Gap K A))
  geometry : Core K A → Option (Option A)
  outerDiameter : Wire K A → Option K
  outerWidth : Wire K A → Option K
  outerHeight : Wire K A → Option K
  quick : Core K A → Bool → Option (Bobbin A)
  columns : A → A
  wind : Coil K A → List ℕ → ℕ → Option (Wound A)
  sideName : ℕ → String
  enamel : String
  insulation : String
  layerInsulation : String

variable {K A : Type} [Field K] [LinearOrder K]

/-- The type and the magnetic circuit by family (src/support/Utils.cpp:2600-2628). -/
def kindOf : Family → CoreType × Circuit
  | .t => (.toroidal, .closed)
  | .drum => (.openShape, .opened)
  | .molded => (.closedShape, .closed)
  | .ui | .pqi | .drumRing | .drumSemishielded => (.pieceAndPlate, .closed)
  | .other _ => (.twoPieceSet, .opened)

/-- Models `Core::resolve_shape` (src/constructive_models/Core.cpp:1460-1470). -/
def resolveShape (E : Env K A) : Named (Shape A) → Option (Shape A)
  | .name s => E.findShape s
  | .data x => some x

/-- A material by name or by its data (src/constructive_models/Core.cpp:1340-1363, 1376-1378); the dummy is one of those found. -/
def resolveOne (E : Env K A) : Named A → Option A
  | .name s => E.findMaterial s
  | .data x => some x

/-- Models `Core::resolve_material` (src/constructive_models/Core.cpp:1340-1379): of several, the first. -/
def resolveMaterial (E : Env K A) : Material A → Option A
  | .one m => resolveOne E m
  | .several [] => none
  | .several (m :: _) => resolveOne E m

/-- Models `Core::resolve_materials` (src/constructive_models/Core.cpp:1393-1409), of all the pieces. -/
def resolveMaterials (E : Env K A) : Material A → Option (List A)
  | .one m => (resolveOne E m).map fun x => [x]
  | .several [] => none
  | .several ms => ms.mapM (resolveOne E)

/-- The core by the family of its shape (src/support/Utils.cpp:2598-2637): toroids lose their gaps, and two-piece sets with a gap of negative length are
refused. -/
def withShape (E : Env K A) (c : Core K A) : Res (Core K A) :=
  (Res.of (resolveShape E c.shape)).bind fun s =>
    let s' : Shape A := { s with circuit := some (kindOf s.family).2 }
    let c' : Core K A := { c with type := (kindOf s.family).1, shape := .data s' }
    match s.family with
    | .t => .ok { c' with gaps := [] }
    | .other _ => if c.gaps.any fun g => decide (g.length < 0) then .throws else .ok c'
    | _ => .ok c'

/-- The material (src/support/Utils.cpp:2639-2640): what `resolve_material` answers is set whatever was there. -/
def withMaterial (E : Env K A) (c : Core K A) : Res (Core K A) :=
  (Res.of (resolveMaterial E c.material)).bind fun m => .ok { c with material := .one (.data m) }

/-- The processed description if there is none (src/support/Utils.cpp:2642-2645). -/
def withProcessed (E : Env K A) (c : Core K A) : Res (Core K A) :=
  match c.processed with
  | some _ => .ok c
  | none => (Res.of (E.process c)).bind fun r => .ok { c with processed := some r.1, gaps := r.2 }

/-- The geometrical description if there is none (src/support/Utils.cpp:2647-2650). -/
def withGeometry (E : Env K A) (c : Core K A) : Res (Core K A) :=
  match c.geometry with
  | some _ => .ok c
  | none => (Res.of (E.geometry c)).bind fun g => .ok { c with geometry := g }

/-- The whole of the core (src/support/Utils.cpp:2598-2650). -/
def completeCore (E : Env K A) (c : Core K A) : Res (Core K A) :=
  (withShape E c).bind fun c => (withMaterial E c).bind fun c => (withProcessed E c).bind fun c => withGeometry E c

/-- Name, turns, parallels and wire of a winding where they are empty or zero (src/support/Utils.cpp:2665-2679). The branch before it (2655-2663) is never
taken, since the loop ends at the size it compares with. -/
def named (E : Env K A) (i : ℕ) (w : Winding K A) : Winding K A :=
  { name := if w.name = "" then E.sideName i else w.name
    turns := if w.turns = 0 then 1 else w.turns
    parallels := if w.parallels = 0 then 1 else w.parallels
    wire := match w.wire with
      | .name s => .name (if s = "" then "Dummy" else s)
      | .data x => .data x }

/-- Models `Winding::resolve_wire` (src/constructive_models/Coil.cpp:13021-13042). -/
def resolveWire (E : Env K A) : Named (Wire K A) → Option (Wire K A)
  | .data x => some x
  | .name s => match E.findWire s with
    | some x => some x
    | none => if s = "Dummy" then E.findWire "Round 0.01 - Grade 1" else none

/-- A coating material by name or by its data (src/constructive_models/Wire.cpp:1902-1911). -/
def resolveInsulation (E : Env K A) : Named A → Option A
  | .name s => E.findInsulation s
  | .data x => some x

/-- The coating there is, or a bare one (src/support/Utils.cpp:2685-2692): one given by name is not implemented
(src/constructive_models/Wire.cpp:73-75). -/
def givenCoating : Option (Named (Coating A)) → Option (Coating A)
  | some (.name _) => none
  | some (.data c) => some c
  | none => some ⟨some .bare, none, none⟩

/-- The material of a coating, by default that of its kind (src/support/Utils.cpp:2694-2702): without a kind it throws (2695). -/
def coatingMaterial (E : Env K A) (c : Coating A) : Option (Named A) :=
  match c.material, c.kind with
  | some m, _ => some m
  | none, none => none
  | none, some k => some (.name (if k = .enamelled then E.enamel else E.insulation))

/-- The coating of a wire with its material (src/support/Utils.cpp:2685-2707). -/
def completeCoating (E : Env K A) (c : Option (Named (Coating A))) : Option (Coating A) :=
  (givenCoating c).bind fun c => (coatingMaterial E c).bind fun m =>
    (resolveInsulation E m).map fun x => { c with material := some (.data x) }

/-- The strand of a wire that has one (src/support/Utils.cpp:2709-2712). -/
def completeStrand (E : Env K A) : Option (Named A) → Option (Option (Named A))
  | none => some none
  | some (.data x) => some (some (.data x))
  | some (.name s) => (E.findStrand s).map fun x => some (.data x)

/-- A dimension that is there, or what is calculated of it. -/
def orElse (d : Option K) (calculated : Option K) : Option K :=
  match d with
  | some x => some x
  | none => calculated

/-- The outer dimensions by type of wire (src/support/Utils.cpp:2742-2761); the height is calculated with the width there. -/
def outerOf (E : Env K A) (w : Wire K A) : Option (Wire K A) :=
  match w.type with
  | .round | .litz => (orElse w.diameter (E.outerDiameter w)).map fun d => { w with diameter := some d }
  | _ => (orElse w.width (E.outerWidth w)).bind fun x =>
      let w : Wire K A := { w with width := some x }
      (orElse w.height (E.outerHeight w)).map fun y => { w with height := some y }

/-- The wire of the winding `i` (src/support/Utils.cpp:2684-2770). -/
def completeWire (E : Env K A) (i : ℕ) (w : Winding K A) : Res (Winding K A) :=
  (Res.of (resolveWire E w.wire)).bind fun x =>
    (Res.of (completeCoating E x.coating)).bind fun c =>
      (Res.of (completeStrand E x.strand)).bind fun s =>
        match outerOf E { x with coating := some (.data c), strand := s } with
        | none => .wire i
        | some x => .ok { w with wire := .data x }

/-- The loop over the wires (src/support/Utils.cpp:2683-2771). -/
def completeWires (E : Env K A) : ℕ → List (Winding K A) → Res (List (Winding K A))
  | _, [] => .ok []
  | i, w :: ws => (completeWire E i w).bind fun w => (completeWires E (i + 1) ws).bind fun ws => .ok (w :: ws)

/-- All windings: the names and numbers first, then the wires (src/support/Utils.cpp:2654-2771). -/
def completeWindings (E : Env K A) (ws : List (Winding K A)) : Res (List (Winding K A)) := completeWires E 0 (ws.mapIdx (named E))

/-- The bobbin that is given, or a quick one for the names that stand for them (src/support/Utils.cpp:2773-2788). -/
def givenBobbin (E : Env K A) (c : Core K A) : Named (Bobbin A) → Option (Bobbin A)
  | .data b => some b
  | .name s => if s = "Basic" then E.quick c false else if s = "Dummy" ∨ s = "None" then E.quick c true else E.findBobbin s

/-- The type of the first wire (src/support/Utils.cpp:2791): there has to be a winding. -/
def firstType : List (Winding K A) → Res WireType
  | ⟨_, _, _, .data x⟩ :: _ => .ok x.type
  | _ => .ub

/-- A quick bobbin for one without descriptions (src/support/Utils.cpp:2790-2798). -/
def someBobbin (E : Env K A) (c : Core K A) (ws : List (Winding K A)) (b : Bobbin A) : Res (Bobbin A) :=
  if b.functional.isNone ∧ b.processed.isNone then
    if c.type = .twoPieceSet then
      (firstType ws).bind fun t => Res.of (E.quick c (decide (t = .rectangular ∨ t = .planar)))
    else Res.of (E.quick c true)
  else .ok b

/-- Models `Coil::is_edge_wound_coil` (src/constructive_models/Coil.cpp:14020-14029). -/
def edgeWound (ws : List (Winding K A)) : Bool :=
  ws.all fun w => match w.wire with
    | .data x => decide (x.type = .rectangular)
    | .name _ => false

/-- The orientation of the sections where there is none (src/support/Utils.cpp:2802-2819). `to_json` writes the value there is into the configuration, where
one would expect it to be read, so that with any value in the configuration it is the one before the call (2803-2805). -/
def orientationFor (C : Configuration) (type : CoreType) (ws : List (Winding K A)) : Orientation :=
  match C.windingOrientation with
  | some _ => .contiguous
  | none => if type = .twoPieceSet then if edgeWound ws then .contiguous else .overlapping else .contiguous

/-- The alignment of the sections set with it (src/support/Utils.cpp:2821-2838); the same holds of the value in the configuration (2822-2824). -/
def alignmentFor (C : Configuration) (type : CoreType) (ws : List (Winding K A)) : Alignment :=
  match C.sectionAlignment with
  | some _ => .spread
  | none => if type = .twoPieceSet then if edgeWound ws then .spread else .centered else .spread

/-- The orientation and the alignment in the first winding window of the bobbin (src/support/Utils.cpp:2800-2841): a bobbin without processed description, or
without winding windows in it, is read all the same. -/
def oriented (C : Configuration) (type : CoreType) (ws : List (Winding K A)) (b : Bobbin A) : Res (Bobbin A) :=
  match b.processed with
  | none => .ub
  | some [] => .ub
  | some (w :: rest) => match w.orientation with
    | some _ => .ok b
    | none =>
      let w : Window A := { w with orientation := some (orientationFor C type ws), alignment := some (alignmentFor C type ws) }
      .ok { b with processed := some (w :: rest) }

/-- The whole of the bobbin (src/support/Utils.cpp:2773-2841). -/
def completeBobbin (E : Env K A) (C : Configuration) (c : Core K A) (ws : List (Winding K A)) (b : Named (Bobbin A)) : Res (Bobbin A) :=
  (Res.of (givenBobbin E c b)).bind fun b => (someBobbin E c ws b).bind fun b => oriented C c.type ws b

/-- Is the coil wound again (src/support/Utils.cpp:2871-2873)? Whether it is planar is read off its first wire
(src/constructive_models/Coil.cpp:343-348), only with the setting on. -/
def rewinds (realWinding : Bool) (c : Coil K A) : Res Bool :=
  (if realWinding then (firstType c.windings).bind fun t => .ok (decide (t ≠ .planar)) else .ok false).bind fun r =>
    .ok (c.wound.turns.isNone || r)

/-- The members of the coil before it is wound (src/support/Utils.cpp:2880-2904): the level is a `uint8_t` (2884), the values of orientation and alignment
those before the calls of `to_json` (2888-2895). -/
def configured (C : Configuration) (inputs : Option A) (type : CoreType) (c : Coil K A) : Coil K A :=
  { c with
    inputs := match inputs with
      | some i => some i
      | none => c.inputs
    level := match C.level with
      | some l => (l % 256).toNat
      | none => c.level
    layersOrientation := match C.layersOrientation with
      | some _ => .contiguous
      | none => c.layersOrientation
    turnsAlignment := match C.turnsAlignment with
      | some _ => .spread
      | none => if type = .twoPieceSet then .spread else .centered }

/-- With what it is wound (src/support/Utils.cpp:2906-2971): the pattern of the configuration once, that of the sections, or each winding once and all of it
as often as the level says (src/constructive_models/Coil.cpp:4025-4035). -/
def patternFor (C : Configuration) (c : Coil K A) : Res (List ℕ × ℕ) :=
  match C.pattern with
  | some p => .ok (p, 1)
  | none => match Pattern.derive (c.windings.map Winding.name) c.wound.sections with
    | .wind p r => .ok (p, r)
    | .default => .ok (List.range c.windings.length, c.level)
    | .ub => .ub

/-- The winding (src/support/Utils.cpp:2871-2972). -/
def wound (E : Env K A) (C : Configuration) (realWinding : Bool) (inputs : Option A) (type : CoreType) (c : Coil K A) : Res (Coil K A) :=
  (rewinds realWinding c).bind fun again =>
    if again then
      let c := configured C inputs type c
      (patternFor C c).bind fun p => (Res.of (E.wind c p.1 p.2)).bind fun w => .ok { c with wound := w }
    else .ok c

/-- Models `Coil::resolve_insulation_layer_insulation_material` of a layer (src/constructive_models/Coil.cpp:13677-13701). -/
def layerMaterial (E : Env K A) (l : Layer A) : Option A :=
  match (match l.material with
    | some m => m
    | none => .name E.layerInsulation) with
  | .data x => some x
  | .name s => match E.findInsulation s with
    | some x => some x
    | none => E.findInsulation E.insulation

/-- The material of each layer, that of the first layer of its name (src/support/Utils.cpp:2974-2981, src/constructive_models/Coil.cpp:5524-5536). -/
def completeLayers (E : Env K A) (ls : List (Layer A)) : Option (List (Layer A)) :=
  ls.mapM fun l => ((ls.find? fun x => decide (x.name = l.name)).bind (layerMaterial E)).map fun m => { l with material := some (.data m) }

/-- The layers of a coil that has them. -/
def withLayers (E : Env K A) (c : Coil K A) : Res (Coil K A) :=
  match c.wound.layers with
  | none => .ok c
  | some ls => (Res.of (completeLayers E ls)).bind fun ls => .ok { c with wound := { c.wound with layers := some ls } }

/-- The columns of the core that the coil is given (src/support/Utils.cpp:2845-2847). -/
def columnsFor (E : Env K A) (core : Core K A) (before : Option A) : Option A :=
  match core.processed with
  | some p => some (E.columns p)
  | none => before

/-- Models `magnetic_autocomplete` (src/support/Utils.cpp:2596-2984). -/
def complete (E : Env K A) (C : Configuration) (realWinding : Bool) (inputs : Option A) (m : Magnetic K A) : Res (Magnetic K A) :=
  (completeCore E m.core).bind fun core =>
    (completeWindings E m.coil.windings).bind fun ws =>
      (completeBobbin E C core ws m.coil.bobbin).bind fun b =>
        (wound E C realWinding inputs core.type
          { m.coil with windings := ws, bobbin := .data b, columns := columnsFor E core m.coil.columns }).bind fun coil =>
          (withLayers E coil).bind fun coil => .ok ⟨core, coil⟩

end Verif.Autocomplete.Magnetic
