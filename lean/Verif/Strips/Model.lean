import Verif.SectionInterface.Model

/-! # Model of the insulation built between the windings of a coil
(src/constructive_models/Coil.cpp:6134-6253, 6255-6374, 6376-6539, src/constructive_models/InsulationMaterial.cpp:16-98)

Numbers are an ordered field with floor. The interface asked of the coordinator is `SectionInterface.calculate`. The
conversion of a distance to an angle is a parameter. -/

namespace Verif.Strips

open Verif.SectionInterface

variable {K : Type} [Field K] [LinearOrder K] [IsStrictOrderedRing K] [FloorRing K]

/-- The dielectric strength elements of a material: thickness, if stated, and strength. -/
abbrev Tapes (K : Type) := List (Option K × K)

/-- The running minimum of `get_thinner_tape_thickness` (src/constructive_models/InsulationMaterial.cpp:85-98). `none`
is `DBL_MAX`; stated thicknesses are below it. -/
def thinnerThickness : Tapes K → Option K → Option K
  | [], acc => acc
  | (none, _) :: l, acc => thinnerThickness l acc
  | (some th, _) :: l, none => thinnerThickness l (some th)
  | (some th, _) :: l, some a => thinnerThickness l (if th < a then some th else some a)

/-- Models `get_thinner_tape_thickness` (src/constructive_models/InsulationMaterial.cpp:85-98). -/
def thinnest (tapes : Tapes K) : Option K := thinnerThickness tapes none

/-- The running minimum of `get_thinner_tape` (src/constructive_models/InsulationMaterial.cpp:50-63). -/
def thinnerTapeLoop : Tapes K → Option (K × K) → Option (K × K)
  | [], acc => acc
  | (none, _) :: l, acc => thinnerTapeLoop l acc
  | (some th, v) :: l, none => thinnerTapeLoop l (some (th, v))
  | (some th, v) :: l, some a => thinnerTapeLoop l (if th < a.1 then some (th, v) else some a)

/-- Models `get_thinner_tape` (src/constructive_models/InsulationMaterial.cpp:50-68): `{0, 0}` when no thickness is
stated. -/
def thinnerTape (tapes : Tapes K) : K × K :=
  match thinnerTapeLoop tapes none with
  | some p => p
  | none => (0, 0)

/-- `if (find(list, aux) == end) list.push_back(aux)` for each element with a thickness
(src/constructive_models/InsulationMaterial.cpp:16-27). -/
def extract : Tapes K → List (K × K) → List (K × K)
  | [], acc => acc
  | (none, _) :: l, acc => extract l acc
  | (some th, v) :: l, acc => extract l (if (th, th * v) ∈ acc then acc else acc ++ [(th, th * v)])

/-- `WindingOrientation`. -/
inductive Orientation where
  | overlapping
  | contiguous
  deriving DecidableEq, Repr

/-- The first winding window of the bobbin: a rectangle (width, height) or a ring (radial height, angle). -/
structure Window (K : Type) where
  rectangular : Bool
  across : K
  along : K

/-- The normalisation of the orientation of the layers (src/constructive_models/Coil.cpp:6147-6156, 6268-6277,
6398-6407). -/
def normalise (rectangular : Bool) (winding layers : Orientation) : Orientation :=
  match winding, layers with
  | .contiguous, .overlapping => if rectangular then .contiguous else layers
  | .overlapping, .contiguous => if rectangular then .overlapping else layers
  | _, _ => layers

/-- The dimensions of something of a thickness in a direction (src/constructive_models/Coil.cpp:6185-6207, 6224-6246,
6307-6329, 6345-6367, 6470-6492, 6510-6532). -/
def dims (angle : K → K → K) (w : Window K) (o : Orientation) (t : K) : K × K :=
  match o with
  | .overlapping => (t, w.along)
  | .contiguous => if w.rectangular then (w.across, t) else (w.across, angle t w.across)

/-- What is stored for a pair of windings: the layers (all alike), the section they belong to, and the interface. -/
structure Strip (K : Type) where
  count : Nat
  layerOrientation : Orientation
  layer : K × K
  sectionOrientation : Orientation
  area : K × K
  interface : Interface K

/-- The layers and the section of a pair (src/constructive_models/Coil.cpp:6461-6535): the layers of a rectangular
window follow the normalised orientation of the layers, those of a round one and the sections follow the orientation
of the windings. -/
def build (angle : K → K → K) (w : Window K) (winding layers : Orientation) (i : Interface K) (each total : K) : Strip K where
  count := i.layers
  layerOrientation := normalise w.rectangular winding layers
  layer := dims angle w (if w.rectangular then normalise w.rectangular winding layers else winding) each
  sectionOrientation := normalise w.rectangular winding layers
  area := dims angle w winding total
  interface := i

/-- The pairs of windings visited, in order (src/constructive_models/Coil.cpp:6409-6413 and 6158-6162). `same`: pairs of a
winding with itself included. -/
def pairs (n : Nat) (same : Bool) : List (Nat × Nat) :=
  (List.range n).flatMap (fun i => ((List.range n).filter (fun j => same || decide (i ≠ j))).map (fun j => (i, j)))

/-- What the coordinator is asked for a pair of wires. -/
structure Question (K : Type) where
  left : Wire K
  right : Wire K
  fiw : Bool
  allowMargin : Bool
  allowWire : Bool
  coord : Option (Coordination K)
  withstand : Cls → Option K

/-- The answer of the coordinator for a material. -/
def ask (q : Question K) (cls : Cls) (m : Tapes K) : Res (Option (Interface K)) × Cls :=
  calculate cls m q.left q.right q.fiw q.allowMargin q.allowWire q.coord q.withstand

/-- `if (aux && aux.thickness < best.thickness) best = aux` (src/constructive_models/Coil.cpp:6445-6450). `none` is the
initial interface, of thickness `DBL_MAX`. -/
def better (best : Option (Interface K × Tapes K)) (i : Interface K) (m : Tapes K) : Option (Interface K × Tapes K) :=
  match best with
  | none => some (i, m)
  | some b => if i.thickness < b.1.thickness then some (i, m) else some b

/-- The loop over the materials of the catalogue, by name (src/constructive_models/Coil.cpp:6443-6451). The inputs, with
their insulation type, pass from one evaluation to the next. -/
def search (q : Question K) : Cls → List (Tapes K) → Option (Interface K × Tapes K) → Res (Option (Interface K × Tapes K)) × Cls
  | cls, [], best => (.ok best, cls)
  | cls, m :: ms, best =>
    match ask q cls m with
    | (.throw, cls') => (.throw, cls')
    | (.ub, cls') => (.ub, cls')
    | (.ok none, cls') => search q cls' ms best
    | (.ok (some i), cls') => search q cls' ms (better best i m)

/-- The outcome of one pair: a strip, an exception, undefined behaviour, or a strip with `DBL_MAX` for a dimension. -/
inductive Built (K : Type) where
  | strip (s : Strip K)
  | throw
  | ub
  | dblMax

/-- A strip of a material: its layers have the thickness of its thinnest tape
(src/constructive_models/Coil.cpp:6475, 6478, 6486, 6489). -/
def ofMaterial (angle : K → K → K) (w : Window K) (winding layers : Orientation) (i : Interface K) (m : Tapes K) : Built K :=
  match thinnest m with
  | some t => .strip (build angle w winding layers i t i.thickness)
  | none => .dblMax

/-- Models `calculate_insulation(false)` for one pair (src/constructive_models/Coil.cpp:6436-6456, 6461-6535). -/
def required (angle : K → K → K) (w : Window K) (winding layers : Orientation) (q : Question K) (cls : Cls)
    (catalogue : List (Tapes K)) : Built K :=
  match (search q cls catalogue none).1 with
  | .throw => .throw
  | .ub => .ub
  | .ok none => .throw
  | .ok (some b) => ofMaterial angle w winding layers b.1 b.2

/-- The interface of the simple mode (src/constructive_models/Coil.cpp:6422-6434). `creepage`: what
`calculate_creepage_distance` answers. -/
def simpleInterface (allowMargin : Bool) (creepage t : K) : Interface K :=
  if allowMargin then ⟨1, t, creepage, false⟩ else ⟨3, t, 0, false⟩

/-- Models `calculate_insulation(true)` for one pair (src/constructive_models/Coil.cpp:6422-6434, 6461-6535), with the
tapes of the default material. -/
def simple (angle : K → K → K) (w : Window K) (winding layers : Orientation) (allowMargin : Bool) (creepage : K)
    (m : Tapes K) : Built K :=
  match thinnest m with
  | some t => .strip (build angle w winding layers (simpleInterface allowMargin creepage t) t t)
  | none => .dblMax

/-- Models `calculate_mechanical_insulation` for one pair (src/constructive_models/Coil.cpp:6284-6370). -/
def mechanical (angle : K → K → K) (w : Window K) (winding layers : Orientation) (m : Tapes K) : Built K :=
  match thinnest m with
  | some t => .strip (build angle w winding layers ⟨1, t, 0, true⟩ t t)
  | none => .dblMax

/-- Models `calculate_custom_thickness_insulation` for one pair (src/constructive_models/Coil.cpp:6163-6249): the layer and
the section have the thickness asked for, the interface that of the thinnest tape of the default material. -/
def custom (angle : K → K → K) (w : Window K) (winding layers : Orientation) (thickness : K) (m : Tapes K) : Built K :=
  match thinnest m with
  | some t => .strip (build angle w winding layers ⟨1, t, 0, true⟩ thickness thickness)
  | none => .dblMax

end Verif.Strips
