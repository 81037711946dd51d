import Verif.Common.Round

/-! # Meshes of flat wires

Models the points with which a turn of rectangular, planar or foil wire induces the magnetic field, those at which the
field of a turn is computed (src/support/CoilMesher.cpp), and the depth below the faces that the model of the field
assumes (src/physical_models/MagneticField.cpp). Numbers are those of an ordered field; sizes are taken to be there. -/

namespace Verif.FlatMesh

variable {K : Type} [Field K] [LinearOrder K] [IsStrictOrderedRing K] [FloorRing K]

/-- The types of wire, as far as they matter here: rectangular and planar wires are `flat`. -/
inductive Kind
  | foil
  | flat
  | other
deriving DecidableEq

/-- The labels of points. -/
inductive Label
  | top
  | bottom
  | left
  | right
  | sample
  | centre
  | secondary
deriving DecidableEq

/-- A wire with the largest sizes of its conductor. -/
structure Wire (K : Type) where
  kind : Kind
  width : K
  height : K

/-- A point of the mesh: its place, its label and the length of turn it stands for. Its value is one or zero and its number
that of the turn, and both are left out. -/
structure Spot (K : Type) where
  x : K
  y : K
  label : Option Label
  length : Option K
deriving DecidableEq

/-- The size `c` of the mesh (src/support/CoilMesher.cpp:918-925). -/
def Wire.wide (w : Wire K) : K := if w.kind = .foil then w.height else w.width

/-- The size `h` of the mesh (src/support/CoilMesher.cpp:918-925). -/
def Wire.thin (w : Wire K) : K := if w.kind = .foil then w.width else w.height

/-- The depth of the conductors below the faces (src/support/CoilMesher.cpp:926-928). -/
def depth (w : Wire K) : K := min (99 / 100) (1 / 100 * (w.wide / w.thin) + 66 / 100) * w.thin

/-- `CoilMesherWangModel::generate_mesh_inducing_turn` (src/support/CoilMesher.cpp:901-970) of a turn at a place with a
length, in a window that is not round; of a round one it throws. -/
def inducing (w : Wire K) (x y : K) (length : Option K) : List (Spot K) :=
  match w.kind with
  | .foil => [⟨x, y + w.height / 2 - depth w, some .top, length⟩, ⟨x, y - w.height / 2 + depth w, some .bottom, length⟩]
  | .flat => [⟨x + w.width / 2 - depth w, y, some .right, length⟩, ⟨x - w.width / 2 + depth w, y, some .left, length⟩]
  | .other => [⟨x, y + w.height / 2 - depth w, none, length⟩, ⟨x, y - w.height / 2 + depth w, none, length⟩,
      ⟨x + w.width / 2 - depth w, y, none, length⟩, ⟨x - w.width / 2 + depth w, y, none, length⟩]

/-- The distance `lambda * h` of the field of a flat wire
(src/physical_models/MagneticField.cpp:833-844, with which 866 and 870 compute). -/
def assumed (w : Wire K) : K :=
  let c := if w.kind = .foil then w.width else w.height
  let h := if w.kind = .foil then w.height else w.width
  (1 / 100 * (c / h) + 66 / 100) * h

/-- The number of samples across the wide face (src/support/CoilMesher.cpp:869). -/
def samples (w : Wire K) : Nat := min 32 (max 8 (Round.round (w.wide / w.thin)).toNat)

/-- The place of a sample from the middle (src/support/CoilMesher.cpp:870-872). -/
def offset (w : Wire K) (i : Nat) : K := -w.wide / 2 + (i + 1 / 2) * (w.wide / (samples w : K))

/-- A sample (src/support/CoilMesher.cpp:871-880). -/
def sample (w : Wire K) (x y : K) (i : Nat) : Spot K :=
  if w.kind = .foil then ⟨x, y + offset w i, some .sample, none⟩ else ⟨x + offset w i, y, some .sample, none⟩

/-- `emitCluster` (src/support/CoilMesher.cpp:832-883). -/
def cluster (fringing : Bool) (w : Wire K) (x y : K) : List (Spot K) :=
  [⟨x + w.width / 2, y, some .right, none⟩, ⟨x - w.width / 2, y, some .left, none⟩,
    ⟨x, y + w.height / 2, some .top, none⟩, ⟨x, y - w.height / 2, some .bottom, none⟩] ++
  if fringing then (List.range (samples w)).map (sample w x y) else []

/-- `lateral_multi_column_secondary_crossing` (src/support/CoilMesher.cpp:784-794). `toroid` is none without a core;
`others` are the additional coordinates, each a list of numbers. -/
def secondCrossing (toroid : Option Bool) (others : Option (List (List K))) : Option (K × K) :=
  match toroid, others with
  | some false, some ((a :: b :: _) :: _) => some (a, b)
  | _, _ => none

/-- `CoilMesherWangModel::generate_mesh_induced_turn` (src/support/CoilMesher.cpp:828-898). -/
def induced (fringing : Bool) (w : Wire K) (x y : K) (toroid : Option Bool) (others : Option (List (List K))) :
    List (Spot K) :=
  cluster fringing w x y ++
    match secondCrossing toroid others with
    | some q => cluster fringing w q.1 q.2
    | none => []

/-- `CoilMesherCenterModel::generate_mesh_induced_turn` (src/support/CoilMesher.cpp:796-826), of a turn of a length. -/
def centred (x y length : K) (toroid : Option Bool) (others : Option (List (List K))) : List (Spot K) :=
  match secondCrossing toroid others with
  | some q => [⟨x, y, some .centre, some (length / 2)⟩, ⟨q.1, q.2, some .secondary, some (length / 2)⟩]
  | none => [⟨x, y, some .centre, none⟩]

end Verif.FlatMesh
