import Mathlib.Algebra.Order.Field.Basic
import Mathlib.Algebra.Order.Group.Unbundled.Int
import Verif.Filters.Basic

/-! # Images of a turn in the walls of its winding window

Models the conductors and images with which a turn of round or Litz wire induces the magnetic field, and the
collection of the fields by harmonic (src/support/CoilMesher.cpp). Numbers are those of an ordered field. -/

namespace Verif.Images

open Verif.Filters

variable {K : Type} [Field K] [LinearOrder K] [IsStrictOrderedRing K]

/-- A point of the mesh with the share of the current it carries. The length, the number and the rotation of the turn
are copied to each point (src/support/CoilMesher.cpp:598-603) and are left out. -/
structure Filament (K : Type) where
  x : K
  y : K
  value : K
deriving DecidableEq

/-- A winding window, whose centre and sizes may be missing. -/
structure Window (K : Type) where
  centre : Option (K × K)
  width : Option K
  height : Option K

/-- The place of the image number `m` along an axis, from the start of the window
(src/support/CoilMesher.cpp:606-617). The remainder of C++ and that of Lean are zero for the same numbers. -/
def mirrored (size place : K) (m : ℤ) : K :=
  if m % 2 = 0 then m * size + place else m * size + size - place

/-- The share of the current of an image (src/support/CoilMesher.cpp:596). -/
def share (permeability : K) (m n : ℤ) : K :=
  (permeability - ((max |m| |n| : ℤ) : K)) / (permeability + ((max |m| |n| : ℤ) : K))

/-- The numbers of the images along an axis, `for (int m = -M; m <= M; ++m)` (src/support/CoilMesher.cpp:591-593). -/
def span (most : ℤ) : List ℤ := (List.range (2 * most + 1).toNat).map fun (i : Nat) => (i : ℤ) - most

/-- A window as the frame of the images: its left and lower edges and its sizes. -/
structure Frame (K : Type) where
  left : K
  bottom : K
  width : K
  height : K

/-- The image of a crossing with the numbers `m` and `n` (src/support/CoilMesher.cpp:589-619). -/
def image (permeability sign : K) (f : Frame K) (p : K × K) (m n : ℤ) : Filament K where
  x := mirrored f.width (p.1 - f.left) m + f.left
  y := mirrored f.height (p.2 - f.bottom) n + f.bottom
  value := sign * share permeability m n

/-- `appendImageLattice` (src/support/CoilMesher.cpp:587-622). -/
def lattice (most : ℤ) (permeability sign : K) (f : Frame K) (p : K × K) : List (Filament K) :=
  (span most).flatMap fun m => (span most).map fun n => image permeability sign f p m n

/-- The search for the nearest window (src/support/CoilMesher.cpp:556-565). The first distance is compared with the
largest double, here with none. -/
def nearest (x : K) : Option K → Window K → List (Window K) → Window K
  | _, best, [] => best
  | far, best, w :: ws =>
    match w.centre, w.width with
    | some c, some _ =>
      if far.all (fun d => decide (|x - c.1| < d)) then nearest x (some |x - c.1|) w ws else nearest x far best ws
    | _, _ => nearest x far best ws

/-- The window of a turn (src/support/CoilMesher.cpp:551-566), of cores that are not toroids. Without windows the
first is read all the same. -/
def windowOf (x : K) : List (Window K) → Outcome (Window K)
  | [] => .undefined
  | [w] => .value w
  | w :: v :: ws => .value (nearest x none w (w :: v :: ws))

/-- The frame of the window of a turn (src/support/CoilMesher.cpp:569-585). A size that is missing throws. -/
def frameOf (column : K) (several : Bool) (w : Window K) : Outcome (Frame K) :=
  match w.width, w.height with
  | some a, some b =>
    match several, w.centre with
    | true, some c => .value ⟨c.1 - a / 2, c.2 - b / 2, a, b⟩
    | _, _ => .value ⟨column / 2, -b / 2, a, b⟩
  | _, _ => .throws

/-- The frame of a window that contains a crossing, its edges included (src/support/CoilMesher.cpp:640-646, 651-654). -/
def inside (q : K × K) (w : Window K) : Option (Frame K) :=
  match w.centre, w.width, w.height with
  | some c, some a, some b =>
    if |q.1 - c.1| ≤ a / 2 ∧ |q.2 - c.2| ≤ b / 2 then some ⟨c.1 - a / 2, c.2 - b / 2, a, b⟩ else none
  | _, _, _ => none

/-- The images of another crossing of the turn (src/support/CoilMesher.cpp:638-668). -/
def returning (most : ℤ) (permeability : K) (ws : List (Window K)) (q : K × K) : List (Filament K) :=
  match ws.findSome? (inside q) with
  | some f => lattice most permeability (-1) f q
  | none => [⟨q.1, q.2, -1⟩]

/-- `CoilMesherCenterModel::generate_mesh_inducing_turn` for cores that are not toroids
(src/support/CoilMesher.cpp:532-671). `others` are the additional coordinates with two numbers; those with fewer are
skipped (635-637). The permeability of the core and the width of its first column are given. -/
def inducing (most : ℤ) (permeability column : K) (ws : List (Window K)) (p : K × K) (others : List (K × K)) :
    Outcome (List (Filament K)) :=
  (windowOf p.1 ws).bind fun w =>
    (frameOf column (decide (1 < ws.length)) w).bind fun f =>
      .value (lattice most permeability 1 f p ++ others.flatMap (returning most permeability ws))

/-- The image of a point in a circle about the axis (src/support/CoilMesher.cpp:739, 749). -/
def kelvin (radius : K) (p : K × K) : K × K :=
  (p.1 * (radius * radius / (p.1 * p.1 + p.2 * p.2)), p.2 * (radius * radius / (p.1 * p.1 + p.2 * p.2)))

/-- The conductor and the images of a crossing of a toroid (src/support/CoilMesher.cpp:717-766). -/
def crossing (most : ℤ) (permeability inner outer direction : K) (p : K × K) : List (Filament K) :=
  ⟨p.1, p.2, direction⟩ ::
    if 1 ≤ most ∧ 1 / 10 ^ 24 < p.1 * p.1 + p.2 * p.2 then
      [⟨(kelvin inner p).1, (kelvin inner p).2, direction * ((permeability - 1) / (permeability + 1))⟩,
       ⟨(kelvin outer p).1, (kelvin outer p).2, direction * ((permeability - 1) / (permeability + 1))⟩]
    else []

/-- `CoilMesherCenterModel::generate_mesh_inducing_turn` for toroids (src/support/CoilMesher.cpp:672-768). The
rotation of the turn and its cartesian coordinates (707-715) are taken to be there. -/
def toroid (most : ℤ) (permeability inner outer : K) (p : K × K) (others : List (K × K)) : List (Filament K) :=
  crossing most permeability inner outer 1 p ++ others.flatMap (crossing most permeability inner outer (-1))

/-- The loop that collects the fields of the harmonics (src/support/CoilMesher.cpp:417-422, and the same at 523-528).
`keys` are those of the map and `full` tells which have data. Reading a key that is not in the map adds it, so that the
bound of the loop grows. `none` is the end of the steps allowed, which the code does not have. -/
def collect (full : Nat → Bool) : Nat → Nat → List Nat → Option (List Nat)
  | 0, _, _ => none
  | steps + 1, i, keys =>
    if i < keys.length then
      if i ∈ keys then
        (collect full steps (i + 1) keys).map fun out => if full i then i :: out else out
      else collect full steps (i + 1) (i :: keys)
    else some []

end Verif.Images
