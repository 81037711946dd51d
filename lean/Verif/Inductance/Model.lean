import Mathlib.Algebra.Order.Field.Basic
import Mathlib.Algebra.Order.BigOperators.Group.Finset
import Mathlib.Algebra.BigOperators.Fin

/-!
# Model of leakage and inductance matrices

Sources: `/repo/src/physical_models/LeakageInductance.cpp`, `Inductance.cpp` and `ExtendedCantilever.cpp`.

Doubles are the elements of an ordered field, so that sums have no rounding; π, the permeability of vacuum and the square
root are parameters. There are `n + 1` windings: without windings each of these functions throws at once. The magnetic field is
not modelled but for being linear: the field at a point of the grid is the sum, over windings, of the signed current times the
field of one ampere there, which is what the mesh does with the currents (CoilMesher.cpp 398-415). The core, the bobbin and
the coil are processed.
-/

namespace Verif.Inductance

open Finset

/-- Exceptions thrown. -/
inductive Err
  | invalid          -- InvalidInputException
  | invalidArgument  -- std::invalid_argument
  deriving DecidableEq, Repr

/-- Outcome: a value, an exception or undefined behaviour. -/
inductive Res (α : Type) where
  | ok (a : α)
  | throws (e : Err)
  | ub
  deriving DecidableEq, Repr

/-- A number for each winding. -/
abbrev Vec (n : Nat) (K : Type) := Fin n → K

/-- A number for each pair of windings, by rows. -/
abbrev Mat (n : Nat) (K : Type) := Fin n → Fin n → K

variable {K : Type} [Field K] [LinearOrder K] {n : Nat}

/-! ## Energy of the field -/

/-- What is used of the bobbin and of the column of the core: half its width and depth, and whether the window and the column
are round. -/
structure Bobbin (K : Type) where
  width : K
  depth : K
  roundWindow : Bool
  roundColumn : Bool

/-- A point of the grid: its first coordinate, its height over the window (`Coil::cartesian_to_polar`) for a round window, and
the two components of the field there for one ampere in each winding. -/
structure Point (n : Nat) (K : Type) where
  x : K
  height : K
  re : Vec n K
  im : Vec n K

/-- A grid: the points, the area of each, and the constants. -/
structure Grid (n : Nat) (K : Type) where
  pi : K
  permeability : K
  area : K
  bobbin : Bobbin K
  points : List (Point n K)

/-- The length of the path of a point around the column (LeakageInductance.cpp 276-294). -/
def pathLength (pi : K) (b : Bobbin K) (p : Point n K) : K :=
  if b.roundWindow then
    if b.roundColumn then pi * |p.height + b.width|
    else pi * (|p.height + b.width| - b.width) + 2 * b.width + 2 * b.depth
  else if b.roundColumn then 2 * pi * p.x
  else 2 * pi * (p.x - b.width) + 2 * 2 * b.width + 2 * 2 * b.depth

/-- A component of the field for some currents. -/
def fieldAt (h currents : Vec n K) : K := ∑ w, currents w * h w

/-- `integrate_leakage_energy` (LeakageInductance.cpp 257-301), for the field of some currents. -/
def integrate (g : Grid n K) (currents : Vec n K) : K :=
  (g.points.map fun p =>
    1 / 2 * g.permeability * (fieldAt p.re currents ^ 2 + fieldAt p.im currents ^ 2) * g.area * pathLength g.pi g.bobbin p).sum

/-- `calculate_leakage_field_energy` (LeakageInductance.cpp 303-344): magnitudes (394-396) and directions (331-333) are handed
over apart, and multiplied by the mesh (CoilMesher.cpp 409). One current for each winding. -/
def fieldEnergy (g : Grid n K) (currents : Vec n K) : K :=
  integrate g fun w => |currents w| * (if currents w < 0 then -1 else 1)

/-- One in some windings and zero in the others (LeakageInductance.cpp 356-357, 370-372). -/
def ones (l : List (Fin n)) : Vec n K := fun w => if w ∈ l then 1 else 0

/-- `calculate_leakage_inductance_matrix` (LeakageInductance.cpp 346-381). -/
def leakage (g : Grid n K) : Mat n K := fun a b =>
  if a = b then 4 * fieldEnergy g (ones [a])
  else if a < b then 2 * (fieldEnergy g (ones [a, b]) - fieldEnergy g (ones [a]) - fieldEnergy g (ones [b]))
  else 2 * (fieldEnergy g (ones [b, a]) - fieldEnergy g (ones [b]) - fieldEnergy g (ones [a]))

/-- The current of a winding when the leakage of a pair is measured: half the peak to peak of `create_leakage_operating_point`
(LeakageInductance.cpp 416-475, the negligible current is that of LeakageInductance.h 44). -/
def pairMagnitude (turns : Vec n K) (s d w : Fin n) : K :=
  if w = s then 1 else if w = d then turns s / turns d else 1 / 10 ^ 9 / 2

/-- The direction of a winding when the leakage of a pair is measured (LeakageInductance.cpp 190-192). -/
def pairDirection (s d w : Fin n) : K := if w = d then -1 else if w = s then 1 else 0

/-- The leakage of a pair from the energy (LeakageInductance.cpp 180-201): `rt` is the square root, in the RMS of the source
(422). -/
def pairLeakage (rt : K → K) (g : Grid n K) (turns : Vec n K) (s d : Fin n) : K :=
  2 / (1 / rt 2) ^ 2 * integrate g fun w => pairMagnitude turns s d w * pairDirection s d w

/-- The network of reluctances, for windings that are not all around the main column: the matrix of magnetizing inductances and
the column of each winding. -/
structure Placed (n : Nat) (K : Type) where
  matrix : Mat n K
  column : Fin n → Nat

/-- `LeakageInductance::calculate_leakage_inductance` (LeakageInductance.cpp 130-211). -/
def leakageBetween (rt : K → K) (g : Grid n K) (turns : Vec n K) (net : Option (Placed n K)) (s d : Fin n) : K :=
  match net with
  | none => pairLeakage rt g turns s d
  | some p =>
    if p.column s ≠ p.column d then p.matrix s s - p.matrix s d * p.matrix s d / p.matrix d d
    else pairLeakage rt g turns s d

/-! ## Inductances -/

/-- `calculate_magnetizing_inductance_referred_to_winding` (Inductance.cpp 30-49). -/
def referred (lm : K) (turns : Vec (n + 1) K) (i : Fin (n + 1)) : K :=
  if i = 0 then lm else lm * (turns i / turns 0) * (turns i / turns 0)

/-- The part of an inductance that is of the core (Inductance.cpp 326-327). -/
def magnetizing (lm : K) (turns : Vec (n + 1) K) (net : Option (Placed (n + 1) K)) : Mat (n + 1) K := fun i j =>
  match net with
  | some p => p.matrix i j
  | none => lm * (turns i / turns 0) * (turns j / turns 0)

/-- Whether a pair is around two columns (Inductance.cpp 331). -/
def apart (net : Option (Placed n K)) (i j : Fin n) : Bool :=
  match net with
  | some p => p.column i != p.column j
  | none => false

/-- An inductance (Inductance.cpp 326-336): a single winding has no leakage (295-299). -/
def entry (lm : K) (turns : Vec (n + 1) K) (net : Option (Placed (n + 1) K)) (l : Mat (n + 1) K) (i j : Fin (n + 1)) : K :=
  magnetizing lm turns net i j + if apart net i j then 0 else if n = 0 then 0 else l i j

/-- What is written for a pair of windings (Inductance.cpp 338-342). -/
def writesOf (names : Fin (n + 1) → String) (e : Fin (n + 1) → Fin (n + 1) → K) (i j : Fin (n + 1)) : List (String × String × K) :=
  if i ≤ j then (names i, names j, e i j) :: (if i ≠ j then [(names j, names i, e i j)] else []) else []

/-- All that is written, in order (Inductance.cpp 318-344). -/
def writes (names : Fin (n + 1) → String) (e : Fin (n + 1) → Fin (n + 1) → K) : List (String × String × K) :=
  (List.finRange (n + 1)).flatMap fun i => (List.finRange (n + 1)).flatMap fun j => writesOf names e i j

/-- What is read of the map of maps: what was written last. -/
def readLast (l : List (String × String × K)) (a b : String) : Option K :=
  (l.reverse.find? fun w => w.1 = a ∧ w.2.1 = b).map fun w => w.2.2

/-- `Inductance::calculate_inductance_matrix` (Inductance.cpp 247-348), read by the names of two windings. -/
def inductanceMatrix (names : Fin (n + 1) → String) (lm : K) (turns : Vec (n + 1) K) (net : Option (Placed (n + 1) K))
    (l : Mat (n + 1) K) (a b : String) : Option K :=
  readLast (writes names (entry lm turns net l)) a b

/-- `Inductance::calculate_mutual_inductance` (Inductance.cpp 87-113). -/
def mutualInductance (rt : K → K) (lm : K) (turns : Vec (n + 1) K) (net : Option (Placed (n + 1) K)) (s d : Fin (n + 1)) : Res K :=
  if s = d then .throws .invalidArgument
  else match net with
    | some p => .ok (p.matrix s d)
    | none => .ok (rt (referred lm turns s * referred lm turns d))

/-- `Inductance::calculate_self_inductance` (Inductance.cpp 115-155). -/
def selfInductance (lm : K) (turns : Vec (n + 1) K) (net : Option (Placed (n + 1) K)) (l : Mat (n + 1) K) (i : Fin (n + 1)) : K :=
  (match net with
    | some p => p.matrix i i
    | none => referred lm turns i) + if n = 0 then 0 else l i i

/-- `Inductance::calculate_coupling_coefficient` (Inductance.cpp 157-197). -/
def coupling (rt : K → K) (lm : K) (turns : Vec (n + 1) K) (net : Option (Placed (n + 1) K)) (l : Mat (n + 1) K)
    (s d : Fin (n + 1)) : Res K :=
  if s = d then .ok 1
  else match mutualInductance rt lm turns net s d with
    | .ok m =>
      if rt (selfInductance lm turns net l s * selfInductance lm turns net l d) < 1 / 10 ^ 15 then .ok 0
      else if |m / rt (selfInductance lm turns net l s * selfInductance lm turns net l d)| > 1 + 1 / 10 ^ 6 then .throws .invalid
      else .ok (m / rt (selfInductance lm turns net l s * selfInductance lm turns net l d))
    | r => r

/-! ## Extended cantilever -/

/-- The row of the largest pivot, the first of equals (ExtendedCantilever.cpp 26-33). -/
def largest (a : Mat n K) (c : Fin n) : Fin n :=
  (List.finRange n).foldl (fun best r => if c < r ∧ |a r c| > |a best c| then r else best) c

/-- Rows exchanged (ExtendedCantilever.cpp 38-41). -/
def swapRows (a : Mat n K) (p q : Fin n) : Mat n K := fun i j => if i = p then a q j else if i = q then a p j else a i j

/-- A row divided (ExtendedCantilever.cpp 43-47). -/
def divideRow (a : Mat n K) (c : Fin n) (v : K) : Mat n K := fun i j => if i = c then a i j / v else a i j

/-- A row subtracted from all others (ExtendedCantilever.cpp 48-57). -/
def subtractRow (a : Mat n K) (c : Fin n) (factor : Vec n K) : Mat n K := fun i j =>
  if i = c then a i j else a i j - factor i * a c j

/-- The step of a column on both matrices (ExtendedCantilever.cpp 24-58); nothing for the exception of a singular matrix. -/
def columnStep (c : Fin n) (s : Mat n K × Mat n K) : Option (Mat n K × Mat n K) :=
  let p := largest s.1 c
  if |s.1 p c| = 0 then none
  else
    let a := swapRows s.1 c p
    let b := swapRows s.2 c p
    let a' := divideRow a c (a c c)
    let b' := divideRow b c (a c c)
    some (subtractRow a' c fun i => a' i c, subtractRow b' c fun i => a' i c)

/-- Both matrices after some columns. -/
def sweep (m : Mat n K) : Nat → Option (Mat n K × Mat n K)
  | 0 => some (m, fun i j => if i = j then 1 else 0)
  | k + 1 => (sweep m k).bind fun s => if h : k < n then columnStep ⟨k, h⟩ s else some s

/-- `invert_matrix` (ExtendedCantilever.cpp 16-61). -/
def invert (m : Mat n K) : Option (Mat n K) := (sweep m n).map Prod.snd

/-- `ExtendedCantileverModel` (ExtendedCantilever.h 26-32). -/
structure Cantilever (n : Nat) (K : Type) where
  magnetizing : K
  ratios : Vec n K
  leakages : Mat n K

/-- `build_from_inductance_matrix` (ExtendedCantilever.cpp 116-141). -/
def buildFrom (l : Mat n K) (lm : K) (ratios : Vec n K) : Res (Cantilever n K) :=
  match invert l with
  | none => .throws .invalid
  | some b =>
    if (List.finRange n).any fun j => (List.finRange n).any fun k => j ≠ k ∧ ratios j * ratios k * b j k = 0 then .throws .invalid
    else .ok ⟨lm, ratios, fun j k => if j = k then 0 else -1 / (ratios j * ratios k * b j k)⟩

/-- `rank1_magnetizing_matrix` (ExtendedCantilever.cpp 84-94). -/
def rankOne (lm : K) (ratios : Vec n K) : Mat n K := fun j k => lm * ratios j * ratios k

/-- `assemble_inductance_matrix` (ExtendedCantilever.cpp 67-78). -/
def assemble (leakage magnetizing : Mat n K) : Mat n K := fun j k => magnetizing j k + leakage j k

/-- `build_from_leakage_matrix` (ExtendedCantilever.cpp 145-170): the number of rows is checked, their lengths are not. -/
def buildFromLeakage (rows : List (List K)) (lm : K) (ratios : List K) : Res (Cantilever ratios.length K) :=
  if ratios.length = 0 then .throws .invalid
  else if rows.length ≠ ratios.length then .throws .invalid
  else if lm ≤ 0 then .throws .invalid
  else if rows.any fun r => r.length < ratios.length then .ub
  else buildFrom (assemble (fun j k => ((rows[j.val]?).bind (·[k.val]?)).getD 0) (rankOne lm ratios.get)) lm ratios.get

/-- The ratios of turns (ExtendedCantilever.cpp 222-226). -/
def ratiosOf (turns : Vec (n + 1) K) : Vec (n + 1) K := fun i => turns i / turns 0

/-- `build_magnetizing_matrix` (ExtendedCantilever.cpp 103-112). -/
def buildMagnetizing (lm : K) (turns : Vec (n + 1) K) (net : Option (Placed (n + 1) K)) : Mat (n + 1) K :=
  match net with
  | some p => p.matrix
  | none => rankOne lm (ratiosOf turns)

/-- `ExtendedCantilever::calculate_inductance_matrix` (ExtendedCantilever.cpp 234-260). -/
def cantileverMatrix (lm : K) (turns : Vec (n + 1) K) (net : Option (Placed (n + 1) K)) (l : Mat (n + 1) K) : Mat (n + 1) K :=
  assemble l (buildMagnetizing lm turns net)

/-- `ExtendedCantilever::calculate` (ExtendedCantilever.cpp 200-232). -/
def cantilever (lm : K) (turns : Vec (n + 1) K) (net : Option (Placed (n + 1) K)) (l : Mat (n + 1) K) : Res (Cantilever (n + 1) K) :=
  if lm ≤ 0 then .throws .invalid else buildFrom (cantileverMatrix lm turns net l) lm (ratiosOf turns)

/-- `inverse_inductance_diagonal` (ExtendedCantilever.cpp 172-194), for a winding there is. -/
def diagonal (m : Cantilever (n + 1) K) (j : Fin (n + 1)) : K :=
  ((((List.finRange (n + 1)).filter fun i => i ≠ j).map (fun i => 1 / m.leakages j i)).sum +
    if j = 0 then 1 / m.magnetizing else 0) / (m.ratios j * m.ratios j)

/-- `short_circuit_output_inductance` (ExtendedCantilever.cpp 196-198). -/
def outputInductance (m : Cantilever (n + 1) K) (j : Fin (n + 1)) : K := 1 / diagonal m j

end Verif.Inductance
