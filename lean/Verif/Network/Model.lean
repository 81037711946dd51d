import Mathlib.Algebra.Order.Field.Rat
import Mathlib.Algebra.BigOperators.Group.Finset.Basic
import Mathlib.Algebra.BigOperators.Intervals
import Mathlib.Data.List.Sort

/-!
# Model of the network of reluctances of a core

Source: `/repo/src/physical_models/ReluctanceNetwork.cpp`, and what it uses of `/repo/src/constructive_models/Core.cpp`.

Doubles are exact rational numbers, so an elimination has no rounding and there are no infinities; a division by zero,
which in C++ gives an infinity and here zero, is kept out of the theorems by what they suppose. A vector is its length
and a function of the index, read below the length only.
-/

namespace Verif.Network

/-- Exceptions thrown. -/
inductive Err
  | invalid         -- InvalidInputException
  | notImplemented  -- NotImplementedException
  | singular        -- CalculationException
  | gap             -- GapException, from processing gaps
  deriving DecidableEq, Repr

/-- Outcome: a value, an exception or undefined behaviour. -/
inductive Res (α : Type) where
  | ok (a : α)
  | throws (e : Err)
  | ub
  deriving DecidableEq, Repr

/-- Sequencing. -/
def Res.bind {α β : Type} : Res α → (α → Res β) → Res β
  | .ok a, f => f a
  | .throws e, _ => .throws e
  | .ub, _ => .ub

/-- A vector. -/
abbrev Vec := Nat → ℚ

/-- A matrix by rows. -/
abbrev Mat := Nat → Nat → ℚ

/-! ## Solving -/

/-- Rows exchanged (ReluctanceNetwork.cpp 274-275). -/
def swapAt {α : Type} (v : Nat → α) (p q : Nat) : Nat → α := fun i => if i = p then v q else if i = q then v p else v i

/-- The row of the largest pivot among some rows, the first of equals (ReluctanceNetwork.cpp 268-273). -/
def bestRow (a : Mat) (p : Nat) : List Nat → Nat → Nat
  | [], best => best
  | r :: rest, best => bestRow a p rest (if |a r p| > |a best p| then r else best)

/-- The row exchanged with the pivot. -/
def pivotRow (n p : Nat) (a : Mat) : Nat := bestRow a p (List.range' (p + 1) (n - (p + 1))) p

/-- The matrix after the rows below the pivot are cleared (ReluctanceNetwork.cpp 279-283). The rows do not depend on one
another, so they are written at once. -/
def clearMatrix (n p : Nat) (a : Mat) : Mat := fun i j =>
  if p < i ∧ i < n ∧ p ≤ j ∧ j < n then a i j - a i p / a p p * a p j else a i j

/-- The right hand side after the rows below the pivot are cleared (ReluctanceNetwork.cpp 284). -/
def clearSide (n p : Nat) (a : Mat) (b : Vec) : Vec := fun i =>
  if p < i ∧ i < n then b i - a i p / a p p * b p else b i

/-- The matrix after the step of a pivot (ReluctanceNetwork.cpp 267-286). -/
def pivotMatrix (n p : Nat) (a : Mat) : Mat := clearMatrix n p (swapAt a p (pivotRow n p a))

/-- The right hand side after the step of a pivot (ReluctanceNetwork.cpp 267-286). -/
def pivotSide (n p : Nat) (a : Mat) (b : Vec) : Vec :=
  clearSide n p (swapAt a p (pivotRow n p a)) (swapAt b p (pivotRow n p a))

/-- The matrix and right hand side after some pivots; nothing for the exception of a singular network
(ReluctanceNetwork.cpp 267-286). -/
def eliminate (n : Nat) (a : Mat) (b : Vec) : Nat → Option (Mat × Vec)
  | 0 => some (a, b)
  | p + 1 => match eliminate n a b p with
    | none => none
    | some (a, b) =>
      if swapAt a p (pivotRow n p a) p p = 0 then none else some (pivotMatrix n p a, pivotSide n p a b)

/-- The unknowns, from the last to the first, after some rows (ReluctanceNetwork.cpp 287-294). -/
def back (n : Nat) (a : Mat) (b : Vec) : Nat → Vec
  | 0 => fun _ => 0
  | k + 1 => fun i =>
    if i = n - (k + 1) then
      (b (n - (k + 1)) - ∑ j ∈ Finset.Ico (n - (k + 1) + 1) n, a (n - (k + 1)) j * back n a b k j) / a (n - (k + 1)) (n - (k + 1))
    else back n a b k i

/-- Elimination and back substitution (ReluctanceNetwork.cpp 266-294). -/
def solve (n : Nat) (a : Mat) (b : Vec) : Option Vec :=
  match eliminate n a b n with
  | none => none
  | some (a, b) => some (back n a b n)

/-! ## The network -/

/-- A network: how many columns, the columns from left to right, the reluctance of each column and of each yoke between
neighbours, and the main column. -/
structure Network where
  n : Nat
  order : List Nat
  legs : Vec
  yokes : Vec
  main : Nat

/-- The column at a position from left to right. -/
def Network.at (net : Network) (k : Nat) : Nat := (net.order[k]?).getD 0

/-- The matrix of loops (ReluctanceNetwork.cpp 251-261). -/
def meshMatrix (loops : Nat) (r y : Vec) : Mat := fun i j =>
  if j = i then r i + r (i + 1) + y i
  else if j + 1 = i then -r i
  else if j = i + 1 ∧ j < loops then -r (i + 1)
  else 0

/-- The sources of loops (ReluctanceNetwork.cpp 262). -/
def meshSide (f : Vec) : Vec := fun i => f i - f (i + 1)

/-- The flux of a leg from those of the loops on either side (ReluctanceNetwork.cpp 298-304). -/
def legFlux (loops : Nat) (x : Vec) (k : Nat) : ℚ := (if k < loops then x k else 0) - (if 0 < k then x (k - 1) else 0)

/-- `solve_column_fluxes_for_magnetomotive_forces` (ReluctanceNetwork.cpp 233-308). -/
def Network.fluxes (net : Network) (f : Vec) : Res Vec :=
  if net.n = 1 then .ok fun _ => f 0 / net.legs 0 else
  match solve (net.n - 1) (meshMatrix (net.n - 1) (fun k => net.legs (net.at k)) net.yokes) (meshSide fun k => f (net.at k)) with
  | none => .throws .singular
  | some x => .ok fun c => legFlux (net.n - 1) x (net.order.idxOf c)

/-! ## Building it -/

/-- `ColumnElement`: what is used of it, with its place across (x) and in depth (z). -/
structure Column where
  central : Bool
  x : ℚ
  z : ℚ
  height : ℚ
  depth : ℚ
  area : ℚ
  deriving DecidableEq, Repr

/-- `WindingWindowElement`: what is used of it. -/
structure Window where
  height : Option ℚ
  column : Option Int
  deriving DecidableEq, Repr

/-- A processed core: its columns, windows, height, and the place of each gap if it has coordinates. -/
structure Core where
  columns : List Column
  windows : List Window
  height : ℚ
  gaps : List (Option (ℚ × ℚ))
  deriving DecidableEq, Repr

/-- `Core::get_main_column_index` (Core.cpp 2075-2089). -/
def mainColumn (c : Core) : Res Nat :=
  if c.columns = [] then .throws .invalid
  else if (c.columns.findIdx fun x => x.central) < c.columns.length then .ok (c.columns.findIdx fun x => x.central)
  else .ok 0

/-- The distance across and in depth (Core.cpp 613-621). -/
def awayFrom (p : ℚ × ℚ) (c : Column) : ℚ := |c.x - p.1| + |c.z - p.2|

/-- The nearest of some columns, the first of equals (Core.cpp 608-628), for coordinates of three values. -/
def nearestFrom (p : ℚ × ℚ) : List Column → Nat → Option (Nat × ℚ) → Option (Nat × ℚ)
  | [], _, best => best
  | c :: rest, i, none => nearestFrom p rest (i + 1) (some (i, awayFrom p c))
  | c :: rest, i, some (b, d) =>
    nearestFrom p rest (i + 1) (if awayFrom p c < d then some (i, awayFrom p c) else some (b, d))

/-- `Core::find_closest_column_index_by_coordinates` (Core.cpp 608-628); none for the index -1. -/
def nearest (cs : List Column) (p : ℚ × ℚ) : Option Nat := (nearestFrom p cs 0 none).map Prod.fst

/-- The columns from left to right (ReluctanceNetwork.cpp 28-34). The order of columns with the same place across is not
specified; here the lower index is first. The theorems are about any order. -/
def leftToRight (cs : List Column) : List Nat :=
  (List.range cs.length).insertionSort fun a b =>
    (cs[a]?.map Column.x).getD 0 < (cs[b]?.map Column.x).getD 0 ∨ ((cs[a]?.map Column.x).getD 0 = (cs[b]?.map Column.x).getD 0 ∧ a ≤ b)

/-- A column by index, read below the number of columns. -/
def columnAt (cs : List Column) (k : Nat) : Column := (cs[k]?).getD ⟨false, 0, 0, 0, 0, 0⟩

/-- The legs and yokes before they are scaled (ReluctanceNetwork.cpp 42-67). -/
def relative (c : Core) (order : List Nat) (main : Nat) : Res (Vec × Vec) :=
  if c.columns.any fun x => decide (x.area ≤ 0) then .throws .invalid else
  match c.windows with
  | [] => .ub
  | w :: _ => match w.height with
    | none => .throws .invalid
    | some h =>
      if (c.height - h) / 2 * (columnAt c.columns main).depth ≤ 0 then .throws .invalid
      else .ok (fun k => (columnAt c.columns k).height / (columnAt c.columns k).area,
        fun k => 2 * |(columnAt c.columns ((order[k + 1]?).getD 0)).x - (columnAt c.columns ((order[k]?).getD 0)).x| /
          ((c.height - h) / 2 * (columnAt c.columns main).depth))

/-- One source of one in one column (ReluctanceNetwork.cpp 74-75, 316-317). -/
def source (c : Nat) (v : ℚ) : Vec := fun k => if k = c then v else 0

/-- The network without gaps (ReluctanceNetwork.cpp 17-85). -/
def ungapped (c : Core) (order : List Nat) (reluctance : ℚ) : Res Network :=
  if reluctance ≤ 0 then .throws .invalid else
  (mainColumn c).bind fun main =>
  if c.columns.length = 1 then .ok ⟨1, order, fun _ => reluctance, fun _ => 0, main⟩ else
  (relative c order main).bind fun ly =>
  (Network.fluxes ⟨c.columns.length, order, ly.1, ly.2, main⟩ (source main 1)).bind fun f =>
  .ok ⟨c.columns.length, order, fun k => reluctance / (1 / f main) * ly.1 k, fun k => ly.2 k * (reluctance / (1 / f main)), main⟩

/-- The reluctances of gaps added to their columns (ReluctanceNetwork.cpp 102-106): a gap more than reluctances is read past
the end, and so is a column of a core without columns. -/
def addGaps (cs : List Column) : List (ℚ × ℚ) → List ℚ → Vec → Res Vec
  | [], _, legs => .ok legs
  | _ :: _, [], _ => .ub
  | g :: gs, r :: rs, legs => match nearest cs g with
    | none => .ub
    | some k => addGaps cs gs rs fun i => if i = k then legs i + r else legs i

/-- The places of gaps (ReluctanceNetwork.cpp 95-101): all of them, or those of the gaps processed again, which is a
parameter. -/
def placesOf (gaps : List (Option (ℚ × ℚ))) (processed : Option (List (ℚ × ℚ))) : Res (List (ℚ × ℚ)) :=
  if gaps.all Option.isSome then .ok (gaps.filterMap id)
  else match processed with
    | none => .throws .gap
    | some l => .ok l

/-- `ReluctanceNetwork::ReluctanceNetwork` (ReluctanceNetwork.cpp 9-107), for a processed core, with the order of columns
as `std::sort` left it. -/
def buildWith (c : Core) (order : List Nat) (processed : Option (List (ℚ × ℚ))) (reluctance : ℚ) (perGap : List ℚ) : Res Network :=
  (ungapped c order reluctance).bind fun net =>
  if c.gaps.length ≠ perGap.length then .throws .invalid else
  (placesOf c.gaps processed).bind fun places =>
  (addGaps c.columns places perGap net.legs).bind fun legs => .ok { net with legs := legs }

/-- `ReluctanceNetwork::ReluctanceNetwork` (ReluctanceNetwork.cpp 9-107). -/
def build (c : Core) (processed : Option (List (ℚ × ℚ))) (reluctance : ℚ) (perGap : List ℚ) : Res Network :=
  buildWith c (leftToRight c.columns) processed reluctance perGap

/-- The reluctance of gaps, those of the main column in series and any other in parallel, and the sum of the parallel ones
(Reluctance.cpp 200-213), for the column and reluctance of each gap. -/
def gapSums (main : Nat) : List (Nat × ℚ) → ℚ × ℚ
  | [] => (0, 0)
  | g :: rest => if g.1 ≠ main then ((gapSums main rest).1, (gapSums main rest).2 + 1 / g.2)
    else ((gapSums main rest).1 + g.2, (gapSums main rest).2)

/-- `ReluctanceModel::get_gapping_reluctance` (Reluctance.cpp 174-236), for the column and reluctance of each gap. The sums
are made in the other order. -/
def gappingReluctance (main : Nat) (gaps : List (Nat × ℚ)) : ℚ :=
  if (gapSums main gaps).2 > 0 then (gapSums main gaps).1 + 1 / (gapSums main gaps).2 else (gapSums main gaps).1

/-! ## Windings -/

/-- A winding: its name, turns, and the window it is placed in, if it says so. -/
structure Winding where
  name : String
  turns : ℚ
  window : Option Int
  deriving DecidableEq, Repr

/-- A section of the coil: whether it conducts, its window, and the names of its windings. -/
structure Section where
  conduction : Bool
  window : Option Int
  windings : List String
  deriving DecidableEq, Repr

/-- `resolve_window_from_sections` (ReluctanceNetwork.cpp 112-130). Sections not described are none. -/
def windowFromSections (sections : List Section) (name : String) : Option Int :=
  sections.findSome? fun s => if s.conduction && s.windings.contains name then s.window else none

/-- `resolve_distinct_windows_from_sections` (ReluctanceNetwork.cpp 136-153): a set, read in ascending order. -/
def windowsFromSections (sections : List Section) (name : String) : List Int :=
  ((sections.filterMap fun s => if s.conduction && s.windings.contains name then s.window else none).dedup).insertionSort (· ≤ ·)

/-- `Core::get_winding_window_column_index` (Core.cpp 2091-2112), for an index of a window. -/
def windowColumn (c : Core) (w : Nat) : Res Nat :=
  match c.windows[w]? with
  | none => .throws .invalid
  | some x => match x.column with
    | none => mainColumn c
    | some k => if k < 0 ∨ k ≥ c.columns.length then .throws .invalid else .ok k.toNat

/-- The other windows of a winding are compared with its column (ReluctanceNetwork.cpp 193-205). -/
def checkWindows (c : Core) (resolved : Nat) : List Int → Res Unit
  | [] => .ok ()
  | w :: rest =>
    if w < 0 ∨ w ≥ c.windows.length then checkWindows c resolved rest
    else (windowColumn c w.toNat).bind fun k =>
      if k ≠ resolved then .throws .notImplemented else checkWindows c resolved rest

/-- The column of a winding (ReluctanceNetwork.cpp 163-208). -/
def windingColumn (c : Core) (sections : List Section) (main : Nat) (w : Winding) : Res Nat :=
  match (w.window.or (windowFromSections sections w.name)) with
  | none => .ok main
  | some k =>
    if k < 0 ∨ k ≥ c.windows.length then .throws .invalid
    else (windowColumn c k.toNat).bind fun resolved =>
      (checkWindows c resolved (windowsFromSections sections w.name)).bind fun _ => .ok resolved

/-- In order, stopping at the first failure. -/
def Res.mapM {α β : Type} (f : α → Res β) : List α → Res (List β)
  | [] => .ok []
  | a :: rest => (f a).bind fun b => (Res.mapM f rest).bind fun l => .ok (b :: l)

/-- `resolve_winding_column_indexes` (ReluctanceNetwork.cpp 155-210). -/
def windingColumns (c : Core) (sections : List Section) (ws : List Winding) : Res (List Nat) :=
  (mainColumn c).bind fun main => Res.mapM (windingColumn c sections main) ws

/-- `has_non_main_placement` (ReluctanceNetwork.cpp 212-231). -/
def hasOtherPlacement (c : Core) (sections : List Section) (ws : List Winding) : Res Bool :=
  if ws.any fun w => w.window.isSome || (windowFromSections sections w.name).isSome then
    (windingColumns c sections ws).bind fun ks => (mainColumn c).bind fun main => .ok (ks.any fun k => k != main)
  else .ok false

/-! ## Inductances and fluxes -/

/-- A column of the matrix (ReluctanceNetwork.cpp 315-322). -/
def inductanceColumn (net : Network) (ts : List (ℚ × Nat)) (j : ℚ × Nat) : Res (List ℚ) :=
  (net.fluxes (source j.2 j.1)).bind fun f => .ok (ts.map fun i => i.1 * f i.2)

/-- `calculate_magnetizing_inductance_matrix` (ReluctanceNetwork.cpp 310-324), for the turns and column of each winding: the
rows of the matrix, one for each winding. A column that the network does not have is not modelled. -/
def inductanceMatrix (net : Network) (ts : List (ℚ × Nat)) : Res (List (List ℚ)) :=
  (Res.mapM (inductanceColumn net ts) ts).bind fun columns =>
    .ok ((List.range ts.length).map fun i => columns.map fun column => (column[i]?).getD 0)

/-- The short circuit inductance of a winding seen from another (LeakageInductance.cpp 154-156), for the matrix above. -/
def shortCircuit (m : List (List ℚ)) (s d : Nat) : ℚ :=
  ((m[s]?.bind (·[s]?)).getD 0) - ((m[s]?.bind (·[d]?)).getD 0) * ((m[s]?.bind (·[d]?)).getD 0) / ((m[d]?.bind (·[d]?)).getD 0)

/-- The sources for currents (ReluctanceNetwork.cpp 335-339). -/
def sources (ts : List (ℚ × Nat)) (currents : List ℚ) : Vec := fun c =>
  ((ts.zip currents).map fun x => if x.1.2 = c then x.1.1 * x.2 else 0).sum

/-- `calculate_column_magnetic_fluxes` (ReluctanceNetwork.cpp 326-341), for the turns and column of each winding. -/
def columnFluxes (net : Network) (ts : List (ℚ × Nat)) (currents : List ℚ) : Res Vec :=
  if currents.length ≠ ts.length then .throws .invalid else net.fluxes (sources ts currents)

/-- `calculate_column_magnetic_flux_densities` (ReluctanceNetwork.cpp 343-351). -/
def fluxDensities (net : Network) (cs : List Column) (ts : List (ℚ × Nat)) (currents : List ℚ) : Res Vec :=
  (columnFluxes net ts currents).bind fun f => .ok fun c => f c / (columnAt cs c).area

end Verif.Network
