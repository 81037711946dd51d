import Mathlib.Algebra.Order.Field.Basic
import Verif.Filters.Basic
import Verif.Sampling.Model

/-! # The grid of points at which the field of a winding window is computed

Models `CoilMesher::generate_mesh_induced_grid` and its tests of points (src/support/CoilMesher.cpp). Numbers are those of an
ordered field; the frequency, which is copied, is left out. -/

namespace Verif.Grid

open Verif.Filters

variable {K : Type} [Field K] [LinearOrder K] [IsStrictOrderedRing K]

/-- The points along one axis of a rectangular region (src/support/CoilMesher.cpp:205, 215-216; 206, 217-218; 232-236). -/
def axis (start stop : K) (n : Nat) : List K :=
  Sampling.linspace (start + (stop - start) / n / 2) (stop - (stop - start) / n / 2) n

/-- A grid: the points along each axis and the area of a cell. -/
structure Mesh (K : Type) where
  xs : List K
  ys : List K
  cell : K
deriving DecidableEq

/-- The grid of the only window, or of the first (src/support/CoilMesher.cpp:225-241): from the main column to the far side of the
window of the bobbin, as high as the column. -/
def single (centre width columnWidth columnHeight : K) (nx ny : Nat) : Mesh K where
  xs := axis (columnWidth / 2) (centre - width / 2 + width) nx
  ys := axis (-columnHeight / 2) (columnHeight / 2) ny
  cell := (centre - width / 2 + width - columnWidth / 2) / nx * (columnHeight / ny)

/-- The grid of a toroid (src/support/CoilMesher.cpp:242-250). -/
def toroid (coreWidth coreHeight extra : K) (nx ny : Nat) : Mesh K where
  xs := Sampling.linspace (-coreWidth / 2 * extra) (coreWidth / 2 * extra) nx
  ys := Sampling.linspace (-coreHeight / 2 * extra) (coreHeight / 2 * extra) ny
  cell := coreWidth * extra / nx * (coreHeight * extra / ny)

/-- A winding window, whose centre and sizes may be missing. -/
structure Window (K : Type) where
  centre : Option (K × K)
  width : Option K
  height : Option K

/-- A region with its centre and sizes. -/
structure Region (K : Type) where
  centre : K × K
  width : K
  height : K
deriving DecidableEq

/-- A window with nothing missing (src/support/CoilMesher.cpp:188-190). -/
def Window.complete (w : Window K) : Option (Region K) :=
  match w.centre, w.width, w.height with
  | some c, some a, some b => some ⟨c, a, b⟩
  | _, _, _ => none

/-- Two centres are the same (src/support/CoilMesher.cpp:194). -/
def same (c d : K × K) : Bool := decide (|d.1 - c.1| < 1 / 10 ^ 9) && decide (|d.2 - c.2| < 1 / 10 ^ 9)

/-- The area of a cell of a region (src/support/CoilMesher.cpp:205-207). -/
def Region.cell (r : Region K) (nx ny : Nat) : K := r.width / nx * (r.height / ny)

/-- The regions of several windows and the area of a cell (src/support/CoilMesher.cpp:185-223). The centres are kept in the
opposite order, which does not matter to whether one is the same. -/
def regions (nx ny : Nat) : List (K × K) → Option K → List (Window K) → Outcome (List (Region K) × K)
  | _, common, [] =>
    match common with
    | none => .throws
    | some a => .value ([], a)
  | done, common, w :: ws =>
    match w.complete with
    | none => regions nx ny done common ws
    | some r =>
      if done.any (same r.centre) then regions nx ny done common ws
      else
        match common with
        | none => (regions nx ny (r.centre :: done) (some (r.cell nx ny)) ws).bind fun o => .value (r :: o.1, o.2)
        | some a =>
          if a / 10 ^ 6 < |r.cell nx ny - a| then .throws
          else (regions nx ny (r.centre :: done) (some a) ws).bind fun o => .value (r :: o.1, o.2)

/-- A turn: all its crossings, the first and the additional ones, its dimensions, which are taken to be there, and whether its
section is round. -/
structure Turn (K : Type) where
  first : K × K
  others : List (K × K)
  width : K
  height : K
  round : Bool

/-- `hypot(a, b) < r`. -/
def within (a b r : K) : Bool := decide (0 < r) && decide (a * a + b * b < r * r)

/-- `is_point_inside_turn` (src/support/CoilMesher.cpp:69-91). -/
def insideAt (factor : K) (t : Turn K) (c p : K × K) : Bool :=
  let dx := |c.1 - p.1| * factor
  let dy := |c.2 - p.2| * factor
  if t.round then within dx dy (t.width / 2) else decide (dx < t.width / 2) && decide (dy < t.height / 2)

/-- `is_inside_turns` (src/support/CoilMesher.cpp:93-114). -/
def insideTurns (factor : K) (ts : List (Turn K)) (p : K × K) : Bool :=
  ts.any fun t => insideAt factor t t.first p || t.others.any fun c => insideAt factor t c p

/-- `is_far_from_turns` (src/support/CoilMesher.cpp:116-141). -/
def farFrom (ts : List (Turn K)) (p : K × K) : Bool :=
  ts.all fun t => !within (|t.first.1 - p.1|) (|t.first.2 - p.2|) (max t.width t.height * 2) &&
    t.others.all fun c => !within (|c.1 - p.1|) (|c.2 - p.2|) (max t.width t.height * 2)

/-- `is_passed_from_all_turns` (src/support/CoilMesher.cpp:143-164). -/
def passed (ts : List (Turn K)) (p : K × K) : Bool :=
  if ts.any fun t => decide (p.1 < t.first.1) then false
  else (!ts.any fun t => decide (t.first.2 < p.2)) ^^ (!ts.any fun t => decide (p.2 < t.first.2))

/-- The settings of the selection of points. -/
structure Choice (K : Type) where
  ignoreTurns : Bool
  includeInside : Bool
  planar : Bool
  contiguous : Bool
  factor : K

/-- Whether a point of the grid is kept (src/support/CoilMesher.cpp:266-284). -/
def kept (o : Choice K) (ts : List (Turn K)) (p : K × K) : Bool :=
  if !o.ignoreTurns && (farFrom ts p && (!o.contiguous || passed ts p)) then false
  else if o.planar then !(!o.ignoreTurns && insideTurns o.factor ts p)
  else !(!o.includeInside && insideTurns o.factor ts p)

/-- The points of a grid (src/support/CoilMesher.cpp:263-290). -/
def points (o : Choice K) (ts : List (Turn K)) (xs ys : List K) : List (K × K) :=
  ys.flatMap fun y => (xs.map fun x => (x, y)).filter (kept o ts)

end Verif.Grid
