import Mathlib.Algebra.Order.Field.Rat
import Mathlib.Algebra.Order.Group.Abs

/-!
# Model of the winding windows and of the size of a processed core

Source: `/repo/src/constructive_models/Core.cpp`, `process_data` as far as windows go, and `fits`.

What the shape gives (the columns and the window of the piece, and its dimensions) is an input. Doubles are exact rational
numbers.
-/

namespace Verif.CoreData

/-- A column, as far as windows go. -/
structure Column where
  central : Bool
  x : ℚ
  deriving DecidableEq, Repr

/-- A winding window: the geometry of the piece, its number, is copied. Coordinates are x and y; `order` is the winding
order a user asked for. -/
structure Window where
  geometry : Nat
  coords : Option (ℚ × ℚ)
  column : Option Nat
  order : Option Nat
  deriving DecidableEq, Repr

/-- Outcome. -/
inductive Res (α : Type) where
  | ok (a : α)
  | invalid      -- InvalidInputException
  | ub
  deriving DecidableEq, Repr

/-- Sequencing. -/
def Res.bind {α β : Type} : Res α → (α → Res β) → Res β
  | .ok a, f => f a
  | .invalid, _ => .invalid
  | .ub, _ => .ub

/-- Index of the main column: the first central one, or 0. Models src/constructive_models/Core.cpp:1609-1615. -/
def mainColumn (columns : List Column) : Nat := (columns.findIdx? Column.central).getD 0

/-- The windows of the other columns, from column number `i` on. Models the loop
src/constructive_models/Core.cpp:1623-1637. -/
def others (main : Nat) (window : Window) (p : ℚ × ℚ) : Nat → List Column → List Window
  | _, [] => []
  | i, col :: rest =>
    if i = main ∨ col.x = 0 then others main window p (i + 1) rest
    else { window with coords := some ((if col.x < 0 then -1 else 1) * |p.1|, p.2), column := some i } ::
      others main window p (i + 1) rest

/-- Models `appendPerColumnWindingWindows` (src/constructive_models/Core.cpp:1603-1638). -/
def append (columns : List Column) (windows : List Window) : Res (List Window) :=
  if columns = [] then .invalid
  else match windows with
    | [] => .ub
    | first :: rest => match first.coords with
      | none => .invalid
      | some p =>
        .ok ({ first with column := some (mainColumn columns) } :: rest ++ others (mainColumn columns) first p 0 columns)

/-- The orders captured before, put back by index. Models src/constructive_models/Core.cpp:1850-1857. -/
def putBack : List Window → List (Option Nat) → List Window
  | [], _ => []
  | w :: ws, [] => w :: ws
  | w :: ws, o :: os => { w with order := o.or w.order } :: putBack ws os

/-- Models what `Core::process_data` does with windows (src/constructive_models/Core.cpp:1698-1711, 1724-1820, 1821-1858).
`perColumn` is the setting of one window per column, which an open shape does not read (1759-1770); `window` the one of the
piece; `incoming` the windows the core had, empty for a core without a processed description. -/
def processWindows (perColumn openShape : Bool) (columns : List Column) (window : Window) (incoming : List Window) :
    Res (List Window) :=
  (if perColumn && !openShape then append columns [window] else .ok [window]).bind fun regenerated =>
    (if regenerated.length < incoming.length ∧ 1 < columns.length then append columns regenerated
     else .ok regenerated).bind fun windows =>
      if windows.length < incoming.length then .invalid
      else .ok (putBack windows (incoming.map Window.order))

/-- Dimensions of a core, as processed. -/
structure Size where
  width : ℚ
  height : ℚ
  depth : ℚ
  deriving DecidableEq, Repr

/-- The largest a user allows, each or not. -/
structure Maximum where
  width : Option ℚ
  height : Option ℚ
  depth : Option ℚ
  deriving DecidableEq, Repr

/-- Models `fits_one_dimension` (src/constructive_models/Core.cpp:2290-2295). -/
def fitsOne (s : Size) (d : ℚ) : Bool := decide (s.depth ≤ d ∨ s.height ≤ d ∨ s.width ≤ d)

/-- Models `fits_two_dimensions` (src/constructive_models/Core.cpp:2297-2304). -/
def fitsTwo (s : Size) (a b : ℚ) : Bool :=
  decide ((s.depth ≤ a ∧ (s.height ≤ b ∨ s.width ≤ b)) ∨ (s.height ≤ a ∧ (s.depth ≤ b ∨ s.width ≤ b)) ∨
    (s.width ≤ a ∧ (s.height ≤ b ∨ s.depth ≤ b)))

/-- Models `fits_three_dimensions` (src/constructive_models/Core.cpp:2306-2316). -/
def fitsThree (s : Size) (a b c : ℚ) : Bool :=
  decide ((s.depth ≤ a ∧ s.height ≤ b ∧ s.width ≤ c) ∨ (s.depth ≤ a ∧ s.height ≤ c ∧ s.width ≤ b) ∨
    (s.depth ≤ b ∧ s.height ≤ a ∧ s.width ≤ c) ∨ (s.depth ≤ b ∧ s.height ≤ c ∧ s.width ≤ a) ∨
    (s.depth ≤ c ∧ s.height ≤ a ∧ s.width ≤ b) ∨ (s.depth ≤ c ∧ s.height ≤ b ∧ s.width ≤ a))

/-- Models `Core::fits` (src/constructive_models/Core.cpp:2318-2399), once the core is processed. The last branch, which
throws (2396-2398), is never reached: the eight cases are all there. -/
def fits (s : Size) (m : Maximum) (rotation : Bool) : Bool :=
  match m.depth, m.height, m.width with
  | none, none, none => true
  | some d, none, none => if rotation then fitsOne s d else decide (s.depth ≤ d)
  | none, some h, none => if rotation then fitsOne s h else decide (s.height ≤ h)
  | none, none, some w => if rotation then fitsOne s w else decide (s.width ≤ w)
  | some d, some h, none => if rotation then fitsTwo s d h else decide (s.depth ≤ d ∧ s.height ≤ h)
  | none, some h, some w => if rotation then fitsTwo s w h else decide (s.width ≤ w ∧ s.height ≤ h)
  | some d, none, some w => if rotation then fitsTwo s w d else decide (s.depth ≤ d ∧ s.width ≤ w)
  | some d, some h, some w =>
    if rotation then fitsThree s d h w else decide (s.depth ≤ d ∧ s.height ≤ h ∧ s.width ≤ w)

end Verif.CoreData
