import Mathlib.Algebra.Order.Field.Basic
import Mathlib.Algebra.Order.Group.Abs
import Mathlib.Algebra.Order.Field.Rat

/-! # Model of the placement of windings in several winding windows
(src/constructive_models/Coil.cpp:7030-7062, 7064-7126, 7128-7249, 7251-7294, 7392-7411, 7413-7591, 7593-7642)

Windows are rectangular. Numbers are an ordered field. Proportions of parallels (all 1), types, orientations and the
coordinates of layers besides the first are not modelled. -/

namespace Verif.Columns

variable {K : Type} [Field K] [LinearOrder K] [IsStrictOrderedRing K]

/-- A winding window of the processed bobbin: the column it is wound around, if stated, its centre and dimensions. -/
structure Window (K : Type) where
  column : Option Int
  x : K
  y : K
  w : K
  h : K
  deriving DecidableEq

/-- A group: `windings` are the indices of its partial windings. -/
structure Group (K : Type) where
  name : String
  window : Option Int
  x : K
  y : K
  w : K
  h : K
  windings : List Nat
  deriving DecidableEq

/-! ## Sharing of regions -/

/-- `isLateralWound` (src/constructive_models/Coil.cpp:7142-7151). `none`: the window does not exist. -/
def isLateral (w0 : Window K) (ws : List (Window K)) (g : Group K) : Option Bool :=
  let i := g.window.getD 0
  if i < 0 then none
  else match (w0 :: ws)[i.toNat]? with
    | none => none
    | some w =>
      match w.column with
      | none => some false
      | some c => some (decide (w0.column ≠ some c))

/-- Two groups are in the same region (src/constructive_models/Coil.cpp:7193-7197). -/
def sameRegion (a b : Group K) : Bool :=
  decide (|a.x - b.x| < 1 / 10 ^ 9) && decide (|a.y - b.y| < 1 / 10 ^ 9) && decide (|a.w - b.w| < 1 / 10 ^ 9) &&
    decide (|a.h - b.h| < 1 / 10 ^ 9)

/-- Whether two of the groups are in the same region (src/constructive_models/Coil.cpp:7185-7206). -/
def anySame : List (Group K) → Bool
  | [] => false
  | g :: gs => gs.any (sameRegion g) || anySame gs

/-- The edges of the region of a group, from the axis of the main column (src/constructive_models/Coil.cpp:7229-7230). -/
def innerEdge (g : Group K) : K := |g.x| - g.w / 2
def outerEdge (g : Group K) : K := |g.x| + g.w / 2

/-- The middle of the window of the core (src/constructive_models/Coil.cpp:7236). -/
def midline (t : K) (g : Group K) : K := (innerEdge g - t + outerEdge g) / 2

/-- The new edges of a group (src/constructive_models/Coil.cpp:7231-7243). `shared`: both kinds are wound. -/
def newInner (t : K) (shared lateral : Bool) (g : Group K) : K := if shared && lateral then midline t g else innerEdge g
def newOuter (t : K) (shared lateral : Bool) (g : Group K) : K :=
  if shared && !lateral then midline t g else if lateral then outerEdge g - t else outerEdge g

/-- `sideSign` (src/constructive_models/Coil.cpp:7228). -/
def side (g : Group K) : K := if 0 ≤ g.x then 1 else -1

/-- The group with its new region (src/constructive_models/Coil.cpp:7244-7247). -/
def reshape (t : K) (shared lateral : Bool) (g : Group K) : Group K :=
  { g with
    x := side g * (newInner t shared lateral g + newOuter t shared lateral g) / 2
    w := newOuter t shared lateral g - newInner t shared lateral g }

/-- Whether a group has windings. -/
def isWound (g : Group K) : Bool := !g.windings.isEmpty

/-- One group of the last loop (src/constructive_models/Coil.cpp:7221-7248). -/
def shareOne (t : K) (shared : Bool) (w0 : Window K) (ws : List (Window K)) (g : Group K) : Group K :=
  if isWound g then reshape t shared ((isLateral w0 ws g).getD false) g else g

/-- Models `split_shared_window_groups` (src/constructive_models/Coil.cpp:7128-7249). `t`: the thickness of the column of the
bobbin. `none`: exception. -/
def share (t : K) (w0 : Window K) (ws : List (Window K)) (groups : List (Group K)) : Option (List (Group K)) :=
  if ws = [] then some groups
  else if (groups.filter isWound).any (fun g => (isLateral w0 ws g).isNone) then none
  else
    let lateral := (groups.filter isWound).any (fun g => isLateral w0 ws g == some true)
    let main := (groups.filter isWound).any (fun g => isLateral w0 ws g == some false)
    if lateral = false then some groups
    else if main = false && anySame (groups.filter isWound) then none
    else some (groups.map (shareOne t (main && lateral) w0 ws))

/-! ## Groups -/

/-- The group of a window (src/constructive_models/Coil.cpp:7098-7115, 7610-7639). -/
def columnGroup (dist : K) (i : Nat) (w : Window K) (windings : List Nat) : Group K :=
  ⟨"Column " ++ toString i, some i, w.x, w.y, w.w - dist * 2, w.h, windings⟩

/-- The group of each window, from index `i` on. -/
def columnGroups (dist : K) (windings : Nat → List Nat) : Nat → List (Window K) → List (Group K)
  | _, [] => []
  | i, w :: ws => columnGroup dist i w (windings i) :: columnGroups dist windings (i + 1) ws

/-- Whether a winding asks for a window that does not exist (src/constructive_models/Coil.cpp:7083). -/
def badAsk (n : Nat) (a : Option Int) : Bool :=
  match a with
  | none => false
  | some i => decide (i < 0) || decide ((n : Int) ≤ i)

/-- The window of a winding (src/constructive_models/Coil.cpp:7090). -/
def askedWindow (asks : List (Option Int)) (k : Nat) : Nat :=
  match asks[k]? with
  | some (some i) => i.toNat
  | _ => 0

/-- The windings of a window (src/constructive_models/Coil.cpp:7079-7095). -/
def windingsOf (asks : List (Option Int)) (i : Nat) : List Nat :=
  (List.range asks.length).filter (fun k => askedWindow asks k == i)

/-- Models `create_default_group` (src/constructive_models/Coil.cpp:7030-7062). -/
def defaultGroup (dist : K) (w : Window K) (n : Nat) : Group K :=
  ⟨"Default group", none, w.x, w.y, w.w - dist * 2, w.h, List.range n⟩

/-- Models `create_default_groups` (src/constructive_models/Coil.cpp:7064-7126). `asks`: the window each winding asks for. -/
def defaultGroups (dist t : K) (w0 : Window K) (ws : List (Window K)) (asks : List (Option Int)) : Option (List (Group K)) :=
  if ws = [] then some [defaultGroup dist w0 asks.length]
  else if asks.any (badAsk (ws.length + 1)) then none
  else share t w0 ws (columnGroups dist (windingsOf asks) 0 (w0 :: ws))

/-- Models `assign_windings_to_columns` (src/constructive_models/Coil.cpp:7593-7642) for a coil of `n` windings. -/
def assign (t : K) (w0 : Window K) (ws : List (Window K)) (n : Nat) (columns : List (List Nat)) : Option (List (Group K)) :=
  if columns.length ≠ ws.length + 1 then none
  else if columns.any (fun c => c.any (fun k => decide (n ≤ k))) then none
  else share t w0 ws (columnGroups 0 (fun i => columns.getD i []) 0 (w0 :: ws))

/-! ## The window of a group -/

/-- The window whose centre is that of the group (src/constructive_models/Coil.cpp:7278-7286). -/
def matchWindow (g : Group K) : Nat → List (Window K) → Option Nat
  | _, [] => none
  | i, w :: ws => if |g.x - w.x| < 1 / 10 ^ 9 ∧ |g.y - w.y| < 1 / 10 ^ 9 then some i else matchWindow g (i + 1) ws

/-- The window of a group found (src/constructive_models/Coil.cpp:7268-7289). `none`: exception. -/
def windowOfGroup (windows : List (Window K)) (g : Group K) : Option Nat :=
  match g.window with
  | some i => if i < 0 ∨ (windows.length : Int) ≤ i then none else some i.toNat
  | none => matchWindow g 0 windows

/-- Models `find_window_index_for_group` (src/constructive_models/Coil.cpp:7251-7294) on a processed bobbin. -/
def findWindow (windows : List (Window K)) (groups : Option (List (Group K))) (name : String) : Option Nat :=
  match groups with
  | none => some 0
  | some gs =>
    if windows.length ≤ 1 then some 0
    else match gs.find? (fun g => g.name == name) with
      | none => none
      | some g => windowOfGroup windows g

/-! ## Placement -/

/-- `SectionWindowTransform` (src/constructive_models/Coil.cpp:7456-7461). -/
structure Move (K : Type) where
  reflect : Bool
  centre : K
  mirror : Bool
  axis : K
  deriving DecidableEq

/-- `transformX` (src/constructive_models/Coil.cpp:7508-7521). -/
def moveX (inverse : Bool) (m : Move K) (x : K) : K :=
  if inverse then
    let y := if m.mirror then -x else x
    if m.reflect then 2 * m.centre - y else y
  else
    let y := if m.reflect then 2 * m.centre - x else x
    if m.mirror then -y else y

/-- A section: its window, the centre of its group if it has one, and the axis of the column it is wound around in the
frame of winding. -/
structure Sec (K : Type) where
  name : String
  x : K
  window : Nat
  groupX : Option K
  axis : K
  deriving DecidableEq

/-- A layer. -/
structure Lay (K : Type) where
  sec : Option String
  x : K
  deriving DecidableEq

/-- A turn: `clockwise` its orientation, `crossing` its second crossing of the plane. -/
structure Turn (K : Type) where
  sec : Option String
  x : K
  y : K
  length : K
  clockwise : Option Bool
  crossing : Option (K × K)
  deriving DecidableEq

/-- The sections, layers and turns of a coil and whether they are at their final positions. -/
structure State (K : Type) where
  sections : List (Sec K)
  layers : Option (List (Lay K))
  turns : Option (List (Turn K))
  applied : Bool
  deriving DecidableEq

/-- The movement of a section (src/constructive_models/Coil.cpp:7482-7498). -/
def moveOf (w0 : Window K) (w : Window K) (s : Sec K) : Move K :=
  let lateral := match w.column with
    | none => false
    | some c => decide (w0.column ≠ some c)
  let mirror := decide (w.x < 0)
  ⟨lateral, match s.groupX with | some g => |g| | none => |w.x|, mirror,
    if lateral then (if mirror then -s.axis else s.axis) else 0⟩

/-- The movement of a section in its window; `none` if the window does not exist. -/
def moveIn (w0 : Window K) (ws : List (Window K)) (s : Sec K) : Option (Move K) :=
  ((w0 :: ws)[s.window]?).map (fun w => moveOf w0 w s)

/-- `transformPerSection` (src/constructive_models/Coil.cpp:7499): a later section overwrites one of the same name. -/
def lookup (w0 : Window K) (ws : List (Window K)) (sections : List (Sec K)) (n : String) : Option (Move K) :=
  (sections.reverse.find? (fun s => s.name == n)).bind (moveIn w0 ws)

/-- A section moved (src/constructive_models/Coil.cpp:7527-7529). -/
def placeSec (inverse : Bool) (f : String → Option (Move K)) (s : Sec K) : Sec K :=
  match f s.name with
  | none => s
  | some m => { s with x := moveX inverse m s.x }

/-- A layer moved (src/constructive_models/Coil.cpp:7534-7539). -/
def placeLay (inverse : Bool) (f : String → Option (Move K)) (l : Lay K) : Lay K :=
  match l.sec.bind f with
  | none => l
  | some m => { l with x := moveX inverse m l.x }

/-- A turn moved by `m` with its new length (src/constructive_models/Coil.cpp:7557-7586). -/
def movedTurn (inverse emit : Bool) (m : Move K) (len : K) (t : Turn K) : Turn K where
  sec := t.sec
  x := moveX inverse m t.x
  y := t.y
  length := len
  clockwise := if m.mirror then t.clockwise.map not else t.clockwise
  crossing := if emit then some (2 * m.axis - moveX inverse m t.x, t.y) else t.crossing

/-- A turn moved (src/constructive_models/Coil.cpp:7553-7587). `len`: the length of a turn of a section at a distance.
`none`: exception for a negative length. -/
def placeTurn (inverse emit : Bool) (f : String → Option (Move K)) (len : String → K → Option K) (t : Turn K) : Option (Turn K) :=
  match t.sec with
  | none => some t
  | some s =>
    match f s with
    | none => some t
    | some m =>
      if m.reflect then (len s |moveX inverse m t.x|).map (fun l => movedTurn inverse emit m l t)
      else some (movedTurn inverse emit m t.length t)

/-- All the turns. -/
def placeTurns (inverse emit : Bool) (f : String → Option (Move K)) (len : String → K → Option K) :
    List (Turn K) → Option (List (Turn K))
  | [] => some []
  | t :: r =>
    match placeTurn inverse emit f len t with
    | none => none
    | some u => (placeTurns inverse emit f len r).map (fun l => u :: l)

/-- Whether a section is moved at all (src/constructive_models/Coil.cpp:7500). -/
def isMoved (w0 : Window K) (ws : List (Window K)) (s : Sec K) : Bool :=
  match moveIn w0 ws s with
  | none => false
  | some m => m.reflect || m.mirror

/-- Models `apply_group_window_sides` (src/constructive_models/Coil.cpp:7413-7591) on a processed bobbin and a coil with groups
and sections; the exceptions of finding the axis of a column are not modelled. `additional`: the setting of additional coordinates. The second component: an exception was thrown. -/
def apply (additional : Bool) (w0 : Window K) (ws : List (Window K)) (len : String → K → Option K) (inverse : Bool)
    (st : State K) : State K × Bool :=
  if inverse ≠ st.applied then (st, false)
  else if ws = [] then (st, false)
  else if st.sections.any (fun s => (moveIn w0 ws s).isNone) then (st, true)
  else
    let emit := additional && !inverse
    if st.sections.any (isMoved w0 ws) = false && emit = false then (st, false)
    else
      let f := lookup w0 ws st.sections
      let secs := st.sections.map (placeSec inverse f)
      let lays := st.layers.map (List.map (placeLay inverse f))
      match st.turns with
      | none => (⟨secs, lays, none, !inverse⟩, false)
      | some ts =>
        match placeTurns inverse emit f len ts with
        | none => (⟨secs, lays, some ts, st.applied⟩, true)
        | some us => (⟨secs, lays, some us, !inverse⟩, false)

/-! ## Length of turns -/

/-- Shape of a column. -/
inductive Shape where
  | round | oblong | rectangular | irregular | other
  deriving DecidableEq

/-- `WoundColumnFrame` (src/constructive_models/Coil.cpp:7380-7389). -/
structure Frame (K : Type) where
  shape : Shape
  width : K
  depth : K
  axis : K

/-- The radius of a turn (src/constructive_models/Coil.cpp:7393). -/
def radius (f : Frame K) (x : K) : K := if f.axis = 0 then x else |x - f.axis|

/-- The length before it is checked (src/constructive_models/Coil.cpp:7395-7406). `none`: exception. `pi`: the number pi. -/
def rawLength (pi : K) (f : Frame K) (x : K) : Option K :=
  match f.shape with
  | .round => some (2 * pi * radius f x)
  | .oblong => some (2 * pi * radius f x + 4 * (f.depth - f.width))
  | .rectangular => some (4 * f.depth + 4 * f.width + 2 * pi * (radius f x - f.width))
  | .irregular => some (4 * f.depth + 4 * f.width + 2 * pi * (radius f x - f.width))
  | .other => none

/-- Models `get_turn_length_in_frame` (src/constructive_models/Coil.cpp:7392-7411). `none`: exception; `some none`: no length. -/
def turnLength (pi : K) (f : Frame K) (x : K) : Option (Option K) :=
  (rawLength pi f x).map (fun l => if l < 0 then none else some l)

end Verif.Columns
