import Verif.Common.Round

/-! # Model of the checks of whether a coil fits, and of its filling factors
(src/constructive_models/Coil.cpp:5684-5841, 5843-5908, 5910-6027, 5328-5350, 7296-7309)

Numbers are an ordered field with floor. Names of the section of a layer and of the layer of a turn, dimensions and
coordinates are taken as present. The failure text, the diagnostics on the environment variable and the exceptions of
resolving wires and bobbins are not modelled. -/

namespace Verif.Fitting

open Verif.Round

variable {K : Type} [Field K] [LinearOrder K] [IsStrictOrderedRing K] [FloorRing K]

/-- What is read of a layer. `r`: its first coordinate. -/
structure Layer (K : Type) where
  name : String
  sec : String
  overlapping : Bool
  conduction : Bool
  w : K
  h : K
  r : K
  ff : Option K

/-- What is read of a section. `group`: the window of its group, `some none` when `find_window_index_for_group` throws. -/
structure Section (K : Type) where
  name : String
  conduction : Bool
  w : K
  h : K
  ff : Option K
  window : Option Int
  group : Option (Option Nat)
  margin : Option (K × K)

/-- What is read of a turn. -/
structure Turn (K : Type) where
  sec : Option String
  winding : String
  layer : String
  x : K
  y : K
  w : K
  h : K

/-- Position and dimensions of a winding window. -/
structure Box (K : Type) where
  x : K
  y : K
  w : K
  h : K

/-- A coil as it is checked. `windows`: absent when the winding window is not rectangular or the bobbin is not processed;
`none` in it for windows lacking coordinates or dimensions. `wires`: outer width and height of each winding. -/
structure Coil (K : Type) where
  sections : Option (List (Section K))
  layers : Option (List (Layer K))
  turns : Option (List (Turn K))
  planar : Bool
  windows : Option (List (Option (Box K)))
  sidesApplied : Bool
  wires : List (String × K × K)

/-- The settings read. -/
structure Config where
  squish : Bool
  horizontal : Bool

/-- A quotient of doubles. -/
inductive Ratio (K : Type) where
  | num (x : K)
  | inf (positive : Bool)
  | nan

/-- Division of doubles. -/
def ratio (a b : K) : Ratio K :=
  if b = 0 then (if a = 0 then .nan else .inf (decide (0 < a))) else .num (a / b)

/-- `roundFloat(x, 6) > limit`. -/
def Ratio.over (limit : K) : Ratio K → Bool
  | .num x => decide (limit < roundFloat x 6)
  | .inf p => p
  | .nan => false

/-- `ffLimit` (src/constructive_models/Coil.cpp:5699). -/
def limit (squish : Bool) : K := if squish then 1 + 1 / 1000 else 1

/-- Models `get_layers_by_section` (src/constructive_models/Coil.cpp:5328-5338). -/
def layersOf (layers : List (Layer K)) (name : String) : List (Layer K) := layers.filter (fun l => l.sec == name)

/-- The loop of `overlapping_filling_factor` (src/constructive_models/Coil.cpp:5850-5858, 5863-5871). -/
def spanAcross (layers : List (Layer K)) (acc : K) : K :=
  layers.foldl (fun a l => if l.overlapping then a + l.w else max a l.w) acc

/-- The loop of `contiguous_filling_factor` (src/constructive_models/Coil.cpp:5883-5891, 5896-5904). -/
def spanAlong (layers : List (Layer K)) (acc : K) : K :=
  layers.foldl (fun a l => if l.overlapping then max a l.h else a + l.h) acc

/-- Models `overlapping_filling_factor` (src/constructive_models/Coil.cpp:5843-5874). -/
def overlappingFactor (layers : List (Layer K)) (s : Section K) : Ratio K := ratio (spanAcross (layersOf layers s.name) 0) s.w

/-- Models `contiguous_filling_factor` (src/constructive_models/Coil.cpp:5876-5908). -/
def contiguousFactor (layers : List (Layer K)) (s : Section K) : Ratio K := ratio (spanAlong (layersOf layers s.name) 0) s.h

/-- Whether a section overflows (src/constructive_models/Coil.cpp:5708-5712). `none`: `.value()` of a missing factor. -/
def sectionOver (cfg : Config) (layers : List (Layer K)) (s : Section K) : Option Bool :=
  if cfg.horizontal then some false
  else match s.ff with
    | none => none
    | some f => some ((Ratio.num f).over (limit cfg.squish) || (overlappingFactor layers s).over (limit cfg.squish) ||
        (contiguousFactor layers s).over (limit cfg.squish))

/-- The loop over the sections (src/constructive_models/Coil.cpp:5707-5721). -/
def sectionsFit (cfg : Config) (layers : List (Layer K)) : List (Section K) → Option Bool
  | [] => some true
  | s :: r =>
    match sectionOver cfg layers s with
    | none => none
    | some b => (sectionsFit cfg layers r).map (fun c => !b && c)

/-- The loop over the layers (src/constructive_models/Coil.cpp:5722-5731). -/
def layersFit (cfg : Config) : List (Layer K) → Option Bool
  | [] => some true
  | l :: r =>
    match l.ff with
    | none => none
    | some f => (layersFit cfg r).map (fun c => !((Ratio.num f).over (limit cfg.squish)) && c)

/-- Models `resolve_section_winding_window_index` (src/constructive_models/Coil.cpp:7296-7309). `none`: exception. -/
def windowIndex (s : Section K) : Option Nat :=
  match s.window with
  | some i => if i < 0 then none else some i.toNat
  | none =>
    match s.group with
    | some g => g
    | none => some 0

/-- The index of the window of a turn (src/constructive_models/Coil.cpp:5792-5796, 5805-5811): a later section of the same
name overwrites an earlier one. -/
def turnWindow (sections : List (Section K)) (t : Turn K) : Nat :=
  match t.sec with
  | none => 0
  | some n =>
    match sections.reverse.find? (fun s => s.name == n) with
    | none => 0
    | some s => (windowIndex s).getD 0

/-- `envelopeForWindow` (src/constructive_models/Coil.cpp:5773-5791): left, right, bottom, top. `none`: the window lacks
coordinates or dimensions. The list of windows is not empty. -/
def envelope (applied : Bool) (windows : List (Option (Box K))) (i : Nat) : Option (K × K × K × K) :=
  match (windows[if i < windows.length then i else 0]?).join with
  | none => none
  | some b =>
    some ((if applied then b.x else |b.x|) - b.w / 2, (if applied then b.x else |b.x|) + b.w / 2, b.y - b.h / 2, b.y + b.h / 2)

/-- `tol` (src/constructive_models/Coil.cpp:5800). -/
def tol : K := 1 / 10 ^ 9

/-- `(xOut && !allowHorizontal) || yOut` (src/constructive_models/Coil.cpp:5818-5823). -/
def isOut (horizontal : Bool) (t : Turn K) (wire : K × K) (e : K × K × K × K) : Bool :=
  (decide (t.x - wire.1 / 2 < e.1 - tol ∨ e.2.1 + tol < t.x + wire.1 / 2) && !horizontal) ||
    decide (t.y - wire.2 / 2 < e.2.2.1 - tol ∨ e.2.2.2 + tol < t.y + wire.2 / 2)

/-- `wires[get_winding_index_by_name(winding)]`: the first winding of the name (src/constructive_models/Coil.cpp:5610-5627). -/
def wireOf (wires : List (String × K × K)) (n : String) : Option (K × K) := (wires.find? (fun p => p.1 == n)).map Prod.snd

/-- The loop over the turns, which stops at the first out of its window (src/constructive_models/Coil.cpp:5804-5835). -/
def turnsFit (horizontal : Bool) (wires : List (String × K × K)) (env : Turn K → Option (K × K × K × K)) :
    List (Turn K) → Option Bool
  | [] => some true
  | t :: r =>
    match env t with
    | none => turnsFit horizontal wires env r
    | some e =>
      match wireOf wires t.winding with
      | none => none
      | some w => if isOut horizontal t w e then some false else turnsFit horizontal wires env r

/-- The comparison with the windows (src/constructive_models/Coil.cpp:5745-5838); `so`: what was found before. -/
def windowsFit (cfg : Config) (c : Coil K) (sections : List (Section K)) (so : Bool) : Option Bool :=
  if c.planar then some so
  else match c.windows with
    | none => some so
    | some [] => some so
    | some (w :: ws) =>
      if sections.any (fun s => (windowIndex s).isNone) then none
      else match c.turns with
        | none => some so
        | some turns =>
          (turnsFit cfg.horizontal c.wires (fun t => envelope c.sidesApplied (w :: ws) (turnWindow sections t)) turns).map
            (fun b => so && b)

/-- Models `are_sections_and_layers_fitting` (src/constructive_models/Coil.cpp:5684-5841). `none`: exception. -/
def fitting (cfg : Config) (c : Coil K) : Option Bool :=
  match c.sections with
  | none => some false
  | some sections =>
    match c.layers with
    | none => some false
    | some layers =>
      match sectionsFit cfg layers sections with
      | none => none
      | some a =>
        match layersFit cfg layers with
        | none => none
        | some b => windowsFit cfg c sections (a && b)

/-! ## Filling factors -/

/-- The window the factors are relative to: the first one. `across`: width or radial height; `along`: height or angle. -/
structure Frame (K : Type) where
  rectangular : Bool
  across : K
  along : K
  area : K

/-- The extents of the sections across and along (src/constructive_models/Coil.cpp:5943-5957). -/
def extents (overlapping : Bool) (sections : List (Section K)) : K × K :=
  sections.foldl (fun a s =>
    if overlapping then (a.1 + s.w, if s.conduction then max a.2 s.h else a.2)
    else (if s.conduction then max a.1 s.w else a.1, a.2 + s.h)) (0, 0)

/-- The area of the margins of a section (src/constructive_models/Coil.cpp:5959-5980). -/
def marginArea (f : Frame K) (overlapping : Bool) (s : Section K) : K :=
  match s.margin with
  | none => 0
  | some m => (m.1 + m.2) * (if f.rectangular = false then s.w else if overlapping then s.w else s.h)

/-- The area of a layer (src/constructive_models/Coil.cpp:5988-6002). `arc` models `angle_to_wound_distance`. -/
def layerArea (f : Frame K) (arc : K → K → K) (turns : List (Turn K)) (l : Layer K) : K :=
  if l.conduction then ((turns.filter (fun t => t.layer == l.name)).map (fun t => t.w * t.h)).sum
  else if f.rectangular then l.w * l.h else l.w * arc l.h (f.across - l.r)

/-- The area used (src/constructive_models/Coil.cpp:5959-6003). -/
def usedArea (f : Frame K) (arc : K → K → K) (overlapping : Bool) (sections : List (Section K)) (layers : List (Layer K))
    (turns : List (Turn K)) : K :=
  (sections.map (marginArea f overlapping)).sum + (layers.map (layerArea f arc turns)).sum

/-- One step of the largest factor of a layer (src/constructive_models/Coil.cpp:5985-5987). -/
def raise (a : K) (l : Layer K) : K :=
  match l.ff with
  | some f => max a f
  | none => a

/-- The largest factor of a layer (src/constructive_models/Coil.cpp:5985-5987). -/
def largestLayer (layers : List (Layer K)) : K := layers.foldl raise 0

/-- Models `FillingFactorsOutput` (src/constructive_models/Coil.h:802-808). -/
structure Factors (K : Type) where
  area : K
  largest : K
  across : K
  along : K
  fits : Bool

/-- Models `calculate_filling_factor` (src/constructive_models/Coil.cpp:5910-6027), once layers and turns are present; its
argument is not read. The window has an area and dimensions that are not zero. -/
def factors (f : Frame K) (arc : K → K → K) (overlapping : Bool) (sections : List (Section K)) (layers : List (Layer K))
    (turns : List (Turn K)) : Factors K where
  area := usedArea f arc overlapping sections layers turns / f.area
  largest := largestLayer layers
  across := (extents overlapping sections).1 / f.across
  along := (extents overlapping sections).2 / f.along
  fits := decide (usedArea f arc overlapping sections layers turns / f.area ≤ 1) && decide (largestLayer layers ≤ 1) &&
    decide ((if overlapping then (extents overlapping sections).1 / f.across else (extents overlapping sections).2 / f.along) ≤ 1)

end Verif.Fitting
