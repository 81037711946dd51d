import Mathlib.Algebra.BigOperators.Group.List.Basic
import Mathlib.Algebra.Order.Field.Rat

/-!
# Model of windings wound together

Source: `/repo/src/constructive_models/Coil.cpp` 7644-8229 (`wind_by_sections` and the virtualization of windings),
9236-9278 (`wind_by_layers`), 10220-10270 (`wind_by_turns`) and the private members of `Coil.h` 847-850.

Windings that name each other in `woundWith` are replaced by one virtual winding while sections, layers and turns are
wound, and the result is given back to the real windings.  What winds the virtual windings is a parameter.  Numbers of
turns and parallels are natural numbers (`int64_t` in the schema).  The cache of indexes by name is cleared before each
use here (8134, 7718, 7732, 9256, 9269, 10240, 10254), so indexes are looked up directly.  `_insulationInterSectionsLayers`
(virtualized and restored by `wind_by_layers`) is not modelled.
-/

namespace Verif.WoundWith

/-- Exceptions thrown. -/
inductive Err
  | invalid      -- InvalidInputException
  | noWinding    -- CoilException: no such winding name
  | internal     -- CalculationException
  | badAccess    -- std::bad_optional_access
  | inner        -- thrown by what winds the virtual windings
  deriving DecidableEq, Repr

/-- Outcome of a computation: a value, an exception, or undefined behaviour. -/
inductive Res (α : Type) where
  | ok (a : α)
  | throws (e : Err)
  | ub
  deriving DecidableEq, Repr

/-- Sequencing. -/
def Res.bind {α β : Type} : Res α → (α → Res β) → Res β
  | .ok a, f => f a
  | .throws e, _ => .throws e
  | .ub, _ => .ub

/-- In order, stopping at the first failure. -/
def Res.mapM {α β : Type} (f : α → Res β) : List α → Res (List β)
  | [] => .ok []
  | a :: rest => (f a).bind fun b => (Res.mapM f rest).bind fun l => .ok (b :: l)

/-- `Winding` (MAS schema): the fields read here. `wire` is the resolved wire. -/
structure Winding where
  name : String
  turns : Nat
  parallels : Nat
  side : Nat
  wire : Nat
  connections : List Nat
  woundWith : Option (List String)
  deriving DecidableEq, Repr

/-- `PartialWinding`: a winding and the proportion of each of its parallels. -/
structure Part where
  winding : String
  proportions : List ℚ
  deriving DecidableEq, Repr

/-- `Section` or `Layer`: what is used here of either. `rest` stands for all other fields. -/
structure Piece where
  insulation : Bool
  parts : List Part
  rest : Nat
  deriving DecidableEq, Repr

/-- `Turn`; `rest` stands for all other fields, among them its place. -/
structure Turn where
  name : String
  winding : String
  parallel : Nat
  rest : Nat
  deriving DecidableEq, Repr

/-- `Group`. -/
structure Group where
  parts : List Part
  rest : Nat
  deriving DecidableEq, Repr

/-- The state of a `Coil`: its descriptions, `_virtualWindingNames` and `_virtualizationMap`. The keys of both maps are
consecutive from zero: names are only added for indexes of virtual windings, which are counted from zero, and never
removed. `_windingNames` is read only at indexes of the current windings, where it holds their names. -/
structure Coil where
  windings : List Winding
  groups : Option (List Group)
  sections : Option (List Piece)
  layers : Option (List Piece)
  turns : Option (List Turn)
  virtualNames : List String
  members : List (List Nat)
  deriving DecidableEq, Repr

/-! ## Which windings are wound together -/

/-- `needs_virtualization` (7753-7762). -/
def needsVirtualization (ws : List Winding) : Bool :=
  ws.any fun w => match w.woundWith with
    | some l => !l.isEmpty
    | none => false

/-- `get_winding_index_by_name` (5620-5627): the first winding of that name. -/
def indexOf (ws : List Winding) (name : String) : Res Nat :=
  if (ws.findIdx fun w => w.name == name) < ws.length then .ok (ws.findIdx fun w => w.name == name) else .throws .noWinding

/-- The loop of `get_winding_group_minimum_index` (8161-8163). -/
def leaderFrom (ws : List Winding) : List String → Nat → Res Nat
  | [], m => .ok m
  | n :: rest, m => (indexOf ws n).bind fun i => leaderFrom ws rest (min i m)

/-- `get_winding_group_minimum_index` (8156-8166) for a winding. -/
def leader (ws : List Winding) (w : Winding) (i : Nat) : Res Nat := leaderFrom ws (w.woundWith.getD []) i

/-- The leaders of the windings from an index on. -/
def leadersFrom (ws : List Winding) : List Winding → Nat → Res (List Nat)
  | [], _ => .ok []
  | w :: rest, i => (leader ws w i).bind fun m => (leadersFrom ws rest (i + 1)).bind fun l => .ok (m :: l)

/-- The leaders of all windings. -/
def leaders (ws : List Winding) : Res (List Nat) := leadersFrom ws ws 0

/-- The first loop of `create_virtualization_map` (8138-8149): the virtual index of each winding, given the leaders of
those left, those already given and how many there are. `inversedVirtualizationMap` holds all windings before the
current one, so it holds the leader exactly when that comes before. -/
def assign : List Nat → List Nat → Nat → List Nat
  | [], given, _ => given
  | m :: rest, given, next =>
    match given[m]? with
    | some v => assign rest (given ++ [v]) next
    | none => assign rest (given ++ [next]) (next + 1)

/-- The virtual index of each winding. -/
def virtualIndexes (ls : List Nat) : List Nat := assign ls [] 0

/-- How many virtual windings there are. -/
def virtualCount (vs : List Nat) : Nat := vs.foldl (fun n v => max n (v + 1)) 0

/-- `_virtualizationMap` (8151-8155): the windings of each virtual winding, in order. -/
def membersOf (vs : List Nat) : List (List Nat) :=
  (List.range (virtualCount vs)).map fun v => (List.range vs.length).filter fun i => vs[i]? == some v

/-- `_virtualWindingNames` (8152): the name of the leader of the last winding of each virtual winding. -/
def leaderNames (ws : List Winding) (ls vs : List Nat) : List String :=
  (membersOf vs).map fun l => match l.getLast? with
    | some i => match ls[i]? with
      | some m => match ws[m]? with
        | some w => w.name
        | none => ""
      | none => ""
    | none => ""

/-- `create_virtualization_map` (8130-8157): names past the last virtual winding stay. -/
def createMap (c : Coil) : Res Coil :=
  (leaders c.windings).bind fun ls =>
    let vs := virtualIndexes ls
    let names := leaderNames c.windings ls vs
    .ok { c with members := membersOf vs, virtualNames := names ++ c.virtualNames.drop names.length }

/-- The body of the inner loop of `virtualize_functional_description` (7773-7813), for one more winding. -/
def merge (acc : Option Winding) (name : String) (w : Winding) : Res (Option Winding) :=
  match acc with
  | none => .ok (some { w with name := name, woundWith := none })
  | some a =>
    if a.parallels ≠ 0 ∧ a.parallels ≠ w.parallels then .throws .invalid
    else if a.side ≠ w.side then .throws .invalid
    else if a.wire ≠ w.wire then .throws .invalid
    else .ok (some { a with turns := a.turns + w.turns, parallels := w.parallels, connections := a.connections ++ w.connections })

/-- The inner loop of `virtualize_functional_description` (7773-7813).  The name is the one of the leader of the first
winding; an empty name would be replaced by the next, which is not modelled. -/
def mergeAll (ws : List Winding) : List Nat → Option Winding → Res (Option Winding)
  | [], acc => .ok acc
  | i :: rest, acc =>
    match ws[i]? with
    | none => .ub
    | some w => (leader ws w i).bind fun m =>
      (merge acc ((ws[m]?.map fun x => x.name).getD "") w).bind fun acc => mergeAll ws rest acc

/-- `virtualize_functional_description` (7764-7827).  Reading the isolation side of no winding throws. -/
def virtualWindings (ws : List Winding) (members : List (List Nat)) : Res (List Winding) :=
  Res.mapM (fun l => (mergeAll ws l none).bind fun a => match a with
    | some w => .ok w
    | none => .throws .badAccess) members

/-! ## Pattern and proportions -/

/-- `compress_pattern` (8199-8210). -/
def compressFrom (last : Option Nat) : List Nat → List Nat
  | [] => []
  | x :: rest => if last = some x then compressFrom last rest else x :: compressFrom (some x) rest

/-- The virtual winding a winding belongs to: the last that holds it (8178-8184). -/
def virtualOf (members : List (List Nat)) (i : Nat) : Option Nat :=
  ((List.range members.length).filter fun v => (members[v]?.getD []).contains i).getLast?

/-- One entry of `virtualize_pattern` (8174-8193).  An index past the windings is undefined. -/
def virtualEntry (ws : List Winding) (members : List (List Nat)) (i : Nat) : Res Nat :=
  match ws[i]? with
  | none => .ub
  | some w => (if w.woundWith = none then .ok i else leader ws w i).bind fun m =>
    match virtualOf members m with
    | some v => .ok v
    | none => .throws .internal

/-- `virtualize_pattern` (8168-8197). -/
def virtualPattern (ws : List Winding) (members : List (List Nat)) (pattern : List Nat) : Res (List Nat) :=
  if members = [] then .throws .internal else
  (Res.mapM (virtualEntry ws members) pattern).bind fun l => .ok (compressFrom none l)

/-- `virtualize_proportion_per_winding` (8212-8226).  Proportions past the end are undefined. -/
def virtualProportions (members : List (List Nat)) (proportions : List ℚ) : Res (List ℚ) :=
  if members = [] then .throws .internal else
  Res.mapM (fun l => (Res.mapM (fun i => match proportions[i]? with
    | some p => .ok p
    | none => .ub) l).bind fun ps => .ok ps.sum) members

/-- The groups of virtual windings (7694-7713): the first partial winding of each leader, renamed. -/
def virtualParts (ws : List Winding) : List String → List Part → Res (List Part)
  | _, [] => .ok []
  | seen, p :: rest => (indexOf ws p.winding).bind fun i =>
    match ws[i]? with
    | none => .ub
    | some w => (leader ws w i).bind fun m =>
      let name := (ws[m]?.map fun x => x.name).getD ""
      if name ∈ seen then virtualParts ws seen rest
      else (virtualParts ws (name :: seen) rest).bind fun l => .ok ({ p with winding := name } :: l)

/-- The groups of virtual windings (7690-7714). -/
def virtualGroups (ws : List Winding) (groups : List Group) : Res (List Group) :=
  Res.mapM (fun g => (virtualParts ws [] g.parts).bind fun l => .ok { g with parts := l }) groups

/-- The groups, if there are any (7690-7714). -/
def virtualAllGroups (ws : List Winding) : Option (List Group) → Res (Option (List Group))
  | some gs => (virtualGroups ws gs).bind fun l => .ok (some l)
  | none => .ok none

/-! ## Sections and layers -/

/-- The last virtual winding of that name (7836-7841, 7868-7873). -/
def virtualNamed (names : List String) (name : String) : Option Nat :=
  ((List.range names.length).filter fun v => names[v]? == some name).getLast?

/-- A partial winding given to the real windings (7833-7854): `_virtualizationMap[virtualWindingIndex]` is empty for an
index that is not in it. -/
def realParts (ws : List Winding) (names : List String) (members : List (List Nat)) (p : Part) : Res (List Part) :=
  match virtualNamed names p.winding with
  | none => .throws .internal
  | some v => .ok (((members[v]?).getD []).map fun i => { p with winding := (ws[i]?.map fun w => w.name).getD "" })

/-- `devirtualize_section` (7829-7857) and `devirtualize_layer` (7859-7887). -/
def realPiece (ws : List Winding) (names : List String) (members : List (List Nat)) (s : Piece) : Res Piece :=
  if s.insulation then .ok s else
  (Res.mapM (realParts ws names members) s.parts).bind fun l => .ok { s with parts := l.flatten }

/-- `virtualize_section` (7898-7930) and `virtualize_layer` (7932-7964): the first partial winding is read without a
check. -/
def virtualPiece (ws : List Winding) (names : List String) (members : List (List Nat)) (s : Piece) : Res Piece :=
  if s.insulation then .ok s else
  match s.parts with
  | [] => .ub
  | p :: _ => (indexOf ws p.winding).bind fun i =>
    match virtualOf members i with
    | none => .throws .internal
    | some v => match s.parts.find? fun q => some q.winding == names[v]? with
      | none => .throws .internal
      | some q => .ok { s with parts := [q] }

/-! ## Turns -/

/-- How often a winding appears in the pattern of its group (8034-8044): `round(numberTurns / minimumNumberTurns)`, half
up. -/
def timesInPattern (n least : Nat) : Nat := (2 * n + least) / (2 * least)

/-- All the turns of a winding (8020). -/
def wanted (ws : List Winding) (i : Nat) : Nat :=
  match ws[i]? with
  | some w => w.turns * w.parallels
  | none => 0

/-- The pattern of a group (8033-8044): dividing by zero turns is undefined, as is a winding that does not exist. -/
def turnPattern (ws : List Winding) (group : List Nat) : Res (List Nat) :=
  if group.all fun i => decide (i < ws.length) then
    if group.any fun i => wanted ws i == 0 then .ub
    else
      let least := (group.map (wanted ws)).foldl min (2 ^ 63 - 1)
      if group.any fun i => timesInPattern (wanted ws i) least == 0 then .throws .internal
      else .ok (group.flatMap fun i => List.replicate (timesInPattern (wanted ws i) least) i)
  else .ub

/-- The search for the winding of a turn (8049-8081): at most `fuel` entries of the pattern from a position on. Returns
the winding and the next position. -/
def nextWinding (pattern : List Nat) (remaining : Nat → Nat) : Nat → Nat → Option (Nat × Nat)
  | 0, _ => none
  | fuel + 1, k =>
    match pattern[k]? with
    | none => none
    | some i =>
      if remaining i > 0 then some (i, (k + 1) % pattern.length)
      else nextWinding pattern remaining fuel ((k + 1) % pattern.length)

/-- The parallel a turn goes to (8060-8065). -/
def parallelFor (w : Winding) (assigned : Nat) : Nat :=
  let p := assigned / w.turns
  if p ≥ w.parallels then w.parallels - 1 else p

/-- The loop over the turns of a virtual winding (8047-8085). `rename` is the replacement of the name of the virtual
winding in the name of the turn, by a regular expression. -/
def giveTurns (ws : List Winding) (rename : String → String → String) (pattern : List Nat) :
    List Turn → (Nat → Nat) → (Nat → Nat) → Nat → Res (List Turn)
  | [], _, _, _ => .ok []
  | t :: rest, remaining, assigned, k =>
    match nextWinding pattern remaining (pattern.length + 1) k with
    | none => .throws .internal
    | some (i, k') =>
      match ws[i]? with
      | none => .ub
      | some w =>
        (giveTurns ws rename pattern rest (Function.update remaining i (remaining i - 1))
          (Function.update assigned i (assigned i + 1)) k').bind fun l =>
        .ok ({ t with name := rename t.name w.name, winding := w.name, parallel := parallelFor w (assigned i) } :: l)

/-- The turns of one virtual winding (8011-8086). -/
def realTurnsOf (ws : List Winding) (rename : String → String → String → String) (turns : List Turn) (name : String)
    (group : List Nat) : Res (List Turn) :=
  let mine := turns.filter fun t => t.winding == name
  if (group.map (wanted ws)).sum ≠ mine.length then .throws .internal
  else (turnPattern ws group).bind fun pattern =>
    giveTurns ws (rename name) pattern mine (wanted ws) (fun _ => 0) 0

/-- `devirtualize_turns_description` (8007-8089). -/
def realTurns (ws : List Winding) (rename : String → String → String → String) (turns : List Turn) :
    List (List Nat × String) → Res (List Turn)
  | [] => .ok []
  | (group, name) :: rest => (realTurnsOf ws rename turns name group).bind fun l =>
    (realTurns ws rename turns rest).bind fun l' => .ok (l ++ l')

/-! ## The three steps -/

/-- What winds: from windings, groups, pattern and proportions to sections; from windings and sections to layers; from
windings, sections and layers to turns. `false` with nothing wound when it does not fit. -/
structure Winder where
  sections : List Winding → Option (List Group) → List Nat → List ℚ → Res (Option (List Piece))
  layers : List Winding → List Piece → Res (Option (List Piece))
  turns : List Winding → List Piece → List Piece → Res (Option (List Turn))
  rename : String → String → String → String

/-- The state left, and the outcome. -/
abbrev Step := Coil × Res Bool

/-- What happens in a state: an exception leaves the state as it is at that moment. -/
def orStop {α : Type} (c : Coil) (r : Res α) (k : α → Step) : Step :=
  match r with
  | .ok a => k a
  | .throws e => (c, .throws e)
  | .ub => (c, .ub)

/-- `wind_by_sections` (7644-7751), from the point where the descriptions are cleared (7682); groups exist. -/
def windSections (winder : Winder) (pattern : List Nat) (proportions : List ℚ) (c₀ : Coil) : Step :=
  let c := { c₀ with sections := none, layers := none, turns := none }
  if needsVirtualization c.windings then
    orStop c (createMap c) fun c =>
    orStop c (virtualWindings c.windings c.members) fun vws =>
    orStop c (virtualPattern c.windings c.members pattern) fun vpattern =>
    orStop c (virtualProportions c.members proportions) fun vproportions =>
    orStop c (virtualAllGroups c.windings c.groups) fun vgroups =>
    let virtual := { c with groups := vgroups, windings := vws }
    orStop virtual (winder.sections vws vgroups vpattern vproportions) fun r =>
    let back := { c with sections := r }
    match r with
    | none => (back, .ok false)
    | some l => orStop back (Res.mapM (realPiece c.windings c.virtualNames c.members) l) fun l' =>
      ({ back with sections := some l' }, .ok true)
  else
    orStop c (winder.sections c.windings c.groups pattern proportions) fun r =>
    ({ c with sections := r }, .ok r.isSome)

/-- `wind_by_layers` (9236-9278). -/
def windLayers (winder : Winder) (c₀ : Coil) : Step :=
  let c := { c₀ with layers := none }
  match c.sections with
  | none => (c, .ok false)
  | some sections =>
    if needsVirtualization c.windings then
      orStop c (createMap c) fun c =>
      orStop c (virtualWindings c.windings c.members) fun vws =>
      orStop c (Res.mapM (virtualPiece c.windings c.virtualNames c.members) sections) fun vsections =>
      let virtual := { c with windings := vws, sections := some vsections }
      orStop virtual (winder.layers vws vsections) fun r =>
      let back := { c with layers := r }
      match r with
      | none => (back, .ok false)
      | some l => orStop back (Res.mapM (realPiece c.windings c.virtualNames c.members) l) fun l' =>
        ({ back with layers := some l' }, .ok true)
    else
      orStop c (winder.layers c.windings sections) fun r =>
      ({ c with layers := r }, .ok r.isSome)

/-- `wind_by_turns` (10220-10270). -/
def windTurns (winder : Winder) (c₀ : Coil) : Step :=
  let c := { c₀ with turns := none }
  match c.layers with
  | none => (c, .ok false)
  | some layers =>
    match c.sections with
    | none => (c, .throws .badAccess)
    | some sections =>
      if needsVirtualization c.windings then
        orStop c (createMap c) fun c =>
        orStop c (virtualWindings c.windings c.members) fun vws =>
        orStop c (Res.mapM (virtualPiece c.windings c.virtualNames c.members) sections) fun vsections =>
        orStop c (Res.mapM (virtualPiece c.windings c.virtualNames c.members) layers) fun vlayers =>
        let virtual := { c with windings := vws, sections := some vsections, layers := some vlayers }
        orStop virtual (winder.turns vws vsections vlayers) fun r =>
        let back := { c with turns := r }
        match r with
        | none => (back, .ok false)
        | some l => orStop back (realTurns c.windings winder.rename l (c.members.zip c.virtualNames)) fun l' =>
          ({ back with turns := some l' }, .ok true)
      else
        orStop c (winder.turns c.windings sections layers) fun r =>
        ({ c with turns := r }, .ok r.isSome)

end Verif.WoundWith
